import Verif.Lemmas.GleStep
import Verif.Spec.Integrate

/-!
# Bounds for simulations, and their accelerations
-/

namespace Verif

open Finset

/-- A Runge-Kutta step for a slope that is bounded by `B` and within `η` of `g` near `y`. -/
theorem rk4_increment {W : Type*} [NormedAddCommGroup W] [NormedSpace ℝ W] {f : ℝ → W → W} {y g : W} {h B η : ℝ} (hh : 0 ≤ h)
    (hB : 0 ≤ B) (hf : ∀ c, 0 ≤ c → c ≤ 1 → ∀ z, ‖z - y‖ ≤ h * B → ‖f c z‖ ≤ B ∧ ‖f c z - g‖ ≤ η) :
    ‖Spec.rk4 h f y - y‖ ≤ h * B ∧ ‖Spec.rk4 h f y - y - h • g‖ ≤ h * η := by
  have near : ∀ a : ℝ, 0 ≤ a → a ≤ h → ∀ w : W, ‖w‖ ≤ B → ‖y + a • w - y‖ ≤ h * B := by
    intro a ha hah w hw
    rw [add_sub_cancel_left, norm_smul, Real.norm_eq_abs, abs_of_nonneg ha]
    gcongr
  obtain ⟨k1, hk1⟩ : ∃ k, k = f 0 y := ⟨_, rfl⟩
  obtain ⟨k2, hk2⟩ : ∃ k, k = f (1 / 2) (y + (h / 2) • k1) := ⟨_, rfl⟩
  obtain ⟨k3, hk3⟩ : ∃ k, k = f (1 / 2) (y + (h / 2) • k2) := ⟨_, rfl⟩
  obtain ⟨k4, hk4⟩ : ∃ k, k = f 1 (y + h • k3) := ⟨_, rfl⟩
  have b1 := hf 0 le_rfl zero_le_one y (by rw [sub_self, norm_zero]; positivity)
  rw [← hk1] at b1
  have b2 := hf (1 / 2) (by norm_num) (by norm_num) _ (near (h / 2) (by linarith) (by linarith) k1 b1.1)
  rw [← hk2] at b2
  have b3 := hf (1 / 2) (by norm_num) (by norm_num) _ (near (h / 2) (by linarith) (by linarith) k2 b2.1)
  rw [← hk3] at b3
  have b4 := hf 1 (by norm_num) le_rfl _ (near h hh le_rfl k3 b3.1)
  rw [← hk4] at b4
  have e : Spec.rk4 h f y = y + (h / 6) • (k1 + (2 : ℝ) • k2 + (2 : ℝ) • k3 + k4) := by
    rw [hk4, hk3, hk2, hk1]; rfl
  have avg : ∀ (a1 a2 a3 a4 : W) (β : ℝ), ‖a1‖ ≤ β → ‖a2‖ ≤ β → ‖a3‖ ≤ β → ‖a4‖ ≤ β →
      ‖(h / 6) • (a1 + (2 : ℝ) • a2 + (2 : ℝ) • a3 + a4)‖ ≤ h * β := by
    intro a1 a2 a3 a4 β h1 h2 h3 h4
    have n1 : ‖a1 + (2 : ℝ) • a2 + (2 : ℝ) • a3 + a4‖ ≤ β + 2 * β + 2 * β + β := by
      refine (norm_add_le _ _).trans (add_le_add ((norm_add_le _ _).trans (add_le_add ((norm_add_le _ _).trans (add_le_add h1 ?_)) ?_)) h4)
      · rw [norm_smul, Real.norm_eq_abs, abs_of_pos (by norm_num : (0 : ℝ) < 2)]; linarith
      · rw [norm_smul, Real.norm_eq_abs, abs_of_pos (by norm_num : (0 : ℝ) < 2)]; linarith
    rw [norm_smul, Real.norm_eq_abs, abs_of_nonneg (by linarith : 0 ≤ h / 6)]
    calc h / 6 * ‖a1 + (2 : ℝ) • a2 + (2 : ℝ) • a3 + a4‖ ≤ h / 6 * (β + 2 * β + 2 * β + β) := by gcongr
      _ = h * β := by ring
  refine ⟨?_, ?_⟩
  · rw [e, add_sub_cancel_left]
    exact avg _ _ _ _ _ b1.1 b2.1 b3.1 b4.1
  · have := avg (k1 - g) (k2 - g) (k3 - g) (k4 - g) η b1.2 b2.2 b3.2 b4.2
    refine le_trans (le_of_eq ?_) this
    congr 1
    rw [e]
    module

section
variable {d b : ℕ}

theorem trapz_next {V : Type*} [NormedAddCommGroup V] [NormedSpace ℝ V] {h B η : ℝ} (hh : 0 ≤ h) {t t' : ℕ → V} {m m' : ℕ}
    (hm : m' = m ∨ m' = m + 1) (hB : 0 ≤ B) (hη : ∀ j ≤ m, ‖t' j - t j‖ ≤ η) (ht : ∀ j ≤ m', ‖t' j‖ ≤ B) :
    ‖Spec.trapzRule h t' m' - Spec.trapzRule h t m‖ ≤ m * h * η + h * B := by
  have e1 : ‖Spec.trapzRule h t' m - Spec.trapzRule h t m‖ ≤ m * h * η := by
    rw [trapzRule_sub]
    exact norm_trapzRule_le hh hη
  rcases hm with rfl | rfl
  · have : 0 ≤ h * B := by positivity
    linarith
  · have e2 : Spec.trapzRule h t' (m + 1) - Spec.trapzRule h t m =
        (Spec.trapzRule h t' m - Spec.trapzRule h t m) + (h / 2) • (t' m + t' (m + 1)) := by
      rw [Spec.trapzRule, sum_range_succ, ← Spec.trapzRule]
      abel
    rw [e2]
    refine (norm_add_le _ _).trans (add_le_add e1 ?_)
    rw [norm_smul, Real.norm_eq_abs, abs_of_nonneg (by linarith : 0 ≤ h / 2)]
    have := (norm_add_le (t' m) (t' (m + 1))).trans (add_le_add (ht m (by omega)) (ht (m + 1) le_rfl))
    calc h / 2 * ‖t' m + t' (m + 1)‖ ≤ h / 2 * (B + B) := by gcongr
      _ = h * B := by ring

/-- Bounds for a simulation: force and functions of the memory bounded by `M` and `L`-Lipschitz on the ball of radius `R + 1`, where the
trajectory and the noise stay in the ball of radius `R`; kernel bounded by `M`; duration at most `S`. -/
structure Spec.Bounded (R M L S h : ℝ) (F : (Fin d → ℝ) → Fin d → ℝ) (E : (Fin d → ℝ) → (Fin d → ℝ) → Fin b → ℝ)
    (len : ℕ) (κ : ℕ → Matrix (Fin b) (Fin d) ℝ) (N : ℕ) (x v noise : ℕ → Fin d → ℝ) : Prop where
  hx : ∀ t < N, ‖x t‖ ≤ R
  hv : ∀ t < N, ‖v t‖ ≤ R
  noise : ∀ t < N, ‖noise t‖ ≤ R
  force : ∀ y, ‖y‖ ≤ R + 1 → ‖F y‖ ≤ M
  forceLip : ∀ y z, ‖y‖ ≤ R + 1 → ‖z‖ ≤ R + 1 → ‖F y - F z‖ ≤ L * ‖y - z‖
  memory : ∀ y w, ‖y‖ ≤ R + 1 → ‖w‖ ≤ R + 1 → ‖E y w‖ ≤ M
  memoryLip : ∀ y w z u, ‖y‖ ≤ R + 1 → ‖w‖ ≤ R + 1 → ‖z‖ ≤ R + 1 → ‖u‖ ≤ R + 1 → ‖E y w - E z u‖ ≤ L * ‖(y, w) - (z, u)‖
  kernel : ∀ j < len, ∀ k i, |κ j k i| ≤ M
  time : N * h ≤ S

variable {R M L S h : ℝ} {F : (Fin d → ℝ) → Fin d → ℝ} {E : (Fin d → ℝ) → (Fin d → ℝ) → Fin b → ℝ}
    {len : ℕ} {κ : ℕ → Matrix (Fin b) (Fin d) ℝ} {N : ℕ} {x v noise : ℕ → Fin d → ℝ}

/-- A bound of the slopes, and of their variation over one step divided by the length of the step. -/
def slopeBound (b : ℕ) (R M S : ℝ) : ℝ := M + 2 * R + 1 + S * (b * M * M)

def slopeVar (b : ℕ) (R M L S : ℝ) : ℝ :=
  slopeBound b R M S + L * slopeBound b R M S + S * (b * M * (L * slopeBound b R M S)) + 2 * (b * M * M)

/-- The memory force along a slowly varying history varies slowly. -/
theorem memory_step (hh : 0 ≤ h) (hM : 0 ≤ M) (hlen : 2 ≤ len) (hκ : ∀ j < len, ∀ k i, |κ j k i| ≤ M) {G G' : ℕ → Fin b → ℝ} {n : ℕ} {η : ℝ}
    (hn : n * h ≤ S) (hG' : ∀ j ≤ n + 1, ‖G' j‖ ≤ M) (hd : ∀ j ≤ n, ‖G' (j + 1) - G j‖ ≤ η) :
    ‖Spec.memory h len κ G' (n + 1) - Spec.memory h len κ G n‖ ≤ S * (b * M * η) + h * (b * M * M) := by
  have hη : 0 ≤ η := (norm_nonneg _).trans (hd 0 (Nat.zero_le _))
  unfold Spec.memory
  refine (trapz_next (B := b * M * M) (η := b * M * η) hh (by omega) (by positivity) (fun j hj => ?_) fun j hj => ?_).trans ?_
  · rw [← Matrix.sub_vecMul]
    refine (norm_vecMul_le hM (hκ j (by omega))).trans ?_
    have := hd (n - j) (by omega)
    rw [show n - j + 1 = n + 1 - j by omega] at this
    gcongr
  · refine (norm_vecMul_le hM (hκ j (by omega))).trans ?_
    have := hG' (n + 1 - j) (by omega)
    gcongr
  · have : ((min n (len - 1) : ℕ) : ℝ) * h ≤ S := by
      refine le_trans ?_ hn
      have : ((min n (len - 1) : ℕ) : ℝ) ≤ n := by exact_mod_cast min_le_left _ _
      gcongr
    gcongr

theorem memory_norm {Q : ℝ} (hh : 0 ≤ h) (hM : 0 ≤ M) (hlen : 2 ≤ len) (hκ : ∀ j < len, ∀ k i, |κ j k i| ≤ M) {G : ℕ → Fin b → ℝ}
    {n : ℕ} (hn : n * h ≤ S) (hG : ∀ j ≤ n, ‖G j‖ ≤ Q) : ‖Spec.memory h len κ G n‖ ≤ S * (b * M * Q) := by
  have hQ : 0 ≤ Q := (norm_nonneg _).trans (hG 0 (Nat.zero_le _))
  unfold Spec.memory
  refine (norm_trapzRule_le (c := b * M * Q) hh fun j hj => ?_).trans ?_
  · refine (norm_vecMul_le hM (hκ j (by omega))).trans ?_
    have := hG (n - j) (by omega)
    gcongr
  · have : ((min n (len - 1) : ℕ) : ℝ) * h ≤ S := by
      refine le_trans ?_ hn
      have : ((min n (len - 1) : ℕ) : ℝ) ≤ n := by exact_mod_cast min_le_left _ _
      gcongr
    gcongr

set_option maxHeartbeats 1000000 in
/-- Accelerations of a simulation, by central differences of the velocities. -/
theorem central_difference (hb : Spec.Bounded R M L S h F E len κ N x v noise) (hR : 0 ≤ R) (hM : 0 ≤ M) (hL : 0 ≤ L) (hh : 0 < h)
    (hsmall : h * slopeBound b R M S ≤ 1) (hlen : 2 ≤ len)
    {A : ℕ → Fin d → ℝ} (hA1 : ∀ n, 1 ≤ n → A n = Spec.memory h len κ (fun t => E (x t) (v t)) n)
    (hA0 : A 0 = (h / 2) • Matrix.vecMul (E (x 0) (v 0)) (κ 0))
    (step : ∀ n, n + 1 < N → (x (n + 1), v (n + 1)) = Spec.rk4 h (fun c (y : (Fin d → ℝ) × (Fin d → ℝ)) =>
      (y.2, F y.1 + noise (n + 1) - ((1 - c) • A n + c • Spec.memory h len κ
        (Function.update (fun t => E (x t) (v t)) (n + 1) (E y.1 y.2)) (n + 1)))) (x n, v n))
    {n : ℕ} (hn : n + 2 < N) :
    ‖(1 / (2 * h)) • (v (n + 2) - v n) - (F (x (n + 1)) - Spec.memory h len κ (fun t => E (x t) (v t)) (n + 1) +
      (1 / 2 : ℝ) • (noise (n + 1) + noise (n + 2)))‖ ≤ 2 * slopeVar b R M L S * h := by
  obtain ⟨K0, hK0⟩ : ∃ K0, K0 = slopeBound b R M S := ⟨_, rfl⟩
  obtain ⟨V, hV⟩ : ∃ V, V = slopeVar b R M L S := ⟨_, rfl⟩
  obtain ⟨H, hH⟩ : ∃ H : ℕ → Fin b → ℝ, H = fun t => E (x t) (v t) := ⟨_, rfl⟩
  have hNh : ∀ m, m ≤ N → m * h ≤ S := fun m hm => by
    refine le_trans ?_ hb.time
    have : (m : ℝ) ≤ N := by exact_mod_cast hm
    gcongr
  have hS : 0 ≤ S := by have := hNh 0 (Nat.zero_le _); simpa using this
  have hhS : h ≤ S := by have := hNh 1 (by omega); simpa using this
  have hK0' : K0 = M + 2 * R + 1 + S * (b * M * M) := hK0
  have hV' : V = K0 + L * K0 + S * (b * M * (L * K0)) + 2 * (b * M * M) := by rw [hV, slopeVar, ← hK0]
  have hK00 : 0 ≤ K0 := by rw [hK0']; positivity
  have q1 : 0 ≤ L * K0 := by positivity
  have q2 : 0 ≤ S * (b * M * (L * K0)) := by positivity
  have q3 : 0 ≤ b * M * M := by positivity
  rw [← hK0] at hsmall
  rw [← hV, ← hH]
  rw [← hH] at hA1
  simp only [← hH] at step
  have hx1 : ∀ t < N, ‖x t‖ ≤ R + 1 := fun t ht => (hb.hx t ht).trans (by linarith)
  have hv1 : ∀ t < N, ‖v t‖ ≤ R + 1 := fun t ht => (hb.hv t ht).trans (by linarith)
  have hHn : ∀ t < N, ‖H t‖ ≤ M := fun t ht => by rw [hH]; exact hb.memory _ _ (hx1 t ht) (hv1 t ht)
  have hAn : ∀ m < N, ‖A m‖ ≤ S * (b * M * M) ∧ ‖A m - Spec.memory h len κ H m‖ ≤ h * (b * M * M) := by
    intro m hm
    rcases Nat.eq_zero_or_pos m with rfl | c
    · have e0 : Spec.memory h len κ H 0 = 0 := by simp [Spec.memory, Spec.trapzRule]
      have e1 : ‖A 0‖ ≤ h * (b * M * M) := by
        rw [hA0, norm_smul, Real.norm_eq_abs, abs_of_pos (by linarith)]
        have h1 := norm_vecMul_le (e := E (x 0) (v 0)) hM (hb.kernel 0 (by omega))
        have h2 := hHn 0 hm
        rw [hH] at h2
        have h3 : ‖Matrix.vecMul (E (x 0) (v 0)) (κ 0)‖ ≤ b * M * M := h1.trans (by gcongr)
        have h4 := mul_le_mul_of_nonneg_left h3 (show 0 ≤ h / 2 by linarith)
        have h5 := mul_nonneg hh.le q3
        linarith
      refine ⟨e1.trans (by gcongr), ?_⟩
      rw [e0, sub_zero]
      exact e1
    · rw [hA1 m c]
      refine ⟨memory_norm hh.le hM hlen hb.kernel (hNh m hm.le) fun j hj => hHn j (by omega), ?_⟩
      rw [sub_self, norm_zero]
      positivity
  -- one step, assuming the earlier ones
  have key : ∀ m, m + 1 < N → (∀ j < m, ‖((x (j + 1), v (j + 1)) : _ × _) - (x j, v j)‖ ≤ h * K0) →
      ‖((x (m + 1), v (m + 1)) : _ × _) - (x m, v m)‖ ≤ h * K0 ∧
      ‖v (m + 1) - v m - h • (F (x m) + noise (m + 1) - Spec.memory h len κ H m)‖ ≤ h * (V * h) := by
    intro m hm hprev
    have hstate : ∀ z : (Fin d → ℝ) × (Fin d → ℝ), ‖z - (x m, v m)‖ ≤ h * K0 → ‖z.1‖ ≤ R + 1 ∧ ‖z.2‖ ≤ R + 1 := by
      intro z hz
      have h1 : ‖z.1 - x m‖ ≤ h * K0 := (norm_fst_le (z - (x m, v m))).trans hz
      have h2 : ‖z.2 - v m‖ ≤ h * K0 := (norm_snd_le (z - (x m, v m))).trans hz
      have h3 := norm_sub_norm_le z.1 (x m)
      have h4 := norm_sub_norm_le z.2 (v m)
      have h5 := hb.hx m (by omega)
      have h6 := hb.hv m (by omega)
      constructor <;> linarith
    have hHL : ∀ j < m, ‖H (j + 1) - H j‖ ≤ L * (h * K0) := by
      intro j hj
      rw [hH]
      refine (hb.memoryLip _ _ _ _ (hx1 _ (by omega)) (hv1 _ (by omega)) (hx1 _ (by omega)) (hv1 _ (by omega))).trans ?_
      have := hprev j hj
      gcongr
    have hupd : ∀ z : (Fin d → ℝ) × (Fin d → ℝ), ‖z - (x m, v m)‖ ≤ h * K0 →
        ‖Spec.memory h len κ (Function.update H (m + 1) (E z.1 z.2)) (m + 1)‖ ≤ S * (b * M * M) ∧
        ‖Spec.memory h len κ (Function.update H (m + 1) (E z.1 z.2)) (m + 1) - Spec.memory h len κ H m‖ ≤
          S * (b * M * (L * (h * K0))) + h * (b * M * M) := by
      intro z hz
      obtain ⟨z1, z2⟩ := hstate z hz
      have hn1 : ∀ j ≤ m + 1, ‖Function.update H (m + 1) (E z.1 z.2) j‖ ≤ M := by
        intro j hj
        rcases eq_or_ne j (m + 1) with rfl | c
        · rw [Function.update_self]; exact hb.memory _ _ z1 z2
        · rw [Function.update_of_ne c]; exact hHn j (by omega)
      refine ⟨memory_norm hh.le hM hlen hb.kernel (hNh (m + 1) (by omega)) hn1, ?_⟩
      refine memory_step hh.le hM hlen hb.kernel (hNh m (by omega)) hn1 fun j hj => ?_
      rcases eq_or_ne j m with rfl | c
      · rw [Function.update_self, hH]
        refine (hb.memoryLip _ _ _ _ z1 z2 (hx1 _ (by omega)) (hv1 _ (by omega))).trans ?_
        gcongr
      · rw [Function.update_of_ne (by omega)]
        exact hHL j (by omega)
    have hA := hAn m (by omega)
    have hno := hb.noise (m + 1) hm
    have rk := rk4_increment (y := ((x m, v m) : (Fin d → ℝ) × (Fin d → ℝ))) (B := K0) (η := V * h)
      (g := ((v m, F (x m) + noise (m + 1) - Spec.memory h len κ H m) : (Fin d → ℝ) × (Fin d → ℝ))) hh.le hK00
      (f := fun c (y : (Fin d → ℝ) × (Fin d → ℝ)) =>
        (y.2, F y.1 + noise (m + 1) - ((1 - c) • A m + c • Spec.memory h len κ
        (Function.update H (m + 1) (E y.1 y.2)) (m + 1)))) fun c c0 c1 z hz => ?_
    · rw [← step m hm] at rk
      refine ⟨rk.1, ?_⟩
      exact (norm_snd_le (((x (m + 1), v (m + 1)) : (Fin d → ℝ) × (Fin d → ℝ)) - (x m, v m) -
        h • (v m, F (x m) + noise (m + 1) - Spec.memory h len κ H m))).trans rk.2
    · obtain ⟨z1, z2⟩ := hstate z hz
      obtain ⟨u1, u2⟩ := hupd z hz
      obtain ⟨U, hU⟩ : ∃ U, U = Spec.memory h len κ (Function.update H (m + 1) (E z.1 z.2)) (m + 1) := ⟨_, rfl⟩
      rw [← hU] at u1 u2 ⊢
      constructor
      · refine max_le (z2.trans (by rw [hK0']; nlinarith [mul_nonneg hS q3])) ?_
        have w1 : ‖(1 - c) • A m + c • U‖ ≤ S * (b * M * M) := by
          refine (norm_add_le _ _).trans ?_
          rw [norm_smul, norm_smul, Real.norm_eq_abs, Real.norm_eq_abs, abs_of_nonneg c0, abs_of_nonneg (by linarith)]
          nlinarith [hA.1]
        have w2 := hb.force z.1 z1
        calc ‖F z.1 + noise (m + 1) - ((1 - c) • A m + c • U)‖ ≤ ‖F z.1‖ + ‖noise (m + 1)‖ + ‖(1 - c) • A m + c • U‖ :=
              (norm_sub_le _ _).trans (add_le_add (norm_add_le _ _) le_rfl)
          _ ≤ K0 := by rw [hK0']; linarith
      · refine max_le ((norm_snd_le (z - (x m, v m))).trans (hz.trans ?_)) ?_
        · rw [hV', mul_comm]
          gcongr
          linarith
        have e : F z.1 + noise (m + 1) - ((1 - c) • A m + c • U) - (F (x m) + noise (m + 1) - Spec.memory h len κ H m) =
            (F z.1 - F (x m)) - ((1 - c) • (A m - Spec.memory h len κ H m) + c • (U - Spec.memory h len κ H m)) := by module
        change ‖F z.1 + noise (m + 1) - ((1 - c) • A m + c • U) - (F (x m) + noise (m + 1) - Spec.memory h len κ H m)‖ ≤ V * h
        rw [e]
        have w1 : ‖(1 - c) • (A m - Spec.memory h len κ H m) + c • (U - Spec.memory h len κ H m)‖ ≤
            S * (b * M * (L * (h * K0))) + h * (b * M * M) := by
          refine (norm_add_le _ _).trans ?_
          rw [norm_smul, norm_smul, Real.norm_eq_abs, Real.norm_eq_abs, abs_of_nonneg c0, abs_of_nonneg (by linarith)]
          have : 0 ≤ S * (b * M * (L * (h * K0))) := by positivity
          nlinarith [hA.2]
        have w2 : ‖F z.1 - F (x m)‖ ≤ L * (h * K0) := by
          refine (hb.forceLip _ _ z1 (hx1 m (by omega))).trans ?_
          have : ‖z.1 - x m‖ ≤ h * K0 := (norm_fst_le (z - (x m, v m))).trans hz
          gcongr
        refine (norm_sub_le _ _).trans ((add_le_add w2 w1).trans ?_)
        rw [hV']
        nlinarith [mul_nonneg hh.le hK00, mul_nonneg hh.le q3]
  have all : ∀ m, m + 1 < N → ‖((x (m + 1), v (m + 1)) : _ × _) - (x m, v m)‖ ≤ h * K0 := by
    intro m
    induction m using Nat.strong_induction_on with
    | h m ih => exact fun hm => (key m hm fun j hj => ih j hj (by omega)).1
  have s1 := (key n (by omega) fun j hj => all j (by omega)).2
  have s2 := (key (n + 1) (by omega) fun j hj => all j (by omega)).2
  have hHL : ∀ j, j + 1 < N → ‖H (j + 1) - H j‖ ≤ L * (h * K0) := by
    intro j hj
    rw [hH]
    refine (hb.memoryLip _ _ _ _ (hx1 _ (by omega)) (hv1 _ (by omega)) (hx1 _ (by omega)) (hv1 _ (by omega))).trans ?_
    have := all j hj
    gcongr
  have s3 : ‖Spec.memory h len κ H (n + 1) - Spec.memory h len κ H n‖ ≤ S * (b * M * (L * (h * K0))) + h * (b * M * M) :=
    memory_step hh.le hM hlen hb.kernel (hNh n (by omega)) (fun j hj => hHn j (by omega)) fun j hj => hHL j (by omega)
  have s4 : ‖F (x (n + 1)) - F (x n)‖ ≤ L * (h * K0) := by
    refine (hb.forceLip _ _ (hx1 _ (by omega)) (hx1 _ (by omega))).trans ?_
    have : ‖x (n + 1) - x n‖ ≤ h * K0 := (norm_fst_le (((x (n + 1), v (n + 1)) : (Fin d → ℝ) × (Fin d → ℝ)) - (x n, v n))).trans (all n (by omega))
    gcongr
  have e : (1 / (2 * h)) • (v (n + 2) - v n) - (F (x (n + 1)) - Spec.memory h len κ H (n + 1) +
      (1 / 2 : ℝ) • (noise (n + 1) + noise (n + 2))) =
      (1 / (2 * h)) • (v (n + 1 + 1) - v (n + 1) - h • (F (x (n + 1)) + noise (n + 1 + 1) - Spec.memory h len κ H (n + 1))) +
      (1 / (2 * h)) • (v (n + 1) - v n - h • (F (x n) + noise (n + 1) - Spec.memory h len κ H n)) -
      (1 / 2 : ℝ) • (F (x (n + 1)) - F (x n)) + (1 / 2 : ℝ) • (Spec.memory h len κ H (n + 1) - Spec.memory h len κ H n) := by
    have : (1 / (2 * h)) * h = 1 / 2 := by field_simp
    simp only [smul_sub, smul_add, smul_smul, this]
    module
  have hq : ∀ u : Fin d → ℝ, ‖u‖ ≤ h * (V * h) → ‖(1 / (2 * h)) • u‖ ≤ V * h / 2 := by
    intro u hu
    rw [norm_smul, Real.norm_eq_abs, abs_of_pos (by positivity)]
    calc 1 / (2 * h) * ‖u‖ ≤ 1 / (2 * h) * (h * (V * h)) := by gcongr
      _ = V * h / 2 := by field_simp
  have hq2 : ∀ (u : Fin d → ℝ) (c : ℝ), ‖u‖ ≤ c → ‖(1 / 2 : ℝ) • u‖ ≤ c / 2 := by
    intro u c hu
    rw [norm_smul, Real.norm_eq_abs, abs_of_pos (by norm_num)]
    linarith
  rw [e]
  refine (norm_add_le _ _).trans ((add_le_add ((norm_sub_le _ _).trans (add_le_add ((norm_add_le _ _).trans (add_le_add (hq _ s2) (hq _ s1)))
    (hq2 _ _ s4))) (hq2 _ _ s3)).trans ?_)
  rw [hV']
  nlinarith [mul_nonneg hh.le hK00, mul_nonneg hh.le q3, mul_nonneg hh.le q1, mul_nonneg hh.le q2]

/-- A simulation with a force that grows at most linearly, and functions of the memory bounded by the velocity, is bounded. -/
theorem simulation_bounded {a a' R0 : ℝ} (ha : 0 ≤ a) (ha' : 0 ≤ a') (hR0 : 0 ≤ R0) (hM : 0 ≤ M) (hS : 0 ≤ S) :
    ∃ R δ : ℝ, 0 ≤ R ∧ 0 < δ ∧ ∀ (F : (Fin d → ℝ) → Fin d → ℝ) (E : (Fin d → ℝ) → (Fin d → ℝ) → Fin b → ℝ) (h : ℝ) (len N : ℕ)
      (κ : ℕ → Matrix (Fin b) (Fin d) ℝ) (x v noise A : ℕ → Fin d → ℝ),
      (∀ y, ‖F y‖ ≤ a * (1 + ‖y‖)) → (∀ y w, ‖E y w‖ ≤ a' * ‖w‖) → 0 < h → h ≤ δ → N * h ≤ S → 2 ≤ len →
      (∀ j < len, ∀ k i, |κ j k i| ≤ M) → ‖x 0‖ ≤ R0 → ‖v 0‖ ≤ R0 → (∀ n < N, ‖noise n‖ ≤ R0) →
      (∀ n, 1 ≤ n → A n = Spec.memory h len κ (fun t => E (x t) (v t)) n) →
      A 0 = (h / 2) • Matrix.vecMul (E (x 0) (v 0)) (κ 0) →
      (∀ n, n + 1 < N → (x (n + 1), v (n + 1)) = Spec.rk4 h (fun c (y : (Fin d → ℝ) × (Fin d → ℝ)) =>
      (y.2, F y.1 + noise (n + 1) - ((1 - c) • A n + c • Spec.memory h len κ
        (Function.update (fun t => E (x t) (v t)) (n + 1) (E y.1 y.2)) (n + 1)))) (x n, v n)) →
      ∀ n < N, ‖x n‖ ≤ R ∧ ‖v n‖ ≤ R := by
  obtain ⟨G, hG⟩ : ∃ G, G = 2 + 3 * a + R0 + S * (b * M * (a' * 2)) := ⟨_, rfl⟩
  have hG0 : 0 < G := by rw [hG]; positivity
  refine ⟨(R0 + 1) * Real.exp (G * S), 1 / G, by positivity, by positivity, ?_⟩
  intro F E h len N κ x v noise A hF hE hh hδ hN hlen hκ hx0 hv0 hno hA1 hA0 step
  have hhG : h * G ≤ 1 := by rwa [le_div_iff₀ hG0] at hδ
  obtain ⟨Z, hZ⟩ : ∃ Z : ℕ → ℝ, Z = fun n => (R0 + 1) * (1 + h * G) ^ n := ⟨_, rfl⟩
  have hZ1 : ∀ n, 1 ≤ Z n := fun n => by
    rw [hZ]
    have : 1 ≤ (1 + h * G) ^ n := one_le_pow₀ (by nlinarith [mul_pos hh hG0])
    beta_reduce
    nlinarith
  have hZm : ∀ i j, i ≤ j → Z i ≤ Z j := fun i j hij => by
    rw [hZ]
    have : (1 + h * G) ^ i ≤ (1 + h * G) ^ j := pow_le_pow_right₀ (by nlinarith [mul_pos hh hG0]) hij
    beta_reduce
    gcongr
  have hmh : ∀ m, m ≤ N → m * h ≤ S := fun m hm => by
    refine le_trans ?_ hN
    have : (m : ℝ) ≤ N := by exact_mod_cast hm
    gcongr
  have key : ∀ n < N, ‖((x n, v n) : (Fin d → ℝ) × (Fin d → ℝ))‖ ≤ Z n := by
    intro n
    induction n using Nat.strong_induction_on with
    | h n ih =>
      intro hn
      rcases n with _ | n
      · refine max_le (hx0.trans ?_) (hv0.trans ?_) <;> · rw [hZ]; simp
      · have hEn : ∀ j ≤ n, ‖E (x j) (v j)‖ ≤ a' * (2 * Z n) := fun j hj => by
          refine (hE _ _).trans ?_
          have h1 := (norm_snd_le ((x j, v j) : (Fin d → ℝ) × (Fin d → ℝ))).trans (ih j (by omega) (by omega))
          have h2 := hZm j n hj
          have h3 := hZ1 n
          have : ‖v j‖ ≤ 2 * Z n := by
            change ‖v j‖ ≤ _ at h1
            linarith
          gcongr
        have hhS : h ≤ S := by have := hmh 1 (by omega); simpa using this
        have hZn := hZ1 n
        have hAn : ‖A n‖ ≤ S * (b * M * (a' * (2 * Z n))) := by
          rcases Nat.eq_zero_or_pos n with rfl | c
          · rw [hA0, norm_smul, Real.norm_eq_abs, abs_of_pos (by linarith)]
            have h1 : ‖Matrix.vecMul (E (x 0) (v 0)) (κ 0)‖ ≤ b * M * (a' * (2 * Z 0)) := by
              refine (norm_vecMul_le hM (hκ 0 (by omega))).trans ?_
              have := hEn 0 le_rfl
              gcongr
            have : h / 2 ≤ S := by linarith
            gcongr
          · rw [hA1 n c]
            exact memory_norm hh.le hM hlen hκ (hmh n (by omega)) fun j hj => hEn j hj
        have rk := (rk4_increment (y := ((x n, v n) : (Fin d → ℝ) × (Fin d → ℝ))) (B := G * Z n) (η := G * Z n) (g := 0) hh.le (by positivity)
          (f := fun c (y : (Fin d → ℝ) × (Fin d → ℝ)) =>
            (y.2, F y.1 + noise (n + 1) - ((1 - c) • A n + c • Spec.memory h len κ
            (Function.update (fun t => E (x t) (v t)) (n + 1) (E y.1 y.2)) (n + 1)))) fun c c0 c1 z hz => ?_).1
        · rw [← step n hn] at rk
          have h1 := norm_sub_norm_le ((x (n + 1), v (n + 1)) : (Fin d → ℝ) × (Fin d → ℝ)) (x n, v n)
          have h2 := ih n (by omega) (by omega)
          have h3 : Z (n + 1) = Z n + h * (G * Z n) := by rw [hZ]; ring
          rw [h3]
          linarith
        · rw [sub_zero, and_self]
          have hz2 : ‖z‖ ≤ 2 * Z n := by
            have h1 := norm_sub_norm_le z (x n, v n)
            have h2 := ih n (by omega) (by omega)
            have h3 : h * (G * Z n) ≤ Z n := by
              rw [← mul_assoc]
              exact mul_le_of_le_one_left (by linarith) hhG
            linarith
          have z1 := (norm_fst_le z).trans hz2
          have z2 := (norm_snd_le z).trans hz2
          have hU : ‖Spec.memory h len κ (Function.update (fun t => E (x t) (v t)) (n + 1) (E z.1 z.2)) (n + 1)‖ ≤
              S * (b * M * (a' * (2 * Z n))) := by
            refine memory_norm hh.le hM hlen hκ (hmh (n + 1) (by omega)) fun j hj => ?_
            rcases eq_or_ne j (n + 1) with rfl | c
            · rw [Function.update_self]
              refine (hE _ _).trans ?_
              gcongr
            · rw [Function.update_of_ne c]
              exact hEn j (by omega)
          obtain ⟨U, hU'⟩ : ∃ U, U = Spec.memory h len κ (Function.update (fun t => E (x t) (v t)) (n + 1) (E z.1 z.2)) (n + 1) := ⟨_, rfl⟩
          rw [← hU'] at hU ⊢
          have p1 : 0 ≤ S * (b * M * (a' * (2 * Z n))) := (norm_nonneg _).trans hAn
          have p2 : G * Z n = 2 * Z n + 3 * a * Z n + R0 * Z n + S * (b * M * (a' * (2 * Z n))) := by rw [hG]; ring
          have p3 : 0 ≤ a * Z n := by positivity
          have p4 : 0 ≤ R0 * Z n := by positivity
          refine max_le (z2.trans (by rw [p2]; linarith)) ?_
          have w1 : ‖(1 - c) • A n + c • U‖ ≤ S * (b * M * (a' * (2 * Z n))) := by
            refine (norm_add_le _ _).trans ?_
            rw [norm_smul, norm_smul, Real.norm_eq_abs, Real.norm_eq_abs, abs_of_nonneg c0, abs_of_nonneg (by linarith)]
            nlinarith
          have w2 : ‖F z.1‖ ≤ 3 * a * Z n := by
            refine (hF z.1).trans ?_
            nlinarith
          have w3 : ‖noise (n + 1)‖ ≤ R0 * Z n := (hno _ hn).trans (by nlinarith)
          calc ‖F z.1 + noise (n + 1) - ((1 - c) • A n + c • U)‖ ≤ ‖F z.1‖ + ‖noise (n + 1)‖ + ‖(1 - c) • A n + c • U‖ :=
                (norm_sub_le _ _).trans (add_le_add (norm_add_le _ _) le_rfl)
            _ ≤ G * Z n := by rw [p2]; linarith
  intro n hn
  have h1 : Z n ≤ (R0 + 1) * Real.exp (G * S) := by
    rw [hZ]
    beta_reduce
    have h2 : (1 + h * G) ^ n ≤ Real.exp (G * S) := by
      calc (1 + h * G) ^ n ≤ (Real.exp (h * G)) ^ n := by
            have := Real.add_one_le_exp (h * G)
            have h3 := mul_pos hh hG0
            gcongr
            linarith
        _ = Real.exp (G * (n * h)) := by rw [← Real.exp_nat_mul]; congr 1; ring
        _ ≤ Real.exp (G * S) := by
            have := hmh n hn.le
            gcongr
    gcongr
  exact ⟨(norm_fst_le ((x n, v n) : (Fin d → ℝ) × (Fin d → ℝ))).trans ((key n hn).trans h1),
    (norm_snd_le ((x n, v n) : (Fin d → ℝ) × (Fin d → ℝ))).trans ((key n hn).trans h1)⟩

end

end Verif
