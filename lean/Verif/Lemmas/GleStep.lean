import Verif.Lemmas.GleRegular

/-!
# Errors of the memory force and of one step
-/

namespace Verif

open Finset Set

section
variable {d b : ℕ}

theorem norm_vecMul_le {e : Fin b → ℝ} {A : Matrix (Fin b) (Fin d) ℝ} {M : ℝ} (hM0 : 0 ≤ M) (hM : ∀ k i, |A k i| ≤ M) :
    ‖Matrix.vecMul e A‖ ≤ b * M * ‖e‖ := by
  refine (pi_norm_le_iff_of_nonneg (by positivity)).2 fun i => ?_
  simp only [Matrix.vecMul, dotProduct]
  refine (norm_sum_le _ _).trans ?_
  refine (Finset.sum_le_card_nsmul _ _ (M * ‖e‖) fun k _ => ?_).trans (by simp [mul_assoc])
  rw [norm_mul, mul_comm]
  exact mul_le_mul (hM k i) (norm_le_pi_norm e k) (norm_nonneg _) hM0

theorem norm_trapzRule_le {V : Type*} [NormedAddCommGroup V] [NormedSpace ℝ V] {h c : ℝ} (hh : 0 ≤ h) {f : ℕ → V} {n : ℕ}
    (hf : ∀ j ≤ n, ‖f j‖ ≤ c) : ‖Spec.trapzRule h f n‖ ≤ n * h * c := by
  unfold Spec.trapzRule
  refine (norm_sum_le _ _).trans ?_
  refine (Finset.sum_le_card_nsmul _ _ (h * c) fun j hj => ?_).trans (by simp [mul_assoc])
  have hj := Finset.mem_range.1 hj
  rw [norm_smul, Real.norm_eq_abs, abs_of_nonneg (show 0 ≤ h / 2 by linarith)]
  have := (norm_add_le (f j) (f (j + 1))).trans (add_le_add (hf j (by omega)) (hf (j + 1) (by omega)))
  calc h / 2 * ‖f j + f (j + 1)‖ ≤ h / 2 * (c + c) := by gcongr
    _ = h * c := by ring

theorem trapzRule_sub {V : Type*} [AddCommGroup V] [Module ℝ V] (h : ℝ) (f g : ℕ → V) (n : ℕ) :
    Spec.trapzRule h f n - Spec.trapzRule h g n = Spec.trapzRule h (fun j => f j - g j) n := by
  unfold Spec.trapzRule
  rw [← Finset.sum_sub_distrib]
  refine Finset.sum_congr rfl fun j _ => ?_
  module

theorem trapzRule_extend {V : Type*} [AddCommGroup V] [Module ℝ V] (h : ℝ) {f g : ℕ → V} {w n : ℕ} (hfg : ∀ j ≤ min n w, f j = g j)
    (h0 : w < n → ∀ j, w ≤ j → j ≤ n → g j = 0) : Spec.trapzRule h f (min n w) = Spec.trapzRule h g n := by
  unfold Spec.trapzRule
  have h1 : ∑ j ∈ range (min n w), (h / 2) • (f j + f (j + 1)) = ∑ j ∈ range (min n w), (h / 2) • (g j + g (j + 1)) :=
    Finset.sum_congr rfl fun j hj => by
      have := Finset.mem_range.1 hj
      rw [hfg j (by omega), hfg (j + 1) (by omega)]
  rw [h1]
  refine Finset.sum_subset (fun j hj => ?_) fun j hj hj' => ?_
  · have := Finset.mem_range.1 hj
    exact Finset.mem_range.2 (by omega)
  · have h2 := Finset.mem_range.1 hj
    have h3 : ¬ j < min n w := fun c => hj' (Finset.mem_range.2 c)
    rw [h0 (by omega) j (by omega) (by omega), h0 (by omega) (j + 1) (by omega) (by omega), add_zero, smul_zero]

/-- The trapezoidal memory force along the exact solution. -/
theorem mem_consistent {T R L S : ℝ} {F : (Fin d → ℝ) → Fin d → ℝ} {E : (Fin d → ℝ) → (Fin d → ℝ) → Fin b → ℝ}
    {κ κ' : ℝ → Matrix (Fin b) (Fin d) ℝ} {x v : ℝ → Fin d → ℝ} {e' : ℝ → Fin b → ℝ} (h : GleRegular T R L S F E κ x v e')
    (hκ : Spec.DerivOn T κ κ') (hκ' : Spec.Lip T κ') :
    ∃ Q : ℝ, 0 ≤ Q ∧ ∀ (h : ℝ) (n : ℕ), 0 ≤ h → n * h ≤ T →
      ‖Spec.trapzRule h (fun j => Matrix.vecMul (E (x ((n - j : ℕ) * h)) (v ((n - j : ℕ) * h))) (κ (j * h))) n -
        memForce E κ x v (n * h)‖ ≤ Q * h ^ 2 := by
  obtain ⟨Q, hQ0, hQ⟩ := trapz_consistent (l := 1) (A := fun t => fun (_ : Fin 1) k => E (x t) (v t) k)
    (A' := fun t => fun (_ : Fin 1) k => e' t k) (T := T) (fun t ht _ k => h.ed k t ht) ⟨L, fun s hs t ht _ k => h.eL k s hs t ht⟩ hκ hκ'
  refine ⟨Q, hQ0, fun τ n hτ hn => ?_⟩
  refine (pi_norm_le_iff_of_nonneg (by positivity)).2 fun i => ?_
  have h1 := hQ τ n hτ hn 0 i
  rw [Real.norm_eq_abs]
  refine le_trans (le_of_eq ?_) h1
  congr 1
  rw [Pi.sub_apply]
  congr 1
  · unfold Spec.trapzRule
    rw [Matrix.sum_apply, Finset.sum_apply]
    refine Finset.sum_congr rfl fun j _ => ?_
    rfl

/-- The memory force computed from a history with errors, and a kernel that has the values of `κ` on the grid. -/
theorem mem_error {T Q Mκ : ℝ} {E : (Fin d → ℝ) → (Fin d → ℝ) → Fin b → ℝ}
    {κ : ℝ → Matrix (Fin b) (Fin d) ℝ} {x v : ℝ → Fin d → ℝ} (hM0 : 0 ≤ Mκ) (hMκ : ∀ t ∈ Icc 0 T, ∀ k i, |κ t k i| ≤ Mκ)
    (hQ : ∀ (h : ℝ) (n : ℕ), 0 ≤ h → n * h ≤ T →
      ‖Spec.trapzRule h (fun j => Matrix.vecMul (E (x ((n - j : ℕ) * h)) (v ((n - j : ℕ) * h))) (κ (j * h))) n -
        memForce E κ x v (n * h)‖ ≤ Q * h ^ 2)
    {h : ℝ} (hh : 0 < h) {len : ℕ} (hlen : 1 ≤ len) {ker : ℕ → Matrix (Fin b) (Fin d) ℝ}
    (hker : ∀ j < len, j * h ≤ T → ker j = κ (j * h))
    (hcov : T ≤ (len - 1 : ℕ) * h ∨ ∀ s ∈ Icc 0 T, (len - 1 : ℕ) * h ≤ s → κ s = 0)
    {n : ℕ} (hn : n * h ≤ T) {hist : ℕ → Fin b → ℝ} {ε : ℝ}
    (hist_err : ∀ j ≤ n, ‖hist j - E (x (j * h)) (v (j * h))‖ ≤ ε) :
    ‖Spec.memory h len ker hist n - memForce E κ x v (n * h)‖ ≤ T * (b * Mκ) * ε + Q * h ^ 2 := by
  have hmono : ∀ j ≤ n, (j : ℝ) * h ≤ n * h := fun j hj => by
    have : (j : ℝ) ≤ n := by exact_mod_cast hj
    gcongr
  have hε : 0 ≤ ε := (norm_nonneg _).trans (hist_err 0 (Nat.zero_le _))
  have e1 : Spec.memory h len ker hist n = Spec.trapzRule h (fun j => Matrix.vecMul (hist (n - j)) (κ (j * h))) n := by
    unfold Spec.memory
    refine trapzRule_extend h (fun j hj => ?_) fun hw j hj hjn => ?_
    · rw [hker j (by omega) ((hmono j (by omega)).trans hn)]
    · rcases hcov with c | c
      · exfalso
        have : (n : ℝ) * h ≤ (len - 1 : ℕ) * h := hn.trans c
        have h2 : (n : ℝ) ≤ (len - 1 : ℕ) := le_of_mul_le_mul_right this hh
        have h3 : n ≤ len - 1 := by exact_mod_cast h2
        omega
      · have h2 : ((len - 1 : ℕ) : ℝ) ≤ j := by exact_mod_cast hj
        rw [c _ ⟨by positivity, (hmono j hjn).trans hn⟩ (by gcongr), Matrix.vecMul_zero]
  have e2 : Spec.memory h len ker hist n - memForce E κ x v (n * h) =
      Spec.trapzRule h (fun j => Matrix.vecMul (hist (n - j) - E (x ((n - j : ℕ) * h)) (v ((n - j : ℕ) * h))) (κ (j * h))) n +
      (Spec.trapzRule h (fun j => Matrix.vecMul (E (x ((n - j : ℕ) * h)) (v ((n - j : ℕ) * h))) (κ (j * h))) n -
        memForce E κ x v (n * h)) := by
    simp only [Matrix.sub_vecMul]
    rw [← trapzRule_sub, e1]
    abel
  rw [e2]
  refine (norm_add_le _ _).trans (add_le_add ?_ (hQ h n hh.le hn))
  have := norm_trapzRule_le (c := b * Mκ * ε) hh.le (n := n)
    (f := fun j => Matrix.vecMul (hist (n - j) - E (x ((n - j : ℕ) * h)) (v ((n - j : ℕ) * h))) (κ (j * h))) fun j hj => by
      refine (norm_vecMul_le hM0 (hMκ _ ⟨by positivity, (hmono j hj).trans hn⟩)).trans ?_
      have := hist_err (n - j) (by omega)
      gcongr
  refine this.trans ?_
  rw [mul_assoc T]
  gcongr

set_option maxHeartbeats 1000000 in
/-- One step from near the exact solution. `A` is the memory force used at the beginning of the step and `B` the one
at its end, as a function of the state at the end. -/
theorem gle_step {T R L S Mb LF LE a0 a1 h t : ℝ} {F : (Fin d → ℝ) → Fin d → ℝ} {E : (Fin d → ℝ) → (Fin d → ℝ) → Fin b → ℝ}
    {κ : ℝ → Matrix (Fin b) (Fin d) ℝ} {x v : ℝ → Fin d → ℝ} {e' : ℝ → Fin b → ℝ} (hg : Spec.Gle T F E κ x v)
    (hr : GleRegular T R L S F E κ x v e') (hR : 0 ≤ R) (hL : 0 ≤ L) (hS : 0 ≤ S) (hMb : 0 ≤ Mb) (hLF : 0 ≤ LF) (hLE : 0 ≤ LE)
    (ha0 : 0 ≤ a0) (ha1 : 0 ≤ a1) (hh : 0 ≤ h) (hh1 : h ≤ 1) (ht : 0 ≤ t) (hT : t + h ≤ T)
    (lF : ∀ y z : Fin d → ℝ, ‖y‖ ≤ R + 1 → ‖z‖ ≤ R + 1 → ‖F y - F z‖ ≤ LF * ‖y - z‖)
    {A : Fin d → ℝ} {B : (Fin d → ℝ) × (Fin d → ℝ) → Fin d → ℝ} (hA : ‖A - memForce E κ x v t‖ ≤ a0)
    (hB : ∀ z : (Fin d → ℝ) × (Fin d → ℝ), ‖z‖ ≤ R + 1 →
      ‖B z - memForce E κ x v (t + h)‖ ≤ a1 + h * (Mb * LE) * ‖z - (x (t + h), v (t + h))‖)
    {y : (Fin d → ℝ) × (Fin d → ℝ)}
    (hsmall : (1 + (1 + LF + Mb * LE)) ^ 3 * (‖y - (x t, v t)‖ + (a0 + a1 + (Mb * LE * L + S) * h ^ 2) + L * h ^ 2) ≤ 1) :
    ‖Spec.rk4 h (fun c (y : (Fin d → ℝ) × (Fin d → ℝ)) => (y.2, F y.1 + 0 - ((1 - c) • A + c • B y))) y - (x (t + h), v (t + h))‖ ≤
      ‖y - (x t, v t)‖ + h * ((1 + (1 + LF + Mb * LE)) ^ 4 *
        (‖y - (x t, v t)‖ + (a0 + a1 + (Mb * LE * L + S) * h ^ 2) + L * h ^ 2)) + S * h ^ 3 := by
  have m0 : t ∈ Icc 0 T := ⟨ht, by linarith⟩
  have mm : t + h / 2 ∈ Icc 0 T := ⟨by linarith, by linarith⟩
  have m1 : t + h ∈ Icc 0 T := ⟨by linarith, hT⟩
  have nX : ∀ τ ∈ Icc 0 T, ‖(x τ, v τ)‖ ≤ R := fun τ hτ => norm_prod_le_iff.2
    ⟨(pi_norm_le_iff_of_nonneg hR).2 (hr.xR τ hτ), (pi_norm_le_iff_of_nonneg hR).2 (hr.vR τ hτ)⟩
  have dX : ∀ τ ∈ Icc 0 T, ∀ σ ∈ Icc 0 T, ‖(x τ, v τ) - (x σ, v σ)‖ ≤ L * |τ - σ| := fun τ hτ σ hσ => norm_prod_le_iff.2
    ⟨(pi_norm_le_iff_of_nonneg (by positivity)).2 fun i => hr.xL i τ hτ σ hσ,
      (pi_norm_le_iff_of_nonneg (by positivity)).2 fun i => hr.vL i τ hτ σ hσ⟩
  have stage : ∀ c : ℝ, 0 ≤ c → c ≤ 1 → t + c * h ∈ Icc 0 T →
      ‖(1 - c) • memForce E κ x v t + c • memForce E κ x v (t + h) - memForce E κ x v (t + c * h)‖ ≤ S * h ^ 2 →
      ∀ z : (Fin d → ℝ) × (Fin d → ℝ), ‖z - (x (t + c * h), v (t + c * h))‖ ≤ 1 →
      ‖((z.2, F z.1 + 0 - ((1 - c) • A + c • B z)) : (Fin d → ℝ) × (Fin d → ℝ)) -
          (v (t + c * h), fun i => F (x (t + c * h)) i - memForce E κ x v (t + c * h) i)‖ ≤
        (1 + LF + Mb * LE) * ‖z - (x (t + c * h), v (t + c * h))‖ + (a0 + a1 + (Mb * LE * L + S) * h ^ 2) := by
    intro c hc hc1 hτ hm z hz
    obtain ⟨τ, hτd⟩ : ∃ τ, τ = t + c * h := ⟨_, rfl⟩
    rw [← hτd] at hτ hm hz ⊢
    have hzR : ‖z‖ ≤ R + 1 := by
      have := norm_add_le (z - (x τ, v τ)) (x τ, v τ)
      rw [sub_add_cancel] at this
      linarith [nX τ hτ]
    obtain ⟨ζ, hζ⟩ : ∃ ζ, ζ = ‖z - (x τ, v τ)‖ := ⟨_, rfl⟩
    have hζ0 : 0 ≤ ζ := hζ ▸ norm_nonneg _
    rw [← hζ]
    have hz1 : ‖z - (x (t + h), v (t + h))‖ ≤ ζ + L * h := by
      have h1 : z - (x (t + h), v (t + h)) = (z - (x τ, v τ)) + ((x τ, v τ) - (x (t + h), v (t + h))) := by abel
      have h2 : |τ - (t + h)| ≤ h := by
        rw [hτd, abs_sub_comm, show t + h - (t + c * h) = (1 - c) * h by ring, abs_of_nonneg (mul_nonneg (by linarith) hh)]
        nlinarith
      rw [h1, hζ]
      exact (norm_add_le _ _).trans (add_le_add le_rfl ((dX τ hτ _ m1).trans (by gcongr)))
    have hp : 0 ≤ Mb * LE := by positivity
    refine norm_prod_le_iff.2 ⟨?_, ?_⟩
    · have h1 : ‖z.2 - v τ‖ ≤ ζ := hζ ▸ (norm_snd_le (z - (x τ, v τ)))
      have h2 : 0 ≤ (Mb * LE * L + S) * h ^ 2 := by positivity
      have h3 : 0 ≤ (LF + Mb * LE) * ζ := by positivity
      refine h1.trans ?_
      nlinarith
    · have e : F z.1 + 0 - ((1 - c) • A + c • B z) - (fun i => F (x τ) i - memForce E κ x v τ i) =
          (F z.1 - F (x τ)) - (1 - c) • (A - memForce E κ x v t) - c • (B z - memForce E κ x v (t + h)) -
            ((1 - c) • memForce E κ x v t + c • memForce E κ x v (t + h) - memForce E κ x v τ) := by
        have : (fun i => F (x τ) i - memForce E κ x v τ i) = F (x τ) - memForce E κ x v τ := rfl
        rw [this]
        module
      change ‖F z.1 + 0 - ((1 - c) • A + c • B z) - (fun i => F (x τ) i - memForce E κ x v τ i)‖ ≤ _
      rw [e]
      have f1 : ‖F z.1 - F (x τ)‖ ≤ LF * ζ := by
        refine (lF _ _ ((norm_fst_le z).trans hzR) ((norm_fst_le (x τ, v τ)).trans ((nX τ hτ).trans (by linarith)))).trans ?_
        have : ‖z.1 - x τ‖ ≤ ζ := hζ ▸ (norm_fst_le (z - (x τ, v τ)))
        gcongr
      have f2 : ‖(1 - c) • (A - memForce E κ x v t)‖ ≤ a0 := by
        rw [norm_smul, Real.norm_eq_abs, abs_of_nonneg (by linarith)]
        exact (mul_le_of_le_one_left (norm_nonneg _) (by linarith)).trans hA
      have f3 : ‖c • (B z - memForce E κ x v (t + h))‖ ≤ a1 + Mb * LE * ζ + Mb * LE * L * h ^ 2 := by
        rw [norm_smul, Real.norm_eq_abs, abs_of_nonneg hc]
        refine (mul_le_of_le_one_left (norm_nonneg _) hc1).trans ((hB z hzR).trans ?_)
        have h1 : h * (Mb * LE) * ‖z - (x (t + h), v (t + h))‖ ≤ h * (Mb * LE) * (ζ + L * h) := by gcongr
        have h2 : h * (Mb * LE) * ζ ≤ 1 * (Mb * LE) * ζ := by gcongr
        nlinarith
      have g1 := norm_sub_le (F z.1 - F (x τ) - (1 - c) • (A - memForce E κ x v t) - c • (B z - memForce E κ x v (t + h)))
        ((1 - c) • memForce E κ x v t + c • memForce E κ x v (t + h) - memForce E κ x v τ)
      have g2 := norm_sub_le (F z.1 - F (x τ) - (1 - c) • (A - memForce E κ x v t)) (c • (B z - memForce E κ x v (t + h)))
      have g3 := norm_sub_le (F z.1 - F (x τ)) ((1 - c) • (A - memForce E κ x v t))
      have k1 : (1 + LF + Mb * LE) * ζ = ζ + LF * ζ + Mb * LE * ζ := by ring
      have k2 : (Mb * LE * L + S) * h ^ 2 = Mb * LE * L * h ^ 2 + S * h ^ 2 := by ring
      rw [k1, k2]
      linarith only [g1, g2, g3, f1, f2, f3, hm, hζ0]
  have ex : ∀ τ, (fun i => F (x τ) i - memForce E κ x v τ i) = F (x τ) - memForce E κ x v τ := fun _ => rfl
  have hSh : 0 ≤ S * h ^ 2 := by positivity
  have s0 := stage 0 le_rfl zero_le_one (by simpa using m0) (by simpa using hSh)
  have s1 := stage 1 zero_le_one le_rfl (by simpa using m1) (by simpa using hSh)
  have sm := stage (1 / 2) (by norm_num) (by norm_num) (by rw [show t + 1 / 2 * h = t + h / 2 by ring]; exact mm) (by
    refine (pi_norm_le_iff_of_nonneg hSh).2 fun i => ?_
    have := hr.mS i t (h / 2) ht (by linarith) (by linarith)
    rw [show t + 2 * (h / 2) = t + h by ring] at this
    simp only [Pi.sub_apply, Pi.add_apply, Pi.smul_apply, smul_eq_mul, Real.norm_eq_abs]
    rw [show t + 1 / 2 * h = t + h / 2 by ring, show (1 - 1 / 2) * memForce E κ x v t i + 1 / 2 * memForce E κ x v (t + h) i -
      memForce E κ x v (t + h / 2) i = 1 / 2 * (memForce E κ x v (t + h) i - 2 * memForce E κ x v (t + h / 2) i + memForce E κ x v t i) by ring,
      abs_mul, abs_of_pos (by norm_num : (0 : ℝ) < 1 / 2)]
    nlinarith [this])
  rw [show t + 0 * h = t by ring] at s0
  rw [show t + 1 * h = t + h by ring] at s1
  rw [show t + 1 / 2 * h = t + h / 2 by ring] at sm
  have hLh : 0 ≤ L * h ^ 2 := by positivity
  -- Taylor formulas, on the components
  have ta : ∀ {g g' : ℝ → ℝ} {a r σ : ℝ}, (∀ t ∈ Icc 0 T, HasDerivWithinAt g (g' t) (Icc 0 T) t) → LipOn T L g' → 0 ≤ a → a ≤ h →
      r ∈ Icc 0 T → |t - r| ≤ h → |t + a - r| ≤ h → σ = t + a → |g t + a * g' r - g σ| ≤ L * h ^ 2 := by
    intro g g' a r σ hd hl ha hah hrT h1 h2 hσ
    have := taylor_one hL hd hl (s := t) (t := t + a) (r := r) (w := h) m0 ⟨by linarith, by linarith⟩ hrT h1 h2
    rw [add_sub_cancel_left, abs_of_nonneg ha] at this
    rw [hσ, abs_sub_comm, show g (t + a) - (g t + a * g' r) = g (t + a) - g t - g' r * a by ring]
    refine this.trans ?_
    have : L * h * a ≤ L * h * h := by gcongr
    nlinarith
  have comp : ∀ {a r σ : ℝ}, 0 ≤ a → a ≤ h → r ∈ Icc 0 T → |t - r| ≤ h → |t + a - r| ≤ h → σ = t + a →
      ‖(x t, v t) + a • (v r, fun i => F (x r) i - memForce E κ x v r i) - (x σ, v σ)‖ ≤ L * h ^ 2 := by
    intro a r σ ha hah hrT h1 h2 hσ
    refine norm_prod_le_iff.2 ⟨(pi_norm_le_iff_of_nonneg hLh).2 fun i => ?_, (pi_norm_le_iff_of_nonneg hLh).2 fun i => ?_⟩
    · exact ta (g := fun t => x t i) (g' := fun t => v t i) (fun t ht => hg.pos t ht i) (hr.vL i) ha hah hrT h1 h2 hσ
    · exact ta (g := fun t => v t i) (g' := fun t => F (x t) i - memForce E κ x v t i) (fun t ht => hg.vel t ht i) (hr.aL i) ha hah hrT h1 h2 hσ
  have b0 : |t - t| ≤ h := by simpa using hh
  have b1 : |t - (t + h / 2)| ≤ h := by rw [abs_sub_comm, add_sub_cancel_left, abs_of_nonneg] <;> linarith
  have t1 := comp (a := h / 2) (r := t) (σ := t + h / 2) (by linarith) (by linarith) m0 b0 (by rw [add_sub_cancel_left, abs_of_nonneg] <;> linarith) rfl
  have t2 := comp (a := h / 2) (r := t + h / 2) (σ := t + h / 2) (by linarith) (by linarith) mm b1 (by simpa using hh) rfl
  have t3 := comp (a := h) (r := t + h / 2) (σ := t + h) hh le_rfl mm b1
    (by rw [show t + h - (t + h / 2) = h / 2 by ring, abs_of_nonneg] <;> linarith) rfl
  have hSh3 : 0 ≤ S * h ^ 3 := by positivity
  have t4 : ‖(x t, v t) + (h / 6) • ((v t, fun i => F (x t) i - memForce E κ x v t i) + (4 : ℝ) • (v (t + h / 2), fun i => F (x (t + h / 2)) i - memForce E κ x v (t + h / 2) i) +
      (v (t + h), fun i => F (x (t + h)) i - memForce E κ x v (t + h) i)) - (x (t + h), v (t + h))‖ ≤ S * h ^ 3 := by
    refine norm_prod_le_iff.2 ⟨(pi_norm_le_iff_of_nonneg hSh3).2 fun i => ?_, (pi_norm_le_iff_of_nonneg hSh3).2 fun i => ?_⟩
    · exact simpson_step hS (fun t ht => hg.pos t ht i) (hr.vL i) (hr.vS i) ht hh hT
    · exact simpson_step hS (fun t ht => hg.vel t ht i) (hr.aL i) (hr.aS i) ht hh hT
  have hδ : 0 ≤ a0 + a1 + (Mb * LE * L + S) * h ^ 2 := by positivity
  refine rk4_error (r := 1) hh hh1 (by positivity) hδ hLh (fun z hz => s0 z hz) (fun z hz => sm z hz) (fun z hz => s1 z hz) t1 t2 t3 t4 hsmall

end

end Verif
