import Verif.Lemmas.NoisyStep
import Verif.Props.ConvergeGle
import Verif.Props.TrueNoise

/-!
# Convergence of `Integrator_gle.run` with noise and with an approximate model (C148)
-/

namespace Verif

open Finset Set

section
variable {d b nB nD : ℕ}

/-- The integrator `I` holds the terms of the equation up to errors `ε`: the force `F` and the functions `E` of the memory,
at distance at most one of the solution, and the values of the kernel `κ` on its grid, which covers `[0, T]` or goes up to a
time after which `κ` is at most `ε`. -/
structure NearGle (T ε : ℝ) (F : (Fin d → ℝ) → Fin d → ℝ) (E : (Fin d → ℝ) → (Fin d → ℝ) → Fin b → ℝ)
    (κ : ℝ → Matrix (Fin b) (Fin d) ℝ) (x v : ℝ → Fin d → ℝ) (I : Integrator ℝ d nB nD b) : Prop where
  force : ∀ t ∈ Icc 0 T, ∀ y : Fin d → ℝ, (∀ i, |y i - x t i| ≤ 1) → ∀ i, |Matrix.vecMul (I.basis y) I.forceCoeff i - F y i| ≤ ε
  funs : ∀ t ∈ Icc 0 T, ∀ y w : Fin d → ℝ, (∀ i, |y i - x t i| ≤ 1) → (∀ i, |w i - v t i| ≤ 1) →
    ∀ k, |I.proj.mulVec (I.vec y w) k - E y w k| ≤ ε
  len : 2 ≤ I.kernel.len
  kernel : ∀ j < I.kernel.len, j * I.dt ≤ T → ∀ k i, |I.kernel.get j k i - κ (j * I.dt) k i| ≤ ε
  cover : T ≤ (I.kernel.len - 1 : ℕ) * I.dt ∨ ∀ s ∈ Icc 0 T, (I.kernel.len - 1 : ℕ) * I.dt ≤ s → ∀ k i, |κ s k i| ≤ ε

theorem HoldsGle.near {T : ℝ} {F : (Fin d → ℝ) → Fin d → ℝ} {E : (Fin d → ℝ) → (Fin d → ℝ) → Fin b → ℝ}
    {κ : ℝ → Matrix (Fin b) (Fin d) ℝ} {I : Integrator ℝ d nB nD b} (h : HoldsGle T F E κ I) (x v : ℝ → Fin d → ℝ) :
    NearGle T 0 F E κ x v I where
  force t _ y _ i := by rw [h.force]; simp
  funs t _ y w _ _ k := by rw [h.funs]; simp
  len := h.len
  kernel j hj hT k i := by rw [h.kernel j hj hT]; simp
  cover := h.cover.imp id fun c s hs hl k i => by rw [c s hs hl]; simp

set_option maxHeartbeats 2000000 in
/-- **C148** If the force, the functions of the memory, the kernel, the initial rows and the values of the noise of the
integrator are within `ε` of those of a generalised Langevin equation with a Lipschitz noise, the rows computed by `run`
are within `C (dt + ε)` of the solution of the equation, with the same `C` for all small `dt` and `ε`. -/
theorem C148_run_noise {T : ℝ} {F : (Fin d → ℝ) → Fin d → ℝ} {E : (Fin d → ℝ) → (Fin d → ℝ) → Fin b → ℝ}
    {κ : ℝ → Matrix (Fin b) (Fin d) ℝ} {ξ x v : ℝ → Fin d → ℝ} (hg : Spec.NoisyGle T F E κ ξ x v) (hF : ContDiff ℝ 1 F)
    (hE : ContDiff ℝ 1 (fun y : (Fin d → ℝ) × (Fin d → ℝ) => E y.1 y.2)) (hκ : Spec.Lip T κ) (hξ : Spec.Lip T (Spec.rowMat ξ)) :
    ∃ C δ : ℝ, 0 < δ ∧ ∀ (nB nD : ℕ) (I : Integrator ℝ d nB nD b) (nSteps : ℕ) (D : InitData ℝ d) (noise : ℕ → Fin d → ℝ) (ε : ℝ),
      0 < I.dt → I.dt ≤ δ → 0 ≤ ε → ε ≤ δ → (nSteps - 1 : ℕ) * I.dt ≤ T → NearGle T ε F E κ x v I → 1 ≤ D.n → D.n ≤ nSteps →
      (∀ t < D.n, D.time t = t * I.dt ∧ ∀ i, |D.x t i - x (t * I.dt) i| ≤ ε ∧ |D.v t i - v (t * I.dt) i| ≤ ε) →
      (∀ n < nSteps, ∀ i, |noise n i - ξ (n * I.dt) i| ≤ ε) →
      ∃ trj, I.run nSteps (some D) noise = .ok trj ∧ ∀ n < nSteps, ∀ i,
        |trj.x n i - x (n * I.dt) i| ≤ C * (I.dt + ε) ∧ |trj.v n i - v (n * I.dt) i| ≤ C * (I.dt + ε) := by
  rcases lt_or_ge T 0 with hT | hT
  · refine ⟨0, 1, one_pos, fun nB nD I nSteps D noise ε h1 _ _ _ h3 _ _ _ _ _ => ?_⟩
    have : 0 ≤ ((nSteps - 1 : ℕ) : ℝ) * I.dt := by positivity
    linarith
  obtain ⟨Lξ, hLξ0, hLξ⟩ : ∃ L, 0 ≤ L ∧ ∀ i, LipOn T L (fun t => ξ t i) := by
    obtain ⟨L, hL⟩ := hξ
    exact ⟨|L|, abs_nonneg _, fun i s hs t ht => (hL s hs t ht 0 i).trans (by gcongr; exact le_abs_self L)⟩
  obtain ⟨R, L, M, hR, hL, hM, hr⟩ := noisy_regular hT hg hF hE hκ hLξ0 hLξ
  obtain ⟨LF, hLF0, hLF⟩ := lip_ball hF (R + 1)
  obtain ⟨LE, hLE0, hLE⟩ := lip_ball hE (R + 1)
  obtain ⟨c0, hc0⟩ : ∃ c0 : ℝ, c0 = T * (b * M * LE) := ⟨_, rfl⟩
  have hc00 : 0 ≤ c0 := by rw [hc0]; positivity
  obtain ⟨c1, hc1⟩ : ∃ c1 : ℝ, c1 = T * (b * (3 * M + 1 + LE)) + T * (b * (2 * (L * M))) + b * (M + 1) * (2 * M + LE + 1) := ⟨_, rfl⟩
  have hc10 : 0 ≤ c1 := by rw [hc1]; positivity
  obtain ⟨G, hG⟩ : ∃ G : ℝ, G = 1 + (1 + LF) := ⟨_, rfl⟩
  have hG0 : 0 ≤ G := by rw [hG]; positivity
  obtain ⟨c2, hc2⟩ : ∃ c2 : ℝ, c2 = 2 * c1 + 2 + 4 * L := ⟨_, rfl⟩
  have hc20 : 0 ≤ c2 := by rw [hc2]; positivity
  obtain ⟨g, hgr⟩ : ∃ g : ℝ, g = G ^ 4 * (1 + 2 * c0) := ⟨_, rfl⟩
  have hg0 : 0 ≤ g := by rw [hgr]; positivity
  obtain ⟨γ, hγ⟩ : ∃ γ : ℝ, γ = G ^ 4 * c2 + L := ⟨_, rfl⟩
  have hγ0 : 0 ≤ γ := by rw [hγ]; positivity
  obtain ⟨C, hC⟩ : ∃ C : ℝ, C = (1 + T * γ) * Real.exp (g * T) := ⟨_, rfl⟩
  have hC0 : 0 ≤ C := by rw [hC]; positivity
  obtain ⟨K, hK⟩ : ∃ K : ℝ, K = 1 + G ^ 3 * ((1 + 2 * c0) * C + c2) + C := ⟨_, rfl⟩
  have hK1 : 1 ≤ K := by
    have : 0 ≤ G ^ 3 * ((1 + 2 * c0) * C + c2) := by positivity
    rw [hK]
    linarith
  refine ⟨C, 1 / (2 * K), by positivity, fun nB nD I nSteps D noise ε hdt hδ hε hεδ hTn hI hn1 hn2 hD hno => ?_⟩
  obtain ⟨h, hh⟩ : ∃ h, h = I.dt := ⟨_, rfl⟩
  rw [← hh] at hdt hδ hTn hD hno ⊢
  have hKs : K * (h + ε) ≤ 1 := by
    rw [le_div_iff₀ (by linarith)] at hδ hεδ
    linarith
  have hs1 : h + ε ≤ 1 := (le_mul_of_one_le_left (by linarith) hK1).trans hKs
  have hh1 : h ≤ 1 := by linarith
  have hε1 : ε ≤ 1 := by linarith
  have hh2 : h ^ 2 ≤ h := by
    rw [sq]
    exact mul_le_of_le_one_left hdt.le hh1
  have hCs : C * (h + ε) ≤ 1 := by
    have : C ≤ K := by
      have : 0 ≤ G ^ 3 * ((1 + 2 * c0) * C + c2) := by positivity
      rw [hK]
      linarith
    exact le_trans (by gcongr) hKs
  have hex := I.run_ok (nSteps := nSteps) (x0 := some D) noise hI.len hn1 hn2 (by
    rintro D' hD' t ht
    obtain rfl : D = D' := by simpa using hD'
    rw [← hh]
    exact (hD t ht).1)
  obtain ⟨trj, htrj⟩ := hex
  refine ⟨trj, htrj, ?_⟩
  have hinit := ((C67_initial htrj).2.1 D rfl).2
  obtain ⟨e, he⟩ : ∃ e : ℕ → ℝ, e = fun n : ℕ => ‖(trj.x n, trj.v n) - (x (n * h), v (n * h))‖ := ⟨_, rfl⟩
  have he0 : ∀ n, 0 ≤ e n := fun n => by rw [he]; exact norm_nonneg _
  have heD : ∀ n < D.n, e n ≤ ε := by
    intro n hn
    rw [he]
    simp only
    rw [(hinit n hn).1, (hinit n hn).2]
    exact norm_prod_le_iff.2 ⟨(pi_norm_le_iff_of_nonneg hε).2 fun i => ((hD n hn).2 i).1,
      (pi_norm_le_iff_of_nonneg hε).2 fun i => ((hD n hn).2 i).2⟩
  have hNT : ∀ n < nSteps, (n : ℝ) * h ≤ T := by
    intro n hn
    have : (n : ℝ) ≤ (nSteps - 1 : ℕ) := by exact_mod_cast (by omega)
    exact le_trans (by gcongr) hTn
  have hmem : ∀ n < nSteps, (n : ℝ) * h ∈ Icc 0 T := fun n hn => ⟨by positivity, hNT n hn⟩
  have nX : ∀ τ ∈ Icc 0 T, ‖(x τ, v τ)‖ ≤ R := fun τ hτ => norm_prod_le_iff.2
    ⟨(pi_norm_le_iff_of_nonneg hR).2 (hr.xR τ hτ), (pi_norm_le_iff_of_nonneg hR).2 (hr.vR τ hτ)⟩
  have nE : ∀ τ ∈ Icc 0 T, ‖E (x τ) (v τ)‖ ≤ M := fun τ hτ => (pi_norm_le_iff_of_nonneg hM).2 fun k => hr.EM k τ hτ
  -- the functions of the memory near the solution
  have hfun : ∀ τ ∈ Icc 0 T, ∀ z : (Fin d → ℝ) × (Fin d → ℝ), ‖z - (x τ, v τ)‖ ≤ 1 →
      ‖I.proj.mulVec (I.vec z.1 z.2) - E (x τ) (v τ)‖ ≤ ε + LE * ‖z - (x τ, v τ)‖ := by
    intro τ hτ z hz
    have hz2 := norm_prod_le_iff.1 hz
    have h1 : ‖I.proj.mulVec (I.vec z.1 z.2) - E z.1 z.2‖ ≤ ε := (pi_norm_le_iff_of_nonneg hε).2 fun k =>
      hI.funs τ hτ z.1 z.2 (fun i => (norm_le_pi_norm (z.1 - x τ) i).trans hz2.1) (fun i => (norm_le_pi_norm (z.2 - v τ) i).trans hz2.2) k
    have hzR : ‖z‖ ≤ R + 1 := by
      have := norm_add_le (z - (x τ, v τ)) (x τ, v τ)
      rw [sub_add_cancel] at this
      linarith [nX τ hτ]
    have h2 := hLE z (x τ, v τ) hzR (by linarith [nX τ hτ])
    have h3 := norm_add_le (I.proj.mulVec (I.vec z.1 z.2) - E z.1 z.2) (E z.1 z.2 - E (x τ) (v τ))
    rw [sub_add_sub_cancel] at h3
    exact h3.trans (add_le_add h1 h2)
  have hErr : ∀ n < nSteps, e n ≤ 1 → ‖history I trj n - E (x (n * h)) (v (n * h))‖ ≤ ε + LE * e n := by
    intro n hn hen
    have := hfun _ (hmem n hn) (trj.x n, trj.v n) (by rw [he] at hen; exact hen)
    rw [he]
    exact this
  have hkerT : ∀ j < I.kernel.len, j * h ≤ T → ∀ k i, |I.kernel.get j k i - κ (j * h) k i| ≤ ε := by
    have := hI.kernel
    rw [← hh] at this
    exact this
  have hker0 : ∀ k i, |I.kernel.get 0 k i| ≤ M + 1 := by
    intro k i
    have h1 := hkerT 0 (by have := hI.len; omega) (by simpa using hT) k i
    have h2 := hr.κM 0 ⟨le_rfl, hT⟩ k i
    simp only [Nat.cast_zero, zero_mul] at h1
    have h3 := abs_add_le (I.kernel.get 0 k i - κ 0 k i) (κ 0 k i)
    rw [sub_add_cancel] at h3
    linarith
  have hcov : T ≤ (I.kernel.len - 1 : ℕ) * h ∨ ∀ s ∈ Icc 0 T, (I.kernel.len - 1 : ℕ) * h ≤ s → ∀ k i, |κ s k i| ≤ ε := by
    have := hI.cover
    rw [← hh] at this
    exact this
  -- the memory force, from a history with errors
  have memH : ∀ n < nSteps, ∀ m, 0 ≤ m → m ≤ 1 → ∀ H : ℕ → Fin b → ℝ, (∀ j ≤ n, ‖H j - E (x (j * h)) (v (j * h))‖ ≤ ε + LE * m) →
      ‖Spec.memory h I.kernel.len I.kernel.get H n - memForce E κ x v (n * h)‖ ≤
        c0 * m + (T * (b * (3 * M + 1 + LE)) + T * (b * (2 * (L * M)))) * (h + ε) := by
    intro n hn m hm0 hm1 H hH
    have h1 := mem_error_near hr hL hM hdt (by have := hI.len; omega) hε hkerT hcov (hNT n hn) hH
    refine h1.trans ?_
    have k1 : ε + LE * m ≤ 1 + LE := add_le_add hε1 (mul_le_of_le_one_right hLE0 hm1)
    have k2 : T * (b * ε * (M + (ε + LE * m))) ≤ T * (b * ε * (M + (1 + LE))) := by gcongr
    have k3 : T * (b * (2 * (L * M))) * h ≤ T * (b * (2 * (L * M))) * (h + ε) := by
      gcongr
      linarith
    have k4 : T * (b * (3 * M + 1 + LE)) * ε ≤ T * (b * (3 * M + 1 + LE)) * (h + ε) := by
      gcongr
      linarith
    have k5 : T * (b * M * (ε + LE * m) + b * ε * (M + (ε + LE * m))) = c0 * m + T * (b * M) * ε + T * (b * ε * (M + (ε + LE * m))) := by
      rw [hc0]; ring
    have k6 : T * (b * (3 * M + 1 + LE)) * ε = T * (b * M) * ε + T * (b * ε * (M + (1 + LE))) + T * (b * ε * M) := by ring
    linarith
  have hbM : 0 ≤ b * (M + 1) * (2 * M + LE + 1) := by positivity
  have hclose : ∀ m s : ℝ, 0 ≤ s → s ≤ b * (M + 1) * (2 * M + LE + 1) * (h + ε) → c0 * m + (T * (b * (3 * M + 1 + LE)) + T * (b * (2 * (L * M)))) * (h + ε) + s ≤
      c0 * m + c1 * (h + ε) := by
    intro m s _ hs
    have : c1 * (h + ε) = (T * (b * (3 * M + 1 + LE)) + T * (b * (2 * (L * M)))) * (h + ε) + b * (M + 1) * (2 * M + LE + 1) * (h + ε) := by
      rw [hc1]; ring
    linarith
  have memA : ∀ n < nSteps, ∀ m, 0 ≤ m → m ≤ 1 → (∀ j ≤ n, e j ≤ m) →
      ‖Spec.memory h I.kernel.len I.kernel.get (history I trj) n - memForce E κ x v (n * h)‖ ≤ c0 * m + c1 * (h + ε) := by
    intro n hn m hm0 hm1 hm
    have := memH n hn m hm0 hm1 (history I trj) fun j hj => (hErr j (by omega) ((hm j hj).trans hm1)).trans (by gcongr; exact hm j hj)
    exact this.trans (by simpa using hclose m 0 le_rfl (by positivity))
  have vec0 : ∀ u : Fin b → ℝ, ‖u‖ ≤ 2 * M + LE + 1 → ‖(h / 2) • Matrix.vecMul u (I.kernel.get 0)‖ ≤ b * (M + 1) * (2 * M + LE + 1) * (h + ε) := by
    intro u hu
    rw [norm_smul, Real.norm_eq_abs, abs_of_nonneg (by linarith)]
    have h2 := norm_vecMul_le (e := u) (by positivity) hker0
    have h3 : b * (M + 1) * ‖u‖ ≤ b * (M + 1) * (2 * M + LE + 1) := by gcongr
    calc h / 2 * ‖Matrix.vecMul u (I.kernel.get 0)‖ ≤ (h + ε) * (b * (M + 1) * (2 * M + LE + 1)) :=
          mul_le_mul (by linarith) (h2.trans h3) (norm_nonneg _) (by linarith)
      _ = _ := by ring
  have memB : ∀ n, n + 1 < nSteps → ∀ m, 0 ≤ m → m ≤ 1 → (∀ j ≤ n, e j ≤ m) → ∀ τ ∈ Icc 0 T, ∀ z : (Fin d → ℝ) × (Fin d → ℝ),
      ‖z - (x τ, v τ)‖ ≤ 1 →
      ‖Spec.memory h I.kernel.len I.kernel.get (Function.update (history I trj) (n + 1) (I.proj.mulVec (I.vec z.1 z.2))) (n + 1) -
        memForce E κ x v (n * h + h)‖ ≤ c0 * m + c1 * (h + ε) := by
    intro n hn m hm0 hm1 hm τ hτ z hz
    have hn1h : ((n + 1 : ℕ) : ℝ) * h = n * h + h := by push_cast; ring
    have h1 := memH (n + 1) hn m hm0 hm1
      (Function.update (history I trj) (n + 1) (E (x ((n + 1 : ℕ) * h)) (v ((n + 1 : ℕ) * h)))) (fun j hj => by
        rcases Nat.lt_or_ge j (n + 1) with c | c
        · rw [Function.update_of_ne (by omega)]
          exact (hErr j (by omega) ((hm j (by omega)).trans hm1)).trans (by gcongr; exact hm j (by omega))
        · obtain rfl : j = n + 1 := by omega
          rw [Function.update_self, sub_self, norm_zero]
          positivity)
    have hX1 := hmem (n + 1) hn
    rw [hn1h] at h1 hX1
    rw [memory_update hI.len (by omega) _ (E (x (n * h + h)) (v (n * h + h))), add_sub_right_comm]
    have h2 : ‖I.proj.mulVec (I.vec z.1 z.2) - E (x (n * h + h)) (v (n * h + h))‖ ≤ 2 * M + LE + 1 := by
      have k1 := hfun τ hτ z hz
      have k2 : LE * ‖z - (x τ, v τ)‖ ≤ LE := mul_le_of_le_one_right hLE0 hz
      have k3 := norm_add_le (I.proj.mulVec (I.vec z.1 z.2) - E (x τ) (v τ)) (E (x τ) (v τ) - E (x (n * h + h)) (v (n * h + h)))
      rw [sub_add_sub_cancel] at k3
      have k4 := norm_sub_le (E (x τ) (v τ)) (E (x (n * h + h)) (v (n * h + h)))
      linarith [nE τ hτ, nE _ hX1]
    refine (norm_add_le _ _).trans ((add_le_add h1 le_rfl).trans ?_)
    exact hclose m _ (norm_nonneg _) (vec0 _ h2)
  have hbound : (ε + (nSteps - 1 : ℕ) * (γ * h * (h + ε))) * Real.exp (g * h * (nSteps - 1 : ℕ)) ≤ C * (h + ε) := by
    have h1 : ((nSteps - 1 : ℕ) : ℝ) * (γ * h * (h + ε)) ≤ T * γ * (h + ε) := by
      have : ((nSteps - 1 : ℕ) : ℝ) * (γ * h * (h + ε)) = ((nSteps - 1 : ℕ) : ℝ) * h * (γ * (h + ε)) := by ring
      rw [this, mul_assoc T]
      gcongr
    have h2 : Real.exp (g * h * (nSteps - 1 : ℕ)) ≤ Real.exp (g * T) := by
      refine Real.exp_le_exp.2 ?_
      rw [mul_assoc, mul_comm h]
      gcongr
    calc _ ≤ ((h + ε) + T * γ * (h + ε)) * Real.exp (g * T) := by gcongr; linarith
      _ = C * (h + ε) := by rw [hC]; ring
  have growth := error_growth_one (e := e) (N := nSteps - 1) (c := g * h) (β := ε) (γ := γ * h * (h + ε)) (ρ := C * (h + ε))
    (by positivity) hε (by positivity) (heD 0 hn1) hbound ?_
  · intro n hn i
    have h1 : e n ≤ C * (h + ε) := (growth n (by omega)).trans hbound
    rw [he] at h1
    have h2 := norm_prod_le_iff.1 h1
    exact ⟨(norm_le_pi_norm (trj.x n - x (n * h)) i).trans h2.1, (norm_le_pi_norm (trj.v n - v (n * h)) i).trans h2.2⟩
  intro n hnN m hβm hm hmρ
  have hm0 : 0 ≤ m := hε.trans hβm
  have hm1 : m ≤ 1 := hmρ.trans hCs
  by_cases hD1 : n + 1 < D.n
  · have h1 : 0 ≤ m * (g * h) := by positivity
    have h2 : 0 ≤ γ * h * (h + ε) := by positivity
    linarith [heD _ hD1]
  -- the step
  obtain ⟨A, hA, hs⟩ : ∃ A : Fin d → ℝ, ‖A - memForce E κ x v (n * h)‖ ≤ c0 * m + c1 * (h + ε) ∧
      (trj.x (n + 1), trj.v (n + 1)) = Spec.rk4 h (fun c (y : (Fin d → ℝ) × (Fin d → ℝ)) =>
        (y.2, (fun y => Matrix.vecMul (I.basis y) I.forceCoeff) y.1 + noise (n + 1) -
          ((1 - c) • A + c • (fun z : (Fin d → ℝ) × (Fin d → ℝ) => Spec.memory h I.kernel.len I.kernel.get
            (Function.update (history I trj) (n + 1) (I.proj.mulVec (I.vec z.1 z.2))) (n + 1)) y))) (trj.x n, trj.v n) := by
    rcases Nat.eq_zero_or_pos n with rfl | hn0
    · have hs := C66_first_step htrj (by simp [initLen]; omega) (by omega)
      rw [← hh] at hs
      refine ⟨_, ?_, hs⟩
      have h0 : memForce E κ x v ((0 : ℕ) * h) = 0 := by
        funext i
        simp [memForce]
      rw [h0, sub_zero]
      have h1 := hErr 0 (by omega) ((hm 0 le_rfl).trans hm1)
      have h2 := nE _ (hmem 0 (by omega))
      have h3 := norm_add_le (history I trj 0 - E (x ((0 : ℕ) * h)) (v ((0 : ℕ) * h))) (E (x ((0 : ℕ) * h)) (v ((0 : ℕ) * h)))
      rw [sub_add_cancel] at h3
      have h4 : LE * e 0 ≤ LE := mul_le_of_le_one_right hLE0 ((hm 0 le_rfl).trans hm1)
      refine (vec0 _ (by linarith)).trans ?_
      have h5 : 0 ≤ c0 * m + (T * (b * (3 * M + 1 + LE)) + T * (b * (2 * (L * M)))) * (h + ε) := by positivity
      have := hclose m _ (by positivity) le_rfl
      linarith
    · have hs := C66_memory_partial htrj (n := n + 1) (by simp [initLen]; omega) (by omega) (by omega)
      rw [← hh, Nat.add_sub_cancel] at hs
      exact ⟨_, memA n (by omega) m hm0 hm1 hm, hs⟩
  have hy0 : ‖(trj.x n, trj.v n) - (x (n * h), v (n * h))‖ = e n := by rw [he]
  have henM := hm n le_rfl
  have hin : e n + (2 * (c0 * m + c1 * (h + ε)) + 2 * ε + 3 * L * h) + L * h ^ 2 ≤ (1 + 2 * c0) * m + c2 * (h + ε) := by
    have a1 : L * h ^ 2 ≤ L * h := by gcongr
    have a2 : c2 * (h + ε) = 2 * (c1 * (h + ε)) + 2 * ε + 3 * L * h + L * h + (2 * h + 4 * L * ε) := by rw [hc2]; ring
    have a3 : 0 ≤ L * ε := by positivity
    linarith
  have hsmall : (1 + (1 + LF)) ^ 3 * (‖(trj.x n, trj.v n) - (x (n * h), v (n * h))‖ +
      (2 * (c0 * m + c1 * (h + ε)) + 2 * ε + 3 * L * h) + L * h ^ 2) ≤ 1 := by
    rw [← hG, hy0]
    have h2 : (1 + 2 * c0) * m + c2 * (h + ε) ≤ ((1 + 2 * c0) * C + c2) * (h + ε) := by
      have : (1 + 2 * c0) * m ≤ (1 + 2 * c0) * (C * (h + ε)) := by gcongr
      linarith
    have h3 : G ^ 3 * ((1 + 2 * c0) * C + c2) ≤ K := by rw [hK]; linarith
    calc _ ≤ G ^ 3 * (((1 + 2 * c0) * C + c2) * (h + ε)) := by gcongr; exact hin.trans h2
      _ = G ^ 3 * ((1 + 2 * c0) * C + c2) * (h + ε) := by ring
      _ ≤ K * (h + ε) := by gcongr
      _ ≤ 1 := hKs
  have hTn1 : (n : ℝ) * h + h ≤ T := by
    have := hNT (n + 1) (by omega)
    push_cast at this
    linarith
  have hst := noisy_step (T := T) (t := n * h) (h := h) (a := c0 * m + c1 * (h + ε)) (ε := ε)
    (F' := fun y => Matrix.vecMul (I.basis y) I.forceCoeff) hg hr hR hL hLF0 (by positivity) hε hdt.le hh1 (by positivity) hTn1 hLF
    (fun τ hτ y hy => (pi_norm_le_iff_of_nonneg hε).2 fun i => hI.force τ hτ y (fun i => (norm_le_pi_norm (y - x τ) i).trans hy) i)
    (w := noise (n + 1)) ((pi_norm_le_iff_of_nonneg hε).2 fun i => by
      have := hno (n + 1) (by omega) i
      rwa [show ((n + 1 : ℕ) : ℝ) * h = n * h + h by push_cast; ring] at this) hA
    (memB n (by omega) m hm0 hm1 hm) hsmall
  rw [← hs, ← hG, hy0] at hst
  have : e (n + 1) = ‖(trj.x (n + 1), trj.v (n + 1)) - (x (n * h + h), v (n * h + h))‖ := by
    rw [he]
    simp only
    rw [show ((n + 1 : ℕ) : ℝ) * h = n * h + h by push_cast; ring]
  rw [this]
  refine hst.trans ?_
  have k1 : h * (G ^ 4 * (e n + (2 * (c0 * m + c1 * (h + ε)) + 2 * ε + 3 * L * h) + L * h ^ 2)) ≤
      h * (G ^ 4 * ((1 + 2 * c0) * m + c2 * (h + ε))) := by gcongr
  have k2 : L * h ^ 2 ≤ L * h * (h + ε) := by
    have : 0 ≤ L * h * ε := by positivity
    nlinarith
  have k3 : m * (1 + g * h) + γ * h * (h + ε) = m + h * (G ^ 4 * ((1 + 2 * c0) * m + c2 * (h + ε))) + L * h * (h + ε) := by
    rw [hgr, hγ]; ring
  rw [k3]
  linarith

end

/-! ### Examples: `v' = -∫ v + 1 + t²/2`, and `v' = t` -/

/-- `x = t²/2`, `v = t` solve `v' = -∫ v + (1 + t²/2)`. -/
theorem exNoisy (T : ℝ) : Spec.NoisyGle (d := 1) (b := 1) T (fun _ => 0) (fun _ w => w) (fun _ => !![1])
    (fun t _ => 1 + t ^ 2 / 2) (fun t _ => t ^ 2 / 2) (fun t _ => t) := by
  constructor
  · intro t _ i
    have := ((hasDerivAt_id t).pow 2).div_const 2
    exact (this.congr_deriv (by simp)).hasDerivWithinAt
  · intro t _ i
    have : ∫ s in (0 : ℝ)..t, (t - s) = t ^ 2 / 2 := by
      rw [intervalIntegral.integral_comp_sub_left (f := fun s => s), integral_id]; simp
    simpa [Matrix.vecMul, dotProduct, this] using (hasDerivAt_id' t).hasDerivWithinAt

theorem exNoisy_converges : ∃ C δ : ℝ, 0 < δ ∧ ∀ N : ℕ, 2 ≤ N → 1 / (N : ℝ) ≤ δ →
    ∃ trj, (exGleInt (1 / N) (N + 1)).run (N + 1) (some ⟨1, fun _ => 0, 0, 0⟩)
        (fun n _ => 1 + ((n : ℝ) * (1 / N)) ^ 2 / 2) = .ok trj ∧
      |trj.v N 0 - 1| ≤ C * (1 / N + 0) := by
  obtain ⟨C, δ, hδ, H⟩ := C148_run_noise (exNoisy 1) contDiff_const contDiff_snd ⟨0, by simp⟩ ⟨1, fun s hs t ht _ i => by
    have : (1 + s ^ 2 / 2) - (1 + t ^ 2 / 2) = (s + t) / 2 * (s - t) := by ring
    simp only [Spec.rowMat]
    rw [this, abs_mul, abs_of_nonneg (by linarith [hs.1, ht.1])]
    gcongr
    linarith [hs.2, ht.2]⟩
  refine ⟨C, δ, hδ, fun N hN h => ?_⟩
  have hN0 : (0 : ℝ) < N := by exact_mod_cast (by omega : 0 < N)
  have hN1 : ((N + 1 - 1 : ℕ) : ℝ) * (1 / N) = 1 := by
    rw [Nat.add_sub_cancel]
    field_simp
  obtain ⟨trj, h1, h2⟩ := H 1 1 (exGleInt (1 / N) (N + 1)) (N + 1) ⟨1, fun _ => 0, 0, 0⟩ (fun n _ => 1 + ((n : ℝ) * (1 / N)) ^ 2 / 2) 0
    (by simp [exGleInt]; omega) h le_rfl hδ.le hN1.le
    ((exGleInt_holds (by omega) hN1.ge).near _ _) le_rfl (by simp) (fun t ht => by
      obtain rfl : t = 0 := by simpa using ht
      simp) (fun n _ i => by simp [exGleInt])
  refine ⟨trj, h1, ?_⟩
  have := (h2 N (by omega) 0).2
  have e : (N : ℝ) * (exGleInt (1 / N) (N + 1)).dt = 1 := by
    simp only [exGleInt]
    field_simp
  rw [e] at this
  exact this

/-- The integrator for `v' = ξ`: no force and a kernel that is zero. -/
noncomputable def exFreeInt (dt : ℝ) (len : ℕ) : Integrator ℝ 1 1 1 1 where
  basis _ _ := 1
  vec := constVec
  proj := 1
  forceCoeff := 0
  kernel := ⟨len, fun _ => 0⟩
  dt := dt

/-- `x = t³/6`, `v = t²/2` solve `v' = t`, the equation of `exFreeInt` with the noise `t`. -/
theorem exFree (T : ℝ) : Spec.NoisyGle (d := 1) (b := 1) T (fun _ => 0) (fun _ w => w) (fun _ => 0)
    (fun t _ => t) (fun t _ => t ^ 3 / 6) (fun t _ => t ^ 2 / 2) := by
  constructor
  · intro t _ i
    have := ((hasDerivAt_id t).pow 3).div_const 6
    exact (this.congr_deriv (by simp; ring)).hasDerivWithinAt
  · intro t _ i
    have := ((hasDerivAt_id t).pow 2).div_const 2
    exact (this.congr_deriv (by simp)).hasDerivWithinAt

/-- **C148** The order one cannot be improved: during a step the noise is the one of the end of the step, and for the noise
`t` (exact values on the grid, exact model, exact initial row) the velocity at time one is too large by `dt/2`. -/
theorem C148_order_sharp {N len : ℕ} (hN : 1 ≤ N) (hl : 2 ≤ len) :
    ∃ trj, (exFreeInt (1 / N) len).run (N + 1) (some ⟨1, fun _ => 0, 0, 0⟩) (fun n _ => n * (1 / N)) = .ok trj ∧
      trj.v N 0 = 1 / 2 + 1 / N / 2 := by
  obtain ⟨trj, ht⟩ := (exFreeInt (1 / N) len).run_ok (nSteps := N + 1) (x0 := some ⟨1, fun _ => 0, 0, 0⟩)
    (fun n _ => n * (1 / N)) hl le_rfl (by simp) (by
      rintro D ⟨⟩ t ht
      obtain rfl : t = 0 := by simpa using ht
      simp)
  refine ⟨trj, ht, ?_⟩
  have hi := ((C67_initial ht).2.1 _ rfl).2 0 Nat.zero_lt_one
  have zero : ∀ (H : ℕ → Fin 1 → ℝ) (n : ℕ), Spec.memory (1 / (N : ℝ)) len (fun _ => (0 : Matrix (Fin 1) (Fin 1) ℝ)) H n = 0 := by
    intro H n
    simp [Spec.memory, Spec.trapzRule]
  have hstep : ∀ n, n < N → trj.v (n + 1) 0 = trj.v n 0 + 1 / N * ((n + 1 : ℕ) * (1 / N)) := by
    intro n hn
    rcases Nat.eq_zero_or_pos n with rfl | hn0
    · have hv := congrFun (congrArg Prod.snd (C66_first_step ht rfl (by omega))) 0
      simp only [exFreeInt, zero] at hv
      simp [Spec.rk4] at hv
      rw [hv]
      push_cast
      ring
    · have hv := congrFun (congrArg Prod.snd (C66_memory_partial ht (n := n + 1) (by simp [initLen]) (by omega) (by omega))) 0
      simp only [exFreeInt, zero] at hv
      simp [Spec.rk4] at hv
      rw [hv]
      push_cast
      ring
  have key : ∀ n ≤ N, trj.v n 0 = (1 / N) ^ 2 * (n * (n + 1) / 2) := by
    intro n
    induction n with
    | zero => intro _; rw [hi.2]; simp
    | succ n ih =>
      intro hn
      rw [hstep n hn, ih (by omega)]
      push_cast
      ring
  have hN0 : (N : ℝ) ≠ 0 := by exact_mod_cast (by omega : N ≠ 0)
  rw [key N le_rfl]
  field_simp

example := C148_order_sharp (N := 10) (len := 11) (by norm_num) (by norm_num)

end Verif
