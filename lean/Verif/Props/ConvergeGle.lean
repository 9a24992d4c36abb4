import Verif.Lemmas.GleStep
import Verif.Props.Integrate
import Mathlib.Analysis.SpecialFunctions.Trigonometric.Bounds

/-!
# Convergence of `Integrator_gle.run` to the generalised Langevin equation (C133)
-/

namespace Verif

open Finset Set

section
variable {d b nB nD : ℕ}

theorem memory_update {h : ℝ} {len m : ℕ} {ker : ℕ → Matrix (Fin b) (Fin d) ℝ} {H : ℕ → Fin b → ℝ} (hlen : 2 ≤ len)
    (hm : 1 ≤ m) (e e1 : Fin b → ℝ) :
    Spec.memory h len ker (Function.update H m e) m =
      Spec.memory h len ker (Function.update H m e1) m + (h / 2) • Matrix.vecMul (e - e1) (ker 0) := by
  rw [← sub_eq_iff_eq_add']
  unfold Spec.memory
  obtain ⟨N, hN⟩ : ∃ N, min m (len - 1) = N + 1 := ⟨min m (len - 1) - 1, by omega⟩
  rw [hN, trapzRule_sub]
  have h0 : ∀ j, 1 ≤ j → Matrix.vecMul (Function.update H m e (m - j)) (ker j) -
      Matrix.vecMul (Function.update H m e1 (m - j)) (ker j) = 0 := by
    intro j hj
    rw [Function.update_of_ne (by omega), Function.update_of_ne (by omega), sub_self]
  unfold Spec.trapzRule
  beta_reduce
  rw [Finset.sum_range_succ', Finset.sum_eq_zero, zero_add]
  · rw [h0 (0 + 1) le_rfl, add_zero, Nat.sub_zero, Function.update_self, Function.update_self, Matrix.sub_vecMul]
  · intro j _
    rw [h0 _ (by omega), h0 _ (by omega), add_zero, smul_zero]

/-- The integrator `I` holds the terms of the equation: the force `F`, the functions `E` of the memory and the values
of the kernel `κ` on its grid, which covers `[0, T]` or goes up to a time after which `κ` is zero. -/
structure HoldsGle (T : ℝ) (F : (Fin d → ℝ) → Fin d → ℝ) (E : (Fin d → ℝ) → (Fin d → ℝ) → Fin b → ℝ)
    (κ : ℝ → Matrix (Fin b) (Fin d) ℝ) (I : Integrator ℝ d nB nD b) : Prop where
  force : ∀ y, Matrix.vecMul (I.basis y) I.forceCoeff = F y
  funs : ∀ y w, I.proj.mulVec (I.vec y w) = E y w
  len : 2 ≤ I.kernel.len
  kernel : ∀ j < I.kernel.len, j * I.dt ≤ T → I.kernel.get j = κ (j * I.dt)
  cover : T ≤ (I.kernel.len - 1 : ℕ) * I.dt ∨ ∀ s ∈ Icc 0 T, (I.kernel.len - 1 : ℕ) * I.dt ≤ s → κ s = 0

set_option maxHeartbeats 2000000 in
/-- **C133** Without noise, from rows of the exact solution (one or more), the rows computed by `run` are within
`C dt²` of the solution of the generalised Langevin equation, with the same `C` for all small time steps. -/
theorem C133_run_converges {T : ℝ} {F : (Fin d → ℝ) → Fin d → ℝ} {E : (Fin d → ℝ) → (Fin d → ℝ) → Fin b → ℝ}
    {κ κ' : ℝ → Matrix (Fin b) (Fin d) ℝ} {x v : ℝ → Fin d → ℝ} (hg : Spec.Gle T F E κ x v) (hF : ContDiff ℝ 2 F)
    (hE : ContDiff ℝ 2 (fun y : (Fin d → ℝ) × (Fin d → ℝ) => E y.1 y.2))
    (hκ : Spec.DerivOn T κ κ') (hκ' : Spec.Lip T κ') :
    ∃ C δ : ℝ, 0 < δ ∧ ∀ (nB nD : ℕ) (I : Integrator ℝ d nB nD b) (nSteps : ℕ) (D : InitData ℝ d),
      0 < I.dt → I.dt ≤ δ → (nSteps - 1 : ℕ) * I.dt ≤ T → HoldsGle T F E κ I → 1 ≤ D.n → D.n ≤ nSteps →
      (∀ t < D.n, D.time t = t * I.dt ∧ D.x t = x (t * I.dt) ∧ D.v t = v (t * I.dt)) →
      ∃ trj, I.run nSteps (some D) 0 = .ok trj ∧ ∀ n < nSteps, ∀ i,
        |trj.x n i - x (n * I.dt) i| ≤ C * I.dt ^ 2 ∧ |trj.v n i - v (n * I.dt) i| ≤ C * I.dt ^ 2 := by
  rcases lt_or_ge T 0 with hT | hT
  · refine ⟨0, 1, one_pos, fun nB nD I nSteps D h1 _ h3 _ _ _ _ => ?_⟩
    have : 0 ≤ ((nSteps - 1 : ℕ) : ℝ) * I.dt := by positivity
    linarith
  obtain ⟨R, L, S, e', hR, hL, hS, hr⟩ := gle_regular hT hg hF hE (lip_of_deriv hκ hκ')
  obtain ⟨Mκ, hMκ0, hMκ⟩ : ∃ M : ℝ, 0 ≤ M ∧ ∀ t ∈ Icc 0 T, ∀ k i, |κ t k i| ≤ M := by
    obtain ⟨M, hM0, hM⟩ := lip_bound (lip_of_deriv hκ hκ')
    exact ⟨M, hM0, fun t ht k i => (entry_le_norm _ k i).trans (hM t ht)⟩
  obtain ⟨Q, hQ0, hQ⟩ := mem_consistent hr hκ hκ'
  obtain ⟨LF, hLF0, hLF⟩ := lip_ball (hF.of_le (by norm_num)) (R + 1)
  obtain ⟨LE, hLE0, hLE⟩ := lip_ball (hE.of_le (by norm_num)) (R + 1)
  obtain ⟨ME, hME⟩ : ∃ ME, ME = ‖E (x 0) (v 0)‖ := ⟨_, rfl⟩
  have hME0 : 0 ≤ ME := hME ▸ norm_nonneg _
  obtain ⟨Mb, hMb⟩ : ∃ Mb : ℝ, Mb = b * Mκ := ⟨_, rfl⟩
  have hMb0 : 0 ≤ Mb := by rw [hMb]; positivity
  obtain ⟨G, hG⟩ : ∃ G : ℝ, G = 1 + (1 + LF + Mb * LE) := ⟨_, rfl⟩
  have hG0 : 0 ≤ G := by rw [hG]; positivity
  obtain ⟨P, hP⟩ : ∃ P : ℝ, P = Mb * LE * L + S := ⟨_, rfl⟩
  have hP0 : 0 ≤ P := by rw [hP]; positivity
  obtain ⟨c1, hc1⟩ : ∃ c1 : ℝ, c1 = G ^ 4 * (1 + 2 * (T * Mb * LE)) := ⟨_, rfl⟩
  have hc10 : 0 ≤ c1 := by rw [hc1]; positivity
  obtain ⟨c2, hc2⟩ : ∃ c2 : ℝ, c2 = G ^ 4 * (2 * Q + P + L) + S := ⟨_, rfl⟩
  have hc20 : 0 ≤ c2 := by rw [hc2]; positivity
  obtain ⟨c3, hc3⟩ : ∃ c3 : ℝ, c3 = G ^ 4 * (Mb * ME + Q + P + L) + S := ⟨_, rfl⟩
  have hc30 : 0 ≤ c3 := by rw [hc3]; positivity
  obtain ⟨C, hC⟩ : ∃ C : ℝ, C = (c3 + T * c2) * Real.exp (c1 * T) := ⟨_, rfl⟩
  have hC0 : 0 ≤ C := by rw [hC]; positivity
  obtain ⟨K, hK⟩ : ∃ K : ℝ, K = 1 + G ^ 3 * ((1 + 2 * (T * Mb * LE)) * C + (2 * Q + P + L + Mb * ME)) + C := ⟨_, rfl⟩
  have hK1 : 1 ≤ K := by
    have : 0 ≤ G ^ 3 * ((1 + 2 * (T * Mb * LE)) * C + (2 * Q + P + L + Mb * ME)) := by positivity
    rw [hK]
    linarith
  refine ⟨C, 1 / K, by positivity, fun nB nD I nSteps D hdt hδ hTn hI hn1 hn2 hD => ?_⟩
  obtain ⟨h, hh⟩ : ∃ h, h = I.dt := ⟨_, rfl⟩
  rw [← hh] at hdt hδ hTn hD ⊢
  have hKh : K * h ≤ 1 := by
    rw [le_div_iff₀ (by linarith)] at hδ
    linarith
  have hh1 : h ≤ 1 := (le_mul_of_one_le_left hdt.le hK1).trans hKh
  have hh2 : h ^ 2 ≤ h := by
    rw [sq]
    exact mul_le_of_le_one_left hdt.le hh1
  have hKh2 : K * h ^ 2 ≤ 1 := le_trans (by gcongr) hKh
  have hex := I.run_ok (nSteps := nSteps) (x0 := some D) 0 hI.len hn1 hn2 (by
    rintro D' hD' t ht
    obtain rfl : D = D' := by simpa using hD'
    rw [← hh]
    exact (hD t ht).1)
  obtain ⟨trj, htrj⟩ := hex
  refine ⟨trj, htrj, ?_⟩
  have hinit := ((C67_initial htrj).2.1 D rfl).2
  obtain ⟨e, he⟩ : ∃ e : ℕ → ℝ, e = fun n : ℕ => ‖(trj.x n, trj.v n) - (x (n * h), v (n * h))‖ := ⟨_, rfl⟩
  have he0 : ∀ n, 0 ≤ e n := fun n => by rw [he]; exact norm_nonneg _
  have heD : ∀ n < D.n, e n = 0 := by
    intro n hn
    rw [he]
    simp only
    rw [(hinit n hn).1, (hinit n hn).2, (hD n hn).2.1, (hD n hn).2.2, sub_self, norm_zero]
  have hNT : ∀ n < nSteps, (n : ℝ) * h ≤ T := by
    intro n hn
    have : (n : ℝ) ≤ (nSteps - 1 : ℕ) := by exact_mod_cast (by omega)
    exact le_trans (by gcongr) hTn
  have hmem : ∀ n < nSteps, (n : ℝ) * h ∈ Icc 0 T := fun n hn => ⟨by positivity, hNT n hn⟩
  have nX : ∀ τ ∈ Icc 0 T, ‖(x τ, v τ)‖ ≤ R := fun τ hτ => norm_prod_le_iff.2
    ⟨(pi_norm_le_iff_of_nonneg hR).2 (hr.xR τ hτ), (pi_norm_le_iff_of_nonneg hR).2 (hr.vR τ hτ)⟩
  have hhist : ∀ n, history I trj n = E (trj.x n) (trj.v n) := fun n => hI.funs _ _
  have hErr : ∀ n < nSteps, e n ≤ 1 → ‖history I trj n - E (x (n * h)) (v (n * h))‖ ≤ LE * e n := by
    intro n hn hen
    rw [hhist]
    have h1 := nX _ (hmem n hn)
    have h2 : ‖(trj.x n, trj.v n)‖ ≤ R + 1 := by
      have := norm_add_le ((trj.x n, trj.v n) - (x (n * h), v (n * h))) (x (n * h), v (n * h))
      rw [sub_add_cancel] at this
      rw [he] at hen
      simp only at hen
      linarith
    have := hLE (trj.x n, trj.v n) (x (n * h), v (n * h)) h2 (by linarith)
    rw [he]
    exact this
  have hker0 : I.kernel.get 0 = κ (0 * h) := by
    have := hI.kernel 0 (by have := hI.len; omega) (by simpa using hT)
    rw [← hh] at this
    simpa using this
  have hker0' : ∀ k i, |I.kernel.get 0 k i| ≤ Mκ := by
    rw [hker0, zero_mul]
    exact hMκ 0 ⟨le_rfl, hT⟩
  have hkerT : ∀ j < I.kernel.len, j * h ≤ T → I.kernel.get j = κ (j * h) := by
    have := hI.kernel
    rw [← hh] at this
    exact this
  have hcov : T ≤ (I.kernel.len - 1 : ℕ) * h ∨ ∀ s ∈ Icc 0 T, (I.kernel.len - 1 : ℕ) * h ≤ s → κ s = 0 := by
    have := hI.cover
    rw [← hh] at this
    exact this
  -- the memory force at the beginning of a step
  have memA : ∀ n < nSteps, ∀ M, M ≤ 1 → (∀ j ≤ n, e j ≤ M) →
      ‖Spec.memory h I.kernel.len I.kernel.get (history I trj) n - memForce E κ x v (n * h)‖ ≤
        T * Mb * LE * M + Q * h ^ 2 := by
    intro n hn M hM1 hM
    have := mem_error hMκ0 hMκ hQ hdt (by have := hI.len; omega) hkerT hcov (hNT n hn) (hist := history I trj) (ε := LE * M)
      (fun j hj => (hErr j (by omega) ((hM j hj).trans hM1)).trans (by gcongr; exact hM j hj))
    rw [← hMb] at this
    refine this.trans (le_of_eq ?_)
    ring
  -- and at its end
  have memB : ∀ n, n + 1 < nSteps → ∀ M, 0 ≤ M → M ≤ 1 → (∀ j ≤ n, e j ≤ M) → ∀ z : (Fin d → ℝ) × (Fin d → ℝ), ‖z‖ ≤ R + 1 →
      ‖Spec.memory h I.kernel.len I.kernel.get (Function.update (history I trj) (n + 1) (I.proj.mulVec (I.vec z.1 z.2))) (n + 1) -
        memForce E κ x v (n * h + h)‖ ≤ (T * Mb * LE * M + Q * h ^ 2) + h * (Mb * LE) * ‖z - (x (n * h + h), v (n * h + h))‖ := by
    intro n hn M hM0 hM1 hM z hz
    have hX1 := hmem (n + 1) hn
    have hn1h : ((n + 1 : ℕ) : ℝ) * h = n * h + h := by push_cast; ring
    have h1 := mem_error hMκ0 hMκ hQ hdt (by have := hI.len; omega) hkerT hcov (hNT (n + 1) hn)
      (hist := Function.update (history I trj) (n + 1) (E (x ((n + 1 : ℕ) * h)) (v ((n + 1 : ℕ) * h)))) (ε := LE * M) (fun j hj => by
        rcases Nat.lt_or_ge j (n + 1) with c | c
        · rw [Function.update_of_ne (by omega)]
          exact (hErr j (by omega) ((hM j (by omega)).trans hM1)).trans (by gcongr; exact hM j (by omega))
        · obtain rfl : j = n + 1 := by omega
          rw [Function.update_self, sub_self, norm_zero]
          positivity)
    rw [← hMb, hn1h] at h1
    rw [hI.funs, memory_update hI.len (by omega) _ (E (x (n * h + h)) (v (n * h + h))), add_sub_right_comm]
    refine (norm_add_le _ _).trans (add_le_add (h1.trans (le_of_eq (by ring))) ?_)
    rw [norm_smul, Real.norm_eq_abs, abs_of_nonneg (by linarith)]
    have h2 := norm_vecMul_le (e := E z.1 z.2 - E (x (n * h + h)) (v (n * h + h))) hMκ0 hker0'
    have h3 := hLE z (x (n * h + h), v (n * h + h)) hz (by
      rw [hn1h] at hX1
      linarith [nX _ hX1])
    rw [← hMb] at h2
    have h4 : Mb * ‖E z.1 z.2 - E (x (n * h + h)) (v (n * h + h))‖ ≤ Mb * (LE * ‖z - (x (n * h + h), v (n * h + h))‖) := by
      exact mul_le_mul_of_nonneg_left h3 hMb0
    have h5 : 0 ≤ Mb * (LE * ‖z - (x (n * h + h), v (n * h + h))‖) := by positivity
    calc h / 2 * ‖Matrix.vecMul (E z.1 z.2 - E (x (n * h + h)) (v (n * h + h))) (I.kernel.get 0)‖
        ≤ h / 2 * (Mb * (LE * ‖z - (x (n * h + h), v (n * h + h))‖)) := by gcongr; exact h2.trans h4
      _ ≤ h * (Mb * (LE * ‖z - (x (n * h + h), v (n * h + h))‖)) := by gcongr; linarith
      _ = _ := by ring
  have hNh : ((nSteps - 1 : ℕ) : ℝ) * h ≤ T := hTn
  have hbound : (c3 * h ^ 2 + (nSteps - 1 : ℕ) * (c2 * h ^ 3)) * Real.exp (c1 * h * (nSteps - 1 : ℕ)) ≤ C * h ^ 2 := by
    have h1 : ((nSteps - 1 : ℕ) : ℝ) * (c2 * h ^ 3) ≤ T * (c2 * h ^ 2) := by
      have : ((nSteps - 1 : ℕ) : ℝ) * (c2 * h ^ 3) = ((nSteps - 1 : ℕ) : ℝ) * h * (c2 * h ^ 2) := by ring
      rw [this]
      gcongr
    have h2 : Real.exp (c1 * h * (nSteps - 1 : ℕ)) ≤ Real.exp (c1 * T) := by
      refine Real.exp_le_exp.2 ?_
      rw [mul_assoc, mul_comm h]
      gcongr
    calc _ ≤ (c3 * h ^ 2 + T * (c2 * h ^ 2)) * Real.exp (c1 * T) := by gcongr
      _ = C * h ^ 2 := by rw [hC]; ring
  have hCh : C * h ^ 2 ≤ 1 := by
    have : C ≤ K := by
      have : 0 ≤ G ^ 3 * ((1 + 2 * (T * Mb * LE)) * C + (2 * Q + P + L + Mb * ME)) := by positivity
      rw [hK]
      linarith
    exact le_trans (by gcongr) hKh2
  have growth := error_growth (e := e) (N := nSteps - 1) (c := c1 * h) (β := c3 * h ^ 2) (γ := c2 * h ^ 3) (ρ := C * h ^ 2)
    (by positivity) (by positivity) (by positivity) (le_of_eq (heD 0 hn1)) hbound ?_ ?_
  · intro n hn i
    have h1 : e n ≤ C * h ^ 2 := (growth n (by omega)).trans hbound
    rw [he] at h1
    have h2 := norm_prod_le_iff.1 h1
    exact ⟨(norm_le_pi_norm (trj.x n - x (n * h)) i).trans h2.1, (norm_le_pi_norm (trj.v n - v (n * h)) i).trans h2.2⟩
  · -- the first step
    intro hpos _
    by_cases hD1 : 1 < D.n
    · rw [heD 1 hD1]; positivity
    have hD1 : D.n = 1 := by omega
    have hs := C66_first_step htrj (by simpa [initLen] using hD1) (by omega)
    rw [← hh] at hs
    simp only [hI.force, Pi.zero_apply] at hs
    have e00 : e 0 = 0 := heD 0 hn1
    have hy0 : ‖(trj.x 0, trj.v 0) - (x 0, v 0)‖ = 0 := by
      have : e 0 = ‖(trj.x 0, trj.v 0) - (x ((0 : ℕ) * h), v ((0 : ℕ) * h))‖ := by rw [he]
      rw [e00] at this
      simpa using this.symm
    have hA : ‖(h / 2) • Matrix.vecMul (history I trj 0) (I.kernel.get 0) - memForce E κ x v 0‖ ≤ h * (Mb * ME) := by
      have h0 : memForce E κ x v 0 = 0 := by
        funext i
        simp [memForce]
      have h1 : history I trj 0 = E (x 0) (v 0) := by
        rw [hhist, (hinit 0 hn1).1, (hinit 0 hn1).2, (hD 0 hn1).2.1, (hD 0 hn1).2.2]
        simp
      rw [h0, sub_zero, norm_smul, Real.norm_eq_abs, abs_of_nonneg (by linarith), h1]
      have h2 := norm_vecMul_le (e := E (x 0) (v 0)) hMκ0 hker0'
      rw [← hMb, ← hME] at h2
      have h3 : 0 ≤ Mb * ME := by positivity
      calc h / 2 * ‖Matrix.vecMul (E (x 0) (v 0)) (I.kernel.get 0)‖ ≤ h / 2 * (Mb * ME) := by gcongr
        _ ≤ h * (Mb * ME) := mul_le_mul_of_nonneg_right (by linarith only [hdt]) h3
    have hB := memB 0 (by omega) 0 le_rfl zero_le_one (fun j hj => by
      obtain rfl : j = 0 := by omega
      exact le_of_eq e00)
    simp only [Nat.cast_zero, zero_mul, zero_add, mul_zero] at hB
    have hsmall : (1 + (1 + LF + Mb * LE)) ^ 3 * (‖(trj.x 0, trj.v 0) - (x 0, v 0)‖ + (h * (Mb * ME) + Q * h ^ 2 + (Mb * LE * L + S) * h ^ 2) + L * h ^ 2) ≤ 1 := by
      rw [← hG, ← hP, hy0]
      have h1 : h * (Mb * ME) + Q * h ^ 2 + P * h ^ 2 + L * h ^ 2 ≤ h * (2 * Q + P + L + Mb * ME) := by
        have a1 : Q * h ^ 2 ≤ Q * h := by gcongr
        have a2 : P * h ^ 2 ≤ P * h := by gcongr
        have a3 : L * h ^ 2 ≤ L * h := by gcongr
        have a4 : 0 ≤ Q * h := by positivity
        linarith
      have h2 : G ^ 3 * (h * (2 * Q + P + L + Mb * ME)) ≤ K * h := by
        have : 0 ≤ G ^ 3 * ((1 + 2 * (T * Mb * LE)) * C) := by positivity
        have h3 : G ^ 3 * (2 * Q + P + L + Mb * ME) ≤ K := by
          rw [hK, mul_add]
          linarith
        calc _ = G ^ 3 * (2 * Q + P + L + Mb * ME) * h := by ring
          _ ≤ K * h := by gcongr
      calc _ = G ^ 3 * (h * (Mb * ME) + Q * h ^ 2 + P * h ^ 2 + L * h ^ 2) := by ring
        _ ≤ G ^ 3 * (h * (2 * Q + P + L + Mb * ME)) := by gcongr
        _ ≤ 1 := h2.trans hKh
    have hst := gle_step (T := T) (t := 0) (h := h) (a0 := h * (Mb * ME)) (a1 := Q * h ^ 2) hg hr hR hL hS hMb0 hLF0 hLE0
      (by positivity) (by positivity) hdt.le hh1 le_rfl (by simpa using hNT 1 (by omega)) hLF hA
      (B := fun z => Spec.memory h I.kernel.len I.kernel.get (Function.update (history I trj) 1 (I.proj.mulVec (I.vec z.1 z.2))) 1)
      (y := (trj.x 0, trj.v 0)) (fun z hz => by rw [zero_add]; exact hB z hz) hsmall
    rw [zero_add, ← hs, ← hG, ← hP, hy0] at hst
    have : e 1 = ‖(trj.x 1, trj.v 1) - (x h, v h)‖ := by rw [he]; simp
    rw [this]
    refine hst.trans ?_
    have k1 : G ^ 4 * (h * (Q * h ^ 2 + P * h ^ 2 + L * h ^ 2)) ≤ G ^ 4 * ((Q + P + L) * h ^ 2) := by
      have : h * (Q * h ^ 2 + P * h ^ 2 + L * h ^ 2) = h * ((Q + P + L) * h ^ 2) := by ring
      rw [this]
      exact mul_le_mul_of_nonneg_left (mul_le_of_le_one_left (by positivity) hh1) (by positivity)
    have k2 : S * h ^ 3 ≤ S * h ^ 2 := by
      exact mul_le_mul_of_nonneg_left (pow_le_pow_of_le_one hdt.le hh1 (by norm_num)) hS
    have k3 : 0 + h * (G ^ 4 * (0 + (h * (Mb * ME) + Q * h ^ 2 + P * h ^ 2) + L * h ^ 2)) + S * h ^ 3 =
      G ^ 4 * (Mb * ME * h ^ 2) + G ^ 4 * (h * (Q * h ^ 2 + P * h ^ 2 + L * h ^ 2)) + S * h ^ 3 := by ring
    have k4 : c3 * h ^ 2 = G ^ 4 * (Mb * ME * h ^ 2) + G ^ 4 * ((Q + P + L) * h ^ 2) + S * h ^ 2 := by rw [hc3]; ring
    rw [k3, k4]
    linarith
  · -- the other steps
    intro n hn0 hnN M hM hMρ
    have hM0 : 0 ≤ M := (he0 0).trans (hM 0 (Nat.zero_le _))
    have hM1 : M ≤ 1 := hMρ.trans hCh
    by_cases hD1 : n + 1 < D.n
    · rw [heD _ hD1]; positivity
    have hs := C66_memory_partial htrj (n := n + 1) (by simp [initLen]; omega) (by omega) (by omega)
    rw [← hh, Nat.add_sub_cancel] at hs
    simp only [hI.force, Pi.zero_apply] at hs
    have hy0 : ‖(trj.x n, trj.v n) - (x (n * h), v (n * h))‖ = e n := by rw [he]
    have henM := hM n le_rfl
    have hsmall : (1 + (1 + LF + Mb * LE)) ^ 3 * (‖(trj.x n, trj.v n) - (x (n * h), v (n * h))‖ +
        ((T * Mb * LE * M + Q * h ^ 2) + (T * Mb * LE * M + Q * h ^ 2) + (Mb * LE * L + S) * h ^ 2) + L * h ^ 2) ≤ 1 := by
      rw [← hG, ← hP, hy0]
      have h1 : e n + ((T * Mb * LE * M + Q * h ^ 2) + (T * Mb * LE * M + Q * h ^ 2) + P * h ^ 2) + L * h ^ 2 ≤
          ((1 + 2 * (T * Mb * LE)) * C + (2 * Q + P + L)) * h ^ 2 := by
        have a1 : (1 + 2 * (T * Mb * LE)) * M ≤ (1 + 2 * (T * Mb * LE)) * (C * h ^ 2) := by gcongr
        have a2 : (1 + 2 * (T * Mb * LE)) * M = M + T * Mb * LE * M + T * Mb * LE * M := by ring
        have a3 : ((1 + 2 * (T * Mb * LE)) * C + (2 * Q + P + L)) * h ^ 2 =
          (1 + 2 * (T * Mb * LE)) * (C * h ^ 2) + Q * h ^ 2 + Q * h ^ 2 + P * h ^ 2 + L * h ^ 2 := by ring
        rw [a3]
        linarith only [a1, a2, henM]
      have h2 : G ^ 3 * ((1 + 2 * (T * Mb * LE)) * C + (2 * Q + P + L)) ≤ K := by
        have : 0 ≤ G ^ 3 * (Mb * ME) := by positivity
        rw [hK]
        have e2 : G ^ 3 * ((1 + 2 * (T * Mb * LE)) * C + (2 * Q + P + L + Mb * ME)) =
          G ^ 3 * ((1 + 2 * (T * Mb * LE)) * C + (2 * Q + P + L)) + G ^ 3 * (Mb * ME) := by ring
        rw [e2]
        linarith
      calc _ ≤ G ^ 3 * (((1 + 2 * (T * Mb * LE)) * C + (2 * Q + P + L)) * h ^ 2) := by gcongr
        _ = G ^ 3 * ((1 + 2 * (T * Mb * LE)) * C + (2 * Q + P + L)) * h ^ 2 := by ring
        _ ≤ K * h ^ 2 := by gcongr
        _ ≤ 1 := hKh2
    have hTn1 : (n : ℝ) * h + h ≤ T := by
      have := hNT (n + 1) (by omega)
      push_cast at this
      linarith
    have hst := gle_step (T := T) (t := n * h) (h := h) (a0 := T * Mb * LE * M + Q * h ^ 2) (a1 := T * Mb * LE * M + Q * h ^ 2)
      hg hr hR hL hS hMb0 hLF0 hLE0 (by positivity) (by positivity) hdt.le hh1 (by positivity) hTn1 hLF
      (memA n (by omega) M hM1 hM)
      (B := fun z => Spec.memory h I.kernel.len I.kernel.get (Function.update (history I trj) (n + 1) (I.proj.mulVec (I.vec z.1 z.2))) (n + 1))
      (y := (trj.x n, trj.v n)) (memB n (by omega) M hM0 hM1 hM) hsmall
    rw [← hs, ← hG, ← hP, hy0] at hst
    have : e (n + 1) = ‖(trj.x (n + 1), trj.v (n + 1)) - (x (n * h + h), v (n * h + h))‖ := by
      rw [he]
      simp only
      rw [show ((n + 1 : ℕ) : ℝ) * h = n * h + h by push_cast; ring]
    rw [this]
    refine hst.trans ?_
    have k1 : h * (G ^ 4 * (e n + ((T * Mb * LE * M + Q * h ^ 2) + (T * Mb * LE * M + Q * h ^ 2) + P * h ^ 2) + L * h ^ 2)) ≤
        h * (G ^ 4 * (M + ((T * Mb * LE * M + Q * h ^ 2) + (T * Mb * LE * M + Q * h ^ 2) + P * h ^ 2) + L * h ^ 2)) := by
      gcongr
    have k2 : M * (1 + c1 * h) + c2 * h ^ 3 = M + h * (G ^ 4 * (M + ((T * Mb * LE * M + Q * h ^ 2) + (T * Mb * LE * M + Q * h ^ 2) + P * h ^ 2) + L * h ^ 2)) + S * h ^ 3 := by
      rw [hc1, hc2]; ring
    rw [k2]
    linarith

end

/-! ### Example: `v' = -∫ v`, that is `x = sin`, `v = cos` -/

theorem exGle (T : ℝ) : Spec.Gle (d := 1) (b := 1) T (fun _ => 0) (fun _ w => w) (fun _ => !![1])
    (fun t _ => Real.sin t) (fun t _ => Real.cos t) := by
  constructor
  · intro t _ i
    exact (Real.hasDerivAt_sin t).hasDerivWithinAt
  · intro t _ i
    have : ∫ s in (0 : ℝ)..t, Real.cos (t - s) = Real.sin t := by
      rw [intervalIntegral.integral_comp_sub_left (f := Real.cos), integral_cos]; simp
    simpa [Matrix.vecMul, dotProduct, this] using (Real.hasDerivAt_cos t).hasDerivWithinAt

/-- The integrator for it, with a kernel of `len` points. -/
noncomputable def exGleInt (dt : ℝ) (len : ℕ) : Integrator ℝ 1 1 1 1 where
  basis _ _ := 1
  vec := constVec
  proj := 1
  forceCoeff := 0
  kernel := ⟨len, fun _ => !![1]⟩
  dt := dt

theorem exGleInt_holds {dt T : ℝ} {len : ℕ} (h2 : 2 ≤ len) (hT : T ≤ (len - 1 : ℕ) * dt) :
    HoldsGle T (fun _ => 0) (fun _ w => w) (fun _ => !![1]) (exGleInt dt len) where
  force y := by simp [exGleInt]
  funs y w := by simp [exGleInt, constVec]
  len := h2
  kernel j _ _ := rfl
  cover := .inl hT

/-- Initial data on the solution. -/
noncomputable def exGleInit (dt : ℝ) (n : ℕ) : InitData ℝ 1 :=
  ⟨n, fun t => t * dt, fun t _ => Real.sin (t * dt), fun t _ => Real.cos (t * dt)⟩

theorem exGle_converges : ∃ C δ : ℝ, 0 < δ ∧ ∀ N : ℕ, 2 ≤ N → 1 / (N : ℝ) ≤ δ →
    ∃ trj, (exGleInt (1 / N) (N + 1)).run (N + 1) (some (exGleInit (1 / N) 1)) 0 = .ok trj ∧
      |trj.x N 0 - Real.sin 1| ≤ C * (1 / N) ^ 2 := by
  obtain ⟨C, δ, hδ, H⟩ := C133_run_converges (κ' := fun _ => 0) (exGle 1) contDiff_const contDiff_snd
    (fun t _ i j => by simpa using hasDerivWithinAt_const t _ _) ⟨0, by simp⟩
  refine ⟨C, δ, hδ, fun N hN h => ?_⟩
  have hN0 : (0 : ℝ) < N := by exact_mod_cast (by omega : 0 < N)
  have hN1 : ((N + 1 - 1 : ℕ) : ℝ) * (1 / N) = 1 := by
    rw [Nat.add_sub_cancel]
    field_simp
  obtain ⟨trj, h1, h2⟩ := H 1 1 (exGleInt (1 / N) (N + 1)) (N + 1) (exGleInit (1 / N) 1) (by simp [exGleInt]; omega) h hN1.le
    (exGleInt_holds (by omega) hN1.ge) le_rfl (by simp [exGleInit]) (fun t _ => ⟨rfl, rfl, rfl⟩)
  refine ⟨trj, h1, ?_⟩
  have := (h2 N (by omega) 0).1
  have e : (N : ℝ) * (exGleInt (1 / N) (N + 1)).dt = 1 := by
    simp only [exGleInt]
    field_simp
  rw [e] at this
  exact this

/-- **C133** The order two cannot be improved, although the steps are of Runge-Kutta type of order four: in this example
the velocity of the first computed row is wrong by at least `dt²/8`. -/
theorem C133_order_sharp {dt : ℝ} (h0 : 0 < dt) (h1 : dt ≤ 1 / 2) {len nSteps : ℕ} (hl : 2 ≤ len) (hn : 1 < nSteps) :
    ∃ trj, (exGleInt dt len).run nSteps (some (exGleInit dt 1)) 0 = .ok trj ∧
      dt ^ 2 / 8 ≤ |trj.v 1 0 - Real.cos dt| := by
  obtain ⟨trj, ht⟩ := (exGleInt dt len).run_ok (nSteps := nSteps) (x0 := some (exGleInit dt 1)) 0 hl le_rfl
    (by simp [exGleInit]; omega) (by rintro D ⟨⟩ t _; rfl)
  refine ⟨trj, ht, ?_⟩
  have hf := C66_first_step ht rfl hn
  have hi := ((C67_initial ht).2.1 _ rfl).2 0 Nat.zero_lt_one
  have hv0 : trj.v 0 = fun _ => 1 := by rw [hi.2]; funext i; simp [exGleInit]
  have hm : min 1 (len - 1) = 1 := by omega
  have hv := congrFun (congrArg Prod.snd hf) 0
  simp [Spec.rk4, Spec.memory, Spec.trapzRule, history, hv0, exGleInt, constVec, hm] at hv
  have hc := Real.one_sub_sq_div_two_le_cos (x := dt)
  have hv' : trj.v 1 0 = 1 - dt ^ 2 / 12 * (6 + (1 - dt ^ 2 / 4) + (1 - dt ^ 2 / 4 * (1 + (1 - dt ^ 2 / 4) / 2)) +
      (1 - dt ^ 2 / 2 * (1 + (1 - dt ^ 2 / 4 * (1 + (1 - dt ^ 2 / 4) / 2)) / 2))) := by
    rw [hv]
    ring
  have p2 : dt ^ 2 ≤ 1 / 4 := by nlinarith
  have p3 : 0 ≤ dt ^ 2 := by positivity
  rw [hv', abs_sub_comm]
  refine le_trans ?_ (le_abs_self _)
  generalize dt ^ 2 = s at *
  have a1 : s / 4 * (1 + (1 - s / 4) / 2) ≤ 1 / 8 := by nlinarith
  have a2 : 0 ≤ s / 4 * (1 + (1 - s / 4) / 2) := by
    have : 0 ≤ 1 + (1 - s / 4) / 2 := by linarith
    positivity
  generalize s / 4 * (1 + (1 - s / 4) / 2) = q at *
  have a3 : s / 2 * (1 + (1 - q) / 2) ≤ 1 / 4 := by nlinarith
  generalize s / 2 * (1 + (1 - q) / 2) = r at *
  have a4 : s / 12 * 8 ≤ s / 12 * (6 + (1 - s / 4) + (1 - q) + (1 - r)) := by
    have : (8 : ℝ) ≤ 6 + (1 - s / 4) + (1 - q) + (1 - r) := by linarith
    gcongr
  linarith

example := C133_order_sharp (dt := 1 / 10) (by norm_num) (by norm_num) (len := 11) (nSteps := 11) (by norm_num) (by norm_num)

/-- **C133** The functions of the memory of `Integrator_gle` are the time derivatives of the functions of the basis
(projected, if there is a projection) along the motion. -/
theorem C133_basis_velocity {d nB nD b : ℕ} (I : Integrator ℝ d nB nD b) {φ : (Fin d → ℝ) → Fin nD → ℝ}
    {L : (Fin d → ℝ) → Fin nD → (Fin d → ℝ) →L[ℝ] ℝ} {deriv : (Fin d → ℝ) → Fin nD → Fin d → ℝ}
    (hI : I.vec = gleVec deriv) (hφ : ∀ y l, HasFDerivAt (fun y => φ y l) (L y l) y)
    (hd : ∀ y l i, deriv y l i = L y l (Pi.single i 1)) {x v : ℝ → Fin d → ℝ} {s : Set ℝ} {t : ℝ}
    (hx : ∀ i, HasDerivWithinAt (fun r => x r i) (v t i) s t) (k : Fin b) :
    HasDerivWithinAt (fun r => I.proj.mulVec (φ (x r)) k) (I.proj.mulVec (I.vec (x t) (v t)) k) s t := by
  have hx' : HasDerivWithinAt x (v t) s t := hasDerivWithinAt_pi.2 hx
  have h1 : ∀ l, HasDerivWithinAt (fun r => φ (x r) l) (gleVec deriv (x t) (v t) l) s t := by
    intro l
    have := (hφ (x t) l).comp_hasDerivWithinAt t hx'
    have e : gleVec deriv (x t) (v t) l = L (x t) l (v t) := by
      conv_rhs => rw [pi_eq_sum_univ' (v t)]
      rw [map_sum]
      refine Finset.sum_congr rfl fun i _ => ?_
      rw [map_smul, hd, smul_eq_mul, mul_comm]
    rw [e]
    exact this
  rw [hI]
  simp only [Matrix.mulVec, dotProduct]
  exact HasDerivWithinAt.fun_sum fun l _ => (h1 l).const_mul _

example := C133_basis_velocity (d := 2) (nB := 1) (nD := 1) (b := 1)
  ⟨fun _ _ => 0, gleVec fun _ _ _ => 1, 1, 0, ⟨2, fun _ => 0⟩, 1⟩ (φ := fun y _ => y 0 + y 1) (deriv := fun _ _ _ => 1)
  (L := fun _ _ => ContinuousLinearMap.proj 0 + ContinuousLinearMap.proj 1) rfl
  (fun y _ => (hasFDerivAt_apply 0 y).add (hasFDerivAt_apply 1 y)) (fun _ _ i => by fin_cases i <;> simp)
  (x := fun r _ => r ^ 2) (v := fun r _ => 2 * r) (s := Set.univ) (t := 3)
  (fun _ => by simpa using hasDerivAt_pow 2 (3 : ℝ)) 0

end Verif
