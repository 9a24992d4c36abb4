import Verif.Model.Features
import Verif.Lemmas.Loops
import Mathlib.Analysis.Calculus.Deriv.Polynomial
import Mathlib.Analysis.SpecialFunctions.Trigonometric.Deriv
import Mathlib.Analysis.SpecialFunctions.Integrals.Basic

/-!
# Lemmas on the features
-/

set_option linter.unusedSectionVars false

namespace Verif

section
variable {K : Type*} [Zero K]

theorem fillBasis_get (degree dim : ℕ) (φ : ℕ → K → K) (x : ℕ → K) (j : ℕ) :
    (fillBasis degree dim φ x).get j = if j < dim * degree then φ (j / dim) (x (j % dim)) else 0 := by
  simp only [fillBasis]
  induction degree with
  | zero => simp [forRange_of_le]
  | succ n ih =>
    rw [forRange_succ (Nat.zero_le n)]
    simp only [writeBlock]
    rw [ih]
    by_cases h : j < dim * n
    · have h1 : ¬ (n * dim ≤ j ∧ j < (n + 1) * dim) := by rw [Nat.mul_comm n]; omega
      have h2 : j < dim * (n + 1) := by rw [Nat.mul_add]; omega
      rw [if_neg h1, if_pos h, if_pos h2]
    · by_cases h2 : j < dim * (n + 1)
      · have h1 : n * dim ≤ j ∧ j < (n + 1) * dim := by rw [Nat.mul_comm n, Nat.mul_comm (n + 1)]; omega
        have hd : 0 < dim := by
          rcases Nat.eq_zero_or_pos dim with h0 | h0
          · subst h0; simp at h2
          · exact h0
        have e : j / dim = n := by
          rw [Nat.div_eq_iff hd]
          rw [Nat.mul_add, Nat.mul_comm] at h2
          omega
        have e2 : j - n * dim = j % dim := by
          have := Nat.div_add_mod j dim
          rw [e, Nat.mul_comm] at this
          omega
        rw [if_pos h1, if_pos h2, e, e2]
      · have h1 : ¬ (n * dim ≤ j ∧ j < (n + 1) * dim) := by rw [Nat.mul_comm (n + 1)]; omega
        rw [if_neg h1, if_neg h, if_neg h2]

theorem fillDeriv_inner (base dim order n : ℕ) (dφ : ℕ → K → K) (x : ℕ → K) (f : ℕ → List ℕ → K) (j : ℕ) (idx : List ℕ) :
    forRange 0 dim (fun i f => Function.update f (base + i)
      (Function.update (f (base + i)) (List.replicate order i) (dφ n (x i)))) f j idx =
    if base ≤ j ∧ j < base + dim ∧ idx = List.replicate order (j - base) then dφ n (x (j - base)) else f j idx := by
  induction dim with
  | zero =>
    rw [forRange_of_le le_rfl, if_neg (by omega)]
  | succ d ih =>
    rw [forRange_succ (Nat.zero_le d)]
    by_cases hj : j = base + d
    · subst hj
      rw [Function.update_self]
      have e : base + d - base = d := by omega
      by_cases hi : idx = List.replicate order d
      · subst hi
        rw [Function.update_self, if_pos ⟨by omega, by omega, by rw [e]⟩, e]
      · rw [Function.update_of_ne hi, ih, if_neg (by omega), if_neg (by rw [e]; tauto)]
    · rw [Function.update_of_ne hj, ih]
      have : (base ≤ j ∧ j < base + (d + 1) ∧ idx = List.replicate order (j - base)) ↔
          (base ≤ j ∧ j < base + d ∧ idx = List.replicate order (j - base)) := by
        constructor
        · rintro ⟨h1, h2, h3⟩; exact ⟨h1, by omega, h3⟩
        · rintro ⟨h1, h2, h3⟩; exact ⟨h1, by omega, h3⟩
      simp only [this]

theorem fillDeriv_get (shift degree dim order : ℕ) (dφ : ℕ → K → K) (x : ℕ → K) (j : ℕ) (idx : List ℕ) :
    (fillDeriv shift degree dim order dφ x).get j idx =
      if j < dim * (degree - shift) ∧ idx = List.replicate order (j % dim) then dφ (shift + j / dim) (x (j % dim)) else 0 := by
  simp only [fillDeriv]
  rcases Nat.le_total degree shift with h | h
  · rw [forRange_of_le h, Nat.sub_eq_zero_of_le h]; simp
  · induction degree, h using Nat.le_induction with
    | base => rw [forRange_of_le le_rfl, Nat.sub_self]; simp
    | succ n hn ih =>
      rw [forRange_succ hn, fillDeriv_inner, ih]
      have hsub : n + 1 - shift = (n - shift) + 1 := by omega
      rw [hsub]
      set m := n - shift with hm
      by_cases h : j < dim * m
      · have h1 : ¬ (m * dim ≤ j ∧ j < m * dim + dim ∧ idx = List.replicate order (j - m * dim)) := by
          rw [Nat.mul_comm m]; omega
        have h2 : j < dim * (m + 1) := by rw [Nat.mul_add]; omega
        rw [if_neg h1]
        simp only [h, h2, true_and]
      · by_cases h2 : j < dim * (m + 1)
        · have h1 : m * dim ≤ j ∧ j < m * dim + dim := by
            rw [Nat.mul_comm m]; rw [Nat.mul_add, Nat.mul_one] at h2; omega
          have hd : 0 < dim := by omega
          have e : j / dim = m := by
            rw [Nat.div_eq_iff hd]
            obtain ⟨a, b⟩ := h1
            omega
          have e2 : j - m * dim = j % dim := by
            have := Nat.div_add_mod j dim
            rw [e, Nat.mul_comm] at this
            omega
          have e3 : shift + m = n := by omega
          simp only [h1, h2, h, true_and, false_and, if_false, e, e2, e3]
        · have h1 : ¬ (m * dim ≤ j ∧ j < m * dim + dim ∧ idx = List.replicate order (j - m * dim)) := by
            rintro ⟨_, b, _⟩
            rw [Nat.mul_add, Nat.mul_one, Nat.mul_comm] at h2
            exact h2 b
          rw [if_neg h1]
          simp only [h, h2, false_and]

end

/-- The first derivatives of features of the coordinates. -/
theorem fillBasis_hasDerivAt (φ dφ : ℕ → ℝ → ℝ) (h : ∀ n s, HasDerivAt (φ n) (dφ n s) s) (shift degree dim : ℕ)
    (x : ℕ → ℝ) (j i : ℕ) (hj : j < dim * (degree - shift)) :
    HasDerivAt (fun s => (fillBasis degree dim φ (Function.update x i s)).get (j + shift * dim))
      ((fillDeriv shift degree dim 1 dφ x).get j [i]) (x i) := by
  have hd : 0 < dim := Nat.pos_of_ne_zero fun h0 => by subst h0; simp at hj
  have hj' : j + shift * dim < dim * degree := by
    have hs : shift ≤ degree := by
      by_contra hc
      rw [Nat.sub_eq_zero_of_le (by omega)] at hj; simp at hj
    obtain ⟨m, rfl⟩ := Nat.exists_eq_add_of_le hs
    rw [Nat.add_sub_cancel_left] at hj
    rw [Nat.mul_add, Nat.mul_comm shift]; omega
  have e1 : (j + shift * dim) / dim = shift + j / dim := by
    rw [Nat.add_mul_div_right _ _ hd, Nat.add_comm]
  have e2 : (j + shift * dim) % dim = j % dim := Nat.add_mul_mod_self_right _ _ _
  simp only [fillBasis_get, fillDeriv_get, hj', hj, if_true, true_and, e1, e2, List.replicate_one, List.cons.injEq, and_true]
  by_cases hi : i = j % dim
  · subst hi
    simpa using h _ _
  · rw [if_neg hi]
    simp only [Function.update_of_ne (Ne.symm hi)]
    exact hasDerivAt_const _ _

/-- The derivatives of the derivatives. -/
theorem fillDeriv_hasDerivAt (dφ ddφ : ℕ → ℝ → ℝ) (h : ∀ n s, HasDerivAt (dφ n) (ddφ n s) s) (shift degree dim r : ℕ)
    (x : ℕ → ℝ) (j i : ℕ) (idx : List ℕ) :
    HasDerivAt (fun s => (fillDeriv shift degree dim r dφ (Function.update x i s)).get j idx)
      ((fillDeriv shift degree dim (r + 1) ddφ x).get j (i :: idx)) (x i) := by
  simp only [fillDeriv_get, List.replicate_succ, List.cons.injEq]
  by_cases hj : j < dim * (degree - shift) ∧ idx = List.replicate r (j % dim)
  · simp only [hj, true_and, and_true, if_true]
    by_cases hi : i = j % dim
    · subst hi
      simpa using h _ _
    · rw [if_neg (by tauto)]
      simp only [Function.update_of_ne (Ne.symm hi)]
      exact hasDerivAt_const _ _
  · rw [if_neg (by tauto)]
    simp only [hj, if_false]
    exact hasDerivAt_const _ _

/-! ### Polynomials -/

open Polynomial

theorem derivative_polyInteg (p : ℝ[X]) : derivative (polyInteg p) = p := by
  unfold polyInteg
  rw [Polynomial.sum, derivative_sum]
  conv_rhs => rw [← Polynomial.sum_monomial_eq p, Polynomial.sum]
  refine Finset.sum_congr rfl fun n _ => ?_
  rw [derivative_monomial]
  have : ((n : ℝ) + 1) ≠ 0 := by positivity
  congr 1
  push_cast
  field_simp

theorem polyInteg_eval_zero (p : ℝ[X]) : (polyInteg p).eval 0 = 0 := by
  unfold polyInteg
  rw [Polynomial.sum, eval_finsetSum]
  exact Finset.sum_eq_zero fun n _ => by simp

/-! ### Fourier series -/

theorem fourierFn_hasDerivAt (freq : ℝ) (n : ℕ) (s : ℝ) : HasDerivAt (fourierFn freq n) (fourierFnDeriv freq n s) s := by
  unfold fourierFn fourierFnDeriv
  by_cases h0 : n = 0
  · subst h0
    simpa using hasDerivAt_const s (1 / Real.sqrt (2 * Real.pi))
  · by_cases h2 : n % 2 = 0
    · simp only [h0, h2, if_true, if_false]
      have h : HasDerivAt (fun t : ℝ => (n : ℝ) / 2 * t * freq) ((n : ℝ) / 2 * freq) s := by
        simpa using ((hasDerivAt_id s).const_mul ((n : ℝ) / 2)).mul_const freq
      have h' := (h.cos).div_const (Real.sqrt Real.pi)
      refine h'.congr_deriv ?_
      rw [show (n : ℝ) / 2 * freq * s = n / 2 * s * freq by ring]; ring
    · simp only [h0, h2, if_false]
      have h : HasDerivAt (fun t : ℝ => ((n : ℝ) + 1) / 2 * t * freq) (((n : ℝ) + 1) / 2 * freq) s := by
        simpa using ((hasDerivAt_id s).const_mul (((n : ℝ) + 1) / 2)).mul_const freq
      have h' := (h.sin).div_const (Real.sqrt Real.pi)
      refine h'.congr_deriv ?_
      rw [show ((n : ℝ) + 1) / 2 * freq * s = (n + 1) / 2 * s * freq by ring]; ring

theorem fourierFnDeriv_hasDerivAt (freq : ℝ) (n : ℕ) (s : ℝ) :
    HasDerivAt (fourierFnDeriv freq n) (fourierFnHess freq n s) s := by
  unfold fourierFnDeriv fourierFnHess
  by_cases h2 : n % 2 = 0
  · simp only [h2, if_true]
    have h : HasDerivAt (fun t : ℝ => (n : ℝ) / 2 * freq * t) ((n : ℝ) / 2 * freq) s := by
      simpa using (hasDerivAt_id s).const_mul ((n : ℝ) / 2 * freq)
    have h' := ((h.sin).const_mul (-(n : ℝ) / 2 * freq)).div_const (Real.sqrt Real.pi)
    refine h'.congr_deriv ?_
    ring
  · simp only [h2, if_false]
    have h : HasDerivAt (fun t : ℝ => ((n : ℝ) + 1) / 2 * freq * t) (((n : ℝ) + 1) / 2 * freq) s := by
      simpa using (hasDerivAt_id s).const_mul (((n : ℝ) + 1) / 2 * freq)
    have h' := ((h.cos).const_mul (((n : ℝ) + 1) / 2 * freq)).div_const (Real.sqrt Real.pi)
    refine h'.congr_deriv ?_
    ring

theorem fourierFnAnti_hasDerivAt (freq : ℝ) (hf : freq ≠ 0) (n : ℕ) (s : ℝ) :
    HasDerivAt (fourierFnAnti freq n) (fourierFn freq n s) s := by
  unfold fourierFnAnti fourierFn
  have hpi : Real.sqrt Real.pi ≠ 0 := (Real.sqrt_pos.2 Real.pi_pos).ne'
  by_cases h0 : n = 0
  · subst h0
    simpa using (hasDerivAt_id s).div_const (Real.sqrt (2 * Real.pi))
  · have hn : (n : ℝ) ≠ 0 := by exact_mod_cast h0
    by_cases h2 : n % 2 = 0
    · simp only [h0, h2, if_true, if_false]
      have h : HasDerivAt (fun t : ℝ => (n : ℝ) / 2 * t * freq) ((n : ℝ) / 2 * freq) s := by
        simpa using ((hasDerivAt_id s).const_mul ((n : ℝ) / 2)).mul_const freq
      have h' := (h.sin).div_const (Real.sqrt Real.pi * n / 2 * freq)
      refine h'.congr_deriv ?_
      field_simp
    · simp only [h0, h2, if_false]
      have hn1 : (n : ℝ) + 1 ≠ 0 := by positivity
      have h : HasDerivAt (fun t : ℝ => ((n : ℝ) + 1) / 2 * t * freq) (((n : ℝ) + 1) / 2 * freq) s := by
        simpa using ((hasDerivAt_id s).const_mul (((n : ℝ) + 1) / 2)).mul_const freq
      have h' := ((h.cos).const_mul (-1)).div_const (Real.sqrt Real.pi * (n + 1) / 2 * freq)
      refine h'.congr_deriv ?_
      field_simp

/-! ### Orthogonality -/

theorem integral_cos_int (k : ℤ) : ∫ t in (0 : ℝ)..(2 * Real.pi), Real.cos (k * t) = if k = 0 then 2 * Real.pi else 0 := by
  by_cases h : k = 0
  · subst h; simp
  · have hk : (k : ℝ) ≠ 0 := by exact_mod_cast h
    rw [if_neg h, intervalIntegral.integral_comp_mul_left (fun t => Real.cos t) hk]
    simp only [mul_zero, integral_cos, Real.sin_zero, sub_zero]
    have : Real.sin ((k : ℝ) * (2 * Real.pi)) = 0 := by
      rw [show (k : ℝ) * (2 * Real.pi) = ((2 * k : ℤ) : ℝ) * Real.pi by push_cast; ring, Real.sin_int_mul_pi]
    rw [this]; simp

theorem integral_sin_int (k : ℤ) : ∫ t in (0 : ℝ)..(2 * Real.pi), Real.sin (k * t) = 0 := by
  by_cases h : k = 0
  · subst h; simp
  · have hk : (k : ℝ) ≠ 0 := by exact_mod_cast h
    rw [intervalIntegral.integral_comp_mul_left (fun t => Real.sin t) hk]
    simp only [mul_zero, integral_sin, Real.cos_zero]
    have : Real.cos ((k : ℝ) * (2 * Real.pi)) = 1 := Real.cos_int_mul_two_pi k
    rw [this]; simp

theorem integral_cos_cos (a b : ℤ) : ∫ t in (0 : ℝ)..(2 * Real.pi), Real.cos (a * t) * Real.cos (b * t) =
    (if a - b = 0 then Real.pi else 0) + (if a + b = 0 then Real.pi else 0) := by
  have e : ∀ t : ℝ, Real.cos (a * t) * Real.cos (b * t) =
      (1 / 2) * Real.cos (((a - b : ℤ) : ℝ) * t) + (1 / 2) * Real.cos (((a + b : ℤ) : ℝ) * t) := by
    intro t
    push_cast
    rw [sub_mul, add_mul, Real.cos_sub, Real.cos_add]; ring
  simp only [e]
  rw [intervalIntegral.integral_add, intervalIntegral.integral_const_mul, intervalIntegral.integral_const_mul,
    integral_cos_int, integral_cos_int]
  · split_ifs <;> ring
  · exact Continuous.intervalIntegrable (by fun_prop) _ _
  · exact Continuous.intervalIntegrable (by fun_prop) _ _

theorem integral_sin_sin (a b : ℤ) : ∫ t in (0 : ℝ)..(2 * Real.pi), Real.sin (a * t) * Real.sin (b * t) =
    (if a - b = 0 then Real.pi else 0) - (if a + b = 0 then Real.pi else 0) := by
  have e : ∀ t : ℝ, Real.sin (a * t) * Real.sin (b * t) =
      (1 / 2) * Real.cos (((a - b : ℤ) : ℝ) * t) - (1 / 2) * Real.cos (((a + b : ℤ) : ℝ) * t) := by
    intro t
    push_cast
    rw [sub_mul, add_mul, Real.cos_sub, Real.cos_add]; ring
  simp only [e]
  rw [intervalIntegral.integral_sub, intervalIntegral.integral_const_mul, intervalIntegral.integral_const_mul,
    integral_cos_int, integral_cos_int]
  · split_ifs <;> ring
  · exact Continuous.intervalIntegrable (by fun_prop) _ _
  · exact Continuous.intervalIntegrable (by fun_prop) _ _

theorem integral_sin_cos (a b : ℤ) : ∫ t in (0 : ℝ)..(2 * Real.pi), Real.sin (a * t) * Real.cos (b * t) = 0 := by
  have e : ∀ t : ℝ, Real.sin (a * t) * Real.cos (b * t) =
      (1 / 2) * Real.sin (((a - b : ℤ) : ℝ) * t) + (1 / 2) * Real.sin (((a + b : ℤ) : ℝ) * t) := by
    intro t
    push_cast
    rw [sub_mul, add_mul, Real.sin_sub, Real.sin_add]; ring
  simp only [e]
  rw [intervalIntegral.integral_add, intervalIntegral.integral_const_mul, intervalIntegral.integral_const_mul,
    integral_sin_int, integral_sin_int]
  · ring
  · exact Continuous.intervalIntegrable (by fun_prop) _ _
  · exact Continuous.intervalIntegrable (by fun_prop) _ _

/-- The function number `n`, with an integer frequency. -/
theorem fourierFn_one (n : ℕ) (s : ℝ) : fourierFn 1 n s =
    if n = 0 then Real.cos (((0 : ℤ) : ℝ) * s) / Real.sqrt (2 * Real.pi)
    else if n % 2 = 0 then Real.cos (((n / 2 : ℤ) : ℝ) * s) / Real.sqrt Real.pi
    else Real.sin ((((n + 1) / 2 : ℤ) : ℝ) * s) / Real.sqrt Real.pi := by
  unfold fourierFn
  split_ifs with h0 h2
  · simp
  · obtain ⟨m, rfl⟩ := Nat.dvd_of_mod_eq_zero h2
    have : (((2 * m : ℕ) : ℤ) / 2 : ℤ) = m := by omega
    rw [this]; push_cast; congr 2; ring
  · obtain ⟨m, rfl⟩ : ∃ m, n = 2 * m + 1 := ⟨n / 2, by omega⟩
    have : ((((2 * m + 1 : ℕ) : ℤ) + 1) / 2 : ℤ) = m + 1 := by omega
    rw [this]; push_cast; congr 2; ring

theorem fourier_orthonormal (m n : ℕ) :
    ∫ t in (0 : ℝ)..(2 * Real.pi), fourierFn 1 m t * fourierFn 1 n t = if m = n then 1 else 0 := by
  have hpi : Real.sqrt Real.pi * Real.sqrt Real.pi = Real.pi := Real.mul_self_sqrt Real.pi_pos.le
  have h2pi : Real.sqrt (2 * Real.pi) * Real.sqrt (2 * Real.pi) = 2 * Real.pi :=
    Real.mul_self_sqrt (by positivity)
  have hp0 : Real.pi ≠ 0 := Real.pi_ne_zero
  simp only [fourierFn_one]
  by_cases hm0 : m = 0
  · by_cases hn0 : n = 0
    · subst hm0; subst hn0
      simp only [if_true, div_mul_div_comm, h2pi]
      rw [intervalIntegral.integral_div, integral_cos_cos]
      simp
      field_simp
      norm_num
    · subst hm0
      rw [if_neg (Ne.symm hn0)]
      by_cases hn2 : n % 2 = 0
      · simp only [hn0, hn2, if_true, if_false, div_mul_div_comm]
        rw [intervalIntegral.integral_div, integral_cos_cos, if_neg (by omega), if_neg (by omega)]; simp
      · simp only [hn0, hn2, if_true, if_false, div_mul_div_comm]
        rw [intervalIntegral.integral_div]
        simp only [mul_comm (Real.cos _)]
        rw [integral_sin_cos]; simp
  · by_cases hn0 : n = 0
    · subst hn0
      rw [if_neg hm0]
      by_cases hm2 : m % 2 = 0
      · simp only [hm0, hm2, if_true, if_false, div_mul_div_comm]
        rw [intervalIntegral.integral_div, integral_cos_cos, if_neg (by omega), if_neg (by omega)]; simp
      · simp only [hm0, hm2, if_true, if_false, div_mul_div_comm]
        rw [intervalIntegral.integral_div, integral_sin_cos]; simp
    · by_cases hm2 : m % 2 = 0 <;> by_cases hn2 : n % 2 = 0
      · simp only [hm0, hm2, hn0, hn2, if_true, if_false, div_mul_div_comm, hpi]
        rw [intervalIntegral.integral_div, integral_cos_cos]
        rw [if_neg (show ¬ ((m : ℤ) / 2 + n / 2 = 0) by omega)]
        by_cases hmn : m = n
        · subst hmn; simp [hp0]
        · rw [if_neg (by omega), if_neg hmn]; simp
      · simp only [hm0, hm2, hn0, hn2, if_true, if_false, div_mul_div_comm, hpi]
        rw [intervalIntegral.integral_div]
        simp only [mul_comm (Real.cos _)]
        rw [integral_sin_cos, if_neg (by omega)]; simp
      · simp only [hm0, hm2, hn0, hn2, if_true, if_false, div_mul_div_comm, hpi]
        rw [intervalIntegral.integral_div, integral_sin_cos, if_neg (by omega)]; simp
      · simp only [hm0, hm2, hn0, hn2, if_false, div_mul_div_comm, hpi]
        rw [intervalIntegral.integral_div, integral_sin_sin]
        rw [if_neg (show ¬ (((m : ℤ) + 1) / 2 + (n + 1) / 2 = 0) by omega)]
        by_cases hmn : m = n
        · subst hmn; simp [hp0]
        · rw [if_neg (by omega), if_neg hmn]; simp

end Verif
