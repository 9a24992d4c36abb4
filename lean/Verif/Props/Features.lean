import Verif.Lemmas.Features
import Verif.Spec.Features

/-!
# C50 to C55: linear, polynomial and Fourier features
-/

set_option linter.unusedSectionVars false

namespace Verif

open Polynomial Spec

/-! ### C50 -/

/-- **C50**, first derivatives. For every family of polynomials, degree, dimension and point, column `j` of `deriv` is the
gradient of column `j` of `basis`, shifted by the `dim` dropped functions when `remove_const` is set. -/
theorem C50_deriv (P : ℕ → ℝ[X]) (degree : ℕ) (constRemoved : Bool) (dim : ℕ) (x : ℕ → ℝ) (j i : ℕ)
    (hj : j < (polyDeriv P degree constRemoved dim 1 x).len) :
    PartialDeriv (fun y => (polyBasis P degree dim y).get (j + withConst constRemoved * dim)) x i
      ((polyDeriv P degree constRemoved dim 1 x).get j [i]) :=
  fillBasis_hasDerivAt _ _ (fun n s => by simpa using (P n).hasDerivAt s) _ _ _ _ _ _ hj

/-- **C50**, second derivatives: `hessian` is the derivative of `deriv` with respect to every coordinate. -/
theorem C50_hessian (P : ℕ → ℝ[X]) (degree : ℕ) (constRemoved : Bool) (dim : ℕ) (x : ℕ → ℝ) (j i i' : ℕ) :
    PartialDeriv (fun y => (polyDeriv P degree constRemoved dim 1 y).get j [i]) x i'
      ((polyDeriv P degree constRemoved dim 2 x).get j [i', i]) :=
  fillDeriv_hasDerivAt _ _ (fun n s => by
    simp only [Function.iterate_succ, Function.iterate_zero, Function.comp, id]
    exact (derivative (P n)).hasDerivAt s) _ _ _ _ _ _ _ _

/-- **C50** for `deriv_order` in general: each order is the gradient of the previous one. -/
theorem C50_deriv_order (P : ℕ → ℝ[X]) (degree : ℕ) (constRemoved : Bool) (dim r : ℕ) (x : ℕ → ℝ) (j i : ℕ)
    (idx : List ℕ) :
    PartialDeriv (fun y => (polyDeriv P degree constRemoved dim r y).get j idx) x i
      ((polyDeriv P degree constRemoved dim (r + 1) x).get j (i :: idx)) :=
  fillDeriv_hasDerivAt _ _ (fun n s => by
    rw [Function.iterate_succ_apply']
    exact (derivative^[r] (P n)).hasDerivAt s) _ _ _ _ _ _ _ _

/-- **C50**, what is dropped: with `remove_const` exactly the first `dim` functions have no derivative column, and they are
constant (for the families of numpy, `polynom.basis(0)` has degree zero); without it nothing is dropped. -/
theorem C50_dropped (P : ℕ → ℝ[X]) (degree dim : ℕ) (x y : ℕ → ℝ) (hP : (P 0).natDegree = 0) (hd : 0 < degree) :
    (polyDeriv P degree true dim 1 x).len + dim = (polyBasis P degree dim x).len ∧
    (polyDeriv P degree false dim 1 x).len = (polyBasis P degree dim x).len ∧
    ∀ j < dim, (polyBasis P degree dim x).get j = (polyBasis P degree dim y).get j := by
  obtain ⟨n, rfl⟩ : ∃ n, degree = n + 1 := ⟨degree - 1, by omega⟩
  refine ⟨?_, rfl, fun j hj => ?_⟩
  · simp only [polyDeriv, polyBasis, fillDeriv, fillBasis, withConst, if_true, Nat.add_sub_cancel, Nat.mul_add, Nat.mul_one]
  · obtain ⟨c, hc⟩ := natDegree_eq_zero.1 hP
    have h1 : j < dim * (n + 1) := lt_of_lt_of_le hj (Nat.le_mul_of_pos_right _ (Nat.succ_pos n))
    simp only [polyBasis, fillBasis_get, h1, if_true, Nat.div_eq_of_lt hj, ← hc, eval_C]

/-- The columns of `basis`: function `m` of coordinate `i` is in column `m * dim + i`. -/
theorem C50_basis_columns (P : ℕ → ℝ[X]) (degree dim : ℕ) (x : ℕ → ℝ) (m i : ℕ) (hm : m < degree) (hi : i < dim) :
    (polyBasis P degree dim x).get (m * dim + i) = (P m).eval (x i) := by
  have h1 : m * dim + i < dim * degree := by
    calc m * dim + i < (m + 1) * dim := by rw [Nat.add_mul]; omega
      _ ≤ degree * dim := Nat.mul_le_mul_right _ hm
      _ = _ := Nat.mul_comm _ _
  have e1 : (m * dim + i) / dim = m := by
    rw [Nat.mul_comm, Nat.mul_add_div (by omega), Nat.div_eq_of_lt hi, Nat.add_zero]
  have e2 : (m * dim + i) % dim = i := by
    rw [Nat.mul_comm, Nat.mul_add_mod, Nat.mod_eq_of_lt hi]
  simp only [polyBasis, fillBasis_get, h1, if_true, e1, e2]

/-- The monomials in dimension two with the constant removed: a case with all the features of C50. -/
example : PartialDeriv (fun y => (polyBasis (fun n => (X : ℝ[X]) ^ n) 3 2 y).get (3 + 1 * 2)) (fun k => k) 1
    ((polyDeriv (fun n => (X : ℝ[X]) ^ n) 3 true 2 1 (fun k => k)).get 3 [1]) :=
  C50_deriv (fun n => X ^ n) 3 true 2 (fun k => k) 3 1 (by decide)

example : (polyDeriv (fun n => (X : ℝ[X]) ^ n) 3 true 2 1 (fun k => k)).get 3 [1] = 2 := by
  simp [polyDeriv, fillDeriv_get, withConst, derivative_X_pow]

example := C50_dropped (fun n => (X : ℝ[X]) ^ n) 3 2 (fun k => k) 0 (by simp) (by decide)

example := C50_basis_columns (fun n => (X : ℝ[X]) ^ n) 3 2 (fun k => k) 2 1 (by decide) (by decide)

/-! ### C51 -/

/-- **C51**. Column `j` of `antiderivative` is a function of the coordinate `j % dim` only, its derivative is column `j` of
`basis`, and it vanishes at zero. -/
theorem C51_antiderivative (P : ℕ → ℝ[X]) (degree dim : ℕ) (x : ℕ → ℝ) (j : ℕ) :
    (∀ i, PartialDeriv (fun y => (polyAntiderivative P degree dim 1 y).get j) x i
      (if i = j % dim then (polyBasis P degree dim x).get j else 0)) ∧
    (x (j % dim) = 0 → (polyAntiderivative P degree dim 1 x).get j = 0) := by
  constructor
  · intro i
    simp only [PartialDeriv, polyAntiderivative, polyBasis, fillBasis_get, Function.iterate_succ, Function.iterate_zero,
      Function.comp, id]
    by_cases hj : j < dim * degree
    · simp only [hj, if_true]
      by_cases hi : i = j % dim
      · subst hi
        simp only [Function.update_self, if_true]
        have h := (polyInteg (P (j / dim))).hasDerivAt (x (j % dim))
        rwa [derivative_polyInteg] at h
      · simp only [if_neg hi, Function.update_of_ne (Ne.symm hi)]
        exact hasDerivAt_const _ _
    · simp only [hj, if_false, ite_self]
      exact hasDerivAt_const _ _
  · intro h0
    simp only [polyAntiderivative, fillBasis_get, h0, Function.iterate_succ, Function.iterate_zero, Function.comp, id,
      polyInteg_eval_zero, ite_self]

/-- **C51** for the repeated antiderivative. -/
theorem C51_antiderivative_order (P : ℕ → ℝ[X]) (degree dim r : ℕ) (x : ℕ → ℝ) (j i : ℕ) :
    PartialDeriv (fun y => (polyAntiderivative P degree dim (r + 1) y).get j) x i
      (if i = j % dim then (polyAntiderivative P degree dim r x).get j else 0) := by
  simp only [PartialDeriv, polyAntiderivative, fillBasis_get, Function.iterate_succ_apply']
  by_cases hj : j < dim * degree
  · simp only [hj, if_true]
    by_cases hi : i = j % dim
    · subst hi
      simp only [Function.update_self, if_true]
      have h := (polyInteg (polyInteg^[r] (P (j / dim)))).hasDerivAt (x (j % dim))
      rwa [derivative_polyInteg] at h
    · simp only [if_neg hi, Function.update_of_ne (Ne.symm hi)]
      exact hasDerivAt_const _ _
  · simp only [hj, if_false, ite_self]
    exact hasDerivAt_const _ _

/-- The antiderivative of `s ^ 2` at `3` is `9`. -/
example : (polyAntiderivative (fun n => (X : ℝ[X]) ^ n) 3 1 1 (fun _ => 3)).get 2 = 9 := by
  simp only [polyAntiderivative, fillBasis_get, Function.iterate_succ, Function.iterate_zero, Function.comp, id, polyInteg]
  rw [show (2 : ℕ) / 1 = 2 from rfl, ← monomial_one_right_eq_X_pow, sum_monomial_index _ _ (by simp)]
  norm_num [eval_monomial]

/-! ### C52 -/

/-- **C52**, first derivatives. -/
theorem C52_deriv (freq : ℝ) (order : ℕ) (constRemoved : Bool) (dim : ℕ) (x : ℕ → ℝ) (j i : ℕ)
    (hj : j < (fourierDeriv freq order constRemoved dim 1 x).len) :
    PartialDeriv (fun y => (fourierBasis freq order dim y).get (j + withConst constRemoved * dim)) x i
      ((fourierDeriv freq order constRemoved dim 1 x).get j [i]) :=
  fillBasis_hasDerivAt _ _ (fourierFn_hasDerivAt freq) _ _ _ _ _ _ hj

/-- **C52**, second derivatives, also through `deriv_order=2`. -/
theorem C52_hessian (freq : ℝ) (order : ℕ) (constRemoved : Bool) (dim : ℕ) (x : ℕ → ℝ) (j i i' : ℕ) :
    PartialDeriv (fun y => (fourierDeriv freq order constRemoved dim 1 y).get j [i]) x i'
      ((fourierHessian freq order constRemoved dim x).get j [i', i]) ∧
    fourierDeriv freq order constRemoved dim 2 x = fourierHessian freq order constRemoved dim x :=
  ⟨fillDeriv_hasDerivAt _ _ (fourierFnDeriv_hasDerivAt freq) _ _ _ _ _ _ _ _, rfl⟩

/-- **C52**, what is dropped: the `dim` constant functions. -/
theorem C52_dropped (freq : ℝ) (order dim : ℕ) (x y : ℕ → ℝ) :
    (fourierDeriv freq order true dim 1 x).len + dim = (fourierBasis freq order dim x).len ∧
    (fourierDeriv freq order false dim 1 x).len = (fourierBasis freq order dim x).len ∧
    ∀ j < dim, (fourierBasis freq order dim x).get j = (fourierBasis freq order dim y).get j := by
  refine ⟨?_, rfl, fun j hj => ?_⟩
  · simp only [fourierDeriv, fourierBasis, fillDeriv, fillBasis, withConst, if_true, Nat.add_sub_cancel, Nat.mul_add,
      Nat.mul_one, OfNat.one_ne_ofNat, if_false]
  · have h1 : j < dim * (2 * order + 1) := lt_of_lt_of_le hj (Nat.le_mul_of_pos_right _ (Nat.succ_pos _))
    simp only [fourierBasis, fillBasis_get, h1, if_true, Nat.div_eq_of_lt hj, fourierFn]

example : PartialDeriv (fun y => (fourierBasis 3 2 2 y).get (5 + 1 * 2)) (fun k => k) 1
    ((fourierDeriv 3 2 true 2 1 (fun k => k)).get 5 [1]) :=
  C52_deriv 3 2 true 2 (fun k => k) 5 1 (by decide)

example := C52_hessian 3 2 true 2 (fun k => k) 5 1 1

/-! ### C53 -/

/-- **C53**. For `freq ≠ 0` the derivative of column `j` of `antiderivative` is column `j` of `basis`. -/
theorem C53_antiderivative (freq : ℝ) (hf : freq ≠ 0) (order dim : ℕ) :
    ∃ A : (ℕ → ℝ) → Arr ℝ, (∀ x, fourierAntiderivative freq order dim 1 x = .ok (A x)) ∧
      ∀ x j i, PartialDeriv (fun y => (A y).get j) x i (if i = j % dim then (fourierBasis freq order dim x).get j else 0) := by
  refine ⟨fun x => fillBasis (2 * order + 1) dim (fourierFnAnti freq) x, fun x => by simp [fourierAntiderivative], ?_⟩
  intro x j i
  simp only [PartialDeriv, fourierBasis, fillBasis_get]
  by_cases hj : j < dim * (2 * order + 1)
  · simp only [hj, if_true]
    by_cases hi : i = j % dim
    · subst hi
      simp only [Function.update_self, if_true]
      exact fourierFnAnti_hasDerivAt freq hf _ _
    · simp only [if_neg hi, Function.update_of_ne (Ne.symm hi)]
      exact hasDerivAt_const _ _
  · simp only [hj, if_false, ite_self]
    exact hasDerivAt_const _ _

example := C53_antiderivative 2 (by norm_num) 3 2

/-! ### C54 -/

/-- **C54**. For `freq = 1` the functions of each coordinate are orthonormal on `[0, 2π]`. -/
theorem C54_orthonormal (order dim : ℕ) (x : ℕ → ℝ) (i m n : ℕ) (hi : i < dim) (hm : m < 2 * order + 1)
    (hn : n < 2 * order + 1) :
    ∫ t in (0 : ℝ)..(2 * Real.pi), (fourierBasis 1 order dim (Function.update x i t)).get (m * dim + i) *
      (fourierBasis 1 order dim (Function.update x i t)).get (n * dim + i) = if m = n then 1 else 0 := by
  have col : ∀ (q : ℕ) (t : ℝ), q < 2 * order + 1 →
      (fourierBasis 1 order dim (Function.update x i t)).get (q * dim + i) = fourierFn 1 q t := by
    intro q t hq
    have h1 : q * dim + i < dim * (2 * order + 1) := by
      calc q * dim + i < (q + 1) * dim := by rw [Nat.add_mul]; omega
        _ ≤ (2 * order + 1) * dim := Nat.mul_le_mul_right _ hq
        _ = _ := Nat.mul_comm _ _
    have e1 : (q * dim + i) / dim = q := by
      rw [Nat.mul_comm, Nat.mul_add_div (by omega), Nat.div_eq_of_lt hi, Nat.add_zero]
    have e2 : (q * dim + i) % dim = i := by
      rw [Nat.mul_comm, Nat.mul_add_mod, Nat.mod_eq_of_lt hi]
    simp only [fourierBasis, fillBasis_get, h1, if_true, e1, e2, Function.update_self]
  simp only [col m _ hm, col n _ hn]
  exact fourier_orthonormal m n

example := C54_orthonormal 2 3 (fun _ => 0) 1 4 3 (by decide) (by decide) (by decide)

/-! ### C55 -/

/-- **C55**, the derivatives of the linear features: `deriv` is the gradient of `basis`, and `hessian` of `deriv`, centred
or not. -/
theorem C55_deriv (dim : ℕ) (centered : Bool) (mean : ℕ → ℝ) (x : ℕ → ℝ) (j i : ℕ) (hj : j < dim) (i' : ℕ) :
    PartialDeriv (fun y => (linearBasis dim (linearMean centered mean) y).get j) x i ((linearDeriv dim 1 x).get j [i]) ∧
    PartialDeriv (fun y => (linearDeriv dim 1 y).get j [i]) x i' ((linearDeriv dim 2 x).get j [i', i]) := by
  have key : ∀ (d : ℕ) (j : ℕ) (idx : List ℕ), forRange 0 d (fun i (f : ℕ → List ℕ → ℝ) => Function.update f i (Function.update (f i) [i] (1 : ℝ)))
      (fun _ _ => 0) j idx = if j < d ∧ idx = [j] then 1 else 0 := by
    intro d
    induction d with
    | zero => intro j idx; rw [forRange_of_le le_rfl]; simp
    | succ d ih =>
      intro j idx
      rw [forRange_succ (Nat.zero_le d)]
      by_cases hj : j = d
      · subst hj
        rw [Function.update_self]
        by_cases hi : idx = [j]
        · subst hi; simp
        · rw [Function.update_of_ne hi, ih]; simp [hi]
      · rw [Function.update_of_ne hj, ih]
        exact if_congr (and_congr_left fun _ => by omega) rfl rfl
  constructor
  · simp only [PartialDeriv, linearBasis, linearDeriv, if_true, key, hj, true_and, List.cons.injEq, and_true]
    by_cases hi : i = j
    · subst hi
      simp only [Function.update_self, if_true]
      exact (hasDerivAt_id _).sub_const _
    · simp only [if_neg hi, Function.update_of_ne (Ne.symm hi)]
      exact hasDerivAt_const _ _
  · simp only [PartialDeriv, linearDeriv]
    exact hasDerivAt_const _ _

/-- **C55**, the antiderivative. Proved: not centred, the derivative of `antiderivative` is `basis`. Full statement:
the same with `to_center=True`; this is false, see `C55_antiderivative_centred`. -/
theorem C55_antiderivative_partial (dim : ℕ) (mean : ℕ → ℝ) (x : ℕ → ℝ) (j i : ℕ) :
    PartialDeriv (fun y => (linearAntiderivative dim y).get j) x i
      (if i = j then (linearBasis dim (linearMean false mean) x).get j else 0) := by
  simp only [PartialDeriv, linearAntiderivative, linearBasis, linearMean, Bool.false_eq_true, if_false, sub_zero]
  by_cases hi : i = j
  · subst hi
    simp only [Function.update_self, if_true]
    have h := ((hasDerivAt_id (x i)).pow 2).const_mul (1 / 2)
    refine h.congr_deriv ?_
    simp
  · simp only [if_neg hi, Function.update_of_ne (Ne.symm hi)]
    exact hasDerivAt_const _ _

/-- **C55** fails for centred features: `antiderivative` ignores the mean, so that its derivative differs from `basis` by
exactly the mean, at every point. -/
theorem C55_antiderivative_centred (dim : ℕ) (mean : ℕ → ℝ) (x : ℕ → ℝ) (j : ℕ) :
    PartialDeriv (fun y => (linearAntiderivative dim y).get j) x j
      ((linearBasis dim (linearMean true mean) x).get j + mean j) ∧
    (mean j ≠ 0 → ¬ PartialDeriv (fun y => (linearAntiderivative dim y).get j) x j
      ((linearBasis dim (linearMean true mean) x).get j)) := by
  have h := C55_antiderivative_partial dim mean x j j
  simp only [if_true, linearBasis, linearMean, Bool.false_eq_true, if_false, sub_zero] at h
  simp only [linearBasis, linearMean, if_true]
  refine ⟨by simpa using h, fun hm h' => hm ?_⟩
  have := h.unique h'
  linarith

example := C55_deriv 2 true (fun _ => 1) (fun k => k) 1 1 (by decide) 0

example : ¬ PartialDeriv (fun y => (linearAntiderivative 1 y).get 0) (fun _ => 2) 0
    ((linearBasis 1 (linearMean true (fun _ => 1)) (fun _ => 2)).get 0) :=
  (C55_antiderivative_centred 1 (fun _ => 1) (fun _ => 2) 0).2 (by norm_num)

end Verif
