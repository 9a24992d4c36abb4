import Verif.Model.Tensorial
import Verif.Model.Features
import Verif.Lemmas.Features
import Verif.Spec.Features
import Mathlib.Analysis.Calculus.Deriv.Mul
import Mathlib.Tactic.Ring
import Mathlib.Tactic.Linarith

/-!
# C58 to C60: `TensorialBasis2D`
-/

set_option linter.unusedSectionVars false
set_option linter.unusedSimpArgs false

namespace Verif

open Spec

/-! ### C58 -/

/-- **C58**, from pairs: `comb_indices` accepts exactly the pairs within range, gives a flat index within range, and
`split_index` recovers the pair. -/
theorem C58_split_comb (n1 n2 : ℕ) (i j : ℤ) :
    ((0 ≤ i ∧ i < n1 ∧ 0 ≤ j ∧ j < n2) → ∃ k, combIndices n1 n2 i j = .ok k ∧ 0 ≤ k ∧ k < n1 * n2 ∧
      splitIndex n1 n2 k = .ok (i, j)) ∧
    (¬ (0 ≤ i ∧ i < n1 ∧ 0 ≤ j ∧ j < n2) → combIndices n1 n2 i j = .error .value) := by
  refine ⟨fun h => ?_, fun h => if_neg h⟩
  obtain ⟨h1, h2, h3, h4⟩ := h
  have hlt : i * n2 + j < n1 * n2 := by nlinarith
  have hge : 0 ≤ i * n2 + j := by positivity
  refine ⟨i * n2 + j, if_pos ⟨h1, h2, h3, h4⟩, hge, hlt, ?_⟩
  have hn : (n2 : ℤ) ≠ 0 := by omega
  rw [splitIndex, if_pos ⟨hge, hlt⟩, add_comm, Int.add_mul_ediv_right _ _ hn, Int.add_mul_emod_self_right,
    Int.ediv_eq_zero_of_lt h3 h4, Int.emod_eq_of_lt h3 h4, zero_add]

/-- **C58**, from flat indices. -/
theorem C58_comb_split (n1 n2 : ℕ) (k : ℤ) :
    ((0 ≤ k ∧ k < n1 * n2) → ∃ i j, splitIndex n1 n2 k = .ok (i, j) ∧ 0 ≤ i ∧ i < n1 ∧ 0 ≤ j ∧ j < n2 ∧
      combIndices n1 n2 i j = .ok k) ∧
    (¬ (0 ≤ k ∧ k < n1 * n2) → splitIndex n1 n2 k = .error .value) := by
  refine ⟨fun h => ?_, fun h => if_neg h⟩
  obtain ⟨h1, h2⟩ := h
  have hn : (0 : ℤ) < n2 := by
    rcases Nat.eq_zero_or_pos n2 with rfl | h
    · simp at h2; omega
    · exact_mod_cast h
  have a1 : 0 ≤ k / (n2 : ℤ) := Int.ediv_nonneg h1 hn.le
  have a2 : k / (n2 : ℤ) < n1 := Int.ediv_lt_of_lt_mul hn h2
  have a3 : 0 ≤ k % (n2 : ℤ) := Int.emod_nonneg _ hn.ne'
  have a4 : k % (n2 : ℤ) < n2 := Int.emod_lt_of_pos _ hn
  refine ⟨_, _, if_pos ⟨h1, h2⟩, a1, a2, a3, a4, ?_⟩
  rw [combIndices, if_pos ⟨a1, a2, a3, a4⟩]
  congr 1
  have := Int.mul_ediv_add_emod k n2
  rw [mul_comm]; exact this

/-- **C58**, the basis: there are `n_output_features_` columns and column `k` is the product of the two functions given by
`split_index(k)`. -/
theorem C58_basis {K : Type*} [Field K] (b1 b2 : Basis1D K) (x : ℕ → K) (h1 : (b1.basis (x 0)).len = b1.nOut)
    (h2 : (b2.basis (x 1)).len = b2.nOut) :
    (tensorBasis b1 b2 x).len = b1.nOut * b2.nOut ∧
    ∀ k < b1.nOut * b2.nOut, ∃ i j : ℕ, splitIndex b1.nOut b2.nOut k = .ok ((i : ℤ), (j : ℤ)) ∧
      (tensorBasis b1 b2 x).get k = (b1.basis (x 0)).get i * (b2.basis (x 1)).get j := by
  refine ⟨by simp [tensorBasis, outerFlat, h1, h2], fun k hk => ⟨k / b2.nOut, k % b2.nOut, ?_, ?_⟩⟩
  · rw [splitIndex, if_pos ⟨by positivity, by exact_mod_cast hk⟩]
    simp
  · simp [tensorBasis, outerFlat, h2]

example := (C58_split_comb 3 4 2 1).1 (by decide)

example : combIndices 3 4 2 1 = .ok 9 := by decide

/-! ### C59 -/

/-- The one-dimensional basis has, once its constant is kept, a correct `deriv` of order one and two. -/
structure Spec.Smooth1D (b : Basis1D ℝ) : Prop where
  len : ∀ x, (b.basis x).len = b.nOut
  lenDeriv : ∀ r x, (b.deriv false r x).len = b.nOut
  deriv : ∀ x k, k < b.nOut → HasDerivAt (fun s => (b.basis s).get k) ((b.deriv false 1 x).get k [0]) x
  hess : ∀ x k, k < b.nOut → HasDerivAt (fun s => (b.deriv false 1 s).get k [0]) ((b.deriv false 2 x).get k [0, 0]) x

theorem tensorDeriv_one (b1 b2 : Basis1D ℝ) (h1 : Smooth1D b1) (h2 : Smooth1D b2) (x : ℕ → ℝ) :
    ∃ D, tensorDeriv b1.forceRank b2.forceRank 1 x = .ok D ∧ D.len = b1.nOut * b2.nOut ∧ ∀ k,
      D.get k [0] = (b1.deriv false 1 (x 0)).get (k / b2.nOut) [0] * (b2.basis (x 1)).get (k % b2.nOut) ∧
      D.get k [1] = (b1.basis (x 0)).get (k / b2.nOut) * (b2.deriv false 1 (x 1)).get (k % b2.nOut) [0] := by
  have e1 : b1.forceRank.derivOf = b1.deriv false := rfl
  have e2 : b2.forceRank.derivOf = b2.deriv false := rfl
  have e3 : b1.forceRank.basis = b1.basis := rfl
  have e4 : b2.forceRank.basis = b2.basis := rfl
  simp only [tensorDeriv, e1, e2, e3, e4, concatLast, outerFlat, h1.len, h1.lenDeriv, h2.len, h2.lenDeriv]
  refine ⟨_, by simp; rfl, rfl, fun k => ⟨?_, ?_⟩⟩ <;> simp

theorem tensorHessian_eq (b1 b2 : Basis1D ℝ) (h1 : Smooth1D b1) (h2 : Smooth1D b2) (x : ℕ → ℝ) :
    ∃ H, tensorDeriv b1.forceRank b2.forceRank 2 x = .ok H ∧ tensorHessian b1.forceRank b2.forceRank x = .ok H ∧
      H.len = b1.nOut * b2.nOut ∧ ∀ k,
      H.get k [0, 0] = (b1.deriv false 2 (x 0)).get (k / b2.nOut) [0, 0] * (b2.basis (x 1)).get (k % b2.nOut) ∧
      H.get k [0, 1] = (b1.deriv false 1 (x 0)).get (k / b2.nOut) [0] * (b2.deriv false 1 (x 1)).get (k % b2.nOut) [0] ∧
      H.get k [1, 0] = (b1.deriv false 1 (x 0)).get (k / b2.nOut) [0] * (b2.deriv false 1 (x 1)).get (k % b2.nOut) [0] ∧
      H.get k [1, 1] = (b1.basis (x 0)).get (k / b2.nOut) * (b2.deriv false 2 (x 1)).get (k % b2.nOut) [0, 0] := by
  have e1 : b1.forceRank.derivOf = b1.deriv false := rfl
  have e2 : b2.forceRank.derivOf = b2.deriv false := rfl
  have e3 : b1.forceRank.basis = b1.basis := rfl
  have e4 : b2.forceRank.basis = b2.basis := rfl
  simp only [tensorDeriv, tensorHessian, e1, e2, e3, e4, concatLast, outerFlat, h1.len, h1.lenDeriv, h2.len, h2.lenDeriv,
    if_true]
  refine ⟨_, by simp; rfl, by simp, rfl, fun k => ⟨?_, ?_, ?_, ?_⟩⟩ <;> simp

theorem div_mod_lt {n1 n2 k : ℕ} (hk : k < n1 * n2) : k / n2 < n1 ∧ k % n2 < n2 := by
  have hn : 0 < n2 := by
    rcases Nat.eq_zero_or_pos n2 with rfl | h
    · simp at hk
    · exact h
  exact ⟨Nat.div_lt_of_lt_mul (by rwa [Nat.mul_comm] at hk), Nat.mod_lt _ hn⟩

/-- **C59**, gradient: `deriv` succeeds, has the columns of `basis`, and is its gradient with respect to both coordinates. -/
theorem C59_deriv (b1 b2 : Basis1D ℝ) (h1 : Smooth1D b1) (h2 : Smooth1D b2) :
    ∃ D : (ℕ → ℝ) → Arr (List ℕ → ℝ), (∀ x, tensorDeriv b1.forceRank b2.forceRank 1 x = .ok (D x)) ∧
      ∀ x, (D x).len = (tensorBasis b1.forceRank b2.forceRank x).len ∧ ∀ k < (D x).len, ∀ i < 2,
        PartialDeriv (fun y => (tensorBasis b1.forceRank b2.forceRank y).get k) x i ((D x).get k [i]) := by
  choose D hD1 hD2 hD3 using tensorDeriv_one b1 b2 h1 h2
  refine ⟨D, hD1, fun x => ⟨?_, fun k hk i hi => ?_⟩⟩
  · rw [hD2]; simp [tensorBasis, outerFlat, Basis1D.forceRank, h1.len, h2.len]
  · rw [hD2] at hk
    obtain ⟨hk1, hk2⟩ := div_mod_lt hk
    simp only [PartialDeriv, tensorBasis, outerFlat, Basis1D.forceRank, h2.len]
    rcases (by omega : i = 0 ∨ i = 1) with rfl | rfl
    · rw [(hD3 x k).1]
      simp only [Function.update_self, Function.update_of_ne one_ne_zero]
      exact (h1.deriv (x 0) _ hk1).mul_const _
    · rw [(hD3 x k).2]
      simp only [Function.update_self, Function.update_of_ne zero_ne_one]
      exact (h2.deriv (x 1) _ hk2).const_mul _

/-- **C59**, hessian: `hessian` (also as `deriv_order=2`) succeeds, is the derivative of `deriv` with respect to both coordinates,
and is symmetric. -/
theorem C59_hessian (b1 b2 : Basis1D ℝ) (h1 : Smooth1D b1) (h2 : Smooth1D b2) :
    ∃ D H : (ℕ → ℝ) → Arr (List ℕ → ℝ), (∀ x, tensorDeriv b1.forceRank b2.forceRank 1 x = .ok (D x)) ∧
      (∀ x, tensorHessian b1.forceRank b2.forceRank x = .ok (H x)) ∧
      (∀ x, tensorDeriv b1.forceRank b2.forceRank 2 x = .ok (H x)) ∧
      ∀ x, (H x).len = (D x).len ∧ ∀ k < (H x).len, ∀ i < 2, ∀ i' < 2,
        PartialDeriv (fun y => (D y).get k [i]) x i' ((H x).get k [i', i]) ∧ (H x).get k [i', i] = (H x).get k [i, i'] := by
  choose D hD1 hD2 hD3 using tensorDeriv_one b1 b2 h1 h2
  choose H hH1 hH1' hH2 hH3 using tensorHessian_eq b1 b2 h1 h2
  refine ⟨D, H, hD1, hH1', hH1, fun x => ⟨by rw [hH2, hD2], fun k hk i hi i' hi' => ?_⟩⟩
  rw [hH2] at hk
  obtain ⟨hk1, hk2⟩ := div_mod_lt hk
  obtain ⟨q1, q2, q3, q4⟩ := hH3 x k
  simp only [PartialDeriv]
  rcases (by omega : i = 0 ∨ i = 1) with rfl | rfl <;> rcases (by omega : i' = 0 ∨ i' = 1) with rfl | rfl
  · refine ⟨?_, rfl⟩
    simp only [(hD3 _ k).1, q1, Function.update_self, Function.update_of_ne one_ne_zero]
    exact (h1.hess (x 0) _ hk1).mul_const _
  · refine ⟨?_, q3.trans q2.symm⟩
    simp only [(hD3 _ k).1, q3, Function.update_self, Function.update_of_ne zero_ne_one]
    exact (h2.deriv (x 1) _ hk2).const_mul _
  · refine ⟨?_, q2.trans q3.symm⟩
    simp only [(hD3 _ k).2, q2, Function.update_self, Function.update_of_ne one_ne_zero]
    exact (h1.deriv (x 0) _ hk1).mul_const _
  · refine ⟨?_, rfl⟩
    simp only [(hD3 _ k).2, q4, Function.update_self, Function.update_of_ne zero_ne_one]
    exact (h2.hess (x 1) _ hk2).const_mul _

/-- **C59**, other orders are refused. -/
theorem C59_higher_orders (b1 b2 : Basis1D ℝ) (r : ℕ) (hr : 2 < r) (x : ℕ → ℝ) :
    tensorDeriv b1 b2 r x = .error .notImplemented := by
  rw [tensorDeriv, if_neg (by omega), if_pos hr]

/-- The polynomial features in dimension one. -/
noncomputable def polyBasis1D (P : ℕ → Polynomial ℝ) (degree : ℕ) (c : Bool) : Basis1D ℝ :=
  ⟨degree, c, fun s => polyBasis P degree 1 fun _ => s, fun c r s => polyDeriv P degree c 1 r fun _ => s⟩

/-- The Fourier features in dimension one. -/
noncomputable def fourierBasis1D (freq : ℝ) (order : ℕ) (c : Bool) : Basis1D ℝ :=
  ⟨2 * order + 1, c, fun s => fourierBasis freq order 1 fun _ => s, fun c r s => fourierDeriv freq order c 1 r fun _ => s⟩

theorem polyBasis1D_smooth (P : ℕ → Polynomial ℝ) (degree : ℕ) (c : Bool) : Smooth1D (polyBasis1D P degree c) := by
  refine ⟨fun x => by simp [polyBasis1D, polyBasis, fillBasis], fun r x => by simp [polyBasis1D, polyDeriv, fillDeriv, withConst],
    fun x k hk => ?_, fun x k hk => ?_⟩
  · have hk' : k < 1 * degree := by simpa [polyBasis1D] using hk
    simp only [polyBasis1D, polyBasis, polyDeriv, fillBasis_get, fillDeriv_get, withConst]
    have : k < 1 * (degree - 0) := by simpa using hk'
    simp only [hk', if_true, Nat.mod_one, Bool.false_eq_true, if_false, this, List.replicate_one, true_and, and_self,
      Nat.div_one, Nat.zero_add, Nat.add_zero, Function.iterate_succ, Function.iterate_zero, Function.comp, id]
    exact (P k).hasDerivAt x
  · have hk' : k < 1 * degree := by simpa [polyBasis1D] using hk
    simp only [polyBasis1D, polyBasis, polyDeriv, fillBasis_get, fillDeriv_get, withConst]
    have : k < 1 * (degree - 0) := by simpa using hk'
    simp only [hk', if_true, Nat.mod_one, Bool.false_eq_true, if_false, this, List.replicate_one, true_and, and_self,
      Nat.div_one, Nat.zero_add, Nat.add_zero, Function.iterate_succ, Function.iterate_zero, Function.comp, id, List.replicate]
    exact (Polynomial.derivative (P k)).hasDerivAt x

theorem fourierBasis1D_smooth (freq : ℝ) (order : ℕ) (c : Bool) : Smooth1D (fourierBasis1D freq order c) := by
  refine ⟨fun x => by simp [fourierBasis1D, fourierBasis, fillBasis],
    fun r x => by by_cases h : r = 2 <;> simp [fourierBasis1D, fourierDeriv, fourierHessian, fillDeriv, withConst, h],
    fun x k hk => ?_, fun x k hk => ?_⟩
  · have hk' : k < 1 * (2 * order + 1) := by simpa [fourierBasis1D] using hk
    have : k < 1 * (2 * order + 1 - 0) := by simpa using hk'
    simp only [fourierBasis1D, fourierBasis, fourierDeriv, fillBasis_get, OfNat.one_ne_ofNat, if_false, fillDeriv_get, withConst,
      hk', if_true, Nat.mod_one, Bool.false_eq_true, this, List.replicate_one, true_and, and_self, Nat.div_one, Nat.zero_add, Nat.add_zero, Function.iterate_succ, Function.iterate_zero, Function.comp, id]
    exact fourierFn_hasDerivAt freq k x
  · have hk' : k < 1 * (2 * order + 1) := by simpa [fourierBasis1D] using hk
    have : k < 1 * (2 * order + 1 - 0) := by simpa using hk'
    simp only [fourierBasis1D, fourierBasis, fourierDeriv, fourierHessian, fillBasis_get, OfNat.one_ne_ofNat, if_false,
      fillDeriv_get, withConst, List.replicate,
      hk', if_true, Nat.mod_one, Bool.false_eq_true, this, List.replicate_one, true_and, and_self, Nat.div_one, Nat.zero_add, Nat.add_zero, Function.iterate_succ, Function.iterate_zero, Function.comp, id]
    exact fourierFnDeriv_hasDerivAt freq k x

/-- C59 for two bases of the package, which were created with `remove_const=True`. -/
example := C59_deriv (polyBasis1D (fun n => Polynomial.X ^ n) 3 true) (fourierBasis1D 2 1 true) (polyBasis1D_smooth _ _ _)
  (fourierBasis1D_smooth _ _ _)

example := C59_hessian (polyBasis1D (fun n => Polynomial.X ^ n) 3 true) (fourierBasis1D 2 1 true) (polyBasis1D_smooth _ _ _)
  (fourierBasis1D_smooth _ _ _)

/-! ### C60 -/

section
variable {K : Type*}

/-- `r` describes the data of coordinate `c` alone, when `d` describes all the coordinates. -/
def Spec.Marginal (d : DescribeResult K) (c : ℕ) (r : DescribeResult K) : Prop :=
  r.nobs = d.nobs ∧ r.dim = 1 ∧ r.min 0 = d.min c ∧ r.max 0 = d.max c ∧ r.mean 0 = d.mean c ∧ r.variance 0 = d.variance c

/-- **C60**. Proved: with an explicit second basis, another object than the first, each basis is fitted on its own coordinate, and
no other object is touched. Full statement: also without second basis; this is false, see `C60_aliased`. -/
theorem C60_fit_partial (b1 b2 : ℕ) (hb : b1 ≠ b2) (d : DescribeResult K) (hd : d.dim = 2) (h : BasisHeap K) :
    ∃ h', tensorFit (tensorInit b1 (some b2)) d h = .ok h' ∧ (∃ r, h' b1 = some r ∧ Spec.Marginal d 0 r) ∧
      (∃ r, h' b2 = some r ∧ Spec.Marginal d 1 r) ∧ ∀ b, b ≠ b1 → b ≠ b2 → h' b = h b := by
  refine ⟨_, if_neg (by simp [hd]), ?_, ?_, ?_⟩
  · exact ⟨d.coord 0, by simp [tensorInit, Function.update_of_ne hb], rfl, rfl, rfl, rfl, rfl, rfl⟩
  · exact ⟨d.coord 1, by simp [tensorInit], rfl, rfl, rfl, rfl, rfl, rfl⟩
  · intro b h1 h2; simp [tensorInit, Function.update_of_ne h1, Function.update_of_ne h2]

/-- **C60** fails without second basis (or with the same object twice): the only object is left fitted on the second coordinate,
so that whenever the coordinates have different means, or ranges, or variances the first basis is fitted on the wrong one. -/
theorem C60_aliased (b1 : ℕ) (b2 : Option ℕ) (hb : b2 = none ∨ b2 = some b1) (d : DescribeResult K) (hd : d.dim = 2)
    (h : BasisHeap K) :
    ∃ h', tensorFit (tensorInit b1 b2) d h = .ok h' ∧ (∃ r, h' (tensorInit b1 b2).1 = some r ∧ Spec.Marginal d 1 r) ∧
      ((d.min 0 ≠ d.min 1 ∨ d.max 0 ≠ d.max 1 ∨ d.mean 0 ≠ d.mean 1 ∨ d.variance 0 ≠ d.variance 1) →
        ¬ ∃ r, h' (tensorInit b1 b2).1 = some r ∧ Spec.Marginal d 0 r) := by
  have e : tensorInit b1 b2 = (b1, b1) := by rcases hb with rfl | rfl <;> rfl
  rw [e]
  refine ⟨_, if_neg (by simp [hd]), ?_, ?_⟩
  · exact ⟨d.coord 1, by simp, rfl, rfl, rfl, rfl, rfl, rfl⟩
  · rintro hne ⟨r, hc, -, -, h1, h2, h3, h4⟩
    simp only [Function.update_self, Option.some.injEq] at hc
    subst hc
    rcases hne with h | h | h | h
    · exact h h1.symm
    · exact h h2.symm
    · exact h h3.symm
    · exact h h4.symm

/-- **C60**, data of another dimension are rejected. -/
theorem C60_dimension (refs : ℕ × ℕ) (d : DescribeResult K) (hd : d.dim ≠ 2) (h : BasisHeap K) :
    tensorFit refs d h = .error .value := if_pos hd

/-- Data on `[0, 1] × [0, 2]`. -/
def exampleDescribe : DescribeResult ℚ :=
  ⟨10, 2, fun _ => 0, fun c => if c = 0 then 1 else 2, fun _ => 1 / 2, fun _ => 1⟩

example := C60_fit_partial 3 4 (by decide) exampleDescribe rfl fun _ => none

example := C60_aliased 3 none (.inl rfl) exampleDescribe rfl fun _ => none

example : exampleDescribe.max 0 ≠ exampleDescribe.max 1 := by decide +kernel

end

end Verif
