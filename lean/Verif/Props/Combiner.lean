import Verif.Lemmas.Features

/-!
# C61 and C63: `FeaturesCombiner` and the number of columns
-/

set_option linter.unusedSectionVars false

namespace Verif

variable {K : Type*}

/-! ### C61 -/

/-- `r` is the concatenation of the blocks of columns of `l`. -/
def Spec.IsConcat {α : Type*} (l : List (Arr α)) (r : Arr α) : Prop :=
  r.len = (l.map (·.len)).sum ∧
  ∀ (k : ℕ) (hk : k < l.length) (j : ℕ), j < l[k].len → r.get (((l.take k).map (·.len)).sum + j) = l[k].get j

theorem isConcat_foldl {α : Type*} (l : List (Arr α)) : ∀ (a : Arr α) (pre : List (Arr α)), Spec.IsConcat pre a →
    Spec.IsConcat (pre ++ l) (l.foldl Arr.append a) := by
  induction l with
  | nil => intro a pre h; simpa using h
  | cons b l ih =>
    intro a pre h
    rw [List.foldl_cons, show pre ++ b :: l = (pre ++ [b]) ++ l by simp]
    apply ih
    obtain ⟨h1, h2⟩ := h
    refine ⟨by simp [Arr.append, h1], ?_⟩
    intro k hk j hj
    rw [List.length_append, List.length_singleton] at hk
    rcases Nat.lt_succ_iff_lt_or_eq.1 hk with hk' | rfl
    · rw [List.getElem_append_left hk'] at hj ⊢
      rw [List.take_append_of_le_length hk'.le]
      have hlt : ((pre.take k).map (·.len)).sum + j < a.len := by
        rw [h1]
        calc ((pre.take k).map (·.len)).sum + j < ((pre.take k).map (·.len)).sum + pre[k].len := by omega
          _ = ((pre.take (k + 1)).map (·.len)).sum := by
            rw [List.take_succ_eq_append_getElem hk', List.map_append, List.sum_append]; simp
          _ ≤ ((pre.take (k + 1)).map (·.len)).sum + ((pre.drop (k + 1)).map (·.len)).sum := Nat.le_add_right _ _
          _ = (pre.map (·.len)).sum := by rw [← List.sum_append, ← List.map_append, List.take_append_drop]
      simp only [Arr.append, hlt, if_true]
      exact h2 k hk' j hj
    · simp only [List.getElem_concat_length, List.take_left'] at hj ⊢
      have hnl : ¬ a.len + j < a.len := by omega
      simp only [Arr.append, ← h1, hnl, if_false, Nat.add_sub_cancel_left]

/-- **C61**, `basis`: for every number of bases the columns are those of the bases in order, and there are
`n_output_features_` of them. -/
theorem C61_basis (b : FeatureRow K) (bs : List (FeatureRow K)) (h : ∀ c ∈ b :: bs, c.basis.len = c.nOut) :
    ∃ r, combinerBasis (b :: bs) = .ok r ∧ Spec.IsConcat ((b :: bs).map (·.basis)) r ∧ r.len = combinerNOut (b :: bs) := by
  have hc : Spec.IsConcat ((b :: bs).map (·.basis)) ((bs.map (·.basis)).foldl Arr.append b.basis) := by
    have := isConcat_foldl (bs.map (·.basis)) b.basis [b.basis]
      ⟨by simp, by intro k hk j hj; simp at hk; subst hk; simp⟩
    simpa using this
  refine ⟨_, rfl, ?_, ?_⟩
  · rw [List.foldl_map] at hc; exact hc
  · have := hc.1
    rw [List.foldl_map] at this
    rw [this, combinerNOut, List.map_map]
    congr 1
    exact List.map_congr_left fun c hc => h c hc

/-- **C61**, `deriv`. Proved: for exactly two bases it is the concatenation. Full statement: for every number of bases;
false, see `C61_deriv_one` and `C61_deriv_drops`. -/
theorem C61_deriv_partial (b c : FeatureRow K) (order : ℕ) :
    ∃ r, combinerDeriv [b, c] order = .ok r ∧ Spec.IsConcat [b.deriv order, c.deriv order] r := by
  refine ⟨_, rfl, ?_⟩
  exact isConcat_foldl [c.deriv order] (b.deriv order) [b.deriv order]
      ⟨by simp, by intro k hk j hj; simp at hk; subst hk; simp⟩

/-- **C61** fails for one basis: `deriv` raises `UnboundLocalError`. -/
theorem C61_deriv_one (b : FeatureRow K) (order : ℕ) : combinerDeriv [b] order = .error .unbound := rfl

/-- **C61** fails for three bases or more: `deriv` is the concatenation of the first and the last only, so that whenever a basis
in between has a derivative column, columns are missing. -/
theorem C61_deriv_drops (b : FeatureRow K) (bs : List (FeatureRow K)) (c : FeatureRow K) (order : ℕ) :
    ∃ r, combinerDeriv (b :: (bs ++ [c])) order = .ok r ∧ Spec.IsConcat [b.deriv order, c.deriv order] r ∧
      ((∃ m ∈ bs, 0 < (m.deriv order).len) → ¬ Spec.IsConcat ((b :: (bs ++ [c])).map (·.deriv order)) r) := by
  refine ⟨(b.deriv order).append (c.deriv order), ?_, ?_, ?_⟩
  · simp only [combinerDeriv, List.foldl_append, List.foldl_cons, List.foldl_nil]
  · exact isConcat_foldl [c.deriv order] (b.deriv order) [b.deriv order]
      ⟨by simp, by intro k hk j hj; simp at hk; subst hk; simp⟩
  · rintro ⟨m, hm, hpos⟩ ⟨hlen, -⟩
    have hle : (m.deriv order).len ≤ ((bs.map (·.deriv order)).map (·.len)).sum :=
      List.single_le_sum (by simp) _ (List.mem_map_of_mem (List.mem_map_of_mem hm))
    simp only [Arr.append, List.map_cons, List.map_append, List.sum_cons, List.sum_append, List.map_nil, List.sum_nil] at hlen
    omega

/-- **C61** fails for the number of columns of `deriv` too: combining two bases that both remove their constants, the estimators
expect `n_output_features_ - dim` columns and get `n_output_features_ - 2 dim`. -/
theorem C61_const_removed (b c : FeatureRow K) (dim order : ℕ) (hb : b.constRemoved = true)
    (hb' : (b.deriv order).len = b.nOut - dim) (hc' : (c.deriv order).len = c.nOut - dim) (hbn : dim ≤ b.nOut)
    (hcn : dim ≤ c.nOut) :
    combinerConstRemoved [b, c] = true ∧
    ∃ r, combinerDeriv [b, c] order = .ok r ∧ r.len = combinerNOut [b, c] - 2 * dim := by
  refine ⟨by simp [combinerConstRemoved, hb], _, rfl, ?_⟩
  simp only [Arr.append, combinerNOut, List.map_cons, List.map_nil, List.sum_cons, List.sum_nil, hb', hc']
  omega

/-- Polynomials of degree 2, in dimension 1. -/
noncomputable def exampleRow0 (x : ℕ → ℝ) : FeatureRow ℝ :=
  ⟨3, true, polyBasis (fun n => Polynomial.X ^ n) 3 1 x, fun r => polyDeriv (fun n => Polynomial.X ^ n) 3 true 1 r x⟩

/-- Fourier functions of order 1. -/
noncomputable def exampleRow1 (x : ℕ → ℝ) : FeatureRow ℝ :=
  ⟨3, true, fourierBasis 1 1 1 x, fun r => fourierDeriv 1 1 true 1 r x⟩

/-- Linear features. -/
noncomputable def exampleRow2 (x : ℕ → ℝ) : FeatureRow ℝ :=
  ⟨1, false, linearBasis 1 (fun _ => 0) x, fun r => linearDeriv 1 r x⟩

/-- Three bases of the package. -/
noncomputable def exampleRow (x : ℕ → ℝ) : List (FeatureRow ℝ) := [exampleRow0 x, exampleRow1 x, exampleRow2 x]

example (x : ℕ → ℝ) := C61_basis _ _ (show ∀ c ∈ exampleRow x, c.basis.len = c.nOut by
  intro c hc
  simp only [exampleRow, List.mem_cons, List.not_mem_nil, or_false] at hc
  rcases hc with rfl | rfl | rfl <;> simp [exampleRow0, exampleRow1, exampleRow2, polyBasis, fourierBasis, linearBasis, fillBasis])

example (x : ℕ → ℝ) : ∃ r, combinerDeriv (exampleRow x) 1 = .ok r ∧
    ¬ Spec.IsConcat ((exampleRow x).map (·.deriv 1)) r := by
  obtain ⟨r, h1, -, h3⟩ := C61_deriv_drops (exampleRow0 x) [exampleRow1 x]
    (exampleRow2 x) 1
  exact ⟨r, h1, h3 ⟨_, List.mem_singleton_self _, by simp [exampleRow1, fourierDeriv, fillDeriv, withConst]⟩⟩

example (x : ℕ → ℝ) := C61_const_removed (exampleRow0 x) (exampleRow1 x) 1 1 rfl rfl rfl
  (by simp [exampleRow0]) (by simp [exampleRow1])

/-! ### C63 -/

open Polynomial in
/-- **C63**, polynomial features: the number of columns of `basis`, `antiderivative`, `deriv` and `hessian`. -/
theorem C63_polynomial (P : ℕ → ℝ[X]) (degree dim : ℕ) (hd : 0 < degree) (constRemoved : Bool) (r : ℕ) (x : ℕ → ℝ) :
    (polyBasis P degree dim x).len = blockNOut degree dim ∧
    (polyAntiderivative P degree dim r x).len = blockNOut degree dim ∧
    (polyDeriv P degree constRemoved dim r x).len = blockNOut degree dim - (if constRemoved then dim else 0) ∧
    (constRemoved = true → dim ≤ blockNOut degree dim) := by
  refine ⟨rfl, rfl, ?_, fun _ => ?_⟩
  · cases constRemoved <;> simp [polyDeriv, fillDeriv, withConst, blockNOut, Nat.mul_sub]
  · exact Nat.le_mul_of_pos_right _ hd

/-- **C63**, Fourier features. -/
theorem C63_fourier (freq : ℝ) (order dim : ℕ) (constRemoved : Bool) (r : ℕ) (x : ℕ → ℝ) :
    (fourierBasis freq order dim x).len = blockNOut (2 * order + 1) dim ∧
    (fourierDeriv freq order constRemoved dim r x).len =
      blockNOut (2 * order + 1) dim - (if constRemoved then dim else 0) ∧
    (fourierHessian freq order constRemoved dim x).len =
      blockNOut (2 * order + 1) dim - (if constRemoved then dim else 0) ∧
    dim ≤ blockNOut (2 * order + 1) dim := by
  refine ⟨rfl, ?_, ?_, Nat.le_mul_of_pos_right _ (Nat.succ_pos _)⟩
  · cases constRemoved <;> by_cases h : r = 2 <;>
      simp [fourierDeriv, fourierHessian, h, fillDeriv, withConst, blockNOut, Nat.mul_add]
  · cases constRemoved <;> simp [fourierHessian, fillDeriv, withConst, blockNOut, Nat.mul_add]

/-- **C63**, linear features: `dim` columns, and the constant is never removed. -/
theorem C63_linear (dim r : ℕ) (mean x : ℕ → ℝ) :
    (linearBasis dim mean x).len = dim ∧ (linearDeriv dim r x).len = dim ∧ (linearAntiderivative dim x).len = dim :=
  ⟨rfl, rfl, rfl⟩

example := C63_polynomial (fun n => Polynomial.X ^ n) 3 2 (by decide) true 1 (fun k => k)

end Verif
