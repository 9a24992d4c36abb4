import Verif.Model.BSpline
import Verif.Lemmas.Features
import Verif.Spec.Features
import Mathlib.Tactic.FieldSimp
import Mathlib.Tactic.Linarith

/-!
# C81 and C103 to C105: features made of splines
-/

set_option linter.unusedSectionVars false

namespace Verif

open Spec Finset

variable {S : ℕ → ℕ → ℝ → ℝ}

theorem bsplineDeriv_len (k nsplines : ℕ) (c : Bool) (dim order : ℕ) (x : ℕ → ℝ) :
    (bsplineDeriv S k nsplines c dim order x).len = dim * (nsplines - withConst c) := by
  rw [bsplineDeriv]
  split <;> simp [fillDeriv]

/-- The entry of the spline `n` and of the coordinate `i`. -/
theorem bsplineDeriv_get {k nsplines : ℕ} {c : Bool} {dim order : ℕ} (ho : order ≤ k) (x : ℕ → ℝ) {n i : ℕ}
    (hn : n < nsplines - withConst c) (hi : i < dim) (idx : List ℕ) :
    (bsplineDeriv S k nsplines c dim order x).get (n * dim + i) idx =
      if idx = List.replicate order i then S n order (x i) else 0 := by
  have h1 : n * dim + i < dim * (nsplines - withConst c) := by
    calc n * dim + i < (n + 1) * dim := by rw [Nat.add_mul]; omega
      _ ≤ (nsplines - withConst c) * dim := Nat.mul_le_mul_right _ hn
      _ = _ := Nat.mul_comm _ _
  have e1 : (n * dim + i) / dim = n := by
    rw [Nat.mul_comm, Nat.mul_add_div (by omega), Nat.div_eq_of_lt hi, Nat.add_zero]
  have e2 : (n * dim + i) % dim = i := by
    rw [Nat.mul_comm, Nat.mul_add_mod, Nat.mod_eq_of_lt hi]
  rw [bsplineDeriv, if_neg (by omega), fillDeriv_get, e1, e2, Nat.sub_zero, Nat.zero_add]
  simp only [h1, true_and]

theorem bsplineBasis_get {nsplines dim : ℕ} (x : ℕ → ℝ) {n i : ℕ} (hn : n < nsplines) (hi : i < dim) :
    (bsplineBasis S nsplines dim x).get (n * dim + i) = S n 0 (x i) := by
  have h1 : n * dim + i < dim * nsplines := by
    calc n * dim + i < (n + 1) * dim := by rw [Nat.add_mul]; omega
      _ ≤ nsplines * dim := Nat.mul_le_mul_right _ hn
      _ = _ := Nat.mul_comm _ _
  have e1 : (n * dim + i) / dim = n := by
    rw [Nat.mul_comm, Nat.mul_add_div (by omega), Nat.div_eq_of_lt hi, Nat.add_zero]
  have e2 : (n * dim + i) % dim = i := by
    rw [Nat.mul_comm, Nat.mul_add_mod, Nat.mod_eq_of_lt hi]
  rw [bsplineBasis, fillBasis_get, if_pos h1, e1, e2]

theorem partialDeriv_coord {f : ℝ → ℝ} {f' : ℝ} {x : ℕ → ℝ} {i : ℕ} (h : HasDerivAt f f' (x i)) (i' : ℕ) :
    PartialDeriv (fun y => f (y i)) x i' (if i' = i then f' else 0) := by
  rw [PartialDeriv]
  by_cases hi : i' = i
  · subst hi
    simpa using h
  · simp only [if_neg hi, Function.update_of_ne (Ne.symm hi)]
    exact hasDerivAt_const _ _

/-- **C81**. Proved: the column of `deriv` for the spline `n` and the coordinate `i` is the gradient of the same column of
`basis`, whether or not `remove_const` is set: this is the claim without `remove_const`. Full statement: with `remove_const`
the columns are shifted as in the other features; this is false, see `C81_not_shifted_fails`. -/
theorem C81_deriv_partial {k nsplines : ℕ} (c : Bool) {dim : ℕ} (hk : 1 ≤ k) (x : ℕ → ℝ) {n i : ℕ}
    (hn : n < nsplines - withConst c) (hi : i < dim) (hS : HasDerivAt (S n 0) (S n 1 (x i)) (x i)) (i' : ℕ) :
    PartialDeriv (fun y => (bsplineBasis S nsplines dim y).get (n * dim + i)) x i'
      ((bsplineDeriv S k nsplines c dim 1 x).get (n * dim + i) [i']) := by
  rw [bsplineDeriv_get hk x hn hi]
  have := partialDeriv_coord hS i'
  simpa [bsplineBasis_get _ (show n < nsplines by omega) hi] using this

/-- **C81**, the following orders: each one is the gradient of the previous one, up to the degree of the splines. -/
theorem C81_deriv_order {k nsplines : ℕ} (c : Bool) {dim r : ℕ} (hr : r + 1 ≤ k) (x : ℕ → ℝ) {n i : ℕ}
    (hn : n < nsplines - withConst c) (hi : i < dim) (hS : HasDerivAt (S n r) (S n (r + 1) (x i)) (x i)) (i' : ℕ)
    (idx : List ℕ) :
    PartialDeriv (fun y => (bsplineDeriv S k nsplines c dim r y).get (n * dim + i) idx) x i'
      ((bsplineDeriv S k nsplines c dim (r + 1) x).get (n * dim + i) (i' :: idx)) := by
  rw [bsplineDeriv_get hr x hn hi]
  simp only [bsplineDeriv_get (Nat.le_of_succ_le hr) _ hn hi, List.replicate_succ, List.cons.injEq]
  by_cases hidx : idx = List.replicate r i
  · simpa [hidx] using partialDeriv_coord hS i'
  · simp only [hidx, and_false, if_false]
    exact hasDerivAt_const _ _

/-- **C81**, the orders above the degree: all the entries are zero, and the shape is the same. -/
theorem C81_above_degree {k nsplines : ℕ} (c : Bool) {dim r : ℕ} (hr : k < r) (x : ℕ → ℝ) :
    (bsplineDeriv S k nsplines c dim r x).len = dim * (nsplines - withConst c) ∧
    ∀ j idx, (bsplineDeriv S k nsplines c dim r x).get j idx = 0 := by
  refine ⟨bsplineDeriv_len _ _ _ _ _ _, fun j idx => ?_⟩
  rw [bsplineDeriv, if_pos hr]

/-- The `hessian` is the derivative of order two. -/
theorem C81_hessian {k nsplines : ℕ} (c : Bool) {dim : ℕ} (hk : 2 ≤ k) (x : ℕ → ℝ) {n i : ℕ}
    (hn : n < nsplines - withConst c) (hi : i < dim) (hS : HasDerivAt (S n 1) (S n 2 (x i)) (x i)) (i' i'' : ℕ) :
    PartialDeriv (fun y => (bsplineDeriv S k nsplines c dim 1 y).get (n * dim + i) [i'']) x i'
      ((bsplineHessian S k nsplines c dim x).get (n * dim + i) [i', i'']) :=
  C81_deriv_order c hk x hn hi hS i' _

/-- **C81**: with `remove_const`, the column of `deriv` for the spline `n` is not the derivative of the column that comes after
the removal of the first functions of `basis`, as soon as the two splines have different derivatives. -/
theorem C81_not_shifted_fails {k nsplines dim : ℕ} (hk : 1 ≤ k) (x : ℕ → ℝ) {n i : ℕ} (hn : n + 1 < nsplines)
    (hi : i < dim) (hS : HasDerivAt (S (n + 1) 0) (S (n + 1) 1 (x i)) (x i)) (hne : S n 1 (x i) ≠ S (n + 1) 1 (x i)) :
    ¬ PartialDeriv (fun y => (bsplineBasis S nsplines dim y).get (n * dim + i + withConst true * dim)) x i
      ((bsplineDeriv S k nsplines true dim 1 x).get (n * dim + i) [i]) := by
  intro h
  rw [bsplineDeriv_get hk x (by simp only [withConst, if_true]; omega) hi, if_pos (by simp)] at h
  have e : n * dim + i + withConst true * dim = (n + 1) * dim + i := by simp only [withConst, if_true]; ring
  simp only [e, bsplineBasis_get _ hn hi] at h
  have h2 := partialDeriv_coord hS i
  rw [if_pos rfl] at h2
  exact hne (HasDerivAt.unique h h2)

/-- The Bernstein polynomials of degree two, the splines with no interior knot. -/
noncomputable def bernstein2 (n r : ℕ) (s : ℝ) : ℝ :=
  match n, r with
  | 0, 0 => (1 - s) ^ 2
  | 1, 0 => 2 * s * (1 - s)
  | 2, 0 => s ^ 2
  | 0, 1 => -2 * (1 - s)
  | 1, 1 => 2 - 4 * s
  | 2, 1 => 2 * s
  | 0, 2 => 2
  | 1, 2 => -4
  | 2, 2 => 2
  | _, _ => 0

theorem bernstein2_deriv {n : ℕ} (hn : n < 3) (s : ℝ) : HasDerivAt (bernstein2 n 0) (bernstein2 n 1 s) s := by
  have hid := hasDerivAt_id s
  have h1 := hid.const_sub 1
  have : n = 0 ∨ n = 1 ∨ n = 2 := by omega
  rcases this with rfl | rfl | rfl
  · have := h1.pow 2
    refine HasDerivAt.congr_deriv this ?_
    simp only [bernstein2, id]; ring
  · have := (hid.const_mul 2).mul h1
    refine HasDerivAt.congr_deriv this ?_
    simp only [bernstein2, id]; ring
  · have := hid.pow 2
    refine HasDerivAt.congr_deriv this ?_
    simp only [bernstein2, id]; ring

theorem bernstein2_deriv2 {n : ℕ} (hn : n < 3) (s : ℝ) : HasDerivAt (bernstein2 n 1) (bernstein2 n 2 s) s := by
  have hid := hasDerivAt_id s
  have h1 := hid.const_sub 1
  have : n = 0 ∨ n = 1 ∨ n = 2 := by omega
  rcases this with rfl | rfl | rfl
  · refine HasDerivAt.congr_deriv (h1.const_mul (-2)) ?_
    simp only [bernstein2]; ring
  · refine HasDerivAt.congr_deriv ((hid.const_mul 4).const_sub 2) ?_
    simp only [bernstein2]; ring
  · refine HasDerivAt.congr_deriv (hid.const_mul 2) ?_
    simp only [bernstein2]; ring

example := C81_deriv_partial (S := bernstein2) (k := 2) (nsplines := 3) true (dim := 2) (by norm_num)
  (fun i => (i + 1 : ℝ) / 4) (n := 1) (i := 1) (by decide) (by norm_num) (bernstein2_deriv (by norm_num) _) 0

example := C81_deriv_order (S := bernstein2) (k := 2) (nsplines := 3) false (dim := 2) (r := 1) (by norm_num)
  (fun i => (i + 1 : ℝ) / 4) (n := 2) (i := 1) (by decide) (by norm_num) (bernstein2_deriv2 (by norm_num) _) 1 [1]

example := C81_hessian (S := bernstein2) (k := 2) (nsplines := 3) false (dim := 2) (by norm_num)
  (fun i => (i + 1 : ℝ) / 4) (n := 2) (i := 1) (by decide) (by norm_num) (bernstein2_deriv2 (by norm_num) _) 1 1

example := C81_above_degree (S := bernstein2) (k := 2) (nsplines := 3) true (dim := 2) (r := 3) (by norm_num) fun i => i

example := C81_not_shifted_fails (S := bernstein2) (k := 2) (nsplines := 3) (dim := 2) (by norm_num)
  (fun i => (i + 1 : ℝ) / 4) (n := 0) (i := 1) (by norm_num) (by norm_num) (bernstein2_deriv (by norm_num) _)
  (by norm_num [bernstein2])

/-! ### C103 -/

/-- **C103**: the derivative that `remove_const` drops is determined by the ones that are kept, since the splines sum to
one: for every coordinate it is the opposite of their sum. -/
theorem C103_nothing_lost {k nsplines dim : ℕ} (hk : 1 ≤ k) (hn : 0 < nsplines) (x : ℕ → ℝ) {i : ℕ} (hi : i < dim)
    (hone : ∀ s, ∑ n ∈ range nsplines, S n 0 s = 1)
    (hS : ∀ n < nsplines, HasDerivAt (S n 0) (S n 1 (x i)) (x i)) (i' : ℕ) :
    (bsplineDeriv S k nsplines false dim 1 x).get ((nsplines - 1) * dim + i) [i'] =
      -∑ n ∈ range (nsplines - 1), (bsplineDeriv S k nsplines true dim 1 x).get (n * dim + i) [i'] := by
  obtain ⟨m, rfl⟩ : ∃ m, nsplines = m + 1 := ⟨nsplines - 1, by omega⟩
  have h0 : ∑ n ∈ range (m + 1), S n 1 (x i) = 0 := by
    have h1 : HasDerivAt (fun s => ∑ n ∈ range (m + 1), S n 0 s) (∑ n ∈ range (m + 1), S n 1 (x i)) (x i) :=
      HasDerivAt.fun_sum fun n hn => hS n (Finset.mem_range.1 hn)
    have h2 : HasDerivAt (fun s => ∑ n ∈ range (m + 1), S n 0 s) 0 (x i) := by
      simp only [hone]
      exact hasDerivAt_const _ _
    exact h1.unique h2
  rw [Finset.sum_range_succ] at h0
  rw [Nat.add_sub_cancel, bsplineDeriv_get hk x (by simp [withConst]) hi]
  rw [Finset.sum_congr rfl fun n hn => bsplineDeriv_get hk x
    (by have := Finset.mem_range.1 hn; simpa [withConst] using this) hi _]
  by_cases h : i' = i
  · subst h
    simp only [List.replicate_one, if_true]
    linarith
  · simp [h]

/-- Together with the previous theorem: whatever combination of the derivatives is made without `remove_const`, it is a
combination of the columns that are kept. -/
theorem C103_span {k nsplines dim : ℕ} (hk : 1 ≤ k) (hn : 0 < nsplines) {i : ℕ} (hi : i < dim)
    (hone : ∀ s, ∑ n ∈ range nsplines, S n 0 s = 1)
    (hS : ∀ n < nsplines, ∀ s, HasDerivAt (S n 0) (S n 1 s) s) (a : ℕ → ℝ) :
    ∃ b : ℕ → ℝ, ∀ (x : ℕ → ℝ) (i' : ℕ),
      ∑ n ∈ range nsplines, a n * (bsplineDeriv S k nsplines false dim 1 x).get (n * dim + i) [i'] =
      ∑ n ∈ range (nsplines - 1), b n * (bsplineDeriv S k nsplines true dim 1 x).get (n * dim + i) [i'] := by
  refine ⟨fun n => a n - a (nsplines - 1), fun x i' => ?_⟩
  have h1 := C103_nothing_lost hk hn x hi hone (fun n hn => hS n hn _) i'
  obtain ⟨m, rfl⟩ : ∃ m, nsplines = m + 1 := ⟨nsplines - 1, by omega⟩
  rw [Nat.add_sub_cancel] at h1 ⊢
  rw [Finset.sum_range_succ, h1, mul_neg, Finset.mul_sum, ← sub_eq_add_neg, ← Finset.sum_sub_distrib]
  refine Finset.sum_congr rfl fun n hn => ?_
  have hn := Finset.mem_range.1 hn
  rw [bsplineDeriv_get hk x (by simp only [withConst]; simp; omega) hi,
    bsplineDeriv_get hk x (by simpa [withConst] using hn) hi]
  ring

theorem bernstein2_one (s : ℝ) : ∑ n ∈ range 3, bernstein2 n 0 s = 1 := by
  simp only [Finset.sum_range_succ, Finset.sum_range_zero, bernstein2]
  ring

example := C103_nothing_lost (S := bernstein2) (k := 2) (nsplines := 3) (dim := 2) (by norm_num) (by norm_num)
  (fun i => (i + 1 : ℝ) / 4) (i := 1) (by norm_num) bernstein2_one (fun n hn => bernstein2_deriv hn _) 1

example := C103_span (S := bernstein2) (k := 2) (nsplines := 3) (dim := 2) (by norm_num) (by norm_num)
  (i := 1) (by norm_num) bernstein2_one (fun n hn => bernstein2_deriv hn) fun n => n

/-- **C103**: the antiderivatives differentiate to the columns of `basis` (order one) or of the previous order. -/
theorem C103_antiderivative {A : ℕ → ℕ → ℝ → ℝ} {nsplines dim r : ℕ} (x : ℕ → ℝ) {n i : ℕ} (hn : n < nsplines)
    (hi : i < dim) (hA : HasDerivAt (A n (r + 1)) (A n r (x i)) (x i)) (h0 : ∀ n s, A n 0 s = S n 0 s) (i' : ℕ) :
    PartialDeriv (fun y => (bsplineAntiderivative A nsplines dim (r + 1) y).get (n * dim + i)) x i'
      (if i' = i then (bsplineAntiderivative A nsplines dim r x).get (n * dim + i) else 0) ∧
    (bsplineAntiderivative A nsplines dim 0 x).get (n * dim + i) = (bsplineBasis S nsplines dim x).get (n * dim + i) := by
  have e : ∀ r y, (bsplineAntiderivative A nsplines dim r y).get (n * dim + i) = A n r (y i) := fun r y =>
    bsplineBasis_get (S := fun n _ => A n r) y hn hi
  constructor
  · simp only [e]
    exact partialDeriv_coord hA i'
  · rw [e, bsplineBasis_get x hn hi, h0]

example := C103_antiderivative (S := fun n _ s => s ^ n) (A := fun n r s => if r = 0 then s ^ n else s ^ (n + 1) / (n + 1))
  (nsplines := 3) (dim := 2) (r := 0) (fun i => (i + 1 : ℝ) / 4) (n := 1) (i := 1) (by norm_num) (by norm_num)
  (by
    have := (hasDerivAt_pow 2 (2 / 4 : ℝ)).div_const 2
    refine HasDerivAt.congr_deriv (f' := (2 / 4 : ℝ)) ?_ ?_
    · norm_num at this ⊢
      exact this
    · norm_num) (fun n s => rfl) 1

/-! ### C104 -/

/-- **C104**: without knots, the fit fails for every data of dimension two or more. -/
theorem C104_default_knots_fails {k nKnots dim : ℕ} (hk : 1 ≤ k) (hn : k < nKnots) (hd : 2 ≤ dim) :
    bsplineFit k nKnots dim none = .error .value := by
  rw [bsplineFit]
  simp only [Option.getD_none]
  rw [if_neg (by omega), if_pos ⟨trivial, hd, by omega⟩]

example := C104_default_knots_fails (k := 3) (nKnots := 5) (dim := 2) (by norm_num) (by norm_num) (by norm_num)

/-- **C104**, the true part: in dimension one, or with given knots, there is one spline for each knot and coordinate. -/
theorem C104_fit_partial {k nKnots dim : ℕ} {knots : Option ℕ} (hn : k < knots.getD nKnots)
    (h : dim ≤ 1 ∨ knots ≠ none) : bsplineFit k nKnots dim knots = .ok (knots.getD nKnots, knots.getD nKnots * dim) := by
  rw [bsplineFit]
  rw [if_neg (by omega), if_neg]
  rintro ⟨h1, h2, _⟩
  rcases h with h | h
  · omega
  · exact h h1

example := C104_fit_partial (k := 3) (nKnots := 5) (dim := 2) (knots := some 7) (by decide) (Or.inr (by decide))

/-- **C104**: the fit fails for every number of knots that is not larger than the degree, and only then or without knots
in dimension two or more. -/
theorem C104_fails_iff {k nKnots dim : ℕ} {knots : Option ℕ} (hk : 1 ≤ k) :
    (∃ e, bsplineFit k nKnots dim knots = .error e) ↔ knots.getD nKnots ≤ k ∨ (knots = none ∧ 2 ≤ dim) := by
  rw [bsplineFit]
  constructor
  · rintro ⟨e, h⟩
    split_ifs at h with h1 h2
    · exact .inl h1
    · exact .inr ⟨h2.1, h2.2.1⟩
  · rintro (h | ⟨h1, h2⟩)
    · exact ⟨_, if_pos h⟩
    · by_cases c : knots.getD nKnots ≤ k
      · exact ⟨_, if_pos c⟩
      · exact ⟨_, by rw [if_neg c, if_pos ⟨h1, h2, by omega⟩]⟩

example := (C104_fails_iff (k := 3) (nKnots := 5) (dim := 1) (knots := some 3) (by decide)).2 (.inl (by decide))

/-- The number of columns of `basis` is `n_output_features_`. -/
theorem C104_columns {k nKnots dim n N : ℕ} {knots : Option ℕ} (h : bsplineFit k nKnots dim knots = .ok (n, N))
    (x : ℕ → ℝ) : (bsplineBasis S n dim x).len = N ∧
      (bsplineDeriv S k n false dim 1 x).len = N ∧ (bsplineDeriv S k n true dim 1 x).len = N - dim := by
  have hN : N = n * dim := by
    rw [bsplineFit] at h
    split_ifs at h
    cases h; rfl
  subst hN
  refine ⟨by simp [bsplineBasis, fillBasis, Nat.mul_comm], ?_, ?_⟩ <;> rw [bsplineDeriv_len] <;>
    simp [withConst, Nat.mul_comm, Nat.mul_sub]

example := C104_columns (S := bernstein2) (k := 2) (nKnots := 5) (dim := 2) (n := 3) (N := 6) (knots := some 3) (by decide)
  fun i => i

/-! ### C105 -/

theorem splineFctDeriv_get (s : ℕ → ℝ → ℝ) (dim order : ℕ) (x : ℕ → ℝ) (j : ℕ) (idx : List ℕ) :
    (splineFctDeriv s dim order x).get j idx =
      if j < dim ∧ idx = List.replicate order j then s order (x j) else 0 := by
  simp only [splineFctDeriv]
  induction dim with
  | zero => simp [forRange_of_le]
  | succ n ih =>
    rw [forRange_succ (Nat.zero_le n)]
    by_cases hj : j = n
    · subst hj
      rw [Function.update_self]
      by_cases hi : idx = List.replicate order j
      · subst hi; simp
      · rw [Function.update_of_ne hi, ih]
        simp [hi]
    · rw [Function.update_of_ne hj, ih]
      have : j < n ↔ j < n + 1 := by omega
      simp only [this]

/-- **C105**: the features of a single spline have one column per coordinate; the derivatives of every order and the
antiderivatives are those of the columns. -/
theorem C105_spline_function {s a : ℕ → ℝ → ℝ} {dim : ℕ} (x : ℕ → ℝ) {j : ℕ} (hj : j < dim) (i : ℕ) :
    (splineFctBasis s dim x).get j = s 0 (x j) ∧ (splineFctBasis s dim x).len = dim ∧
    (HasDerivAt (s 0) (s 1 (x j)) (x j) →
      PartialDeriv (fun y => (splineFctBasis s dim y).get j) x i ((splineFctDeriv s dim 1 x).get j [i])) ∧
    (∀ r idx, HasDerivAt (s r) (s (r + 1) (x j)) (x j) →
      PartialDeriv (fun y => (splineFctDeriv s dim r y).get j idx) x i
        ((splineFctDeriv s dim (r + 1) x).get j (i :: idx))) ∧
    ((∀ t, a 0 t = s 0 t) → HasDerivAt (a 1) (a 0 (x j)) (x j) →
      PartialDeriv (fun y => (splineFctAntiderivative a dim 1 y).get j) x i
        (if i = j then (splineFctBasis s dim x).get j else 0)) ∧
    (∀ r, HasDerivAt (a (r + 1)) (a r (x j)) (x j) →
      PartialDeriv (fun y => (splineFctAntiderivative a dim (r + 1) y).get j) x i
        (if i = j then (splineFctAntiderivative a dim r x).get j else 0)) := by
  refine ⟨rfl, rfl, fun h => ?_, fun r idx h => ?_, fun h0 h => ?_, fun r h => ?_⟩
  · rw [splineFctDeriv_get]
    simpa [splineFctBasis, hj] using partialDeriv_coord h i
  · simp only [splineFctDeriv_get, hj, true_and, List.replicate_succ, List.cons.injEq]
    by_cases hidx : idx = List.replicate r j
    · simpa [hidx] using partialDeriv_coord h i
    · simp only [hidx, and_false, if_false]
      exact hasDerivAt_const _ _
  · simpa [splineFctAntiderivative, splineFctBasis, h0] using partialDeriv_coord h i
  · simpa [splineFctAntiderivative] using partialDeriv_coord h i

example := (C105_spline_function (s := bernstein2 1) (a := fun _ => 0) (dim := 2) (fun i => (i + 1 : ℝ) / 4) (j := 1)
  (by norm_num) 1).2.2.1 (bernstein2_deriv (by norm_num) _)

end Verif
