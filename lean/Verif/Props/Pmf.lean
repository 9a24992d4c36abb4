import Verif.Model.ModelEval
import Verif.Lemmas.Estimator
import Mathlib.Analysis.Calculus.Deriv.Add
import Mathlib.Analysis.Calculus.Deriv.Mul
import Mathlib.Analysis.Calculus.Deriv.Pow

/-!
# Properties of `pmf_eval` and `force_eval`: C64
-/

namespace Verif

set_option linter.unusedSectionVars false
set_option linter.unusedSimpArgs false
set_option linter.unusedVariables false

open LArr Finset

section
variable {K : Type*} [Field K]

/-- The axes and sizes of the force coefficients: `(dim_basis, d)`, with one row per force basis function. -/
structure HasForce (s : ModelState K) (c : LArr K) (d : String) : Prop where
  force : s.forceCoeff = some c
  dims : c.dims = ["dim_basis", d]
  shape : c.shape = [s.bm.nForce, s.bm.dimObs]
  axis : d ≠ "time" ∧ d ≠ "dim_basis"

theorem dotE_ok {E C : LArr K} {n p x : ℕ} {d : String} (h1 : d ≠ "time") (h2 : d ≠ "dim_basis")
    (hd : E.dims = ["time", "dim_basis"]) (hs : E.shape = [n, p])
    (hd' : C.dims = ["dim_basis", d]) (hs' : C.shape = [p, x]) :
    ∃ r, dotE E C = .ok r ∧ r.shape = [n, x] ∧
      ∀ t j, r.get [t, j] = ∑ k ∈ range p, E.get [t, k] * C.get [k, j] := by
  obtain ⟨-, h4, h5⟩ := dot_force h1 h2 hd hs hd' hs'
  refine ⟨_, ?_, h4, h5⟩
  rw [dotE, if_pos]
  obtain ⟨ds, sh, g⟩ := E
  obtain ⟨ds', sh', g'⟩ := C
  simp only at hd hs hd' hs'
  subst hd hs hd' hs'
  have h1' : (d == "time") = false := by simpa using h1
  have h2' : (d == "dim_basis") = false := by simpa using h2
  simp [compat, sizeIn, size, env, List.lookup, h1, h2, h1', h2', h1.symm, h2.symm]

/-- `force_eval` with the computed coefficients, for every class: at each point the sum of the basis
functions times their coefficients (for the model with friction, those of the position dependent part). -/
theorem forceEval_ok {s : ModelState K} {c : LArr K} {d : String} (hc : HasForce s c d) (hm : s.bm.WF) (n : ℕ)
    (pts : ℕ → ℕ → K) : ∃ r, forceEval s none n pts = .ok r ∧ r.rows = n ∧ r.cols = s.bm.dimObs ∧
      ∀ i l, r.get i l = ∑ k ∈ range s.bm.basis.nOut, s.bm.basis.basis (pts i) k * c.get [k, l] := by
  unfold forceEval
  by_cases hf : s.bm.cls = .withFriction
  · rw [hf]
    simp only [coeffsOr, hc.force, bind, Except.bind]
    have hnf : s.bm.nForce = 2 * s.bm.basis.nOut - (if s.bm.basis.constRemoved then s.bm.dimx else 0) := by
      simp [BasisModel.nForce, hf]
    have hle : s.bm.basis.nOut ≤ s.bm.nForce := by
      rw [hnf]
      split_ifs with h
      · have := hm h; omega
      · omega
    rw [Arr2.matmul, if_pos]
    · refine ⟨_, rfl, rfl, ?_, fun i l => ?_⟩
      · simp [Arr2.take, toArr2, hc.shape]
      · simp [toArr2, BasisModel.bk, mk2, evalXva, Arr2.take]
    · simp [toArr2, BasisModel.bk, mk2, evalXva, Arr2.take, hc.shape, hle]
  · have h1 : s.bm.forceVector (evalXva s.bm.dimx n pts) = s.bm.bk (evalXva s.bm.dimx n pts) := by
      unfold BasisModel.forceVector
      split
      · exact absurd ‹_› hf
      · rfl
    have h2 : s.bm.nForce = s.bm.basis.nOut := by
      unfold BasisModel.nForce
      split
      · exact absurd ‹_› hf
      · rfl
    obtain ⟨r, hr, hs, hg⟩ := dotE_ok (E := s.bm.bk (evalXva s.bm.dimx n pts)) (C := c) (n := n)
      (p := s.bm.basis.nOut) (x := s.bm.dimObs) hc.axis.1 hc.axis.2 rfl rfl hc.dims (by rw [hc.shape, h2])
    refine ⟨r.toArr2, ?_, by simp [toArr2, hs], by simp [toArr2, hs], fun i l => ?_⟩
    · split
      · exact absurd ‹_› hf
      · simp only [coeffsOr, hc.force, bind, Except.bind, h1, hr, pure, Except.pure]
    · show r.get [i, l] = _
      rw [hg]
      simp [BasisModel.bk, mk2, evalXva]

/-- The effective mass used by `pmf_eval`: none for the overdamped class, the identity if it has not been
computed. -/
def Spec.massEntry (s : ModelState K) (m l : ℕ) : K :=
  if s.bm.cls = .overdamped then (if m = l then 1 else 0)
  else match s.effMass with
    | none => if m = l then 1 else 0
    | some M => M.get [m, l]

/-- The free energy before the minimum is subtracted. -/
theorem pmfRaw_ok {s : ModelState K} {c : LArr K} {d : String} (hc : HasForce s c d) (hm : s.bm.WF)
    (hx : s.bm.dimObs = s.bm.dimx) (hM : ∀ M, s.effMass = some M → M.shape = [s.bm.dimx, s.bm.dimx]) (kT : K) (n : ℕ)
    (pts : ℕ → ℕ → K) : ∃ r, pmfRaw s none kT n pts = .ok r ∧ r.rows = n ∧ r.cols = s.bm.dimObs ∧
      ∀ i, ∀ l < s.bm.dimObs, r.get i l = -(∑ m ∈ range s.bm.dimObs,
        (∑ k ∈ range s.bm.basis.nOut, s.bm.basis.antiderivative (pts i) k * c.get [k, m]) * Spec.massEntry s m l) / kT := by
  have hmass : s.bm.cls ≠ .overdamped → (effMassOr s).rows = s.bm.dimx ∧ (effMassOr s).cols = s.bm.dimx ∧
      ∀ m l, (effMassOr s).get m l = Spec.massEntry s m l := by
    intro ho
    unfold effMassOr Spec.massEntry
    simp only [if_neg ho]
    cases h : s.effMass with
    | none => exact ⟨rfl, rfl, fun _ _ => rfl⟩
    | some M => exact ⟨by simp [toArr2, hM M h], by simp [toArr2, hM M h], fun _ _ => rfl⟩
  -- the common part of the underdamped classes
  have main : ∀ c' : LArr K, c'.dims = ["dim_basis", d] → c'.shape = [s.bm.basis.nOut, s.bm.dimObs] → c'.get = c.get →
      s.bm.cls ≠ .overdamped → ∃ d' r, dotE (s.bm.pmfVector (evalXva s.bm.dimx n pts)) c' = .ok d' ∧
        d'.toArr2.neg.matmul (effMassOr s) = .ok r ∧ r.rows = n ∧ r.cols = s.bm.dimObs ∧
        ∀ i, ∀ l < s.bm.dimObs, r.get i l = -(∑ m ∈ range s.bm.dimObs,
          (∑ k ∈ range s.bm.basis.nOut, s.bm.basis.antiderivative (pts i) k * c.get [k, m]) * Spec.massEntry s m l) := by
    intro c' h1 h2 h3 ho
    obtain ⟨e1, e2, e3⟩ := hmass ho
    obtain ⟨r, hr, hs, hg⟩ := dotE_ok (E := s.bm.pmfVector (evalXva s.bm.dimx n pts)) (C := c') (n := n)
      (p := s.bm.basis.nOut) (x := s.bm.dimObs) hc.axis.1 hc.axis.2 rfl rfl h1 h2
    have hmul : r.toArr2.neg.matmul (effMassOr s) = .ok ⟨r.toArr2.neg.rows, (effMassOr s).cols, fun i l =>
        ∑ k ∈ range r.toArr2.neg.cols, r.toArr2.neg.get i k * (effMassOr s).get k l⟩ := by
      rw [Arr2.matmul, if_pos]
      simp [Arr2.neg, toArr2, hs, e1, hx]
    refine ⟨r, _, hr, hmul, ?_⟩
    · refine ⟨by simp [Arr2.neg, toArr2, hs], by simp [e2, hx], fun i l hl => ?_⟩
      simp only [Arr2.neg, toArr2, hs, e3, hg, h3, List.getD_cons_succ, List.getD_cons_zero]
      rw [← Finset.sum_neg_distrib]
      refine Finset.sum_congr rfl fun m _ => ?_
      simp only [BasisModel.pmfVector, mk2, evalXva, if_true]
      ring
  unfold pmfRaw
  cases hcls : s.bm.cls with
  | overdamped =>
    have h2 : s.bm.nForce = s.bm.basis.nOut := by simp [BasisModel.nForce, hcls]
    simp only [Option.map_none, reduceCtorEq, if_false, coeffsOr, hc.force, bind, Except.bind, pure, Except.pure]
    rw [Arr2.matmul, if_pos (by simp [toArr2, BasisModel.pmfVector, mk2, hc.shape, h2])]
    refine ⟨_, rfl, rfl, by simp [Arr2.divs, Arr2.neg, toArr2, hc.shape], fun i l hl => ?_⟩
    simp only [Arr2.divs, Arr2.neg, toArr2, BasisModel.pmfVector, mk2, evalXva, Spec.massEntry, hcls, if_true,
      List.getD_cons_succ, List.getD_cons_zero, mul_ite, mul_one, mul_zero]
    rw [Finset.sum_ite_eq' (range s.bm.dimObs) l, if_pos (mem_range.2 hl)]
    ring
  | withFriction =>
    have hnf : s.bm.nForce = 2 * s.bm.basis.nOut - (if s.bm.basis.constRemoved then s.bm.dimx else 0) := by
      simp [BasisModel.nForce, hcls]
    have hle : s.bm.basis.nOut ≤ s.bm.nForce := by
      rw [hnf]
      split_ifs with h
      · have := hm h; omega
      · omega
    obtain ⟨d', r, h1, h2, h3, h4, h5⟩ := main
      { c with shape := [min s.bm.basis.nOut (c.shape.getD 0 0), c.shape.getD 1 0] } hc.dims
      (by simp [hc.shape, hle]) rfl (by rw [hcls]; decide)
    simp only [coeffsOr, hc.force, bind, Except.bind, pure, Except.pure, Option.isSome_none, Bool.false_eq_true, if_false]
    rw [h1]
    dsimp only
    rw [h2]
    exact ⟨_, rfl, h3, h4, fun i l hl => by simp only [Arr2.divs]; rw [h5 i l hl]⟩
  | posGle | noVelBasis | constKernel | hybrid =>
    have h0 : s.bm.nForce = s.bm.basis.nOut := by simp [BasisModel.nForce, hcls]
    obtain ⟨d', r, h1, h2, h3, h4, h5⟩ := main c hc.dims (by rw [hc.shape, h0]) rfl (by rw [hcls]; decide)
    simp only [coeffsOr, hc.force, bind, Except.bind, pure, Except.pure]
    rw [h1]
    dsimp only
    rw [h2]
    exact ⟨_, rfl, h3, h4, fun i l hl => by simp only [Arr2.divs]; rw [h5 i l hl]⟩

end

/-! ### The minimum -/

section
variable {K : Type*} [LinearOrder K]

theorem foldl_min_bound (l : List K) : ∀ a : K, (l.foldl min a = a ∨ l.foldl min a ∈ l) ∧ l.foldl min a ≤ a ∧
    ∀ b ∈ l, l.foldl min a ≤ b := by
  induction l with
  | nil => simp
  | cons c l ih =>
    intro a
    obtain ⟨h1, h2, h3⟩ := ih (min a c)
    simp only [List.foldl_cons, List.mem_cons]
    refine ⟨?_, h2.trans (min_le_left _ _), ?_⟩
    · rcases h1 with h1 | h1
      · rcases min_choice a c with h | h <;> rw [h] at h1 ⊢ <;> simp [h1]
      · exact Or.inr (Or.inr h1)
    · rintro b (rfl | hb)
      · exact h2.trans (min_le_right _ _)
      · exact h3 b hb

/-- `np.min` of a non-empty array is an entry and is below all entries. -/
theorem minE_ok (A : Arr2 K) (hr : 1 ≤ A.rows) (hc : 1 ≤ A.cols) : ∃ m, A.minE = .ok m ∧
    (∃ i < A.rows, ∃ j < A.cols, A.get i j = m) ∧ ∀ i < A.rows, ∀ j < A.cols, m ≤ A.get i j := by
  have hmem : ∀ b, b ∈ ((List.range A.rows).flatMap fun i => (List.range A.cols).map (A.get i)) ↔
      ∃ i < A.rows, ∃ j < A.cols, A.get i j = b := by
    intro b
    simp [List.mem_flatMap, List.mem_map]
  unfold Arr2.minE
  generalize ((List.range A.rows).flatMap fun i => (List.range A.cols).map (A.get i)) = L at hmem ⊢
  cases L with
  | nil => exact absurd ((hmem (A.get 0 0)).2 ⟨0, by omega, 0, by omega, rfl⟩) (by simp)
  | cons a l =>
    obtain ⟨h1, h2, h3⟩ := foldl_min_bound l a
    refine ⟨_, rfl, ?_, fun i hi j hj => ?_⟩
    · rw [← hmem]
      rcases h1 with h1 | h1
      · rw [h1]; simp
      · simp [h1]
    · rcases List.mem_cons.1 ((hmem (A.get i j)).2 ⟨i, hi, j, hj, rfl⟩) with h | h
      · rw [h]; exact h2
      · exact h3 _ h

end

/-! ### C64 -/

/-- In one dimension the antiderivative of the basis is one: its derivative is the basis. -/
def Spec.IsAntiderivative (b : PointBasis ℝ) : Prop :=
  ∀ k < b.nOut, ∀ x : ℝ, HasDerivAt (fun y : ℝ => b.antiderivative (fun _ => y) k) (b.basis (fun _ => x) k) x

/-- The basis depends on the coordinates of the point only. -/
def Spec.DependsOn (b : PointBasis ℝ) (dimx : ℕ) : Prop :=
  ∀ p q : ℕ → ℝ, (∀ i < dimx, p i = q i) → (∀ k < b.nOut, b.basis p k = b.basis q k) ∧
    ∀ k < b.nOut, b.antiderivative p k = b.antiderivative q k

/-- **C64** In one dimension, for every class: there are functions `F` and `f` such that `force_eval`
returns the values of `f`, `pmf_eval` without `set_zero` those of `F`, the derivative of `F` is
`-f * mass / kT`, and with `set_zero` the result is `F` minus its minimum over the evaluation points. -/
theorem C64_pmf {s : ModelState ℝ} {c : LArr ℝ} {d : String} (hc : HasForce s c d) (hm : s.bm.WF)
    (hx : s.bm.dimx = 1) (ho : s.bm.dimObs = 1) (hM : ∀ M, s.effMass = some M → M.shape = [1, 1])
    (hA : Spec.IsAntiderivative s.bm.basis) (hD : Spec.DependsOn s.bm.basis 1) {kT : ℝ} (hkT : kT ≠ 0) :
    ∃ F f : ℝ → ℝ, (∀ x, HasDerivAt F (-(f x) * Spec.massEntry s 0 0 / kT) x) ∧
      ∀ n pts, 1 ≤ n → ∃ rf r0 r1, forceEval s none n pts = .ok rf ∧ pmfEval s none kT false n pts = .ok r0 ∧
        pmfEval s none kT true n pts = .ok r1 ∧
        (∀ r ∈ [rf, r0, r1], r.rows = n ∧ r.cols = 1) ∧
        (∀ i < n, rf.get i 0 = f (pts i 0)) ∧ (∀ i < n, r0.get i 0 = F (pts i 0)) ∧
        (∀ i < n, ∀ j < n, r1.get i 0 - r1.get j 0 = F (pts i 0) - F (pts j 0)) ∧
        (∀ i < n, 0 ≤ r1.get i 0) ∧ ∃ i < n, r1.get i 0 = 0 := by
  refine ⟨fun y => -((∑ k ∈ range s.bm.basis.nOut, s.bm.basis.antiderivative (fun _ => y) k * c.get [k, 0]) *
      Spec.massEntry s 0 0) / kT,
    fun y => ∑ k ∈ range s.bm.basis.nOut, s.bm.basis.basis (fun _ => y) k * c.get [k, 0], fun x => ?_,
    fun n pts hn => ?_⟩
  · have h1 : HasDerivAt (fun y => ∑ k ∈ range s.bm.basis.nOut, s.bm.basis.antiderivative (fun _ => y) k * c.get [k, 0])
        (∑ k ∈ range s.bm.basis.nOut, s.bm.basis.basis (fun _ => x) k * c.get [k, 0]) x :=
      HasDerivAt.fun_sum fun k hk => (hA k (mem_range.1 hk) x).mul_const _
    refine ((h1.mul_const (Spec.massEntry s 0 0)).neg.div_const kT).congr_deriv ?_
    ring
  · obtain ⟨rf, f1, f2, f3, f4⟩ := forceEval_ok hc hm n pts
    obtain ⟨r, p1, p2, p3, p4⟩ := pmfRaw_ok hc hm (by rw [hx, ho]) (fun M h => by rw [hM M h, hx]) kT n pts
    obtain ⟨m, m1, ⟨i0, hi0, j0, hj0, m2⟩, m3⟩ := minE_ok r (by omega) (by omega)
    have hj0' : j0 = 0 := by omega
    subst hj0'
    have hF : ∀ i < n, r.get i 0 = -((∑ k ∈ range s.bm.basis.nOut,
        s.bm.basis.antiderivative (fun _ => pts i 0) k * c.get [k, 0]) * Spec.massEntry s 0 0) / kT := by
      intro i hi
      rw [p4 i 0 (by omega), ho, Finset.sum_range_one]
      congr 3
      refine Finset.sum_congr rfl fun k hk => ?_
      rw [(hD (pts i) (fun _ => pts i 0) (fun i hi => by rw [Nat.lt_one_iff.1 hi])).2 k (mem_range.1 hk)]
    refine ⟨rf, { r with get := fun i l => r.get i l - (if false then 1 else 0) * m },
      { r with get := fun i l => r.get i l - (if true then 1 else 0) * m }, f1, ?_, ?_, ?_, fun i hi => ?_, fun i hi => ?_, fun i hi j hj => ?_, fun i hi => ?_, i0, by omega, ?_⟩
    · simp only [pmfEval, p1, m1, bind, Except.bind, pure, Except.pure]
    · simp only [pmfEval, p1, m1, bind, Except.bind, pure, Except.pure]
    · simp [f2, f3, p2, p3, ho]
    · rw [f4]
      refine Finset.sum_congr rfl fun k hk => ?_
      rw [(hD (pts i) (fun _ => pts i 0) (fun i hi => by rw [Nat.lt_one_iff.1 hi])).1 k (mem_range.1 hk)]
    · simp only [Bool.false_eq_true, if_false, zero_mul, sub_zero]
      exact hF i hi
    · simp only [if_true, one_mul]
      rw [← hF i hi, ← hF j hj]
      ring
    · simp only [if_true, one_mul, sub_nonneg]
      exact m3 i (by omega) 0 (by omega)
    · simp only [if_true, one_mul, m2, sub_self]

/-- Without evaluation points `np.min` raises. -/
theorem C64_empty {s : ModelState ℝ} {c : LArr ℝ} {d : String} (hc : HasForce s c d) (hm : s.bm.WF)
    (hx : s.bm.dimObs = s.bm.dimx) (hM : ∀ M, s.effMass = some M → M.shape = [s.bm.dimx, s.bm.dimx]) (kT : ℝ)
    (setZero : Bool) (pts : ℕ → ℕ → ℝ) : pmfEval s none kT setZero 0 pts = .error .value := by
  obtain ⟨r, p1, p2, -, -⟩ := pmfRaw_ok hc hm hx hM kT 0 pts
  simp only [pmfEval, p1, bind, Except.bind, Arr2.minE, p2, List.range_zero, List.flatMap_nil]

/-- A linear force on the functions `1, x`, with antiderivatives `x, x^2 / 2`. -/
noncomputable def examplePmfModel (cls : ModelClass) (M : Option (LArr ℝ)) : ModelState ℝ where
  bm := ⟨cls, ⟨2, false, fun p k => p 0 ^ k, fun p k _ => k * p 0 ^ (k - 1), fun _ _ _ _ => 0,
    fun p k => p 0 ^ (k + 1) / (k + 1)⟩, 1, 1⟩
  Lobs := "a"
  dt := 1
  truncInd := 1
  forceCoeff := some (LArr.mk2 "dim_basis" (BasisModel.nForce (K := ℝ) ⟨cls, ⟨2, false, fun p k => p 0 ^ k,
    fun p k _ => k * p 0 ^ (k - 1), fun _ _ _ _ => 0, fun p k => p 0 ^ (k + 1) / (k + 1)⟩, 1, 1⟩) "dim_x" 1
    fun k _ => 1 - 3 * (k : ℝ))
  kernel := none
  method := none
  rankProjection := false
  Prange := none
  gramForce := none
  gramKernel := none
  effMass := M

theorem examplePmf_force (cls : ModelClass) (M : Option (LArr ℝ)) :
    HasForce (examplePmfModel cls M) ((examplePmfModel cls M).forceCoeff.getD (LArr.scalar 0)) "dim_x" :=
  ⟨rfl, rfl, rfl, by decide, by decide⟩

theorem examplePmf_anti (cls : ModelClass) (M : Option (LArr ℝ)) :
    Spec.IsAntiderivative (examplePmfModel cls M).bm.basis := by
  intro k _ x
  refine ((hasDerivAt_pow (k + 1) x).div_const ((k : ℝ) + 1)).congr_deriv ?_
  have : (k : ℝ) + 1 ≠ 0 := by positivity
  simp only [examplePmfModel]
  field_simp
  push_cast
  simp

theorem examplePmf_dep (cls : ModelClass) (M : Option (LArr ℝ)) :
    Spec.DependsOn (examplePmfModel cls M).bm.basis 1 := by
  intro p q h
  simp [examplePmfModel, h 0 (by norm_num)]

example (cls : ModelClass) := C64_pmf (kT := 2) (examplePmf_force cls (some (LArr.mk2 "dim_x'" 1 "dim_x" 1 fun _ _ => 5)))
  (by intro h; cases h) rfl rfl (by intro M h; cases h; rfl) (examplePmf_anti cls _) (examplePmf_dep cls _) (by norm_num)
example (cls : ModelClass) := C64_empty (examplePmf_force cls none) (by intro h; cases h) rfl (by intro M h; cases h) 1
  true (fun _ _ => 0)

end Verif
