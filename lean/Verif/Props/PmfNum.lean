import Verif.Props.Pmf

/-!
# `pmf_num_int_eval` (C118), missing mean force (C109)
-/

namespace Verif

set_option linter.unusedSectionVars false
set_option linter.unusedSimpArgs false

open LArr Finset

section
variable {K : Type*} [Field K]

theorem dotE_three {E C : LArr K} {n p x y : ℕ} (hd : E.dims = ["time", "dim_basis"]) (hs : E.shape = [n, p])
    (hd' : C.dims = ["dim_basis", "dim_x", "dim_x'"]) (hs' : C.shape = [p, x, y]) :
    ∃ r, dotE E C = .ok r ∧ r.dims = ["time", "dim_x", "dim_x'"] ∧ r.shape = [n, x, y] ∧
      ∀ t i j, r.get [t, i, j] = ∑ k ∈ range p, E.get [t, k] * C.get [k, i, j] := by
  obtain ⟨ds, sh, g⟩ := E
  obtain ⟨ds', sh', g'⟩ := C
  simp only at hd hs hd' hs'
  subst hd hs hd' hs'
  refine ⟨LArr.dot [⟨["time", "dim_basis"], [n, p], g⟩, ⟨["dim_basis", "dim_x", "dim_x'"], [p, x, y], g'⟩], ?_, ?_, ?_,
    fun t i j => ?_⟩
  · rw [dotE, if_pos]
    simp [compat, sizeIn, size, env, List.lookup]
  · simp [dot, dotDims, unionDims, List.countP_cons]
  · simp [dot, dotDims, unionDims, sizeIn, size, env, List.countP_cons, List.lookup]
  · simp [dot, dotDims, unionDims, sizeIn, size, env, LArr.val, sumOver, List.countP_cons, List.lookup, Function.update]

/-- The slope of the values `g` on points of spacing `dx`: centred, one-sided at the ends. -/
def Spec.slope (n : ℕ) (g : ℕ → K) (dx : K) (i : ℕ) : K :=
  if i = 0 then (g 1 - g 0) / dx
  else if i = n - 1 then (g (n - 1) - g (n - 2)) / dx
  else (g (i + 1) - g (i - 1)) / (2 * dx)

end

section
variable {K : Type*} [Field K] [LinearOrder K] [IsStrictOrderedRing K]

/-- A model in dimension one with a mean force and with inverse mass coefficients of axes `(dim_basis, dim_x, dim_x')`. -/
structure HasInvMass (s : ModelState K) (c ci : LArr K) (d : String) : Prop where
  force : HasForce s c d
  wf : s.bm.WF
  cls : s.bm.cls ≠ .withFriction
  dimx : s.bm.dimx = 1
  dimObs : s.bm.dimObs = 1
  mass : s.invMassCoeff = some ci
  dims : ci.dims = ["dim_basis", "dim_x", "dim_x'"]
  shape : ci.shape = [s.bm.basis.nOut, 1, 1]

/-- The force and the inverse mass at a point. -/
def Spec.forceAt (s : ModelState K) (c : LArr K) (pt : ℕ → K) : K :=
  ∑ k ∈ range s.bm.basis.nOut, s.bm.basis.basis pt k * c.get [k, 0]

/-- The inverse mass at a point. -/
def Spec.invMassAt (s : ModelState K) (ci : LArr K) (pt : ℕ → K) : K :=
  ∑ k ∈ range s.bm.basis.nOut, s.bm.basis.basis pt k * ci.get [k, 0, 0]

/-- **C118**: `pmf_num_int_eval` on at least two points. The increments of the result are `dx` times minus the force, plus
the slope of the inverse mass divided by `kT`, divided by the inverse mass; with `set_zero` the minimum is zero. -/
theorem C118_increments {s : ModelState K} {c ci : LArr K} {d : String} (h : HasInvMass s c ci d) (kT : K) {n : ℕ}
    (hn : 2 ≤ n) (pts : ℕ → ℕ → K) :
    ∃ r0 r1, pmfNumIntEval s kT false n pts = .ok r0 ∧ pmfNumIntEval s kT true n pts = .ok r1 ∧
      (∀ i < n, r0 i - (if i = 0 then 0 else r0 (i - 1)) =
        -(Spec.forceAt s c (pts i) - Spec.slope n (fun i => Spec.invMassAt s ci (pts i)) (pts 1 0 - pts 0 0) i / kT) /
          Spec.invMassAt s ci (pts i) * (pts 1 0 - pts 0 0)) ∧
      (∀ i < n, ∀ j < n, r1 i - r1 j = r0 i - r0 j) ∧ (∀ i < n, 0 ≤ r1 i) ∧ ∃ i < n, r1 i = 0 := by
  obtain ⟨rf, f1, f2, f3, f4⟩ := forceEval_ok h.force h.wf n pts
  have hfv : s.bm.forceVector (evalXva s.bm.dimx n pts) = s.bm.bk (evalXva s.bm.dimx n pts) := by
    unfold BasisModel.forceVector
    split
    · exact absurd ‹_› h.cls
    · rfl
  obtain ⟨A, a1, a2, a3, a4⟩ := dotE_three (E := s.bm.bk (evalXva s.bm.dimx n pts)) (C := ci) (n := n)
    (p := s.bm.basis.nOut) (x := 1) (y := 1) rfl rfl h.dims h.shape
  have hA : ∀ i, A.get [i, 0, 0] = Spec.invMassAt s ci (pts i) := by
    intro i
    rw [a4]
    simp [Spec.invMassAt, BasisModel.bk, mk2, evalXva]
  have hf : ∀ i, rf.get i 0 = Spec.forceAt s c (pts i) := fun i => f4 i 0
  have hinv : invMassEval s none n pts = .ok A := by
    simp only [invMassEval, h.mass, bind, Except.bind, pure, Except.pure, if_neg h.cls, hfv, a1]
  set P : Arr2 K := ⟨n, 1, fun i _ => (∑ j ∈ range (i + 1), -1 * (rf.get j 0 -
    npGradient n (fun i => A.get [i, 0, 0]) j / (pts 1 0 - pts 0 0) / kT) / A.get [j, 0, 0]) * (pts 1 0 - pts 0 0)⟩ with hP
  obtain ⟨m, m1, ⟨i0, hi0, j0, hj0, m2⟩, m3⟩ := minE_ok P (by change 1 ≤ n; omega) (le_refl 1)
  have hj0' : j0 = 0 := by change j0 < 1 at hj0; omega
  subst hj0'
  have hev : ∀ z, pmfNumIntEval s kT z n pts = .ok fun i => P.get i 0 - (if z then 1 else 0) * m := by
    intro z
    have e0 : ¬ n < 2 := by omega
    simp only [pmfNumIntEval, f1, hinv, bind, Except.bind, pure, Except.pure, f3, h.dimObs, h.dimx, a2, a3,
      throw, throwThe, MonadExceptOf.throw]
    simp only [List.length_cons, List.length_nil, List.getD_cons_succ, List.getD_cons_zero, Nat.reduceAdd, ne_eq,
      not_true_eq_false, one_ne_zero, or_self, if_false, mul_one, e0, Nat.div_one, Nat.mod_one]
    rw [← hP, m1]
  refine ⟨_, _, hev false, hev true, fun i hi => ?_, fun i hi j hj => ?_, fun i hi => ?_, i0, hi0, ?_⟩
  · have hs : ∀ i < n, npGradient n (fun i => A.get [i, 0, 0]) i / (pts 1 0 - pts 0 0) =
        Spec.slope n (fun i => Spec.invMassAt s ci (pts i)) (pts 1 0 - pts 0 0) i := by
      intro i hi
      simp only [npGradient, Spec.slope, hA]
      by_cases h0 : i = 0
      · simp [h0]
      · rw [if_neg h0, if_neg h0]
        by_cases h1 : i + 1 = n
        · rw [if_pos h1, if_pos (by omega), show n - 1 = i by omega, show n - 2 = i - 1 by omega]
        · rw [if_neg h1, if_neg (by omega), div_div]
    simp only [Bool.false_eq_true, if_false, zero_mul, sub_zero]
    have step : ∀ i < n, -1 * (rf.get i 0 - npGradient n (fun i => A.get [i, 0, 0]) i / (pts 1 0 - pts 0 0) / kT) /
        A.get [i, 0, 0] = -(Spec.forceAt s c (pts i) - Spec.slope n (fun i => Spec.invMassAt s ci (pts i))
          (pts 1 0 - pts 0 0) i / kT) / Spec.invMassAt s ci (pts i) := by
      intro i hi
      rw [hs i hi, hf, hA, neg_one_mul]
    by_cases h0 : i = 0
    · subst h0
      rw [if_pos rfl, sub_zero, ← step 0 hi]
      change (∑ j ∈ range 1, _) * _ = _
      rw [Finset.sum_range_one]
    · rw [if_neg h0, ← step i hi]
      obtain ⟨i', rfl⟩ : ∃ i', i = i' + 1 := ⟨i - 1, by omega⟩
      change (∑ j ∈ range (i' + 1 + 1), _) * _ - (∑ j ∈ range (i' + 1), _) * _ = _
      rw [Finset.sum_range_succ (n := i' + 1)]
      ring
  · simp only [if_true, Bool.false_eq_true, if_false]
    ring
  · simp only [if_true, one_mul, sub_nonneg]
    exact m3 i hi 0 (by change 0 < 1; omega)
  · simp only [if_true, one_mul, m2, sub_self]

/-- **C118** fails: with a constant inverse mass the result does not depend on `kT`, while `pmf_eval` divides by `kT`
(C64): the two methods agree for `kT = 1` only. -/
theorem C118_temperature_fails {s : ModelState K} {c ci : LArr K} {d : String} (h : HasInvMass s c ci d) {a : K}
    (ha : ∀ pt, Spec.invMassAt s ci pt = a) (kT kT' : K) {n : ℕ} (hn : 2 ≤ n) (pts : ℕ → ℕ → K) :
    ∃ r r', pmfNumIntEval s kT false n pts = .ok r ∧ pmfNumIntEval s kT' false n pts = .ok r' ∧ (∀ i < n, r i = r' i) ∧
      ∀ i < n, r i - (if i = 0 then 0 else r (i - 1)) = -Spec.forceAt s c (pts i) / a * (pts 1 0 - pts 0 0) := by
  obtain ⟨r, -, e, -, h1, -⟩ := C118_increments h kT hn pts
  obtain ⟨r', -, e', -, h1', -⟩ := C118_increments h kT' hn pts
  have hs : ∀ i, Spec.slope n (fun _ => a) (pts 1 0 - pts 0 0) i = 0 := by
    intro i
    simp [Spec.slope]
  simp only [ha, hs, zero_div, sub_zero] at h1 h1'
  refine ⟨r, r', e, e', fun i => ?_, h1⟩
  induction i with
  | zero =>
    intro hi
    have a1 := h1 0 hi
    have a2 := h1' 0 hi
    simp only [if_true, sub_zero] at a1 a2
    rw [a1, a2]
  | succ i ih =>
    intro hi
    have a1 := h1 (i + 1) hi
    have a2 := h1' (i + 1) hi
    simp only [Nat.add_one_ne_zero, if_false, Nat.add_sub_cancel] at a1 a2
    rw [← sub_add_cancel (r (i + 1)) (r i), ← sub_add_cancel (r' (i + 1)) (r' i), a1, a2, ih (by omega)]

/-- **C118**: fewer than two points, a mean force or an inverse mass not computed are rejected. -/
theorem C118_errors (s : ModelState K) (kT : K) (z : Bool) (n : ℕ) (pts : ℕ → ℕ → K) :
    (s.forceCoeff = none → pmfNumIntEval s kT z n pts = .error (.exception "Mean force has not been computed.")) ∧
    (∀ c ci d, HasInvMass s c ci d → n < 2 → pmfNumIntEval s kT z n pts = .error .index) := by
  constructor
  · intro h
    have : forceEval s none n pts = .error (.exception "Mean force has not been computed.") := by
      unfold forceEval coeffsOr
      rw [h]
      split <;> rfl
    simp only [pmfNumIntEval, this, bind, Except.bind]
  · intro c ci d h hn
    obtain ⟨rf, f1, f2, f3, f4⟩ := forceEval_ok h.force h.wf n pts
    have hfv : s.bm.forceVector (evalXva s.bm.dimx n pts) = s.bm.bk (evalXva s.bm.dimx n pts) := by
      unfold BasisModel.forceVector
      split
      · exact absurd ‹_› h.cls
      · rfl
    obtain ⟨A, a1, a2, a3, a4⟩ := dotE_three (E := s.bm.bk (evalXva s.bm.dimx n pts)) (C := ci) (n := n)
      (p := s.bm.basis.nOut) (x := 1) (y := 1) rfl rfl h.dims h.shape
    have hinv : invMassEval s none n pts = .ok A := by
      simp only [invMassEval, h.mass, bind, Except.bind, pure, Except.pure, if_neg h.cls, hfv, a1]
    simp only [pmfNumIntEval, f1, hinv, bind, Except.bind, pure, Except.pure, f3, h.dimObs, h.dimx, a2, a3,
      throw, throwThe, MonadExceptOf.throw]
    simp [hn]

/-- **C109**: without mean force, `force_eval` raises the exception that says so, for every class. -/
theorem C109_force_not_computed {s : ModelState K} (h : s.forceCoeff = none) (n : ℕ) (pts : ℕ → ℕ → K) :
    forceEval s none n pts = .error (.exception "Mean force has not been computed.") := by
  unfold forceEval coeffsOr
  rw [h]
  split <;> rfl

end

/-- A force `1 + 2 x` and an inverse mass `2 + x`. -/
def examplePosMassModel : ModelState ℚ where
  bm := ⟨.posGle, ⟨2, false, fun p k => p 0 ^ k, fun p k _ => k * p 0 ^ (k - 1), fun _ _ _ _ => 0, fun p k => p 0 ^ (k + 1) / (k + 1)⟩, 1, 1⟩
  Lobs := "a"
  dt := 1
  truncInd := 1
  forceCoeff := some (LArr.mk2 "dim_basis" 2 "dim_x" 1 fun k _ => k + 1)
  kernel := none
  method := none
  rankProjection := false
  Prange := none
  gramForce := none
  gramKernel := none
  effMass := none
  invMassCoeff := some ⟨["dim_basis", "dim_x", "dim_x'"], [2, 1, 1], fun idx => 2 - idx.headD 0⟩

example := C118_increments (s := examplePosMassModel) (d := "dim_x") ⟨⟨rfl, rfl, rfl, by decide, by decide⟩,
  fun h => by simp [examplePosMassModel] at h, by decide, rfl, rfl, rfl, rfl, rfl⟩ 2 (n := 3) (by decide) fun i _ => (i : ℚ)

end Verif
