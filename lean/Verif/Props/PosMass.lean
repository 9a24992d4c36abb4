import Verif.Model.ModelEval
import Verif.Props.Estimator

/-!
# The position dependent inverse mass: C83
-/

namespace Verif

set_option linter.unusedSectionVars false
set_option linter.unusedSimpArgs false

open LArr Finset

section
variable {K : Type*} [Field K]

def posMassLay (p x : ℕ) (i : ℕ) : List String × List ℕ :=
  if i = 0 then (["dim_basis", "dim_x'"], [p, x]) else (["dim_basis", "dim_basis'"], [p, p])

/-- The component `j` of the velocity times the `k`-th kernel function applied to the velocity. -/
def Spec.kernelVel (m : BasisModel K) (xva : Xva K) (t k j : ℕ) : K :=
  (∑ d ∈ range xva.dimx, Spec.kernelFeature m xva t k d * xva.data "v" t d) * xva.data "v" t j

/-- The scalar product of two kernel functions at a frame. -/
def Spec.kernelDot (m : BasisModel K) (xva : Xva K) (t k l : ℕ) : K :=
  ∑ d ∈ range xva.dimx, Spec.kernelFeature m xva t k d * Spec.kernelFeature m xva t l d

theorem squareVelPos_res {m : BasisModel K} {xvas : List (Xva K)} {x : ℕ} (hs : ∀ xva ∈ xvas, xva.dimx = x)
    (hk : ∀ xva ∈ xvas, m.kernelDim xva = x) {xva : Xva K} (hx : xva ∈ xvas) :
    ∃ rs, squareVelPosTraj m xva.n xva = .ok rs ∧ Res 2 (posMassLay m.nKernelEval x) (fun i => if i = 0 then
        at2 fun k j => (∑ t ∈ range xva.n, Spec.kernelVel m xva t k j) / xva.n
      else at2 fun k l => (∑ t ∈ range xva.n, Spec.kernelDot m xva t k l) / xva.n) rs := by
  obtain ⟨e1, e2, e3⟩ := kernelVector_is m xva
  have hx' := hs xva hx
  rw [hk xva hx] at e2
  obtain ⟨g1, g2, g3⟩ := dot_gram3 e1 e2
  refine ⟨_, rfl, rfl, fun i hi => ?_⟩
  rcases (by omega : i = 0 ∨ i = 1) with rfl | rfl
  · generalize m.kernelVector xva = E at e1 e2 e3
    obtain ⟨ds, sh, g⟩ := E
    simp only at e1 e2 e3
    subst e1 e2
    refine ⟨_, rfl, ?_, ?_, fun is h => ?_⟩
    · simp [Xva.var, mk2, divNat, LArr.map, dot, rename1, rename, dotDims, unionDims, posMassLay, List.countP_cons]
    · simp [Xva.var, mk2, divNat, LArr.map, dot, rename1, rename, dotDims, unionDims, posMassLay, List.countP_cons,
        sizeIn, size, env, List.lookup, hx']
    · obtain ⟨i, j, rfl, -, -⟩ := inRange2 h
      simp [Xva.var, mk2, divNat, LArr.map, dot, rename1, rename, dotDims, unionDims, List.countP_cons, sizeIn, size, env,
        List.lookup, LArr.val, sumOver, at2, e3, Spec.kernelVel, hx', Finset.sum_mul, mul_assoc]
  · refine ⟨_, rfl, ?_, ?_, fun is h => ?_⟩
    · exact g1
    · exact g2
    · obtain ⟨i, j, rfl, -, -⟩ := inRange2 h
      show (dot _).get [i, j] / _ = _
      rw [g3]
      simp [at2, e3, Spec.kernelDot, hx']

theorem posMassLay_ok (p x : ℕ) (i : ℕ) (_ : i < 2) :
    (posMassLay p x i).1.Nodup ∧ (posMassLay p x i).2.length = (posMassLay p x i).1.length := by
  unfold posMassLay
  split_ifs <;> simp

end

section
variable {K : Type*} [Field K] [LinearOrder K]

/-- **C83**, the coefficients: when `compute_pos_effective_mass` succeeds, `inv_mass_coeff` has the axes
`(dim_basis, dim_x')` and solves the normal equations of the kernel functions. -/
theorem C83_coefficients [CharZero K] {env : Env K} (hl : IsLoop env.loop) {s s' : EstState K} {x : ℕ}
    (hs : ∀ xva ∈ s.xvas, xva.dimx = x) (hk : ∀ xva ∈ s.xvas, s.model.bm.kernelDim xva = x) (hne : s.xvas ≠ [])
    (hn : ∀ xva ∈ s.xvas, 1 ≤ xva.n) (h : computePosEffectiveMass env s = (s', none)) :
    ∃ c, s' = { s with model := { s.model with invMassCoeff := some c } } ∧ c.dims = ["dim_basis", "dim_x'"] ∧
      c.shape = [s.model.bm.nKernelEval, x] ∧
      ∀ i < s.model.bm.nKernelEval, ∀ j < x,
        ∑ k ∈ range s.model.bm.nKernelEval, Spec.pooledMean (s.xvas.map fun xva =>
          (xva.n, fun t => Spec.kernelDot s.model.bm xva t i k)) * c.get [k, j] =
        Spec.pooledMean (s.xvas.map fun xva => (xva.n, fun t => Spec.kernelVel s.model.bm xva t i j)) := by
  obtain ⟨out, e, ho⟩ := loopSerial_ok (func := squareVelPosTraj s.model.bm) hne (posMassLay_ok s.model.bm.nKernelEval x)
    fun xva hx => squareVelPos_res hs hk hx
  obtain ⟨hlen, hget⟩ := ho
  obtain ⟨D, hD, D1, D2, D3⟩ := hget 0 (by norm_num)
  obtain ⟨G, hG, G1, G2, G3⟩ := hget 1 (by norm_num)
  obtain rfl : out = [D, G] := by
    match out, hlen with
    | [a, b], _ =>
      simp only [List.getElem?_cons_zero, List.getElem?_cons_succ, Option.some.injEq] at hD hG
      rw [hD, hG]
  unfold computePosEffectiveMass at h
  rw [hl.eq, e] at h
  dsimp only at h
  simp only [posMassLay, if_true, if_neg (show (1 : ℕ) ≠ 0 by norm_num)] at D1 D2 D3 G1 G2 G3
  cases hc : solveLinear G D with
  | error e => rw [hc] at h; simp [raises] at h
  | ok c =>
    rw [hc] at h
    simp only [Prod.mk.injEq, and_true] at h
    obtain ⟨c1, c2, -, c3⟩ := solveLinear_ok G2 D2 hc
    refine ⟨c, h.symm, by rw [c1, D1], by rw [c2, D2], fun i hi j hj => ?_⟩
    have := c3 i hi j hj
    have hir : ∀ {p q i j : ℕ}, i < p → j < q → InRange [i, j] [p, q] := fun hi hj =>
      List.Forall₂.cons hi (List.Forall₂.cons hj List.Forall₂.nil)
    rw [D3 [i, j] (hir hi hj)] at this
    simp only [at2, List.getD_cons_zero, List.getD_cons_succ] at this
    rw [pooled_sum hn (fun xva t => Spec.kernelVel s.model.bm xva t i j)] at this
    rw [← this]
    refine Finset.sum_congr rfl fun k hk' => ?_
    rw [G3 [i, k] (hir hi (mem_range.1 hk'))]
    simp only [at2, List.getD_cons_zero, List.getD_cons_succ]
    rw [pooled_sum hn (fun xva t => Spec.kernelDot s.model.bm xva t i k)]

/-- C83, the evaluation: with coefficients of axes `(dim_basis, dim_x')`, `inv_mass_eval` returns a matrix
`(points, dim_x)` if the numbers of functions of the force and of the kernel agree, and raises otherwise. -/
theorem C83_inv_mass_eval {s : ModelState K} {c : LArr K} {p x : ℕ} (hc : s.invMassCoeff = some c)
    (hd : c.dims = ["dim_basis", "dim_x'"]) (hs : c.shape = [p, x]) (n : ℕ) (pts : ℕ → ℕ → K) :
    (s.bm.cls = .withFriction → invMassEval s none n pts = .error .key) ∧
    (s.bm.cls ≠ .withFriction → p ≠ s.bm.basis.nOut → invMassEval s none n pts = .error .value) ∧
    (s.bm.cls ≠ .withFriction → p = s.bm.basis.nOut → ∃ A, invMassEval s none n pts = .ok A ∧
      A.dims = ["time", "dim_x'"] ∧ A.shape = [n, x] ∧
      ∀ i j, A.get [i, j] = ∑ k ∈ range p, s.bm.basis.basis (pts i) k * c.get [k, j]) := by
  refine ⟨fun h => ?_, fun h hp => ?_, fun h hp => ?_⟩
  · simp [invMassEval, hc, h, bind, Except.bind, throw, throwThe, MonadExceptOf.throw]
  all_goals
    have h1 : s.bm.forceVector (evalXva s.bm.dimx n pts) = s.bm.bk (evalXva s.bm.dimx n pts) := by
      unfold BasisModel.forceVector
      split
      · exact absurd ‹_› h
      · rfl
  · simp only [invMassEval, hc, bind, Except.bind, h, if_false, h1, pure, Except.pure, dotE]
    rw [if_neg]
    obtain ⟨ds, sh, g⟩ := c
    simp only at hd hs
    subst hd hs
    simp [compat, sizeIn, size, env, List.lookup, BasisModel.bk, mk2, hp]
  · simp only [invMassEval, hc, bind, Except.bind, h, if_false, h1, pure, Except.pure, dotE]
    obtain ⟨d1, d2, d3⟩ := dot_force (E := s.bm.bk (evalXva s.bm.dimx n pts)) (C := c) (n := n) (p := p) (x := x)
      (d := "dim_x'") (by decide) (by decide) rfl (by rw [hp]; rfl) hd hs
    rw [if_pos]
    · refine ⟨_, rfl, d1, d2, fun i j => ?_⟩
      rw [d3]
      simp [BasisModel.bk, mk2, evalXva]
    · obtain ⟨ds, sh, g⟩ := c
      simp only at hd hs
      subst hd hs
      simp [compat, sizeIn, size, env, List.lookup, BasisModel.bk, mk2, hp]

theorem pmfNumInt_raises {M : ModelState K} {c : LArr K} {p x : ℕ} (hc : M.invMassCoeff = some c)
    (hd : c.dims = ["dim_basis", "dim_x'"]) (hs : c.shape = [p, x]) (kT : K) (setZero : Bool) (n : ℕ)
    (pts : ℕ → ℕ → K) : ∃ e, pmfNumIntEval M kT setZero n pts = .error e := by
  obtain ⟨h1, h2, h3⟩ := C83_inv_mass_eval hc hd hs n pts
  unfold pmfNumIntEval
  cases hf : forceEval M none n pts with
  | error e => exact ⟨e, by simp only [bind, Except.bind]⟩
  | ok f =>
    simp only [bind, Except.bind, throw, throwThe, MonadExceptOf.throw]
    by_cases hc : f.cols = 0
    · simp only [hc, if_true]
      exact ⟨_, rfl⟩
    · simp only [hc, if_false]
      by_cases hw : M.bm.cls = .withFriction
      · simp only [h1 hw]
        exact ⟨_, rfl⟩
      · by_cases hp : p = M.bm.basis.nOut
        · obtain ⟨A, hA, a1, -, -⟩ := h3 hw hp
          simp only [hA, a1]
          exact ⟨.index, by simp [pure, Except.pure]⟩
        · simp only [h2 hw hp]
          exact ⟨_, rfl⟩

/-- C83 is false: with the coefficients computed by the estimator, `pmf_num_int_eval` raises for every model,
every choice of points and temperature. -/
theorem C83_pmf_fails [CharZero K] {env : Env K} (hl : IsLoop env.loop) {s s' : EstState K} {x : ℕ}
    (hs : ∀ xva ∈ s.xvas, xva.dimx = x) (hk : ∀ xva ∈ s.xvas, s.model.bm.kernelDim xva = x) (hne : s.xvas ≠ [])
    (hn : ∀ xva ∈ s.xvas, 1 ≤ xva.n) (h : computePosEffectiveMass env s = (s', none)) (kT : K) (setZero : Bool) (n : ℕ)
    (pts : ℕ → ℕ → K) : ∃ e, pmfNumIntEval s'.model kT setZero n pts = .error e := by
  obtain ⟨c, rfl, c1, c2, -⟩ := C83_coefficients hl hs hk hne hn h
  exact pmfNumInt_raises rfl c1 c2 kT setZero n pts

end

/-- One trajectory, functions `1, x` without their constant, and a serial loop. -/
def exampleMassState (cls : ModelClass) : EstState ℚ where
  model := { exampleMassModel cls with }
  xvas := [⟨2, 1, fun t => t, fun name t _ => if name = "x" then t else 1, fun _ => "dim_x", fun _ => 1⟩]
  corrs := none
  saveall := false
where
  exampleMassModel (cls : ModelClass) : ModelState ℚ :=
    { bm := ⟨cls, ⟨2, true, fun p k => p 0 ^ k, fun p k _ => (k + 1) * p 0 ^ k, fun _ _ _ _ => 0, fun _ _ => 0⟩, 1, 1⟩
      Lobs := "a", dt := 1, truncInd := 1
      forceCoeff := some (LArr.mk2 "dim_basis" (if cls = .withFriction then 3 else 2) "dim_x" 1 fun _ _ => 1)
      kernel := none, method := none, rankProjection := false, Prange := none, gramForce := none
      gramKernel := none, effMass := none }

def exampleMassEnv : Env ℚ := ⟨fun _ A => (A, fun _ => 0), 1, loopSerial, fun _ _ _ _ _ _ _ _ => .error .value⟩

theorem exampleMass_ok (cls : ModelClass) :
    ∃ s', computePosEffectiveMass exampleMassEnv (exampleMassState cls) = (s', none) := by
  have h : (computePosEffectiveMass exampleMassEnv (exampleMassState cls)).2 = none := by
    cases cls <;> decide +kernel
  exact ⟨_, Prod.ext rfl h⟩

theorem exampleMass_dim (cls : ModelClass) : ∀ xva ∈ (exampleMassState cls).xvas,
    (exampleMassState cls).model.bm.kernelDim xva = 1 := by
  intro xva hx
  simp only [exampleMassState, List.mem_singleton] at hx
  subst hx
  cases cls <;> rfl

theorem exampleMass_traj (cls : ModelClass) : ∀ xva ∈ (exampleMassState cls).xvas, xva.dimx = 1 ∧ 1 ≤ xva.n := by
  intro xva hx
  simp only [exampleMassState, List.mem_singleton] at hx
  subst hx
  exact ⟨rfl, by norm_num⟩

example (cls : ModelClass) := C83_coefficients (env := exampleMassEnv) (Or.inl rfl) (fun x h => (exampleMass_traj cls x h).1)
  (exampleMass_dim cls) (by simp [exampleMassState]) (fun x h => (exampleMass_traj cls x h).2)
  (exampleMass_ok cls).choose_spec
example (cls : ModelClass) := C83_pmf_fails (env := exampleMassEnv) (Or.inl rfl) (fun x h => (exampleMass_traj cls x h).1)
  (exampleMass_dim cls) (by simp [exampleMassState]) (fun x h => (exampleMass_traj cls x h).2)
  (exampleMass_ok cls).choose_spec 1 true 2 (fun i _ => i)
example (cls : ModelClass) := C83_inv_mass_eval (K := ℚ) (c := LArr.mk2 "dim_basis" 2 "dim_x'" 1 fun _ _ => 1) (p := 2) (x := 1)
  (s := { (exampleMassState cls).model with invMassCoeff := some (LArr.mk2 "dim_basis" 2 "dim_x'" 1 fun _ _ => 1) })
  rfl rfl rfl 1 (fun _ _ => 1)

end Verif
