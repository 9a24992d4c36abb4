import Verif.Props.EvalMore
import Verif.Props.Noise

/-!
# Friction (C109), Laplace transform (C110), `load_model` with keywords (C111), `to_gfpe` (C112), the checks of the
constructors (C113), `compute_gram_kernel` with a projection (C114), `compute_projected_corrs` (C116)
-/

namespace Verif

set_option linter.unusedSectionVars false

open LArr Finset

section
variable {K : Type*} [Field K]

/-- **C109**: for the class with friction, the mean force at a frame is `force_eval` at its position plus the product of
`friction_force_eval` at its position with its velocity. -/
theorem C109_friction {s : ModelState K} (hc : s.bm.cls = .withFriction) (hm : s.bm.WF) {c : LArr K}
    (hf : s.forceCoeff = some c) {x : ℕ} (hs : c.shape = [s.bm.nForce, x]) (n : ℕ) (pts : ℕ → ℕ → K) :
    ∃ F G, forceEval s none n pts = .ok F ∧ frictionForceEval s n pts = .ok G ∧ F.rows = n ∧ F.cols = x ∧
      ∀ (xva : Xva K) (t i : ℕ), xva.dimx = s.bm.dimx → xva.data "x" t = pts i → ∀ l,
        ∑ k ∈ range s.bm.nForce, Spec.forceFeature s.bm xva t k * c.get [k, l] =
          F.get i l + ∑ d ∈ range s.bm.dimx, G i l d * xva.data "v" t d := by
  obtain ⟨w, h1, h2, h3⟩ := kernelVector_at s.bm s.bm.dimx n pts
  have hN : s.bm.nForce = s.bm.basis.nOut + Spec.nKernelAt s.bm := by
    unfold BasisModel.nForce Spec.nKernelAt
    rw [hc]
    have := hm
    unfold BasisModel.WF at this
    dsimp only
    split_ifs with h
    · have := this h; omega
    · omega
  have hcols : c.toArr2.rows = s.bm.basis.nOut + Spec.nKernelAt s.bm := by
    unfold LArr.toArr2
    rw [hs, ← hN]; rfl
  have hsz : (s.bm.kernelVector (evalXva s.bm.dimx n pts)).size "dim_basis" = Spec.nKernelAt s.bm := by
    unfold LArr.size
    rw [h1, h2]
    simp [env, List.lookup]
  have hrest : (c.toArr2.drop s.bm.basis.nOut).rows = Spec.nKernelAt s.bm := by
    simp only [Arr2.drop, hcols]; omega
  have htake : (c.toArr2.take s.bm.basis.nOut).rows = s.bm.basis.nOut := by
    simp only [Arr2.take, hcols]; omega
  have hbk : (s.bm.bk (evalXva s.bm.dimx n pts)).toArr2 = ⟨n, s.bm.basis.nOut, fun i k => s.bm.basis.basis (pts i) k⟩ := rfl
  refine ⟨⟨n, x, fun i l => ∑ k ∈ range s.bm.basis.nOut, s.bm.basis.basis (pts i) k * c.get [k, l]⟩,
    fun i l d => ∑ k ∈ range (Spec.nKernelAt s.bm), s.bm.basis.deriv (pts i) k d * c.get [k + s.bm.basis.nOut, l],
    ?_, ?_, rfl, rfl, ?_⟩
  · unfold forceEval
    rw [hc]
    simp only [coeffsOr, hf, bind, Except.bind]
    rw [hbk]
    unfold Arr2.matmul
    rw [if_pos htake.symm]
    simp only [Arr2.take, LArr.toArr2, hs]
    rfl
  · unfold frictionForceEval
    rw [if_neg (by simp [hc])]
    simp only [hf]
    rw [if_neg (by rw [hsz, hrest]; simp), hrest]
    congr 1
    funext i l d
    refine Finset.sum_congr rfl fun k _ => ?_
    rw [h3]
    simp only [Spec.kernelAt, hc, Arr2.drop, LArr.toArr2]
  · intro xva t i hx hp l
    rw [hN, Finset.sum_range_add]
    dsimp only
    congr 1
    · refine Finset.sum_congr rfl fun k hk => ?_
      unfold Spec.forceFeature
      rw [if_neg (by have := Finset.mem_range.1 hk; omega), hp]
    · simp only [Finset.sum_mul]
      rw [Finset.sum_comm]
      refine Finset.sum_congr rfl fun k _ => ?_
      unfold Spec.forceFeature
      rw [if_pos ⟨hc, by omega⟩, hx, hp, Finset.sum_mul, add_comm s.bm.basis.nOut k]
      refine Finset.sum_congr rfl fun d _ => ?_
      rw [Nat.add_sub_cancel]
      ring

/-- **C109**: the method exists for the class with friction only, and needs the mean force. -/
theorem C109_not_defined (s : ModelState K) (n : ℕ) (pts : ℕ → ℕ → K) :
    (s.bm.cls ≠ .withFriction → frictionForceEval s n pts = .error .attribute) ∧
    (s.bm.cls = .withFriction → s.forceCoeff = none →
      frictionForceEval s n pts = .error (.exception "Mean force has not been computed.")) := by
  refine ⟨fun h => by unfold frictionForceEval; rw [if_pos h], fun h h' => ?_⟩
  unfold frictionForceEval
  rw [if_neg (by simp [h])]
  simp only [h']

example := C109_friction (s := { Ex.kernelModel .withFriction 2 with
  forceCoeff := some (LArr.mk2 "dim_basis" 4 "dim_x" 1 fun k _ => (k : ℚ)) }) rfl (Ex.wf _) rfl rfl 3 fun i _ => (i : ℚ)

/-- **C110** fails: whatever the kernel, asking for the Laplace transform at one point or more raises `KeyError`. -/
theorem C110_laplace_fails {s : ModelState K} (hk : s.kernel ≠ none) (a : K) (b : Option K) {n : Option ℕ}
    (hn : 1 ≤ n.getD s.truncInd) : laplaceTransformKernel s a b n = .error .key := by
  unfold laplaceTransformKernel
  cases h : s.kernel with
  | none => exact absurd h hk
  | some k =>
    obtain ⟨m, hm⟩ : ∃ m, n.getD s.truncInd = m + 1 := ⟨n.getD s.truncInd - 1, by omega⟩
    dsimp only
    rw [hm, List.range_succ_eq_map]
    rfl

/-- **C110**: with no point there is nothing to compute, and without kernel the exception says so. -/
theorem C110_laplace_partial (s : ModelState K) (a : K) (b : Option K) :
    (s.kernel ≠ none → laplaceTransformKernel s a b (some 0) = .ok ([], [])) ∧
    (s.kernel = none → ∀ n, laplaceTransformKernel s a b n = .error (.exception "Kernel has not been computed.")) := by
  refine ⟨fun h => ?_, fun h n => by simp only [laplaceTransformKernel, h]⟩
  unfold laplaceTransformKernel
  cases hk : s.kernel with
  | none => exact absurd hk h
  | some k => rfl

example := C110_laplace_fails (s := Ex.kernelModel .posGle 2) (by simp [Ex.kernelModel]) 0 none (n := none) (by decide)

/-- **C111**: the model that `load_model` returns is the saved one, with the attributes given as keywords. -/
theorem C111_keyword (cls : ModelClass) (basis : PointBasis K) (sv : Saved K) (dt : K) (trunc : ℕ) (L : String) :
    (loadModelKw cls basis sv [.dt dt, .truncInd trunc, .Lobs L]).1 =
      { loadModel cls basis sv with dt := dt, truncInd := trunc, Lobs := L } := rfl

/-- **C111**: the variables are never changed by keywords. -/
theorem C111_variables (cls : ModelClass) (basis : PointBasis K) (sv : Saved K) (kws : List (LoadKw K)) :
    (loadModelKw cls basis sv kws).1.forceCoeff = (loadModel cls basis sv).forceCoeff ∧
    (loadModelKw cls basis sv kws).1.kernel = (loadModel cls basis sv).kernel ∧
    (loadModelKw cls basis sv kws).1.gramForce = (loadModel cls basis sv).gramForce ∧
    (loadModelKw cls basis sv kws).1.rankProjection = (loadModel cls basis sv).rankProjection ∧
    (loadModelKw cls basis sv kws).1.Prange = (loadModel cls basis sv).Prange := by
  have : ∀ sv : Saved K, (kws.foldl Saved.setAttr sv).forceCoeff = sv.forceCoeff ∧
      (kws.foldl Saved.setAttr sv).kernel = sv.kernel ∧ (kws.foldl Saved.setAttr sv).gramForce = sv.gramForce ∧
      (kws.foldl Saved.setAttr sv).rankProjection = sv.rankProjection ∧
      (kws.foldl Saved.setAttr sv).Prange = sv.Prange := by
    induction kws with
    | nil => exact fun sv => ⟨rfl, rfl, rfl, rfl, rfl⟩
    | cons k kws ih =>
      intro sv
      obtain ⟨h1, h2, h3, h4, h5⟩ := ih (sv.setAttr k)
      rw [List.foldl_cons, h1, h2, h3, h4, h5]
      cases k <;> exact ⟨rfl, rfl, rfl, rfl, rfl⟩
  obtain ⟨h1, h2, h3, h4, h5⟩ := this sv
  unfold loadModelKw loadModel
  dsimp only
  rw [h1, h2, h3, h4, h5]
  exact ⟨rfl, rfl, rfl, rfl, rfl⟩

/-- **C111**: after the call the dataset describes the model that was returned. -/
theorem C111_dataset (cls : ModelClass) (basis : PointBasis K) (sv : Saved K) (kws : List (LoadKw K)) :
    (loadModelKw cls basis (loadModelKw cls basis sv kws).2 []).1 = (loadModelKw cls basis sv kws).1 := rfl

/-- **C111**, the part that holds: without keywords the saved dataset is left unchanged, and the model is the one of
`load_model` without keywords. -/
theorem C111_no_keyword_partial (cls : ModelClass) (basis : PointBasis K) (sv : Saved K) :
    loadModelKw cls basis sv [] = (loadModel cls basis sv, sv) := rfl

/-- **C111** fails: a keyword is written into the saved dataset, so that the next `load_model` without keywords gives
another model than before. -/
theorem C111_fails (cls : ModelClass) (basis : PointBasis K) (sv : Saved K) {dt : K} (h : dt ≠ sv.dt) :
    (loadModelKw cls basis sv [.dt dt]).2 ≠ sv ∧
    (loadModelKw cls basis (loadModelKw cls basis sv [.dt dt]).2 []).1 ≠ (loadModelKw cls basis sv []).1 := by
  refine ⟨fun e => h (congrArg Saved.dt e), fun e => h (congrArg ModelState.dt e)⟩

/-- A saved dataset. -/
def exampleSavedData : Saved ℚ := ⟨1, 3, "a", 1, 1, none, none, none, none, none, none, none, false, none⟩

example := C111_dataset .posGle Ex.basis exampleSavedData [.dt (1 / 2), .truncInd 2]
example := C111_fails .posGle Ex.basis exampleSavedData (dt := 1 / 2) (by decide +kernel)
example := C111_keyword .posGle Ex.basis exampleSavedData 2 5 "v"

end

/-! ### C112: `to_gfpe` -/

section
variable {K : Type*} [Field K]

/-- `xva'` is the trajectory `xva` with one more variable `name`, with axes `(time, dim_dE)` and `o` components. -/
structure WithObs (name : String) (o : ℕ) (f : Xva K → ℕ → ℕ → K) (xva xva' : Xva K) : Prop where
  n : xva'.n = xva.n
  dimx : xva'.dimx = xva.dimx
  time : xva'.time = xva.time
  other : ∀ nm, nm ≠ name → xva'.data nm = xva.data nm ∧ xva'.extraDim nm = xva.extraDim nm ∧
    xva'.extraSize nm = xva.extraSize nm
  dims : xva'.extraDim name = "dim_dE"
  size : xva'.extraSize name = o
  data : ∀ t < xva.n, ∀ k < o, xva'.data name t k = f xva t k

theorem addObs_is {xva : Xva K} {name : String} {D : LArr K} {o : ℕ} {f : Xva K → ℕ → ℕ → K}
    (hD : D.Is ["time", "dim_basis"] [xva.n, o] (at2 (f xva))) : WithObs name o f xva (xva.addObs name D) where
  n := rfl
  dimx := rfl
  time := rfl
  other := fun nm h => by simp [Xva.addObs, h]
  dims := by simp [Xva.addObs]
  size := by
    simp only [Xva.addObs, if_pos, LArr.size]
    rw [hD.1, hD.2.1]
    simp [env, List.lookup]
  data := fun t ht k hk => by
    simp only [Xva.addObs, if_pos]
    rw [hD.2.2 _ (inRange2_mk ht hk)]
    rfl

theorem gfpeLoop_ok (m : BasisModel K) (hm : m.WF) (name : String) : ∀ (xvas : List (Xva K)) (last : Option ℕ),
    (∀ xva ∈ xvas, xva.dimx = m.dimx) →
    ∃ ys, gfpeLoop m name xvas last = (ys, .ok (if xvas = [] then last else some (Spec.nCorr m))) ∧
      List.Forall₂ (WithObs name (Spec.nCorr m) (codeDot m)) xvas ys
  | [], last, _ => ⟨[], rfl, .nil⟩
  | xva :: xvas, last, h => by
    obtain ⟨F, E, D, e, -, -, hD⟩ := corrsVector_is m hm xva (h xva (by simp))
    have hsh : D.shape.getLastD 0 = Spec.nCorr m := by rw [hD.2.1]; rfl
    obtain ⟨ys, e', hy⟩ := gfpeLoop_ok m hm name xvas (some (Spec.nCorr m)) fun x hx => h x (by simp [hx])
    refine ⟨xva.addObs name D :: ys, ?_, .cons (addObs_is hD) hy⟩
    simp only [gfpeLoop, e]
    rw [hsh, e']
    simp

/-- **C112**: `to_gfpe` adds to every trajectory the observable `name`, the third array of `basis_vector`; the model is
told to use it, with as many components as there are correlated functions, and the projection is switched off. -/
theorem C112_to_gfpe {s : EstState K} (hm : s.model.bm.WF) (hne : s.xvas ≠ [])
    (hx : ∀ xva ∈ s.xvas, xva.dimx = s.model.bm.dimx) (name : String) :
    ∃ ys, toGfpe none name s = ({ s with
        xvas := ys
        model := { s.model with rankProjection := false, Lobs := name, bm := { s.model.bm with dimObs := Spec.nCorr s.model.bm } } },
        none) ∧
      List.Forall₂ (WithObs name (Spec.nCorr s.model.bm) (codeDot s.model.bm)) s.xvas ys := by
  obtain ⟨ys, e, hy⟩ := gfpeLoop_ok s.model.bm hm name s.xvas none hx
  refine ⟨ys, ?_, hy⟩
  unfold toGfpe
  dsimp only [Option.getD_none]
  rw [e, if_neg hne]

theorem forall₂_map_congr {α β γ : Type*} {R : α → β → Prop} {f : α → γ} {g : β → γ} :
    ∀ {l : List α} {l' : List β}, List.Forall₂ R l l' → (∀ a b, R a b → f a = g b) → l.map f = l'.map g
  | _, _, .nil, _ => rfl
  | _, _, .cons h t, hh => by rw [List.map_cons, List.map_cons, hh _ _ h, forall₂_map_congr t hh]

theorem forall₂_mem_right {α β : Type*} {R : α → β → Prop} : ∀ {l : List α} {l' : List β}, List.Forall₂ R l l' →
    ∀ b ∈ l', ∃ a ∈ l, R a b
  | _, _, .nil, b, hb => by simp at hb
  | _, _, .cons (a := a) h t, b, hb => by
    rcases List.mem_cons.1 hb with rfl | hb
    · exact ⟨a, by simp, h⟩
    · obtain ⟨a', ha, hr⟩ := forall₂_mem_right t b hb
      exact ⟨a', by simp [ha], hr⟩

end

section
variable {K : Type*} [Field K] [LinearOrder K]

/-- **C112**: after `to_gfpe` the mean force is the projection of the time derivatives of the correlated functions: the
differences between the derivatives and their predictions are orthogonal to the functions of the force, over all the
frames of the given trajectories. (For the hybrid class the third array of `basis_vector` is not the derivative, see
C80.) -/
theorem C112_generator_partial [CharZero K] {env : Env K} (hl : IsLoop env.loop) {s s1 s2 : EstState K} (hm : s.model.bm.WF)
    (hcls : s.model.bm.cls ≠ .hybrid) (hne : s.xvas ≠ []) (hn : ∀ xva ∈ s.xvas, 1 ≤ xva.n)
    (hx : ∀ xva ∈ s.xvas, xva.dimx = s.model.bm.dimx) {name : String} (hname : name ∉ ["x", "v", "a"])
    (h1 : toGfpe none name s = (s1, none)) (h2 : computeMeanForce env s1 = (s2, none)) :
    ∃ c, s2.model.forceCoeff = some c ∧ ∀ i < s.model.bm.nForce, ∀ j < Spec.nCorr s.model.bm,
      Spec.pooledSum (s.xvas.map fun xva => (xva.n, fun t => Spec.forceFeature s.model.bm xva t i *
        (Spec.corrFeatureDot s.model.bm xva t j -
          ∑ k ∈ range s.model.bm.nForce, Spec.forceFeature s.model.bm xva t k * c.get [k, j]))) = 0 := by
  obtain ⟨ys, e, hy⟩ := C112_to_gfpe hm hne hx name
  rw [h1] at e
  obtain rfl := (Prod.mk.inj e).1
  have hv : ∀ nm ∈ ["x", "v", "a"], nm ≠ name := by
    rintro nm h rfl
    exact hname h
  have hobs : SameObs ys name "dim_dE" (Spec.nCorr s.model.bm) := by
    refine ⟨by decide, by decide, fun y h => ?_⟩
    obtain ⟨a, -, hr⟩ := forall₂_mem_right hy y h
    unfold Xva.var
    rw [if_neg hname]
    simp [mk2, hr.dims, hr.size]
  have hn' : ∀ y ∈ ys, 1 ≤ y.n := by
    intro y h
    obtain ⟨a, ha, hr⟩ := forall₂_mem_right hy y h
    rw [hr.n]; exact hn a ha
  have hne' : ys ≠ [] := by
    rintro rfl
    cases hy' : s.xvas with
    | nil => exact hne hy'
    | cons a l => rw [hy'] at hy; cases hy
  obtain ⟨c, hc, key⟩ := C38_residual_orthogonal (s := { s with
      xvas := ys
      model := { s.model with rankProjection := false, Lobs := name, bm := { s.model.bm with dimObs := Spec.nCorr s.model.bm } } })
    hl hm hobs hne' hn' h2
  refine ⟨c, hc, fun i hi j hj => ?_⟩
  have := key i hi j hj
  rw [← this]
  unfold Spec.pooledSum
  rw [List.map_map, List.map_map]
  congr 1
  refine forall₂_map_congr hy fun a y hr => ?_
  simp only [Function.comp]
  rw [hr.n]
  refine Finset.sum_congr rfl fun t ht => ?_
  have ff : ∀ k, Spec.forceFeature s.model.bm a t k =
      Spec.forceFeature { s.model.bm with dimObs := Spec.nCorr s.model.bm } y t k := by
    intro k
    unfold Spec.forceFeature
    dsimp only
    rw [(hr.other "x" (hv _ (by decide))).1, (hr.other "v" (hv _ (by decide))).1, hr.dimx]
  have cd : codeDot s.model.bm a t j = Spec.corrFeatureDot s.model.bm a t j := by
    unfold codeDot
    cases hcl : s.model.bm.cls <;> first | rfl | exact absurd hcl hcls
  rw [hr.data t (Finset.mem_range.1 ht) j hj, cd]
  simp only [ff]
  rfl

/-- **C112** fails in one respect: the coefficients of the mean force of the previous observable are kept. -/
theorem C112_stale_fails {s : EstState K} (hm : s.model.bm.WF) (hne : s.xvas ≠ [])
    (hx : ∀ xva ∈ s.xvas, xva.dimx = s.model.bm.dimx) (name : String) :
    (toGfpe none name s).1.model.forceCoeff = s.model.forceCoeff ∧ (toGfpe none name s).1.model.kernel = s.model.kernel := by
  obtain ⟨ys, e, -⟩ := C112_to_gfpe hm hne hx name
  rw [e]
  exact ⟨rfl, rfl⟩

/-- **C112**, without trajectory: `UnboundLocalError`. -/
theorem C112_empty {s : EstState K} (h : s.xvas = []) (m : Option (BasisModel K)) (name : String) :
    (toGfpe m name s).2 = some .unbound := by
  unfold toGfpe
  dsimp only
  rw [h]
  rfl

/-- The estimator of the example for the overdamped class. -/
def Ex.stateO : EstState ℚ := { Ex.state false with model := { (Ex.state false).model with bm := Ex.model .overdamped } }

theorem Ex.stateO_dimx : ∀ xva ∈ Ex.stateO.xvas, xva.dimx = Ex.stateO.model.bm.dimx := (Ex.corrReady false).dimx

example := C112_to_gfpe (s := Ex.stateO) (Ex.wf _) Ex.nonempty Ex.stateO_dimx "dE"

example : ∃ s1 s2, toGfpe none "dE" Ex.stateO = (s1, none) ∧ computeMeanForce Ex.env s1 = (s2, none) :=
  ⟨(toGfpe none "dE" Ex.stateO).1, _, Prod.ext rfl (by decide +kernel), Prod.ext rfl (by decide +kernel)⟩

end

/-! ### C113: the checks of the constructors -/

theorem forEach_ok {α : Type*} {f : α → Except Err Unit} : ∀ {l : List α}, forEach f l = .ok () ↔ ∀ a ∈ l, f a = .ok ()
  | [] => by simp [forEach]
  | a :: l => by
    unfold forEach
    cases h : f a with
    | error e => simp [h]
    | ok u => simp [h, forEach_ok (l := l)]

theorem forEach_error {α : Type*} {f : α → Except Err Unit} {P : Err → Prop} (hP : ∀ a e, f a = .error e → P e) :
    ∀ {l : List α} {e : Err}, forEach f l = .error e → P e
  | [], e, h => by simp [forEach] at h
  | a :: l, e, h => by
    unfold forEach at h
    cases hf : f a with
    | error e' => rw [hf] at h; obtain rfl := Except.error.inj h; exact hP a _ hf
    | ok u => rw [hf] at h; exact forEach_error hP h

theorem doCheckObs_ok {L : String} {t : TrajAttrs} : ∀ {obs : List String},
    doCheckObs obs L t = .ok () ↔ ∀ c ∈ obs, c ∈ t.vars ∧ L ∈ t.vars
  | [] => by simp [doCheckObs]
  | c :: cs => by
    unfold doCheckObs
    by_cases h1 : c ∈ t.vars
    · by_cases h2 : L ∈ t.vars
      · simp [h1, h2, doCheckObs_ok (obs := cs)]
      · rw [if_neg (not_not.2 h1), if_pos h2]
        exact ⟨fun h => (by cases h), fun h => absurd (h c (by simp)).2 h2⟩
    · simp [h1]

theorem doCheck_ok {t : TrajAttrs} : doCheck t = .ok () ↔ t.hasTime = true ∧ t.hasDt = true := by
  unfold doCheck
  cases t.hasTime <;> cases t.hasDt <;> simp

/-- The observable used by the estimator: the one that is given, or the last one of the class. -/
def Spec.obsName (cls : ModelClass) (Lobs : Option String) : String :=
  Lobs.getD (if cls = .noVelBasis ∨ cls = .overdamped then "v" else "a")

/-- The variables that a class needs. -/
def Spec.needed (cls : ModelClass) : List String :=
  if cls = .noVelBasis ∨ cls = .overdamped then ["x", "v"] else ["x", "v", "a"]

theorem setOfObs_eq (cls : ModelClass) : cls.setOfObs = Spec.needed cls := by cases cls <;> rfl

theorem obsName_eq (cls : ModelClass) (Lobs : Option String) :
    Lobs.getD (cls.setOfObs.getLastD "") = Spec.obsName cls Lobs := by cases cls <;> rfl

/-- **C113**: the constructor accepts exactly the nonempty lists of trajectories that have a time axis, a time step, and all
the variables needed by the class and the observable. -/
theorem C113_accepts (cls : ModelClass) (Lobs : Option String) (trajs : List TrajAttrs) (L : String)
    (hx : ∀ t ∈ trajs, "x" ∈ t.vars → t.hasDimx = true) :
    estimatorInit cls Lobs trajs = .ok L ↔ trajs ≠ [] ∧ L = Spec.obsName cls Lobs ∧
      ∀ t ∈ trajs, t.hasTime = true ∧ t.hasDt = true ∧ L ∈ t.vars ∧ ∀ c ∈ Spec.needed cls, c ∈ t.vars := by
  have hxn : "x" ∈ Spec.needed cls := by cases cls <;> decide
  unfold estimatorInit
  rw [obsName_eq, setOfObs_eq]
  constructor
  · intro h
    cases h1 : forEach doCheck trajs with
    | error e => rw [h1] at h; cases h
    | ok u =>
      rw [h1] at h
      cases trajs with
      | nil => cases h
      | cons t0 ts =>
        dsimp only at h
        split_ifs at h
        cases h2 : forEach (doCheckObs (Spec.needed cls) (Spec.obsName cls Lobs)) (t0 :: ts) with
        | error e => rw [h2] at h; cases h
        | ok u =>
          rw [h2] at h
          obtain rfl := Except.ok.inj h
          refine ⟨by simp, rfl, fun t ht => ?_⟩
          have a := doCheck_ok.1 (forEach_ok.1 h1 t ht)
          have b := doCheckObs_ok.1 (forEach_ok.1 h2 t ht)
          exact ⟨a.1, a.2, (b _ hxn).2, fun c hc => (b c hc).1⟩
  · rintro ⟨hne, rfl, h⟩
    have h1 : forEach doCheck trajs = .ok () := forEach_ok.2 fun t ht => doCheck_ok.2 ⟨(h t ht).1, (h t ht).2.1⟩
    have h2 : forEach (doCheckObs (Spec.needed cls) (Spec.obsName cls Lobs)) trajs = .ok () :=
      forEach_ok.2 fun t ht => doCheckObs_ok.2 fun c hc => ⟨(h t ht).2.2.2 c hc, (h t ht).2.2.1⟩
    rw [h1]
    cases trajs with
    | nil => exact absurd rfl hne
    | cons t0 ts =>
      dsimp only
      rw [if_neg, if_neg, if_neg, h2]
      · simp only [List.any_eq_true, decide_eq_true_eq, not_exists, not_and, not_not]
        exact fun t ht => (h t ht).2.2.2 _ hxn
      · exact not_not.2 (h t0 (by simp)).2.2.1
      · simp [hx t0 (by simp) ((h t0 (by simp)).2.2.2 _ hxn)]

/-- **C113**, the reports: a trajectory without time axis or without time step is reported by an exception with a message; so
is a missing variable when the positions are there and the first trajectory has the observable. -/
theorem C113_reports_partial (cls : ModelClass) (Lobs : Option String) (trajs : List TrajAttrs) {e : Err}
    (h : estimatorInit cls Lobs trajs = .error e) (hne : trajs ≠ []) (hx : ∀ t ∈ trajs, "x" ∈ t.vars ∧ t.hasDimx = true)
    (hL : ∀ t ∈ trajs.head?, Spec.obsName cls Lobs ∈ t.vars) : ∃ msg, e = .exception msg := by
  unfold estimatorInit at h
  rw [obsName_eq, setOfObs_eq] at h
  cases h1 : forEach doCheck trajs with
  | error e' =>
    rw [h1] at h
    obtain rfl := Except.error.inj h
    refine forEach_error (P := fun e => ∃ msg, e = .exception msg) (fun t e ht => ?_) h1
    unfold doCheck at ht
    split_ifs at ht <;> exact ⟨_, (Except.error.inj ht).symm⟩
  | ok u =>
    rw [h1] at h
    cases trajs with
    | nil => exact absurd rfl hne
    | cons t0 ts =>
      dsimp only at h
      rw [if_neg (by simp [(hx t0 (by simp)).2]), if_neg (not_not.2 (hL t0 (by simp))), if_neg] at h
      · cases h2 : forEach (doCheckObs (Spec.needed cls) (Spec.obsName cls Lobs)) (t0 :: ts) with
        | ok u => rw [h2] at h; cases h
        | error e' =>
          rw [h2] at h
          obtain rfl := Except.error.inj h
          refine forEach_error (P := fun e => ∃ msg, e = .exception msg) (fun t e ht => ?_) h2
          generalize Spec.needed cls = obs at ht
          induction obs with
          | nil => cases ht
          | cons c cs ih =>
            unfold doCheckObs at ht
            split_ifs at ht <;> first | exact ⟨_, (Except.error.inj ht).symm⟩ | exact ih ht
      · simp only [List.any_eq_true, decide_eq_true_eq, not_exists, not_and, not_not]
        exact fun t ht => (hx t ht).1

/-- **C113** fails: a first trajectory without the observable, a trajectory without positions, and an empty list are not
reported by the message of the checks but by `KeyError`, `KeyError` and `IndexError`. -/
theorem C113_reports_fails (cls : ModelClass) (Lobs : Option String) :
    estimatorInit cls Lobs [] = .error .index ∧
    (∀ t ts, (∀ t' ∈ t :: ts, t'.hasTime = true ∧ t'.hasDt = true) → t.hasDimx = true →
      Spec.obsName cls Lobs ∉ t.vars → estimatorInit cls Lobs (t :: ts) = .error .key) ∧
    ∀ t ts, (∀ t' ∈ t :: ts, t'.hasTime = true ∧ t'.hasDt = true) → t.hasDimx = true →
      Spec.obsName cls Lobs ∈ t.vars → (∃ t' ∈ t :: ts, "x" ∉ t'.vars) → estimatorInit cls Lobs (t :: ts) = .error .key := by
  refine ⟨rfl, fun t ts h h1 h2 => ?_, fun t ts h h1 h2 h3 => ?_⟩
  · unfold estimatorInit
    rw [forEach_ok.2 fun t ht => doCheck_ok.2 (h t ht), obsName_eq]
    dsimp only
    rw [if_neg (by simp [h1]), if_pos h2]
  · unfold estimatorInit
    rw [forEach_ok.2 fun t ht => doCheck_ok.2 (h t ht), obsName_eq]
    dsimp only
    rw [if_neg (by simp [h1]), if_neg (not_not.2 h2), if_pos]
    simpa only [List.any_eq_true, decide_eq_true_eq] using h3

/-- **C113** for the basis: what `_check_basis` does, case by case. -/
theorem C113_basis (b : BasisAttrs) (describe : Bool) :
    (checkBasis b describe = .ok .asIs ↔ b.hasBasis = true ∧ b.hasDeriv = true ∧ b.fitted = true) ∧
    (checkBasis b describe = .ok .fitOnData ↔
      b.hasBasis = true ∧ b.hasDeriv = true ∧ b.fitted = false ∧ b.hasFit = true ∧ describe = true) ∧
    (checkBasis b describe = .ok .fitOnDim ↔
      b.hasBasis = true ∧ b.hasDeriv = true ∧ b.fitted = false ∧ b.hasFit = true ∧ describe = false) ∧
    ∀ e, checkBasis b describe = .error e → ∃ msg, e = .exception msg := by
  obtain ⟨a, c, d, f⟩ := b
  cases a <;> cases c <;> cases d <;> cases f <;> cases describe <;> simp [checkBasis]

/-- Trajectories with the variables of the underdamped classes; the second one has another time step, which is not
checked. -/
example : estimatorInit .posGle none [⟨true, true, true, ["x", "v", "a"]⟩, ⟨true, true, true, ["a", "v", "x"]⟩] = .ok "a" := by
  decide +kernel

example := C113_reports_partial .posGle (some "v") [⟨true, true, true, ["x", "v"]⟩] (e := .exception _) rfl (by simp)
  (by simp) (by simp [Spec.obsName])

example := (C113_reports_fails .posGle none).2.1 ⟨true, true, true, ["x", "v"]⟩ [] (by simp) rfl (by decide)

/-! ### C114: `compute_gram_kernel` with a projection -/

section
variable {K : Type*} [Field K] [LinearOrder K]

/-- **C114** fails: with a projection `compute_gram_kernel` raises `AttributeError`, and the model is left with the Gram
matrix of the functions before projection. -/
theorem C114_gram_kernel_fails [CharZero K] {env : Env K} (hl : IsLoop env.loop) {s : EstState K}
    (hr : s.model.rankProjection = true) (hne : s.xvas ≠ []) (hn : ∀ xva ∈ s.xvas, 1 ≤ xva.n) :
    ∃ G, computeGramKernel env s = ({ s with model := { s.model with gramKernel := some G } }, some .attribute) ∧
      G.dims = ["dim_basis", "dim_basis'"] ∧ G.shape = [Spec.nKernelAt s.model.bm, Spec.nKernelAt s.model.bm] ∧
      ∀ i < Spec.nKernelAt s.model.bm, ∀ j < Spec.nKernelAt s.model.bm, G.get [i, j] =
        Spec.pooledMean (s.xvas.map fun x => (x.n, fun t => ∑ d ∈ range (s.model.bm.kernelDim x),
          Spec.kernelFeature s.model.bm x t i d * Spec.kernelFeature s.model.bm x t j d)) := by
  obtain ⟨out, e, h1, h2⟩ := loopSerial_ok hne (gramLay_ok s.model.bm.nKernelEval) fun x _ =>
    gramKernel_res s.model.bm x
  obtain ⟨G, rfl⟩ := List.length_eq_one_iff.1 h1
  obtain ⟨A, hA, d1, d2, d3⟩ := h2 0 (by omega)
  simp only [List.getElem?_cons_zero, Option.some.injEq] at hA
  subst hA
  rw [← nKernelEval_eq]
  refine ⟨G, ?_, d1, d2, fun i hi j hj => ?_⟩
  · unfold computeGramKernel
    rw [hl.eq, e]
    dsimp only
    rw [if_pos hr]
    rfl
  · rw [d3 _ (inRange2_mk hi hj)]
    exact pooled_sum hn _

example := C114_gram_kernel_fails Ex.isLoop (s := Ex.state true) rfl Ex.nonempty Ex.pos

end

/-! ### C116: `compute_projected_corrs` -/

section
variable {K : Type*} [Field K] [CharZero K] {bf b x o : ℕ}

theorem corrsWNoise_time {m : NoiseModel K bf b x} {t : Traj K bf b x} {l : LeftOp K x o} {r : Arr K × Arr (Mat K o x)}
    {k : KernelData K b x} (hk : m.kernel = some k) (h : computeCorrsWNoise m t l = .ok r) :
    2 ≤ t.len ∧ r.1.get = k.time.get ∧
      r.1.len = k.time.len - (if isRectMethod m.method then 0 else 1) ∧
      r.2.len = k.kernel.len - (if isRectMethod m.method then 0 else 1) := by
  obtain ⟨c', k', hc', hk', h2, hres⟩ := computeCorrsWNoise_ok h
  obtain rfl : k' = k := Option.some.inj (hk'.symm.trans hk)
  refine ⟨h2, ?_⟩
  rcases hres with ⟨hr, rfl⟩ | ⟨hr, -, rfl⟩
  · simp [hr]
  · simp [hr]

/-- **C116**: `compute_projected_corrs` gives, on the time axis of the kernel (without its last point for the trapezoidal
methods), the mean of the correlations along the trajectories, weighted with their numbers of frames. -/
theorem C116_projected_corrs {m : NoiseModel K bf b x} {k : KernelData K b x} (hk : m.kernel = some k)
    {trajs : List (Traj K bf b x × LeftOp K x o)} (hne : trajs ≠ [])
    {F : Traj K bf b x × LeftOp K x o → Arr K × Arr (Mat K o x)}
    (hF : ∀ t ∈ trajs, computeCorrsWNoise m t.1 t.2 = .ok (F t)) :
    ∃ r, projectedCorrs m trajs = .ok r ∧
      r.1.len = k.time.len - (if isRectMethod m.method then 0 else 1) ∧ (∀ n, r.1.get n = k.time.get n) ∧
      r.2.len = k.kernel.len - (if isRectMethod m.method then 0 else 1) ∧
      ∀ n i j, r.2.get n i j = Spec.weightedMean (trajs.map fun t => (t.1.len, (F t).2.get n i j)) := by
  have hmap : mapE (fun t => computeCorrsWNoise m t.1 t.2) trajs = .ok (trajs.map F) := by
    clear hne
    induction trajs with
    | nil => rfl
    | cons t ts ih =>
      unfold mapE
      rw [hF t (by simp), ih fun t ht => hF t (by simp [ht])]
      rfl
  have hsum : (((trajs.map fun t => t.1.len).sum : ℕ) : K) ≠ 0 := by
    obtain ⟨t, ts, rfl⟩ := List.exists_cons_of_ne_nil hne
    have := (corrsWNoise_time hk (hF t (by simp))).1
    rw [List.map_cons, List.sum_cons]
    exact_mod_cast (by omega : t.1.len + (ts.map fun t => t.1.len).sum ≠ 0)
  have hzip : (trajs.map fun t => t.1.len).zip (trajs.map F) = trajs.map fun t => (t.1.len, F t) := by
    rw [List.zip_map']
  obtain ⟨t, ts, rfl⟩ := List.exists_cons_of_ne_nil hne
  have h0 := corrsWNoise_time hk (hF t (by simp))
  have hall : ((F t :: ts.map F).all fun q => q.1.len = (F t).1.len ∧ q.2.len = (F t).2.len) = true := by
    rw [← List.map_cons (f := F), List.all_eq_true]
    intro q hq
    obtain ⟨t', ht', rfl⟩ := List.mem_map.1 hq
    have h1 := corrsWNoise_time hk (hF t' ht')
    simp only [decide_eq_true_eq]
    exact ⟨h1.2.2.1.trans h0.2.2.1.symm, h1.2.2.2.trans h0.2.2.2.symm⟩
  unfold projectedCorrs
  rw [hmap, List.map_cons]
  dsimp only
  rw [if_pos hall, ← List.map_cons (f := F), hzip]
  refine ⟨_, rfl, h0.2.2.1, fun n => ?_, h0.2.2.2, fun n i j => ?_⟩
  · dsimp only
    rw [List.map_map]
    generalize t :: ts = trajs at *
    have : (trajs.map ((fun w : ℕ × Arr K × Arr (Mat K o x) => w.2.1.get n * (w.1 : K) /
        (((trajs.map fun t => t.1.len).sum : ℕ) : K)) ∘ fun t => (t.1.len, F t))) =
        trajs.map fun t => (t.1.len : K) * (k.time.get n / (((trajs.map fun t => t.1.len).sum : ℕ) : K)) := by
      refine List.map_congr_left fun t' ht' => ?_
      have h1 := corrsWNoise_time hk (hF t' ht')
      simp only [Function.comp, h1.2.1]
      ring
    rw [this, List.sum_map_mul_right]
    have hc : (trajs.map fun t => (t.1.len : K)).sum = (((trajs.map fun t => t.1.len).sum : ℕ) : K) := by
      rw [Nat.cast_list_sum, List.map_map]; rfl
    rw [hc]
    field_simp
  · dsimp only
    unfold Spec.weightedMean
    rw [List.map_map, List.map_map, List.map_map]
    generalize t :: ts = trajs at *
    rw [show (trajs.map ((fun s : ℕ × K => s.1) ∘ fun t => (t.1.len, (F t).2.get n i j))) =
      trajs.map fun t => t.1.len from rfl]
    generalize (((trajs.map fun t => t.1.len).sum : ℕ) : K) = W
    clear hF hall hzip hmap hne hsum
    induction trajs with
    | nil => simp
    | cons a l ih =>
      simp only [List.map_cons, List.sum_cons, Matrix.add_apply, Function.comp, Matrix.smul_apply, smul_eq_mul] at ih ⊢
      rw [ih]
      ring

/-- **C116**: the call fails as soon as it fails for one trajectory. -/
theorem C116_error {m : NoiseModel K bf b x} {trajs : List (Traj K bf b x × LeftOp K x o)} {t : Traj K bf b x × LeftOp K x o}
    (ht : t ∈ trajs) {e : Err} (h : computeCorrsWNoise m t.1 t.2 = .error e) : ∃ e', projectedCorrs m trajs = .error e' := by
  have : ∃ e', mapE (fun t => computeCorrsWNoise m t.1 t.2) trajs = .error e' := by
    induction trajs with
    | nil => simp at ht
    | cons a l ih =>
      unfold mapE
      cases ha : computeCorrsWNoise m a.1 a.2 with
      | error e' => exact ⟨e', rfl⟩
      | ok y =>
        rcases List.mem_cons.1 ht with rfl | ht
        · rw [h] at ha; cases ha
        · obtain ⟨e', he⟩ := ih ht
          exact ⟨e', by rw [he]; rfl⟩
  obtain ⟨e', he⟩ := this
  exact ⟨e', by unfold projectedCorrs; rw [he]⟩

example : ∃ F : Traj ℚ 2 2 1 × LeftOp ℚ 1 1 → Arr ℚ × Arr (Mat ℚ 1 1),
    ∀ t ∈ [(exTraj, (LeftOp.noise rfl : LeftOp ℚ 1 1)), (exTraj, LeftOp.noise rfl)],
      computeCorrsWNoise (exNoiseModel "trapz") t.1 t.2 = .ok (F t) :=
  ⟨fun t => getOk (computeCorrsWNoise (exNoiseModel "trapz") t.1 t.2) (⟨0, 0⟩, ⟨0, 0⟩), fun t ht => by
    simp only [List.mem_cons, List.not_mem_nil, or_false, or_self] at ht
    subst ht
    exact eq_getOk (by decide +kernel) _⟩

end

end Verif
