import Verif.Model.SaveLoad

/-!
# Further methods of models.py and gle_estimation.py: `friction_force_eval`, `get_const_kernel_part`,
`laplace_transform_kernel`, `load_model` with keywords, `_check_basis`, the checks of the constructor of the estimator,
`to_gfpe` and `compute_projected_corrs`
-/

namespace Verif

section
variable {K : Type*} [Field K]

/-- models.py:509-516 `friction_force_eval`, a method of `Pos_gle_with_friction` only: entry `(i, l, d)`. (numpy's
`einsum` would also accept an axis of size one in place of the number of functions.) -/
def frictionForceEval (s : ModelState K) (n : ℕ) (pts : ℕ → ℕ → K) : Except Err (ℕ → ℕ → ℕ → K) :=
  if s.bm.cls ≠ .withFriction then .error .attribute
  else
    match s.forceCoeff with
    | none => .error (.exception "Mean force has not been computed.")
    | some c =>
      let E := s.bm.kernelVector (evalXva s.bm.dimx n pts)
      let rest := c.toArr2.drop s.bm.basis.nOut
      if E.size "dim_basis" ≠ rest.rows then .error .value
      else .ok fun i l d => ∑ k ∈ Finset.range rest.rows, E.get [i, k, d] * rest.get k l

/-- models.py:636-642 `Pos_gle_hybrid.get_const_kernel_part`: the row 0 of the kernel at each time, as a function of
time and component. `IndexError` when there is no row. -/
def getConstKernelPart (s : ModelState K) : Except Err (ℕ → ℕ → K) :=
  if s.bm.cls ≠ .hybrid then .error .attribute
  else
    match s.kernel with
    | none => .error (.exception "Kernel has not been computed.")
    | some ⟨b, x, k⟩ =>
      if hb : 0 < b then .ok fun t l => if hl : l < x then k.kernel.get t ⟨0, hb⟩ ⟨l, hl⟩ else 0
      else .error .index

/-- models.py:348-363 `laplace_transform_kernel`: the points `s` and the transforms. The time axis of the kernel is called
`time_kernel` (gle_estimation.py:345), so that reading `self.kernel["time"]`, in each turn of the loop, is a `KeyError`. -/
def laplaceTransformKernel (s : ModelState K) (sStart : K) (sEnd : Option K) (nPoints : Option ℕ) :
    Except Err (List K × List (ℕ → ℕ → K)) :=
  match s.kernel with
  | none => .error (.exception "Kernel has not been computed.")
  | some _ =>
    let n := nPoints.getD s.truncInd
    let sEnd := sEnd.getD (1 / s.dt)
    let range := (List.range n).map fun i : ℕ => sStart + (i : K) * ((sEnd - sStart) / ((n : K) - 1))
    match range with
    | [] => .ok ([], [])
    | _ :: _ => .error .key

end

/-! ### `load_model` with keywords -/

/-- A keyword given to `load_model` (and one of the attributes that `save_model` writes, models.py:368). -/
inductive LoadKw (K : Type*)
  | dt (v : K) | truncInd (v : ℕ) | Lobs (v : String) | dimx (v : ℕ) | dimObs (v : ℕ)

/-- `cls_attrs[key] = value`, models.py:390: `cls_attrs` is the dictionary `coeffs.attrs` itself. -/
def Saved.setAttr {K : Type*} (sv : Saved K) : LoadKw K → Saved K
  | .dt v => { sv with dt := v }
  | .truncInd v => { sv with truncInd := v }
  | .Lobs v => { sv with Lobs := v }
  | .dimx v => { sv with dimx := v }
  | .dimObs v => { sv with dimObs := v }

/-- models.py:382-402 `load_model(basis, coeffs, **kwargs)`: the model, and the dataset `coeffs` afterwards. -/
def loadModelKw {K : Type*} (cls : ModelClass) (basis : PointBasis K) (sv : Saved K) (kws : List (LoadKw K)) :
    ModelState K × Saved K :=
  let sv := kws.foldl Saved.setAttr sv
  (loadModel cls basis sv, sv)

/-! ### The constructors -/

/-- What `_check_basis` looks at: the methods of the basis and whether `n_output_features_` exists. -/
structure BasisAttrs where
  hasBasis : Bool
  hasDeriv : Bool
  hasFit : Bool
  fitted : Bool

/-- models.py:78-93 `_check_basis`: whether `fit` is called, and with the description of the data (or with the
description made from the dimension alone). -/
inductive BasisUse
  | asIs | fitOnData | fitOnDim
  deriving DecidableEq, Repr

/-- models.py:78-93 `_check_basis`. -/
def checkBasis (b : BasisAttrs) (describeGiven : Bool) : Except Err BasisUse :=
  if ¬ b.hasBasis ∨ ¬ b.hasDeriv then .error (.exception "Basis class do not define basis() or deriv() method")
  else if ¬ b.fitted then
    if b.hasFit then .ok (if ¬ describeGiven then .fitOnDim else .fitOnData)
    else .error (.exception "Basis class do have fit() method or do not expose n_output_features_ attribute")
  else .ok .asIs

/-- What the constructor of the estimator looks at in a trajectory: whether `time` is one of its axes, whether `dt` is
one of its attributes, whether one of its axes is `dim_x`, and the names of its variables. -/
structure TrajAttrs where
  hasTime : Bool
  hasDt : Bool
  hasDimx : Bool
  vars : List String

/-- gle_estimation.py:105-117 `_do_check` for one trajectory. -/
def doCheck (t : TrajAttrs) : Except Err Unit :=
  if ¬ t.hasTime then .error (.exception "Time is not a coordinate.")
  else if ¬ t.hasDt then .error (.exception "Timestep not in dataset attrs")
  else .ok ()

/-- gle_estimation.py:119-125 `_do_check_obs` for one trajectory. -/
def doCheckObs (setOfObs : List String) (Lobs : String) (t : TrajAttrs) : Except Err Unit :=
  match setOfObs with
  | [] => .ok ()
  | col :: cols =>
    if col ∉ t.vars then .error (.exception "Please provide time,set_of_obs dataset")
    else if Lobs ∉ t.vars then .error (.exception "Please provide dataset that include L_obs as variable .")
    else doCheckObs cols Lobs t

/-- `for xva in l: f(xva)` for a check `f`. -/
def forEach {α : Type*} (f : α → Except Err Unit) : List α → Except Err Unit
  | [] => .ok ()
  | a :: as =>
    match f a with
    | .error e => .error e
    | .ok _ => forEach f as

/-- `set_of_obs` of the classes: models.py:411, 468, 548, 580, 609, 664. -/
def ModelClass.setOfObs : ModelClass → List String
  | .posGle | .withFriction | .constKernel | .hybrid => ["x", "v", "a"]
  | .noVelBasis | .overdamped => ["x", "v"]

/-- gle_estimation.py:58-103, the checks of the constructor for a list of trajectories with at least one frame each
and two axes in each variable, and a basis that is accepted: the name of the observable. The exceptions come in the order of
the code: line 65, 86 (`IndexError` without trajectory, `KeyError`), 87 (`KeyError`), 93 (`KeyError`, in `describe_data`), 97. -/
def estimatorInit (cls : ModelClass) (Lobs : Option String) (trajs : List TrajAttrs) : Except Err String :=
  match forEach doCheck trajs with
  | .error e => .error e
  | .ok _ =>
    let L := Lobs.getD (cls.setOfObs.getLastD "")
    match trajs with
    | [] => .error .index
    | t0 :: _ =>
      if ¬ t0.hasDimx then .error .key
      else if L ∉ t0.vars then .error .key
      else if trajs.any fun t => decide ("x" ∉ t.vars) then .error .key
      else
        match forEach (doCheckObs cls.setOfObs L) trajs with
        | .error e => .error e
        | .ok _ => .ok L

/-! ### `to_gfpe` -/

section
variable {K : Type*} [Field K]

/-- `xva.update({name: dE.rename({"dim_basis": "dim_dE"})})` for `dE` with axes `(time, dim_basis)`, and a name other than
`x`, `v`, `a`. -/
def Xva.addObs (xva : Xva K) (name : String) (dE : LArr K) : Xva K :=
  { xva with
    data := fun nm => if nm = name then fun t k => dE.get [t, k] else xva.data nm
    extraDim := fun nm => if nm = name then "dim_dE" else xva.extraDim nm
    extraSize := fun nm => if nm = name then dE.size "dim_basis" else xva.extraSize nm }

/-- gle_estimation.py:158-161, the loop of `to_gfpe`: the trajectories afterwards, and the size of the last `dE` (none
without trajectory) or the exception. -/
def gfpeLoop (bm : BasisModel K) (name : String) : List (Xva K) → Option ℕ → List (Xva K) × Except Err (Option ℕ)
  | [], last => ([], .ok last)
  | xva :: xvas, _ =>
    match bm.corrsVector xva with
    | .error e => (xva :: xvas, .error e)
    | .ok (_, _, dE) =>
      let r := gfpeLoop bm name xvas (some (dE.shape.getLastD 0))
      (xva.addObs name dE :: r.1, r.2)

/-- gle_estimation.py:152-163 `to_gfpe(model, new_obs_name)`: `model = none` is the model of the estimator. Without
trajectory `dE` is unbound (line 163, after `L_obs` has been set). -/
def toGfpe (model : Option (BasisModel K)) (name : String) (s : EstState K) : EstState K × Option Err :=
  let bm := model.getD s.model.bm
  let s := { s with model := { s.model with rankProjection := false } }
  let r := gfpeLoop bm name s.xvas none
  match r.2 with
  | .error e => ({ s with xvas := r.1 }, some e)
  | .ok none => ({ s with xvas := r.1, model := { s.model with Lobs := name } }, some .unbound)
  | .ok (some o) =>
    ({ s with xvas := r.1, model := { s.model with Lobs := name, bm := { s.model.bm with dimObs := o } } }, none)

end

/-! ### `compute_projected_corrs` -/

section
variable {K : Type*} [Field K] {bf b x o : ℕ}

/-- gle_estimation.py:373-377 and 497-501 `compute_projected_corrs`, `_corrs_w_noise` with the serial loop
(gle_estimation.py:165-176): the sums start from the number `0.0`, arrays of different lengths are a `ValueError`. A
trajectory comes with the values of `left_op` along it. -/
def projectedCorrs (m : NoiseModel K bf b x) (trajs : List (Traj K bf b x × LeftOp K x o)) :
    Except Err (Arr K × Arr (Mat K o x)) :=
  match mapE (fun t => computeCorrsWNoise m t.1 t.2) trajs with
  | .error e => .error e
  | .ok [] => .error .index
  | .ok (r :: rs) =>
    let weights : List ℕ := trajs.map fun t => t.1.len
    if (r :: rs).all fun q => q.1.len = r.1.len ∧ q.2.len = r.2.len then
      let terms := weights.zip (r :: rs)
      .ok (⟨r.1.len, fun n => (terms.map fun w => w.2.1.get n * (w.1 : K) / ((weights.sum : ℕ) : K)).sum⟩,
           ⟨r.2.len, fun n => (terms.map fun w => ((w.1 : K) / ((weights.sum : ℕ) : K)) • w.2.2.get n).sum⟩)
    else .error .value

end

end Verif
