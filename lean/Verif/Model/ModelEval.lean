import Verif.Model.Estimator

/-!
# Model of the evaluation methods of models.py and of `save_model`, `load_model`
-/

namespace Verif

/-- A two-dimensional numpy array. -/
structure Arr2 (K : Type*) where
  rows : ℕ
  cols : ℕ
  get : ℕ → ℕ → K

/-- `np.min` over all entries; `ValueError` for an empty array. -/
def Arr2.minE {K : Type*} [LinearOrder K] (A : Arr2 K) : Except Err K :=
  match (List.range A.rows).flatMap fun i => (List.range A.cols).map (A.get i) with
  | [] => .error .value
  | a :: l => .ok (l.foldl min a)

section
variable {K : Type*} [Field K]

/-- models.py:12-20 `_convert_input_array_for_evaluation`: a dataset whose only variable is `x` (reading
another one is a `KeyError`; the model of the callers makes this explicit). `n` points of dimension `dimx`. -/
def evalXva (dimx n : ℕ) (pts : ℕ → ℕ → K) : Xva K where
  n := n
  dimx := dimx
  time := fun t => (t : K)
  data := fun name => if name = "x" then pts else fun _ _ => 0
  extraDim := fun _ => "dim_x"
  extraSize := fun _ => dimx

/-- `xr.dot(A, B)` with xarray's check of the sizes. -/
def dotE (A B : LArr K) : Except Err (LArr K) :=
  if LArr.compat [A, B] then .ok (LArr.dot [A, B]) else .error .value

/-- The numpy array of a two-dimensional labelled array. -/
def LArr.toArr2 (A : LArr K) : Arr2 K where
  rows := A.shape.getD 0 0
  cols := A.shape.getD 1 0
  get := fun i j => A.get [i, j]

/-- `np.einsum("ik,kl->il", A, B)`, and `A @ B`. -/
def Arr2.matmul (A B : Arr2 K) : Except Err (Arr2 K) :=
  if A.cols = B.rows then .ok ⟨A.rows, B.cols, fun i l => ∑ k ∈ Finset.range A.cols, A.get i k * B.get k l⟩
  else .error .value

/-- `-1 * A`. -/
def Arr2.neg (A : Arr2 K) : Arr2 K := { A with get := fun i j => -1 * A.get i j }

/-- `A / c`. -/
def Arr2.divs (A : Arr2 K) (c : K) : Arr2 K := { A with get := fun i j => A.get i j / c }

/-- `A[:n]`. -/
def Arr2.take (A : Arr2 K) (n : ℕ) : Arr2 K := ⟨min n A.rows, A.cols, A.get⟩

/-- `A[n:]`. -/
def Arr2.drop (A : Arr2 K) (n : ℕ) : Arr2 K := ⟨A.rows - n, A.cols, fun i j => A.get (i + n) j⟩

/-- The coefficients used by `force_eval`, `pmf_eval`: the argument, or `self.force_coeff`. (A wrong shape
of the argument only gives a warning; the overdamped `pmf_eval` raises, see `pmfEval`.) -/
def coeffsOr (s : ModelState K) (coeffs : Option (LArr K)) : Except Err (LArr K) :=
  match coeffs with
  | some c => .ok c
  | none =>
    match s.forceCoeff with
    | none => .error (.exception "Mean force has not been computed.")
    | some c => .ok c

/-- models.py:209-222 `ModelBase.force_eval` and models.py:500-507 `Pos_gle_with_friction.force_eval` (which
has no argument `coeffs`: passing one is a `TypeError`). -/
def forceEval (s : ModelState K) (coeffs : Option (LArr K)) (n : ℕ) (pts : ℕ → ℕ → K) : Except Err (Arr2 K) :=
  match s.bm.cls with
  | .withFriction =>
    match coeffs with
    | some _ => .error .type
    | none => do
      let c ← coeffsOr s none
      (s.bm.bk (evalXva s.bm.dimx n pts)).toArr2.matmul (c.toArr2.take s.bm.basis.nOut)
  | _ => do
    let c ← coeffsOr s coeffs
    let r ← dotE (s.bm.forceVector (evalXva s.bm.dimx n pts)) c
    return r.toArr2

/-- `np.identity(dim_x)` or `np.asarray(self.eff_mass)`: models.py:237-241, 531-535. -/
def effMassOr (s : ModelState K) : Arr2 K :=
  match s.effMass with
  | none => ⟨s.bm.dimx, s.bm.dimx, fun i j => if i = j then 1 else 0⟩
  | some M => M.toArr2

/-- models.py:224-244, 517-538 and 689-709, before the minimum is subtracted. -/
def pmfRaw (s : ModelState K) (coeffs : Option (LArr K)) (kT : K) (n : ℕ) (pts : ℕ → ℕ → K) :
    Except Err (Arr2 K) := do
  let E := s.bm.pmfVector (evalXva s.bm.dimx n pts)
  match s.bm.cls with
  | .overdamped =>
    if (coeffs.map fun c => decide (c.shape = [s.bm.nForce, s.bm.dimObs])) = some false then
      throw (.exception "Wrong shape of the coefficients.")
    let c ← coeffsOr s coeffs
    let r ← E.toArr2.matmul c.toArr2
    return r.neg.divs kT
  | .withFriction =>
    let c ← coeffsOr s coeffs
    -- `self.force_coeff[: self.N_basis_elt, :]`; a given array is used as it is
    let c := if coeffs.isSome then c
      else { c with shape := [min s.bm.basis.nOut (c.shape.getD 0 0), c.shape.getD 1 0] }
    let d ← dotE E c
    let r ← d.toArr2.neg.matmul (effMassOr s)
    return r.divs kT
  | _ =>
    let c ← coeffsOr s coeffs
    let d ← dotE E c
    let r ← d.toArr2.neg.matmul (effMassOr s)
    return r.divs kT

/-- `pmf_eval`: models.py:224-246, 517-540 and 689-711. The minimum is computed also when `set_zero` is
false. -/
def pmfEval [LinearOrder K] (s : ModelState K) (coeffs : Option (LArr K)) (kT : K) (setZero : Bool) (n : ℕ)
    (pts : ℕ → ℕ → K) : Except Err (Arr2 K) := do
  let pmf ← pmfRaw s coeffs kT n pts
  let m ← pmf.minE
  return { pmf with get := fun i l => pmf.get i l - (if setZero then 1 else 0) * m }

/-- models.py:248-263 `inv_mass_eval` (the argument `set_zero` is not used). The class with friction reads
`xva["v"]`, which is not in the dataset built from the points. -/
def invMassEval (s : ModelState K) (coeffs : Option (LArr K)) (n : ℕ) (pts : ℕ → ℕ → K) : Except Err (LArr K) := do
  let c ← match coeffs with
    | none =>
      match s.invMassCoeff with
      | none => .error (.exception "Effective mass has not been computed.")
      | some c => .ok c
    | some c =>
      if c.shape = [s.bm.nForce, s.bm.dimx, s.bm.dimx] then .ok c
      else .error (.exception "Wrong shape of the coefficients.")
  if s.bm.cls = .withFriction then throw .key
  dotE (s.bm.forceVector (evalXva s.bm.dimx n pts)) c

/-- `np.gradient(f)` for `n ≥ 2` values. -/
def npGradient (n : ℕ) (f : ℕ → K) (i : ℕ) : K :=
  if i = 0 then f 1 - f 0
  else if i + 1 = n then f i - f (i - 1)
  else (f (i + 1) - f (i - 1)) / 2

/-- models.py:265-281 `pmf_num_int_eval`. `A[:, 0, 0]` is an `IndexError` when `A` does not have three axes or
an axis of size 0; `np.gradient` needs two values, but `x[1]` raises before. -/
def pmfNumIntEval [LinearOrder K] (s : ModelState K) (kT : K) (setZero : Bool) (n : ℕ) (pts : ℕ → ℕ → K) :
    Except Err (ℕ → K) := do
  let f ← forceEval s none n pts
  if f.cols = 0 then throw .index
  let A ← invMassEval s none n pts
  if A.dims.length ≠ 3 ∨ A.shape.getD 1 0 = 0 ∨ A.shape.getD 2 0 = 0 then throw .index
  let ravel := fun i => pts (i / s.bm.dimx) (i % s.bm.dimx)
  if n * s.bm.dimx < 2 then throw .index
  let dx := ravel 1 - ravel 0
  if n < 2 then throw .value
  let diffMass := fun i => npGradient n (fun i => A.get [i, 0, 0]) i / dx
  let gradPmf := fun i => -1 * (f.get i 0 - diffMass i / kT) / A.get [i, 0, 0]
  let pmf : Arr2 K := ⟨n, 1, fun i _ => (∑ j ∈ Finset.range (i + 1), gradPmf j) * dx⟩
  let m ← pmf.minE
  return fun i => pmf.get i 0 - (if setZero then 1 else 0) * m

end

end Verif
