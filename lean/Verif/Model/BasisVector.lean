import Verif.Model.Labelled
import Mathlib.Algebra.Field.Defs

/-!
# Model of the classes of models.py: `basis_vector`
-/

namespace Verif

/-- A fitted basis (basis/_basis_features.py and others), as functions of one point. `deriv` and
`hessian` have `nOut` functions, or `nOut - dim_x` when `const_removed`. The code evaluates them row
by row on the array of positions. -/
structure PointBasis (K : Type*) where
  /-- `n_output_features_` -/
  nOut : ℕ
  constRemoved : Bool
  /-- point, index of the function -/
  basis : (ℕ → K) → ℕ → K
  /-- point, index of the function, coordinate -/
  deriv : (ℕ → K) → ℕ → ℕ → K
  hessian : (ℕ → K) → ℕ → ℕ → ℕ → K
  antiderivative : (ℕ → K) → ℕ → K

/-- A trajectory: an xarray dataset as returned by `compute_va` (`__init__.py`), with `n` frames. The
variables have axes `(time, dim_x)` for `x`, `v`, `a` and `(time, extraDim)` for the others. -/
structure Xva (K : Type*) where
  n : ℕ
  dimx : ℕ
  time : ℕ → K
  data : String → ℕ → ℕ → K
  extraDim : String → String
  extraSize : String → ℕ

/-- `xva[name]`. -/
def Xva.var {K : Type*} [Zero K] (xva : Xva K) (name : String) : LArr K :=
  if name ∈ ["x", "v", "a"] then LArr.mk2 "time" xva.n "dim_x" xva.dimx (xva.data name)
  else LArr.mk2 "time" xva.n (xva.extraDim name) (xva.extraSize name) (xva.data name)

/-- The model classes of models.py:405-746. -/
inductive ModelClass
  | posGle | withFriction | noVelBasis | constKernel | hybrid | overdamped
  deriving DecidableEq, Repr

/-- The part of a model that determines `basis_vector`. -/
structure BasisModel (K : Type*) where
  cls : ModelClass
  basis : PointBasis K
  dimx : ℕ
  dimObs : ℕ

namespace BasisModel

variable {K : Type*} [CommRing K] (m : BasisModel K)

/-- The number of functions returned by `basis.deriv` and `basis.hessian`; for the classes that set
`basis.const_removed = False` (models.py:554-556, 615-617, 670-672) all of them. -/
def nDeriv : ℕ :=
  match m.cls with
  | .posGle | .withFriction | .constKernel => m.basis.nOut - (if m.basis.constRemoved then m.dimx else 0)
  | _ => m.basis.nOut

/-- `N_basis_elt_force`: models.py:440, 474, 552, 584, 613, 668. -/
def nForce : ℕ :=
  match m.cls with
  | .withFriction => 2 * m.basis.nOut - (if m.basis.constRemoved then m.dimx else 0)
  | _ => m.basis.nOut

/-- `N_basis_elt_kernel`: models.py:441, 475, 553, 585, 614, 669. -/
def nKernel : ℕ :=
  match m.cls with
  | .posGle | .withFriction => m.basis.nOut - (if m.basis.constRemoved then m.dimx else 0)
  | .noVelBasis | .overdamped => m.basis.nOut
  | .constKernel => m.dimObs
  | .hybrid => m.basis.nOut + 1

/-- `xr.apply_ufunc(self.basis.basis, xva["x"], ...)`, e.g. models.py:446. -/
def bk (xva : Xva K) : LArr K :=
  LArr.mk2 "time" xva.n "dim_basis" m.basis.nOut fun t k => m.basis.basis (xva.data "x" t) k

/-- `xr.apply_ufunc(self.basis.deriv, xva["x"], ...)`, e.g. models.py:451. -/
def dbk (xva : Xva K) : LArr K :=
  LArr.mk3 "time" xva.n "dim_basis" m.nDeriv "dim_x" xva.dimx fun t k d =>
    m.basis.deriv (xva.data "x" t) k d

/-- `xr.apply_ufunc(self.basis.hessian, xva["x"], ...)`, models.py:455. -/
def ddbk (xva : Xva K) : LArr K :=
  LArr.mk4 "time" xva.n "dim_basis" m.nDeriv "dim_x" xva.dimx "dim_x'" xva.dimx fun t k d d' =>
    m.basis.hessian (xva.data "x" t) k d d'

/-- `basis_vector(xva, compute_for="pmf")`, e.g. models.py:449-450. -/
def pmfVector (xva : Xva K) : LArr K :=
  LArr.mk2 "time" xva.n "dim_basis" m.basis.nOut fun t k => m.basis.antiderivative (xva.data "x" t) k

/-- `xr.dot(dbk, xva[name], dims=["dim_x"])`. -/
def alongVar (xva : Xva K) (name : String) : LArr K :=
  LArr.dot [m.dbk xva, xva.var name] (some ["dim_x"])

/-- models.py:457 and 495:
`xr.dot(dbk, a, dims=["dim_x"]) + xr.dot(ddbk, v, v', dims=["dim_x", "dim_x'"])`. -/
def dEPos (xva : Xva K) : Except Err (LArr K) :=
  LArr.binop (· + ·) (m.alongVar xva "a")
    (LArr.dot [m.ddbk xva, xva.var "v", (xva.var "v").rename1 "dim_x" "dim_x'"] (some ["dim_x", "dim_x'"]))

/-- `basis_vector(xva, compute_for="force")`: models.py:447, 491, 560, 589, 622, 677. -/
def forceVector (xva : Xva K) : LArr K :=
  match m.cls with
  | .withFriction => LArr.concat (m.bk xva) (m.alongVar xva "v") "dim_basis"
  | _ => m.bk xva

/-- `basis_vector(xva, compute_for="kernel")`: models.py:452, 486, 566, 593-597, 628, 682. -/
def kernelVector (xva : Xva K) : LArr K :=
  match m.cls with
  | .posGle | .withFriction => m.dbk xva
  | .noVelBasis | .hybrid | .overdamped => (m.bk xva).expandLast "dim_x" m.dimx
  | .constKernel =>
    LArr.mk3 "time" xva.n "dim_basis" m.dimObs "dim_x" m.dimObs fun _ i d => if i = d then 1 else 0

/-- `basis_vector(xva, compute_for="corrs")`, the triple `E_force, E, dE`: models.py:454-458, 493-496,
567-570, 598-599, 630-634, 684-687. -/
def corrsVector (xva : Xva K) : Except Err (LArr K × LArr K × LArr K) :=
  match m.cls with
  | .posGle => do
    let dE ← m.dEPos xva
    return (m.bk xva, m.alongVar xva "v", dE)
  | .withFriction => do
    let dE ← m.dEPos xva
    return (LArr.concat (m.bk xva) (m.alongVar xva "v") "dim_basis", m.alongVar xva "v", dE)
  | .noVelBasis | .overdamped => .ok (m.bk xva, m.bk xva, m.alongVar xva "v")
  | .constKernel =>
    .ok (m.bk xva, (xva.var "v").rename1 "dim_x" "dim_basis", (xva.var "a").rename1 "dim_x" "dim_basis")
  | .hybrid =>
    -- models.py:632 gives no `dims`: the shared axes `time` and `dim_x` are both summed
    let dbkv := LArr.dot [m.dbk xva, xva.var "v"]
    .ok (m.bk xva, LArr.concat ((xva.var "v").rename1 "dim_x" "dim_basis") (m.bk xva) "dim_basis",
      concatScalarRow ((xva.var "a").rename1 "dim_x" "dim_basis") dbkv)
where
  /-- `xr.concat([A, B], dim="dim_basis")` where `A` has axes `(time, dim_basis)` and `B` only
  `dim_basis`: xarray broadcasts `B` along `time`. -/
  concatScalarRow (A B : LArr K) : LArr K :=
    LArr.mk2 "time" (A.size "time") "dim_basis" (A.size "dim_basis" + B.size "dim_basis") fun t k =>
      if k < A.size "dim_basis" then A.get [t, k] else B.get [k - A.size "dim_basis"]

end BasisModel

end Verif
