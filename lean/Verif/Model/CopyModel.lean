import Verif.Model.Integrate
import Verif.Model.SaveLoad

/-!
# Model of the integrators built from an estimated model (gle_integrate.py:228-268, 351-357)
-/

namespace Verif

/-- The classes of integrators: `Integrator_gle` (gle_integrate.py:184) and `Integrator_gle_const_kernel` (line 335). -/
inductive IntegratorClass
  | gle | constKernel
  deriving DecidableEq, Repr

/-- The attributes set by `_copy_from_estimator`. `bm` is `basis`, with what its functions depend on. -/
structure Copied (K : Type*) where
  bm : BasisModel K
  forceCoeff : LArr K
  /-- the sizes of the kernel, and the kernel -/
  kernel : Σ b x : ℕ, Arr (Mat K b x)
  rankProjection : Bool
  Prange : Option (LArr K)
  dt : K
  /-- `N_basis_elt_kernel` -/
  nKernel : ℕ
  dim : ℕ

section
variable {K : Type*} [Field K]

/-- gle_integrate.py:228-247 `_copy_from_estimator`. A force or a kernel that has not been computed is `None`, without
method `to_numpy`: `AttributeError`. `trunc` is not negative. -/
def copyFromEstimator (s : ModelState K) (trunc : Option ℕ) : Except Err (Copied K) :=
  match s.forceCoeff, s.kernel with
  | none, _ => .error .attribute
  | some _, none => .error .attribute
  | some c, some ⟨b, x, r⟩ => .ok
    { bm := s.bm, forceCoeff := c, kernel := ⟨b, x, ⟨min (trunc.getD s.truncInd) r.kernel.len, r.kernel.get⟩⟩
      rankProjection := s.rankProjection, Prange := s.Prange, dt := s.dt, nKernel := s.bm.nKernel, dim := s.bm.dimObs }

/-- A row of coordinates, as the functions of the basis take it. -/
def point {d : ℕ} (y : Fin d → K) (i : ℕ) : K := if h : i < d then y ⟨i, h⟩ else 0

namespace Copied

variable (c : Copied K)

/-- The number of functions of `basis_vector`, before the projection: that of `basis.deriv`, or of the coordinates. -/
def nVec (cls : IntegratorClass) (d : ℕ) : ℕ :=
  match cls with
  | .gle => c.bm.nDeriv
  | .constKernel => d

/-- The sizes `run` needs: the basis and the initial data have `dim` coordinates, `E_force` fits `force_coeff` (line 281),
`E` fits the kernel (lines 273 and 280) or `P_range` (line 267), and the kernel has `dim` columns. -/
def Fits (cls : IntegratorClass) (d : ℕ) : Prop :=
  c.dim = d ∧ c.bm.dimx = d ∧ c.forceCoeff.shape = [c.bm.basis.nOut, d] ∧ c.kernel.2.1 = d ∧
    (if c.rankProjection then c.Prange.map (·.shape) = some [c.kernel.1, c.nVec cls d] else c.nVec cls d = c.kernel.1)

instance (cls : IntegratorClass) (d : ℕ) : Decidable (c.Fits cls d) := by
  unfold Fits
  infer_instance

/-- The integrator, for `d` coordinates: `basis_vector` of gle_integrate.py:262-268 or 351-357. -/
def integrator (cls : IntegratorClass) (d : ℕ) : Integrator K d c.bm.basis.nOut (c.nVec cls d) c.kernel.1 where
  basis y k := c.bm.basis.basis (point y) k
  vec := match cls with
    | .gle => gleVec fun y k i => c.bm.basis.deriv (point y) k i
    | .constKernel => constVec
  proj := Matrix.of fun k l => if c.rankProjection then (c.Prange.map fun P => P.get [k.1, l.1]).getD 0 else if k.1 = l.1 then 1 else 0
  forceCoeff := Matrix.of fun k l => c.forceCoeff.get [k.1, l.1]
  kernel := ⟨c.kernel.2.2.len, fun j => Matrix.of fun k l => if h : l.1 < c.kernel.2.1 then c.kernel.2.2.get j k ⟨l, h⟩ else 0⟩
  dt := c.dt

/-- gle_integrate.py:291-332 `run` of an integrator built from a model, with initial data and noise of `d` columns. Sizes
that do not fit are a `ValueError` in the first step; it is raised here even when there is no step, and before the
exceptions that come from the initial data or from a kernel of fewer than two points. numpy would accept initial data
with one column in place of `dim` columns. -/
def run [DecidableEq K] (cls : IntegratorClass) {d : ℕ} (nSteps : ℕ) (x0 : Option (InitData K d)) (noise : ℕ → Fin d → K) :
    Except Err (Trj K d) :=
  if c.Fits cls d then (c.integrator cls d).run nSteps x0 noise else .error .value

end Copied

/-- `Integrator_gle(model, trunc_kernel=trunc).run(nSteps, x0)`, or the same with `Integrator_gle_const_kernel`, with the
values of the noise. The exceptions of the constructor of the noise generator are those of `integratorInit`. -/
def simulate [DecidableEq K] (s : ModelState K) (cls : IntegratorClass) (trunc : Option ℕ) {d : ℕ} (nSteps : ℕ)
    (x0 : Option (InitData K d)) (noise : ℕ → Fin d → K) : Except Err (Trj K d) := do
  let c ← copyFromEstimator s trunc
  c.run cls nSteps x0 noise

end

end Verif
