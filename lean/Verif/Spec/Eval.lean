import Verif.Spec.Pooled

/-!
# Specification: the functions of the kernel and of the force at a point
-/

namespace Verif.Spec

variable {K : Type*} [CommRing K]

/-- The component `d` of the `k`-th function of the kernel at the point `pt`: the gradient of the basis function, the
basis function itself, or a unit vector, according to the class. -/
def kernelAt (m : BasisModel K) (pt : ℕ → K) (k d : ℕ) : K :=
  match m.cls with
  | .posGle | .withFriction => m.basis.deriv pt k d
  | .noVelBasis | .hybrid | .overdamped => m.basis.basis pt k
  | .constKernel => if k = d then 1 else 0

/-- Number of functions of the position on which the kernel is expanded. -/
def nKernelAt (m : BasisModel K) : ℕ :=
  match m.cls with
  | .posGle | .withFriction => m.basis.nOut - (if m.basis.constRemoved then m.dimx else 0)
  | .noVelBasis | .hybrid | .overdamped => m.basis.nOut
  | .constKernel => m.dimObs

/-- The rows of the kernel that do not multiply a function of the position: the velocity of the hybrid class. -/
def constRows (m : BasisModel K) : ℕ := if m.cls = .hybrid then 1 else 0

end Verif.Spec
