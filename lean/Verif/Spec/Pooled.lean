import Verif.Model.BasisVector
import Verif.Spec.Correlation
import Mathlib.Algebra.BigOperators.Group.List.Basic

/-!
# Specification: averages over all frames of all trajectories, and the functions averaged
-/

namespace Verif.Spec

open Finset

variable {K : Type*}

/-- Sum over all frames of all trajectories; a trajectory is its number of frames and a function of the
frame. -/
def pooledSum [AddCommMonoid K] (l : List (ℕ × (ℕ → K))) : K := (l.map fun s => ∑ t ∈ range s.1, s.2 t).sum

/-- Average over all frames of all trajectories. -/
def pooledMean [Field K] (l : List (ℕ × (ℕ → K))) : K := pooledSum l / ((l.map fun s => s.1).sum : ℕ)

/-- Average of one number per trajectory, weighted by the numbers of frames. -/
def weightedMean [Field K] (l : List (ℕ × K)) : K := (l.map fun s => (s.1 : K) * s.2).sum / ((l.map fun s => s.1).sum : ℕ)

/-- The correlation of two series that depend on the trajectory, averaged with the numbers of frames as
weights. -/
def meanCorr [Field K] (xvas : List (Xva K)) (f g : Xva K → ℕ → K) (n : ℕ) : K :=
  weightedMean (xvas.map fun xva => (xva.n, corr xva.n (f xva) (g xva) n))

variable [CommRing K]

/-- The `k`-th function of the mean force at frame `t`: the basis function at the position; the class with
friction adds the functions `∇b_k(x) · v`. -/
def forceFeature (m : BasisModel K) (xva : Xva K) (t k : ℕ) : K :=
  if m.cls = .withFriction ∧ m.basis.nOut ≤ k then
    ∑ d ∈ range xva.dimx, m.basis.deriv (xva.data "x" t) (k - m.basis.nOut) d * xva.data "v" t d
  else m.basis.basis (xva.data "x" t) k

/-- The component `d` of the `k`-th function of the kernel at frame `t`: the gradient of the basis function,
the basis function itself, or a unit vector, according to the class. -/
def kernelFeature (m : BasisModel K) (xva : Xva K) (t k d : ℕ) : K :=
  match m.cls with
  | .posGle | .withFriction => m.basis.deriv (xva.data "x" t) k d
  | .noVelBasis | .hybrid | .overdamped => m.basis.basis (xva.data "x" t) k
  | .constKernel => if k = d then 1 else 0

/-- Number of functions whose correlations are computed. -/
def nCorr (m : BasisModel K) : ℕ :=
  match m.cls with
  | .posGle | .withFriction => m.basis.nOut - (if m.basis.constRemoved then m.dimx else 0)
  | .noVelBasis | .overdamped => m.basis.nOut
  | .constKernel => m.dimx
  | .hybrid => m.dimx + m.basis.nOut

/-- The `k`-th function whose correlations are computed, at frame `t`: `∇b_k(x) · v`, `b_k(x)`, the velocity, or
the velocity followed by the functions `b`, according to the class. -/
def corrFeature (m : BasisModel K) (xva : Xva K) (t k : ℕ) : K :=
  match m.cls with
  | .posGle | .withFriction => ∑ d ∈ range xva.dimx, m.basis.deriv (xva.data "x" t) k d * xva.data "v" t d
  | .noVelBasis | .overdamped => m.basis.basis (xva.data "x" t) k
  | .constKernel => xva.data "v" t k
  | .hybrid => if k < m.dimx then xva.data "v" t k else m.basis.basis (xva.data "x" t) (k - m.dimx)

/-- The time derivative of `corrFeature` along the trajectory, by the chain rule. -/
def corrFeatureDot (m : BasisModel K) (xva : Xva K) (t k : ℕ) : K :=
  match m.cls with
  | .posGle | .withFriction => (∑ d ∈ range xva.dimx, m.basis.deriv (xva.data "x" t) k d * xva.data "a" t d) +
      ∑ d ∈ range xva.dimx, ∑ d' ∈ range xva.dimx,
        m.basis.hessian (xva.data "x" t) k d d' * xva.data "v" t d * xva.data "v" t d'
  | .noVelBasis | .overdamped => ∑ d ∈ range xva.dimx, m.basis.deriv (xva.data "x" t) k d * xva.data "v" t d
  | .constKernel => xva.data "a" t k
  | .hybrid => if k < m.dimx then xva.data "a" t k else
      ∑ d ∈ range xva.dimx, m.basis.deriv (xva.data "x" t) (k - m.dimx) d * xva.data "v" t d

end Verif.Spec
