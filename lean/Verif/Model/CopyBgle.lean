import Verif.Model.CopyModel
import Verif.Model.Bgle

/-!
# Model of a `BGLEIntegrator` built from a model (gle_integrate.py)
-/

namespace Verif

open Finset

section
variable {K : Type*} [Field K]

namespace Copied

variable (c : Copied K)

/-- The sizes `BGLEIntegrator.integrate` needs: `dU` (gle_integrate.py:394-396, with 351-356) evaluates the basis at one point with one coordinate, multiplies
with `force_coeff`, of one column, and projects one velocity. No size of the kernel is needed. -/
def FitsScalar : Prop :=
  c.bm.dimx = 1 ∧ c.forceCoeff.shape = [c.bm.basis.nOut, 1] ∧
    (c.rankProjection = true → (c.Prange.map fun P => P.shape.drop 1) = some [1])

instance : Decidable c.FitsScalar := by
  unfold FitsScalar
  infer_instance

/-- The scalar integrator: the force of `dU` and the kernel after `ravel` (gle_integrate.py:417). -/
def scalar : Bgle K where
  force y := ∑ k ∈ range c.bm.basis.nOut, c.bm.basis.basis (point fun _ : Fin 1 => y) k * c.forceCoeff.get [k, 0]
  kernel := ⟨c.kernel.2.2.len * (c.kernel.1 * c.kernel.2.1), fun j =>
    if h : j / c.kernel.2.1 % c.kernel.1 < c.kernel.1 ∧ j % c.kernel.2.1 < c.kernel.2.1 then
      c.kernel.2.2.get (j / (c.kernel.1 * c.kernel.2.1)) ⟨_, h.1⟩ ⟨_, h.2⟩ else 0⟩
  dt := c.dt

end Copied

/-- `BGLEIntegrator(model, trunc_kernel=trunc).integrate(nSteps, x0, v0)`, with the values of the noise. Sizes that do not fit are a `ValueError` in
the first step; it is raised here even when there is no step, and before the other exceptions of `integrate`. The exceptions of
the constructor of the noise generator are those of `integratorInit`. -/
def simulateBgle (s : ModelState K) (trunc : Option ℕ) (nSteps : ℕ) (x0 : Start K) (v0 : K) (noiseLen : ℕ) (noise : ℕ → K) :
    Except Err (BgleTrj K) := do
  let c ← copyFromEstimator s trunc
  if c.FitsScalar then c.scalar.integrate nSteps x0 v0 noiseLen noise else .error .value

end

end Verif
