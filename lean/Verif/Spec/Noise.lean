import Verif.Spec.Quadrature
import Mathlib.LinearAlgebra.Matrix.Defs

/-!
# Memory term of a discretised generalised Langevin equation (specification)
-/

namespace Verif.Spec

open Finset

variable {K : Type*} [Field K] {b x : Type*} [Fintype b]

/-- The integrand `s ↦ E(i-s) · K(s)` of the memory term at step `i`. -/
def memIntegrand (E : ℕ → b → K) (ker : ℕ → Matrix b x K) (i : ℕ) : ℕ → x → K :=
  fun s l => ∑ k, E (i - s) k * ker s k l

/-- The observable minus the mean force, component by component. -/
def instantNoise {bf : Type*} [Fintype bf] (obs : ℕ → x → K) (Ef : ℕ → bf → K)
    (coeff : Matrix bf x K) : ℕ → x → K :=
  fun t l => obs t l - ∑ k, Ef t k * coeff k l

/-- Average over the starting times `t = 0, ..., T-1-n` of the product of `left t` with `f t`. -/
def lagAverage {o : Type*} (T n : ℕ) (left : ℕ → o → K) (f : ℕ → x → K) (k : o) (l : x) : K :=
  (∑ t ∈ range (T - n), left t k * f t l) / ((T - n : ℕ) : K)

end Verif.Spec
