import Verif.Model.Prelude
import Mathlib.Analysis.Calculus.Deriv.Basic

/-!
# Partial derivatives
-/

namespace Verif.Spec

/-- `d` is the partial derivative of `f` at `x` with respect to the coordinate `i`. -/
def PartialDeriv (f : (ℕ → ℝ) → ℝ) (x : ℕ → ℝ) (i : ℕ) (d : ℝ) : Prop :=
  HasDerivAt (fun s => f (Function.update x i s)) d (x i)

end Verif.Spec
