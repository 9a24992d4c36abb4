import Mathlib.Analysis.SpecialFunctions.Pow.Real
import Mathlib.Analysis.Complex.Trigonometric

/-!
# The functions of the memory fits
-/

namespace Verif.Spec

/-- For each name of a fit by least squares: the number of parameters and the function. -/
noncomputable def fitFamily : List (String × ℕ × (List ℝ → ℝ → ℝ)) :=
  let p : List ℝ → ℕ → ℝ := fun l i => l.getD i 0
  let exponential : List ℝ → ℝ → ℝ := fun l t => p l 0 * Real.exp (-(p l 1 * t))
  let normalised : List ℝ → ℝ → ℝ := fun l t => Real.exp (-(p l 0 * t))
  let double : List ℝ → ℝ → ℝ := fun l t => p l 2 * Real.exp (-(p l 0 * t)) + (1 - p l 2) * Real.exp (-(p l 1 * t))
  [("exp", 2, exponential), ("exponential", 2, exponential), ("expnorm", 1, normalised), ("exp_norm", 1, normalised),
    ("doubleexpnorm", 3, double), ("double_exp_norm", 3, double),
    ("sech", 3, fun l t => p l 0 / Real.cosh (p l 1 * t) ^ p l 2),
    ("sech_one", 2, fun l t => p l 0 / Real.cosh (p l 1 * t)),
    ("sech_two", 2, fun l t => p l 0 / Real.cosh (p l 1 * t) ^ 2),
    ("gaussian", 2, fun l t => p l 0 * Real.exp (-(p l 1 * t ^ 2)))]

end Verif.Spec
