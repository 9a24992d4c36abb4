import Mathlib.Algebra.Module.Basic
import Mathlib.Algebra.BigOperators.Group.Finset.Basic
import Mathlib.Algebra.Field.Basic

/-!
# Textbook quadrature rules on a uniform grid (specification)

`f 0, f 1, ..., f n` are the samples of the integrand on `[0, n h]`, with values in a `K`-module.
Nothing here refers to the model of the code.
-/

namespace Verif.Spec

open Finset

variable {K V : Type*} [Field K] [AddCommGroup V] [Module K V]

/-- Left rectangle rule: one rectangle of width `h` per interval. -/
def rectRule (h : K) (f : ℕ → V) (n : ℕ) : V := ∑ j ∈ range n, h • f j

/-- Trapezoidal rule: the sum over the `n` intervals of the area of the trapezoid. -/
def trapzRule (h : K) (f : ℕ → V) (n : ℕ) : V := ∑ j ∈ range n, (h / 2) • (f j + f (j + 1))

/-- Simpson's rule on the single panel `[a, a+2]`. -/
def simpsonPanel (h : K) (f : ℕ → V) (a : ℕ) : V :=
  (h / 3) • (f a + (4 : K) • f (a + 1) + f (a + 2))

/-- Composite Simpson rule; when the number of intervals is odd the first interval is integrated
with the trapezoidal rule. -/
def simpsonRule (h : K) (f : ℕ → V) (n : ℕ) : V :=
  if n % 2 = 0 then ∑ p ∈ range (n / 2), simpsonPanel h f (2 * p)
  else (h / 2) • (f 0 + f 1) + ∑ p ∈ range (n / 2), simpsonPanel h f (2 * p + 1)

end Verif.Spec
