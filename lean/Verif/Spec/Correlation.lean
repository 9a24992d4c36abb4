import Mathlib.Algebra.BigOperators.Group.Finset.Basic
import Mathlib.Algebra.Field.Basic

/-! # Correlation of two time series (specification) -/

namespace Verif.Spec

open Finset

/-- Average of `a(t) b(t+n)` over the `N - n` times for which both are known. -/
def corr {K : Type*} [Field K] (N : ℕ) (a b : ℕ → K) (n : ℕ) : K :=
  (∑ t ∈ range (N - n), a t * b (t + n)) / ((N - n : ℕ) : K)

end Verif.Spec
