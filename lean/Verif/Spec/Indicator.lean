import Mathlib.Analysis.Calculus.Deriv.Basic
import Verif.Spec.Features

/-!
# Boundaries between states, and functions interpolating between one and zero
-/

namespace Verif.Spec

/-- The boundaries `[a n, b n]`, `n < N`, are proper intervals, in order and do not overlap (they may touch). -/
structure OrderedBoundaries {K : Type*} [LinearOrder K] (N : ℕ) (bd : ℕ → K × K) : Prop where
  proper : ∀ n < N, (bd n).1 ≠ (bd n).2
  ordered : ∀ n, n + 1 < N → max (bd n).1 (bd n).2 ≤ min (bd (n + 1)).1 (bd (n + 1)).2

/-- `B` takes values in `[0, 1]` on `[0, 1]` and ends at zero. -/
structure UnitBoundary {K : Type*} [Zero K] [One K] [LE K] (B : K → K) : Prop where
  nonneg : ∀ u, 0 ≤ u → u ≤ 1 → 0 ≤ B u
  le_one : ∀ u, 0 ≤ u → u ≤ 1 → B u ≤ 1
  at_one : B 1 = 0

/-- `B` goes from one to zero with derivative `B'`, which vanishes at both ends. -/
structure SmoothStep (B B' : ℝ → ℝ) : Prop where
  at_zero : B 0 = 1
  at_one : B 1 = 0
  deriv : ∀ u, HasDerivAt B (B' u) u
  deriv_zero : B' 0 = 0
  deriv_one : B' 1 = 0

end Verif.Spec
