import Mathlib.Algebra.Order.Field.Basic

/-!
# Meshes of an interval, lines of the plane
-/

namespace Verif.Spec

/-- `f 0 < f 1 < ... < f n`, from `a` to `b`. -/
structure MeshOf {K : Type*} [LT K] (n : ℕ) (a b : K) (f : ℕ → K) : Prop where
  first : f 0 = a
  last : f n = b
  strict : ∀ i j, i < j → j ≤ n → f i < f j

/-- `p` is on the line through `a` and `b`. -/
def OnLine {K : Type*} [Field K] (a b p : K × K) : Prop :=
  (b.1 - a.1) * (p.2 - a.2) = (b.2 - a.2) * (p.1 - a.1)

/-- The lines through `a`, `a'` and `b`, `b'` have the same direction. -/
def Parallel {K : Type*} [Field K] (a a' b b' : K × K) : Prop :=
  (a'.1 - a.1) * (b'.2 - b.2) = (a'.2 - a.2) * (b'.1 - b.1)

end Verif.Spec
