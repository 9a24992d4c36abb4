import Verif.Model.Trajectory

/-!
# What the trajectory utilities should compute
-/

namespace Verif

/-- The dataset has a variable `name` with `d` components and the values `X` at all its frames, none of
them missing. -/
def Dataset.Has {K : Type*} (ds : Dataset K) (name : String) (d : ℕ) (X : ℕ → ℕ → K) : Prop :=
  ∃ v, ds.vars.lookup name = some v ∧ v.dim = d ∧ ∀ i < ds.n, ∀ k < d, v.get i k = some (X i k)

namespace Spec

variable {K : Type*} [Field K]

/-- Centred second difference at frame `i ≥ 1`. -/
def secondDifference (dt : K) (X : ℕ → ℕ → K) (i k : ℕ) : K := (X (i + 1) k - 2 * X i k + X (i - 1) k) / dt ^ 2

/-- Mixed first difference at frame `i ≥ 1`: forward with weight `lamb`, backward with `1 - lamb`. -/
def mixedDifference (dt lamb : K) (X : ℕ → ℕ → K) (i k : ℕ) : K :=
  (lamb * (X (i + 1) k - X i k) + (1 - lamb) * (X i k - X (i - 1) k)) / dt

/-- Backward difference at frame `i ≥ 1`. -/
def backwardDifference (dt : K) (X : ℕ → ℕ → K) (i k : ℕ) : K := (X i k - X (i - 1) k) / dt

end Spec

/-- `r` holds the interior frames of `ds` (all but the first and the last) with time stamps and `dt`
unchanged. -/
def IsInterior {K : Type*} (ds r : Dataset K) : Prop :=
  r.n = ds.n - 2 ∧ r.dt = ds.dt ∧ ∀ i < r.n, r.time i = ds.time (i + 1)

end Verif
