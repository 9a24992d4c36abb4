import Verif.Model.ComputeKernel
import Mathlib.Algebra.Order.Field.Basic
import Mathlib.Algebra.BigOperators.Group.Finset.Basic

/-!
# Model of `VolterraBasis/basis/_data_describe.py` and of `Estimator.describe_data`

A trajectory is an array of frames, a frame being a function of the coordinate. The fields of a description are arrays over
the coordinates, of common length `dim`. Skewness and kurtosis are handled exactly like the variance and left out.
-/

namespace Verif

/-- _data_describe.py:4 `DescribeResult`. -/
structure DescribeResult (K : Type*) where
  nobs : ℕ
  dim : ℕ
  min : ℕ → K
  max : ℕ → K
  mean : ℕ → K
  variance : ℕ → K

section
variable {K : Type*} [Field K] [LinearOrder K]

/-- `np.min(X, axis=0)` of a non empty array. -/
def colMin (X : Arr (ℕ → K)) (c : ℕ) : K := forRange 1 X.len (fun i m => min m (X.get i c)) (X.get 0 c)

/-- `np.max(X, axis=0)`. -/
def colMax (X : Arr (ℕ → K)) (c : ℕ) : K := forRange 1 X.len (fun i m => max m (X.get i c)) (X.get 0 c)

/-- `np.mean(X, axis=0)`. -/
def colMean (X : Arr (ℕ → K)) (c : ℕ) : K := forRange 0 X.len (fun i s => s + X.get i c) 0 / X.len

/-- `np.var(X, axis=0, ddof=1)`. -/
def colVar (X : Arr (ℕ → K)) (c : ℕ) : K :=
  forRange 0 X.len (fun i s => s + (X.get i c - colMean X c) ^ 2) 0 / (X.len - 1)

/-- `scipy.stats.describe(X)`: an empty array is rejected with `ValueError`. -/
def scipyDescribe (dim : ℕ) (X : Arr (ℕ → K)) : Except Err (DescribeResult K) :=
  if X.len = 0 then .error .value else .ok ⟨X.len, dim, colMin X, colMax X, colMean X, colVar X⟩

/-- _data_describe.py:15-20 `minimal_describe`; `np.min` of an empty array raises `ValueError`. -/
def minimalDescribe (dim : ℕ) (X : Arr (ℕ → K)) : Except Err (DescribeResult K) :=
  if X.len = 0 then .error .value else .ok ⟨X.len, dim, colMin X, colMax X, colMean X, fun _ => 0⟩

/-- _data_describe.py:7-12 `quick_describe`. -/
def quickDescribe (dim : ℕ) (X : Arr (ℕ → K)) : DescribeResult K :=
  ⟨X.len, dim, fun _ => 0, fun _ => 0, fun _ => 0, fun _ => 0⟩

/-- _data_describe.py:23-27 `describe_from_dim`. -/
def describeFromDim (dim : ℕ) : DescribeResult K := ⟨15, dim, fun _ => 0, fun _ => 0, fun _ => 0, fun _ => 0⟩

/-- _data_describe.py:30-31 `sum_describe`. -/
def sumDescribe (d1 d2 : DescribeResult K) : DescribeResult K :=
  ⟨d1.nobs + d2.nobs, d1.dim, fun c => min (d1.min c) (d2.min c), fun c => max (d1.max c) (d2.max c),
    fun c => (d1.mean c * d1.nobs + d2.mean c * d2.nobs) / ((d1.nobs : K) + d2.nobs), d1.variance⟩

/-- gle_estimation.py:146-149, the part of `describe_data` that computes. -/
def describeAll (dim : ℕ) (xs : List (Arr (ℕ → K))) : Except Err (DescribeResult K) := do
  let describeSet ← xs.mapM (scipyDescribe dim)
  match describeSet with
  | [] => throw .index
  | d :: ds => pure (ds.foldl sumDescribe d)

/-- gle_estimation.py:140-150 `describe_data`: the cached description is returned if there is one. The state is the cache. -/
def describeData (dim : ℕ) (xs : List (Arr (ℕ → K))) (cache : Option (DescribeResult K)) :
    Except Err (DescribeResult K × Option (DescribeResult K)) :=
  match cache with
  | some d => .ok (d, some d)
  | none => do
    let d ← describeAll dim xs
    pure (d, some d)

end

end Verif
