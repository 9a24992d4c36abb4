import Mathlib.LinearAlgebra.Matrix.NonsingularInverse

/-!
# Conventions shared by the whole model

* Python exceptions and Fortran `stop` are values of `Except Err`.
* A Fortran `do i = lo, hi` loop is `forRange lo (hi+1)`: a fold over the list of indices.
* Arrays are total functions of their indices, the length is carried separately.
* Arithmetic is exact (any field); floating point rounding is not modelled.
-/

namespace Verif

/-- What can go wrong when running the code. -/
inductive Err
  /-- Fortran `stop 'Matrix is numerically singular!'`, fkernel.f90:24. -/
  | fortranStop
  /-- An array access outside of the declared bounds. -/
  | outOfBounds
  /-- `numpy.linalg.LinAlgError`. -/
  | linAlg
  /-- Python `AttributeError`. -/
  | attribute
  /-- Python `ValueError`. -/
  | value
  /-- Python `KeyError`. -/
  | key
  /-- Python `IndexError`. -/
  | index
  /-- Python `UnboundLocalError`. -/
  | unbound
  /-- Python `TypeError`. -/
  | type
  /-- Python `OverflowError`. -/
  | overflow
  /-- Python `ZeroDivisionError`. -/
  | zeroDivision
  /-- Python `NotImplementedError`. -/
  | notImplemented
  /-- Python `raise Exception(...)`. -/
  | exception (msg : String)
  deriving DecidableEq, Repr

/-- `do i = lo, hi-1`: run `body` for `i = lo, ..., hi-1` in this order. Empty when `hi ≤ lo`. -/
def forRange {σ : Type*} (lo hi : ℕ) (body : ℕ → σ → σ) (s : σ) : σ :=
  (List.range' lo (hi - lo)).foldl (fun s i => body i s) s

/-- `do i = lo, hi-1, 2`: run `body` for `i = lo, lo+2, ...` below `hi`. -/
def forStep2 {σ : Type*} (lo hi : ℕ) (body : ℕ → σ → σ) (s : σ) : σ :=
  (List.range' lo ((hi - lo + 1) / 2) 2).foldl (fun s i => body i s) s

/-- Matrices over `K` with `m` rows and `n` columns. -/
abbrev Mat (K : Type*) (m n : ℕ) := Matrix (Fin m) (Fin n) K

/-- fkernel.f90:12-30 `inv`. LAPACK's LU based inverse, modelled as the exact inverse; `stop` when
the matrix is singular. (`adjugate / det` is the inverse matrix and is computable.) -/
def lapackInv {K : Type*} [Field K] [DecidableEq K] {n : ℕ} (A : Mat K n n) : Except Err (Mat K n n) :=
  if A.det = 0 then .error .fortranStop else .ok (A.det⁻¹ • A.adjugate)

/-- `np.linalg.inv`: same as `lapackInv`, but raising `LinAlgError` instead of stopping. -/
def npInv {K : Type*} [Field K] [DecidableEq K] {n : ℕ} (A : Mat K n n) : Except Err (Mat K n n) :=
  if A.det = 0 then .error .linAlg else .ok (A.det⁻¹ • A.adjugate)

end Verif
