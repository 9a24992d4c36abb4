import Verif.Model.ComputeKernel
import Mathlib.Analysis.SpecialFunctions.Log.Basic
import Mathlib.Analysis.SpecialFunctions.Complex.Log
import Mathlib.Algebra.BigOperators.Group.Finset.Basic

/-!
# Model of `VolterraBasis/correlation.py`

A series of `N` numbers is a function `ℕ → K` of which only the first `N` values are read. Data with
several components have the component as first argument. The shapes are those with which the
estimator calls these functions (gle_estimation.py:451-466 through `xr.apply_ufunc`, which moves the
time axis to the end and inserts an axis of length one after the component axis of the first
array): `a` has shape `(p, 1, N)` and `b` shape `(q, N)`.
-/

namespace Verif

open Finset

/-- correlation.py:14-17, 32-35, 41-44, 61-64: `min(N, trunc)`, or `N` when `trunc` is `None`. -/
def lenTrunc (N : ℕ) (trunc : Option ℕ) : ℕ :=
  match trunc with
  | none => N
  | some m => min N m

/-- correlation.py:5 `2 ** int(np.ceil((np.log(N) / np.log(2))) + 1)`, with exact logarithms. -/
noncomputable def padLen (N : ℕ) : ℕ := 2 ^ (⌈Real.log N / Real.log 2⌉ + 1).toNat

/-- `np.fft.fft(a, n=P)` of a real series of `N ≤ P` points: zero padding to length `P` followed by
the discrete Fourier transform. -/
noncomputable def fft (N P : ℕ) (a : ℕ → ℝ) (k : ℕ) : ℂ :=
  ∑ t ∈ range P, ((if t < N then a t else 0 : ℝ) : ℂ) * Complex.exp (-(2 * Real.pi * Complex.I * k * t / P))

/-- `np.fft.ifft` of a series of length `P`. -/
noncomputable def ifft (P : ℕ) (X : ℕ → ℂ) (n : ℕ) : ℂ :=
  (∑ k ∈ range P, X k * Complex.exp (2 * Real.pi * Complex.I * k * n / P)) / P

/-- correlation.py:4-19 `correlation_1D` for series of the same length `N`. The padding of `b`
(lines 9-11) doubles the next power of two, which is the same length as the one used for `a`.
`np.log(0)` is `-inf`, and `int(-inf)` raises. -/
noncomputable def correlation1D (N : ℕ) (a : ℕ → ℝ) (b : Option (ℕ → ℝ)) (trunc : Option ℕ) :
    Except Err (Arr ℝ) :=
  if N = 0 then .error .overflow else
  let fra := fft N (padLen N) a
  let sf : ℕ → ℂ := match b with
    | none => fun k => (starRingEnd ℂ) (fra k) * fra k
    | some b => fun k => (starRingEnd ℂ) (fra k) * fft N (padLen N) b k
  .ok ⟨lenTrunc N trunc, fun n => (ifft (padLen N) sf n).re / (N - n)⟩

/-- correlation.py:22-37 `correlation_ND(a, b)` with `a` of shape `(p, 1, N)` and `b` of shape
`(q, N)`: entry `[i, j, n]`. -/
noncomputable def correlationND {p q : ℕ} (N : ℕ) (a : Fin p → ℕ → ℝ) (b : Fin q → ℕ → ℝ)
    (trunc : Option ℕ) : Except Err (Arr (Mat ℝ p q)) :=
  if N = 0 then .error .overflow else
  .ok ⟨lenTrunc N trunc, fun n => Matrix.of fun i j =>
    (ifft (padLen N) (fun k => (starRingEnd ℂ) (fft N (padLen N) (a i) k) * fft N (padLen N) (b j) k) n).re
      / (N - n)⟩

/-- correlation.py:26-27, `correlation_ND(a)` with `a` of shape `(p, N)`:
`np.conj(fra)[np.newaxis] * fra[:, np.newaxis]`. -/
noncomputable def correlationNDAuto {p : ℕ} (N : ℕ) (a : Fin p → ℕ → ℝ) (trunc : Option ℕ) :
    Except Err (Arr (Mat ℝ p p)) :=
  if N = 0 then .error .overflow else
  .ok ⟨lenTrunc N trunc, fun n => Matrix.of fun i j =>
    (ifft (padLen N) (fun k => (starRingEnd ℂ) (fft N (padLen N) (a j) k) * fft N (padLen N) (a i) k) n).re
      / (N - n)⟩

section
variable {K : Type*} [Field K]

/-- `np.dot(a[:N-n], b[n:])` for series of length `N`. -/
def dotShift (N : ℕ) (a b : ℕ → K) (n : ℕ) : K := ∑ t ∈ range (N - n), a t * b (n + t)

/-- correlation.py:40-52 `correlation_direct_1D`. `res[0]` raises for an empty result. -/
def correlationDirect1D (N : ℕ) (a : ℕ → K) (b : Option (ℕ → K)) (trunc : Option ℕ) : Except Err (Arr K) :=
  if lenTrunc N trunc = 0 then .error .index else
  let b := b.getD a
  let res : ℕ → K := Function.update 0 0 (dotShift N a b 0 / N)
  .ok ⟨lenTrunc N trunc, forRange 1 (lenTrunc N trunc) (fun n res =>
    Function.update res n (dotShift N a b n / ((N : K) - n))) res⟩

/-- correlation.py:56-74 `correlation_direct_ND(a, b)` with `a` of shape `(p, 1, N)` and `b` of shape
`(q, N)`: the product broadcasts to `(p, q, ·)`. -/
def correlationDirectND {p q : ℕ} (N : ℕ) (a : Fin p → ℕ → K) (b : Fin q → ℕ → K) (trunc : Option ℕ) :
    Except Err (Arr (Mat K p q)) :=
  if lenTrunc N trunc = 0 then .error .index else
  let prod : ℕ → Mat K p q := fun n => Matrix.of fun i j => dotShift N (a i) (b j) n / ((N : K) - n)
  .ok ⟨lenTrunc N trunc, forRange 1 (lenTrunc N trunc) (fun n res => Function.update res n (prod n))
    (Function.update 0 0 (Matrix.of fun i j => dotShift N (a i) (b j) 0 / N))⟩

/-- correlation.py:56-74 `correlation_direct_ND(a)` with `a` of shape `(p, N)`: the product `a * b` is
elementwise, of shape `(p, N)`, and its sum of shape `(p,)` is broadcast along the last axis of
`res[:, :, n]`. -/
def correlationDirectNDAuto {p : ℕ} (N : ℕ) (a : Fin p → ℕ → K) (trunc : Option ℕ) :
    Except Err (Arr (Mat K p p)) :=
  if lenTrunc N trunc = 0 then .error .index else
  let prod : ℕ → Mat K p p := fun n => Matrix.of fun _ j => dotShift N (a j) (a j) n / ((N : K) - n)
  .ok ⟨lenTrunc N trunc, forRange 1 (lenTrunc N trunc) (fun n res => Function.update res n (prod n))
    (Function.update 0 0 (Matrix.of fun _ j => dotShift N (a j) (a j) 0 / N))⟩

end

end Verif
