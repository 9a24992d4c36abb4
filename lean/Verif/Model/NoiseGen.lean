import Verif.Model.Correlation
import Verif.Model.Integrate
import Mathlib.Analysis.SpecialFunctions.Pow.Real
import Mathlib.Analysis.SpecialFunctions.Sqrt

/-!
# Model of the noise generators of gle_integrate.py
-/

namespace Verif

open Finset

/-- gle_integrate.py:105-118 `KarhunenLoeveNoiseGenerator.generate` for a matrix of `n` rows, with the results of
`np.linalg.eig` and the white noise given. -/
noncomputable def klGenerate {n : ℕ} (eigvals : Fin n → ℝ) (eigvect : Mat ℝ n n) (dt : ℝ) (size : Option ℕ) (white : Fin n → ℝ) :
    Except Err (Arr ℝ) :=
  let size := size.getD n
  if n < size then .error .value
  else .ok ⟨size, fun i => if h : i < n then
    (eigvect.mulVec ((Matrix.diagonal fun k => √(eigvals k)).mulVec white)) ⟨i, h⟩ * √dt else 0⟩

/-- `np.fft.fftfreq(M)`. -/
noncomputable def fftfreq (M k : ℕ) : ℝ := (if k < (M + 1) / 2 then (k : ℝ) else (k : ℝ) - M) / M

/-- gle_integrate.py:48 and 53: `np.concatenate((s * f[:0:-1], f))` for `N` points. -/
def symmetrise (s : ℝ) (N : ℕ) (f : ℕ → ℝ) (i : ℕ) : ℝ := if i < N - 1 then s * f (N - 1 - i) else f (i - (N - 1))

/-- gle_integrate.py:48-56 with `ft` and `ift` (lines 5-16): the filter `sqk[:, d, d]` of a kernel of `N ≥ 2`
points. `np.sqrt` of a complex number is the principal root. -/
noncomputable def colouredFilter (N : ℕ) (kernel t : ℕ → ℝ) (n : ℕ) : ℝ :=
  let M := 2 * N - 1
  let tS := symmetrise (-1) N t
  let w : ℕ → ℝ := fun k => 2 * Real.pi * fftfreq M k / (tS 1 - tS 0)
  let kft : ℕ → ℂ := fun k => fft M M (symmetrise 1 N kernel) k * (((tS 1 - tS 0 : ℝ) : ℂ) * Complex.exp (-(Complex.I * w k * tS 0)))
  let s : ℕ → ℂ := fun k => kft k ^ (1 / 2 : ℂ)
  let f : ℕ → ℂ := fun k => s k * Complex.exp (Complex.I * w k * tS 0)
  (ifft M f n * (M * ((w 1 - w 0 : ℝ) : ℂ) / (2 * Real.pi))).re

/-- gle_integrate.py:58-63 `ColoredNoiseGenerator.generate(S)`, one component: `np.convolve(.., mode="same")` of
`S` white numbers with a filter of `M`, the first `S` values. -/
noncomputable def colouredGenerate (S M : ℕ) (filter : ℕ → ℝ) (dt : ℝ) (white : ℕ → ℝ) (n : ℕ) : ℝ :=
  let start := (min S M - 1) / 2
  (∑ j ∈ range M, if j ≤ n + start ∧ n + start - j < S then white (n + start - j) * filter j else 0) * √dt

end Verif
