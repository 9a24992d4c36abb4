import Verif.Model.NoiseGen

/-!
# Model of `ft`, `ift` and `PosColoredNoiseGenerator` (gle_integrate.py)
-/

namespace Verif

open Finset

/-- An array of numbers with its `dtype`. -/
inductive NumArr
  | real (a : Arr ℝ)
  | complex (a : Arr ℂ)

namespace NumArr

def len : NumArr → ℕ
  | real a => a.len
  | complex a => a.len

def get : NumArr → ℕ → ℂ
  | real a, i => (a.get i : ℂ)
  | complex a, i => a.get i

end NumArr

/-- `np.fft.fft` of `n` complex numbers. -/
noncomputable def fftC (n : ℕ) (f : ℕ → ℂ) (k : ℕ) : ℂ :=
  ∑ j ∈ range n, f j * Complex.exp (-(2 * Real.pi * Complex.I * k * j / n))

/-- gle_integrate.py:5-9 `ft`: the transform and the frequencies. `fftfreq(0)` divides by zero; `t[1]` needs two times. -/
noncomputable def ft (f : NumArr) (t : Arr ℝ) : Except Err (Arr ℂ × Arr ℝ) :=
  if f.len = 0 then .error .zeroDivision
  else if t.len < 2 then .error .index
  else
    let w : ℕ → ℝ := fun k => 2 * Real.pi * fftfreq f.len k / (t.get 1 - t.get 0)
    .ok (⟨f.len, fun k => fftC f.len f.get k * (((t.get 1 - t.get 0 : ℝ) : ℂ) * Complex.exp (-(Complex.I * w k * t.get 0)))⟩, ⟨f.len, w⟩)

/-- gle_integrate.py:12-16 `ift`: the result and what is then in the array `f`, which is modified in place. The
product with complex numbers cannot be stored in a real array: `UFuncTypeError`, a `TypeError`. -/
noncomputable def ift (f : NumArr) (w t : Arr ℝ) : Except Err (Arr ℂ × Arr ℂ) :=
  if t.len = 0 then .error .index
  else match f with
    | .real _ => .error .type
    | .complex f =>
      if w.len ≠ f.len ∧ w.len ≠ 1 then .error .value
      else if f.len = 0 then .error .value
      else if w.len < 2 then .error .index
      else
        let f' : ℕ → ℂ := fun k => f.get k * Complex.exp (Complex.I * w.get k * t.get 0)
        .ok (⟨f.len, fun n => ifft f.len f' n * (f.len * ((w.get 1 - w.get 0 : ℝ) : ℂ) / (2 * Real.pi))⟩, ⟨f.len, f'⟩)

/-- What `PosColoredNoiseGenerator.__init__` (gle_integrate.py:128-158) keeps: the symmetric times, the transforms
`kernel_ft[:, k, d]`, which are stored in a real array (line 152), so that the imaginary part is dropped, and the frequencies. -/
structure PosNoise (nK dim : ℕ) where
  tSym : Arr ℝ
  kernelFt : Fin nK → Fin dim → Arr ℝ
  w : Arr ℝ

/-- gle_integrate.py:45-46 and 143-158: the construction from a kernel of `T` points; `L` times. The transforms have
`2T-1` values and have to fit into the `2L-1` of the array. -/
noncomputable def posNoiseInit {nK dim : ℕ} (t : Arr ℝ) (T : ℕ) (kernel : ℕ → Fin nK → Fin dim → ℝ) : Except Err (PosNoise nK dim) :=
  if t.len < 2 then .error .index
  else if nK = 0 ∨ dim = 0 then .ok ⟨⟨2 * t.len - 1, symmetrise (-1) t.len t.get⟩, fun _ _ => ⟨0, 0⟩, ⟨0, 0⟩⟩
  else if T = 0 then .error .zeroDivision
  else if T ≠ t.len then .error .value
  else
    let tS : Arr ℝ := ⟨2 * t.len - 1, symmetrise (-1) t.len t.get⟩
    let one : Fin nK → Fin dim → Except Err (Arr ℂ × Arr ℝ) := fun k d => ft (.real ⟨2 * T - 1, symmetrise 1 T fun i => kernel i k d⟩) tS
    .ok ⟨tS, fun k d => match one k d with
        | .ok (g, _) => ⟨g.len, fun i => (g.get i).re⟩
        | .error _ => ⟨0, 0⟩,
      ⟨2 * T - 1, fun k => 2 * Real.pi * fftfreq (2 * T - 1) k / (tS.get 1 - tS.get 0)⟩⟩

/-- gle_integrate.py:167-179 `PosColoredNoiseGenerator.generate(E_noise, ind)`, with `E_noise` of shape `(k, l)`: the
filters `sqk` of the components, up to which nothing random is used. `np.sqrt` of a real array is a real array
(and `nan` where it is negative; here zero). -/
noncomputable def posNoiseFilters {nK dim : ℕ} (G : PosNoise nK dim) (k l : ℕ) (E : ℕ → ℕ → ℝ) : Except Err (List (Arr ℂ × Arr ℂ)) :=
  if k ≠ nK then .error .value
  else (List.finRange dim).mapM fun (d : Fin dim) =>
    if l ≤ d.val then .error .index
    else ift (.real ⟨G.tSym.len, fun i => √(∑ κ : Fin nK, E κ d.val * (G.kernelFt κ d).get i)⟩) G.w G.tSym

end Verif
