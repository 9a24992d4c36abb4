import Verif.Model.FKernel
import Mathlib.Algebra.Order.Field.Basic
import Mathlib.Algebra.BigOperators.Group.Finset.Basic

/-!
# Model of `solve_ide_*` (fkernel.f90), `evolve_volterra` and `flux_from_volterra` (models.py)

`T` stands for `lenTraj` (the result runs over `0:lenTraj-1`) and `M` for `len_mem` (the kernel has
`M+1` points).
-/

namespace Verif.FKernel

open Verif Finset

variable {K : Type*} [Field K] [DecidableEq K] {o b : ℕ}

/-- fkernel.f90:395-423 `solve_ide_rect`. For `len_mem = 0` the code has `max_len = -1`, for which
`rect_integral` returns zero, as it does for `max_len = 0`: the truncated subtraction is harmless.
`E` is zero-filled on entry, and `lenTraj = 0` would write `E(:,:,0)` out of bounds. -/
def solveIdeRect (M : ℕ) (kernel : ℕ → Mat K b b) (E0 : Mat K o b) (F : Mat K b b) (T : ℕ) (dt : K) :
    Except Err (ℕ → Mat K o b) := do
  if T = 0 then throw .outOfBounds
  let E : ℕ → Mat K o b := Function.update 0 0 E0
  let invK0 ← lapackInv (1 + dt ^ 2 • kernel 0)
  return forRange 1 T (fun i E =>
    let maxLen := min i M - 1
    let memory := rectIntegral dt maxLen (fun k => E (i - maxLen + k)) kernel
    Function.update E i ((E (i - 1) - dt • memory + dt • (E (i - 1) * F)) * invK0)) E

/-- fkernel.f90:425-454 `solve_ide_trapz`. -/
def solveIdeTrapz (M : ℕ) (kernel : ℕ → Mat K b b) (E0 : Mat K o b) (F : Mat K b b) (T : ℕ) (dt : K) :
    Except Err (ℕ → Mat K o b) := do
  if T = 0 then throw .outOfBounds
  let E : ℕ → Mat K o b := Function.update 0 0 E0
  let invK0 ← lapackInv (1 + ((1 / 2 : K) * dt ^ 2) • kernel 0)
  return forRange 1 T (fun i E =>
    let maxLen := min i M
    let memory := trapzIntegral dt maxLen (fun k => E (i - maxLen + k)) kernel
    Function.update E i ((E (i - 1) - dt • memory + dt • (E (i - 1) * F)) * invK0)) E

/-- fkernel.f90:457-489 `solve_ide_trapz_stab`. Line 481 slices the *first* axis of `E`
(`E(i-max_len:i,:,:)`): at `i = 1` this reads index 0 of an axis that starts at 1, later it may read
beyond the end. What is read is not specified by the language, so the values of `memory` are taken
from an arbitrary function `garbage` of the step and of the content of `E`: theorems hold for all
such functions. -/
def solveIdeTrapzStab [LinearOrder K] (garbage : ℕ → (ℕ → Mat K o b) → Mat K o b)
    (kernel : ℕ → Mat K b b) (E0 : Mat K o b) (F : Mat K b b) (T : ℕ) (dt : K) :
    Except Err (ℕ → Mat K o b) := do
  if T = 0 then throw .outOfBounds
  let E : ℕ → Mat K o b := Function.update 0 0 E0
  let invK0 ← lapackInv (1 + ((1 / 2 : K) * dt ^ 2) • kernel 0)
  return forRange 1 T (fun i E =>
    let memory := garbage i E
    let Ei := (E (i - 1) - dt • memory + dt • (E (i - 1) * F)) * invK0
    let Ei := Matrix.of fun k l => max (Ei k l) 0
    Function.update E i (Matrix.of fun k l => Ei k l / ∑ k', ∑ l', Ei k' l')) E

end Verif.FKernel

namespace Verif

open Finset

variable {K : Type*} [Field K] {b : ℕ}

/-- The fields of a `Pos_gle_overdamped` model used by `evolve_volterra`. -/
structure IdeModel (K : Type*) (b : ℕ) where
  forceCoeff : Mat K b b
  kernelLen : ℕ
  kernel : ℕ → Mat K b b
  dt : K

/-- models.py:735-736, the number of kernel points used. -/
def IdeModel.trunc (m : IdeModel K b) (truncInd : Option ℤ) : ℕ :=
  match truncInd with
  | none => m.kernelLen
  | some t => if t ≤ 0 then m.kernelLen else min t.toNat m.kernelLen

/-- models.py:712-746 `evolve_volterra`. The shape checks (lines 729-733) are expressed by the types
(`force_coeff`, the kernel slices and `G0` are `b × b`). An empty kernel is rejected by f2py. When
the method is none of the three, `res` is never assigned. -/
def evolveVolterra [DecidableEq K] [LinearOrder K] (garbage : ℕ → (ℕ → Mat K b b) → Mat K b b)
    (m : IdeModel K b) (G0 : Mat K b b) (T : ℕ) (method : String) (truncInd : Option ℤ) :
    Except Err ((ℕ → K) × (ℕ → Mat K b b)) := do
  let L := m.trunc truncInd
  if L = 0 then throw .value
  let res ← (
    if method = "rect" then FKernel.solveIdeRect (L - 1) m.kernel G0 m.forceCoeff T m.dt
    else if method = "trapz" then FKernel.solveIdeTrapz (L - 1) m.kernel G0 m.forceCoeff T m.dt
    else if method = "trapz_stab" then
      FKernel.solveIdeTrapzStab garbage m.kernel G0 m.forceCoeff T m.dt
    else throw .unbound)
  return (fun i => i * m.dt, res)

/-- models.py:316-346 `flux_from_volterra` with the defaults for everything but the method, for
`rect`, `trapz`; `G` is the array of shape `(dim_other, dim_basis, T)` returned by
`evolve_volterra`. `np.matmul(force_coeff, corrs)` multiplies the matrix `force_coeff` with each of
the matrices `corrs[o]` (rows: basis, columns: time). The slice `corrs[:, :, n-max_len:n]` has
`max_len` points, hence `n = max_len - 1` in `rect_integral` and `trapz_integral`. For another method
(apart from `simpson`, not modelled) the memory term stays zero. The result is
(force term, memory term) as functions of time; time is the last axis of the first array and the
first axis of the second. -/
def fluxFromVolterra (m : IdeModel K b) (G : ℕ → Mat K b b) (T : ℕ) (method : String) :
    (ℕ → Mat K b b) × (ℕ → Mat K b b) :=
  (fun t => Matrix.of fun o k => ∑ j, m.forceCoeff k j * G t o j,
   fun n => if 1 ≤ n ∧ n < T then
      let maxLen := min n m.kernelLen
      if method = "rect" then -FKernel.rectIntegral m.dt (maxLen - 1) (fun k => G (n - maxLen + k)) m.kernel
      else if method = "trapz" then
        -FKernel.trapzIntegral m.dt (maxLen - 1) (fun k => G (n - maxLen + k)) m.kernel
      else 0
    else 0)

end Verif
