import Verif.Model.Prelude

/-!
# Model of `VolterraBasis/fkernel.f90`: quadratures and Volterra inversion

`L` stands for `lenTraj`: the arrays run over `0:lenTraj`. Time is the argument of the function
modelling the array, the other two Fortran indices are the matrix indices. A slice `B(:,:,a:b)`
passed to a subroutine which declares it as `0:n` is the function `fun k => B (a + k)`.
-/

namespace Verif.FKernel

open Verif

variable {K : Type*} [Field K]

/-- fkernel.f90:34-46 `rect_integral`. -/
def rectIntegral {o b x : ℕ} (dt : K) (n : ℕ) (B : ℕ → Mat K o b) (ker : ℕ → Mat K b x) : Mat K o x :=
  forRange 0 n (fun j res => res + dt • (B (n - j) * ker j)) 0

/-- fkernel.f90:49-61 `midpoint_integral`. -/
def midpointIntegral {o b x : ℕ} (dt : K) (n : ℕ) (B : ℕ → Mat K o b) (ker : ℕ → Mat K b x) : Mat K o x :=
  forRange 0 n (fun j res => res + dt • (B (2 * (n - j)) * ker j)) 0

/-- fkernel.f90:65-77 `trapz_integral`. -/
def trapzIntegral {o b x : ℕ} (dt : K) (n : ℕ) (B : ℕ → Mat K o b) (ker : ℕ → Mat K b x) : Mat K o x :=
  forRange 1 n (fun j res => res + dt • (B (n - j) * ker j)) (((1 / 2 : K) * dt) • (B n * ker 0))

/-- fkernel.f90:80-105 `simpson_integral`, for `1 ≤ n` (for `n = 0` the code reads `B(:,:,1)` and
`kernel(-1,:,:)`, which do not exist). `do j = start_j, n-2, 2`. -/
def simpsonIntegral {o b x : ℕ} (dt : K) (n : ℕ) (B : ℕ → Mat K o b) (ker : ℕ → Mat K b x) : Mat K o x :=
  let h := dt / 3
  let start : Mat K o x × ℕ :=
    if n % 2 = 1 then
      (((1 / 2 : K) * dt) • (B n * ker 0) + ((1 / 2 : K) * dt + h) • (B (n - 1) * ker 1), 2)
    else (h • (B n * ker 0), 1)
  let res := forStep2 start.2 (n - 1) (fun j res =>
    res + (4 * h) • (B (n - j) * ker j) + (2 * h) • (B (n - j - 1) * ker (j + 1))) start.1
  res + (4 * h) • (B 1 * ker (n - 1))

variable [DecidableEq K]

/-- fkernel.f90:108-130 `kernel_first_kind_rect`. The result array runs over `0:lenTraj`, entries
never written are zero (f2py zero-fills). `lenTraj = 0` would read `B(:,:,1)` out of bounds. -/
def firstKindRect {b x : ℕ} (L : ℕ) (B : ℕ → Mat K b b) (DxB : ℕ → Mat K b x) (dt : K) :
    Except Err (ℕ → Mat K b x) := do
  if L = 0 then throw .outOfBounds
  let invB0 ← lapackInv (dt • B 1)
  let ker : ℕ → Mat K b x := Function.update 0 0 ((-1 : K) • (invB0 * DxB 1))
  return forRange 1 L (fun i ker =>
    let num := rectIntegral dt i (fun k => B (1 + k)) ker
    Function.update ker i ((-1 : K) • (invB0 * (num + DxB (i + 1))))) ker

/-- fkernel.f90:132-154 `kernel_first_kind_midpoint`. The result array runs over
`0:(lenTraj-1)/2`. -/
def firstKindMidpoint {b x : ℕ} (L : ℕ) (B : ℕ → Mat K b b) (DxB : ℕ → Mat K b x) (dt : K) :
    Except Err (ℕ → Mat K b x) := do
  if L = 0 then throw .outOfBounds
  let invB0 ← lapackInv ((2 * dt) • B 1)
  let ker : ℕ → Mat K b x := Function.update 0 0 ((-1 : K) • (invB0 * DxB 1))
  return forRange 1 (L / 2) (fun i ker =>
    let num := midpointIntegral (2 * dt) i (fun k => B (0 + k)) ker
    Function.update ker i ((-1 : K) • (invB0 * (num + DxB (2 * i + 1))))) ker

/-- fkernel.f90:156-179 `kernel_first_kind_trapz`. The result array runs over `0:lenTraj`. -/
def firstKindTrapz {b x : ℕ} (L : ℕ) (k0 : Mat K b x) (B : ℕ → Mat K b b) (DxB : ℕ → Mat K b x)
    (dt : K) : Except Err (ℕ → Mat K b x) := do
  let invB0 ← lapackInv (((1 / 2 : K) * dt) • B 0)
  let ker : ℕ → Mat K b x := Function.update 0 0 k0
  return forRange 1 (L + 1) (fun i ker =>
    let num := trapzIntegral dt i B ker
    Function.update ker i ((-1 : K) • (invB0 * (num + DxB i)))) ker

/-- fkernel.f90:181-208 `kernel_first_kind_simpson`. `lenTraj = 0` would write `kernel(1,:,:)` out
of bounds. -/
def firstKindSimpson {b x : ℕ} (L : ℕ) (k0 : Mat K b x) (B : ℕ → Mat K b b) (DxB : ℕ → Mat K b x)
    (dt : K) : Except Err (ℕ → Mat K b x) := do
  if L = 0 then throw .outOfBounds
  let invB0 ← lapackInv (((1 / 2 : K) * dt) • B 0)
  let ker : ℕ → Mat K b x := Function.update 0 0 k0
  let ker := Function.update ker 1
    (invB0 * ((-1 : K) • DxB 1 - ((1 / 2 : K) * dt) • (B 1 * ker 0)))
  let invB0 ← lapackInv ((dt / 3) • B 0)
  return forRange 2 (L + 1) (fun i ker =>
    let num := simpsonIntegral dt i B ker
    Function.update ker i ((-1 : K) • (invB0 * (num + DxB i)))) ker

/-- fkernel.f90:211-235 `kernel_second_kind_rect`. -/
def secondKindRect {b x : ℕ} (L : ℕ) (k0 : Mat K b x) (B0 : Mat K b b) (Bdot : ℕ → Mat K b b)
    (DxBdot : ℕ → Mat K b x) (dt : K) : Except Err (ℕ → Mat K b x) := do
  let invB0 ← lapackInv B0
  let ker : ℕ → Mat K b x := Function.update 0 0 k0
  return forRange 1 (L + 1) (fun i ker =>
    let num := rectIntegral dt i Bdot ker
    Function.update ker i (invB0 * (num + DxBdot i))) ker

/-- fkernel.f90:238-262 `kernel_second_kind_trapz`. -/
def secondKindTrapz {b x : ℕ} (L : ℕ) (k0 : Mat K b x) (B0 : Mat K b b) (Bdot : ℕ → Mat K b b)
    (DxBdot : ℕ → Mat K b x) (dt : K) : Except Err (ℕ → Mat K b x) := do
  let invB0 ← lapackInv (B0 - ((1 / 2 : K) * dt) • Bdot 0)
  let ker : ℕ → Mat K b x := Function.update 0 0 k0
  return forRange 1 (L + 1) (fun i ker =>
    let num := trapzIntegral dt i Bdot ker
    Function.update ker i (invB0 * (num + DxBdot i))) ker

/-- fkernel.f90:265-290 `kernel_second_kind_simpson`. -/
def secondKindSimpson {b x : ℕ} (L : ℕ) (k0 : Mat K b x) (B0 : Mat K b b) (Bdot : ℕ → Mat K b b)
    (DxBdot : ℕ → Mat K b x) (dt : K) : Except Err (ℕ → Mat K b x) := do
  if L = 0 then throw .outOfBounds
  let invB0 ← lapackInv (B0 + ((1 / 2 : K) * dt) • Bdot 0)
  let ker : ℕ → Mat K b x := Function.update 0 0 k0
  let ker := Function.update ker 1
    (invB0 * (DxBdot 1 + ((1 / 2 : K) * dt) • (Bdot 1 * ker 0)))
  let invB0 ← lapackInv (B0 + (dt / 3) • Bdot 0)
  return forRange 2 (L + 1) (fun i ker =>
    let num := simpsonIntegral dt i Bdot ker
    Function.update ker i (invB0 * (num + DxBdot i))) ker

end Verif.FKernel
