import Verif.Model.ComputeKernel
import Mathlib.Data.Matrix.Mul

/-!
# Model of `memory_*`, `corrs_*` (fkernel.f90), `compute_noise` and `compute_corrs_w_noise` (models.py)
-/

namespace Verif.FKernel

open Verif Finset

variable {K : Type*} [Field K] {b x o : ℕ}

/-- fkernel.f90:296-314 `memory_rect`. `L = lenTraj`, `M = len_mem`: the trajectory has `L+1` points
and the kernel `M+1`. `matmul(E(i-j,:), kernel(j,:,:))` is a vector-matrix product. -/
def memoryRect (L M : ℕ) (kernel : ℕ → Mat K b x) (E : ℕ → Fin b → K) (dt : K) : ℕ → Fin x → K :=
  forRange 1 (L + 1) (fun i memory =>
    forRange 0 (min i M + 1) (fun j memory =>
      Function.update memory i (memory i - dt • Matrix.vecMul (E (i - j)) (kernel j))) memory) 0

/-- fkernel.f90:316-336 `memory_trapz`. -/
def memoryTrapz (L M : ℕ) (kernel : ℕ → Mat K b x) (E : ℕ → Fin b → K) (dt : K) : ℕ → Fin x → K :=
  forRange 1 (L + 1) (fun i memory =>
    let memory := Function.update memory i (-((1 / 2 : K) * dt) • Matrix.vecMul (E i) (kernel 0))
    let memory := forRange 1 (min (i - 1) M + 1) (fun j memory =>
      Function.update memory i (memory i - dt • Matrix.vecMul (E (i - j)) (kernel j))) memory
    Function.update memory i
      (memory i - ((1 / 2 : K) * dt) • Matrix.vecMul (E (i - min i M)) (kernel (min i M)))) 0

/-- fkernel.f90:354-358 (and 382-386): `corrs(n,k,l) = sum(left_op(:L-n,k)*noise(:L-n,l)) / (L-n+1)`.
For `n > L` the code divides zero by zero or by a negative number; every theorem assumes `n ≤ L`. -/
def noiseCorr (L n : ℕ) (left : ℕ → Fin o → K) (noise : ℕ → Fin x → K) : Mat K o x :=
  Matrix.of fun k l => (∑ t ∈ range (L + 1 - n), left t k * noise t l) / ((L : K) - n + 1)

/-- fkernel.f90:338-363 `corrs_rect`. The state is `(corrs, noise)`. The array assignment
`noise(:L-n-1,:) = noise(1:L-n,:) + ...` evaluates its right hand side first. -/
def corrsRect (L M : ℕ) (noiseInit : ℕ → Fin x → K) (kernel : ℕ → Mat K b x) (E : ℕ → Fin b → K)
    (left : ℕ → Fin o → K) (dt : K) : ℕ → Mat K o x :=
  (forRange 0 (M + 1) (fun n (s : (ℕ → Mat K o x) × (ℕ → Fin x → K)) =>
    (Function.update s.1 n (noiseCorr L n left s.2),
      fun t => if t + n + 1 ≤ L then s.2 (t + 1) + dt • Matrix.vecMul (E (t + 1)) (kernel n) else s.2 t))
    (0, noiseInit)).1

/-- fkernel.f90:365-391 `corrs_trapz`. -/
def corrsTrapz (L M : ℕ) (noiseInit : ℕ → Fin x → K) (kernel : ℕ → Mat K b x) (E : ℕ → Fin b → K)
    (left : ℕ → Fin o → K) (dt : K) : ℕ → Mat K o x :=
  (forRange 0 M (fun n (s : (ℕ → Mat K o x) × (ℕ → Fin x → K)) =>
    (Function.update s.1 n (noiseCorr L n left s.2),
      fun t => if t + n + 1 ≤ L then s.2 (t + 1) + ((1 / 2 : K) * dt) • Matrix.vecMul (E (t + 1)) (kernel n)
        + ((1 / 2 : K) * dt) • Matrix.vecMul (E t) (kernel (n + 1)) else s.2 t))
    (0, noiseInit)).1

end Verif.FKernel

namespace Verif

open Finset

variable {K : Type*} [Field K] {bf b x o : ℕ}

/-- A trajectory as seen by the models: the time axis, the observable `xva[L_obs]` and the values
of the two bases returned by `basis_vector(xva)` (after `matmulPrange` if there is a rank
projection). The basis functions are evaluated point by point, so that a slice of the trajectory
has the slice of these arrays. `obsDim` is the name of the second dimension of the observable. -/
structure Traj (K : Type*) (bf b x : ℕ) where
  len : ℕ
  time : ℕ → K
  obs : ℕ → Fin x → K
  Eforce : ℕ → Fin bf → K
  E : ℕ → Fin b → K
  obsDim : String

/-- models.py:156 `xva.isel(time=slice(start_point, end_point))`, non-negative bounds. -/
def Traj.isel (t : Traj K bf b x) (start : ℕ) (stop : Option ℕ) : Traj K bf b x where
  len := min (stop.getD t.len) t.len - start
  time := fun k => t.time (start + k)
  obs := fun k => t.obs (start + k)
  Eforce := fun k => t.Eforce (start + k)
  E := fun k => t.E (start + k)
  obsDim := t.obsDim

/-- The fields of a model used to compute the noise. -/
structure NoiseModel (K : Type*) (bf b x : ℕ) where
  forceCoeff : Option (Mat K bf x)
  kernel : Option (KernelData K b x)
  method : Option String
  truncInd : ℕ

/-- models.py:162 `xr.dot(E_force, force_coeff, dims=["dim_basis", "dim_x"])`, subtracted from the
observable with dimensions `(time, obsDim)`. The coefficients have dimensions `(dim_basis, obsDim)`:
when `obsDim` is `"dim_x"` it is summed over and the result, with dimension `time` only, is
broadcast to all components. -/
def noiseForce (obsDim : String) (coeff : Mat K bf x) (Ef : ℕ → Fin bf → K) : ℕ → Fin x → K :=
  fun t l => if obsDim = "dim_x" then ∑ k, ∑ d, Ef t k * coeff k d else ∑ k, Ef t k * coeff k l

/-- What `compute_noise` returns. -/
structure NoiseOut (K : Type*) (x : ℕ) where
  len : ℕ
  time : ℕ → K
  noise : ℕ → Fin x → K
  obs : ℕ → Fin x → K
  force : ℕ → Fin x → K
  memory : ℕ → Fin x → K

/-- models.py:163 and 202. -/
def isRectMethod (method : Option String) : Prop :=
  method ∈ [some "rect", some "rectangular", some "second_kind_rect"] ∨ method = none

instance (method : Option String) : Decidable (isRectMethod method) := by
  unfold isRectMethod; infer_instance

/-- models.py:165 and 204. -/
def isTrapzMethod (method : Option String) : Prop :=
  method = some "trapz" ∨ method = some "second_kind_trapz"

instance (method : Option String) : Decidable (isTrapzMethod method) := by
  unfold isTrapzMethod; infer_instance

/-- models.py:138-169 `compute_noise`, for `trunc_kernel ≥ 1` points of the kernel (with an empty
kernel f2py rejects the array). `self.kernel[:trunc_kernel]` raises `TypeError` without a kernel. -/
def computeNoise (m : NoiseModel K bf b x) (xva : Traj K bf b x) (truncKernel : Option ℕ)
    (start : ℕ) (stop : Option ℕ) : Except Err (NoiseOut K x) := do
  let coeff ← (match m.forceCoeff with
    | none => .error (.exception "Mean force has not been computed.")
    | some c => .ok c : Except Err (Mat K bf x))
  let trunc := truncKernel.getD m.truncInd
  if xva.len = 0 then throw .index
  let time0 := xva.time 0
  let xva := xva.isel start stop
  let time := fun k => xva.time k - time0
  if xva.len < 2 then throw .index
  let dt := time 1 - time 0
  let force := noiseForce xva.obsDim coeff xva.Eforce
  let memory ← (
    if isRectMethod m.method then
      match m.kernel with
      | none => throw .type
      | some k => if min trunc k.kernel.len = 0 then throw .value
        else pure (FKernel.memoryRect (xva.len - 1) (min trunc k.kernel.len - 1) k.kernel.get xva.E dt)
    else if isTrapzMethod m.method then
      match m.kernel with
      | none => throw .type
      | some k => if min trunc k.kernel.len = 0 then throw .value
        else pure (FKernel.memoryTrapz (xva.len - 1) (min trunc k.kernel.len - 1) k.kernel.get xva.E dt)
    else throw .value : Except Err (ℕ → Fin x → K))
  return { len := xva.len, time := time, noise := fun t => xva.obs t - force t - memory t,
           obs := xva.obs, force := force, memory := memory }

/-- The part `left_op` of `compute_corrs_w_noise` (models.py:193-200): the noise itself, or an
array (a column of the data set, the value of a callable, or an array given by the user). -/
inductive LeftOp (K : Type*) (x o : ℕ)
  | noise (h : o = x)
  | array (a : ℕ → Fin o → K)

/-- The values of the left operator. -/
def LeftOp.values (l : LeftOp K x o) (noise : ℕ → Fin x → K) : ℕ → Fin o → K :=
  match l with
  | .noise h => fun t i => noise t (Fin.cast h i)
  | .array a => a

/-- models.py:171-207 `compute_corrs_w_noise`: the times and the correlations. -/
def computeCorrsWNoise (m : NoiseModel K bf b x) (xva : Traj K bf b x) (left : LeftOp K x o) :
    Except Err (Arr K × Arr (Mat K o x)) := do
  let coeff ← (match m.forceCoeff with
    | none => .error (.exception "Mean force has not been computed.")
    | some c => .ok c : Except Err (Mat K bf x))
  let k ← (match m.kernel with
    | none => .error (.exception "Kernel has not been computed.")
    | some k => .ok k : Except Err (KernelData K b x))
  if xva.len < 2 then throw .index
  let dt := xva.time 1 - xva.time 0
  let noise : ℕ → Fin x → K := fun t l => xva.obs t l - ∑ k, xva.Eforce t k * coeff k l
  let leftDat := left.values noise
  if isRectMethod m.method then
    return (k.time, ⟨k.kernel.len,
      FKernel.corrsRect (xva.len - 1) (k.kernel.len - 1) noise k.kernel.get xva.E leftDat dt⟩)
  else if isTrapzMethod m.method then
    return (⟨k.time.len - 1, k.time.get⟩, ⟨k.kernel.len - 1,
      FKernel.corrsTrapz (xva.len - 1) (k.kernel.len - 1) noise k.kernel.get xva.E leftDat dt⟩)
  else throw .value

end Verif
