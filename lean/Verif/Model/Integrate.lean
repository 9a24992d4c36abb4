import Verif.Model.ComputeKernel
import Mathlib.Data.Matrix.Mul

/-!
# Model of gle_integrate.py
-/

namespace Verif

open Finset

/-- What the integrators hold (gle_integrate.py:193-247): the functions of the basis, the coefficients, the
kernel of `kernel.len` points (`trunc_kernel`, line 224) and the time step. `nB` is the number of functions of
the force, `nD` that of the kernel before the projection, `b` after it. -/
structure Integrator (K : Type*) (d nB nD b : ℕ) where
  /-- `basis.basis` at a point -/
  basis : (Fin d → K) → Fin nB → K
  /-- the functions of position and velocity on which the memory acts, before the projection; see
  `gleVec` and `constVec` -/
  vec : (Fin d → K) → (Fin d → K) → Fin nD → K
  /-- `P_range`; the identity when there is no rank projection (then the code does not multiply) -/
  proj : Mat K b nD
  forceCoeff : Mat K nB d
  kernel : Arr (Mat K b d)
  dt : K

section
variable {K : Type*} [Field K] {d nB nD b : ℕ}

/-- gle_integrate.py:264-265, `Integrator_gle.basis_vector`: `np.einsum("nld,nd->nl", dbk, v)`. -/
def gleVec (deriv : (Fin d → K) → Fin nD → Fin d → K) (x v : Fin d → K) : Fin nD → K :=
  fun l => ∑ i, deriv x l i * v i

/-- gle_integrate.py:351-357, `Integrator_gle_const_kernel.basis_vector`: the velocity. -/
def constVec (_x v : Fin d → K) : Fin d → K := v

namespace Integrator

variable (I : Integrator K d nB nD b)

/-- gle_integrate.py:262-268 and 351-357 `basis_vector`, the part `E`. -/
def E (x v : Fin d → K) : Fin b → K := I.proj.mulVec (I.vec x v)

/-- gle_integrate.py:270-273 `_mem_int_red(E[:n])`: `E` is the whole array of which the first `n` rows are
passed. `IndexError` from `E[start_trunc]` when the kernel has fewer than two points, or without rows. -/
def memIntRed (E : ℕ → Fin b → K) (n : ℕ) : Except Err (Fin d → K) :=
  if I.kernel.len < 2 ∨ n = 0 then .error .index
  else
    let loc := min n (I.kernel.len - 1)
    let start := n - loc
    .ok (I.dt • (∑ i ∈ range (loc - 1), Matrix.vecMul (E (n - 1 - i)) (I.kernel.get (1 + i))) +
      ((1 / 2 : K) * I.dt) • Matrix.vecMul (E start) (I.kernel.get loc))

/-- gle_integrate.py:275-281 `_f_rk`: the derivatives of position and velocity. -/
def fRk (x v rmi fr : Fin d → K) (alpha : K) (lastE : Fin b → K) (lastRmi : Fin d → K) : (Fin d → K) × (Fin d → K) :=
  let mem := alpha • (lastRmi + ((1 / 2 : K) * I.dt) • Matrix.vecMul lastE (I.kernel.get 0)) +
    (1 - alpha) • (rmi + ((1 / 2 : K) * I.dt) • Matrix.vecMul (I.E x v) (I.kernel.get 0))
  (v, Matrix.vecMul (I.basis x) I.forceCoeff + fr - mem)

/-- gle_integrate.py:283-289 `_rk_step`: the new position and velocity. -/
def rkStep (x v rmi fr : Fin d → K) (lastE : Fin b → K) (lastRmi : Fin d → K) : (Fin d → K) × (Fin d → K) :=
  let k1 := I.fRk x v rmi fr 1 lastE lastRmi
  let k2 := I.fRk (x + (I.dt / 2) • k1.1) (v + (I.dt / 2) • k1.2) rmi fr (1 / 2) lastE lastRmi
  let k3 := I.fRk (x + (I.dt / 2) • k2.1) (v + (I.dt / 2) • k2.2) rmi fr (1 / 2) lastE lastRmi
  let k4 := I.fRk (x + I.dt • k3.1) (v + I.dt • k3.2) rmi fr 0 lastE lastRmi
  let a := (1 / 6 : K) • (k1.2 + (2 : K) • k2.2 + (2 : K) • k3.2 + k4.2)
  (x + (I.dt / 6) • (k1.1 + (2 : K) • k2.1 + (2 : K) • k3.1 + k4.1), v + I.dt • a)

end Integrator

/-- The initial data given to `run`: a dataset with `n` frames. -/
structure InitData (K : Type*) (d : ℕ) where
  n : ℕ
  time : ℕ → K
  x : ℕ → Fin d → K
  v : ℕ → Fin d → K

/-- What `run` returns: `n` frames. -/
structure Trj (K : Type*) (d : ℕ) where
  n : ℕ
  time : ℕ → K
  x : ℕ → Fin d → K
  v : ℕ → Fin d → K

/-- The variables of the loop of `run`. -/
structure RunState (K : Type*) (d b : ℕ) where
  x : Fin d → K
  v : Fin d → K
  rmi : Fin d → K
  xs : ℕ → Fin d → K
  vs : ℕ → Fin d → K
  E : ℕ → Fin b → K

namespace Integrator

variable (I : Integrator K d nB nD b)

/-- gle_integrate.py:320-330: the body of the loop of `run`. -/
def runStep (noise : ℕ → Fin d → K) (ind : ℕ) (s : RunState K d b) : Except Err (RunState K d b) := do
  let lastRmi := s.rmi
  let lastE := s.E (ind - 1)
  let rmi ← I.memIntRed s.E ind
  let xv := I.rkStep s.x s.v rmi (noise ind) lastE lastRmi
  return { x := xv.1, v := xv.2, rmi := rmi, xs := Function.update s.xs ind xv.1, vs := Function.update s.vs ind xv.2,
           E := Function.update s.E ind (I.E xv.1 xv.2) }

/-- A loop whose body can raise. -/
def _root_.Verif.forRangeE {σ : Type*} (lo hi : ℕ) (body : ℕ → σ → Except Err σ) (s : σ) : Except Err σ :=
  (List.range' lo (hi - lo)).foldlM (fun s i => body i s) s

/-- gle_integrate.py:300-306: the array of zeros of which the first rows are set to the initial data. -/
def _root_.Verif.initRows (x0 : Option (InitData K d)) (f : InitData K d → ℕ → Fin d → K) (t : ℕ) : Fin d → K :=
  match x0 with
  | some D => if t < D.n then f D t else 0
  | none => 0

/-- gle_integrate.py:312 and 316-317: `rmi` before the loop. -/
def firstRmi (E : ℕ → Fin b → K) (n0 : ℕ) : Except Err (Fin d → K) :=
  if 1 < n0 then I.memIntRed E (n0 - 1) else .ok 0

/-- gle_integrate.py:291-332 `run`. `noise` is the array of zeros or the result of the noise generator.
xarray's assignment `trj["x"][:n_0] = x0["x"]` compares the time coordinates (`IndexError` if they differ, also
when `x0` has more than `n_steps` frames). Without frames `isel(time=[0])` (or the memory integral) is an
`IndexError`. -/
def run [DecidableEq K] (nSteps : ℕ) (x0 : Option (InitData K d)) (noise : ℕ → Fin d → K) : Except Err (Trj K d) := do
  let n0 := (x0.map (·.n)).getD 1
  let xs := initRows x0 (·.x)
  let vs := initRows x0 (·.v)
  if nSteps < n0 ∨ n0 = 0 then throw .index
  if (x0.map fun D => (List.range D.n).all fun t => decide (D.time t = t * I.dt)) = some false then throw .index
  let E := fun t => if t < n0 then I.E (xs t) (vs t) else 0
  let rmi ← I.firstRmi E n0
  let s ← forRangeE n0 nSteps (I.runStep noise)
    { x := xs (n0 - 1), v := vs (n0 - 1), rmi := rmi, xs := xs, vs := vs, E := E }
  return { n := nSteps, time := fun t => ((n0 - 1 : ℕ) + t : K) * I.dt, x := s.xs, v := s.vs }

end Integrator

/-! ### Noise -/

/-- gle_integrate.py:74-87 `generate_stationary_covariancematrix`, for a kernel of `N` points; `IndexError` from
`cov_mat[:, 0]` without points. `back` is `backward_kernel`, supposed to have `N - 1` points; the default is
`kernel[:0:-1]`. `kernel_sym[N - n - 1 : -n]` has `N` entries. -/
def stationaryCov (N : ℕ) (kernel : ℕ → K) (back : Option (ℕ → K)) : Except Err (ℕ → ℕ → K) :=
  let back : ℕ → K := back.getD fun i => kernel (N - 1 - i)
  let sym : ℕ → K := fun i => if i < N - 1 then back i else kernel (i - (N - 1))
  if N = 0 then .error .index
  else .ok (forRange 1 N (fun n (cov : ℕ → ℕ → K) => fun i j => if j = n then sym (N - n - 1 + i) else cov i j)
    fun i j => if j = 0 then kernel i else 0)

end

/-! ### Construction -/

/-- The lengths of the arrays of `ColoredNoiseGenerator.__init__`, gle_integrate.py:39-56: `L` times, a kernel of
`T` points and of shape `(l, dim)`. `self.t[1]`, the diagonal entries `[d, d]` and `w[1]` raise `IndexError`,
`fftfreq(0)` divides by zero, and `self.sqk[:, d, d] = ..` needs `2T-1 = 2L-1` values. -/
def colouredInit (L T l dim : ℕ) : Except Err Unit :=
  if L < 2 then .error .index
  else if dim = 0 then .ok ()
  else if l = 0 then .error .index
  else if T = 0 then .error .zeroDivision
  else if T = 1 then .error .index
  else if T ≠ L then .error .value
  else if l < dim then .error .index
  else .ok ()

/-- The part of a fitted model that the constructor of the integrators looks at: the length and the shape
`(nK, dim)` of the kernel, `trunc_ind`, and the shape of `inv_mass_coeff` if it has been computed. -/
structure IntModel where
  kernelLen : ℕ
  nK : ℕ
  dim : ℕ
  truncInd : ℕ
  invMass : Option (ℕ × ℕ)

/-- gle_integrate.py:196-219: the length of the kernel and the shape of the noise kernel. With a model the kernel is
cut at `trunc_kernel` (lines 235-239) and `coeffs` defaults to `inv_mass_coeff`; without one, the shape of the
kernel comes from the keyword arguments. `einsum` of `None` is a `TypeError`, of arrays that do not fit a
`ValueError`. -/
def noiseShape (model : Option IntModel) (kernelArg : ℕ × ℕ × ℕ) (coeffs : Option (ℕ × ℕ)) (trunc : Option ℕ) :
    Except Err (ℕ × ℕ × ℕ) :=
  match model with
  | some m =>
    let T := min (trunc.getD m.truncInd) m.kernelLen
    match (coeffs <|> m.invMass) with
    | none => .error .type
    | some (k, l) => if k = m.nK then .ok (T, l, m.dim) else .error .value
  | none =>
    match coeffs with
    | none => .ok kernelArg
    | some (k, l) => if k = kernelArg.2.1 then .ok (kernelArg.1, l, kernelArg.2.2) else .error .value

/-- gle_integrate.py:187-226 `Integrator_gle.__init__`, with `coeffs` the shape of `coeffs_noise_kernel` and `kernelArg`
the shape of the keyword argument `kernel`. The noise generator gets the times `gle_model.kernel["time_kernel"]`
(line 226), an `AttributeError` when `gle_model` is `None`. The result is `trunc_kernel`. -/
def integratorInit (model : Option IntModel) (kernelArg : ℕ × ℕ × ℕ) (coeffs : Option (ℕ × ℕ)) (trunc : Option ℕ) :
    Except Err ℕ := do
  let (T, l, dim) ← noiseShape model kernelArg coeffs trunc
  let L ← match model with
    | some m => pure m.kernelLen
    | none => throw .attribute
  colouredInit L T l dim
  return T

/-- gle_integrate.py:249-260 `initial_conditions` with the random draw `point`, for a trajectory of `n` frames;
`np.random.randint(n_mem, n)` raises `ValueError` when there is nothing to draw. -/
def initialConditions {K : Type*} [Field K] {d : ℕ} (dt : K) (xva : InitData K d) (nMem point : ℕ) : Except Err (InitData K d) :=
  if xva.n ≤ nMem then .error .value
  else .ok ⟨nMem + 1, fun t => t * dt, fun t => xva.x (point - nMem + t), fun t => xva.v (point - nMem + t)⟩

/-! ### The scalar integrator -/

section
variable {K : Type*} [Field K]

/-- gle_integrate.py:398-402 `BGLEIntegrator._mem_int_red(v_trj[:n])`: the velocities are padded with zeros at
the front up to one more than the kernel. `IndexError` (`integrand[-1]`) if the kernel has one point. -/
def bgleMem (kernel : Arr K) (dt : K) (v : ℕ → K) (n : ℕ) : Except Err K :=
  let T := kernel.len
  let len := if n < T then T + 1 else n
  let w : ℕ → K := fun i => if n < T then (if i < T - n + 1 then 0 else v (i - (T - n + 1))) else v i
  if T < 2 then .error .index
  else
    let integrand : ℕ → K := fun i => kernel.get (1 + i) * w (len - 1 - i)
    .ok ((1 / 2 * integrand (T - 2) + ∑ i ∈ range (T - 2), integrand i) * dt)

end

end Verif
