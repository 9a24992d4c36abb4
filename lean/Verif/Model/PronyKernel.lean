import Verif.Model.Prony
import Verif.Model.Integrate

/-!
# Model of `prony_fit_kernel` and `prony_series_kernel_eval` (fit_prony.py) and of `Integrator_posgle` (gle_integrate.py)
-/

namespace Verif

open Finset

/-- fit_prony.py:200-224 `prony_fit_kernel(times, kernel, thres, N_keep)` for a kernel of `T` points: entry `[d][k]` is the fit of
the component `(k, d)`. Fewer than two times raise `IndexError`. -/
noncomputable def pronyFitKernel {b d : ℕ} (times : List ℝ) (T : ℕ) (kernel : ℕ → Fin b → Fin d → ℝ)
    (svd : (n : ℕ) → Mat ℝ (n + 1) (n + 1) → HermSvd n) (eig : (N : ℕ) → Mat ℝ N N → EigData N) (eps : ℝ) (thres : Option ℝ)
    (nKeep : Option ℕ) : Except Err (List (List (ℝ × Σ m : ℕ, Mat ℝ m m))) :=
  match times with
  | t0 :: t1 :: _ => (List.finRange d).mapM fun x => (List.finRange b).mapM fun k =>
      pronyFit ⟨T, fun i => kernel i k x⟩ (t1 - t0) svd eig eps thres nKeep true
  | _ => .error .index

/-- fit_prony.py:226-248 `prony_series_kernel_eval(times, list_A)`: `[d][k][i]` here is `fit[i, k, d]`. One time is
squeezed to an array without shape; `list_A[0]` needs one component. -/
noncomputable def pronyKernelEval (times : List ℝ) (listA : List (List (ℝ × Σ m : ℕ, Mat ℝ m m))) : Except Err (List (List (List ℝ))) :=
  if times.length = 1 then .error .index
  else match listA with
    | [] => .error .index
    | row0 :: _ => listA.mapM fun (row : List (ℝ × Σ m : ℕ, Mat ℝ m m)) => (List.range row0.length).mapM fun k =>
      match (row[k]? : Option (ℝ × Σ m : ℕ, Mat ℝ m m)) with
      | none => .error .index
      | some A => times.mapM (pronyTerm A.1 A.2.1 A.2.2)

section
variable {K : Type*} [Field K] {d nB nD b : ℕ} (I : Integrator K d nB nD b) (deriv : (Fin d → K) → Fin nD → Fin d → K)

namespace Integrator

/-- gle_integrate.py:386 `E_noise[0, :].T @ fr`, where `E_noise` is `basis.deriv(x)` (line 268): the product of a matrix
of shape `(d, nD)` with `d` numbers, a `ValueError` if `nD` is not `d`. -/
def posNoise (x fr : Fin d → K) : Except Err (Fin d → K) :=
  if h : nD = d then .ok fun i => ∑ l : Fin nD, deriv x l i * fr (Fin.cast h l) else .error .value

/-- gle_integrate.py:383-386 `Integrator_posgle._f_rk`. -/
def posFRk (x v rmi fr : Fin d → K) (alpha : K) (lastE : Fin b → K) (lastRmi : Fin d → K) : Except Err ((Fin d → K) × (Fin d → K)) := do
  let mem := alpha • (lastRmi + ((1 / 2 : K) * I.dt) • Matrix.vecMul lastE (I.kernel.get 0)) +
    (1 - alpha) • (rmi + ((1 / 2 : K) * I.dt) • Matrix.vecMul (I.E x v) (I.kernel.get 0))
  let n ← posNoise deriv x fr
  return (v, Matrix.vecMul (I.basis x) I.forceCoeff + n - mem)

/-- gle_integrate.py:283-289 `_rk_step`, with `_f_rk` of `Integrator_posgle`. -/
def posRkStep (x v rmi fr : Fin d → K) (lastE : Fin b → K) (lastRmi : Fin d → K) : Except Err ((Fin d → K) × (Fin d → K)) := do
  let k1 ← I.posFRk deriv x v rmi fr 1 lastE lastRmi
  let k2 ← I.posFRk deriv (x + (I.dt / 2) • k1.1) (v + (I.dt / 2) • k1.2) rmi fr (1 / 2) lastE lastRmi
  let k3 ← I.posFRk deriv (x + (I.dt / 2) • k2.1) (v + (I.dt / 2) • k2.2) rmi fr (1 / 2) lastE lastRmi
  let k4 ← I.posFRk deriv (x + I.dt • k3.1) (v + I.dt • k3.2) rmi fr 0 lastE lastRmi
  let a := (1 / 6 : K) • (k1.2 + (2 : K) • k2.2 + (2 : K) • k3.2 + k4.2)
  return (x + (I.dt / 6) • (k1.1 + (2 : K) • k2.1 + (2 : K) • k3.1 + k4.1), v + I.dt • a)

/-- gle_integrate.py:320-330: the body of the loop of `run` for `Integrator_posgle`. -/
def posRunStep (noise : ℕ → Fin d → K) (ind : ℕ) (s : RunState K d b) : Except Err (RunState K d b) := do
  let lastRmi := s.rmi
  let lastE := s.E (ind - 1)
  let rmi ← I.memIntRed s.E ind
  let xv ← I.posRkStep deriv s.x s.v rmi (noise ind) lastE lastRmi
  return { x := xv.1, v := xv.2, rmi := rmi, xs := Function.update s.xs ind xv.1, vs := Function.update s.vs ind xv.2,
           E := Function.update s.E ind (I.E xv.1 xv.2) }

/-- gle_integrate.py:291-332 `run` for `Integrator_posgle`. -/
def posRun [DecidableEq K] (nSteps : ℕ) (x0 : Option (InitData K d)) (noise : ℕ → Fin d → K) : Except Err (Trj K d) := do
  let n0 := (x0.map (·.n)).getD 1
  let xs := initRows x0 (·.x)
  let vs := initRows x0 (·.v)
  if nSteps < n0 ∨ n0 = 0 then throw .index
  if (x0.map fun D => (List.range D.n).all fun t => decide (D.time t = t * I.dt)) = some false then throw .index
  let E := fun t => if t < n0 then I.E (xs t) (vs t) else 0
  let rmi ← I.firstRmi E n0
  let s ← forRangeE n0 nSteps (I.posRunStep deriv noise)
    { x := xs (n0 - 1), v := vs (n0 - 1), rmi := rmi, xs := xs, vs := vs, E := E }
  return { n := nSteps, time := fun t => ((n0 - 1 : ℕ) + t : K) * I.dt, x := s.xs, v := s.vs }

end Integrator

end

end Verif
