import Verif.Model.Integrate

/-!
# Model of `BGLEIntegrator` (gle_integrate.py)
-/

namespace Verif

open Finset

/-- What `BGLEIntegrator` holds in dimension one: the force `E_force(x) @ force_coeff`, the kernel after
`ravel` (gle_integrate.py:421) and the time step. -/
structure Bgle (K : Type*) where
  force : K → K
  kernel : Arr K
  dt : K

/-- A start value: a Python number or a numpy value. Only the latter has `reshape`. -/
inductive Start (K : Type*)
  | python (x : K)
  | numpy (x : K)

/-- What `integrate` returns: `n` frames. -/
structure BgleTrj (K : Type*) where
  n : ℕ
  x : ℕ → K
  v : ℕ → K
  time : ℕ → K
  noise : ℕ → K
  mem : ℕ → K
  a : ℕ → K

/-- The variables of the loop of `integrate`. -/
structure BgleState (K : Type*) where
  x : K
  v : K
  rmi : K
  xs : ℕ → K
  vs : ℕ → K
  mem : ℕ → K
  a : ℕ → K

namespace Bgle

variable {K : Type*} [Field K] (B : Bgle K)

/-- gle_integrate.py:394-396 `dU`. -/
def dU (x : K) : K := -1 * B.force x

/-- gle_integrate.py:404-407 `f_rk`. -/
def fRk (x v rmi fr nextW lastW lastV lastRmi : K) : K × K :=
  (v, -nextW * rmi - lastW * lastRmi - 1 / 2 * nextW * B.kernel.get 0 * v * B.dt -
    1 / 2 * lastW * B.kernel.get 0 * lastV * B.dt - B.dU x + fr)

/-- gle_integrate.py:409-414 `rk_step`: position, velocity and acceleration. -/
def rkStep (x v rmi fr lastV lastRmi : K) : K × K × K :=
  let k1 := B.fRk x v rmi fr 0 1 lastV lastRmi
  let k2 := B.fRk (x + k1.1 * B.dt / 2) (v + k1.2 * B.dt / 2) rmi fr (1 / 2) (1 / 2) lastV lastRmi
  let k3 := B.fRk (x + k2.1 * B.dt / 2) (v + k2.2 * B.dt / 2) rmi fr (1 / 2) (1 / 2) lastV lastRmi
  let k4 := B.fRk (x + k3.1 * B.dt) (v + k3.2 * B.dt) rmi fr 1 0 lastV lastRmi
  (x + B.dt * (k1.1 + 2 * k2.1 + 2 * k3.1 + k4.1) / 6, v + B.dt * (k1.2 + 2 * k2.2 + 2 * k3.2 + k4.2) / 6,
    (k1.2 + 2 * k2.2 + 2 * k3.2 + k4.2) / 6)

/-- gle_integrate.py:453-461: the memory integral, the previous velocity and the previous memory integral used in
iteration `ind`. -/
def memoryOf (ind : ℕ) (s : BgleState K) : Except Err (K × K × K) :=
  if 1 < ind then do
    let rmi ← bgleMem B.kernel B.dt s.vs ind
    return (rmi, s.vs (ind - 1), s.rmi)
  else .ok (0, 0, 0)

/-- gle_integrate.py:451-466: the body of the loop of `integrate`; `self.kernel[0]` is an `IndexError` without
points. -/
def body (noise : ℕ → K) (ind : ℕ) (s : BgleState K) : Except Err (BgleState K) := do
  let (rmi, lastV, lastRmi) ← B.memoryOf ind s
  if B.kernel.len = 0 then throw .index
  let r := B.rkStep s.x s.v rmi (noise ind) lastV lastRmi
  return { x := r.1, v := r.2.1, rmi := rmi, xs := Function.update s.xs ind r.1, vs := Function.update s.vs ind r.2.1,
           mem := Function.update s.mem ind rmi, a := Function.update s.a ind r.2.2 }

/-- gle_integrate.py:416-468 `integrate`, without the private arguments `_predef_x`, `_predef_v` and `_n_0`.
`noise` is the array of zeros, the result of the noise generator or the array given; `noiseLen` its length
(line 428 asserts that it is `n_steps`). The first call of `dU`, in the first iteration, needs
`x0.reshape`: `AttributeError` for a Python number. `x_trj[0] = x` is an `IndexError` without frames. -/
def integrate (nSteps : ℕ) (x0 : Start K) (v0 : K) (noiseLen : ℕ) (noise : ℕ → K) : Except Err (BgleTrj K) := do
  if noiseLen ≠ nSteps then throw (.exception "AssertionError")
  if nSteps = 0 then throw .index
  let x ← match x0 with
    | .numpy x => pure x
    | .python x => if nSteps = 1 then pure x else if B.kernel.len = 0 then throw .index else throw .attribute
  let s ← forRangeE 1 nSteps (B.body noise)
    { x := x, v := v0, rmi := 0, xs := Function.update 0 0 x, vs := Function.update 0 0 v0, mem := 0, a := 0 }
  return { n := nSteps, x := s.xs, v := s.vs, time := fun t => t * B.dt, noise := noise, mem := s.mem, a := s.a }

end Bgle

/-- The scalar integrator built from the same arguments as `Integrator_gle_const_kernel` in dimension one, without
projection: it uses the same force and the same kernel. -/
def Integrator.toBgle {K : Type*} [Field K] {nB : ℕ} (I : Integrator K 1 nB 1 1) : Bgle K where
  force x := Matrix.vecMul (I.basis fun _ => x) I.forceCoeff 0
  kernel := ⟨I.kernel.len, fun j => I.kernel.get j 0 0⟩
  dt := I.dt

end Verif
