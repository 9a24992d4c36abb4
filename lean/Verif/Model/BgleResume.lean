import Verif.Model.Bgle

/-!
# Model of `BGLEIntegrator.integrate` with its private arguments (gle_integrate.py)
-/

namespace Verif

namespace Bgle

variable {K : Type*} [Field K] [DecidableEq K] (B : Bgle K)

/-- gle_integrate.py:428-440: the array given in the place of the array of zeros. Two assertions: its length, and the entry `_n_0 - 1` (for
`_n_0 = 0` the last one), which must be the start value. -/
def predefined (nSteps n0 : ℕ) (start : K) : Option (Arr K) → Except Err (ℕ → K)
  | none => .ok 0
  | some p =>
    if p.len ≠ nSteps then .error (.exception "AssertionError")
    else if nSteps = 0 ∨ nSteps < n0 then .error .index
    else if p.get (if n0 = 0 then nSteps - 1 else n0 - 1) ≠ start then .error (.exception "AssertionError")
    else .ok p.get

/-- The value of a number. -/
def _root_.Verif.Start.val : Start K → K
  | .python x => x
  | .numpy x => x

/-- Whether the number is a Python number, without `copy` and `ravel`. -/
def _root_.Verif.Start.isPython : Start K → Bool
  | .python _ => true
  | .numpy _ => false

/-- gle_integrate.py:416-468 `integrate`, with `_predef_x`, `_predef_v` and `_n_0`, a natural number. The arrays given are the ones that are
changed and returned. In the first iteration a Python number raises after the memory integral and `self.kernel[0]`. -/
def integrateFull (nSteps : ℕ) (x0 : Start K) (v0 : K) (noiseLen : ℕ) (noise : ℕ → K) (predefX predefV : Option (Arr K)) (n0 : ℕ) :
    Except Err (BgleTrj K) := do
  if noiseLen ≠ nSteps then throw (.exception "AssertionError")
  let vs ← predefined nSteps n0 v0 predefV
  let xs ← predefined nSteps n0 x0.val predefX
  if nSteps ≤ n0 then throw .index
  let s0 : BgleState K :=
    { x := x0.val, v := v0, rmi := 0, xs := Function.update xs n0 x0.val, vs := Function.update vs n0 v0, mem := 0, a := 0 }
  if x0.isPython ∧ n0 + 1 < nSteps then
    match B.memoryOf (n0 + 1) s0 with
    | .error e => throw e
    | .ok _ => if B.kernel.len = 0 then throw .index else throw .attribute
  let s ← forRangeE (n0 + 1) nSteps (B.body noise) s0
  return { n := nSteps, x := s.xs, v := s.vs, time := fun t => t * B.dt, noise := noise, mem := s.mem, a := s.a }

end Bgle

end Verif
