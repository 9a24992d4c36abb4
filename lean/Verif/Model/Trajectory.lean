import Verif.Model.Prelude
import Mathlib.Algebra.Order.Round

/-!
# Model of the trajectory utilities of `VolterraBasis/__init__.py`

A missing value (`NaN`) is `none`: arithmetic on a missing value gives a missing value and comparisons
with it are false. Division by `dt` is exact division, meaningful for `dt ≠ 0` only.
-/

namespace Verif

/-- A variable with axes `(time, dim_x)`: `dim` is the size of `dim_x`. -/
structure DataVar (K : Type*) where
  dim : ℕ
  get : ℕ → ℕ → Option K

/-- An `xr.Dataset`: the number of frames, the coordinate `time`, the variables and `attrs["dt"]`. -/
structure Dataset (K : Type*) where
  n : ℕ
  time : ℕ → K
  vars : List (String × DataVar K)
  dt : Option K

namespace DataVar

variable {K : Type*}

/-- `shift({"time": 1})` for `n` frames: row `i` holds the former row `i-1`. -/
def shiftUp (v : DataVar K) : DataVar K :=
  ⟨v.dim, fun i k => if i = 0 then none else v.get (i - 1) k⟩

/-- `shift({"time": -1})` for `n` frames: row `i` holds the former row `i+1`. -/
def shiftDown (n : ℕ) (v : DataVar K) : DataVar K :=
  ⟨v.dim, fun i k => if i + 1 < n then v.get (i + 1) k else none⟩

/-- Elementwise operation on two variables of the same shape. -/
def zip (f : K → K → K) (a b : DataVar K) : DataVar K :=
  ⟨a.dim, fun i k => (a.get i k).bind fun p => (b.get i k).map fun q => f p q⟩

/-- Elementwise operation with constants. -/
def map (f : K → K) (a : DataVar K) : DataVar K := ⟨a.dim, fun i k => (a.get i k).map f⟩

/-- `xr.where(test(a), a, f(a))`. A comparison with a missing value is false. -/
def whereElse (test : K → Prop) [DecidablePred test] (f : K → K) (a : DataVar K) : DataVar K :=
  ⟨a.dim, fun i k => (a.get i k).map fun p => if test p then p else f p⟩

end DataVar

namespace Dataset

variable {K : Type*}

/-- `ds[name]`. -/
def var (ds : Dataset K) (name : String) : Except Err (DataVar K) :=
  match ds.vars.lookup name with
  | none => .error .key
  | some v => .ok v

/-- `ds.attrs["dt"]`. -/
def getDt (ds : Dataset K) : Except Err K :=
  match ds.dt with
  | none => .error .key
  | some d => .ok d

/-- The frames without missing value in any variable. -/
def complete (ds : Dataset K) : List ℕ :=
  (List.range ds.n).filter fun i => ds.vars.all fun v => (List.range v.2.dim).all fun k => (v.2.get i k).isSome

/-- `ds.dropna("time")`. -/
def dropna (ds : Dataset K) : Dataset K where
  n := ds.complete.length
  time := fun i => ds.time ((ds.complete[i]?).getD 0)
  vars := ds.vars.map fun v => (v.1, ⟨v.2.dim, fun i k => v.2.get ((ds.complete[i]?).getD 0) k⟩)
  dt := ds.dt

end Dataset

section
variable {K : Type*} [Field K]

/-- __init__.py:77-90 `compute_a_from_vel`. -/
def computeAFromVel (ds : Dataset K) : Except Err (Dataset K) := do
  let x ← ds.var "x"
  let v ← ds.var "v"
  let dt ← ds.getDt
  let diffs := (v.shiftDown ds.n).zip (· - ·) v.shiftUp
  return { ds with vars := [("x", x), ("v", v), ("a", diffs.map (· / (2 * dt)))] }.dropna

/-- __init__.py:93-107 `compute_a`. -/
def computeA (ds : Dataset K) : Except Err (Dataset K) := do
  let x ← ds.var "x"
  let v ← ds.var "v"
  let dt ← ds.getDt
  let diffs := x.zip (· - ·) x.shiftUp
  let ddiffs := (diffs.shiftDown ds.n).zip (· - ·) diffs
  return { ds with vars := [("x", x), ("v", v), ("a", ddiffs.map (· / dt ^ 2))] }.dropna

variable [LinearOrder K]

/-- __init__.py:125-128 and 156-159: the differences `xf - xf.shift(1)`, with the jumps removed if
`jumps` is `some (jump, jump_thr)`. Only the variable `x` of the differences is used. -/
def jumpDiffs (x : DataVar K) (jumps : Option (K × K)) : DataVar K :=
  let diffs := x.zip (· - ·) x.shiftUp
  match jumps with
  | none => diffs
  | some (jump, thr) =>
    let diffs := diffs.whereElse (fun d => d > -thr) (· + jump)
    diffs.whereElse (fun d => d < thr) (· - jump)

/-- __init__.py:110-137 `compute_va`. -/
def computeVa (ds : Dataset K) (jumps : Option (K × K)) (lamb : K) : Except Err (Dataset K) := do
  let x ← ds.var "x"
  let dt ← ds.getDt
  let diffs := jumpDiffs x jumps
  let ddiffs := (diffs.shiftDown ds.n).zip (· - ·) diffs
  let sdiffs := ((diffs.shiftDown ds.n).map (lamb * ·)).zip (· + ·) (diffs.map ((1 - lamb) * ·))
  return { ds with vars := [("x", x), ("v", sdiffs.map (· / dt)), ("a", ddiffs.map (· / dt ^ 2))] }.dropna

/-- __init__.py:140-167 `compute_va_gjf`. -/
def computeVaGjf (ds : Dataset K) (jumps : Option (K × K)) : Except Err (Dataset K) := do
  let x ← ds.var "x"
  let dt ← ds.getDt
  let diffs := jumpDiffs x jumps
  let ddiffs := (diffs.shiftDown ds.n).zip (· - ·) diffs
  return { ds with vars := [("x", x), ("v", diffs.map (· / dt)), ("a", ddiffs.map (· / dt ^ 2))] }.dropna

end

/-- __init__.py:170-176 `concat_underdamped`: `xr.concat` along `dim_x`. A missing attribute `dt` is an
`AttributeError`. -/
def concatUnderdamped {K : Type*} (ds : Dataset K) : Except Err (Dataset K) := do
  let x ← ds.var "x"
  let v ← ds.var "v"
  let v' ← ds.var "v"
  let a ← ds.var "a"
  match ds.dt with
  | none => throw .attribute
  | some dt => return { ds with vars := [("x", cat x v), ("v", cat v' a)], dt := some dt }
where
  /-- Concatenation along `dim_x`. -/
  cat (p q : DataVar K) : DataVar K :=
    ⟨p.dim + q.dim, fun i k => if k < p.dim then p.get i k else q.get i (k - p.dim)⟩

/-- A numpy array with one or two axes. -/
inductive NdArray (K : Type*)
  | d1 (n : ℕ) (f : ℕ → Option K)
  | d2 (n d : ℕ) (f : ℕ → ℕ → Option K)

/-- `a.reshape(-1, 1)` if `a` has one axis: the number of rows and the variable. -/
def NdArray.column {K : Type*} : NdArray K → ℕ × DataVar K
  | .d1 n f => (n, ⟨1, fun i _ => f i⟩)
  | .d2 n d f => (n, ⟨d, f⟩)

section
variable {K : Type*} [Field K] [LinearOrder K] [IsStrictOrderedRing K] [FloorRing K]

/-- `np.round`: to the nearest integer, halves to the nearest even integer. -/
def npRound (q : K) : ℤ :=
  if Int.fract q < 1 / 2 then ⌊q⌋
  else if 1 / 2 < Int.fract q then ⌊q⌋ + 1
  else if ⌊q⌋ % 2 = 0 then ⌊q⌋ else ⌊q⌋ + 1

/-- __init__.py:29-74 `xframe`. `nt` is the length of the array `time`. Exceptions: `IndexError` when
the time axis has less than two points (with `fix_time`, also when there is only one sample, at
`time[1] = dt`), `ValueError` from `xr.Dataset` or `assign` when the sizes disagree, `KeyError` from
`ds[["x", "v"]]` when there is an acceleration but no velocity. `np.linspace(0, s, n)` is
`i * (s / (n-1))`. -/
def xframe (x : NdArray K) (nt : ℕ) (time : ℕ → K) (v a : Option (NdArray K)) (fixTime : Bool) (roundTime dt : K) :
    Except Err (Dataset K) := do
  let (n, xv) := x.column
  let (nt, time, dt) ← (
    if fixTime then
      if dt < 0 ∧ nt < 2 then throw .index
      else
        let dt := if dt < 0 then (npRound ((time 1 - time 0) / roundTime) : K) * roundTime else dt
        if n < 2 then throw .index
        else pure (n, Function.update (fun i : ℕ => (i : K) * (dt * ((n : K) - 1) / ((n : K) - 1))) 1 dt, dt)
    else if nt < 2 then throw .index
    else pure (nt, time, time 1 - time 0) : Except Err (ℕ × (ℕ → K) × K))
  if n ≠ nt then throw .value
  let vars : List (String × DataVar K) ← (
    match v with
    | none => pure [("x", xv)]
    | some v => if v.column.1 ≠ n ∨ v.column.2.dim ≠ xv.dim then throw .value
      else pure [("x", xv), ("v", v.column.2)] : Except Err _)
  match a with
  | none => return ⟨n, time, vars, some dt⟩
  | some a =>
    if v.isNone then throw .key
    else if a.column.1 ≠ n ∨ a.column.2.dim ≠ xv.dim then throw .value
    else return ⟨n, time, vars ++ [("a", a.column.2)], some dt⟩

end

end Verif
