import Verif.Model.Describe
import Mathlib.Data.List.Sort

/-!
# Model of `VolterraBasis/basis/_mesh_utils.py`

Numbers of elements are natural numbers. `KMeans`, `ConvexHull` and `Delaunay` are given by their results.
-/

namespace Verif

section
variable {K : Type*} [Field K]

/-- `np.linspace(start, stop, num)`: a single point is `start`; the last point is set to `stop`. -/
def npLinspace (start stop : K) (num : ℕ) : Arr K :=
  ⟨num, fun i => if i + 1 = num ∧ 1 < num then stop else i * ((stop - start) / ((num : K) - 1)) + start⟩

/-- _mesh_utils.py:9-18 `uniform_line`. -/
def uniformLine (xStart xEnd : K) (num : ℕ) : Arr K := npLinspace xStart xEnd (num + 1)

/-- `np.cumsum(a)`: entry `i`. -/
def npCumsum (a : ℕ → K) (i : ℕ) : K := forRange 0 (i + 1) (fun j s => s + a j) 0

/-- _mesh_utils.py:21-35 `non_uniform_line`. `ratio` is a Python number, hence `ZeroDivisionError` when
`ratio ** num_elements` is one. -/
def nonUniformLine [DecidableEq K] (xStart xEnd : K) (num : ℕ) (ratio : K) : Except Err (Arr K) :=
  if ratio ^ num - 1 = 0 then .error .zeroDivision
  else
    let h := (ratio - 1) / (ratio ^ num - 1)
    let x : ℕ → K := fun i => if i = 0 then 0 else h * npCumsum (fun j => ratio ^ j) (i - 1)
    .ok ⟨num + 1, fun i => xStart + x i * (xEnd - xStart)⟩

end

section
variable {K : Type*} [Field K] [LinearOrder K]

/-- The values of a two-dimensional array, row by row. -/
def ravelRows (dim : ℕ) (X : Arr (ℕ → K)) : List K :=
  (List.range X.len).flatMap fun i => (List.range dim).map (X.get i)

/-- `data.min()`, `ValueError` for an empty array. -/
def listMin : List K → Except Err K
  | [] => .error .value
  | a :: l => .ok (l.foldl min a)

/-- `data.max()`. -/
def listMax : List K → Except Err K
  | [] => .error .value
  | a :: l => .ok (l.foldl max a)

/-- _mesh_utils.py:38-54 `data_driven_line` for a number of bins. `np.histogram_bin_edges` raises `ValueError` for
no bin or a decreasing range, and widens an empty range by one half on each side. -/
def dataDrivenLine (data : List K) (bins : ℕ) (xStart xEnd : Option K) : Except Err (Arr K) := do
  let a ← match xStart with
    | none => listMin data
    | some a => pure a
  let b ← match xEnd with
    | none => listMax data
    | some b => pure b
  if bins = 0 ∨ b < a then throw .value
  if a = b then return npLinspace (a - 1 / 2) (b + 1 / 2) (bins + 1)
  return npLinspace a b (bins + 1)

/-- _mesh_utils.py:57-69 `centroid_driven_line`, with the centres found by `KMeans` given (`bins` of them for data of
dimension one). -/
def centroidDrivenLine (data centres : List K) : Except Err (List K) := do
  let a ← listMin data
  let b ← listMax data
  return [a] ++ centres.mergeSort (fun p q => decide (p ≤ q)) ++ [b]

end

/-! ### Simplification of the hull -/

/-- A floating point number: an exact finite value, or one of the special values. -/
inductive Flt (K : Type*)
  | fin (x : K)
  | inf (neg : Bool)
  | nan
  deriving DecidableEq, Repr

namespace Flt
variable {K : Type*} [Field K] [LinearOrder K]

/-- The sign of a non zero number: whether it is negative. `none` for zero and `nan`. -/
def neg? : Flt K → Option Bool
  | fin x => if x < 0 then some true else if 0 < x then some false else none
  | inf s => some s
  | nan => none

/-- Addition. -/
def add : Flt K → Flt K → Flt K
  | fin x, fin y => fin (x + y)
  | fin _, inf s => inf s
  | inf s, fin _ => inf s
  | inf s, inf t => if s = t then inf s else nan
  | _, _ => nan

/-- Opposite. -/
def opp : Flt K → Flt K
  | fin x => fin (-x)
  | inf s => inf (!s)
  | nan => nan

/-- Subtraction. -/
def sub (a b : Flt K) : Flt K := add a (opp b)

/-- Multiplication; zero times infinity is `nan`. -/
def mul : Flt K → Flt K → Flt K
  | fin x, fin y => fin (x * y)
  | nan, _ => nan
  | _, nan => nan
  | a, b => match neg? a, neg? b with
    | some s, some t => inf (s ^^ t)
    | _, _ => nan

/-- Division. The signs of zeros are not modelled: a division of a non zero number by zero is taken for a division by
a positive zero. -/
def div : Flt K → Flt K → Flt K
  | fin x, fin y => if y = 0 then (match neg? (fin x) with
      | some s => inf s
      | none => nan) else fin (x / y)
  | fin _, inf _ => fin 0
  | inf s, fin y => match neg? (fin y) with
    | some t => inf (s ^^ t)
    | none => inf s
  | _, _ => nan

/-- `a < b`. -/
def lt : Flt K → Flt K → Bool
  | fin x, fin y => decide (x < y)
  | fin _, inf s => !s
  | inf s, fin _ => s
  | inf s, inf t => s && !t
  | _, _ => false

/-- `a == 0`. -/
def isZero : Flt K → Bool
  | fin x => decide (x = 0)
  | _ => false

end Flt

section
variable {K : Type*} [Field K]

/-- `np.cross`. -/
def cross3 {F : Type*} (mul sub : F → F → F) (a b : F × F × F) : F × F × F :=
  (sub (mul a.2.1 b.2.2) (mul a.2.2 b.2.1), sub (mul a.2.2 b.1) (mul a.1 b.2.2), sub (mul a.1 b.2.1) (mul a.2.1 b.1))

/-- _mesh_utils.py:72-87 `get_intersect`. -/
def getIntersect [LinearOrder K] (a1 a2 b1 b2 : Flt K × Flt K) : Flt K × Flt K :=
  let h := fun p : Flt K × Flt K => (p.1, p.2, Flt.fin (1 : K))
  let l1 := cross3 Flt.mul Flt.sub (h a1) (h a2)
  let l2 := cross3 Flt.mul Flt.sub (h b1) (h b2)
  let (x, y, z) := cross3 Flt.mul Flt.sub l1 l2
  if z.isZero then (.inf false, .inf false) else (x.div z, y.div z)

variable [LinearOrder K]

/-- `np.argmin`: the first smallest entry, a `nan` being smaller than everything; `ValueError` if there is none. -/
def npArgmin (l : List (Flt K)) : Except Err ℕ :=
  match l with
  | [] => .error .value
  | a :: l => .ok ((l.zipIdx 1).foldl (fun (best : Flt K × ℕ) p =>
      if best.1 = .nan then best else if p.1 = .nan ∨ p.1.lt best.1 then p else best) (a, 0)).2

/-- Line 94: the squares of the lengths of the edges between consecutive vertices. -/
def edgeLengths (bv : List (Flt K × Flt K)) : List (Flt K) :=
  List.zipWith (fun p q => ((q.1.sub p.1).mul (q.1.sub p.1)).add ((q.2.sub p.2).mul (q.2.sub p.2))) bv bv.tail

/-- A row of an array of points; the indices are in range where it is used. -/
def rowAt (bv : List (Flt K × Flt K)) (i : ℕ) : Flt K × Flt K := bv.getD (i % bv.length) (.nan, .nan)

/-- _mesh_utils.py:90-109 `remove_one_point`: the vertices and whether to go on. -/
def removeOnePoint (bv : List (Flt K × Flt K)) (ratioLimit : K) : Except Err (List (Flt K × Flt K) × Bool) :=
  let length := edgeLengths bv
  match npArgmin length with
  | .error e => .error e
  | .ok minArete =>
    let ratio := (length.getD minArete .nan).div (length.foldl Flt.add (.fin 0))
    if ratio.lt (.fin ratioLimit) then
      let preA := rowAt bv (minArete + bv.length - 1)
      let preB := rowAt bv minArete
      let postA := rowAt bv (minArete + 1)
      let postB := rowAt bv (minArete + 2)
      let bv := bv.set minArete (getIntersect preA preB postA postB)
      .ok (bv.eraseIdx ((minArete + 1) % bv.length), true)
    else .ok (bv, false)

/-- _mesh_utils.py:126-128: the loop, with a bound on the number of turns; `none` when the bound is reached before the
loop stops. -/
def hullLoop (ratioLimit : K) : ℕ → List (Flt K × Flt K) → Option (Except Err (List (Flt K × Flt K)))
  | 0, _ => none
  | fuel + 1, bv =>
    match removeOnePoint bv ratioLimit with
    | .error e => some (.error e)
    | .ok (bv, false) => some (.ok bv)
    | .ok (bv, true) => hullLoop ratioLimit fuel bv

/-- _mesh_utils.py:112-132 `centroid_driven_mesh`: the vertices given to `Delaunay`, for the vertices `hull` of the
convex hull, or those given by the caller, and the centres found by `KMeans`. -/
def centroidDrivenMesh (fuel : ℕ) (hull centres : List (Flt K × Flt K)) (given : Option (List (Flt K × Flt K)))
    (simplifyHull : K) : Option (Except Err (List (Flt K × Flt K))) :=
  match given with
  | some bv => some (.ok (bv ++ centres))
  | none => if 0 < simplifyHull then (hullLoop simplifyHull fuel hull).map fun r => r.map (· ++ centres)
    else some (.ok (hull ++ centres))

end

end Verif
