import Verif.Model.BasisVector
import Verif.Model.Mesh
import Mathlib.Algebra.Order.Field.Basic
import Mathlib.Analysis.SpecialFunctions.Log.Basic

/-!
# Model of `compute_1d_fe` (`__init__.py`)

The trajectories have the variables `x`, `v` and `a`, without missing values. `groupby_bins` stacks frames and components, as do the
minimum and maximum over all the positions, so that a trajectory is the list of its values.
-/

namespace Verif

/-- The argument `bins`: a string, an integer, or something else. -/
inductive BinsArg
  | str (s : String)
  | int (n : ℤ)
  | other

section
variable {K : Type*} [Field K] [LinearOrder K]

/-- The values of `x`, `v` and `a` of a trajectory, over frames and components. -/
def stacked (xva : Xva K) : List (K × K × K) :=
  (List.range xva.n).flatMap fun t => (List.range xva.dimx).map fun k => (xva.data "x" t k, xva.data "v" t k, xva.data "a" t k)

/-- __init__.py:187-195, the edges of the bins. `auto` is `np.histogram_bin_edges(.., bins="auto")`, used for every string. The minimum of
an empty list is a `ValueError`, and so is `np.linspace` with a negative number. -/
def feEdges (auto : List K → List K) (bins : BinsArg) (xvas : List (Xva K)) : Except Err (List K) :=
  let xs := xvas.flatMap fun y => (stacked y).map (·.1)
  match bins with
  | .str _ => match xs with
    | [] => .error .value
    | _ => .ok (auto xs)
  | .int n => match xs with
    | [] => .error .value
    | p :: ps =>
      if n < 0 then .error .value
      else .ok ((List.range n.toNat).map (npLinspace (ps.foldl min p) (ps.foldl max p) n.toNat).get)
  | .other => .error .value

/-- The bin of a value in `pandas.cut(.., edges)`: `searchsorted(edges, x, side="left")` minus one, none for the first and the last
positions. The bins are closed on the right, and `include_lowest` is false. -/
def binOf (edges : List K) (x : K) : Option ℕ :=
  let id := (edges.filter (· < x)).length
  if id = 0 ∨ id = edges.length then none else some (id - 1)

/-- The values that fall in the bin `i`. -/
def inBin (edges : List K) (i : ℕ) (pts : List (K × K × K)) : List (K × K × K) := pts.filter fun p => binOf edges p.1 = some i

/-- What `pandas.cut` and `groupby_bins` require, with a `ValueError` otherwise: increasing edges, different ones (unless there are only
two), and a value that falls in a bin. -/
def binsOk (edges : List K) (pts : List (K × K × K)) : Bool :=
  decide (edges.Pairwise (· ≤ ·)) && (decide edges.Nodup || edges.length == 2) && pts.any fun p => (binOf edges p.1).isSome

/-- __init__.py:197-204: the sums over the trajectories of the sums and counts in the bins. -/
structure BinSums (K : Type*) where
  count : ℕ → ℕ
  v2 : ℕ → K
  a : ℕ → K

/-- __init__.py:197-204. -/
def binSums (edges : List K) : List (Xva K) → Except Err (BinSums K)
  | [] => .ok ⟨fun _ => 0, fun _ => 0, fun _ => 0⟩
  | y :: ys => do
    if !binsOk edges (stacked y) then throw .value
    let r ← binSums edges ys
    return ⟨fun i => (inBin edges i (stacked y)).length + r.count i,
      fun i => ((inBin edges i (stacked y)).map fun p => p.2.1 * p.2.1).sum + r.v2 i,
      fun i => ((inBin edges i (stacked y)).map fun p => p.2.2).sum + r.a i⟩

/-- `compute_1d_fe(xvas, bins, hist=True)`, __init__.py:173-212: centres of the bins and frequencies. -/
def computeHist (auto : List K → List K) (bins : BinsArg) (xvas : List (Xva K)) : Except Err (List K × List K) := do
  let edges ← feEdges auto bins xvas
  let r ← binSums edges xvas
  let total := ((List.range (edges.length - 1)).map r.count).sum
  return ((edges.tail.zip edges).map fun e => (e.1 + e.2) / 2, (List.range (edges.length - 1)).map fun i => (r.count i : K) / (total : K))

end

/-- What `compute_1d_fe` returns without `hist`. -/
structure FreeEnergy where
  x : List ℝ
  fe : List ℝ
  force : List ℝ
  meanA : List ℝ
  forceTot : List ℝ
  mass : List ℝ

/-- `compute_1d_fe(xvas, bins, kT)`, __init__.py:173-227. `spl x y` is `splev(x, splrep(x, y, s=0), der=1)`. -/
noncomputable def compute1dFe (auto : List ℝ → List ℝ) (spl : List ℝ → List ℝ → Except Err (List ℝ)) (bins : BinsArg) (kT : ℝ)
    (xvas : List (Xva ℝ)) : Except Err FreeEnergy := do
  let edges ← feEdges auto bins xvas
  let r ← binSums edges xvas
  let idx := List.range (edges.length - 1)
  let total := (idx.map r.count).sum
  let massAvg := (idx.map r.v2).sum / (total : ℝ)
  let xfa := (edges.tail.zip edges).map fun e => (e.1 + e.2) / 2
  let pf := fun i => (r.count i : ℝ) / (total : ℝ)
  let nz := idx.filter fun i => pf i ≠ 0
  let xf := nz.map fun i => xfa.getD i 0
  let fe0 := nz.map fun i => -Real.log (pf i)
  match fe0 with
  | [] => throw .value
  | f :: fs =>
    let fe := fe0.map fun e => e - fs.foldl min f
    let mass := nz.map fun i => r.v2 i / (r.count i : ℝ)
    let meanA := nz.map fun i => r.a i / (r.count i : ℝ)
    let dfe ← spl xf fe
    let drho ← spl xf (List.zipWith (· * ·) mass (nz.map pf))
    return ⟨xf, fe, dfe.map fun e => -1 * e * kT / massAvg, meanA, List.zipWith (· / ·) drho (nz.map pf), mass⟩

end Verif
