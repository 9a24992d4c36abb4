import Verif.Model.Mesh
import Mathlib.Data.List.Sort
import Mathlib.Algebra.BigOperators.Group.Finset.Basic

/-!
# Model of `VolterraBasis/basis/_fem_features.py`

The mesh, the mapping and the element are objects of scikit-fem: they are given by their arrays and by the values of the
functions `invF` and `gbasis`.
-/

namespace Verif

open Finset

/-! ### `ElementFinder` in dimension one -/

/-- A mesh of scikit-fem in dimension one: the points `p[0]` and, for each element, the indices `t[0]`, `t[1]` of
its ends. -/
structure LineMesh (K : Type*) where
  p : List K
  t : List (ℕ × ℕ)

section
variable {K : Type*} [Field K] [LinearOrder K]

/-- `np.digitize(x, bins)` for increasing bins: the number of bins that are not above `x`. -/
def npDigitize (x : K) (bins : List K) : ℕ := (bins.filter fun b => decide (b ≤ x)).length

/-- `np.argmax` of a row of booleans: the first `True`, or `0`; `ValueError` for an empty row. -/
def npArgmaxBool (l : List Bool) : Except Err ℕ :=
  if l = [] then .error .value else .ok (if true ∈ l then l.findIdx (· = true) else 0)

/-- _fem_features.py:39-45 `find_element_1D` for one point, with the attributes of lines 22-25: `tol` is the literal
`1e-10`. The second component is the value left in the array `X`. -/
def findElement1D (mesh : LineMesh K) (tol x : K) : Except Err (ℕ × K) :=
  match listMax mesh.p with
  | .error e => .error e
  | .ok maxPoint =>
    let bins := mesh.p.insertionSort (· ≤ ·)
    let x := if x = maxPoint then x - tol else x
    match npArgmaxBool (mesh.t.map fun e => decide ((npDigitize x bins : ℤ) - 1 = e.1)) with
    | .error e => .error e
    | .ok i => .ok (i, x)

end

/-! ### `ElementFinder` in higher dimensions -/

section
variable {K : Type*} [Field K] [LinearOrder K]

/-- _fem_features.py:60-64 `inside_2D` for the local coordinates of one point. -/
def inside2D (eps : K) (X : ℕ → K) : Bool :=
  decide (-eps ≤ X 0) && decide (-eps ≤ X 1) && decide (-eps ≤ 1 - X 0 - X 1)

/-- _fem_features.py:28-37 and 50-58 `find_element_ND` for one point: `nearest` are the five indices that the query of
the tree returns, for a mesh of `nElem` elements the index `nElem` standing for a missing one; `invF e` are the local
coordinates of the point in the element `e`. An index out of range is an `IndexError` in `invF`. In dimension three
`inside_3D` is called with one argument too many (line 66 has no `self`): `TypeError`; in higher dimensions there is no
attribute `inside`. -/
def findElementND (dim nElem : ℕ) (eps : K) (nearest : List ℕ) (invF : ℕ → ℕ → K) : Except Err ℕ :=
  if nearest.any fun e => decide (nElem ≤ e) then .error .index
  else if dim = 2 then
    match npArgmaxBool (nearest.map fun e => inside2D eps (invF e)) with
    | .error e => .error e
    | .ok i => match nearest[i]? with
      | some e => .ok e
      | none => .error .index
  else if dim = 3 then .error .type
  else .error .attribute

end

/-! ### `FEMScalarFeatures` -/

section
variable {K : Type*} [Field K]

/-- `sparse.COO(coords, data, shape).todense()`: entries with the same coordinates are added. -/
def cooDense {ι : Type*} [DecidableEq ι] (coords : List ι) (data : List K) (i : ι) : K :=
  ((coords.zip data).map fun p => if p.1 = i then p.2 else 0).sum

/-- `np.tile(a, n)`. -/
def npTile {α : Type*} (a : List α) (n : ℕ) : List α := (List.replicate n a).flatten

/-- `np.repeat(a, n)`. -/
def npRepeat {α : Type*} (a : List α) (n : ℕ) : List α := a.flatMap fun x => List.replicate n x

/-- `self.basis_fem.element_dofs[:, cells].flatten()`: `dofs k s` is the index of the local function `k` of the element of
the sample `s`. -/
def flatDofs (nb ns : ℕ) (dofs : ℕ → ℕ → ℕ) : List ℕ := (List.range nb).flatMap fun k => (List.range ns).map (dofs k)

/-- _fem_features.py:109-116 `basis`: `phi k s` is the local function `k` at the sample `s`. -/
def femBasis (nb ns : ℕ) (dofs : ℕ → ℕ → ℕ) (phi : ℕ → ℕ → K) (s j : ℕ) : K :=
  cooDense ((npTile (List.range ns) nb).zip (flatDofs nb ns dofs))
    ((List.range nb).flatMap fun k => (List.range ns).map fun s => phi k s) (s, j)

/-- _fem_features.py:118-127 `deriv`: `grad k s d` is the component `d` of the gradient of the local function `k` at the
sample `s`. `phis` has the axes function, sample, one, component, in this order, hence the order of `np.ravel`. -/
def femDeriv (dim nb ns : ℕ) (dofs : ℕ → ℕ → ℕ) (grad : ℕ → ℕ → ℕ → K) (s j d : ℕ) : K :=
  cooDense ((npTile (List.range ns) (dim * nb)).zip ((npTile (flatDofs nb ns dofs) dim).zip
      (npRepeat (List.range dim) (ns * nb))))
    ((List.range nb).flatMap fun k => (List.range ns).flatMap fun s => (List.range dim).map fun d => grad k s d) (s, j, d)

end

end Verif
