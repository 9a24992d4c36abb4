import Verif.Model.Prelude
import Mathlib.Algebra.BigOperators.Group.Finset.Basic

/-!
# Labelled arrays

The part of xarray's `DataArray` the code relies on: arrays whose axes have names, operations that
match axes by name. Coordinates are not modelled: in the code under study, arrays that are combined
have the same coordinates or none.
-/

namespace Verif

/-- `xr.DataArray`: names of the axes, their sizes, and the underlying numpy array (entry `get idx` at
the position `idx`, one index per axis; meaningless for other `idx`). -/
structure LArr (K : Type*) where
  dims : List String
  shape : List ℕ
  get : List ℕ → K

namespace LArr

variable {K : Type*}

/-- The index along axis `d`, for the position `idx` of an array with axes `dims`. -/
def env (dims : List String) (idx : List ℕ) (d : String) : ℕ := ((dims.zip idx).lookup d).getD 0

/-- The entry at the position given by axis names. -/
def val (A : LArr K) (e : String → ℕ) : K := A.get (A.dims.map e)

/-- `A.sizes[d]`. -/
def size (A : LArr K) (d : String) : ℕ := env A.dims A.shape d

/-- `A.rename(...)` applied to the axes. (xarray raises for unknown names and clashes; the code under
study never causes this.) -/
def rename (A : LArr K) (f : String → String) : LArr K := { A with dims := A.dims.map f }

/-- `A.rename({a: b})`. -/
def rename1 (A : LArr K) (a b : String) : LArr K := A.rename fun d => if d = a then b else d

/-- The axes of several arrays in the order of first appearance. -/
def unionDims (arrs : List (LArr K)) : List String :=
  arrs.foldl (fun acc A => acc ++ A.dims.filter (fun d => d ∉ acc)) []

/-- The size of axis `d`, read from the first array that has it. -/
def sizeIn (arrs : List (LArr K)) (d : String) : ℕ :=
  ((arrs.find? fun A => d ∈ A.dims).map fun A => A.size d).getD 0

/-- Whether the arrays agree on the sizes of the axes they share. -/
def compat (arrs : List (LArr K)) : Bool :=
  arrs.all fun A => A.dims.all fun d => A.size d = sizeIn arrs d

/-- An elementwise binary operation, matching axes by name and broadcasting the others; the axes of
the result come in the order of first appearance. `ValueError` if sizes disagree. -/
def binop (f : K → K → K) (A B : LArr K) : Except Err (LArr K) :=
  if compat [A, B] then
    .ok { dims := unionDims [A, B], shape := (unionDims [A, B]).map (sizeIn [A, B]),
          get := fun idx => f (A.val (env (unionDims [A, B]) idx)) (B.val (env (unionDims [A, B]) idx)) }
  else .error .value

/-- Elementwise function. -/
def map (f : K → K) (A : LArr K) : LArr K := { A with get := fun idx => f (A.get idx) }

/-- A number, seen as an array without axes. -/
def scalar (c : K) : LArr K := ⟨[], [], fun _ => c⟩

section
variable [CommSemiring K]

/-- Sum over the axes `ds` (with their sizes). -/
def sumOver : List (String × ℕ) → ((String → ℕ) → K) → (String → ℕ) → K
  | [], f, e => f e
  | (d, n) :: ds, f, e => ∑ i ∈ Finset.range n, sumOver ds f (Function.update e d i)

/-- The axes `xr.dot` sums over when `dims` is not given: those of more than one array. -/
def dotDims (arrs : List (LArr K)) : List String :=
  (unionDims arrs).filter fun d => 1 < arrs.countP fun A => d ∈ A.dims

/-- `xr.dot(*arrs, dims=dims)`: the axes shared by all arrays and not summed come first, then the
remaining ones in the order of first appearance. (xarray raises if sizes disagree; here the size is
read from the first array with that axis.) -/
def dot (arrs : List (LArr K)) (dims : Option (List String) := none) : LArr K :=
  let sd := dims.getD (dotDims arrs)
  let free := (unionDims arrs).filter fun d => d ∉ sd
  let bc := free.filter fun d => arrs.all fun A => d ∈ A.dims
  let out := bc ++ free.filter fun d => d ∉ bc
  { dims := out, shape := out.map (sizeIn arrs),
    get := fun idx => sumOver (sd.map fun d => (d, sizeIn arrs d)) (fun e => (arrs.map fun A => A.val e).prod)
      (env out idx) }

end

/-- `A.isel(d=i)`. -/
def isel (A : LArr K) (d : String) (i : ℕ) : LArr K where
  dims := A.dims.erase d
  shape := (A.dims.erase d).map A.size
  get := fun idx => A.val (Function.update (env (A.dims.erase d) idx) d i)

/-- `A.mean(dim=d)`. -/
def mean [Field K] (A : LArr K) (d : String) : LArr K where
  dims := A.dims.erase d
  shape := (A.dims.erase d).map A.size
  get := fun idx => (∑ i ∈ Finset.range (A.size d), A.val (Function.update (env (A.dims.erase d) idx) d i)) /
    (A.size d : K)

/-- A two-dimensional array. -/
def mk2 [Zero K] (d1 : String) (n1 : ℕ) (d2 : String) (n2 : ℕ) (f : ℕ → ℕ → K) : LArr K :=
  ⟨[d1, d2], [n1, n2], fun | [i, j] => f i j | _ => 0⟩

/-- A three-dimensional array. -/
def mk3 [Zero K] (d1 : String) (n1 : ℕ) (d2 : String) (n2 : ℕ) (d3 : String) (n3 : ℕ)
    (f : ℕ → ℕ → ℕ → K) : LArr K :=
  ⟨[d1, d2, d3], [n1, n2, n3], fun | [i, j, k] => f i j k | _ => 0⟩

/-- A four-dimensional array. -/
def mk4 [Zero K] (d1 : String) (n1 : ℕ) (d2 : String) (n2 : ℕ) (d3 : String) (n3 : ℕ) (d4 : String) (n4 : ℕ)
    (f : ℕ → ℕ → ℕ → ℕ → K) : LArr K :=
  ⟨[d1, d2, d3, d4], [n1, n2, n3, n4], fun | [i, j, k, l] => f i j k l | _ => 0⟩

/-- `xr.concat([A, B], dim=d)` for two-dimensional arrays with axes `(time, d)`. -/
def concat [Zero K] (A B : LArr K) (d : String) : LArr K :=
  mk2 "time" (A.size "time") d (A.size d + B.size d) fun t k =>
    if k < A.size d then A.get [t, k] else B.get [t, k - A.size d]

/-- `A.expand_dims({d: n}, axis=-1)` for a two-dimensional array. -/
def expandLast [Zero K] (A : LArr K) (d : String) (n : ℕ) : LArr K :=
  ⟨A.dims ++ [d], A.shape ++ [n], fun idx => A.get (idx.take A.dims.length)⟩

/-- `A.expand_dims({d: 1})`: a new first axis. -/
def expandFirst (A : LArr K) (d : String) : LArr K :=
  ⟨d :: A.dims, 1 :: A.shape, fun idx => A.get idx.tail⟩

/-- The underlying numpy array of a two-dimensional array, as a matrix. -/
def toMatrix (A : LArr K) (m n : ℕ) : Mat K m n := Matrix.of fun i j => A.get [(i : ℕ), (j : ℕ)]

end LArr

end Verif
