import Verif.Model.ComputeKernel
import Mathlib.Algebra.Order.Field.Basic

/-!
# Model of `VolterraBasis/basis/_local_features.py`: `SmoothIndicatorFeatures`

One sample, of dimension one (larger dimensions are rejected by `fit`, line 174). A boundary function takes its argument
and a derivation order. A division by zero (a boundary whose two ends coincide) gives zero here and `inf` or
`nan` in numpy: the properties assume distinct ends.
-/

namespace Verif

section
variable {K : Type*} [Field K]

/-- _local_features.py:95-106 `quartic`; other orders return `None`, see `boundarySupports`. -/
def quartic (u : K) (der : ℕ) : K :=
  let u2 := 1 - u ^ 2
  if der = 0 then u2 ^ 2
  else if der = 1 then -4 * u * u2
  else if der = 2 then 12 * u ^ 2 - 4
  else 0

/-- _local_features.py:109-120 `triweight`. -/
def triweight (u : K) (der : ℕ) : K :=
  let u2 := 1 - u ^ 2
  if der = 0 then u2 ^ 3
  else if der = 1 then -6 * u * u2 ^ 2
  else if der = 2 then -6 * u2 ^ 2 + 24 * u ^ 2 * u2
  else 0

/-- _local_features.py:123-134 `tricube`. -/
def tricube (u : K) (der : ℕ) : K :=
  let u3 := 1 - u ^ 3
  if der = 0 then u3 ^ 3
  else if der = 1 then -9 * u ^ 2 * u3 ^ 2
  else if der = 2 then 54 * u ^ 4 * u3 - 18 * u * u3 ^ 2
  else 0

end

/-- The argument `boundary_type` of the constructor. -/
inductive BoundaryType (K : Type*)
  | name (s : String)
  | callable (f : K → ℕ → K)

/-- _local_features.py:159-168: the choice of the boundary function. -/
def boundaryOf {K : Type*} [Field K] : BoundaryType K → Except Err (K → ℕ → K)
  | .name "tricube" => .ok tricube
  | .name "triweight" => .ok triweight
  | .name "quartic" => .ok quartic
  | .name _ => .error .value
  | .callable f => .ok f

/-- The boundary functions of the module are defined for the orders 0, 1 and 2 and return `None` for the others. -/
def boundarySupports {K : Type*} : BoundaryType K → ℕ → Bool
  | .name _, der => der ≤ 2
  | .callable _, _ => true

/-- _local_features.py:170-178 `fit`: `n_output_features_`. -/
def indicatorFit (nStates : ℕ) (periodic : Bool) (dim : ℕ) : Except Err ℕ :=
  if dim > 1 then .error .value else .ok (nStates + if periodic then 0 else 1)

section
variable {K : Type*} [Field K] [LinearOrder K]

/-- Lines 184-186, 195-197, 214-216 and 226-228: `u = (X - a) / (b - a)` with `a` and `b` the ordered ends. -/
def indicatorArg (bd : K × K) (x : K) : K :=
  let a := min bd.1 bd.2
  let b := max bd.1 bd.2
  (x - a) / (b - a)

/-- _local_features.py:180-208 `basis`, for a boundary function `B` (its order zero); the states are `bd`. -/
def indicatorBasis (B : K → K) (bd : Arr (K × K)) (periodic : Bool) (x : K) : Except Err (Arr K) :=
  if bd.len = 0 then .error .index else
  let nOut := bd.len + if periodic then 0 else 1
  let u := indicatorArg (bd.get 0) x
  let occ := B u
  let occ := if u < 0 then 1 else occ
  let occ := if u > 1 then 0 else occ
  let features := Function.update (fun _ => 0) 0 occ
  let (features, occNext) := forRange 1 bd.len (fun n (s : (ℕ → K) × K) =>
    let u := indicatorArg (bd.get n) x
    let occ := B u
    let occ := if u > 1 then 0 else occ
    (Function.update s.1 n (if u < 0 then s.2 else occ), 1 - if u < 0 then 1 else occ)) (features, 1 - occ)
  if periodic then
    .ok ⟨nOut, Function.update features 0 (if occNext > 0 then occNext else features 0)⟩
  else
    .ok ⟨nOut, Function.update features bd.len occNext⟩

/-- _local_features.py:210-239 `deriv`, for a boundary function whose derivative of the requested order is `dB`; the
`order` additional axes have length one and are left out. -/
def indicatorDeriv (dB : K → K) (order : ℕ) (bd : Arr (K × K)) (periodic : Bool) (x : K) : Except Err (Arr K) :=
  if bd.len = 0 then .error .index else
  let nOut := bd.len + if periodic then 0 else 1
  let width := fun n => max (bd.get n).1 (bd.get n).2 - min (bd.get n).1 (bd.get n).2
  let u := indicatorArg (bd.get 0) x
  let der := dB u / width 0 ^ order
  let der := if u < 0 then 0 else der
  let der := if u > 1 then 0 else der
  let features := Function.update (fun _ => 0) 0 der
  let (features, derNext) := forRange 1 bd.len (fun n (s : (ℕ → K) × K) =>
    let u := indicatorArg (bd.get n) x
    let der := dB u / width n ^ order
    let der := if u > 1 then 0 else der
    (Function.update s.1 n (if u < 0 then s.2 else der), -(if u < 0 then 0 else der))) (features, -der)
  if periodic then
    .ok ⟨nOut, Function.update features 0 (if derNext ≠ 0 then derNext else features 0)⟩
  else
    .ok ⟨nOut, Function.update features bd.len derNext⟩

/-- `SmoothIndicatorFeatures(bd, bt, periodic).fit(...).basis(X)`. -/
def smoothIndicatorBasis (bt : BoundaryType K) (bd : Arr (K × K)) (periodic : Bool) (x : K) : Except Err (Arr K) := do
  let f ← boundaryOf bt
  indicatorBasis (f · 0) bd periodic x

/-- `SmoothIndicatorFeatures(bd, bt, periodic).fit(...).deriv(X, order)`; dividing `None` raises `TypeError`. -/
def smoothIndicatorDeriv (bt : BoundaryType K) (order : ℕ) (bd : Arr (K × K)) (periodic : Bool) (x : K) :
    Except Err (Arr K) := do
  let f ← boundaryOf bt
  if bd.len = 0 then throw .index
  if boundarySupports bt order then indicatorDeriv (f · order) order bd periodic x else throw .type

end

end Verif
