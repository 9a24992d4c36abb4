import Verif.Model.Describe

/-!
# Model of `VolterraBasis/basis/_multidim_basis.py`: `TensorialBasis2D`

One sample, with the coordinates `x 0` and `x 1`.
-/

namespace Verif

section
variable {K : Type*} [Field K]

/-- What `TensorialBasis2D` uses of a fitted one-dimensional basis: `const_removed` is an attribute that `deriv` reads. The
derivatives of order `r` carry `r` axes of length one, with index `[0, ..., 0]`. -/
structure Basis1D (K : Type*) where
  nOut : ℕ
  constRemoved : Bool
  basis : K → Arr K
  deriv : Bool → ℕ → K → Arr (List ℕ → K)

/-- `b.deriv(X, deriv_order=r)` with the current attribute. -/
def Basis1D.derivOf (b : Basis1D K) (r : ℕ) (x : K) : Arr (List ℕ → K) := b.deriv b.constRemoved r x

/-- _multidim_basis.py:15-25 `__init__` on the attributes of the two bases (on aliasing see `tensorInit`). -/
def Basis1D.forceRank (b : Basis1D K) : Basis1D K := { b with constRemoved := false }

/-- `np.einsum("nk...,nl...->nkl...", a, b).reshape(nsamples, -1, ...)` for one sample, the result depending on the index of
the remaining axes being left to `mul`. -/
def outerFlat {α β γ : Type*} (mul : α → β → γ) (a : Arr α) (b : Arr β) : Arr γ :=
  ⟨a.len * b.len, fun k => mul (a.get (k / b.len)) (b.get (k % b.len))⟩

/-- _multidim_basis.py:42-45 `basis`. -/
def tensorBasis (b1 b2 : Basis1D K) (x : ℕ → K) : Arr K := outerFlat (· * ·) (b1.basis (x 0)) (b2.basis (x 1))

/-- `np.concatenate((a, b), axis=-1)` on the last axis of length one each: the entry with last index `0` is from `a`. The other
axes must agree. -/
def concatLast {α : Type*} (a b : Arr (List ℕ → α)) : Except Err (Arr (List ℕ → α)) :=
  if a.len ≠ b.len then .error .value
  else .ok ⟨a.len, fun k idx =>
    match idx.getLast? with
    | some 0 => a.get k (idx.dropLast ++ [0])
    | _ => b.get k (idx.dropLast ++ [0])⟩

/-- _multidim_basis.py:60-70 `hessian`: the four blocks, then the two concatenations (`axis=-2`, then `axis=-1`). -/
def tensorHessian (b1 b2 : Basis1D K) (x : ℕ → K) : Except Err (Arr (List ℕ → K)) :=
  let hess1 := outerFlat (fun (f : K) (h : List ℕ → K) => f * h [0, 0]) (b1.basis (x 0)) (b2.derivOf 2 (x 1))
  let cross := outerFlat (fun (f g : List ℕ → K) => f [0] * g [0]) (b1.derivOf 1 (x 0)) (b2.derivOf 1 (x 1))
  let hess2 := outerFlat (fun (h : List ℕ → K) (f : K) => h [0, 0] * f) (b1.derivOf 2 (x 0)) (b2.basis (x 1))
  if hess2.len ≠ cross.len ∨ cross.len ≠ hess1.len then .error .value
  else .ok ⟨hess2.len, fun k idx =>
    match idx with
    -- the last index selects the pair, the one before the element of the pair
    | [0, 0] => hess2.get k
    | [1, 0] => cross.get k
    | [0, 1] => cross.get k
    | _ => hess1.get k⟩

/-- _multidim_basis.py:47-58 `deriv`, for orders from one on (order zero is never requested). -/
def tensorDeriv (b1 b2 : Basis1D K) (order : ℕ) (x : ℕ → K) : Except Err (Arr (List ℕ → K)) :=
  if order = 2 then tensorHessian b1 b2 x
  else if order > 2 then .error .notImplemented
  else
    let grad1 := outerFlat (fun (f : K) (g : List ℕ → K) => fun idx => f * g idx) (b1.basis (x 0)) (b2.derivOf order (x 1))
    let grad2 := outerFlat (fun (g : List ℕ → K) (f : K) => fun idx => g idx * f) (b1.derivOf order (x 0)) (b2.basis (x 1))
    concatLast grad2 grad1

end

/-- _multidim_basis.py:75-79 `comb_indices`: `np.ravel_multi_index`, which raises `ValueError` out of range. -/
def combIndices (n1 n2 : ℕ) (i j : ℤ) : Except Err ℤ :=
  if 0 ≤ i ∧ i < n1 ∧ 0 ≤ j ∧ j < n2 then .ok (i * n2 + j) else .error .value

/-- _multidim_basis.py:81-85 `split_index`: `np.unravel_index`. -/
def splitIndex (n1 n2 : ℕ) (k : ℤ) : Except Err (ℤ × ℤ) :=
  if 0 ≤ k ∧ k < n1 * n2 then .ok (k / n2, k % n2) else .error .value

/-! ### `fit` and aliasing -/

section
variable {K : Type*}

/-- The objects: what each one was last fitted on. -/
abbrev BasisHeap (K : Type*) := ℕ → Option (DescribeResult K)

/-- _multidim_basis.py:15-21 `__init__`: the two references; without second basis the first object is used twice. -/
def tensorInit (b1 : ℕ) (b2 : Option ℕ) : ℕ × ℕ := (b1, b2.getD b1)

/-- The coordinate `c` of a description, lines 34-35. -/
def DescribeResult.coord (d : DescribeResult K) (c : ℕ) : DescribeResult K :=
  ⟨d.nobs, 1, fun _ => d.min c, fun _ => d.max c, fun _ => d.mean c, fun _ => d.variance c⟩

/-- _multidim_basis.py:27-38 `fit`: effect on the two objects. -/
def tensorFit (refs : ℕ × ℕ) (d : DescribeResult K) (h : BasisHeap K) : Except Err (BasisHeap K) :=
  if d.dim ≠ 2 then .error .value
  else
    let h := Function.update h refs.1 (some (d.coord 0))
    let h := Function.update h refs.2 (some (d.coord 1))
    .ok h

end

end Verif
