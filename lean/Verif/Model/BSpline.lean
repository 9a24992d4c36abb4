import Verif.Model.Features

/-!
# Model of the features made of splines

`BSplineFeatures` (VolterraBasis/basis/_local_features.py:13-92) and `SplineFctFeatures`
(VolterraBasis/basis/_basis_features.py:194-228). The splines of scipy are given by their values: `S n r s` is
`splev(s, bsplines_[n], der=r)` and `A n r s` is `splev(s, splantider(bsplines_[n], n=r))`.
-/

namespace Verif

section
variable {K : Type*} [Zero K]

/-- _local_features.py:60-67 `basis`. -/
def bsplineBasis (S : ℕ → ℕ → K → K) (nsplines dim : ℕ) (x : ℕ → K) : Arr K :=
  fillBasis nsplines dim (fun n => S n 0) x

/-- _local_features.py:69-79 `deriv`: the last splines are dropped, and the others are not shifted. -/
def bsplineDeriv (S : ℕ → ℕ → K → K) (k nsplines : ℕ) (constRemoved : Bool) (dim order : ℕ) (x : ℕ → K) :
    Arr (List ℕ → K) :=
  if k < order then ⟨dim * (nsplines - withConst constRemoved), fun _ _ => 0⟩
  else fillDeriv 0 (nsplines - withConst constRemoved) dim order (fun n => S n order) x

/-- _local_features.py:81-82 `hessian`. -/
def bsplineHessian (S : ℕ → ℕ → K → K) (k nsplines : ℕ) (constRemoved : Bool) (dim : ℕ) (x : ℕ → K) :
    Arr (List ℕ → K) := bsplineDeriv S k nsplines constRemoved dim 2 x

/-- _local_features.py:84-92 `antiderivative`. -/
def bsplineAntiderivative (A : ℕ → ℕ → K → K) (nsplines dim order : ℕ) (x : ℕ → K) : Arr K :=
  fillBasis nsplines dim (fun n => A n order) x

/-- _local_features.py:48-58 `fit` with 13-24 `_get_bspline_basis`: `_nsplines` and `n_output_features_`. `knots` is the
length of the knots that are given. Without them, `np.linspace` between the two rows of `minmax` has the shape
`(n_knots, dim)`, and `splrep` (a wrapper of the Fortran routines, which take vectors) refuses an array with two axes longer
than one: `ValueError`. `splrep` needs more than `k` points (`TypeError`). -/
def bsplineFit (k nKnots dim : ℕ) (knots : Option ℕ) : Except Err (ℕ × ℕ) :=
  let n := knots.getD nKnots
  if n ≤ k then .error .type
  else if knots = none ∧ 2 ≤ dim ∧ 2 ≤ n then .error .value
  else .ok (n, n * dim)

/-- _basis_features.py:214-215 `SplineFctFeatures.basis`: `s 0` is the spline, `s r` its derivative of order `r`. -/
def splineFctBasis (s : ℕ → K → K) (dim : ℕ) (x : ℕ → K) : Arr K := ⟨dim, fun j => s 0 (x j)⟩

/-- _basis_features.py:217-222 `SplineFctFeatures.deriv`. -/
def splineFctDeriv (s : ℕ → K → K) (dim order : ℕ) (x : ℕ → K) : Arr (List ℕ → K) :=
  ⟨dim, forRange 0 dim (fun i f => Function.update f i
    (Function.update (f i) (List.replicate order i) (s order (x i)))) fun _ _ => 0⟩

/-- _basis_features.py:227-228 `SplineFctFeatures.antiderivative`: `a r` is `spl_.antiderivative(r)`. -/
def splineFctAntiderivative (a : ℕ → K → K) (dim order : ℕ) (x : ℕ → K) : Arr K := ⟨dim, fun j => a order (x j)⟩

end

end Verif
