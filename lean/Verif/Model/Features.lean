import Verif.Model.ComputeKernel
import Mathlib.Algebra.Polynomial.Derivative
import Mathlib.Analysis.SpecialFunctions.Trigonometric.Basic

/-!
# Model of `VolterraBasis/basis/_basis_features.py`

The code evaluates the features row by row on an array of samples: the model describes one row, the sample being
the function `x : ℕ → K` of the coordinate (`dim` of them). An array of features is an `Arr`: its number of columns
and its entries. The derivatives of order `r` have `r` more axes of size `dim`, whose index is a list of length `r`.
-/

namespace Verif

section
variable {K : Type*} [Zero K]

/-- `features[:, istart:iend] = values`. -/
def writeBlock (f : ℕ → K) (istart iend : ℕ) (values : ℕ → K) : ℕ → K :=
  fun j => if istart ≤ j ∧ j < iend then values (j - istart) else f j

/-- The loop of `basis` and `antiderivative` (e.g. _basis_features.py:76-80): the block `n` holds the function `φ n` of
each coordinate. -/
def fillBasis (degree dim : ℕ) (φ : ℕ → K → K) (x : ℕ → K) : Arr K :=
  ⟨dim * degree, forRange 0 degree (fun n f => writeBlock f (n * dim) ((n + 1) * dim) fun i => φ n (x i)) fun _ => 0⟩

/-- The loop of `deriv` (e.g. _basis_features.py:87-91): `shift` functions are dropped, and the derivatives of order
`order` are written on the diagonal `(i, ..., i)`. -/
def fillDeriv (shift degree dim order : ℕ) (dφ : ℕ → K → K) (x : ℕ → K) : Arr (List ℕ → K) :=
  ⟨dim * (degree - shift), forRange shift degree (fun n f =>
    forRange 0 dim (fun i f => Function.update f ((n - shift) * dim + i)
      (Function.update (f ((n - shift) * dim + i)) (List.replicate order i) (dφ n (x i)))) f) fun _ _ => 0⟩

end

/-- `const_removed` as a number, _basis_features.py:85. -/
def withConst (constRemoved : Bool) : ℕ := if constRemoved then 1 else 0

/-! ### `LinearFeatures`, _basis_features.py:13-48 -/

section
variable {K : Type*} [Field K]

/-- _basis_features.py:23-32 `fit`: the number of features, and `mean_`. -/
def linearMean (centered : Bool) (mean : ℕ → K) : ℕ → K := if centered then mean else fun _ => 0

/-- _basis_features.py:34-35 `basis`. -/
def linearBasis (dim : ℕ) (mean : ℕ → K) (x : ℕ → K) : Arr K := ⟨dim, fun i => x i - mean i⟩

/-- _basis_features.py:37-43 `deriv`. -/
def linearDeriv (dim order : ℕ) (_x : ℕ → K) : Arr (List ℕ → K) :=
  ⟨dim, if order = 1 then
    forRange 0 dim (fun i f => Function.update f i (Function.update (f i) [i] 1)) fun _ _ => 0
    else fun _ _ => 0⟩

/-- _basis_features.py:48-49 `antiderivative`, which ignores the mean. -/
def linearAntiderivative (dim : ℕ) (x : ℕ → K) : Arr K := ⟨dim, fun i => 1 / 2 * x i ^ 2⟩

/-! ### `PolynomialFeatures`, _basis_features.py:52-103

A numpy polynomial class is a family `P : ℕ → K[X]` (`P n` is `polynom.basis(n)`), evaluated exactly;
`deriv` is the derivative of the polynomial and `integ` its antiderivative that vanishes at zero (numpy's `lbnd = 0`,
the default domain being equal to the window). -/

open Polynomial in
/-- `p.integ(1)`. -/
noncomputable def polyInteg (p : K[X]) : K[X] := p.sum fun n a => monomial (n + 1) (a / ((n : K) + 1))

open Polynomial in
/-- _basis_features.py:72-81 `basis`; `degree = deg + 1` (line 61). -/
noncomputable def polyBasis (P : ℕ → K[X]) (degree dim : ℕ) (x : ℕ → K) : Arr K :=
  fillBasis degree dim (fun n s => (P n).eval s) x

open Polynomial in
/-- _basis_features.py:83-91 `deriv`. -/
noncomputable def polyDeriv (P : ℕ → K[X]) (degree : ℕ) (constRemoved : Bool) (dim order : ℕ) (x : ℕ → K) :
    Arr (List ℕ → K) :=
  fillDeriv (withConst constRemoved) degree dim order (fun n s => (derivative^[order] (P n)).eval s) x

open Polynomial in
/-- _basis_features.py:96-103 `antiderivative`. -/
noncomputable def polyAntiderivative (P : ℕ → K[X]) (degree dim order : ℕ) (x : ℕ → K) : Arr K :=
  fillBasis degree dim (fun n s => (polyInteg^[order] (P n)).eval s) x

/-- _basis_features.py:68 and 127: `n_output_features_` of the polynomial and Fourier features. -/
def blockNOut (degree dim : ℕ) : ℕ := dim * degree

end

/-! ### `FourierFeatures`, _basis_features.py:106-191 -/

/-- _basis_features.py:137-144, the function number `n`. -/
noncomputable def fourierFn (freq : ℝ) (n : ℕ) (s : ℝ) : ℝ :=
  if n = 0 then 1 / Real.sqrt (2 * Real.pi)
  else if n % 2 = 0 then Real.cos (n / 2 * s * freq) / Real.sqrt Real.pi
  else Real.sin ((n + 1) / 2 * s * freq) / Real.sqrt Real.pi

/-- _basis_features.py:156-159. -/
noncomputable def fourierFnDeriv (freq : ℝ) (n : ℕ) (s : ℝ) : ℝ :=
  if n % 2 = 0 then -n / 2 * freq * Real.sin (n / 2 * freq * s) / Real.sqrt Real.pi
  else (n + 1) / 2 * freq * Real.cos ((n + 1) / 2 * freq * s) / Real.sqrt Real.pi

/-- _basis_features.py:169-172. -/
noncomputable def fourierFnHess (freq : ℝ) (n : ℕ) (s : ℝ) : ℝ :=
  if n % 2 = 0 then -((n / 2 * freq) ^ 2) * Real.cos (n / 2 * freq * s) / Real.sqrt Real.pi
  else -(((n + 1) / 2 * freq) ^ 2) * Real.sin ((n + 1) / 2 * freq * s) / Real.sqrt Real.pi

/-- _basis_features.py:183-190. -/
noncomputable def fourierFnAnti (freq : ℝ) (n : ℕ) (s : ℝ) : ℝ :=
  if n = 0 then s / Real.sqrt (2 * Real.pi)
  else if n % 2 = 0 then Real.sin (n / 2 * s * freq) / (Real.sqrt Real.pi * n / 2 * freq)
  else -1 * Real.cos ((n + 1) / 2 * s * freq) / (Real.sqrt Real.pi * (n + 1) / 2 * freq)

/-- _basis_features.py:131-145 `basis`; `order = 2 * order + 1` (line 121). -/
noncomputable def fourierBasis (freq : ℝ) (order dim : ℕ) (x : ℕ → ℝ) : Arr ℝ :=
  fillBasis (2 * order + 1) dim (fourierFn freq) x

/-- _basis_features.py:162-173 `hessian`. -/
noncomputable def fourierHessian (freq : ℝ) (order : ℕ) (constRemoved : Bool) (dim : ℕ) (x : ℕ → ℝ) :
    Arr (List ℕ → ℝ) :=
  fillDeriv (withConst constRemoved) (2 * order + 1) dim 2 (fourierFnHess freq) x

/-- _basis_features.py:147-160 `deriv`. -/
noncomputable def fourierDeriv (freq : ℝ) (order : ℕ) (constRemoved : Bool) (dim derivOrder : ℕ) (x : ℕ → ℝ) :
    Arr (List ℕ → ℝ) :=
  if derivOrder = 2 then fourierHessian freq order constRemoved dim x
  else fillDeriv (withConst constRemoved) (2 * order + 1) dim derivOrder (fourierFnDeriv freq) x

/-- _basis_features.py:175-191 `antiderivative`. -/
noncomputable def fourierAntiderivative (freq : ℝ) (order dim antiOrder : ℕ) (x : ℕ → ℝ) : Except Err (Arr ℝ) :=
  if 1 < antiOrder then .error .notImplemented
  else .ok (fillBasis (2 * order + 1) dim (fourierFnAnti freq) x)

/-! ### `FeaturesCombiner`, _basis_features.py:231-266 -/

/-- A fitted basis at one sample: what `basis(X)` and `deriv(X, order)` return, `n_output_features_` and
`const_removed`. -/
structure FeatureRow (K : Type*) where
  nOut : ℕ
  constRemoved : Bool
  basis : Arr K
  deriv : ℕ → Arr (List ℕ → K)

/-- `np.concatenate((a, b), axis=1)`. -/
def Arr.append {α : Type*} (a b : Arr α) : Arr α :=
  ⟨a.len + b.len, fun j => if j < a.len then a.get j else b.get (j - a.len)⟩

/-- _basis_features.py:245: `n_output_features_` of the combination. -/
def combinerNOut {K : Type*} (bs : List (FeatureRow K)) : ℕ := (bs.map (·.nOut)).sum

/-- _basis_features.py:238: `const_removed`. -/
def combinerConstRemoved {K : Type*} (bs : List (FeatureRow K)) : Bool := bs.any (·.constRemoved)

/-- _basis_features.py:249-253 `basis`. -/
def combinerBasis {K : Type*} (bs : List (FeatureRow K)) : Except Err (Arr K) :=
  match bs with
  | [] => .error .index
  | b :: bs => .ok (bs.foldl (fun f b => f.append b.basis) b.basis)

/-- _basis_features.py:255-260 `deriv`. The loop stores its result in `features` but always starts from `grad`; with
one basis `features` is never assigned. -/
def combinerDeriv {K : Type*} (bs : List (FeatureRow K)) (order : ℕ) : Except Err (Arr (List ℕ → K)) :=
  match bs with
  | [] => .error .index
  | b :: bs =>
    let grad := b.deriv order
    match bs.foldl (fun (_ : Option (Arr (List ℕ → K))) b => some (grad.append (b.deriv order))) none with
    | none => .error .unbound
    | some features => .ok features

end Verif
