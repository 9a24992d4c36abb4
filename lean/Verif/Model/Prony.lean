import Verif.Model.ComputeKernel
import Mathlib.Analysis.Normed.Algebra.MatrixExponential
import Mathlib.Analysis.SpecialFunctions.Sqrt
import Mathlib.Analysis.SpecialFunctions.Complex.Log
import Mathlib.Data.Sign.Basic
import Mathlib.LinearAlgebra.Matrix.NonsingularInverse
import Mathlib.Data.Matrix.Block

/-!
# Model of fit_prony.py

Real arithmetic. Where the code divides by zero and goes on with `nan`, the model divides to zero; the theorems
ask for a positive threshold, with which this does not happen.
-/

namespace Verif

open Finset

/-- fit_prony.py:12-19 `reconstruct_data(H)` for a matrix of `r` rows and `c` columns. An assignment of `c` values
to the `r` places `y[c - 1:]` is a `ValueError`, unless there is one value, which fills all of them. -/
def reconstructData {K : Type*} (r c : ℕ) (H : ℕ → ℕ → K) : Except Err (Arr K) :=
  if r = 0 ∨ c = 0 then .error .index
  else if c ≠ r ∧ c ≠ 1 then .error .value
  else .ok ⟨r + c - 1, fun i => if c - 1 ≤ i then (if c = 1 then H (r - 1) 0 else H (r - 1) (i - (c - 1))) else H i 0⟩

/-- fit_prony.py:31 and 130, the default size. -/
def hankelSize (len : ℕ) : ℕ := (len - 1) / 2

/-- fit_prony.py:32 and 131 `scipy.linalg.hankel(y[:n + 1], y[n:2 * n + 1])`: the first column is continued by the
last row, without its first entry. The rows and columns are `n + 1` when the series has `2 * n + 1` points. -/
def hankelMat {K : Type*} (y : ℕ → K) (n i j : ℕ) : K :=
  let c : ℕ → K := fun i => y i
  let r : ℕ → K := fun j => y (n + j)
  if i + j < n + 1 then c (i + j) else r (i + j - n)

/-- What `np.linalg.svd(hankel, hermitian=True)` returns: vectors, values and signs, with
`vh = transpose(u * sgn)`. -/
structure HermSvd (n : ℕ) where
  /-- the columns are the vectors -/
  u : Mat ℝ (n + 1) (n + 1)
  s : Fin (n + 1) → ℝ
  sgn : Fin (n + 1) → ℝ

/-- The contract of `np.linalg.svd(A, hermitian=True)`. -/
structure HermSvd.IsSvd {n : ℕ} (S : HermSvd n) (A : Mat ℝ (n + 1) (n + 1)) : Prop where
  orth : S.u * S.u.transpose = 1
  nonneg : ∀ k, 0 ≤ S.s k
  anti : Antitone S.s
  sgn : ∀ k, S.sgn k = 1 ∨ S.sgn k = -1 ∨ (S.sgn k = 0 ∧ S.s k = 0)
  eq : ∀ i j, A i j = ∑ k, S.u i k * S.s k * (S.sgn k * S.u j k)

/-- fit_prony.py:50 and 148: the matrix of the `N` largest singular values. -/
def HermSvd.filtered {n : ℕ} (S : HermSvd n) (N : ℕ) : Mat ℝ (n + 1) (n + 1) := fun i j =>
  ∑ k, if k.val < N then S.u i k * S.s k * (S.sgn k * S.u j k) else 0

/-- fit_prony.py:22-23 `phi_bis(u, v, A)` for vectors as long as the matrix. -/
def phi {n : ℕ} (A : Mat ℝ n n) (u v : Fin n → ℝ) : ℝ := ∑ i, u i * ∑ j, A i j * v j

/-- fit_prony.py:36-46, the same as 133-143: the number of singular values to keep and the threshold. `eps` is the
precision of the type. -/
noncomputable def pronyKeep {n : ℕ} (S : HermSvd n) (eps : ℝ) (thres : Option ℝ) (nKeep : Option ℕ) : Except Err (ℕ × ℝ) :=
  let t := thres.getD ((univ.sup' univ_nonempty S.s) * (n + 1) * eps)
  let rank := (univ.filter fun k => t < S.s k).card
  match nKeep with
  | none => .ok (min rank n, t)
  | some m =>
    let N := min m rank
    if h : N < n + 1 then .ok (min N n, S.s ⟨N, h⟩) else .error .index

/-- fit_prony.py:59-60: the vector `v` without its components along `us`. -/
noncomputable def orthogonalise {n : ℕ} (H : Mat ℝ n n) (us : List (Fin n → ℝ)) (v : Fin n → ℝ) : Fin n → ℝ :=
  us.foldl (fun t u => t - (phi H t u / phi H u u) • u) v

/-- fit_prony.py:56-67, the loop over the indices still to be treated; `us` are the rows of `u` filled so far.
`IndexError` from `u[curr_i, :]` when there is no row left. -/
noncomputable def ldlLoop {n : ℕ} (H : Mat ℝ n n) (N : ℕ) (thres : ℝ) : List (Fin n) → List (Fin n → ℝ) → Except Err (List (Fin n → ℝ))
  | [], us => .ok us
  | i :: is, us =>
    let t := orthogonalise H us (Pi.single i 1)
    if thres ≤ |phi H t t| then
      if us.length < N then
        if N ≤ us.length + 1 then .ok (us ++ [t]) else ldlLoop H N thres is (us ++ [t])
      else .error .index
    else if N ≤ us.length then .ok us else ldlLoop H N thres is us

/-- What `ldl_hankel` returns: the rows of `dlu`, the diagonal of signs, and the filtered matrix. -/
structure Ldl (n : ℕ) where
  size : ℕ
  dlu : Fin size → Fin (n + 1) → ℝ
  sign : Fin size → ℝ
  H : Mat ℝ (n + 1) (n + 1)

/-- fit_prony.py:68-72: the normalised vectors and the signs. -/
noncomputable def ldlOut {n : ℕ} (H : Mat ℝ (n + 1) (n + 1)) (us : List (Fin (n + 1) → ℝ)) : Except Err (Ldl n) :=
  if us.length = 0 then .error .value
  else .ok ⟨us.length, fun a => (1 / √|phi H (us.get a) (us.get a)|) • us.get a,
    fun a => (SignType.sign (phi H (us.get a) (us.get a)) : ℝ), H⟩

/-- fit_prony.py:26-72 `ldl_hankel(y, n, thres, N_keep)`, with the result of the singular value decomposition
given. A series of less than `2 * n + 1` points makes a matrix that is not square: `LinAlgError`. -/
noncomputable def ldlHankel (y : Arr ℝ) (n : ℕ) (svd : Mat ℝ (n + 1) (n + 1) → HermSvd n) (eps : ℝ) (thres : Option ℝ)
    (nKeep : Option ℕ) : Except Err (Ldl n) :=
  if y.len < 2 * n + 1 then .error .linAlg
  else
    let S := svd fun i j => hankelMat y.get n i j
    match pronyKeep S eps thres nKeep with
    | .error e => .error e
    | .ok (N, t) =>
      let H := S.filtered N
      match ldlLoop H N t (List.finRange (n + 1)) [] with
      | .error e => .error e
      | .ok us => ldlOut H us

/-- fit_prony.py:84: ones below the diagonal. -/
def shiftMat (n : ℕ) : Mat ℝ (n + 1) (n + 1) := fun i j => if i.val = j.val + 1 then 1 else 0

/-- fit_prony.py:85 `dlu @ (H @ shift) @ dlu.T @ D`. -/
noncomputable def Ldl.jacobi {n : ℕ} (L : Ldl n) : Mat ℝ L.size L.size :=
  (Matrix.of L.dlu) * (L.H * shiftMat n) * (Matrix.of L.dlu).transpose * Matrix.diagonal L.sign

/-- fit_prony.py:75-88 `get_jacobi_matrix_reduced(y, n, thres, N_keep)`, the matrix with its size. -/
noncomputable def jacobiReduced (y : Arr ℝ) (n : ℕ) (svd : Mat ℝ (n + 1) (n + 1) → HermSvd n) (eps : ℝ) (thres : Option ℝ)
    (nKeep : Option ℕ) : Except Err (Σ N : ℕ, Mat ℝ N N) :=
  (ldlHankel y n svd eps thres nKeep).map fun L => ⟨L.size, L.jacobi⟩

/-- fit_prony.py:121-149 `prony_inspect_data(data, thres, N_keep)` without the printing. -/
noncomputable def pronyInspect (data : Arr ℝ) (svd : (n : ℕ) → Mat ℝ (n + 1) (n + 1) → HermSvd n) (eps : ℝ) (thres : Option ℝ)
    (nKeep : Option ℕ) : Except Err (Arr ℝ) :=
  if data.len = 0 then .error .index
  else
    let y : Arr ℝ := ⟨data.len, fun i => data.get i / data.get 0⟩
    let n := hankelSize data.len
    let S := svd n fun i j => hankelMat y.get n i j
    match pronyKeep S eps thres nKeep with
    | .error e => .error e
    | .ok (N, _) =>
      let H := S.filtered N
      (reconstructData (n + 1) (n + 1) fun i j => if h : i < n + 1 ∧ j < n + 1 then H ⟨i, h.1⟩ ⟨j, h.2⟩ else 0).map
        fun y => ⟨y.len, fun i => data.get 0 * y.get i⟩

/-- fit_prony.py:196 and 247 `y0 * expm(t * A)[0, 0]`: `IndexError` for an empty matrix. -/
noncomputable def pronyTerm (y0 : ℝ) (m : ℕ) (A : Mat ℝ m m) (t : ℝ) : Except Err ℝ :=
  if h : 0 < m then .ok (y0 * (NormedSpace.exp (t • A) : Mat ℝ m m) ⟨0, h⟩ ⟨0, h⟩) else .error .index

/-- fit_prony.py:179-197 `prony_series_eval(times, y0, A)`, for a one dimensional array of times. One time is
squeezed to an array without shape: `IndexError` from `times.shape[0]`. -/
noncomputable def pronySeriesEval (times : List ℝ) (y0 : ℝ) (m : ℕ) (A : Mat ℝ m m) : Except Err (List ℝ) :=
  if times.length = 1 then .error .index else times.mapM (pronyTerm y0 m A)

/-- What `np.linalg.eig(J)` returns. -/
structure EigData (N : ℕ) where
  lamb : Fin N → ℂ
  /-- the columns are the vectors -/
  vect : Mat ℂ N N

/-- The contract of `np.linalg.eig`, for a matrix with independent eigenvectors. -/
structure EigData.IsEig {N : ℕ} (E : EigData N) (J : Mat ℝ N N) : Prop where
  eq : (J.map Complex.ofReal) * E.vect = E.vect * Matrix.diagonal E.lamb
  unit : IsUnit E.vect.det

open Classical in
/-- fit_prony.py:100-102: the eigenvalues that are kept, in their order. -/
noncomputable def EigData.kept {N : ℕ} (E : EigData N) (remove : Bool) : List (Fin N) :=
  (List.finRange N).filter fun k => !remove || decide (‖E.lamb k‖ ≤ 1)

open Classical in
/-- fit_prony.py:105: the eigenvalues that are duplicated. Complex numbers are compared by their real parts, then by
their imaginary parts. -/
noncomputable def duplicated {m : ℕ} (lamb : Fin m → ℂ) : List (Fin m) :=
  (List.finRange m).filter fun k => decide (|(lamb k).im| < 1e-15 ∧ ((lamb k).re < 0 ∨ ((lamb k).re = 0 ∧ (lamb k).im < 0)))

/-- fit_prony.py:109-113 `new_vect`; `sg` are the signs of the imaginary parts of the logarithms. -/
noncomputable def newVect {m q : ℕ} (V : Mat ℂ m m) (dup : Fin q → Fin m) (sg : Fin m → ℝ) :
    Matrix (Fin m ⊕ Fin q) (Fin m ⊕ Fin q) ℂ :=
  Matrix.fromBlocks V (V.submatrix id dup) (fun a k => if k = dup a then Complex.I * sg k else 0)
    (Matrix.diagonal fun a => -Complex.I * sg (dup a))

/-- fit_prony.py:114: the logarithms, followed by the conjugates of the duplicated ones. -/
noncomputable def newLog {m q : ℕ} (lamb : Fin m → ℂ) (dt : ℝ) (dup : Fin q → Fin m) : Fin m ⊕ Fin q → ℂ :=
  Sum.elim (fun k => Complex.log (lamb k) / dt) fun a => (starRingEnd ℂ) (Complex.log (lamb (dup a)) / dt)

open Classical in
/-- fit_prony.py:91-118 `clean_eigenvalues(J, dt, remove)`, with the result of `np.linalg.eig` given. `np.linalg.eig`
returns real arrays when all the eigenvalues are real; the logarithm of a negative number is then `nan`, whose
imaginary part is `0`, hence the signs `0`. `np.linalg.inv` raises for a singular matrix. The logarithm of an
eigenvalue `0`, which is `-inf` for numpy, is `0` here. -/
noncomputable def cleanEigenvalues {N : ℕ} (E : EigData N) (dt : ℝ) (remove : Bool) : Except Err (Σ m : ℕ, Mat ℝ m m) :=
  let kept := E.kept remove
  let m := kept.length
  let lamb : Fin m → ℂ := fun k => E.lamb (kept.get k)
  let V : Mat ℂ m m := fun i k => if h : i.val < N then E.vect ⟨i, h⟩ (kept.get k) else 0
  let dup := duplicated lamb
  let sg : Fin m → ℝ := fun k => if ∀ k, (E.lamb k).im = 0 then 0 else (SignType.sign (Complex.log (lamb k) / dt).im : ℝ)
  let W := newVect V dup.get sg
  if IsUnit W.det then
    .ok ⟨m + dup.length, ((W * Matrix.diagonal (newLog lamb dt dup.get) * W⁻¹).submatrix finSumFinEquiv.symm finSumFinEquiv.symm).map Complex.re⟩
  else .error .linAlg

/-- fit_prony.py:152-176 `prony_fit_times_serie(data, dt, thres, N_keep, remove)`: `data[0]` and the matrix. -/
noncomputable def pronyFit (data : Arr ℝ) (dt : ℝ) (svd : (n : ℕ) → Mat ℝ (n + 1) (n + 1) → HermSvd n)
    (eig : (N : ℕ) → Mat ℝ N N → EigData N) (eps : ℝ) (thres : Option ℝ) (nKeep : Option ℕ) (remove : Bool) :
    Except Err (ℝ × Σ m : ℕ, Mat ℝ m m) :=
  if data.len = 0 then .error .index
  else
    let y : Arr ℝ := ⟨data.len, fun i => data.get i / data.get 0⟩
    let n := hankelSize data.len
    match jacobiReduced y n (svd n) eps thres nKeep with
    | .error e => .error e
    | .ok ⟨N, J⟩ =>
      match cleanEigenvalues (eig N J) dt remove with
      | .error e => .error e
      | .ok A => .ok (data.get 0, A)

end Verif
