import Verif.Model.BasisVector
import Verif.Model.Correlation

/-!
# Model of `Estimator_gle` (gle_estimation.py)

`compute_kernel` itself is in `Verif.Model.ComputeKernel`, the correlation functions are in
`Verif.Model.Correlation`.
-/

namespace Verif

/-- Run a function that may raise on each element, in order. -/
def mapE {α β : Type*} (f : α → Except Err β) : List α → Except Err (List β)
  | [] => .ok []
  | a :: as => do
    let b ← f a
    let bs ← mapE f as
    return b :: bs

section
variable {K : Type*} [Field K]

/-- gle_estimation.py:174-175: `for i, arr in enumerate(single_res): res[i] += arr * weight / weightsum`.
`IndexError` when there are more arrays than in the first result. -/
def accumulate (weight weightsum : ℕ) : List (LArr K) → List (LArr K) → Except Err (List (LArr K))
  | res, [] => .ok res
  | [], _ :: _ => .error .index
  | r :: rs, a :: as => do
    let r' ← LArr.binop (· + ·) r (a.map fun c => c * (weight : K) / (weightsum : K))
    let rs' ← accumulate weight weightsum rs as
    return r' :: rs'

/-- gle_estimation.py:172-176 (and 185-189): the weighted sum of the results. -/
def combine (weights : List ℕ) (arrayRes : List (List (LArr K))) : Except Err (List (LArr K)) :=
  match arrayRes with
  | [] => .error .index
  | r0 :: _ => (weights.zip arrayRes).foldlM (fun res wr => accumulate wr.1 weights.sum res wr.2)
      (List.replicate r0.length (LArr.scalar 0))

/-- gle_estimation.py:165-176 `_loop_over_trajs_serial`. The weights are the numbers of frames
(gle_estimation.py:71-72). -/
def loopSerial (func : ℕ → Xva K → Except Err (List (LArr K))) (xvas : List (Xva K)) :
    Except Err (List (LArr K)) := do
  let arrayRes ← mapE (fun xva => func xva.n xva) xvas
  combine (xvas.map (·.n)) arrayRes

/-- A worker pool: the tasks `0, .., n-1` are run in the order `order`, each storing its result in its
own slot. The tasks are static methods that only read their arguments, so that running some of them
at the same time is the same as running them in some order. -/
def runPool {α β : Type*} (task : α → β) (args : List α) (order : List ℕ) : ℕ → Option β :=
  order.foldl (fun slots i => match args[i]? with
    | some a => Function.update slots i (some (task a))
    | none => slots) fun _ => none

/-- gle_estimation.py:178-189 `_loop_over_trajs_parallel`. joblib's `Parallel` returns the results in the
order of submission; it raises if one task raises (a slot that is never filled does not occur). -/
def loopParallel (order : List ℕ) (func : ℕ → Xva K → Except Err (List (LArr K))) (xvas : List (Xva K)) :
    Except Err (List (LArr K)) := do
  let slots := runPool (fun xva => func xva.n xva) xvas order
  let arrayRes ← mapE (fun i => (slots i).getD (.error (.exception "task not run"))) (List.range xvas.length)
  combine (xvas.map (·.n)) arrayRes

/-! ### The functions applied to each trajectory -/

/-- Division of an array by the number of frames. -/
def LArr.divNat (A : LArr K) (w : ℕ) : LArr K := A.map fun c => c / (w : K)

/-- gle_estimation.py:380-391 `_projection_on_basis` (called with the default `gram_type="force"`). -/
def projectionOnBasis (m : BasisModel K) (Lobs : String) (weight : ℕ) (xva : Xva K) :
    Except Err (List (LArr K)) :=
  let E := m.forceVector xva
  .ok [(LArr.dot [E, xva.var Lobs]).divNat weight,
       (LArr.dot [E, E.rename1 "dim_basis" "dim_basis'"]).divNat weight]

/-- `basis_vector(xva, compute_for=kind)` for `kind` in `"force"`, `"kernel"`; `ValueError` otherwise. (The
other kinds accepted by `basis_vector` are not used by the callers modelled here.) -/
def BasisModel.vectorFor (m : BasisModel K) (kind : String) (xva : Xva K) : Except Err (LArr K) :=
  if kind = "force" then .ok (m.forceVector xva)
  else if kind = "kernel" then .ok (m.kernelVector xva)
  else .error .value

/-- gle_estimation.py:394-399 `_compute_basis_mean`. -/
def basisMeanTraj (m : BasisModel K) (kind : String) (_weight : ℕ) (xva : Xva K) :
    Except Err (List (LArr K)) := do
  let E ← m.vectorFor kind xva
  return [E.mean "time"]

/-- gle_estimation.py:402-408 `_compute_gram`. -/
def gramTraj (m : BasisModel K) (kind : String) (weight : ℕ) (xva : Xva K) : Except Err (List (LArr K)) := do
  let E ← m.vectorFor kind xva
  return [(LArr.dot [E, E.rename1 "dim_basis" "dim_basis'"]).divNat weight]

/-- gle_estimation.py:411-415 `_compute_square_vel`. -/
def squareVelTraj (weight : ℕ) (xva : Xva K) : Except Err (List (LArr K)) :=
  .ok [(LArr.dot [xva.var "v", (xva.var "v").rename1 "dim_x" "dim_x'"]).divNat weight]

/-- gle_estimation.py:418-425 `_compute_square_vel_pos`. -/
def squareVelPosTraj (m : BasisModel K) (weight : ℕ) (xva : Xva K) : Except Err (List (LArr K)) :=
  let E := m.kernelVector xva
  .ok [(LArr.dot [E, xva.var "v", (xva.var "v").rename1 "dim_x" "dim_x'"]).divNat weight,
       (LArr.dot [E, E.rename1 "dim_basis" "dim_basis'"]).divNat weight]

/-- A correlation function of correlation.py, applied to the components of two arrays. -/
abbrev CorrFn (K : Type*) := ∀ p q : ℕ, ℕ → (Fin p → ℕ → K) → (Fin q → ℕ → K) → Option ℕ →
  Except Err (Arr (Mat K p q))

/-- `xr.apply_ufunc(.., vectorize=True)`, i.e. `np.vectorize`: the one-dimensional function `f` is called for
every pair of components and the results are stacked. Only lengths decide whether `f` raises, so the first
call raises if one does. `np.vectorize` raises `ValueError` when there is no pair. -/
def vectorizePair (f : ℕ → (ℕ → K) → Option (ℕ → K) → Option ℕ → Except Err (Arr K)) : CorrFn K :=
  fun p q N a b trunc =>
    if h : 0 < p ∧ 0 < q then do
      let r0 ← f N (a ⟨0, h.1⟩) (some (b ⟨0, h.2⟩)) trunc
      return ⟨r0.len, fun n => Matrix.of fun i j =>
        match f N (a i) (some (b j)) trunc with
        | .ok r => r.get n
        | .error _ => 0⟩
    else .error .value

/-- `xr.apply_ufunc(func, A, B, input_core_dims=[["time"], ["time"]], output_core_dims=[["time_trunc"]],
..)` for arrays with axes `(time, a)` and `(time, b)`: the time axis is moved to the end and the first
array gets a new axis, so that `func` sees the shapes `(na, 1, N)` and `(nb, N)`. Only two-dimensional
arrays with different second axes are modelled. -/
def applyCorr (func : CorrFn K) (A B : LArr K) (trunc : ℕ) : Except Err (LArr K) :=
  match A.dims, B.dims with
  | [tA, dA], [tB, dB] =>
    if tA ≠ "time" ∨ tB ≠ "time" ∨ dA = dB then .error .notImplemented
    else corrDims func A B dA dB (A.size dA) (B.size dB) (A.size "time") trunc
  | _, _ => .error .notImplemented
where
  /-- The same, with the sizes of the axes. -/
  corrDims (func : CorrFn K) (A B : LArr K) (dA dB : String) (p q N trunc : ℕ) : Except Err (LArr K) := do
    let r ← func p q N (fun i t => A.get [t, i]) (fun j t => B.get [t, j]) (some trunc)
    return LArr.mk3 dA p dB q "time_trunc" r.len fun i j n =>
      if h : i < p ∧ j < q then r.get n ⟨i, h.1⟩ ⟨j, h.2⟩ else 0

/-- gle_estimation.py:428-494 `_correlation_ufunc`: `bkdx, dotbkdx, bkbk, dotbkbk`. With
`second_order_method=False` the last one is the plain array `[[0.0]]`, here a number. -/
def correlationTraj (func : CorrFn K) (m : BasisModel K) (Lobs : String) (forceCoeff : LArr K) (truncInd : ℕ)
    (secondOrder : Bool) (weight : ℕ) (xva : Xva K) : Except Err (List (LArr K)) := do
  let (Eforce, E, dE) ← m.corrsVector xva
  let ortho ← LArr.binop (· - ·) (xva.var Lobs) (LArr.dot [Eforce, forceCoeff])
  let bkdx ← applyCorr func E ortho truncInd
  let bkbk ← applyCorr func (E.rename1 "dim_basis" "dim_basis'") E truncInd
  if secondOrder then
    let dotbkdx ← applyCorr func dE ortho truncInd
    let dotbkbk ← applyCorr func (dE.rename1 "dim_basis" "dim_basis'") E truncInd
    return [bkdx, dotbkdx, bkbk, dotbkbk]
  else
    let dotbkdx := ((LArr.dot [dE, ortho]).expandFirst "time_trunc").divNat weight
    return [bkdx, dotbkdx, bkbk, LArr.scalar 0]

end

/-- gle_estimation.py:438-445: the correlation function selected by `method` and `vectorize`, for real
data. -/
noncomputable def selectCorr (method : String) (vectorize : Bool) : CorrFn ℝ :=
  if method = "fft" ∧ vectorize then vectorizePair correlation1D
  else if method = "direct" ∧ ¬ vectorize then fun _ _ N a b trunc => correlationDirectND N a b trunc
  else if method = "direct" ∧ vectorize then vectorizePair correlationDirect1D
  else fun _ _ N a b trunc => correlationND N a b trunc

/-! ### The estimator and its state -/

/-- The arrays `bkdxcorrw, dotbkdxcorrw, bkbkcorrw, dotbkbkcorrw` of the estimator; the last is `none` when it
is the placeholder `np.array([[0.0]])`. -/
structure CorrsL (K : Type*) where
  bkdx : LArr K
  dotbkdx : LArr K
  bkbk : LArr K
  dotbkbk : Option (LArr K)

/-- What `compute_kernel` passes to the Fortran routines: the numpy arrays, of shapes `(b, b, N)` and
`(b, x, N)`. -/
def CorrsL.toCorrs {K : Type*} (c : CorrsL K) (b x : ℕ) : Corrs K b x where
  N := (c.bkbk.shape[2]?).getD 0
  bkbk := fun n => Matrix.of fun p q => c.bkbk.get [p, q, n]
  bkdx := fun n => Matrix.of fun p d => c.bkdx.get [p, d, n]
  dotbkdx := some fun n => (c.dotbkdx.isel "time_trunc" n).toMatrix b x
  dotbkbk := match c.dotbkbk with
    | none => .placeholder
    | some A => .arr fun n => Matrix.of fun p q => A.get [p, q, n]

/-- The state of a model (models.py:38-76), as far as the estimator changes it. -/
structure ModelState (K : Type*) where
  bm : BasisModel K
  Lobs : String
  dt : K
  truncInd : ℕ
  forceCoeff : Option (LArr K)
  /-- the sizes of the kernel, and the kernel -/
  kernel : Option (Σ b x : ℕ, KernelData K b x)
  method : Option String
  rankProjection : Bool
  Prange : Option (LArr K)
  gramForce : Option (LArr K)
  gramKernel : Option (LArr K)
  effMass : Option (LArr K)
  invMassCoeff : Option (LArr K) := none

/-- The state of an estimator; `corrs = none` as long as the attributes `bkbkcorrw`, ... do not exist. -/
structure EstState (K : Type*) where
  model : ModelState K
  xvas : List (Xva K)
  corrs : Option (CorrsL K)
  saveall : Bool

section
variable {K : Type*} [Field K] [DecidableEq K]

/-- `solveLinear` for arrays of sizes `n, n` and `n, x`. -/
def solveDim (n x : ℕ) (G b : LArr K) : Except Err (LArr K) := do
  let inv ← npInv (G.toMatrix n n)
  let r : Mat K n x := inv * b.toMatrix n x
  return { b with get := fun
    | [i, j] => if h : i < n ∧ j < x then r ⟨i, h.1⟩ ⟨j, h.2⟩ else 0
    | _ => 0 }

/-- gle_estimation.py:13-18 `solve_linear`, for a two-dimensional right hand side. -/
def solveLinear (G b : LArr K) : Except Err (LArr K) :=
  solveDim (G.shape.headD 0) (b.shape.getLastD 0) G b

end

section
variable {K : Type*} [Field K] [LinearOrder K]

/-- The result of `np.linalg.svd(B0, compute_uv=True, hermitian=True)`: `U` and `S`. An implementation is
a parameter of the model. -/
abbrev Svd (K : Type*) := ∀ n : ℕ, Mat K n n → Mat K n n × (Fin n → K)

/-- models.py:103-105: the numerical rank. `eps` is `np.finfo(S.dtype).eps`. -/
def numericalRank {n : ℕ} (eps : K) (rankTol : Option K) (S : Fin n → K) : ℕ :=
  let tol := rankTol.getD ((List.ofFn S).foldl max ((List.ofFn S).headD 0) * (n : K) * eps)
  (Finset.univ.filter fun i => tol < S i).card

/-- models.py:95-119 `_set_range_projection`: the matrix `P_range`. -/
def setRangeProjection (svd : Svd K) (eps : K) (rankTol : Option K) (nKernel dimx : ℕ) (B0 : LArr K) :
    Except Err (LArr K) :=
  let US := svd nKernel (B0.toMatrix nKernel nKernel)
  if nKernel = 0 then .error .value
  else
    let rank := numericalRank eps rankTol US.2
    if rank < nKernel then
      if rank = nKernel - dimx ∧ rank = 0 then .error (.exception "Rank of basis is null.")
      else .ok (LArr.mk2 "dim_basis" rank "dim_basis_old" nKernel fun i j =>
        if h : i < nKernel ∧ j < nKernel then US.1 ⟨j, h.2⟩ ⟨i, h.1⟩ else 0)
    else .ok (LArr.mk2 "dim_basis" nKernel "dim_basis_old" nKernel fun i j => if i = j then 1 else 0)

/-- gle_estimation.py:276-285: projection of the correlations on the range of the basis. -/
def projectCorrs (P : LArr K) (c : CorrsL K) : CorrsL K :=
  let Pt := P.rename fun d => if d = "dim_basis_old" then "dim_basis_old'" else if d = "dim_basis" then "dim_basis'" else d
  let temp := LArr.dot [P, c.bkbk.rename1 "dim_basis" "dim_basis_old"]
  { bkbk := LArr.dot [Pt, temp.rename1 "dim_basis'" "dim_basis_old'"]
    bkdx := LArr.dot [P, c.bkdx.rename1 "dim_basis" "dim_basis_old"]
    dotbkdx := LArr.dot [P, c.dotbkdx.rename1 "dim_basis" "dim_basis_old"]
    dotbkbk := c.dotbkbk.map fun A => LArr.dot [Pt, P,
      A.rename fun d => if d = "dim_basis" then "dim_basis_old" else if d = "dim_basis'" then "dim_basis_old'" else d] }

/-- What the estimator methods depend on besides its state: numpy's SVD, the machine epsilon, and the
loop over the trajectories (serial or parallel, gle_estimation.py:78-81). -/
structure Env (K : Type*) [Field K] where
  svd : Svd K
  eps : K
  loop : (ℕ → Xva K → Except Err (List (LArr K))) → List (Xva K) → Except Err (List (LArr K))
  /-- the correlation function selected by `method` and `vectorize`, gle_estimation.py:438-445 -/
  corrFn : String → Bool → CorrFn K

/-- A method call: the state afterwards (also when an exception is raised) and the exception. -/
abbrev Step (K : Type*) := EstState K × Option Err

/-- A call that raised. -/
def raises (s : EstState K) (e : Err) : Step K := (s, some e)

/-- gle_estimation.py:240-249 `compute_mean_force`. `gram_force` is set before the linear system is
solved. -/
def computeMeanForce (env : Env K) (s : EstState K) : Step K :=
  match env.loop (projectionOnBasis s.model.bm s.model.Lobs) s.xvas with
  | .error e => raises s e
  | .ok [disp, gram] =>
    let s := { s with model := { s.model with gramForce := some gram } }
    match solveLinear gram disp with
    | .error e => raises s e
    | .ok c => ({ s with model := { s.model with forceCoeff := some c } }, none)
  | .ok _ => raises s .value

/-- gle_estimation.py:251-252 `set_zero_force`. -/
def setZeroForce (s : EstState K) : Step K :=
  match s.xvas with
  | [] => raises s .index
  | xva :: _ =>
    ({ s with model := { s.model with forceCoeff := some (LArr.mk2 "dim_basis" s.model.bm.nForce
      ((((xva.var s.model.Lobs).dims)[1]?).getD "") s.model.bm.dimObs fun _ _ => 0) } }, none)

/-- gle_estimation.py:191-195 `compute_basis_mean`. -/
def computeBasisMean (env : Env K) (kind : String) (s : EstState K) : Except Err (LArr K) := do
  match ← env.loop (basisMeanTraj s.model.bm kind) s.xvas with
  | [] => throw .index
  | e :: _ => return e

/-- gle_estimation.py:197-204 `compute_gram_force`. -/
def computeGramForce (env : Env K) (s : EstState K) : Step K :=
  match env.loop (gramTraj s.model.bm "force") s.xvas with
  | .error e => raises s e
  | .ok [] => raises s .index
  | .ok (g :: _) => ({ s with model := { s.model with gramForce := some g } }, none)

/-- gle_estimation.py:206-215 `compute_gram_kernel`. With a rank projection the code reads
`self.gram_kernel`, which does not exist: `AttributeError` after `model.gram_kernel` has been set. -/
def computeGramKernel (env : Env K) (s : EstState K) : Step K :=
  match env.loop (gramTraj s.model.bm "kernel") s.xvas with
  | .error e => raises s e
  | .ok [] => raises s .index
  | .ok (g :: _) =>
    let s := { s with model := { s.model with gramKernel := some g } }
    if s.model.rankProjection then raises s .attribute else (s, none)

/-- gle_estimation.py:217-228 `compute_effective_mass`. -/
def computeEffectiveMass (env : Env K) (s : EstState K) : Step K :=
  match env.loop squareVelTraj s.xvas with
  | .error e => raises s e
  | .ok [] => raises s .index
  | .ok (v2 :: _) =>
    let n := v2.shape.headD 0
    match npInv (v2.toMatrix n n) with
    | .error e => raises s e
    | .ok inv => ({ s with model := { s.model with effMass := some (LArr.mk2 "dim_x'" n "dim_x" n fun i j =>
        if h : i < n ∧ j < n then inv ⟨i, h.1⟩ ⟨j, h.2⟩ else 0) } }, none)

/-- gle_estimation.py:230-238 `compute_pos_effective_mass`. -/
def computePosEffectiveMass (env : Env K) (s : EstState K) : Step K :=
  match env.loop (squareVelPosTraj s.model.bm) s.xvas with
  | .error e => raises s e
  | .ok [disp, gram] =>
    match solveLinear gram disp with
    | .error e => raises s e
    | .ok c => ({ s with model := { s.model with invMassCoeff := some c } }, none)
  | .ok _ => raises s .value

/-- gle_estimation.py:254-288 `compute_corrs`. The attributes are set before the projection, and before
saving; with `saveall` xarray rejects the placeholder `[[0.0]]`, an array without axis names. -/
def computeCorrs (env : Env K) (method : String) (vectorize secondOrder : Bool) (rankTol : Option K)
    (s : EstState K) : Step K :=
  match s.model.forceCoeff with
  | none => raises s (.exception "Mean force has not been computed.")
  | some fc =>
    match env.loop (correlationTraj (env.corrFn method vectorize) s.model.bm s.model.Lobs fc s.model.truncInd
        secondOrder) s.xvas with
    | .error e => raises s e
    | .ok [bkdx, dotbkdx, bkbk, dotbkbk] =>
      let c : CorrsL K := ⟨bkdx, dotbkdx, bkbk, if secondOrder then some dotbkbk else none⟩
      let s := { s with corrs := some c }
      if s.model.rankProjection then
        match setRangeProjection env.svd env.eps rankTol s.model.bm.nKernel s.model.bm.dimx
            (c.bkbk.isel "time_trunc" 0) with
        | .error e => raises s e
        | .ok P =>
          let s := { s with model := { s.model with Prange := some P }, corrs := some (projectCorrs P c) }
          if s.saveall ∧ ¬ secondOrder then raises s .value else (s, none)
      else if s.saveall ∧ ¬ secondOrder then raises s .value else (s, none)
    | .ok _ => raises s .value

/-- gle_estimation.py:290-348 `compute_kernel`. `model.method` is set (line 308) after the checks on the
correlations and before anything else can fail. -/
def computeKernelStep (method : String) (k0 : ∀ b x : ℕ, Option (Mat K b x)) (s : EstState K) : Step K :=
  match s.corrs with
  | none => raises s .attribute
  | some c =>
    let b := (c.bkbk.shape[0]?).getD 0
    let x := (c.bkdx.shape[1]?).getD 0
    if s.model.truncInd = 0 then raises s .index
    else
      let s := { s with model := { s.model with method := some method } }
      match computeKernel (some (c.toCorrs b x)) s.model.truncInd s.model.dt method (k0 b x) with
      | .error e => raises s e
      | .ok k => ({ s with model := { s.model with kernel := some ⟨b, x, k⟩ } }, none)

end

/-- gle_estimation.py:127-138 `_compute_trunc_ind`. -/
def computeTruncInd {K : Type*} [LinearOrder K] (trunc : K) (xvas : List (Xva K)) : Except Err ℕ :=
  match xvas with
  | [] => .error .value
  | x0 :: xs =>
    if (x0 :: xs).any fun x => x.n = 0 then .error .index
    else
      let smallest := (xs.map fun x => x.time (x.n - 1)).foldl min (x0.time (x0.n - 1))
      let trunc := if smallest < trunc then smallest else trunc
      .ok ((List.range x0.n).countP fun k => x0.time k ≤ trunc)

end Verif
