import Verif.Model.ModelEval
import Verif.Model.Noise

/-!
# Model of `save_model` and `load_model` (models.py:365-402)
-/

namespace Verif

/-- What `save_model` returns: an `xr.Dataset`. Entries that are never read again by `load_model` are kept, as
they take part in the check of the sizes. `rankProjection` is stored as an array without axes. -/
structure Saved (K : Type*) where
  -- attributes
  dt : K
  truncInd : ℕ
  Lobs : String
  dimx : ℕ
  dimObs : ℕ
  -- variables
  forceCoeff : Option (LArr K)
  gramForce : Option (LArr K)
  kernel : Option (Σ b x : ℕ, KernelData K b x)
  invMassCoeff : Option (LArr K)
  effMass : Option (LArr K)
  gramKernel : Option (LArr K)
  method : Option String
  rankProjection : Bool
  Prange : Option (LArr K)

section
variable {K : Type*}

/-- The axes and sizes of the kernel: `("time_kernel", "dim_basis", d)` where `d` is the second axis of the
correlations (gle_estimation.py:345), that is of the observable and of the force coefficients. -/
def kernelLayout (s : ModelState K) : List (String × ℕ) :=
  match s.kernel with
  | none => []
  | some ⟨b, x, k⟩ => [("time_kernel", k.kernel.len), ("dim_basis", b),
      (((s.forceCoeff.bind fun c => c.dims[1]?).getD "dim_x"), x)]

/-- The axes and sizes of an optional array. -/
def layout (A : Option (LArr K)) : List (String × ℕ) :=
  match A with
  | none => []
  | some A => A.dims.zip A.shape

/-- xarray's check: an axis has the same size in all the variables of a dataset. -/
def sizesAgree (l : List (String × ℕ)) : Bool := l.all fun p => l.all fun q => p.1 != q.1 || p.2 == q.2

/-- models.py:365-380 `save_model`; `ValueError` when the sizes of the axes do not agree. -/
def saveModel (s : ModelState K) : Except Err (Saved K) :=
  let force := s.forceCoeff.map fun c => c.rename1 "dim_basis" "dim_basis_force"
  let gram := s.gramForce.map fun c => c.rename fun d =>
    if d = "dim_basis" then "dim_basis_force" else if d = "dim_basis'" then "dim_basis_force'" else d
  if sizesAgree (layout force ++ layout gram ++ kernelLayout s ++ layout s.invMassCoeff ++ layout s.effMass ++
      layout s.gramKernel ++ layout s.Prange) then
    .ok { dt := s.dt, truncInd := s.truncInd, Lobs := s.Lobs, dimx := s.bm.dimx, dimObs := s.bm.dimObs
          forceCoeff := force, gramForce := gram, kernel := s.kernel, invMassCoeff := s.invMassCoeff
          effMass := s.effMass, gramKernel := s.gramKernel, method := s.method
          rankProjection := s.rankProjection, Prange := s.Prange }
  else .error .value

/-- models.py:382-402 `load_model(basis, coeffs)` without further arguments, for a fitted basis: the class is
the one the method is called on. Only the five variables listed in line 393 are read. -/
def loadModel (cls : ModelClass) (basis : PointBasis K) (sv : Saved K) : ModelState K where
  bm := ⟨cls, basis, sv.dimx, sv.dimObs⟩
  Lobs := sv.Lobs
  dt := sv.dt
  truncInd := sv.truncInd
  forceCoeff := sv.forceCoeff.map fun c => c.rename1 "dim_basis_force" "dim_basis"
  kernel := sv.kernel
  method := none
  rankProjection := sv.rankProjection
  Prange := sv.Prange
  gramForce := sv.gramForce.map fun c => c.rename fun d =>
    if d = "dim_basis_force" then "dim_basis" else if d = "dim_basis_force'" then "dim_basis'" else d
  gramKernel := none
  effMass := none
  invMassCoeff := none

/-- `self.kernel` with its sizes, if they are `b`, `x`. -/
def kernelOf (k : Option (Σ b x : ℕ, KernelData K b x)) (b x : ℕ) : Option (KernelData K b x) :=
  match k with
  | none => none
  | some ⟨b', x', k⟩ => if hb : b' = b then if hx : x' = x then some (hb ▸ hx ▸ k) else none else none

/-- The fields of the model `compute_noise` reads, as matrices of the given sizes. -/
def ModelState.toNoise (s : ModelState K) (bf b x : ℕ) : NoiseModel K bf b x where
  forceCoeff := s.forceCoeff.map fun c => c.toMatrix bf x
  kernel := kernelOf s.kernel b x
  method := s.method
  truncInd := s.truncInd

/-- models.py:283-297 `ModelBase.kernel_eval(x)` (also for the hybrid class, models.py:645-655, which uses the
rows from 1 on): entry `(t, l, i, d)`, with axes `(time_kernel, dim_x, time, dim_x')`. -/
def kernelEvalAt [Field K] (s : ModelState K) (n : ℕ) (pts : ℕ → ℕ → K) : Except Err (ℕ → ℕ → ℕ → ℕ → K) :=
  match s.kernel with
  | none => .error (.exception "Kernel has not been computed.")
  | some ⟨b, x, k⟩ =>
    -- `matmulPrange`, models.py:23-28
    let E := s.bm.kernelVector (evalXva s.bm.dimx n pts)
    match s.rankProjection, s.Prange with
    | true, none => .error .type
    | true, some P => contract s.bm.cls k (LArr.dot [E.rename1 "dim_basis" "dim_basis_old", P])
    | false, _ => contract s.bm.cls k E
where
  /-- `xr.dot(coeffs_ker, E.rename({"dim_x": "dim_x'"}))`. -/
  contract {b x : ℕ} (cls : ModelClass) (k : KernelData K b x) (E : LArr K) : Except Err (ℕ → ℕ → ℕ → ℕ → K) :=
    let skip := if cls = .hybrid then 1 else 0
    if E.size "dim_basis" ≠ b - skip then .error .value
    else .ok fun t l i d => ∑ p ∈ Finset.range (b - skip),
      (if h : p + skip < b ∧ l < x then k.kernel.get t ⟨p + skip, h.1⟩ ⟨l, h.2⟩ else 0) *
        E.val (fun a => if a = "time" then i else if a = "dim_basis" then p else d)

end

end Verif
