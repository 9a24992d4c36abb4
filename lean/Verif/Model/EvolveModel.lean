import Verif.Model.Ide
import Verif.Model.Estimator

/-!
# `evolve_volterra` as a method of a model (models.py)
-/

namespace Verif

variable {K : Type*} [Field K]

/-- `model.evolve_volterra(G0, T, method, trunc_ind)` with a square `G0`: models.py:298-314 for the classes that do not define it,
models.py:712-746 for `Pos_gle_overdamped`. `self.force_coeff.shape` and `self.kernel.shape` are attribute errors as long as these are
`None`; the condition of line 729 does not look at the kernel when the coefficients are not square. That the coefficients of the force
have the size of the kernel is not checked in Python, but by f2py (`ValueError`; the model says so also for an unknown method, where Python calls no
solver and raises `UnboundLocalError`). -/
def evolveModel [DecidableEq K] [LinearOrder K] {b : ℕ} (garbage : ℕ → (ℕ → Mat K b b) → Mat K b b) (s : ModelState K)
    (G0 : Mat K b b) (T : ℕ) (method : String) (truncInd : Option ℤ) : Except Err ((ℕ → K) × (ℕ → Mat K b b)) :=
  if s.bm.cls ≠ .overdamped then .error .notImplemented
  else match s.forceCoeff with
  | none => .error .attribute
  | some c =>
    if c.shape[0]? ≠ c.shape[1]? then .error .value
    else match s.kernel with
    | none => .error .attribute
    | some ⟨p, x, ker⟩ =>
      if h : p = b ∧ x = b then
        if c.shape[0]? ≠ some b then .error .value
        else evolveVolterra garbage ⟨c.toMatrix b b, ker.kernel.len, fun n => Matrix.of fun i j =>
          ker.kernel.get n (i.cast h.1.symm) (j.cast h.2.symm), s.dt⟩ G0 T method truncInd
      else .error .value

end Verif
