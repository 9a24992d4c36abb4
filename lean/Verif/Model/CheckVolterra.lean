import Verif.Model.ComputeKernel

/-!
# Model of `check_volterra_inversion` and `kernel_eval`
-/

namespace Verif

variable {K : Type*} [Field K] {b x d : ℕ}

/-- `scipy.integrate.trapezoid(y, dx=dx, axis=0)` for `len` samples: `sum(dx*(y[1:]+y[:-1])/2)`. -/
def scipyTrapezoid {V : Type*} [AddCommGroup V] [Module K V] (dx : K) (y : ℕ → V) (len : ℕ) : V :=
  ((List.range (len - 1)).map fun i => (1 / 2 : K) • (dx • (y (i + 1) + y i))).sum

/-- gle_estimation.py:363-367, the loop of `check_volterra_inversion`. `res_int` has the shape of
`bkdx` (`N` lags) and is zero where not written. Writing beyond the `N` lags is an `IndexError`
(the kernel is never longer than the correlations). -/
def resInt (c : Corrs K b x) (dt : K) (kernel : Arr (Mat K b x)) : ℕ → Mat K b x :=
  forRange 0 kernel.len (fun n res =>
    let toIntegrate : ℕ → Mat K b x := fun i => c.bkbk (n - i) * kernel.get i
    Function.update res n ((-1 : K) • scipyTrapezoid dt toIntegrate (n + 1))) 0

/-- gle_estimation.py:350-371 `check_volterra_inversion(return_diff=False)`. -/
def checkVolterra (c : Corrs K b x) (dt : K) (kernel : Option (Arr (Mat K b x))) :
    Except Err (Arr (Mat K b x)) :=
  match kernel with
  | none => .error (.exception "Kernel has not been computed.")
  | some k => if c.N < k.len then .error .index else .ok ⟨c.N, resInt c dt k⟩

/-- gle_estimation.py:350-371 `check_volterra_inversion(return_diff=True)`. -/
def checkVolterraDiff {K : Type*} [Field K] [LinearOrder K] (c : Corrs K b x) (dt : K)
    (kernel : Option (Arr (Mat K b x))) : Except Err (Arr (Mat K b x)) := do
  let r ← checkVolterra c dt kernel
  return ⟨r.len, fun n => Matrix.of fun i j => |r.get n i j - c.bkdx n i j|⟩

/-- models.py:280-296 `kernel_eval` without rank projection: `xr.dot(kernel, E)` sums over
`dim_basis`, the only dimension shared by the kernel `(time_kernel, dim_basis, dim_x)` and by
`E` `(time, dim_basis, dim_x')`. `E p` is the value of the basis at the evaluation point `p`. -/
def kernelEval (kernel : Arr (Mat K b x)) (E : ℕ → Mat K b d) (i p : ℕ) : Mat K x d :=
  Matrix.of fun o e => ∑ k, kernel.get i k o * E p k e

end Verif
