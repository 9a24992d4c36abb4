import Verif.Spec.Quadrature
import Mathlib.Data.Matrix.Mul

/-!
# Specification of the integrator
-/

namespace Verif.Spec

variable {K W : Type*} [Field K] [AddCommGroup W] [Module K W]

/-- The classical fourth order Runge-Kutta step for `y' = f c y`, where `c` is the time in units of the step. -/
def rk4 (h : K) (f : K → W → W) (y : W) : W :=
  let k1 := f 0 y
  let k2 := f (1 / 2) (y + (h / 2) • k1)
  let k3 := f (1 / 2) (y + (h / 2) • k2)
  let k4 := f 1 (y + h • k3)
  y + (h / 6) • (k1 + (2 : K) • k2 + (2 : K) • k3 + k4)

/-- The memory force at time `n`: the convolution of the history `E` and the kernel, by the trapezoidal rule,
over the lags for which there are both a history and a kernel (of `T` points). -/
def memory {b d : ℕ} (dt : K) (T : ℕ) (kernel : ℕ → Matrix (Fin b) (Fin d) K) (E : ℕ → Fin b → K) (n : ℕ) : Fin d → K :=
  trapzRule dt (fun j => Matrix.vecMul (E (n - j)) (kernel j)) (min n (T - 1))

end Verif.Spec
