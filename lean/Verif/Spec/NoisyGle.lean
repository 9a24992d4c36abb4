import Verif.Spec.Gle

/-!
# The generalised Langevin equation with noise (specification)
-/

namespace Verif.Spec

open Set

variable {d b : ℕ}

/-- `x` and `v` solve on `[0, T]` the equation with the noise `ξ`
`x' = v`, `v'(t) = F(x(t)) - ∫_0^t E(x(t-s), v(t-s)) κ(s) ds + ξ(t)`. -/
structure NoisyGle (T : ℝ) (F : (Fin d → ℝ) → Fin d → ℝ) (E : (Fin d → ℝ) → (Fin d → ℝ) → Fin b → ℝ)
    (κ : ℝ → Matrix (Fin b) (Fin d) ℝ) (ξ x v : ℝ → Fin d → ℝ) : Prop where
  pos : ∀ t ∈ Icc 0 T, ∀ i, HasDerivWithinAt (fun s => x s i) (v t i) (Icc 0 T) t
  vel : ∀ t ∈ Icc 0 T, ∀ i, HasDerivWithinAt (fun s => v s i)
    (F (x t) i - (∫ s in (0 : ℝ)..t, Matrix.vecMul (E (x (t - s)) (v (t - s))) (κ s) i) + ξ t i) (Icc 0 T) t

end Verif.Spec
