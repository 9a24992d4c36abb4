import Mathlib.Data.Matrix.Mul
import Mathlib.MeasureTheory.Integral.IntervalIntegral.Basic
import Mathlib.Analysis.Calculus.Deriv.Basic

/-!
# The continuous Volterra equations (specification)

Functions of the time with matrix values on `[0, T]`. Nothing here refers to the model of the code.
-/

namespace Verif.Spec

open Set

variable {b x : Type*} [Fintype b]

/-- The entries of `A` are Lipschitz on `[0, T]`. -/
def Lip {m n : Type*} (T : ℝ) (A : ℝ → Matrix m n ℝ) : Prop :=
  ∃ L : ℝ, ∀ s ∈ Icc 0 T, ∀ t ∈ Icc 0 T, ∀ i j, |A s i j - A t i j| ≤ L * |s - t|

/-- `A'` is the derivative of `A` on `[0, T]`. -/
def DerivOn {m n : Type*} (T : ℝ) (A A' : ℝ → Matrix m n ℝ) : Prop :=
  ∀ t ∈ Icc 0 T, ∀ i j, HasDerivWithinAt (fun s => A s i j) (A' t i j) (Icc 0 T) t

/-- First kind: `∫_0^t B(t-s) k(s) ds = -D(t)` for `0 ≤ t ≤ T`. -/
def FirstKind (T : ℝ) (B : ℝ → Matrix b b ℝ) (D k : ℝ → Matrix b x ℝ) : Prop :=
  ∀ t ∈ Icc 0 T, ∀ i j, ∫ s in (0 : ℝ)..t, (B (t - s) * k s) i j = -D t i j

/-- Second kind: `B0 k(t) = Dd(t) + ∫_0^t Bd(t-s) k(s) ds` for `0 ≤ t ≤ T`. -/
def SecondKind (T : ℝ) (B0 : Matrix b b ℝ) (Bd : ℝ → Matrix b b ℝ) (Dd k : ℝ → Matrix b x ℝ) : Prop :=
  ∀ t ∈ Icc 0 T, ∀ i j, (B0 * k t) i j = Dd t i j + ∫ s in (0 : ℝ)..t, (Bd (t - s) * k s) i j

/-- Integro-differential equation `E'(t) = E(t) F - ∫_0^t E(t-s) k(s) ds` for `0 ≤ t ≤ T`. -/
def Evolution (T : ℝ) (F : Matrix b b ℝ) (k E : ℝ → Matrix b b ℝ) : Prop :=
  ∀ t ∈ Icc 0 T, ∀ i j, HasDerivWithinAt (fun s => E s i j)
    ((E t * F) i j - ∫ s in (0 : ℝ)..t, (E (t - s) * k s) i j) (Icc 0 T) t

end Verif.Spec
