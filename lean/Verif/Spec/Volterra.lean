import Verif.Spec.Quadrature
import Mathlib.Data.Matrix.Mul

/-!
# Discretised Volterra equations (specification)

First kind: `∫_0^t B(t-s) K(s) ds = -D(t)`.
Second kind: `B0 K(t) - ∫_0^t B'(t-s) K(s) ds = D'(t)`.
`m` is the lag, `K j` the kernel at lag `j`, on a grid of step `h`.
-/

namespace Verif.Spec

open Finset

variable {K : Type*} [Field K] {b x : Type*} [Fintype b]

/-- The integrand `s ↦ B(m-s) K(s)` of the convolution at lag `m`. -/
def convIntegrand (B : ℕ → Matrix b b K) (ker : ℕ → Matrix b x K) (m : ℕ) : ℕ → Matrix b x K :=
  fun s => B (m - s) * ker s

/-- First kind equation at lag `m` with the rectangle rule. -/
def FirstKindRectAt (h : K) (B : ℕ → Matrix b b K) (D ker : ℕ → Matrix b x K) (m : ℕ) : Prop :=
  rectRule h (convIntegrand B ker m) m = -D m

/-- First kind equation at lag `m` with the trapezoidal rule. -/
def FirstKindTrapzAt (h : K) (B : ℕ → Matrix b b K) (D ker : ℕ → Matrix b x K) (m : ℕ) : Prop :=
  trapzRule h (convIntegrand B ker m) m = -D m

/-- First kind equation at lag `m` with the composite Simpson rule. -/
def FirstKindSimpsonAt (h : K) (B : ℕ → Matrix b b K) (D ker : ℕ → Matrix b x K) (m : ℕ) : Prop :=
  simpsonRule h (convIntegrand B ker m) m = -D m

/-- First kind equation with the midpoint rule. The interval `[0, (2i+2) h]` is cut in cells of
width `2h`; cell `j` is represented by the kernel value `ker j` and by the correlation at the
middle of the cell, i.e. at the odd lag `2(i-j)+1`. The right hand side is taken at lag `2i+1`. -/
def FirstKindMidpointAt (h : K) (B : ℕ → Matrix b b K) (D ker : ℕ → Matrix b x K) (i : ℕ) : Prop :=
  ∑ j ∈ range (i + 1), (2 * h) • (B (2 * (i - j) + 1) * ker j) = -D (2 * i + 1)

/-- Second kind equation at lag `m` with the rectangle rule. -/
def SecondKindRectAt (h : K) (B0 : Matrix b b K) (Bd : ℕ → Matrix b b K)
    (Dd ker : ℕ → Matrix b x K) (m : ℕ) : Prop :=
  B0 * ker m - rectRule h (convIntegrand Bd ker m) m = Dd m

/-- Second kind equation at lag `m` with the trapezoidal rule. -/
def SecondKindTrapzAt (h : K) (B0 : Matrix b b K) (Bd : ℕ → Matrix b b K)
    (Dd ker : ℕ → Matrix b x K) (m : ℕ) : Prop :=
  B0 * ker m - trapzRule h (convIntegrand Bd ker m) m = Dd m

/-- Second kind equation at lag `m` with the composite Simpson rule. -/
def SecondKindSimpsonAt (h : K) (B0 : Matrix b b K) (Bd : ℕ → Matrix b b K)
    (Dd ker : ℕ → Matrix b x K) (m : ℕ) : Prop :=
  B0 * ker m - simpsonRule h (convIntegrand Bd ker m) m = Dd m

end Verif.Spec
