import Verif.Model.Prelude
import Mathlib.Data.Real.Basic

/-!
# `kernel_first_kind_rect`, `kernel_second_kind_rect` and `kernel_second_kind_trapz` in floating point arithmetic

The rest of the model computes exactly. Here the result of every operation is rounded: it may differ from the exact result by the fraction `u`, in
any way. This is the standard model of floating point arithmetic without overflow and underflow; for double precision `u = 2⁻⁵³`. The order of the
sums in `matmul` is left open, and so are fused multiplications and additions (a product need not be rounded).
-/

namespace Verif

/-- `y` is the rounded result of an operation whose exact result is `x`. -/
def Fl (u x y : ℝ) : Prop := |y - x| ≤ u * |x|

namespace Rounded

variable {m n b x : ℕ}

/-- An operation on all elements of an array. -/
def each (u : ℝ) (A B : Mat ℝ m n) : Prop := ∀ i j, Fl u (A i j) (B i j)

/-- Fortran's `C = matmul(A, B)`: every element is a sum over the products, one after the other in some order. -/
def matmul (u : ℝ) (A : Mat ℝ m b) (B : Mat ℝ b n) (C : Mat ℝ m n) : Prop :=
  ∀ i k, ∃ (σ : Equiv.Perm (Fin b)) (s : ℕ → ℝ), s 0 = 0 ∧
    (∀ l : Fin b, ∃ p, Fl u (A i (σ l) * B (σ l) k) p ∧ Fl u (s l + p) (s (l + 1))) ∧ C i k = s b

/-- fkernel.f90:34-46 `rect_integral`. -/
def rectIntegral (u dt : ℝ) (n : ℕ) (B : ℕ → Mat ℝ m b) (kernel : ℕ → Mat ℝ b x) (res : Mat ℝ m x) : Prop :=
  ∃ r : ℕ → Mat ℝ m x, r 0 = 0 ∧
    (∀ j < n, ∃ p q, matmul u (B (n - j)) (kernel j) p ∧ each u (dt • p) q ∧ each u (r j + q) (r (j + 1))) ∧ res = r n

/-- fkernel.f90:211-235 `kernel_second_kind_rect`, where `invB0` is what LAPACK finds for the inverse of `B0`. -/
def secondKindRect (u : ℝ) (L : ℕ) (k0 : Mat ℝ b x) (invB0 : Mat ℝ b b) (Bdot : ℕ → Mat ℝ b b) (DxBdot : ℕ → Mat ℝ b x) (dt : ℝ)
    (kernel : ℕ → Mat ℝ b x) : Prop :=
  kernel 0 = k0 ∧ ∀ i, 1 ≤ i → i ≤ L → ∃ num s, rectIntegral u dt i Bdot kernel num ∧ each u (num + DxBdot i) s ∧ matmul u invB0 s (kernel i)

/-- fkernel.f90:65-77 `trapz_integral`, for `1 ≤ n`. -/
def trapzIntegral (u dt : ℝ) (n : ℕ) (B : ℕ → Mat ℝ m b) (kernel : ℕ → Mat ℝ b x) (res : Mat ℝ m x) : Prop :=
  ∃ (h : ℝ) (p0 : Mat ℝ m x) (r : ℕ → Mat ℝ m x), Fl u (1 / 2 * dt) h ∧ matmul u (B n) (kernel 0) p0 ∧ each u (h • p0) (r 1) ∧
    (∀ j, 1 ≤ j → j < n → ∃ p q, matmul u (B (n - j)) (kernel j) p ∧ each u (dt • p) q ∧ each u (r j + q) (r (j + 1))) ∧ res = r n

/-- fkernel.f90:238-262 `kernel_second_kind_trapz`, where `invB0` is what LAPACK finds for the inverse of `B0 - 0.5*dt*Bdot(:,:,0)`. -/
def secondKindTrapz (u : ℝ) (L : ℕ) (k0 : Mat ℝ b x) (invB0 : Mat ℝ b b) (Bdot : ℕ → Mat ℝ b b) (DxBdot : ℕ → Mat ℝ b x) (dt : ℝ)
    (kernel : ℕ → Mat ℝ b x) : Prop :=
  kernel 0 = k0 ∧ ∀ i, 1 ≤ i → i ≤ L → ∃ num s, trapzIntegral u dt i Bdot kernel num ∧ each u (num + DxBdot i) s ∧ matmul u invB0 s (kernel i)

/-- fkernel.f90:108-130 `kernel_first_kind_rect`, where `invB0` is what LAPACK finds for the inverse of `dt*B(:,:,1)`. -/
def firstKindRect (u : ℝ) (L : ℕ) (invB0 : Mat ℝ b b) (B : ℕ → Mat ℝ b b) (DxB : ℕ → Mat ℝ b x) (dt : ℝ) (kernel : ℕ → Mat ℝ b x) : Prop :=
  matmul u invB0 (DxB 1) (-kernel 0) ∧
    ∀ i, 1 ≤ i → i < L → ∃ num s, rectIntegral u dt i (fun k => B (1 + k)) kernel num ∧ each u (num + DxB (i + 1)) s ∧ matmul u invB0 s (-kernel i)

end Rounded

end Verif
