import Verif.Lemmas.Prony
import Mathlib.LinearAlgebra.Matrix.NonsingularInverse
import Mathlib.Tactic.Ring
import Mathlib.Tactic.Linarith

/-!
# The powers of the Jacobi matrix are the moments
-/

namespace Verif

open Finset Matrix

variable {n N : ℕ}

/-- The shift of a form given by a Hankel matrix is symmetric on the vectors without last entry. -/
theorem phi_shift {H : Mat ℝ (n + 1) (n + 1)} {y : ℕ → ℝ} (hH : ∀ i j, H i j = y (i.val + j.val)) (u v : Fin (n + 1) → ℝ)
    (hu : u (Fin.last n) = 0) :
    phi H u ((shiftMat n).mulVec v) = ∑ i : Fin n, ∑ j : Fin n, u i.castSucc * v j.castSucc * y (i.val + j.val + 1) := by
  have hs0 : (shiftMat n).mulVec v 0 = 0 := by
    simp only [mulVec, dotProduct, shiftMat]
    exact sum_eq_zero fun j _ => by simp
  have hs : ∀ j : Fin n, (shiftMat n).mulVec v j.succ = v j.castSucc := by
    intro j
    simp only [mulVec, dotProduct, shiftMat]
    rw [Finset.sum_eq_single j.castSucc]
    · simp
    · intro b _ hb
      rw [if_neg, zero_mul]
      intro h
      apply hb
      apply Fin.ext
      simp only [Fin.val_succ, Fin.val_castSucc] at *
      omega
    · simp
  rw [phi, Fin.sum_univ_castSucc, hu, zero_mul, add_zero]
  refine sum_congr rfl fun i _ => ?_
  rw [Fin.sum_univ_succ, hs0, mul_zero, zero_add, mul_sum]
  refine sum_congr rfl fun j _ => ?_
  rw [hs, hH]
  simp only [Fin.val_succ, Fin.val_castSucc, ← add_assoc]
  ring

theorem phi_shift_symm {H : Mat ℝ (n + 1) (n + 1)} {y : ℕ → ℝ} (hH : ∀ i j, H i j = y (i.val + j.val)) (u v : Fin (n + 1) → ℝ)
    (hu : u (Fin.last n) = 0) (hv : v (Fin.last n) = 0) :
    phi H u ((shiftMat n).mulVec v) = phi H v ((shiftMat n).mulVec u) := by
  rw [phi_shift hH u v hu, phi_shift hH v u hv, sum_comm]
  refine sum_congr rfl fun i _ => sum_congr rfl fun j _ => ?_
  rw [add_comm j.val i.val]; ring

/-- As many orthonormal vectors as there are non-zero singular values span everything, up to the radical. -/
theorem HermSvd.complete (S : HermSvd n) (hN : N ≤ n + 1) (p : Fin N → Fin (n + 1) → ℝ) (σ : Fin N → ℝ)
    (hσ : ∀ a, σ a * σ a = 1) (ho : ∀ a b, phi (S.filtered N) (p a) (p b) = if a = b then σ a else 0) (v w : Fin (n + 1) → ℝ) :
    phi (S.filtered N) w v = ∑ b, σ b * phi (S.filtered N) (p b) v * phi (S.filtered N) w (p b) := by
  let x : (Fin (n + 1) → ℝ) → Fin N → ℝ := fun v k => ∑ i, S.u i (Fin.castLE hN k) * v i
  let d : Fin N → ℝ := fun k => S.s (Fin.castLE hN k) * S.sgn (Fin.castLE hN k)
  have hphi : ∀ v w, phi (S.filtered N) v w = ∑ k, d k * x v k * x w k := by
    intro v w
    have hf : ∀ i j, S.filtered N i j = ∑ k, S.u i (Fin.castLE hN k) * d k * S.u j (Fin.castLE hN k) := by
      intro i j
      rw [HermSvd.filtered, ← sum_filter]
      symm
      refine sum_bij' (fun k _ => Fin.castLE hN k) (fun k hk => ⟨k.val, (mem_filter.1 hk).2⟩) ?_ ?_ ?_ ?_ ?_
      · intro k _; simp
      · intro k _; simp
      · intro k _; rfl
      · intro k _; rfl
      · intro k _; simp only [d]; ring
    simp only [phi, hf, x]
    calc ∑ i, v i * ∑ j, (∑ k, S.u i (Fin.castLE hN k) * d k * S.u j (Fin.castLE hN k)) * w j
        = ∑ i, ∑ j, ∑ k, d k * (S.u i (Fin.castLE hN k) * v i) * (S.u j (Fin.castLE hN k) * w j) := by
          refine sum_congr rfl fun i _ => ?_
          rw [mul_sum]
          refine sum_congr rfl fun j _ => ?_
          rw [sum_mul, mul_sum]
          exact sum_congr rfl fun k _ => by ring
      _ = ∑ k, ∑ i, ∑ j, d k * (S.u i (Fin.castLE hN k) * v i) * (S.u j (Fin.castLE hN k) * w j) := by
          rw [sum_congr rfl fun i _ => sum_comm, sum_comm]
      _ = _ := by
          refine sum_congr rfl fun k _ => ?_
          rw [mul_assoc, sum_mul_sum, mul_sum]
          refine sum_congr rfl fun i _ => ?_
          rw [mul_sum]
          exact sum_congr rfl fun j _ => by ring
  let M : Matrix (Fin N) (Fin N) ℝ := fun k a => x (p a) k
  have h1 : (diagonal σ * Mᵀ * diagonal d) * M = 1 := by
    have : Mᵀ * diagonal d * M = diagonal σ := by
      ext a b
      rw [Matrix.mul_apply, diagonal_apply, ← ho a b, hphi]
      refine sum_congr rfl fun k _ => ?_
      rw [mul_diagonal, transpose_apply]
      simp only [M]; ring
    rw [Matrix.mul_assoc, Matrix.mul_assoc, ← Matrix.mul_assoc Mᵀ, this, diagonal_mul_diagonal, ← diagonal_one]
    congr 1
    funext a; exact hσ a
  have h2 : M * (diagonal σ * Mᵀ * diagonal d) = 1 := mul_eq_one_comm.1 h1
  have hx : ∀ k, x v k = ∑ b, M k b * (σ b * phi (S.filtered N) (p b) v) := by
    intro k
    have : x v = (M * (diagonal σ * Mᵀ * diagonal d)).mulVec (x v) := by rw [h2, one_mulVec]
    rw [← mulVec_mulVec] at this
    rw [congrFun this k]
    show ∑ b, M k b * _ = _
    refine sum_congr rfl fun b _ => ?_
    congr 1
    rw [Matrix.mul_assoc, ← mulVec_mulVec, mulVec_diagonal, hphi]
    congr 1
    show ∑ l, (Mᵀ * diagonal d) b l * x v l = _
    refine sum_congr rfl fun l _ => ?_
    rw [mul_diagonal, transpose_apply]
    simp only [M]; ring
  rw [hphi w v]
  calc ∑ k, d k * x w k * x v k = ∑ k, ∑ b, d k * x w k * (M k b * (σ b * phi (S.filtered N) (p b) v)) :=
        sum_congr rfl fun k _ => by rw [hx k, mul_sum]
    _ = ∑ b, ∑ k, d k * x w k * (M k b * (σ b * phi (S.filtered N) (p b) v)) := sum_comm
    _ = _ := by
        refine sum_congr rfl fun b _ => ?_
        rw [hphi w (p b), mul_sum]
        exact sum_congr rfl fun k _ => by simp only [M]; ring

/-- The powers of the Jacobi matrix, for vectors that span everything up to the radical. -/
theorem jacobi_pow {ι : Type*} [Fintype ι] [DecidableEq ι] {H : Mat ℝ (n + 1) (n + 1)} {y : ℕ → ℝ}
    (hH : ∀ i j, H i j = y (i.val + j.val)) (p : ι → Fin (n + 1) → ℝ) (σ : ι → ℝ) (a₀ : ι)
    (hp : ∀ a, p a (Fin.last n) = 0) (hσ : σ a₀ = 1)
    (h0 : ∀ a, phi H (p a) (Pi.single 0 1) = if a = a₀ then 1 else 0)
    (hc : ∀ v w, phi H w v = ∑ b, σ b * phi H (p b) v * phi H w (p b))
    (J : Matrix ι ι ℝ) (hJ : ∀ a b, J a b = phi H (p a) ((shiftMat n).mulVec (p b)) * σ b) (k : ℕ) (hk : k ≤ 2 * n) :
    (J ^ k) a₀ a₀ = y k := by
  have hsym : H.IsSymm := by
    ext i j
    rw [transpose_apply, hH, hH, add_comm]
  have hshift : ∀ k : Fin n, (shiftMat n).mulVec (Pi.single k.castSucc 1) = Pi.single k.succ 1 := by
    intro k
    rw [mulVec_single_one]
    funext i
    simp only [col_apply, shiftMat, Pi.single_apply, Fin.ext_iff, Fin.val_castSucc, Fin.val_succ]
  have hstep : ∀ k : Fin n, (fun a => phi H (p a) (Pi.single k.succ 1)) = J.mulVec fun b => phi H (p b) (Pi.single k.castSucc 1) := by
    intro k
    funext a
    rw [← hshift, phi_shift_symm hH _ _ (hp a) (by simp [Fin.ext_iff, k.2.ne']), hc]
    refine sum_congr rfl fun b _ => ?_
    beta_reduce
    rw [hJ, phi_symm hsym (Pi.single k.castSucc 1), phi_shift_symm hH _ _ (hp b) (hp a)]
    ring
  have hpow : ∀ k (hk : k < n + 1), (fun a => phi H (p a) (Pi.single ⟨k, hk⟩ 1)) = (J ^ k).mulVec (Pi.single a₀ 1) := by
    intro k
    induction k with
    | zero =>
      intro hk
      rw [pow_zero, one_mulVec]
      funext a
      rw [Pi.single_apply]; exact h0 a
    | succ k ih =>
      intro hk
      rw [pow_succ', ← mulVec_mulVec, ← ih (by omega)]
      exact hstep ⟨k, by omega⟩
  have hadj : ∀ k, (J ^ k)ᵀ * diagonal σ = diagonal σ * J ^ k := by
    have h1 : Jᵀ * diagonal σ = diagonal σ * J := by
      ext a b
      rw [mul_diagonal, diagonal_mul, transpose_apply, hJ, hJ, phi_shift_symm hH _ _ (hp b) (hp a)]
      ring
    intro k
    induction k with
    | zero => simp
    | succ k ih => rw [pow_succ, transpose_mul, Matrix.mul_assoc, ih, ← Matrix.mul_assoc, h1, Matrix.mul_assoc, ← pow_succ', pow_succ]
  obtain ⟨i, j, hi, hj, rfl⟩ : ∃ i j, i < n + 1 ∧ j < n + 1 ∧ k = i + j := ⟨min k n, k - min k n, by omega, by omega, by omega⟩
  have e : y (i + j) = phi H (Pi.single ⟨i, hi⟩ 1) (Pi.single ⟨j, hj⟩ 1) := by rw [phi_single, hH]
  rw [e, hc]
  have e2 : ∑ b, σ b * phi H (p b) (Pi.single ⟨j, hj⟩ 1) * phi H (Pi.single ⟨i, hi⟩ 1) (p b) =
      (J ^ i).mulVec (Pi.single a₀ 1) ⬝ᵥ (diagonal σ).mulVec ((J ^ j).mulVec (Pi.single a₀ 1)) := by
    rw [← hpow i hi, ← hpow j hj]
    refine sum_congr rfl fun b _ => ?_
    rw [mulVec_diagonal, phi_symm hsym (Pi.single ⟨i, hi⟩ 1)]
    ring
  rw [e2, mulVec_single_one, mulVec_single_one]
  have e3 : (J ^ i).col a₀ ⬝ᵥ (diagonal σ).mulVec ((J ^ j).col a₀) = ((J ^ i)ᵀ * diagonal σ * J ^ j) a₀ a₀ := by
    rw [Matrix.mul_assoc, Matrix.mul_apply]
    refine sum_congr rfl fun b _ => ?_
    rw [mulVec_diagonal, diagonal_mul]
    rfl
  rw [e3, hadj, Matrix.mul_assoc, ← pow_add, diagonal_mul, hσ, one_mul]

end Verif
