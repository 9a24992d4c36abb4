import Verif.Model.Prony
import Mathlib.LinearAlgebra.Matrix.Reindex
import Mathlib.Topology.Instances.Matrix
import Mathlib.Analysis.Complex.Basic
import Mathlib.Analysis.Complex.Exponential
import Mathlib.Analysis.SpecialFunctions.Exponential

/-!
# Exponentials of logarithms of matrices
-/

namespace Verif

open Finset Matrix

variable {N : ℕ}

section
attribute [local instance] Matrix.linftyOpNormedRing Matrix.linftyOpNormedAlgebra

/-- The exponential of a real matrix, seen as a complex one with other indices. -/
theorem exp_reindex {m : ℕ} (g : Fin m ≃ Fin N) (A : Mat ℝ m m) (i j : Fin m) :
    (((NormedSpace.exp A : Mat ℝ m m) i j : ℝ) : ℂ) =
      (NormedSpace.exp ((A.map Complex.ofReal).submatrix g.symm g.symm) : Mat ℂ N N) (g i) (g j) := by
  let f : Matrix (Fin m) (Fin m) ℝ →+* Matrix (Fin N) (Fin N) ℂ :=
    (Matrix.reindexAlgEquiv ℂ ℂ g : Matrix (Fin m) (Fin m) ℂ →+* Matrix (Fin N) (Fin N) ℂ).comp
      (RingHom.mapMatrix Complex.ofRealHom)
  have hf : Continuous f := by
    refine continuous_matrix fun i j => ?_
    exact Complex.continuous_ofReal.comp ((continuous_apply _).comp (continuous_apply _))
  have := NormedSpace.map_exp f hf A
  have h2 := congrFun (congrFun this (g i)) (g j)
  have h3 : f (NormedSpace.exp A) (g i) (g j) = ((NormedSpace.exp A : Mat ℝ m m) i j : ℝ) := by
    show (((NormedSpace.exp A : Mat ℝ m m) (g.symm (g i)) (g.symm (g j)) : ℝ) : ℂ) = _
    simp
  exact h3.symm.trans h2

end

/-- The logarithm of a real matrix is real. -/
theorem log_real (J : Mat ℝ N N) (V : Mat ℂ N N) (hV : IsUnit V.det) (l lg : Fin N → ℂ)
    (hJ : (J.map Complex.ofReal) * V = V * diagonal l) (hlg : ∀ i j, l i = (starRingEnd ℂ) (l j) → lg i = (starRingEnd ℂ) (lg j)) :
    (((V * diagonal lg * V⁻¹).map Complex.re).map Complex.ofReal : Mat ℂ N N) = V * diagonal lg * V⁻¹ := by
  set c : Mat ℂ N N → Mat ℂ N N := fun M => M.map (starRingEnd ℂ) with hc
  have cmul : ∀ A B : Mat ℂ N N, c (A * B) = c A * c B := fun A B => Matrix.map_mul
  have cdiag : ∀ d : Fin N → ℂ, c (diagonal d) = diagonal fun k => (starRingEnd ℂ) (d k) := fun d => by
    simp only [hc]; rw [diagonal_map (map_zero _)]
  have cJ : c (J.map Complex.ofReal) = J.map Complex.ofReal := by
    ext i j; simp [hc]
  have hVi : V⁻¹ * V = 1 := nonsing_inv_mul V hV
  have hVi' : V * V⁻¹ = 1 := mul_nonsing_inv V hV
  have h1 : J.map Complex.ofReal * c V = c V * diagonal fun k => (starRingEnd ℂ) (l k) := by
    rw [← cdiag, ← cmul, ← hJ, cmul, cJ]
  -- the change of basis between the eigenvectors and their conjugates
  have h2 : diagonal l * (V⁻¹ * c V) = (V⁻¹ * c V) * diagonal fun k => (starRingEnd ℂ) (l k) := by
    rw [Matrix.mul_assoc V⁻¹, ← h1, ← Matrix.mul_assoc V⁻¹, ← Matrix.mul_assoc]
    congr 1
    calc diagonal l * V⁻¹ = V⁻¹ * (V * diagonal l) * V⁻¹ := by rw [← Matrix.mul_assoc V⁻¹, hVi, Matrix.one_mul]
      _ = V⁻¹ * J.map Complex.ofReal := by rw [← hJ, Matrix.mul_assoc, Matrix.mul_assoc, hVi', Matrix.mul_one]
  have h3 : diagonal lg * (V⁻¹ * c V) = (V⁻¹ * c V) * diagonal fun k => (starRingEnd ℂ) (lg k) := by
    ext i j
    have := congrFun (congrFun h2 i) j
    rw [diagonal_mul, mul_diagonal] at this ⊢
    by_cases hz : (V⁻¹ * c V) i j = 0
    · rw [hz]; ring
    · have e : l i = (starRingEnd ℂ) (l j) := by
        rw [mul_comm] at this; exact mul_left_cancel₀ hz this
      rw [hlg i j e, mul_comm]
  have hcV : c V * c V⁻¹ = 1 := by
    rw [← cmul, hVi']; ext i j; simp only [hc, map_apply, one_apply]; split <;> simp
  have h4 : c (V * diagonal lg * V⁻¹) = V * diagonal lg * V⁻¹ := by
    rw [cmul, cmul, cdiag]
    calc c V * diagonal (fun k => (starRingEnd ℂ) (lg k)) * c V⁻¹
        = V * ((V⁻¹ * c V) * diagonal fun k => (starRingEnd ℂ) (lg k)) * c V⁻¹ := by
          rw [Matrix.mul_assoc V⁻¹, ← Matrix.mul_assoc V, hVi', Matrix.one_mul]
      _ = V * diagonal lg * V⁻¹ * (c V * c V⁻¹) := by rw [← h3]; simp only [Matrix.mul_assoc]
      _ = _ := by rw [hcV, Matrix.mul_one]
  ext i j
  have := congrFun (congrFun h4 i) j
  exact Complex.conj_eq_iff_re.1 this

/-- The exponential of the logarithm. -/
theorem exp_log_pow (J : Mat ℝ N N) (V : Mat ℂ N N) (hV : IsUnit V.det) (l lg : Fin N → ℂ)
    (hJ : (J.map Complex.ofReal) * V = V * diagonal l) (dt : ℝ) (hlg : ∀ i, Complex.exp (dt * lg i) = l i) (k : ℕ) :
    (NormedSpace.exp (((k * dt : ℝ) : ℂ) • (V * diagonal lg * V⁻¹)) : Mat ℂ N N) = (J ^ k).map Complex.ofReal := by
  have hVu : IsUnit V := (isUnit_iff_isUnit_det V).2 hV
  have hVi : V * V⁻¹ = 1 := mul_nonsing_inv V hV
  have e1 : ((k * dt : ℝ) : ℂ) • (V * diagonal lg * V⁻¹) = V * diagonal (((k * dt : ℝ) : ℂ) • lg) * V⁻¹ := by
    rw [diagonal_smul, Matrix.mul_smul, Matrix.smul_mul]
  rw [e1, Matrix.exp_conj _ _ hVu, Matrix.exp_diagonal]
  have e2 : (NormedSpace.exp (((k * dt : ℝ) : ℂ) • lg) : Fin N → ℂ) = fun i => l i ^ k := by
    funext i
    rw [Pi.coe_exp]
    rw [← Complex.exp_eq_exp_ℂ, ← hlg i, ← Complex.exp_nat_mul]
    congr 1
    simp only [Pi.smul_apply, smul_eq_mul]
    push_cast; ring
  rw [e2]
  have e3 : ∀ k : ℕ, ((J ^ k).map Complex.ofReal : Mat ℂ N N) * V = V * diagonal fun i => l i ^ k := by
    intro k
    induction k with
    | zero => 
      have : ((1 : Mat ℝ N N).map Complex.ofReal : Mat ℂ N N) = 1 := by
        ext i j; simp only [map_apply, one_apply]; split <;> simp
      simp [this]
    | succ k ih =>
      have : ((J ^ k * J).map Complex.ofReal : Mat ℂ N N) = (J ^ k).map Complex.ofReal * J.map Complex.ofReal :=
        Matrix.map_mul (f := Complex.ofRealHom)
      rw [pow_succ, this, Matrix.mul_assoc, hJ, ← Matrix.mul_assoc, ih, Matrix.mul_assoc, diagonal_mul_diagonal]
      congr 2
  rw [← e3, Matrix.mul_assoc, hVi, Matrix.mul_one]

end Verif
