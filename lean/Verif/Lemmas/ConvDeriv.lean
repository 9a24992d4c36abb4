import Verif.Lemmas.ConvergeIde

/-! # The derivative of a convolution -/

namespace Verif

open Finset Set
open scoped Matrix.Norms.Operator

variable {b x : ℕ}

/-- A quadratic bound of the remainder gives the derivative. -/
theorem hasDeriv_of_quadratic {f : ℝ → ℝ} {S : Set ℝ} {t d Q : ℝ} (h : ∀ s ∈ S, |f s - f t - (s - t) * d| ≤ Q * (s - t) ^ 2) :
    HasDerivWithinAt f d S t := by
  rw [hasDerivWithinAt_iff_isLittleO]
  have h1 : (fun s => f s - f t - (s - t) • d) =O[nhdsWithin t S] fun s => (s - t) ^ 2 := by
    refine Asymptotics.IsBigO.of_bound Q ?_
    filter_upwards [self_mem_nhdsWithin] with s hs
    rw [Real.norm_eq_abs, Real.norm_eq_abs, abs_of_nonneg (sq_nonneg (s - t)), smul_eq_mul]
    exact h s hs
  refine h1.trans_isLittleO ?_
  have h2 : (fun s : ℝ => s - t) =o[nhds t] fun _ : ℝ => (1 : ℝ) := by
    rw [Asymptotics.isLittleO_one_iff]
    have := (continuous_sub_right t).tendsto t
    rwa [sub_self] at this
  have h3 := (h2.mul_isBigO (Asymptotics.isBigO_refl (fun s : ℝ => s - t) (nhds t))).mono (nhdsWithin_le_nhds (s := S))
  simpa only [one_mul, ← sq] using h3

/-- The increments of a convolution. -/
theorem conv_increment {T : ℝ} {A A' : ℝ → Mat ℝ b b} {B : ℝ → Mat ℝ b x} (hA : Spec.DerivOn T A A') (hA' : Spec.Lip T A')
    (hB : Spec.Lip T B) : ∃ Q : ℝ, ∀ s t, 0 ≤ s → s ≤ t → t ≤ T → ∀ i j,
      |convAt A B t i j - convAt A B s i j - (t - s) * ((A 0 * B s) i j + convAt A' B s i j)| ≤ Q * (t - s) ^ 2 := by
  obtain ⟨LA, hLA0, hLA⟩ := lip_norm (lip_of_deriv hA hA')
  obtain ⟨MA, hMA0, hMA⟩ := lip_bound (lip_of_deriv hA hA')
  obtain ⟨LA', hLA0', hLA'⟩ := lip_norm hA'
  obtain ⟨MA', hMA0', hMA'⟩ := lip_bound hA'
  obtain ⟨LB, hLB0, hLB⟩ := lip_norm hB
  obtain ⟨MB, hMB0, hMB⟩ := lip_bound hB
  obtain ⟨Q, hQ0, hQ⟩ := backward_step hA hA'
  refine ⟨(Q + LA') * MB * |T| + (LA * MB + MA * LB), fun s t hs hst ht i j => ?_⟩
  have ht0 : 0 ≤ t := hs.trans hst
  have hsT : s ≤ T := hst.trans ht
  have c1 := contOn_of_lip (conv_lip ht hLA0 hLA hMA hLB hMB i j)
  have c0 := contOn_of_lip (conv_lip hsT hLA0 hLA hMA hLB hMB i j)
  have c2 := contOn_of_lip (conv_lip hsT hLA0' hLA' hMA' hLB hMB i j)
  have i1 : IntervalIntegrable (fun r => (A (t - r) * B r) i j) MeasureTheory.volume 0 s :=
    (c1.mono (by rw [Set.uIcc_of_le hs]; exact Icc_subset_Icc le_rfl hst)).intervalIntegrable
  have i2 : IntervalIntegrable (fun r => (A (t - r) * B r) i j) MeasureTheory.volume s t :=
    (c1.mono (by rw [Set.uIcc_of_le hst]; exact Icc_subset_Icc hs le_rfl)).intervalIntegrable
  have i0 : IntervalIntegrable (fun r => (A (s - r) * B r) i j) MeasureTheory.volume 0 s :=
    (c0.mono (by rw [Set.uIcc_of_le hs])).intervalIntegrable
  have i3 : IntervalIntegrable (fun r => (A' (s - r) * B r) i j) MeasureTheory.volume 0 s :=
    (c2.mono (by rw [Set.uIcc_of_le hs])).intervalIntegrable
  have e : convAt A B t i j - convAt A B s i j - (t - s) * ((A 0 * B s) i j + convAt A' B s i j) =
      (∫ r in (0 : ℝ)..s, ((A (t - r) - A (s - r) - (t - s) • A' (s - r)) * B r) i j) +
        ∫ r in s..t, ((A (t - r) * B r) i j - (A 0 * B s) i j) := by
    simp only [convAt, Matrix.of_apply]
    rw [← intervalIntegral.integral_add_adjacent_intervals i1 i2, intervalIntegral.integral_sub i2 (by simp),
      intervalIntegral.integral_const, smul_eq_mul]
    have : ∀ r, ((A (t - r) - A (s - r) - (t - s) • A' (s - r)) * B r) i j =
        (A (t - r) * B r) i j - (A (s - r) * B r) i j - (t - s) * (A' (s - r) * B r) i j := by
      intro r
      rw [Matrix.sub_mul, Matrix.sub_mul, Matrix.smul_mul]
      rfl
    simp only [this]
    rw [intervalIntegral.integral_sub (i1.sub i0) (i3.const_mul _), intervalIntegral.integral_sub i1 i0,
      intervalIntegral.integral_const_mul]
    ring
  rw [e]
  have n1 := intervalIntegral.norm_integral_le_of_norm_le_const (a := 0) (b := s) (C := (Q + LA') * (t - s) ^ 2 * MB)
    (f := fun r => ((A (t - r) - A (s - r) - (t - s) • A' (s - r)) * B r) i j) (fun r hr => by
      rw [Set.uIoc_of_le hs] at hr
      have m0 : s - r ∈ Icc 0 T := ⟨by linarith [hr.2], by linarith [hr.1]⟩
      have m1 : t - r ∈ Icc 0 T := ⟨by linarith [hr.2], by linarith [hr.1]⟩
      have h1 := hQ (s - r) (t - r) m0.1 (by linarith) m1.2
      have h2 := hLA' (t - r) m1 (s - r) m0
      rw [sub_sub_sub_cancel_right] at h1 h2
      rw [abs_of_nonneg (by linarith)] at h2
      have h3 : A (t - r) - A (s - r) - (t - s) • A' (s - r) = (A (t - r) - A (s - r) - (t - s) • A' (t - r)) +
          (t - s) • (A' (t - r) - A' (s - r)) := by
        rw [smul_sub]; abel
      have h4 : ‖(t - s) • (A' (t - r) - A' (s - r))‖ ≤ LA' * (t - s) ^ 2 := by
        rw [norm_smul, Real.norm_eq_abs, abs_of_nonneg (by linarith)]
        calc (t - s) * ‖A' (t - r) - A' (s - r)‖ ≤ (t - s) * (LA' * (t - s)) := mul_le_mul_of_nonneg_left h2 (by linarith)
          _ = _ := by ring
      refine (entry_le_norm _ i j).trans ((Matrix.linfty_opNorm_mul _ _).trans ?_)
      refine mul_le_mul ?_ (hMB _ ⟨hr.1.le, hr.2.trans hsT⟩) (norm_nonneg _) (by positivity)
      rw [h3]
      exact (norm_add_le _ _).trans (by linarith))
  have n2 := intervalIntegral.norm_integral_le_of_norm_le_const (a := s) (b := t) (C := (LA * MB + MA * LB) * (t - s))
    (f := fun r => (A (t - r) * B r) i j - (A 0 * B s) i j) (fun r hr => by
      rw [Set.uIoc_of_le hst] at hr
      have mr : r ∈ Icc 0 T := ⟨hs.trans hr.1.le, hr.2.trans ht⟩
      have m1 : t - r ∈ Icc 0 T := ⟨by linarith [hr.2], by linarith [hr.1]⟩
      have m2 : (0 : ℝ) ∈ Icc 0 T := ⟨le_rfl, ht0.trans ht⟩
      have h1 := hLA (t - r) m1 0 m2
      have h2 := hLB r mr s ⟨hs, hsT⟩
      rw [sub_zero, abs_of_nonneg m1.1] at h1
      rw [abs_of_nonneg (by linarith [hr.1])] at h2
      have h3 : A (t - r) * B r - A 0 * B s = (A (t - r) - A 0) * B r + A 0 * (B r - B s) := by
        rw [Matrix.sub_mul, Matrix.mul_sub]; abel
      rw [← Matrix.sub_apply, h3]
      refine (entry_le_norm _ i j).trans ((norm_add_le _ _).trans ?_)
      have h4 : ‖(A (t - r) - A 0) * B r‖ ≤ LA * (t - s) * MB := by
        refine (Matrix.linfty_opNorm_mul _ _).trans (mul_le_mul (h1.trans ?_) (hMB r mr) (norm_nonneg _) ?_)
        · exact mul_le_mul_of_nonneg_left (by linarith [hr.1]) hLA0
        · exact mul_nonneg hLA0 (by linarith)
      have h5 : ‖A 0 * (B r - B s)‖ ≤ MA * (LB * (t - s)) := by
        refine (Matrix.linfty_opNorm_mul _ _).trans (mul_le_mul (hMA 0 m2) (h2.trans ?_) (norm_nonneg _) hMA0)
        exact mul_le_mul_of_nonneg_left (by linarith [hr.2]) hLB0
      linarith)
  rw [sub_zero, abs_of_nonneg hs, Real.norm_eq_abs] at n1
  rw [abs_of_nonneg (sub_nonneg.2 hst), Real.norm_eq_abs] at n2
  refine (abs_add_le _ _).trans ((add_le_add n1 n2).trans ?_)
  have h3 : s ≤ |T| := hsT.trans (le_abs_self T)
  have h4 : (Q + LA') * (t - s) ^ 2 * MB * s ≤ (Q + LA') * (t - s) ^ 2 * MB * |T| :=
    mul_le_mul_of_nonneg_left h3 (by positivity)
  linarith

/-- `d/dt ∫_0^t A(t-s) B(s) ds = A(0) B(t) + ∫_0^t A'(t-s) B(s) ds`. -/
theorem convAt_deriv {T : ℝ} {A A' : ℝ → Mat ℝ b b} {B : ℝ → Mat ℝ b x} (hA : Spec.DerivOn T A A') (hA' : Spec.Lip T A')
    (hB : Spec.Lip T B) : Spec.DerivOn T (convAt A B) fun t => A 0 * B t + convAt A' B t := by
  intro t ht i j
  obtain ⟨Q, hQ⟩ := conv_increment hA hA' hB
  obtain ⟨L1, h10, h1⟩ := lip_norm hB
  obtain ⟨L2, h2⟩ := convAt_lip hA' hB
  refine hasDeriv_of_quadratic (Q := |Q| + (‖A 0‖ * L1 + |L2|)) fun s hs => ?_
  rcases le_total t s with hle | hle
  · refine (hQ t s ht.1 hle hs.2 i j).trans (mul_le_mul_of_nonneg_right ?_ (sq_nonneg _))
    have := le_abs_self Q
    have : 0 ≤ ‖A 0‖ * L1 + |L2| := by positivity
    linarith
  · have a1 := hQ s t hs.1 hle ht.2 i j
    have a2 : |(A 0 * B s) i j - (A 0 * B t) i j| ≤ ‖A 0‖ * L1 * (t - s) := by
      rw [← Matrix.sub_apply, ← Matrix.mul_sub]
      refine (entry_le_norm _ i j).trans ((Matrix.linfty_opNorm_mul _ _).trans ?_)
      have := h1 s hs t ht
      rw [abs_sub_comm, abs_of_nonneg (sub_nonneg.2 hle)] at this
      rw [mul_assoc]
      exact mul_le_mul_of_nonneg_left this (norm_nonneg _)
    have a3 : |convAt A' B s i j - convAt A' B t i j| ≤ |L2| * (t - s) := by
      have := h2 s hs t ht i j
      rw [abs_sub_comm s, abs_of_nonneg (sub_nonneg.2 hle)] at this
      exact this.trans (mul_le_mul_of_nonneg_right (le_abs_self _) (sub_nonneg.2 hle))
    have e : convAt A B s i j - convAt A B t i j - (s - t) * (A 0 * B t + convAt A' B t) i j =
        -(convAt A B t i j - convAt A B s i j - (t - s) * ((A 0 * B s) i j + convAt A' B s i j)) -
          (t - s) * (((A 0 * B s) i j - (A 0 * B t) i j) + (convAt A' B s i j - convAt A' B t i j)) := by
      rw [Matrix.add_apply]; ring
    change |convAt A B s i j - convAt A B t i j - (s - t) * (A 0 * B t + convAt A' B t) i j| ≤ _
    rw [e]
    refine (abs_sub _ _).trans ?_
    rw [abs_neg, abs_mul, abs_of_nonneg (sub_nonneg.2 hle)]
    have a4 : (t - s) * |((A 0 * B s) i j - (A 0 * B t) i j) + (convAt A' B s i j - convAt A' B t i j)| ≤
        (t - s) * (‖A 0‖ * L1 * (t - s) + |L2| * (t - s)) :=
      mul_le_mul_of_nonneg_left ((abs_add_le _ _).trans (add_le_add a2 a3)) (sub_nonneg.2 hle)
    have a5 : Q * (t - s) ^ 2 ≤ |Q| * (t - s) ^ 2 := mul_le_mul_of_nonneg_right (le_abs_self _) (sq_nonneg _)
    have : (s - t) ^ 2 = (t - s) ^ 2 := by ring
    rw [this]
    linarith

end Verif
