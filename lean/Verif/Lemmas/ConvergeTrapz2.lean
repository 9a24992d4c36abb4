import Verif.Lemmas.ConvergeTrapz

/-! # Error of the first kind equation discretised with the trapezoidal rule -/

namespace Verif

open Finset Set
open scoped Matrix.Norms.Operator

/-- A two step recursion which is stable up to terms of order `h`. -/
theorem two_step_growth {u : ℕ → ℝ} {ρ σ α β h T : ℝ} {L : ℕ} (hu : ∀ i, 0 ≤ u i) (hh : 0 ≤ h) (hα : 0 ≤ α)
    (hβ : 0 ≤ β) (hσ : 0 ≤ σ) (hL : L * h ≤ T) (h0 : u 0 ≤ ρ) (h1 : 1 ≤ L → u 1 ≤ ρ)
    (hrec : ∀ m, m + 2 ≤ L → u (m + 2) ≤ u m + α * h * u (m + 1) + β * h ^ 2 * ∑ j ∈ range (m + 1), u j + σ) :
    ∀ i ≤ L, u i ≤ (ρ + L * σ) * Real.exp ((α + β * T) * T) := by
  have hT : 0 ≤ T := le_trans (by positivity) hL
  have hρ : 0 ≤ ρ := (hu 0).trans h0
  obtain ⟨G, hG⟩ : ∃ G : ℝ, G = 1 + (α + β * T) * h := ⟨_, rfl⟩
  have hG1 : 1 ≤ G := by
    rw [hG]
    have : 0 ≤ (α + β * T) * h := by positivity
    linarith
  have key : ∀ i ≤ L, u i ≤ (ρ + i * σ) * G ^ i := by
    intro i
    induction i using Nat.strong_induction_on with
    | _ i ih =>
      intro hi
      match i, ih, hi with
      | 0, _, _ => simpa using h0
      | 1, _, hi =>
        refine (h1 hi).trans ?_
        rw [Nat.cast_one, one_mul, pow_one]
        nlinarith
      | m + 2, ih, hi =>
        have mono : ∀ j ≤ m + 1, u j ≤ (ρ + (m + 1 : ℕ) * σ) * G ^ (m + 1) := fun j hj => by
          refine (ih j (by omega) (by omega)).trans ?_
          gcongr
        have hsum : ∑ j ∈ range (m + 1), u j ≤ (m + 1 : ℕ) * ((ρ + (m + 1 : ℕ) * σ) * G ^ (m + 1)) := by
          refine (sum_le_card_nsmul _ _ _ fun j hj => mono j (Finset.mem_range.1 hj).le).trans ?_
          rw [card_range, nsmul_eq_mul]
        have hmT : ((m + 1 : ℕ) : ℝ) * h ≤ T := le_trans (by gcongr; omega) hL
        obtain ⟨W, hW⟩ : ∃ W : ℝ, W = (ρ + (m + 1 : ℕ) * σ) * G ^ (m + 1) := ⟨_, rfl⟩
        have hW0 : 0 ≤ W := by rw [hW]; positivity
        rw [← hW] at mono hsum
        have h3 : β * h ^ 2 * ∑ j ∈ range (m + 1), u j ≤ β * T * h * W := by
          calc β * h ^ 2 * ∑ j ∈ range (m + 1), u j ≤ β * h ^ 2 * ((m + 1 : ℕ) * W) := by gcongr
            _ = β * (((m + 1 : ℕ) : ℝ) * h) * h * W := by ring
            _ ≤ β * T * h * W := by gcongr
        have h4 : α * h * u (m + 1) ≤ α * h * W := by gcongr; exact mono _ le_rfl
        have h5 : u (m + 2) ≤ W * G + σ := by
          have := hrec m hi
          have := mono m (by omega)
          rw [hG]
          nlinarith
        refine h5.trans ?_
        have h6 : W * G = (ρ + (m + 1 : ℕ) * σ) * G ^ (m + 2) := by rw [hW]; ring
        have h7 : 1 ≤ G ^ (m + 2) := one_le_pow₀ hG1
        have h8 : σ ≤ σ * G ^ (m + 2) := by nlinarith
        rw [h6]
        push_cast
        nlinarith
  intro i hi
  refine (key i hi).trans ?_
  have hGe : G ^ i ≤ Real.exp ((α + β * T) * T) := by
    have : G ≤ Real.exp ((α + β * T) * h) := by
      rw [hG, add_comm]; exact Real.add_one_le_exp _
    calc G ^ i ≤ Real.exp ((α + β * T) * h) ^ i := by gcongr
      _ = Real.exp (i * ((α + β * T) * h)) := (Real.exp_nat_mul _ _).symm
      _ ≤ Real.exp ((α + β * T) * T) := by
        refine Real.exp_le_exp.2 ?_
        have : (i : ℝ) * h ≤ T := le_trans (by gcongr) hL
        calc i * ((α + β * T) * h) = (α + β * T) * (i * h) := by ring
          _ ≤ (α + β * T) * T := by gcongr
  gcongr

/-- The trapezoidal rule written as a full sum minus the halves of the ends; also true for no interval. -/
theorem trapz_full {V : Type*} [AddCommGroup V] [Module ℝ V] (h : ℝ) (f : ℕ → V) (m : ℕ) :
    Spec.trapzRule h f m = h • ∑ j ∈ range (m + 1), f j - (h / 2) • f 0 - (h / 2) • f m := by
  induction m with
  | zero =>
    simp [Spec.trapzRule]
    module
  | succ m ih =>
    rw [Spec.trapzRule, sum_range_succ, ← Spec.trapzRule, ih, sum_range_succ _ (m + 1)]
    module

variable {b x : ℕ}

/-- The second difference of a convolution with the trapezoidal rule. -/
theorem trapz_second_difference (h : ℝ) (B : ℕ → Mat ℝ b b) (e : ℕ → Mat ℝ b x) (m : ℕ) :
    Spec.trapzRule h (Spec.convIntegrand B e (m + 2)) (m + 2)
        - (2 : ℝ) • Spec.trapzRule h (Spec.convIntegrand B e (m + 1)) (m + 1)
        + Spec.trapzRule h (Spec.convIntegrand B e m) m =
      (h / 2) • (B 0 * (e (m + 2) - e m)) + h • ((B 1 - B 0) * e (m + 1)) +
        h • (∑ j ∈ range (m + 1), (B (m - j + 2) - (2 : ℝ) • B (m - j + 1) + B (m - j)) * e j) -
        (h / 2) • ((B (m + 2) - (2 : ℝ) • B (m + 1) + B m) * e 0) := by
  rw [trapz_full, trapz_full, trapz_full, sum_range_succ _ (m + 2), sum_range_succ _ (m + 1),
    sum_range_succ _ (m + 1)]
  have e1 : ∑ j ∈ range (m + 1), (B (m - j + 2) - (2 : ℝ) • B (m - j + 1) + B (m - j)) * e j =
      (∑ j ∈ range (m + 1), Spec.convIntegrand B e (m + 2) j)
        - (2 : ℝ) • (∑ j ∈ range (m + 1), Spec.convIntegrand B e (m + 1) j)
        + ∑ j ∈ range (m + 1), Spec.convIntegrand B e m j := by
    rw [smul_sum, ← sum_sub_distrib, ← sum_add_distrib]
    refine sum_congr rfl fun j hj => ?_
    have := Finset.mem_range.1 hj
    simp only [Spec.convIntegrand]
    rw [show m + 2 - j = m - j + 2 by omega, show m + 1 - j = m - j + 1 by omega, Matrix.add_mul, Matrix.sub_mul,
      Matrix.smul_mul]
  rw [e1]
  have c : ∀ n j, Spec.convIntegrand B e n j = B (n - j) * e j := fun _ _ => rfl
  rw [c (m + 2) (m + 2), c (m + 2) (m + 1), c (m + 1) (m + 1), c m m, c (m + 2) 0, c (m + 1) 0, c m 0]
  rw [show m + 2 - (m + 2) = 0 by omega, show m + 2 - (m + 1) = 1 by omega, Nat.sub_self, Nat.sub_self, Nat.sub_zero,
    Nat.sub_zero, Nat.sub_zero]
  generalize ∑ j ∈ range (m + 1), Spec.convIntegrand B e (m + 2) j = S2
  generalize ∑ j ∈ range (m + 1), Spec.convIntegrand B e (m + 1) j = S1
  generalize ∑ j ∈ range (m + 1), Spec.convIntegrand B e m j = S0
  simp only [Matrix.mul_sub, Matrix.sub_mul, Matrix.add_mul, Matrix.smul_mul]
  module

/-- A matrix close to an invertible one is bounded below. -/
theorem norm_le_of_close {A A' M : Mat ℝ b b} (hM : M * A = 1) (hA : ‖M‖ * ‖A' - A‖ ≤ 1 / 2) (v : Mat ℝ b x) :
    ‖v‖ ≤ 2 * ‖M‖ * ‖A' * v‖ := by
  have h1 := norm_le_of_mul_eq hM v
  have h2 : ‖A * v‖ ≤ ‖A' * v‖ + ‖A' - A‖ * ‖v‖ := by
    have e : A * v = A' * v - (A' - A) * v := by rw [Matrix.sub_mul]; abel
    rw [e]
    exact (norm_sub_le _ _).trans (by gcongr; exact Matrix.linfty_opNorm_mul _ _)
  have h3 : ‖M‖ * ‖A * v‖ ≤ ‖M‖ * ‖A' * v‖ + ‖M‖ * ‖A' - A‖ * ‖v‖ := by
    calc ‖M‖ * ‖A * v‖ ≤ ‖M‖ * (‖A' * v‖ + ‖A' - A‖ * ‖v‖) := by gcongr
      _ = _ := by ring
  have h4 : ‖M‖ * ‖A' - A‖ * ‖v‖ ≤ 1 / 2 * ‖v‖ := by gcongr
  linarith

/-- Growth of the error `e` when its convolution with `B` by the trapezoidal rule is `r`. -/
theorem trapz_error_growth {T h p q R Z MB : ℝ} {L : ℕ} {B : ℕ → Mat ℝ b b} {e r : ℕ → Mat ℝ b x} (hh : 0 < h)
    (hZ : 0 ≤ Z) (hp : 0 ≤ p) (hq : 0 ≤ q) (hR : 0 ≤ R) (hL : L * h ≤ T)
    (hB : ∀ v : Mat ℝ b x, ‖v‖ ≤ Z * ‖B 0 * v‖)
    (hMB : ‖B 1‖ ≤ MB) (hB1 : ‖B 1 - B 0‖ ≤ p * h)
    (hB2 : ∀ j, j + 2 ≤ L → ‖B (j + 2) - (2 : ℝ) • B (j + 1) + B j‖ ≤ q * h ^ 2)
    (hr : ∀ m ≤ L, Spec.trapzRule h (Spec.convIntegrand B e m) m = r m)
    (hr1 : 1 ≤ L → ‖r 1‖ ≤ R * h)
    (hr2 : ∀ m, m + 2 ≤ L → ‖r (m + 2) - (2 : ℝ) • r (m + 1) + r m‖ ≤ R * h ^ 2) :
    ∀ i ≤ L, ‖e i‖ ≤ ((1 + Z * MB) * ‖e 0‖ + 2 * Z * (1 + T) * R) *
      Real.exp ((2 * Z * p + 3 * Z * q * T) * T) := by
  have hMB0 : 0 ≤ MB := (norm_nonneg _).trans hMB
  have hT : 0 ≤ T := le_trans (by positivity) hL
  intro i hi
  have key := two_step_growth (u := fun i => ‖e i‖) (ρ := (1 + Z * MB) * ‖e 0‖ + 2 * Z * R) (σ := 2 * Z * R * h)
    (α := 2 * Z * p) (β := 3 * Z * q) (fun i => norm_nonneg _) hh.le (by positivity) (by positivity) (by positivity)
    hL ?_ ?_ ?_ i hi
  · refine key.trans (mul_le_mul_of_nonneg_right ?_ (Real.exp_pos _).le)
    have : L * (2 * Z * R * h) ≤ 2 * Z * T * R := by
      calc L * (2 * Z * R * h) = 2 * Z * R * (L * h) := by ring
        _ ≤ 2 * Z * R * T := by gcongr
        _ = _ := by ring
    nlinarith
  · have : 0 ≤ Z * MB * ‖e 0‖ + 2 * Z * R := by positivity
    linarith
  · intro h1L
    have h1 := hr 1 h1L
    rw [Spec.trapzRule, sum_range_one] at h1
    simp only [Spec.convIntegrand, Nat.sub_zero, Nat.zero_add, Nat.sub_self] at h1
    have h2 : B 0 * e 1 = (2 / h) • r 1 - B 1 * e 0 := by
      rw [← h1, smul_smul, show 2 / h * (h / 2) = 1 by field_simp, one_smul]
      abel
    have h3 : ‖(2 / h) • r 1‖ ≤ 2 * R := by
      rw [norm_smul, Real.norm_of_nonneg (by positivity), div_mul_eq_mul_div, div_le_iff₀ hh]
      nlinarith [hr1 h1L]
    have h4 : ‖B 1 * e 0‖ ≤ MB * ‖e 0‖ := (Matrix.linfty_opNorm_mul _ _).trans (by gcongr)
    have h5 : ‖B 0 * e 1‖ ≤ 2 * R + MB * ‖e 0‖ := by
      rw [h2]
      exact (norm_sub_le _ _).trans (add_le_add h3 h4)
    have h6 : ‖e 1‖ ≤ Z * (2 * R + MB * ‖e 0‖) := (hB _).trans (by gcongr)
    nlinarith [norm_nonneg (e 0)]
  · intro m hm
    have h1 := trapz_second_difference h B e m
    rw [hr _ hm, hr (m + 1) (by omega), hr m (by omega)] at h1
    have h2 : B 0 * (e (m + 2) - e m) = (2 / h) • (r (m + 2) - (2 : ℝ) • r (m + 1) + r m) -
        (2 : ℝ) • ((B 1 - B 0) * e (m + 1)) -
        (2 : ℝ) • (∑ j ∈ range (m + 1), (B (m - j + 2) - (2 : ℝ) • B (m - j + 1) + B (m - j)) * e j) +
        (B (m + 2) - (2 : ℝ) • B (m + 1) + B m) * e 0 := by
      rw [h1]
      simp only [smul_add, smul_sub, smul_smul]
      rw [show 2 / h * (h / 2) = 1 by field_simp, show 2 / h * h = 2 by field_simp]
      module
    have n1 : ‖(2 / h) • (r (m + 2) - (2 : ℝ) • r (m + 1) + r m)‖ ≤ 2 * R * h := by
      rw [norm_smul, Real.norm_of_nonneg (by positivity), div_mul_eq_mul_div, div_le_iff₀ hh]
      nlinarith [hr2 m hm]
    have n2 : ‖(2 : ℝ) • ((B 1 - B 0) * e (m + 1))‖ ≤ 2 * (p * h * ‖e (m + 1)‖) := by
      rw [norm_smul, Real.norm_of_nonneg (by positivity)]
      gcongr
      exact (Matrix.linfty_opNorm_mul _ _).trans (by gcongr)
    have n3 : ‖(2 : ℝ) • (∑ j ∈ range (m + 1), (B (m - j + 2) - (2 : ℝ) • B (m - j + 1) + B (m - j)) * e j)‖ ≤
        2 * (q * h ^ 2 * ∑ j ∈ range (m + 1), ‖e j‖) := by
      rw [norm_smul, Real.norm_of_nonneg (by positivity), mul_sum]
      gcongr
      refine norm_sum_le_of_le _ fun j hj => ?_
      have := Finset.mem_range.1 hj
      exact (Matrix.linfty_opNorm_mul _ _).trans (by gcongr; exact hB2 (m - j) (by omega))
    have n4 : ‖(B (m + 2) - (2 : ℝ) • B (m + 1) + B m) * e 0‖ ≤ q * h ^ 2 * ∑ j ∈ range (m + 1), ‖e j‖ := by
      refine (Matrix.linfty_opNorm_mul _ _).trans ?_
      gcongr
      · exact hB2 m hm
      · exact single_le_sum (f := fun j => ‖e j‖) (fun _ _ => norm_nonneg _) (Finset.mem_range.2 (by omega))
    have n5 : ‖B 0 * (e (m + 2) - e m)‖ ≤ 2 * R * h + 2 * (p * h * ‖e (m + 1)‖) +
        2 * (q * h ^ 2 * ∑ j ∈ range (m + 1), ‖e j‖) + q * h ^ 2 * ∑ j ∈ range (m + 1), ‖e j‖ := by
      rw [h2]
      refine (norm_add_le _ _).trans (add_le_add ((norm_sub_le _ _).trans (add_le_add ((norm_sub_le _ _).trans
        (add_le_add n1 n2)) n3)) n4)
    have n6 : ‖e (m + 2)‖ ≤ ‖e m‖ + ‖e (m + 2) - e m‖ := by
      have := norm_add_le (e m) (e (m + 2) - e m)
      rwa [add_sub_cancel] at this
    have n7 : ‖e (m + 2) - e m‖ ≤ Z * (2 * R * h + 2 * (p * h * ‖e (m + 1)‖) +
        2 * (q * h ^ 2 * ∑ j ∈ range (m + 1), ‖e j‖) + q * h ^ 2 * ∑ j ∈ range (m + 1), ‖e j‖) :=
      (hB _).trans (by gcongr)
    refine n6.trans ((add_le_add le_rfl n7).trans (le_of_eq ?_))
    ring

end Verif
