import Verif.Lemmas.ConvergeMidpoint
import Verif.Lemmas.Ide

/-! # Integro-differential equations: consistency and stability of the solvers -/

namespace Verif

open Finset Set
open scoped Matrix.Norms.Operator

variable {b x : ℕ}

/-- A convolution of bounded functions is bounded. -/
theorem convAt_bound {T t MA MB : ℝ} {A : ℝ → Mat ℝ b b} {B : ℝ → Mat ℝ b x} (ht : t ∈ Icc 0 T)
    (hA : ∀ t ∈ Icc 0 T, ‖A t‖ ≤ MA) (hB : ∀ t ∈ Icc 0 T, ‖B t‖ ≤ MB) (i : Fin b) (j : Fin x) :
    |∫ s in (0 : ℝ)..t, (A (t - s) * B s) i j| ≤ MA * MB * T := by
  have h0 : 0 ≤ MA := (norm_nonneg _).trans (hA t ht)
  have h0' : 0 ≤ MB := (norm_nonneg _).trans (hB t ht)
  have := intervalIntegral.norm_integral_le_of_norm_le_const (a := 0) (b := t) (C := MA * MB)
    (f := fun s => (A (t - s) * B s) i j) (fun s hs => by
      rw [Set.uIoc_of_le ht.1] at hs
      refine (entry_le_norm _ i j).trans ((Matrix.linfty_opNorm_mul _ _).trans ?_)
      gcongr
      · exact hA _ ⟨by linarith [hs.2], by linarith [hs.1, ht.2]⟩
      · exact hB _ ⟨hs.1.le, hs.2.trans ht.2⟩)
  rw [sub_zero, abs_of_nonneg ht.1, Real.norm_eq_abs] at this
  refine this.trans ?_
  gcongr
  exact ht.2

/-- A convolution of Lipschitz functions is Lipschitz. -/
theorem convAt_lip {T : ℝ} {A : ℝ → Mat ℝ b b} {B : ℝ → Mat ℝ b x} (hA : Spec.Lip T A) (hB : Spec.Lip T B) :
    Spec.Lip T (convAt A B) := by
  obtain ⟨LA, hLA0, hLA⟩ := lip_norm hA
  obtain ⟨MA, hMA0, hMA⟩ := lip_bound hA
  obtain ⟨LB, hLB0, hLB⟩ := lip_norm hB
  obtain ⟨MB, hMB0, hMB⟩ := lip_bound hB
  have key : ∀ s ∈ Icc 0 T, ∀ t ∈ Icc 0 T, s ≤ t → ∀ i j,
      |convAt A B t i j - convAt A B s i j| ≤ (|T| * (LA * MB) + MA * MB) * (t - s) := by
    intro s hs t ht hst i j
    have c1 := contOn_of_lip (conv_lip ht.2 hLA0 hLA hMA hLB hMB i j)
    have c0 := contOn_of_lip (conv_lip hs.2 hLA0 hLA hMA hLB hMB i j)
    have i1 : IntervalIntegrable (fun r => (A (t - r) * B r) i j) MeasureTheory.volume 0 s :=
      (c1.mono (by rw [Set.uIcc_of_le hs.1]; exact Icc_subset_Icc le_rfl hst)).intervalIntegrable
    have i2 : IntervalIntegrable (fun r => (A (t - r) * B r) i j) MeasureTheory.volume s t :=
      (c1.mono (by rw [Set.uIcc_of_le hst]; exact Icc_subset_Icc hs.1 le_rfl)).intervalIntegrable
    have i0 : IntervalIntegrable (fun r => (A (s - r) * B r) i j) MeasureTheory.volume 0 s :=
      (c0.mono (by rw [Set.uIcc_of_le hs.1])).intervalIntegrable
    simp only [convAt, Matrix.of_apply]
    rw [← intervalIntegral.integral_add_adjacent_intervals i1 i2, add_sub_right_comm,
      ← intervalIntegral.integral_sub i1 i0]
    have n1 := intervalIntegral.norm_integral_le_of_norm_le_const (a := 0) (b := s) (C := LA * (t - s) * MB)
      (f := fun r => (A (t - r) * B r) i j - (A (s - r) * B r) i j) (fun r hr => by
        rw [Set.uIoc_of_le hs.1] at hr
        have h1 := hLA (t - r) ⟨by linarith [hr.2], by linarith [hr.1, ht.2]⟩ (s - r)
          ⟨by linarith [hr.2], by linarith [hr.1, hs.2]⟩
        rw [sub_sub_sub_cancel_right, abs_of_nonneg (by linarith)] at h1
        rw [← Matrix.sub_apply, ← Matrix.sub_mul]
        refine (entry_le_norm _ i j).trans ((Matrix.linfty_opNorm_mul _ _).trans ?_)
        gcongr
        exact hMB _ ⟨hr.1.le, hr.2.trans hs.2⟩)
    have n2 := intervalIntegral.norm_integral_le_of_norm_le_const (a := s) (b := t) (C := MA * MB)
      (f := fun r => (A (t - r) * B r) i j) (fun r hr => by
        rw [Set.uIoc_of_le hst] at hr
        refine (entry_le_norm _ i j).trans ((Matrix.linfty_opNorm_mul _ _).trans ?_)
        gcongr
        · exact hMA _ ⟨by linarith [hr.2], by linarith [hr.1, ht.2, hs.1]⟩
        · exact hMB _ ⟨hs.1.trans hr.1.le, hr.2.trans ht.2⟩)
    rw [sub_zero, abs_of_nonneg hs.1, Real.norm_eq_abs] at n1
    rw [abs_of_nonneg (sub_nonneg.2 hst), Real.norm_eq_abs] at n2
    refine (abs_add_le _ _).trans ((add_le_add n1 n2).trans ?_)
    have h3 : s ≤ |T| := hs.2.trans (le_abs_self T)
    have h4 : LA * (t - s) * MB * s ≤ LA * (t - s) * MB * |T| :=
      mul_le_mul_of_nonneg_left h3 (mul_nonneg (mul_nonneg hLA0 (sub_nonneg.2 hst)) hMB0)
    linarith
  refine ⟨|T| * (LA * MB) + MA * MB, fun s hs t ht i j => ?_⟩
  rcases le_total s t with h | h
  · rw [abs_sub_comm, abs_sub_comm s t, abs_of_nonneg (sub_nonneg.2 h)]
    exact key s hs t ht h i j
  · rw [abs_of_nonneg (sub_nonneg.2 h)]
    exact key t ht s hs h i j

/-- The derivative of the solution of the integro-differential equation. -/
noncomputable def evolDeriv (F : Mat ℝ b b) (k E : ℝ → Mat ℝ b b) (t : ℝ) : Mat ℝ b b := E t * F - convAt E k t

theorem evolution_derivOn {T : ℝ} {F : Mat ℝ b b} {k E : ℝ → Mat ℝ b b} (h : Spec.Evolution T F k E) :
    Spec.DerivOn T E (evolDeriv F k E) := fun t ht i j => by
  simpa [evolDeriv, convAt] using h t ht i j

/-- The solution of the integro-differential equation and its derivative are Lipschitz. -/
theorem evolution_lip {T : ℝ} {F : Mat ℝ b b} {k E : ℝ → Mat ℝ b b} (h : Spec.Evolution T F k E) (hk : Spec.Lip T k) :
    Spec.Lip T E ∧ Spec.Lip T (evolDeriv F k E) := by
  obtain ⟨Mk, hMk0, hMk⟩ := lip_bound hk
  have hc : ∀ i j, ∃ C : ℝ, ∀ t ∈ Icc 0 T, |E t i j| ≤ C := fun i j =>
    isCompact_Icc.exists_bound_of_continuousOn (f := fun t => E t i j)
      fun t ht => (evolution_derivOn h t ht i j).continuousWithinAt
  choose C hC using hc
  obtain ⟨M, hM0, hM⟩ : ∃ M : ℝ, 0 ≤ M ∧ ∀ t ∈ Icc 0 T, ‖E t‖ ≤ M := by
    refine ⟨b * ∑ i, ∑ j, |C i j|, by positivity, fun t ht => norm_le_of_entries (by positivity) fun i j => ?_⟩
    refine (hC i j t ht).trans ((le_abs_self _).trans ?_)
    refine (single_le_sum (f := fun j => |C i j|) (fun _ _ => abs_nonneg _) (Finset.mem_univ j)).trans ?_
    exact single_le_sum (f := fun i => ∑ j, |C i j|) (fun _ _ => sum_nonneg fun _ _ => abs_nonneg _) (Finset.mem_univ i)
  have hE : Spec.Lip T E := by
    refine ⟨M * ‖F‖ + M * Mk * T, fun s hs t ht i j => ?_⟩
    have := Convex.norm_image_sub_le_of_norm_hasDerivWithin_le (C := M * ‖F‖ + M * Mk * T)
      (fun t ht => evolution_derivOn h t ht i j)
      (fun u hu => ?_) (convex_Icc _ _) ht hs
    · simpa [Real.norm_eq_abs] using this
    · rw [Real.norm_eq_abs, evolDeriv, Matrix.sub_apply]
      refine (abs_sub _ _).trans (add_le_add ?_ (convAt_bound hu hM hMk i j))
      refine (entry_le_norm _ i j).trans ((Matrix.linfty_opNorm_mul _ _).trans ?_)
      gcongr
      exact hM u hu
  refine ⟨hE, ?_⟩
  obtain ⟨LE, hLE0, hLE⟩ := lip_norm hE
  obtain ⟨Lc, hLc⟩ := convAt_lip hE hk
  refine ⟨LE * ‖F‖ + Lc, fun s hs t ht i j => ?_⟩
  have e : evolDeriv F k E s i j - evolDeriv F k E t i j =
      ((E s - E t) * F) i j - (convAt E k s i j - convAt E k t i j) := by
    simp only [evolDeriv, Matrix.sub_mul, Matrix.sub_apply]; ring
  rw [e, add_mul]
  refine (abs_sub _ _).trans (add_le_add ?_ (hLc s hs t ht i j))
  refine (entry_le_norm _ i j).trans ((Matrix.linfty_opNorm_mul _ _).trans ?_)
  calc ‖E s - E t‖ * ‖F‖ ≤ LE * |s - t| * ‖F‖ := by gcongr; exact hLE s hs t ht
    _ = _ := by ring

/-- One backward step. -/
theorem backward_step {T : ℝ} {E E' : ℝ → Mat ℝ b b} (hE : Spec.DerivOn T E E') (hL : Spec.Lip T E') :
    ∃ Q : ℝ, 0 ≤ Q ∧ ∀ s t, 0 ≤ s → s ≤ t → t ≤ T → ‖E t - E s - (t - s) • E' t‖ ≤ Q * (t - s) ^ 2 := by
  obtain ⟨L, hL⟩ := hL
  refine ⟨b * |L|, by positivity, fun s t hs hst ht => ?_⟩
  rw [mul_assoc]
  refine norm_le_of_entries (by positivity) fun i j => ?_
  have hsub : Icc s t ⊆ Icc 0 T := Icc_subset_Icc hs ht
  have hg : ∀ u ∈ Icc s t, HasDerivWithinAt (fun u => E u i j - E' t i j * u) (E' u i j - E' t i j * 1) (Icc s t) u :=
    fun u hu => ((hE u (hsub hu) i j).mono hsub).sub ((hasDerivWithinAt_id u _).const_mul _)
  have := Convex.norm_image_sub_le_of_norm_hasDerivWithin_le (C := |L| * (t - s)) hg (fun u hu => ?_) (convex_Icc _ _)
    (left_mem_Icc.2 hst) (right_mem_Icc.2 hst)
  · rw [Real.norm_eq_abs, Real.norm_eq_abs, abs_of_nonneg (sub_nonneg.2 hst)] at this
    rw [Matrix.sub_apply, Matrix.sub_apply, Matrix.smul_apply, smul_eq_mul]
    calc _ = |E t i j - E' t i j * t - (E s i j - E' t i j * s)| := by congr 1; ring
      _ ≤ _ := this
      _ = _ := by ring
  · rw [mul_one, Real.norm_eq_abs]
    refine (hL u (hsub hu) t (hsub (right_mem_Icc.2 hst)) i j).trans ?_
    rw [abs_sub_comm, abs_of_nonneg (by linarith [hu.2])]
    calc L * (t - u) ≤ |L| * (t - u) := mul_le_mul_of_nonneg_right (le_abs_self L) (by linarith [hu.2])
      _ ≤ |L| * (t - s) := by gcongr; exact hu.1

/-- Sums over windows that differ by at most three terms. -/
theorem window_sum_le {M : ℝ} {i n : ℕ} (hn : n ≤ i) {f : ℕ → Mat ℝ b x} (hf : ∀ j < i, ‖f j‖ ≤ M)
    (h0 : ∀ j, n + 2 ≤ j → j < i → f j = 0) (hM : 0 ≤ M) :
    ‖∑ j ∈ Finset.Ico 1 n, f j - ∑ j ∈ range i, f j‖ ≤ 3 * M := by
  have hsub : Finset.Ico 1 n ⊆ range i := fun j hj => by
    have := Finset.mem_Ico.1 hj
    exact Finset.mem_range.2 (by omega)
  rw [← sum_sdiff hsub, sub_add_cancel_right, norm_neg]
  have e : ∑ j ∈ range i \ Finset.Ico 1 n, f j = ∑ j ∈ (range i \ Finset.Ico 1 n) ∩ {0, n, n + 1}, f j := by
    refine (sum_subset Finset.inter_subset_left fun j hj hj' => ?_).symm
    simp only [Finset.mem_sdiff, Finset.mem_range, Finset.mem_Ico, Finset.mem_inter, Finset.mem_insert,
      Finset.mem_singleton] at hj hj'
    exact h0 j (by omega) (by omega)
  rw [e]
  refine (norm_sum_le_of_le (n := fun _ => M) _ fun j hj => hf j ?_).trans ?_
  · simp only [Finset.mem_sdiff, Finset.mem_range, Finset.mem_inter] at hj
    exact hj.1.1
  · rw [sum_const, nsmul_eq_mul]
    gcongr
    have : ((range i \ Finset.Ico 1 n) ∩ {0, n, n + 1}).card ≤ 3 :=
      (Finset.card_le_card Finset.inter_subset_right).trans Finset.card_le_three
    exact_mod_cast this

/-- The local error of the solvers is of second order. -/
theorem ide_consistent {T : ℝ} {F : Mat ℝ b b} {k E : ℝ → Mat ℝ b b} (hE : Spec.Evolution T F k E) (hk : Spec.Lip T k) :
    ∃ Q : ℝ, 0 ≤ Q ∧ ∀ (h c : ℝ) (i n : ℕ), 0 ≤ h → 0 ≤ c → c ≤ 1 → (i + 1 : ℕ) * h ≤ T → n ≤ i + 1 →
      (∀ j, n + 2 ≤ j → j < i + 1 → k (j * h) = 0) →
      ‖E ((i + 1 : ℕ) * h) * (1 + (c * h ^ 2) • k 0) - E (i * h) - h • (E (i * h) * F) +
        h • ∑ j ∈ Finset.Ico 1 n, h • (E ((i + 1 - j : ℕ) * h) * k (j * h))‖ ≤ Q * h ^ 2 := by
  obtain ⟨lE, lE'⟩ := evolution_lip hE hk
  obtain ⟨Q1, hQ1, H1⟩ := backward_step (evolution_derivOn hE) lE'
  obtain ⟨Q2, hQ2, H2⟩ := rect_consistent lE hk
  obtain ⟨LE, hLE0, hLE⟩ := lip_norm lE
  obtain ⟨ME, hME0, hME⟩ := lip_bound lE
  obtain ⟨Mk, hMk0, hMk⟩ := lip_bound hk
  refine ⟨Q1 + LE * ‖F‖ + ME * Mk + (b * Q2 + 3 * (ME * Mk)), by positivity, fun h c i n hh hc hc1 hT hn hz => ?_⟩
  have ti : ((i + 1 : ℕ) : ℝ) * h = i * h + h := by push_cast; ring
  have mem : ∀ j ≤ i + 1, (j : ℝ) * h ∈ Icc 0 T := fun j hj => by
    have : (j : ℝ) * h ≤ (i + 1 : ℕ) * h := by gcongr
    exact ⟨by positivity, by linarith⟩
  have n1 := H1 (i * h) ((i + 1 : ℕ) * h) (by positivity) (by linarith) hT
  have n2 := hLE _ (mem (i + 1) le_rfl) _ (mem i (by omega))
  have d : ((i + 1 : ℕ) : ℝ) * h - i * h = h := by rw [ti]; ring
  rw [d] at n1 n2
  rw [abs_of_nonneg hh] at n2
  have n3 : ‖∑ j ∈ range (i + 1), h • (E ((i + 1 - j : ℕ) * h) * k (j * h)) - convAt E k ((i + 1 : ℕ) * h)‖ ≤
      b * (Q2 * h) := norm_le_of_entries (by positivity) fun p q => H2 h (i + 1) hh hT p q
  have n4 := window_sum_le (M := h * (ME * Mk)) hn (f := fun j => h • (E ((i + 1 - j : ℕ) * h) * k (j * h)))
    (fun j hj => by
      rw [norm_smul, Real.norm_of_nonneg hh]
      refine mul_le_mul_of_nonneg_left ((Matrix.linfty_opNorm_mul _ _).trans ?_) hh
      gcongr
      · exact hME _ (mem _ (by omega))
      · exact hMk _ (mem _ (by omega)))
    (fun j h1 h2 => by rw [hz j h1 h2, Matrix.mul_zero, smul_zero]) (by positivity)
  have n5 : ‖(c * h ^ 2) • (E ((i + 1 : ℕ) * h) * k 0)‖ ≤ h ^ 2 * (ME * Mk) := by
    rw [norm_smul, Real.norm_of_nonneg (by positivity)]
    have h1 : ‖E ((i + 1 : ℕ) * h) * k 0‖ ≤ ME * Mk := by
      refine (Matrix.linfty_opNorm_mul _ _).trans ?_
      gcongr
      · exact hME _ (mem _ le_rfl)
      · have := hMk _ (mem 0 (by omega))
        simpa using this
    refine mul_le_mul ?_ h1 (norm_nonneg _) (by positivity)
    nlinarith [sq_nonneg h]
  have n6 : ‖h • ((E ((i + 1 : ℕ) * h) - E (i * h)) * F)‖ ≤ LE * ‖F‖ * h ^ 2 := by
    rw [norm_smul, Real.norm_of_nonneg hh]
    calc _ ≤ h * (‖E ((i + 1 : ℕ) * h) - E (i * h)‖ * ‖F‖) := by gcongr; exact Matrix.linfty_opNorm_mul _ _
      _ ≤ h * (LE * h * ‖F‖) := by gcongr
      _ = _ := by ring
  have e : E ((i + 1 : ℕ) * h) * (1 + (c * h ^ 2) • k 0) - E (i * h) - h • (E (i * h) * F) +
        h • ∑ j ∈ Finset.Ico 1 n, h • (E ((i + 1 - j : ℕ) * h) * k (j * h)) =
      (E ((i + 1 : ℕ) * h) - E (i * h) - h • evolDeriv F k E ((i + 1 : ℕ) * h)) +
      h • ((E ((i + 1 : ℕ) * h) - E (i * h)) * F) + (c * h ^ 2) • (E ((i + 1 : ℕ) * h) * k 0) +
      h • ((∑ j ∈ Finset.Ico 1 n, h • (E ((i + 1 - j : ℕ) * h) * k (j * h)) -
        ∑ j ∈ range (i + 1), h • (E ((i + 1 - j : ℕ) * h) * k (j * h))) +
        (∑ j ∈ range (i + 1), h • (E ((i + 1 - j : ℕ) * h) * k (j * h)) - convAt E k ((i + 1 : ℕ) * h))) := by
    rw [evolDeriv, Matrix.mul_add, Matrix.mul_one, Matrix.mul_smul, Matrix.sub_mul]
    generalize (∑ j ∈ Finset.Ico 1 n, h • (E ((i + 1 - j : ℕ) * h) * k (j * h))) = S1
    generalize (∑ j ∈ range (i + 1), h • (E ((i + 1 - j : ℕ) * h) * k (j * h))) = S2
    generalize E ((i + 1 : ℕ) * h) * F = Y1
    generalize E (i * h) * F = Y2
    generalize E ((i + 1 : ℕ) * h) * k 0 = Y3
    module
  rw [e]
  refine (norm_add_le _ _).trans ?_
  have n7 : ‖h • ((∑ j ∈ Finset.Ico 1 n, h • (E ((i + 1 - j : ℕ) * h) * k (j * h)) -
        ∑ j ∈ range (i + 1), h • (E ((i + 1 - j : ℕ) * h) * k (j * h))) +
        (∑ j ∈ range (i + 1), h • (E ((i + 1 - j : ℕ) * h) * k (j * h)) - convAt E k ((i + 1 : ℕ) * h)))‖ ≤
      (b * Q2 + 3 * (ME * Mk)) * h ^ 2 := by
    rw [norm_smul, Real.norm_of_nonneg hh]
    calc _ ≤ h * (3 * (h * (ME * Mk)) + b * (Q2 * h)) := by
          refine mul_le_mul_of_nonneg_left ((norm_add_le _ _).trans (add_le_add n4 n3)) hh
      _ = _ := by ring
  have n8 := norm_add₃_le (a := E ((i + 1 : ℕ) * h) - E (i * h) - h • evolDeriv F k E ((i + 1 : ℕ) * h))
    (b := h • ((E ((i + 1 : ℕ) * h) - E (i * h)) * F)) (c := (c * h ^ 2) • (E ((i + 1 : ℕ) * h) * k 0))
  linarith

/-- Growth of the errors when each is bounded by the largest of the previous ones. -/
theorem ide_growth {u : ℕ → ℝ} {N : ℕ} {a h σ T : ℝ} (ha : 0 ≤ a) (hh : 0 ≤ h) (hah : a * h ≤ 1 / 2) (hσ : 0 ≤ σ)
    (hu : ∀ i, 0 ≤ u i) (hT : ((N - 1 : ℕ) : ℝ) * h ≤ T)
    (hs : ∀ i, i + 1 < N → ∀ W, (∀ j ≤ i, u j ≤ W) → u (i + 1) * (1 - a * h) ≤ (1 + a * h) * W + h * σ) :
    ∀ i < N, u i ≤ (u 0 + 2 * σ * T) * Real.exp (4 * a * T) := by
  have ah : 0 ≤ a * h := by positivity
  have mono : ∀ i j : ℕ, j ≤ i → (u 0 + 2 * σ * (j * h)) * (1 + 4 * (a * h)) ^ j ≤
      (u 0 + 2 * σ * (i * h)) * (1 + 4 * (a * h)) ^ i := by
    intro i j hij
    have h0 := hu 0
    have h1 : (1 : ℝ) ≤ 1 + 4 * (a * h) := by linarith
    have h2 : (1 + 4 * (a * h)) ^ j ≤ (1 + 4 * (a * h)) ^ i := pow_le_pow_right₀ h1 hij
    have h3 : u 0 + 2 * σ * (j * h) ≤ u 0 + 2 * σ * (i * h) := by gcongr
    exact mul_le_mul h3 h2 (by positivity) (by positivity)
  have key : ∀ i < N, u i ≤ (u 0 + 2 * σ * (i * h)) * (1 + 4 * (a * h)) ^ i := by
    intro i
    induction i using Nat.strong_induction_on with
    | _ i ih =>
      intro hi
      rcases i with _ | i
      · simp
      · have h1 := hs i hi ((u 0 + 2 * σ * (i * h)) * (1 + 4 * (a * h)) ^ i)
          fun j hj => (ih j (by omega) (by omega)).trans (mono i j hj)
        have hW : 0 ≤ (u 0 + 2 * σ * (i * h)) * (1 + 4 * (a * h)) ^ i := by
          have := hu 0
          positivity
        have hG : (1 : ℝ) ≤ (1 + 4 * (a * h)) ^ (i + 1) := one_le_pow₀ (by linarith)
        have e1 : (u 0 + 2 * σ * ((i + 1 : ℕ) * h)) * (1 + 4 * (a * h)) ^ (i + 1) =
            (1 + 4 * (a * h)) * ((u 0 + 2 * σ * (i * h)) * (1 + 4 * (a * h)) ^ i) +
              2 * (h * σ) * (1 + 4 * (a * h)) ^ (i + 1) := by
          push_cast; ring
        rw [e1]
        generalize (u 0 + 2 * σ * (i * h)) * (1 + 4 * (a * h)) ^ i = W at h1 hW
        generalize (1 + 4 * (a * h)) ^ (i + 1) = G at hG
        have hz : 0 < 1 - a * h := by linarith
        have hsg : 0 ≤ h * σ := by positivity
        have h2 : (1 + a * h) * W ≤ ((1 + 4 * (a * h)) * W) * (1 - a * h) := by
          have : 0 ≤ (a * h) * (1 - 2 * (a * h)) * W * 2 := by
            have : 0 ≤ 1 - 2 * (a * h) := by linarith
            positivity
          nlinarith
        have h3 : h * σ ≤ (2 * (h * σ) * G) * (1 - a * h) := by
          have h4 : h * σ ≤ (h * σ) * G := le_mul_of_one_le_right hsg hG
          have h5 : 0 ≤ (h * σ) * G * (1 - 2 * (a * h)) := by
            have : 0 ≤ 1 - 2 * (a * h) := by linarith
            positivity
          nlinarith
        refine le_of_mul_le_mul_right ?_ hz
        calc _ ≤ _ := h1
          _ ≤ _ := add_le_add h2 h3
          _ = _ := by ring
  intro i hi
  have hiT : (i : ℝ) * h ≤ T := by
    have : (i : ℝ) ≤ (N - 1 : ℕ) := by exact_mod_cast (by omega : i ≤ N - 1)
    exact (mul_le_mul_of_nonneg_right this hh).trans hT
  have hT0 : 0 ≤ T := le_trans (by positivity) hiT
  have h0 := hu 0
  refine (key i hi).trans (mul_le_mul (by gcongr) ?_ (by positivity) (by positivity))
  calc (1 + 4 * (a * h)) ^ i ≤ (Real.exp (4 * (a * h))) ^ i := by
        gcongr
        linarith [Real.add_one_le_exp (4 * (a * h))]
    _ = Real.exp (4 * a * (i * h)) := by rw [← Real.exp_nat_mul]; congr 1; ring
    _ ≤ _ := by
        refine Real.exp_le_exp.2 ?_
        gcongr

set_option maxHeartbeats 1000000 in
/-- The error of the solvers. -/
theorem ide_error {T : ℝ} {F : Mat ℝ b b} {k E : ℝ → Mat ℝ b b} (hE : Spec.Evolution T F k E) (hk : Spec.Lip T k) :
    ∃ C δ : ℝ, 0 < δ ∧ ∀ (h c ε : ℝ) (N L : ℕ) (n : ℕ → ℕ) (F' : Mat ℝ b b) (ker E' : ℕ → Mat ℝ b b),
      0 < h → h ≤ δ → 0 ≤ c → c ≤ 1 → 0 ≤ ε → ε ≤ 1 → 1 ≤ N → ((N - 1 : ℕ) : ℝ) * h ≤ T → 1 ≤ L →
      (∀ i, 1 ≤ i → i < N → n i ≤ i ∧ n i ≤ L ∧ ∀ j, n i + 2 ≤ j → j < i → k (j * h) = 0) →
      ‖F' - F‖ ≤ ε → (∀ j < L, j < N → ‖ker j - k (j * h)‖ ≤ ε) → ‖E' 0 - E 0‖ ≤ ε →
      (1 + (c * h ^ 2) • ker 0).det ≠ 0 ∧
      ((∀ i, 1 ≤ i → i < N → IdeStep n (1 + (c * h ^ 2) • ker 0) ker F' h E' i) →
        ∀ i < N, ‖E' i - E (i * h)‖ ≤ C * (h + ε)) := by
  obtain ⟨lE, -⟩ := evolution_lip hE hk
  obtain ⟨Q, hQ0, HQ⟩ := ide_consistent hE hk
  obtain ⟨ME, hME0, hME⟩ := lip_bound lE
  obtain ⟨Mk, hMk0, hMk⟩ := lip_bound hk
  obtain ⟨a, hadef⟩ : ∃ a : ℝ, a = (‖F‖ + 1) + |T| * (Mk + 1) + (Mk + 1) := ⟨_, rfl⟩
  have ha1 : 1 ≤ a := by rw [hadef]; have := norm_nonneg F; nlinarith [abs_nonneg T]
  obtain ⟨R, hR⟩ : ∃ R : ℝ, R = Q + ME * (2 + |T|) := ⟨_, rfl⟩
  have hR0 : 0 ≤ R := by rw [hR]; positivity
  refine ⟨(1 + 2 * R * |T|) * Real.exp (4 * a * |T|), 1 / (2 * a), by positivity, ?_⟩
  intro h c ε N L n F' ker E' hh hhδ hc hc1 hε hε1 hN hNT hL hn hF hker h0
  have hah : a * h ≤ 1 / 2 := by
    rw [le_div_iff₀ (by positivity)] at hhδ
    linarith
  have hh1 : h ≤ 1 / 2 := by nlinarith
  have hT0 : 0 ≤ T := le_trans (by positivity) hNT
  have hTabs : |T| = T := abs_of_nonneg hT0
  have mem : ∀ j < N, (j : ℝ) * h ∈ Icc 0 T := fun j hj => by
    have : (j : ℝ) ≤ (N - 1 : ℕ) := by exact_mod_cast (by omega : j ≤ N - 1)
    exact ⟨by positivity, (mul_le_mul_of_nonneg_right this hh.le).trans hNT⟩
  have hK : ∀ j < L, j < N → ‖ker j‖ ≤ Mk + 1 := fun j h1 h2 => by
    calc ‖ker j‖ = ‖(ker j - k (j * h)) + k (j * h)‖ := by rw [sub_add_cancel]
      _ ≤ ε + Mk := (norm_add_le _ _).trans (add_le_add (hker j h1 h2) (hMk _ (mem j h2)))
      _ ≤ _ := by linarith
  have hF1 : ‖F'‖ ≤ ‖F‖ + 1 := by
    calc ‖F'‖ = ‖(F' - F) + F‖ := by rw [sub_add_cancel]
      _ ≤ ε + ‖F‖ := (norm_add_le _ _).trans (add_le_add hF le_rfl)
      _ ≤ _ := by linarith
  have hK0 := hK 0 (by omega) (by omega)
  have hch : c * h ^ 2 ≤ h ^ 2 := mul_le_of_le_one_left (by positivity) hc1
  have hchK : c * h ^ 2 * ‖ker 0‖ ≤ (Mk + 1) * h * h := by
    calc c * h ^ 2 * ‖ker 0‖ ≤ h ^ 2 * (Mk + 1) := by gcongr
      _ = _ := by ring
  have hMka : Mk + 1 ≤ a := by
    rw [hadef]
    have := norm_nonneg F
    have : 0 ≤ |T| * (Mk + 1) := by positivity
    linarith
  refine ⟨?_, fun hstep => ?_⟩
  · rcases isEmpty_or_nonempty (Fin b) with hb | hb
    · rw [Matrix.det_isEmpty]; exact one_ne_zero
    · refine det_ne_zero_of_close (M := 1) (A := 1) (by simp) ?_
      rw [add_sub_cancel_left, norm_one, one_mul, norm_smul, Real.norm_of_nonneg (by positivity)]
      have : (Mk + 1) * h * h ≤ a * h * h := by gcongr
      nlinarith
  · have hs : ∀ i, i + 1 < N → ∀ W, (∀ j ≤ i, ‖E' j - E (j * h)‖ ≤ W) →
        ‖E' (i + 1) - E ((i + 1 : ℕ) * h)‖ * (1 - a * h) ≤ (1 + a * h) * W + h * (R * (h + ε)) := by
      intro i hi W hW
      have hW0 : 0 ≤ W := (norm_nonneg _).trans (hW 0 (Nat.zero_le _))
      obtain ⟨hn1, hn2, hn3⟩ := hn (i + 1) (by omega) hi
      have hst := hstep (i + 1) (by omega) hi
      unfold IdeStep at hst
      rw [Nat.add_sub_cancel] at hst
      have hτ := HQ h c i (n (i + 1)) hh.le hc hc1 (mem (i + 1) hi).2 hn1 hn3
      have hS : ∑ j ∈ Finset.Ico 1 (n (i + 1)), h • (E' (i + 1 - j) * ker j) -
          ∑ j ∈ Finset.Ico 1 (n (i + 1)), h • (E ((i + 1 - j : ℕ) * h) * k (j * h)) =
          ∑ j ∈ Finset.Ico 1 (n (i + 1)), h • ((E' (i + 1 - j) - E ((i + 1 - j : ℕ) * h)) * ker j +
            E ((i + 1 - j : ℕ) * h) * (ker j - k (j * h))) := by
        rw [← sum_sub_distrib]
        refine sum_congr rfl fun j _ => ?_
        rw [Matrix.sub_mul, Matrix.mul_sub, ← smul_sub]
        congr 1
        abel
      have nS : ‖∑ j ∈ Finset.Ico 1 (n (i + 1)), h • ((E' (i + 1 - j) - E ((i + 1 - j : ℕ) * h)) * ker j +
            E ((i + 1 - j : ℕ) * h) * (ker j - k (j * h)))‖ ≤ |T| * (W * (Mk + 1) + ME * ε) := by
        refine (norm_sum_le_of_le (n := fun _ => h * (W * (Mk + 1) + ME * ε)) _ fun j hj => ?_).trans ?_
        · have hj' := Finset.mem_Ico.1 hj
          rw [norm_smul, Real.norm_of_nonneg hh.le]
          refine mul_le_mul_of_nonneg_left ((norm_add_le _ _).trans (add_le_add ?_ ?_)) hh.le
          · refine (Matrix.linfty_opNorm_mul _ _).trans ?_
            gcongr
            · exact hW _ (by omega)
            · exact hK j (by omega) (by omega)
          · refine (Matrix.linfty_opNorm_mul _ _).trans ?_
            gcongr
            · exact hME _ (mem _ (by omega))
            · exact hker j (by omega) (by omega)
        · rw [sum_const, nsmul_eq_mul, Nat.card_Ico, ← mul_assoc]
          have h1 : ((n (i + 1) - 1 : ℕ) : ℝ) * h ≤ |T| := by
            rw [hTabs]
            exact (mem _ (by omega)).2
          gcongr
      have e : (E' (i + 1) - E ((i + 1 : ℕ) * h)) = (E' i - E (i * h)) +
          h • ((E' i - E (i * h)) * F' + E (i * h) * (F' - F)) -
          h • (∑ j ∈ Finset.Ico 1 (n (i + 1)), h • (E' (i + 1 - j) * ker j) -
            ∑ j ∈ Finset.Ico 1 (n (i + 1)), h • (E ((i + 1 - j : ℕ) * h) * k (j * h))) -
          (E ((i + 1 : ℕ) * h) * (1 + (c * h ^ 2) • k 0) - E (i * h) - h • (E (i * h) * F) +
            h • ∑ j ∈ Finset.Ico 1 (n (i + 1)), h • (E ((i + 1 - j : ℕ) * h) * k (j * h))) -
          (c * h ^ 2) • (E ((i + 1 : ℕ) * h) * (ker 0 - k 0)) -
          (c * h ^ 2) • ((E' (i + 1) - E ((i + 1 : ℕ) * h)) * ker 0) := by
        have hst' : E' (i + 1) = E' i + h • (E' i * F') -
            h • ∑ j ∈ Finset.Ico 1 (n (i + 1)), h • (E' (i + 1 - j) * ker j) - (c * h ^ 2) • (E' (i + 1) * ker 0) := by
          rw [← hst, Matrix.mul_add, Matrix.mul_one, Matrix.mul_smul, add_sub_cancel_right]
        simp only [Matrix.sub_mul, Matrix.mul_sub, Matrix.mul_add, Matrix.mul_one, Matrix.mul_smul]
        generalize (∑ j ∈ Finset.Ico 1 (n (i + 1)), h • (E' (i + 1 - j) * ker j)) = S1 at hst' ⊢
        generalize (∑ j ∈ Finset.Ico 1 (n (i + 1)), h • (E ((i + 1 - j : ℕ) * h) * k (j * h))) = S2
        generalize E' (i + 1) * ker 0 = Y1 at hst' ⊢
        generalize E' i * F' = Y2 at hst' ⊢
        rw [hst']
        module
      rw [hS] at e
      have n0 : ‖E' (i + 1) - E ((i + 1 : ℕ) * h)‖ ≤ W + h * (W * (‖F‖ + 1) + ME * ε) +
          h * (|T| * (W * (Mk + 1) + ME * ε)) + Q * h ^ 2 + h ^ 2 * (ME * ε) +
          (Mk + 1) * h * h * ‖E' (i + 1) - E ((i + 1 : ℕ) * h)‖ := by
        conv_lhs => rw [e]
        refine (norm_sub_le _ _).trans (add_le_add ((norm_sub_le _ _).trans (add_le_add ((norm_sub_le _ _).trans
          (add_le_add ((norm_sub_le _ _).trans (add_le_add ((norm_add_le _ _).trans (add_le_add ?_ ?_)) ?_)) hτ)) ?_)) ?_)
        · exact hW i le_rfl
        · rw [norm_smul, Real.norm_of_nonneg hh.le]
          refine mul_le_mul_of_nonneg_left ((norm_add_le _ _).trans (add_le_add ?_ ?_)) hh.le
          · refine (Matrix.linfty_opNorm_mul _ _).trans ?_
            gcongr
            exact hW i le_rfl
          · refine (Matrix.linfty_opNorm_mul _ _).trans ?_
            gcongr
            exact hME _ (mem _ (by omega))
        · rw [norm_smul, Real.norm_of_nonneg hh.le]
          gcongr
        · rw [norm_smul, Real.norm_of_nonneg (by positivity)]
          refine mul_le_mul hch ((Matrix.linfty_opNorm_mul _ _).trans ?_) (norm_nonneg _) (by positivity)
          have := hker 0 (by omega) (by omega)
          rw [Nat.cast_zero, zero_mul] at this
          gcongr
          exact hME _ (mem _ hi)
        · rw [norm_smul, Real.norm_of_nonneg (by positivity)]
          calc c * h ^ 2 * ‖(E' (i + 1) - E ((i + 1 : ℕ) * h)) * ker 0‖
              ≤ c * h ^ 2 * (‖E' (i + 1) - E ((i + 1 : ℕ) * h)‖ * ‖ker 0‖) := by
                gcongr; exact Matrix.linfty_opNorm_mul _ _
            _ = c * h ^ 2 * ‖ker 0‖ * ‖E' (i + 1) - E ((i + 1 : ℕ) * h)‖ := by ring
            _ ≤ _ := by gcongr
      have hu := norm_nonneg (E' (i + 1) - E ((i + 1 : ℕ) * h))
      generalize ‖E' (i + 1) - E ((i + 1 : ℕ) * h)‖ = u at n0 hu ⊢
      have f1 : (Mk + 1) * h * h * u ≤ a * h * u := by
        have : (Mk + 1) * h * h ≤ a * h * 1 := by gcongr; linarith
        nlinarith
      have f2 : W * (‖F‖ + 1) + |T| * (W * (Mk + 1)) ≤ a * W := by
        have : 0 ≤ (Mk + 1) * W := by positivity
        rw [hadef]
        nlinarith
      have f3 : ME * ε + |T| * (ME * ε) + Q * h + h * (ME * ε) ≤ R * (h + ε) := by
        have g1 : h * (ME * ε) ≤ ME * ε := mul_le_of_le_one_left (by positivity) (by linarith)
        have g2 : R * (h + ε) = Q * h + Q * ε + ME * (2 + |T|) * h + 2 * (ME * ε) + |T| * (ME * ε) := by rw [hR]; ring
        have g3 : 0 ≤ Q * ε := by positivity
        have g4 : 0 ≤ ME * (2 + |T|) * h := by positivity
        linarith
      have f4 := mul_le_mul_of_nonneg_left f2 hh.le
      have f5 := mul_le_mul_of_nonneg_left f3 hh.le
      have f6 : W + h * (W * (‖F‖ + 1) + ME * ε) + h * (|T| * (W * (Mk + 1) + ME * ε)) + Q * h ^ 2 + h ^ 2 * (ME * ε) =
          W + h * (W * (‖F‖ + 1) + |T| * (W * (Mk + 1))) +
            h * (ME * ε + |T| * (ME * ε) + Q * h + h * (ME * ε)) := by ring
      linarith
    intro i hi
    have := ide_growth (u := fun j => ‖E' j - E (j * h)‖) (by linarith) hh.le hah (by positivity)
      (fun j => norm_nonneg _) (by rw [hTabs]; exact hNT : ((N - 1 : ℕ) : ℝ) * h ≤ |T|) hs i hi
    refine this.trans ?_
    have h1 : ‖E' 0 - E ((0 : ℕ) * h)‖ ≤ h + ε := by
      rw [Nat.cast_zero, zero_mul]; linarith
    calc _ ≤ (h + ε + 2 * (R * (h + ε)) * |T|) * Real.exp (4 * a * |T|) := by gcongr
      _ = _ := by ring

end Verif
