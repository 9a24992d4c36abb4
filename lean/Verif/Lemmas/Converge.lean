import Verif.Spec.Continuous
import Verif.Lemmas.Solvers
import Mathlib.Analysis.Matrix.Normed
import Mathlib.Analysis.Calculus.MeanValue
import Mathlib.Analysis.SpecialFunctions.Exp
import Mathlib.MeasureTheory.Integral.IntervalIntegral.Basic
import Mathlib.MeasureTheory.Integral.IntervalIntegral.FundThmCalculus
import Mathlib.Analysis.SpecialFunctions.Integrals.Basic

/-! # Tools for the convergence of the discretised Volterra equations -/

namespace Verif

open Finset Set
open scoped Matrix.Norms.Operator

/-! ### Discrete Gronwall inequality -/

theorem sum_geom_gronwall (a c : ℝ) (n : ℕ) :
    a + c * ∑ j ∈ range n, a * (1 + c) ^ j = a * (1 + c) ^ n := by
  induction n with
  | zero => simp
  | succ n ih =>
    rw [sum_range_succ, mul_add, ← add_assoc, ih, pow_succ]
    ring

theorem gronwall {e : ℕ → ℝ} {a c : ℝ} {n : ℕ} (ha : 0 ≤ a) (hc : 0 ≤ c)
    (h : ∀ i < n, e i ≤ a + c * ∑ j ∈ range i, e j) : ∀ i < n, e i ≤ a * Real.exp (c * i) := by
  have key : ∀ i < n, e i ≤ a * (1 + c) ^ i := by
    intro i
    induction i using Nat.strong_induction_on with
    | _ i ih =>
      intro hi
      refine (h i hi).trans ?_
      rw [← sum_geom_gronwall]
      gcongr with j hj
      have := Finset.mem_range.1 hj
      exact ih j this (by omega)
  intro i hi
  refine (key i hi).trans ?_
  gcongr
  rw [mul_comm, Real.exp_nat_mul]
  gcongr
  linarith [Real.add_one_le_exp c]

/-! ### Norms of matrices -/

theorem entry_le_norm {m n : ℕ} (A : Mat ℝ m n) (i : Fin m) (j : Fin n) : |A i j| ≤ ‖A‖ := by
  rw [Matrix.linfty_opNorm_def]
  have h1 : ‖A i j‖₊ ≤ ∑ j, ‖A i j‖₊ := Finset.single_le_sum (f := fun j => ‖A i j‖₊) (fun _ _ => zero_le) (Finset.mem_univ j)
  have h2 : (∑ j, ‖A i j‖₊) ≤ Finset.univ.sup fun i => ∑ j, ‖A i j‖₊ :=
    Finset.le_sup (f := fun i => ∑ j, ‖A i j‖₊) (Finset.mem_univ i)
  exact_mod_cast h1.trans h2

theorem norm_le_of_entries {m n : ℕ} {A : Mat ℝ m n} {c : ℝ} (hc : 0 ≤ c) (h : ∀ i j, |A i j| ≤ c) :
    ‖A‖ ≤ n * c := by
  rw [Matrix.linfty_opNorm_def]
  lift c to NNReal using hc
  have : (Finset.univ.sup fun i => ∑ j, ‖A i j‖₊) ≤ n * c := by
    refine Finset.sup_le fun i _ => ?_
    refine (Finset.sum_le_card_nsmul _ _ c fun j _ => ?_).trans (by simp)
    exact_mod_cast h i j
  exact_mod_cast this

theorem lip_norm {m n : ℕ} {T : ℝ} {A : ℝ → Mat ℝ m n} (h : Spec.Lip T A) :
    ∃ L : ℝ, 0 ≤ L ∧ ∀ s ∈ Icc 0 T, ∀ t ∈ Icc 0 T, ‖A s - A t‖ ≤ L * |s - t| := by
  obtain ⟨L, hL⟩ := h
  refine ⟨n * |L|, by positivity, fun s hs t ht => ?_⟩
  rw [mul_assoc]
  refine norm_le_of_entries (by positivity) fun i j => ?_
  exact (hL s hs t ht i j).trans (by gcongr; exact le_abs_self L)

theorem lip_bound {m n : ℕ} {T : ℝ} {A : ℝ → Mat ℝ m n} (h : Spec.Lip T A) :
    ∃ M : ℝ, 0 ≤ M ∧ ∀ t ∈ Icc 0 T, ‖A t‖ ≤ M := by
  obtain ⟨L, hL0, hL⟩ := lip_norm h
  rcases le_or_gt 0 T with hT | hT
  · refine ⟨‖A 0‖ + L * T, by positivity, fun t ht => ?_⟩
    have h1 := hL t ht 0 ⟨le_rfl, hT⟩
    rw [sub_zero, abs_of_nonneg ht.1] at h1
    have h2 : ‖A t‖ ≤ ‖A 0‖ + ‖A t - A 0‖ := by
      have := norm_add_le (A 0) (A t - A 0)
      rwa [add_sub_cancel] at this
    have h3 : L * t ≤ L * T := by gcongr; exact ht.2
    linarith
  · exact ⟨0, le_rfl, fun t ht => absurd (ht.1.trans ht.2) (by linarith)⟩

/-- A product of bounded Lipschitz functions. -/
theorem norm_mul_sub_le {l m n : ℕ} (A A' : Mat ℝ l m) (B B' : Mat ℝ m n) :
    ‖A * B - A' * B'‖ ≤ ‖A - A'‖ * ‖B‖ + ‖A'‖ * ‖B - B'‖ := by
  have : A * B - A' * B' = (A - A') * B + A' * (B - B') := by
    rw [Matrix.sub_mul, Matrix.mul_sub]; abel
  rw [this]
  exact (norm_add_le _ _).trans (add_le_add (Matrix.linfty_opNorm_mul _ _) (Matrix.linfty_opNorm_mul _ _))

/-! ### Quadrature -/

theorem contOn_of_lip {f : ℝ → ℝ} {M : ℝ} {S : Set ℝ} (h : ∀ s ∈ S, ∀ t ∈ S, |f s - f t| ≤ M * |s - t|) :
    ContinuousOn f S := by
  refine LipschitzOnWith.continuousOn (K := M.toNNReal) (LipschitzOnWith.of_dist_le_mul fun s hs t ht => ?_)
  rw [Real.dist_eq, Real.dist_eq]
  refine (h s hs t ht).trans ?_
  gcongr
  exact Real.le_coe_toNNReal M

theorem rect_cell {f : ℝ → ℝ} {a h M : ℝ} (hh : 0 ≤ h) (hM : 0 ≤ M)
    (hf : ∀ s ∈ Icc a (a + h), ∀ t ∈ Icc a (a + h), |f s - f t| ≤ M * |s - t|) :
    |h * f a - ∫ s in a..a + h, f s| ≤ M * h ^ 2 := by
  have hc : IntervalIntegrable f MeasureTheory.volume a (a + h) :=
    ((contOn_of_lip hf).mono (by rw [Set.uIcc_of_le (by linarith)])).intervalIntegrable
  have h1 : h * f a - ∫ s in a..a + h, f s = ∫ s in a..a + h, (f a - f s) := by
    rw [intervalIntegral.integral_sub (by simp) hc, intervalIntegral.integral_const]
    simp
  rw [h1]
  have := intervalIntegral.norm_integral_le_of_norm_le_const (a := a) (b := a + h) (C := M * h)
    (f := fun s => f a - f s) ?_
  · rw [Real.norm_eq_abs, add_sub_cancel_left, abs_of_nonneg hh] at this
    linarith [this]
  · intro s hs
    rw [Set.uIoc_of_le (by linarith)] at hs
    refine (hf a ⟨le_rfl, by linarith⟩ s ⟨hs.1.le, hs.2⟩).trans ?_
    gcongr
    rw [abs_sub_comm, abs_of_nonneg (by linarith [hs.1])]
    linarith [hs.2]

theorem integral_cells {f : ℝ → ℝ} {h : ℝ} {n : ℕ} (hh : 0 ≤ h) (hf : ContinuousOn f (Icc 0 (n * h))) :
    ∫ s in (0 : ℝ)..n * h, f s = ∑ j ∈ range n, ∫ s in (j * h : ℝ)..j * h + h, f s := by
  have := intervalIntegral.sum_integral_adjacent_intervals (f := f) (μ := MeasureTheory.volume)
    (a := fun j : ℕ => (j : ℝ) * h) (n := n) ?_
  · rw [← (by simp : ((0 : ℕ) : ℝ) * h = 0), ← this]
    refine sum_congr rfl fun j _ => ?_
    rw [show ((j + 1 : ℕ) : ℝ) * h = j * h + h by push_cast; ring]
  · intro k hk
    refine (hf.mono ?_).intervalIntegrable
    rw [Set.uIcc_of_le (by gcongr; omega)]
    refine Icc_subset_Icc (by positivity) ?_
    gcongr
    exact_mod_cast hk

theorem rect_quad {f : ℝ → ℝ} {h M : ℝ} {n : ℕ} (hh : 0 ≤ h) (hM : 0 ≤ M)
    (hf : ∀ s ∈ Icc 0 (n * h), ∀ t ∈ Icc 0 (n * h), |f s - f t| ≤ M * |s - t|) :
    |∑ j ∈ range n, h * f (j * h) - ∫ s in (0 : ℝ)..n * h, f s| ≤ n * (M * h ^ 2) := by
  rw [integral_cells hh (contOn_of_lip hf), ← sum_sub_distrib]
  refine (abs_sum_le_sum_abs _ _).trans ?_
  refine (sum_le_card_nsmul _ _ (M * h ^ 2) fun j hj => ?_).trans (by simp)
  have hj' := Finset.mem_range.1 hj
  have hsub : Icc ((j : ℝ) * h) (j * h + h) ⊆ Icc 0 (n * h) := by
    refine Icc_subset_Icc (by positivity) ?_
    rw [← add_one_mul]
    gcongr
    exact_mod_cast hj'
  exact rect_cell hh hM fun s hs t ht => hf s (hsub hs) t (hsub ht)

theorem trapz_cell {f f' : ℝ → ℝ} {a h M : ℝ} (hh : 0 ≤ h) (hM : 0 ≤ M)
    (hd : ∀ t ∈ Icc a (a + h), HasDerivWithinAt f (f' t) (Icc a (a + h)) t)
    (hf : ∀ s ∈ Icc a (a + h), ∀ t ∈ Icc a (a + h), |f' s - f' t| ≤ M * |s - t|) :
    |h / 2 * (f a + f (a + h)) - ∫ s in a..a + h, f s| ≤ 2 * M * h ^ 3 := by
  have ha : a ∈ Icc a (a + h) := ⟨le_rfl, by linarith⟩
  have hb : a + h ∈ Icc a (a + h) := ⟨by linarith, le_rfl⟩
  have taylor : ∀ s ∈ Icc a (a + h), |f s - (f a + f' a * (s - a))| ≤ M * h ^ 2 := by
    intro s hs
    have hg : ∀ t ∈ Icc a (a + h), HasDerivWithinAt (fun t => f t - f' a * t) (f' t - f' a * 1) (Icc a (a + h)) t :=
      fun t ht => (hd t ht).sub ((hasDerivWithinAt_id t _).const_mul (f' a))
    have := Convex.norm_image_sub_le_of_norm_hasDerivWithin_le (C := M * h) hg (fun t ht => ?_) (convex_Icc _ _) ha hs
    · rw [Real.norm_eq_abs, Real.norm_eq_abs] at this
      have e : f s - f' a * s - (f a - f' a * a) = f s - (f a + f' a * (s - a)) := by ring
      rw [e] at this
      refine this.trans ?_
      have h1 : |s - a| ≤ h := by rw [abs_of_nonneg (by linarith [hs.1])]; linarith [hs.2]
      calc M * h * |s - a| ≤ M * h * h := by gcongr
        _ = _ := by ring
    · rw [mul_one, Real.norm_eq_abs]
      refine (hf t ht a ha).trans ?_
      gcongr
      rw [abs_of_nonneg (by linarith [ht.1])]
      linarith [ht.2]
  have hcont : ContinuousOn f (Icc a (a + h)) := fun t ht => (hd t ht).continuousWithinAt
  have hc : IntervalIntegrable f MeasureTheory.volume a (a + h) :=
    (hcont.mono (by rw [Set.uIcc_of_le (by linarith)])).intervalIntegrable
  have hlin : ∫ s in a..a + h, (f a + f' a * (s - a)) = h * f a + f' a * (h ^ 2 / 2) := by
    rw [intervalIntegral.integral_add (by simp) (Continuous.intervalIntegrable (by fun_prop) _ _),
      intervalIntegral.integral_const, intervalIntegral.integral_const_mul,
      intervalIntegral.integral_sub (Continuous.intervalIntegrable (by fun_prop) _ _) (by simp),
      integral_id, intervalIntegral.integral_const]
    simp only [add_sub_cancel_left, smul_eq_mul]
    ring
  have h1 := intervalIntegral.norm_integral_le_of_norm_le_const (a := a) (b := a + h) (C := M * h ^ 2)
    (f := fun s => f s - (f a + f' a * (s - a))) (fun s hs => by
      rw [Set.uIoc_of_le (by linarith)] at hs
      exact taylor s ⟨hs.1.le, hs.2⟩)
  rw [intervalIntegral.integral_sub hc (Continuous.intervalIntegrable (by fun_prop) _ _), hlin,
    Real.norm_eq_abs, add_sub_cancel_left, abs_of_nonneg hh] at h1
  have h2 := taylor (a + h) hb
  rw [add_sub_cancel_left] at h2
  have e : h / 2 * (f a + f (a + h)) - ∫ s in a..a + h, f s =
      h / 2 * (f (a + h) - (f a + f' a * h)) - ((∫ s in a..a + h, f s) - (h * f a + f' a * (h ^ 2 / 2))) := by
    ring
  rw [e]
  refine (abs_sub _ _).trans ?_
  rw [abs_mul, abs_of_nonneg (by positivity : (0 : ℝ) ≤ h / 2)]
  have h3 : h / 2 * |f (a + h) - (f a + f' a * h)| ≤ h / 2 * (M * h ^ 2) := by gcongr
  have h4 : 0 ≤ M * h ^ 3 := by positivity
  nlinarith

theorem trapz_quad {f f' : ℝ → ℝ} {h M : ℝ} {n : ℕ} (hh : 0 ≤ h) (hM : 0 ≤ M)
    (hd : ∀ t ∈ Icc 0 (n * h), HasDerivWithinAt f (f' t) (Icc 0 (n * h)) t)
    (hf : ∀ s ∈ Icc 0 (n * h), ∀ t ∈ Icc 0 (n * h), |f' s - f' t| ≤ M * |s - t|) :
    |∑ j ∈ range n, h / 2 * (f (j * h) + f ((j + 1 : ℕ) * h)) - ∫ s in (0 : ℝ)..n * h, f s| ≤
      n * (2 * M * h ^ 3) := by
  rw [integral_cells hh fun t ht => (hd t ht).continuousWithinAt, ← sum_sub_distrib]
  refine (abs_sum_le_sum_abs _ _).trans ?_
  refine (sum_le_card_nsmul _ _ (2 * M * h ^ 3) fun j hj => ?_).trans (by simp)
  have hj' := Finset.mem_range.1 hj
  have hsub : Icc ((j : ℝ) * h) (j * h + h) ⊆ Icc 0 (n * h) := by
    refine Icc_subset_Icc (by positivity) ?_
    rw [← add_one_mul]
    gcongr
    exact_mod_cast hj'
  rw [show ((j + 1 : ℕ) : ℝ) * h = j * h + h by push_cast; ring]
  exact trapz_cell hh hM (fun t ht => (hd t (hsub ht)).mono hsub) fun s hs t ht => hf s (hsub hs) t (hsub ht)

/-! ### Convolutions -/

/-- The integrand of a convolution of bounded Lipschitz functions. -/
theorem conv_lip {l m n : ℕ} {T t LA LB MA MB : ℝ} {A : ℝ → Mat ℝ l m} {B : ℝ → Mat ℝ m n} (ht : t ≤ T)
    (hLA : 0 ≤ LA)
    (hA : ∀ s ∈ Icc 0 T, ∀ t ∈ Icc 0 T, ‖A s - A t‖ ≤ LA * |s - t|) (hA' : ∀ t ∈ Icc 0 T, ‖A t‖ ≤ MA)
    (hB : ∀ s ∈ Icc 0 T, ∀ t ∈ Icc 0 T, ‖B s - B t‖ ≤ LB * |s - t|) (hB' : ∀ t ∈ Icc 0 T, ‖B t‖ ≤ MB)
    (i : Fin l) (j : Fin n) : ∀ s ∈ Icc 0 t, ∀ s' ∈ Icc 0 t,
      |(A (t - s) * B s) i j - (A (t - s') * B s') i j| ≤ (LA * MB + MA * LB) * |s - s'| := by
  intro s hs s' hs'
  have e1 : t - s ∈ Icc 0 T := ⟨by linarith [hs.2], by linarith [hs.1]⟩
  have e2 : t - s' ∈ Icc 0 T := ⟨by linarith [hs'.2], by linarith [hs'.1]⟩
  have e3 : s ∈ Icc 0 T := ⟨hs.1, hs.2.trans ht⟩
  have e4 : s' ∈ Icc 0 T := ⟨hs'.1, hs'.2.trans ht⟩
  have h1 := (entry_le_norm (A (t - s) * B s - A (t - s') * B s') i j).trans (norm_mul_sub_le _ _ _ _)
  rw [Matrix.sub_apply] at h1
  refine h1.trans ?_
  have h2 := hA _ e1 _ e2
  rw [show t - s - (t - s') = -(s - s') by ring, abs_neg] at h2
  have h3 := hB _ e3 _ e4
  have hMA : 0 ≤ MA := (norm_nonneg _).trans (hA' _ e1)
  calc ‖A (t - s) - A (t - s')‖ * ‖B s‖ + ‖A (t - s')‖ * ‖B s - B s'‖
      ≤ (LA * |s - s'|) * MB + MA * (LB * |s - s'|) := by
        gcongr
        · exact hB' _ e3
        · exact hA' _ e2
    _ = _ := by ring

theorem conv_deriv {l m n : ℕ} {T t : ℝ} {A A' : ℝ → Mat ℝ l m} {B B' : ℝ → Mat ℝ m n} (ht : t ≤ T)
    (hA : Spec.DerivOn T A A') (hB : Spec.DerivOn T B B') (i : Fin l) (j : Fin n) :
    ∀ s ∈ Icc 0 t, HasDerivWithinAt (fun s => (A (t - s) * B s) i j)
      ((A (t - s) * B' s) i j - (A' (t - s) * B s) i j) (Icc 0 t) s := by
  intro s hs
  have hmaps : MapsTo (fun s => t - s) (Icc 0 t) (Icc 0 T) := fun s hs =>
    ⟨by simpa using hs.2, by linarith [hs.1]⟩
  simp only [Matrix.mul_apply]
  rw [← sum_sub_distrib]
  refine HasDerivWithinAt.fun_sum fun l _ => ?_
  have h1 : HasDerivWithinAt (fun s => A (t - s) i l) (A' (t - s) i l * -1) (Icc 0 t) s :=
    (hA (t - s) (hmaps hs) i l).comp (h := fun s => t - s) s ((hasDerivWithinAt_id s _).const_sub t) hmaps
  have h2 : HasDerivWithinAt (fun s => B s l j) (B' s l j) (Icc 0 t) s :=
    (hB s ⟨hs.1, hs.2.trans ht⟩ l j).mono (Icc_subset_Icc le_rfl ht)
  exact (h1.mul h2).congr_deriv (by ring)

/-- A function with a Lipschitz derivative is Lipschitz. -/
theorem lip_of_deriv {m n : ℕ} {T : ℝ} {A A' : ℝ → Mat ℝ m n} (h : Spec.DerivOn T A A') (hL : Spec.Lip T A') :
    Spec.Lip T A := by
  obtain ⟨M, hM0, hM⟩ := lip_bound hL
  refine ⟨M, fun s hs t ht i j => ?_⟩
  have := Convex.norm_image_sub_le_of_norm_hasDerivWithin_le (C := M) (fun t ht => h t ht i j)
    (fun u hu => (entry_le_norm _ i j).trans (hM u hu)) (convex_Icc _ _) ht hs
  simpa [Real.norm_eq_abs] using this

/-! ### Consistency of the quadratures -/

theorem rect_consistent {l m n : ℕ} {T : ℝ} {A : ℝ → Mat ℝ l m} {B : ℝ → Mat ℝ m n} (hA : Spec.Lip T A)
    (hB : Spec.Lip T B) : ∃ Q : ℝ, 0 ≤ Q ∧ ∀ (h : ℝ) (N : ℕ), 0 ≤ h → N * h ≤ T → ∀ i j,
      |(∑ k ∈ range N, h • (A ((N - k : ℕ) * h) * B (k * h))) i j -
        ∫ s in (0 : ℝ)..N * h, (A (N * h - s) * B s) i j| ≤ Q * h := by
  obtain ⟨LA, hLA0, hLA⟩ := lip_norm hA
  obtain ⟨MA, hMA0, hMA⟩ := lip_bound hA
  obtain ⟨LB, hLB0, hLB⟩ := lip_norm hB
  obtain ⟨MB, hMB0, hMB⟩ := lip_bound hB
  refine ⟨|T| * (LA * MB + MA * LB), by positivity, fun h N hh hN i j => ?_⟩
  have := rect_quad (f := fun s => (A (N * h - s) * B s) i j) (n := N) hh (by positivity)
    (conv_lip hN hLA0 hLA hMA hLB hMB i j)
  have e : (∑ k ∈ range N, h • (A ((N - k : ℕ) * h) * B (k * h))) i j =
      ∑ k ∈ range N, h * (A (N * h - k * h) * B (k * h)) i j := by
    rw [Matrix.sum_apply]
    refine sum_congr rfl fun k hk => ?_
    have := Finset.mem_range.1 hk
    rw [Matrix.smul_apply, smul_eq_mul, Nat.cast_sub (by omega), sub_mul]
  rw [e]
  refine this.trans ?_
  have hT : N * h ≤ |T| := hN.trans (le_abs_self T)
  calc N * ((LA * MB + MA * LB) * h ^ 2) = (N * h) * (LA * MB + MA * LB) * h := by ring
    _ ≤ |T| * (LA * MB + MA * LB) * h := by gcongr

theorem trapz_consistent {l m n : ℕ} {T : ℝ} {A A' : ℝ → Mat ℝ l m} {B B' : ℝ → Mat ℝ m n}
    (hA : Spec.DerivOn T A A') (hA' : Spec.Lip T A') (hB : Spec.DerivOn T B B') (hB' : Spec.Lip T B') :
    ∃ Q : ℝ, 0 ≤ Q ∧ ∀ (h : ℝ) (N : ℕ), 0 ≤ h → N * h ≤ T → ∀ i j,
      |(Spec.trapzRule h (fun k => A ((N - k : ℕ) * h) * B (k * h)) N) i j -
        ∫ s in (0 : ℝ)..N * h, (A (N * h - s) * B s) i j| ≤ Q * h ^ 2 := by
  obtain ⟨LA, hLA0, hLA⟩ := lip_norm (lip_of_deriv hA hA')
  obtain ⟨MA, hMA0, hMA⟩ := lip_bound (lip_of_deriv hA hA')
  obtain ⟨LB, hLB0, hLB⟩ := lip_norm (lip_of_deriv hB hB')
  obtain ⟨MB, hMB0, hMB⟩ := lip_bound (lip_of_deriv hB hB')
  obtain ⟨LA', hLA0', hLA'⟩ := lip_norm hA'
  obtain ⟨MA', hMA0', hMA'⟩ := lip_bound hA'
  obtain ⟨LB', hLB0', hLB'⟩ := lip_norm hB'
  obtain ⟨MB', hMB0', hMB'⟩ := lip_bound hB'
  refine ⟨2 * |T| * ((LA * MB' + MA * LB') + (LA' * MB + MA' * LB)), by positivity, fun h N hh hN i j => ?_⟩
  have := trapz_quad (n := N) hh (M := (LA * MB' + MA * LB') + (LA' * MB + MA' * LB)) (by positivity)
    (conv_deriv hN hA hB i j) (fun s hs t ht => by
      have h1 := conv_lip hN hLA0 hLA hMA hLB' hMB' i j s hs t ht
      have h2 := conv_lip hN hLA0' hLA' hMA' hLB hMB i j s hs t ht
      have e : ∀ a b c d : ℝ, |a - b - (c - d)| ≤ |a - c| + |b - d| := fun a b c d => by
        rw [show a - b - (c - d) = (a - c) - (b - d) by ring]
        exact abs_sub _ _
      refine (e _ _ _ _).trans ?_
      rw [add_mul]
      exact add_le_add h1 h2)
  have e : (Spec.trapzRule h (fun k => A ((N - k : ℕ) * h) * B (k * h)) N) i j =
      ∑ k ∈ range N, h / 2 * ((A (N * h - k * h) * B (k * h)) i j +
        (A (N * h - (k + 1 : ℕ) * h) * B ((k + 1 : ℕ) * h)) i j) := by
    rw [Spec.trapzRule, Matrix.sum_apply]
    refine sum_congr rfl fun k hk => ?_
    have := Finset.mem_range.1 hk
    rw [Matrix.smul_apply, smul_eq_mul, Matrix.add_apply, Nat.cast_sub (by omega), Nat.cast_sub (by omega),
      sub_mul, sub_mul]
  rw [e]
  refine this.trans ?_
  have hT : N * h ≤ |T| := hN.trans (le_abs_self T)
  have hX : 0 ≤ (LA * MB' + MA * LB') + (LA' * MB + MA' * LB) := by positivity
  generalize (LA * MB' + MA * LB') + (LA' * MB + MA' * LB) = X at hX
  calc N * (2 * X * h ^ 3) = 2 * (N * h) * X * h ^ 2 := by ring
    _ ≤ 2 * |T| * X * h ^ 2 := by gcongr

/-- The increment over a time step is Lipschitz with a constant of the order of the time step. -/
theorem increment_lip {l m : ℕ} {T : ℝ} {A A' : ℝ → Mat ℝ l m} (hA : Spec.DerivOn T A A') (hA' : Spec.Lip T A') :
    ∃ L : ℝ, 0 ≤ L ∧ ∀ (h u : ℝ), 0 ≤ h → u + h ≤ T → ∀ s ∈ Icc 0 u, ∀ s' ∈ Icc 0 u,
      ‖(A (s + h) - A s) - (A (s' + h) - A s')‖ ≤ (L * h) * |s - s'| := by
  obtain ⟨L, hL⟩ := hA'
  refine ⟨m * |L|, by positivity, fun h u hh hu s hs s' hs' => ?_⟩
  rw [mul_assoc, mul_assoc]
  refine norm_le_of_entries (by positivity) fun i j => ?_
  have hsub : Icc 0 u ⊆ Icc 0 T := Icc_subset_Icc le_rfl (by linarith)
  have hmaps : MapsTo (fun s => s + h) (Icc 0 u) (Icc 0 T) := fun s hs =>
    ⟨by linarith [hs.1], by linarith [hs.2]⟩
  have hd : ∀ t ∈ Icc 0 u, HasDerivWithinAt (fun s => A (s + h) i j - A s i j)
      (A' (t + h) i j * 1 - A' t i j) (Icc 0 u) t := fun t ht =>
    ((hA (t + h) (hmaps ht) i j).comp (h := fun s => s + h) t ((hasDerivWithinAt_id t _).add_const h) hmaps).sub
      ((hA t (hsub ht) i j).mono hsub)
  have := Convex.norm_image_sub_le_of_norm_hasDerivWithin_le (C := |L| * h) hd (fun t ht => ?_)
    (convex_Icc _ _) hs' hs
  · simp only [Real.norm_eq_abs, mul_assoc] at this
    simpa only [Matrix.sub_apply] using this
  · rw [mul_one, Real.norm_eq_abs]
    refine (hL _ (hmaps ht) _ (hsub ht) i j).trans ?_
    rw [add_sub_cancel_left, abs_of_nonneg hh]
    gcongr
    exact le_abs_self L

/-- Consistency of the increments of the rectangle rule for a convolution. -/
theorem increment_consistent {l m n : ℕ} {T : ℝ} {A A' : ℝ → Mat ℝ l m} {B : ℝ → Mat ℝ m n}
    (hA : Spec.DerivOn T A A') (hA' : Spec.Lip T A') (hB : Spec.Lip T B) :
    ∃ Q : ℝ, 0 ≤ Q ∧ ∀ (h : ℝ) (N : ℕ), 0 ≤ h → (N + 1 : ℕ) * h ≤ T → ∀ i j,
      |(∑ k ∈ range N, h • ((A ((N + 1 - k : ℕ) * h) - A ((N - k : ℕ) * h)) * B (k * h))
          + h • (A 0 * B (N * h))) i j -
        ((∫ s in (0 : ℝ)..(N + 1 : ℕ) * h, (A ((N + 1 : ℕ) * h - s) * B s) i j) -
          ∫ s in (0 : ℝ)..N * h, (A (N * h - s) * B s) i j)| ≤ Q * h ^ 2 := by
  obtain ⟨LA, hLA0, hLA⟩ := lip_norm (lip_of_deriv hA hA')
  obtain ⟨MA, hMA0, hMA⟩ := lip_bound (lip_of_deriv hA hA')
  obtain ⟨LB, hLB0, hLB⟩ := lip_norm hB
  obtain ⟨MB, hMB0, hMB⟩ := lip_bound hB
  obtain ⟨L2, hL20, hL2⟩ := increment_lip hA hA'
  refine ⟨|T| * (L2 * MB + LA * LB) + (LA * MB + MA * LB), by positivity, fun h N hh hN i j => ?_⟩
  have hN1 : ((N + 1 : ℕ) : ℝ) * h = N * h + h := by push_cast; ring
  rw [hN1] at hN ⊢
  have hNn : (0 : ℝ) ≤ N * h := by positivity
  have hNT : N * h ≤ T := by linarith
  have hT : N * h ≤ |T| := hNT.trans (le_abs_self T)
  -- the integrals
  have c1 := contOn_of_lip (conv_lip hN hLA0 hLA hMA hLB hMB i j)
  have c0 := contOn_of_lip (conv_lip hNT hLA0 hLA hMA hLB hMB i j)
  have i1 : IntervalIntegrable (fun s => (A (N * h + h - s) * B s) i j) MeasureTheory.volume 0 (N * h) :=
    (c1.mono (by rw [Set.uIcc_of_le hNn]; exact Icc_subset_Icc le_rfl (by linarith))).intervalIntegrable
  have i2 : IntervalIntegrable (fun s => (A (N * h + h - s) * B s) i j) MeasureTheory.volume (N * h) (N * h + h) :=
    (c1.mono (by rw [Set.uIcc_of_le (by linarith)]; exact Icc_subset_Icc hNn le_rfl)).intervalIntegrable
  have i0 : IntervalIntegrable (fun s => (A (N * h - s) * B s) i j) MeasureTheory.volume 0 (N * h) :=
    (c0.mono (by rw [Set.uIcc_of_le hNn])).intervalIntegrable
  rw [← intervalIntegral.integral_add_adjacent_intervals i1 i2]
  have hG : (∫ s in (0 : ℝ)..N * h, (A (N * h + h - s) * B s) i j) - (∫ s in (0 : ℝ)..N * h, (A (N * h - s) * B s) i j)
      = ∫ s in (0 : ℝ)..N * h, ((A (N * h - s + h) - A (N * h - s)) * B s) i j := by
    rw [← intervalIntegral.integral_sub i1 i0]
    refine intervalIntegral.integral_congr fun s _ => ?_
    simp only [Matrix.sub_mul, Matrix.sub_apply]
    rw [show N * h - s + h = N * h + h - s by ring]
  -- the increments
  have hincr : ∀ u ∈ Icc 0 (N * h), ‖A (u + h) - A u‖ ≤ LA * h := fun u hu => by
    have := hLA (u + h) ⟨by linarith [hu.1], by linarith [hu.2]⟩ u ⟨hu.1, by linarith [hu.2]⟩
    rwa [add_sub_cancel_left, abs_of_nonneg hh] at this
  have hB1 : ∀ s ∈ Icc 0 (N * h), ∀ t ∈ Icc 0 (N * h), ‖B s - B t‖ ≤ LB * |s - t| := fun s hs t ht =>
    hLB s ⟨hs.1, hs.2.trans hNT⟩ t ⟨ht.1, ht.2.trans hNT⟩
  have hB2 : ∀ s ∈ Icc 0 (N * h), ‖B s‖ ≤ MB := fun s hs => hMB s ⟨hs.1, hs.2.trans hNT⟩
  have q1 := rect_quad (f := fun s => ((A (N * h - s + h) - A (N * h - s)) * B s) i j) (n := N) hh
    (M := L2 * h * MB + LA * h * LB) (by positivity)
    (conv_lip (A := fun u => A (u + h) - A u) (T := N * h) le_rfl (by positivity)
      (hL2 h (N * h) hh hN) hincr hB1 hB2 i j)
  -- the last cell
  have q2 : |h * (A 0 * B (N * h)) i j - ∫ s in (N * h : ℝ)..N * h + h, (A (N * h + h - s) * B s) i j| ≤
      (LA * MB + MA * LB) * h ^ 2 := by
    have e : h * (A 0 * B (N * h)) i j - ∫ s in (N * h : ℝ)..N * h + h, (A (N * h + h - s) * B s) i j =
        ∫ s in (N * h : ℝ)..N * h + h, ((A 0 * B (N * h)) i j - (A (N * h + h - s) * B s) i j) := by
      rw [intervalIntegral.integral_sub (by simp) i2, intervalIntegral.integral_const]
      simp
    rw [e]
    have := intervalIntegral.norm_integral_le_of_norm_le_const (a := N * h) (b := N * h + h)
      (C := (LA * MB + MA * LB) * h)
      (f := fun s => (A 0 * B (N * h)) i j - (A (N * h + h - s) * B s) i j) ?_
    · rw [Real.norm_eq_abs, add_sub_cancel_left, abs_of_nonneg hh] at this
      linarith [this]
    · intro s hs
      rw [Set.uIoc_of_le (by linarith)] at hs
      have m1 : N * h + h - s ∈ Icc 0 T := ⟨by linarith [hs.2], by linarith [hs.1]⟩
      have m2 : s ∈ Icc 0 T := ⟨by linarith [hs.1], by linarith [hs.2]⟩
      have m3 : N * h ∈ Icc 0 T := ⟨hNn, hNT⟩
      have m4 : (0 : ℝ) ∈ Icc 0 T := ⟨le_rfl, by linarith⟩
      rw [← Matrix.sub_apply]
      refine (entry_le_norm _ i j).trans ((norm_mul_sub_le _ _ _ _).trans ?_)
      have h1 : ‖A 0 - A (N * h + h - s)‖ ≤ LA * h := by
        refine (hLA _ m4 _ m1).trans ?_
        gcongr
        rw [zero_sub, abs_neg, abs_of_nonneg m1.1]
        linarith [hs.1]
      have h2 : ‖B (N * h) - B s‖ ≤ LB * h := by
        refine (hLB _ m3 _ m2).trans ?_
        gcongr
        rw [abs_sub_comm, abs_of_nonneg (by linarith [hs.1])]
        linarith [hs.2]
      calc ‖A 0 - A (N * h + h - s)‖ * ‖B (N * h)‖ + ‖A (N * h + h - s)‖ * ‖B (N * h) - B s‖
          ≤ LA * h * MB + MA * (LB * h) := by
            gcongr
            · exact hMB _ m3
            · exact hMA _ m1
        _ = _ := by ring
  have e1 : (∑ k ∈ range N, h • ((A ((N + 1 - k : ℕ) * h) - A ((N - k : ℕ) * h)) * B (k * h))
          + h • (A 0 * B (N * h))) i j =
      ∑ k ∈ range N, h * ((A (N * h - k * h + h) - A (N * h - k * h)) * B (k * h)) i j +
        h * (A 0 * B (N * h)) i j := by
    rw [Matrix.add_apply, Matrix.sum_apply, Matrix.smul_apply, smul_eq_mul]
    congr 1
    refine sum_congr rfl fun k hk => ?_
    have := Finset.mem_range.1 hk
    rw [Matrix.smul_apply, smul_eq_mul, Nat.cast_sub (by omega), Nat.cast_sub (by omega),
      show ((N + 1 : ℕ) - (k : ℝ)) * h = N * h - k * h + h by push_cast; ring, sub_mul (N : ℝ)]
  rw [e1]
  have e2 : ∀ a b c d e : ℝ, a + b - (c + d - e) = (a - (c - e)) + (b - d) := fun a b c d e => by ring
  rw [e2, hG]
  refine (abs_add_le _ _).trans ?_
  rw [add_mul]
  refine add_le_add (q1.trans ?_) q2
  calc N * ((L2 * h * MB + LA * h * LB) * h ^ 2) = (N * h) * (L2 * MB + LA * LB) * h ^ 2 := by ring
    _ ≤ |T| * (L2 * MB + LA * LB) * h ^ 2 := by gcongr

/-! ### Error of a discretised equation of the second kind -/

theorem norm_le_of_mul_eq {b x : ℕ} {A M : Mat ℝ b b} (hM : M * A = 1) (e : Mat ℝ b x) :
    ‖e‖ ≤ ‖M‖ * ‖A * e‖ := by
  have : e = M * (A * e) := by rw [← Matrix.mul_assoc, hM, Matrix.one_mul]
  conv_lhs => rw [this]
  exact Matrix.linfty_opNorm_mul _ _

/-- The sequence `ker` solves the perturbed discretised equation, `k` solves the exact one up to the
consistency error `q`. The weights `w` of the quadrature are between 0 and 1. -/
theorem second_kind_error {b x : ℕ} {T MB Mk h ε q : ℝ} {L : ℕ} {B0 B0' M : Mat ℝ b b}
    {Bd Bd' : ℕ → Mat ℝ b b} {D D' k ker : ℕ → Mat ℝ b x} {w : ℕ → ℕ → ℝ}
    (hMB0 : M * B0 = 1) (hh : 0 ≤ h) (hε : 0 ≤ ε) (hq : 0 ≤ q) (hMB : 0 ≤ MB) (hMk : 0 ≤ Mk)
    (hT : L * h ≤ T) (hh1 : h ≤ 1) (hε1 : ε ≤ 1) (hsmall : ‖M‖ * (h * (MB + 1) + ε) ≤ 1 / 2)
    (hw : ∀ m j, 0 ≤ w m j ∧ w m j ≤ 1)
    (bBd : ∀ j ≤ L, ‖Bd j‖ ≤ MB) (bk : ∀ j ≤ L, ‖k j‖ ≤ Mk)
    (dB0 : ‖B0' - B0‖ ≤ ε) (dBd : ∀ j ≤ L, ‖Bd' j - Bd j‖ ≤ ε) (dD : ∀ j ≤ L, ‖D' j - D j‖ ≤ ε)
    (eq : ∀ m ≤ L, B0' * ker m = D' m + ∑ j ∈ range (m + 1), (h * w m j) • (Bd' (m - j) * ker j))
    (cons : ∀ m ≤ L,
      ‖D m + ∑ j ∈ range (m + 1), (h * w m j) • (Bd (m - j) * k j) - B0 * k m‖ ≤ q) :
    ∀ m ≤ L, ‖ker m - k m‖ ≤
      2 * ‖M‖ * ((Mk * (T + 2) + 1) * ε + q) * Real.exp (2 * ‖M‖ * (MB + 1) * T) := by
  have hT0 : 0 ≤ T := (by positivity : (0 : ℝ) ≤ L * h).trans hT
  have hMn : 0 ≤ ‖M‖ := norm_nonneg M
  set e : ℕ → ℝ := fun m => ‖ker m - k m‖ with he
  have he0 : ∀ m, 0 ≤ e m := fun m => norm_nonneg _
  have hker : ∀ j ≤ L, ‖ker j‖ ≤ e j + Mk := by
    intro j hj
    have := norm_add_le (ker j - k j) (k j)
    rw [sub_add_cancel] at this
    linarith [bk j hj, this]
  have step : ∀ m < L + 1, e m ≤ 2 * ‖M‖ * ((Mk * (T + 2) + 1) * ε + q) +
      (2 * ‖M‖ * (MB + 1) * h) * ∑ j ∈ range m, e j := by
    intro m hm
    have hm' : m ≤ L := by omega
    have hmh : (m : ℝ) * h ≤ T := by
      refine le_trans ?_ hT
      gcongr
    have hdec : B0 * (ker m - k m) =
        (D m + ∑ j ∈ range (m + 1), (h * w m j) • (Bd (m - j) * k j) - B0 * k m)
        + (D' m - D m) - (B0' - B0) * ker m
        + ∑ j ∈ range (m + 1), (h * w m j) • (Bd' (m - j) * ker j - Bd (m - j) * k j) := by
      simp only [smul_sub, sum_sub_distrib, Matrix.mul_sub, Matrix.sub_mul]
      rw [eq m hm']
      abel
    have hsum : ‖∑ j ∈ range (m + 1), (h * w m j) • (Bd' (m - j) * ker j - Bd (m - j) * k j)‖ ≤
        ∑ j ∈ range (m + 1), h * (ε * Mk + (MB + 1) * e j) := by
      refine (norm_sum_le _ _).trans (sum_le_sum fun j hj => ?_)
      have hj := Finset.mem_range.1 hj
      rw [norm_smul, Real.norm_of_nonneg (mul_nonneg hh (hw m j).1)]
      have h1 : h * w m j ≤ h := by
        have := mul_le_mul_of_nonneg_left (hw m j).2 hh
        linarith
      have h2 := norm_mul_sub_le (Bd' (m - j)) (Bd (m - j)) (ker j) (k j)
      have h3 : ‖Bd' (m - j) - Bd (m - j)‖ * ‖ker j‖ ≤ ε * (e j + Mk) := by
        gcongr
        · exact dBd _ (by omega)
        · exact hker j (by omega)
      have h4 : ‖Bd (m - j)‖ * ‖ker j - k j‖ ≤ MB * e j := by
        gcongr
        · exact bBd _ (by omega)
      have h5 : ε * e j ≤ 1 * e j := by
        gcongr
      calc h * w m j * ‖Bd' (m - j) * ker j - Bd (m - j) * k j‖
          ≤ h * ‖Bd' (m - j) * ker j - Bd (m - j) * k j‖ := by gcongr
        _ ≤ h * (ε * Mk + (MB + 1) * e j) := by
          gcongr
          linarith
    have hB0k : ‖(B0' - B0) * ker m‖ ≤ ε * (e m + Mk) := by
      refine (Matrix.linfty_opNorm_mul _ _).trans ?_
      gcongr
      exact hker m hm'
    have htot : ‖B0 * (ker m - k m)‖ ≤ q + ε + ε * (e m + Mk) +
        ∑ j ∈ range (m + 1), h * (ε * Mk + (MB + 1) * e j) := by
      rw [hdec]
      refine (norm_add_le _ _).trans (add_le_add ((norm_sub_le _ _).trans (add_le_add ((norm_add_le _ _).trans
        (add_le_add (cons m hm') (dD m hm'))) hB0k)) hsum)
    have hs : ∑ j ∈ range (m + 1), h * (ε * Mk + (MB + 1) * e j) =
        (m * h + h) * (ε * Mk) + h * (MB + 1) * ∑ j ∈ range m, e j + h * (MB + 1) * e m := by
      rw [← mul_sum, sum_add_distrib, sum_const, card_range, ← mul_sum, sum_range_succ e, nsmul_eq_mul]
      push_cast
      ring
    rw [hs] at htot
    have h6 := (norm_le_of_mul_eq hMB0 (ker m - k m)).trans (mul_le_mul_of_nonneg_left htot hMn)
    have h7 : ‖M‖ * (h * (MB + 1) + ε) * e m ≤ 1 / 2 * e m := by
      gcongr
    have h8 : ‖M‖ * ((m * h + h) * (ε * Mk)) ≤ ‖M‖ * ((T + 1) * (ε * Mk)) := by gcongr
    have h9 : e m ≤ ‖M‖ * (q + ε + ε * Mk + (T + 1) * (ε * Mk) + h * (MB + 1) * ∑ j ∈ range m, e j) +
        1 / 2 * e m := by
      refine h6.trans ?_
      have : ‖M‖ * (q + ε + ε * (e m + Mk) + ((m * h + h) * (ε * Mk) +
          h * (MB + 1) * ∑ j ∈ range m, e j + h * (MB + 1) * e m)) =
          ‖M‖ * ((m * h + h) * (ε * Mk)) + ‖M‖ * (q + ε + ε * Mk + h * (MB + 1) * ∑ j ∈ range m, e j) +
          ‖M‖ * (h * (MB + 1) + ε) * e m := by ring
      rw [this]
      linarith
    linarith
  intro m hm
  refine (gronwall (by positivity) (by positivity) step m (by omega)).trans ?_
  refine mul_le_mul_of_nonneg_left (Real.exp_le_exp.2 ?_) (by positivity)
  have hmh : (m : ℝ) * h ≤ T := by
    refine le_trans ?_ hT
    gcongr
  calc 2 * ‖M‖ * (MB + 1) * h * m = 2 * ‖M‖ * (MB + 1) * (m * h) := by ring
    _ ≤ _ := by gcongr

/-- A small perturbation of an invertible matrix is invertible. -/
theorem det_ne_zero_of_close {b : ℕ} {A A' M : Mat ℝ b b} (hM : M * A = 1) (h : ‖M‖ * ‖A' - A‖ < 1) :
    A'.det ≠ 0 := by
  intro h0
  obtain ⟨v, hv, hv0⟩ := Matrix.exists_mulVec_eq_zero_iff.2 h0
  have e1 : v = -(M.mulVec ((A' - A).mulVec v)) := by
    rw [Matrix.sub_mulVec, hv0, zero_sub, Matrix.mulVec_neg, neg_neg, Matrix.mulVec_mulVec, hM,
      Matrix.one_mulVec]
  have h1 : ‖v‖ ≤ ‖M‖ * (‖A' - A‖ * ‖v‖) := by
    conv_lhs => rw [e1]
    rw [norm_neg]
    refine (Matrix.linfty_opNorm_mulVec _ _).trans ?_
    gcongr
    exact Matrix.linfty_opNorm_mulVec _ _
  have h2 : 0 < ‖v‖ := norm_pos_iff.2 hv
  nlinarith

end Verif
