import Verif.Lemmas.ConvergeGle
import Verif.Spec.Gle

/-!
# Regularity of the solutions of the generalised Langevin equation
-/

namespace Verif

open Finset Set

theorem unif_const {ι : Type*} [Fintype ι] {P : ι → ℝ → Prop} (mono : ∀ i a b, a ≤ b → P i a → P i b)
    (h : ∀ i, ∃ a, 0 ≤ a ∧ P i a) : ∃ a, 0 ≤ a ∧ ∀ i, P i a := by
  choose a ha hP using h
  exact ⟨∑ i, a i, Finset.sum_nonneg fun i _ => ha i,
    fun i => mono i _ _ (Finset.single_le_sum (f := a) (fun i _ => ha i) (Finset.mem_univ i)) (hP i)⟩

theorem LipOn.mono {T L L' : ℝ} {g : ℝ → ℝ} (h : LipOn T L g) (hL : L ≤ L') : LipOn T L' g :=
  fun s hs t ht => (h s hs t ht).trans (by gcongr)

theorem SecondDiff.mono {T L L' : ℝ} {g : ℝ → ℝ} (h : SecondDiff T L g) (hL : L ≤ L') : SecondDiff T L' g :=
  fun t u ht hu hT => (h t u ht hu hT).trans (by gcongr)

theorem LipOn.congr {T L : ℝ} {g g' : ℝ → ℝ} (h : LipOn T L g) (he : ∀ t ∈ Icc 0 T, g' t = g t) : LipOn T L g' :=
  fun s hs t ht => by rw [he s hs, he t ht]; exact h s hs t ht

theorem SecondDiff.congr {T L : ℝ} {g g' : ℝ → ℝ} (h : SecondDiff T L g) (he : ∀ t ∈ Icc 0 T, g' t = g t) :
    SecondDiff T L g' := by
  intro t u ht hu hT
  rw [he _ ⟨by linarith, hT⟩, he _ ⟨by linarith, by linarith⟩, he t ⟨ht, by linarith⟩]
  exact h t u ht hu hT

theorem LipOn.sub {T L L' : ℝ} {g g' : ℝ → ℝ} (h : LipOn T L g) (h' : LipOn T L' g') :
    LipOn T (L + L') (fun t => g t - g' t) := by
  intro s hs t ht
  have : g s - g' s - (g t - g' t) = (g s - g t) - (g' s - g' t) := by ring
  rw [this, add_mul]
  exact (abs_sub _ _).trans (add_le_add (h s hs t ht) (h' s hs t ht))

theorem SecondDiff.sub {T L L' : ℝ} {g g' : ℝ → ℝ} (h : SecondDiff T L g) (h' : SecondDiff T L' g') :
    SecondDiff T (L + L') (fun t => g t - g' t) := by
  intro t u ht hu hT
  have : g (t + 2 * u) - g' (t + 2 * u) - 2 * (g (t + u) - g' (t + u)) + (g t - g' t) =
    (g (t + 2 * u) - 2 * g (t + u) + g t) - (g' (t + 2 * u) - 2 * g' (t + u) + g' t) := by ring
  rw [this, add_mul]
  exact (abs_sub _ _).trans (add_le_add (h t u ht hu hT) (h' t u ht hu hT))

theorem LipOn.sum {ι : Type*} [Fintype ι] {T : ℝ} {L : ι → ℝ} {g : ι → ℝ → ℝ} (h : ∀ i, LipOn T (L i) (g i)) :
    LipOn T (∑ i, L i) (fun t => ∑ i, g i t) := by
  intro s hs t ht
  rw [← Finset.sum_sub_distrib, Finset.sum_mul]
  exact (Finset.abs_sum_le_sum_abs _ _).trans (Finset.sum_le_sum fun i _ => h i s hs t ht)

theorem SecondDiff.sum {ι : Type*} [Fintype ι] {T : ℝ} {L : ι → ℝ} {g : ι → ℝ → ℝ} (h : ∀ i, SecondDiff T (L i) (g i)) :
    SecondDiff T (∑ i, L i) (fun t => ∑ i, g i t) := by
  intro t u ht hu hT
  rw [Finset.mul_sum, ← Finset.sum_sub_distrib, ← Finset.sum_add_distrib, Finset.sum_mul]
  exact (Finset.abs_sum_le_sum_abs _ _).trans (Finset.sum_le_sum fun i _ => h i t u ht hu hT)

theorem lipOn_of_deriv {T M : ℝ} {g g' : ℝ → ℝ} (hd : ∀ t ∈ Icc 0 T, HasDerivWithinAt g (g' t) (Icc 0 T) t)
    (hM : ∀ t ∈ Icc 0 T, |g' t| ≤ M) : LipOn T M g := by
  intro s hs t ht
  have := (convex_Icc (0 : ℝ) T).norm_image_sub_le_of_norm_hasDerivWithin_le hd (C := M) (fun u hu => hM u hu) ht hs
  rwa [Real.norm_eq_abs, Real.norm_eq_abs] at this

theorem bound_of_cont {T : ℝ} {g : ℝ → ℝ} (h : ContinuousOn g (Icc 0 T)) : ∃ M, 0 ≤ M ∧ ∀ t ∈ Icc 0 T, |g t| ≤ M := by
  obtain ⟨C, hC⟩ := isCompact_Icc.exists_bound_of_continuousOn h
  exact ⟨|C|, abs_nonneg _, fun t ht => (hC t ht).trans (le_abs_self _)⟩

section
variable {W : Type*} [NormedAddCommGroup W] [NormedSpace ℝ W] [FiniteDimensional ℝ W]

/-- A function of class `C¹` is Lipschitz on balls. -/
theorem lip_ball {P : Type*} [NormedAddCommGroup P] [NormedSpace ℝ P] {φ : W → P} (h : ContDiff ℝ 1 φ) (R : ℝ) :
    ∃ L, 0 ≤ L ∧ ∀ y z, ‖y‖ ≤ R → ‖z‖ ≤ R → ‖φ y - φ z‖ ≤ L * ‖y - z‖ := by
  have := FiniteDimensional.proper ℝ W
  obtain ⟨K, hK⟩ := (h.contDiffOn (s := Metric.closedBall 0 R)).exists_lipschitzOnWith one_ne_zero (convex_closedBall _ _)
    (isCompact_closedBall _ _)
  refine ⟨K, K.2, fun y z hy hz => ?_⟩
  rw [← dist_eq_norm, ← dist_eq_norm]
  exact hK.dist_le_mul _ (by simpa using hy) _ (by simpa using hz)

/-- A function of class `C²` along a curve with a Lipschitz derivative has a Lipschitz derivative. -/
theorem comp_regular {φ : W → ℝ} (hφ : ContDiff ℝ 2 φ) {T R L : ℝ} (hL : 0 ≤ L) {X D : ℝ → W}
    (hd : ∀ t ∈ Icc 0 T, HasDerivWithinAt X (D t) (Icc 0 T) t) (hR : ∀ t ∈ Icc 0 T, ‖X t‖ ≤ R)
    (hDR : ∀ t ∈ Icc 0 T, ‖D t‖ ≤ R) (hR0 : 0 ≤ R)
    (hX : ∀ s ∈ Icc 0 T, ∀ t ∈ Icc 0 T, ‖X s - X t‖ ≤ L * |s - t|)
    (hD : ∀ s ∈ Icc 0 T, ∀ t ∈ Icc 0 T, ‖D s - D t‖ ≤ L * |s - t|) :
    ∃ g' : ℝ → ℝ, (∀ t ∈ Icc 0 T, HasDerivWithinAt (fun s => φ (X s)) (g' t) (Icc 0 T) t) ∧
      ∃ C, 0 ≤ C ∧ LipOn T C g' := by
  have := FiniteDimensional.proper ℝ W
  have h1 : ContDiff ℝ 1 (fderiv ℝ φ) := hφ.fderiv_right (by norm_num)
  obtain ⟨K, hK0, hK⟩ := lip_ball h1 R
  obtain ⟨C, hC⟩ := (isCompact_closedBall (0 : W) R).exists_bound_of_continuousOn h1.continuous.continuousOn
  refine ⟨fun t => fderiv ℝ φ (X t) (D t), fun t ht => ?_, K * L * R + |C| * L, by positivity, fun s hs t ht => ?_⟩
  · exact ((hφ.differentiable (by norm_num)) (X t)).hasFDerivAt.comp_hasDerivWithinAt t (hd t ht)
  · have e : fderiv ℝ φ (X s) (D s) - fderiv ℝ φ (X t) (D t) =
        (fderiv ℝ φ (X s) - fderiv ℝ φ (X t)) (D s) + fderiv ℝ φ (X t) (D s - D t) := by
      rw [sub_apply, map_sub]
      ring
    rw [e, ← Real.norm_eq_abs]
    refine (norm_add_le _ _).trans ?_
    have b1 : ‖(fderiv ℝ φ (X s) - fderiv ℝ φ (X t)) (D s)‖ ≤ K * (L * |s - t|) * R := by
      refine (ContinuousLinearMap.le_opNorm _ _).trans ?_
      have := (hK _ _ (hR s hs) (hR t ht)).trans (mul_le_mul_of_nonneg_left (hX s hs t ht) hK0)
      exact mul_le_mul this (hDR s hs) (norm_nonneg _) (by positivity)
    have b2 : ‖fderiv ℝ φ (X t) (D s - D t)‖ ≤ |C| * (L * |s - t|) := by
      refine (ContinuousLinearMap.le_opNorm _ _).trans ?_
      have := (hC (X t) (by simpa using hR t ht)).trans (le_abs_self C)
      exact mul_le_mul this (hD s hs t ht) (norm_nonneg _) (abs_nonneg _)
    linarith

end

section
variable {d b : ℕ}

/-- The memory force of a curve. -/
noncomputable def memForce (E : (Fin d → ℝ) → (Fin d → ℝ) → Fin b → ℝ) (κ : ℝ → Matrix (Fin b) (Fin d) ℝ)
    (x v : ℝ → Fin d → ℝ) (t : ℝ) (i : Fin d) : ℝ :=
  ∫ s in (0 : ℝ)..t, Matrix.vecMul (E (x (t - s)) (v (t - s))) (κ s) i

theorem memForce_eq {E : (Fin d → ℝ) → (Fin d → ℝ) → Fin b → ℝ} {κ : ℝ → Matrix (Fin b) (Fin d) ℝ}
    {x v : ℝ → Fin d → ℝ} {T : ℝ} (hE : ∀ k, ContinuousOn (fun t => E (x t) (v t) k) (Icc 0 T))
    (hκ : ∀ k i, ContinuousOn (fun t => κ t k i) (Icc 0 T)) {t : ℝ} (ht : t ∈ Icc 0 T) (i : Fin d) :
    memForce E κ x v t i = ∑ k, conv (fun t => E (x t) (v t) k) (fun s => κ s k i) t := by
  simp only [memForce, Matrix.vecMul, dotProduct, conv]
  exact intervalIntegral.integral_finsetSum fun k _ => conv_integrable (hE k) (hκ k i) le_rfl ht.1 le_rfl ht.2

/-- What is used of a solution of the equation. -/
structure GleRegular (T R L S : ℝ) (F : (Fin d → ℝ) → Fin d → ℝ) (E : (Fin d → ℝ) → (Fin d → ℝ) → Fin b → ℝ)
    (κ : ℝ → Matrix (Fin b) (Fin d) ℝ) (x v : ℝ → Fin d → ℝ) (e' : ℝ → Fin b → ℝ) : Prop where
  xR : ∀ t ∈ Icc 0 T, ∀ i, |x t i| ≤ R
  vR : ∀ t ∈ Icc 0 T, ∀ i, |v t i| ≤ R
  xL : ∀ i, LipOn T L (fun t => x t i)
  vL : ∀ i, LipOn T L (fun t => v t i)
  aL : ∀ i, LipOn T L (fun t => F (x t) i - memForce E κ x v t i)
  vS : ∀ i, SecondDiff T S (fun t => v t i)
  aS : ∀ i, SecondDiff T S (fun t => F (x t) i - memForce E κ x v t i)
  mS : ∀ i, SecondDiff T S (fun t => memForce E κ x v t i)
  ed : ∀ k, ∀ t ∈ Icc 0 T, HasDerivWithinAt (fun s => E (x s) (v s) k) (e' t k) (Icc 0 T) t
  eL : ∀ k, LipOn T L (fun t => e' t k)

set_option maxHeartbeats 1000000 in
theorem gle_regular {T : ℝ} (hT : 0 ≤ T) {F : (Fin d → ℝ) → Fin d → ℝ} {E : (Fin d → ℝ) → (Fin d → ℝ) → Fin b → ℝ}
    {κ : ℝ → Matrix (Fin b) (Fin d) ℝ} {x v : ℝ → Fin d → ℝ} (h : Spec.Gle T F E κ x v) (hF : ContDiff ℝ 2 F)
    (hE : ContDiff ℝ 2 (fun y : (Fin d → ℝ) × (Fin d → ℝ) => E y.1 y.2)) (hκ : Spec.Lip T κ) :
    ∃ R L S e', 0 ≤ R ∧ 0 ≤ L ∧ 0 ≤ S ∧ GleRegular T R L S F E κ x v e' := by
  have hdx : ∀ t ∈ Icc 0 T, HasDerivWithinAt x (v t) (Icc 0 T) t := fun t ht => hasDerivWithinAt_pi.2 (h.pos t ht)
  have hdv : ∀ t ∈ Icc 0 T, HasDerivWithinAt v (fun i => F (x t) i - memForce E κ x v t i) (Icc 0 T) t :=
    fun t ht => hasDerivWithinAt_pi.2 (h.vel t ht)
  have cx : ContinuousOn x (Icc 0 T) := fun t ht => (hdx t ht).continuousWithinAt
  have cv : ContinuousOn v (Icc 0 T) := fun t ht => (hdv t ht).continuousWithinAt
  have cE : ∀ k, ContinuousOn (fun t => E (x t) (v t) k) (Icc 0 T) := fun k =>
    ((continuous_apply k).comp hE.continuous).comp_continuousOn (cx.prodMk cv)
  have cF : ∀ i, ContinuousOn (fun t => F (x t) i) (Icc 0 T) := fun i =>
    ((continuous_apply i).comp hF.continuous).comp_continuousOn cx
  obtain ⟨Lκ, hLκ0, hLκ⟩ : ∃ L, 0 ≤ L ∧ ∀ p : Fin b × Fin d, LipOn T L (fun s => κ s p.1 p.2) := by
    obtain ⟨L, hL⟩ := hκ
    exact ⟨|L|, abs_nonneg _, fun p s hs t ht => (hL s hs t ht p.1 p.2).trans (by gcongr; exact le_abs_self L)⟩
  have cκ : ∀ k i, ContinuousOn (fun t => κ t k i) (Icc 0 T) := fun k i => (hLκ (k, i)).contOn
  obtain ⟨Mκ, hMκ0, hMκ⟩ := unif_const (P := fun (p : Fin b × Fin d) M => ∀ t ∈ Icc 0 T, |κ t p.1 p.2| ≤ M)
    (fun p a b hab hP t ht => (hP t ht).trans hab) (fun p => bound_of_cont (cκ p.1 p.2))
  obtain ⟨ME, hME0, hME⟩ := unif_const (P := fun (k : Fin b) M => ∀ t ∈ Icc 0 T, |E (x t) (v t) k| ≤ M)
    (fun p a b hab hP t ht => (hP t ht).trans hab) (fun k => bound_of_cont (cE k))
  obtain ⟨MF, hMF0, hMF⟩ := unif_const (P := fun (i : Fin d) M => ∀ t ∈ Icc 0 T, |F (x t) i| ≤ M)
    (fun p a b hab hP t ht => (hP t ht).trans hab) (fun k => bound_of_cont (cF k))
  obtain ⟨Mx, hMx0, hMx⟩ := unif_const (P := fun (i : Fin d) M => ∀ t ∈ Icc 0 T, |x t i| ≤ M)
    (fun p a b hab hP t ht => (hP t ht).trans hab) (fun k => bound_of_cont ((continuous_apply k).comp_continuousOn cx))
  obtain ⟨Mv, hMv0, hMv⟩ := unif_const (P := fun (i : Fin d) M => ∀ t ∈ Icc 0 T, |v t i| ≤ M)
    (fun p a b hab hP t ht => (hP t ht).trans hab) (fun k => bound_of_cont ((continuous_apply k).comp_continuousOn cv))
  -- the acceleration is bounded
  have hm : ∀ t ∈ Icc 0 T, ∀ i, |memForce E κ x v t i| ≤ b * (T * (ME * Mκ)) := by
    intro t ht i
    rw [memForce_eq cE cκ ht]
    refine (Finset.abs_sum_le_sum_abs _ _).trans ?_
    refine (Finset.sum_le_card_nsmul _ _ (T * (ME * Mκ)) fun k _ => ?_).trans (by simp)
    exact conv_bound hME0 hMκ0 (hME k) (hMκ (k, i)) ht
  have ha : ∀ t ∈ Icc 0 T, ∀ i, |F (x t) i - memForce E κ x v t i| ≤ MF + b * (T * (ME * Mκ)) := fun t ht i =>
    (abs_sub _ _).trans (add_le_add (hMF i t ht) (hm t ht i))
  obtain ⟨Ma, hMa⟩ : ∃ Ma, Ma = MF + b * (T * (ME * Mκ)) := ⟨_, rfl⟩
  rw [← hMa] at ha
  have hMa0 : 0 ≤ Ma := by rw [hMa]; positivity
  -- position and velocity are Lipschitz
  have lx : ∀ i, LipOn T Mv (fun t => x t i) := fun i => lipOn_of_deriv (fun t ht => h.pos t ht i) (hMv i)
  have lv : ∀ i, LipOn T Ma (fun t => v t i) := fun i => lipOn_of_deriv (fun t ht => h.vel t ht i) (fun t ht => ha t ht i)
  obtain ⟨R, hR⟩ : ∃ R, R = Mx + Mv + Ma := ⟨_, rfl⟩
  have hR0 : 0 ≤ R := by rw [hR]; positivity
  have nx : ∀ t ∈ Icc 0 T, ‖x t‖ ≤ R := fun t ht => (pi_norm_le_iff_of_nonneg hR0).2 fun i =>
    (hMx i t ht).trans (by rw [hR]; linarith)
  have nv : ∀ t ∈ Icc 0 T, ‖v t‖ ≤ R := fun t ht => (pi_norm_le_iff_of_nonneg hR0).2 fun i =>
    (hMv i t ht).trans (by rw [hR]; linarith)
  have na : ∀ t ∈ Icc 0 T, ‖(fun i => F (x t) i - memForce E κ x v t i)‖ ≤ R := fun t ht =>
    (pi_norm_le_iff_of_nonneg hR0).2 fun i => (ha t ht i).trans (by rw [hR]; linarith)
  have dx : ∀ s ∈ Icc 0 T, ∀ t ∈ Icc 0 T, ‖x s - x t‖ ≤ R * |s - t| := fun s hs t ht =>
    (pi_norm_le_iff_of_nonneg (by positivity)).2 fun i => ((lx i).mono (by rw [hR]; linarith)) s hs t ht
  have dv : ∀ s ∈ Icc 0 T, ∀ t ∈ Icc 0 T, ‖v s - v t‖ ≤ R * |s - t| := fun s hs t ht =>
    (pi_norm_le_iff_of_nonneg (by positivity)).2 fun i => ((lv i).mono (by rw [hR]; linarith)) s hs t ht
  have dX : ∀ s ∈ Icc 0 T, ∀ t ∈ Icc 0 T, ‖(x s, v s) - (x t, v t)‖ ≤ R * |s - t| := fun s hs t ht =>
    norm_prod_le_iff.2 ⟨dx s hs t ht, dv s hs t ht⟩
  -- so are the functions of the memory
  obtain ⟨LE, hLE0, hLE⟩ := lip_ball (hE.of_le (by norm_num)) R
  have lE : ∀ k, LipOn T (LE * R) (fun t => E (x t) (v t) k) := by
    intro k s hs t ht
    have h1 := hLE (x s, v s) (x t, v t) (norm_prod_le_iff.2 ⟨nx s hs, nv s hs⟩) (norm_prod_le_iff.2 ⟨nx t ht, nv t ht⟩)
    have h2 := norm_le_pi_norm (E (x s) (v s) - E (x t) (v t)) k
    rw [Pi.sub_apply, Real.norm_eq_abs] at h2
    refine h2.trans (h1.trans ?_)
    rw [mul_assoc]
    exact mul_le_mul_of_nonneg_left (dX s hs t ht) hLE0
  -- the memory force and the acceleration
  have lm : ∀ i, LipOn T (∑ _k : Fin b, (T * (LE * R * Mκ) + ME * Mκ)) (fun t => memForce E κ x v t i) := fun i =>
    (LipOn.sum fun k => conv_lipOn hME0 hMκ0 (by positivity) (hME k) (hMκ (k, i)) (lE k) (hLκ (k, i))).congr
      fun t ht => memForce_eq cE cκ ht i
  have fx : ∀ i, ∃ g' : ℝ → ℝ, (∀ t ∈ Icc 0 T, HasDerivWithinAt (fun s => F (x s) i) (g' t) (Icc 0 T) t) ∧
      ∃ C, 0 ≤ C ∧ LipOn T C g' := fun i =>
    comp_regular (φ := fun y => F y i) ((contDiff_pi.1 hF) i) hR0 hdx nx nv hR0 dx dv
  have lF : ∀ i, ∃ C, 0 ≤ C ∧ LipOn T C (fun t => F (x t) i) := by
    intro i
    obtain ⟨g', hg, C, hC, hl⟩ := fx i
    obtain ⟨M, hM0, hM⟩ := bound_of_cont hl.contOn
    exact ⟨M, hM0, lipOn_of_deriv hg hM⟩
  obtain ⟨CF, hCF0, hCF⟩ := unif_const (P := fun (i : Fin d) C => LipOn T C (fun t => F (x t) i)) (fun i a b hab hP => hP.mono hab) lF
  obtain ⟨Cm, hCm⟩ : ∃ Cm : ℝ, Cm = ∑ _k : Fin b, (T * (LE * R * Mκ) + ME * Mκ) := ⟨_, rfl⟩
  have hCm0 : 0 ≤ Cm := by rw [hCm]; positivity
  rw [← hCm] at lm
  have la : ∀ i, LipOn T (CF + Cm) (fun t => F (x t) i - memForce E κ x v t i) := fun i => (hCF i).sub (lm i)
  obtain ⟨Q, hQ⟩ : ∃ Q, Q = R + CF + Cm := ⟨_, rfl⟩
  have hQ0 : 0 ≤ Q := by rw [hQ]; positivity
  have hRQ : R ≤ Q := by rw [hQ]; linarith
  have da : ∀ s ∈ Icc 0 T, ∀ t ∈ Icc 0 T, ‖(fun i => F (x s) i - memForce E κ x v s i) - (fun i => F (x t) i - memForce E κ x v t i)‖ ≤ Q * |s - t| :=
    fun s hs t ht => (pi_norm_le_iff_of_nonneg (by positivity)).2 fun i => ((la i).mono (by rw [hQ]; linarith)) s hs t ht
  have dX' : ∀ s ∈ Icc 0 T, ∀ t ∈ Icc 0 T, ‖(x s, v s) - (x t, v t)‖ ≤ Q * |s - t| := fun s hs t ht =>
    (dX s hs t ht).trans (by gcongr)
  have ex : ∀ k, ∃ g' : ℝ → ℝ, (∀ t ∈ Icc 0 T, HasDerivWithinAt (fun s => E (x s) (v s) k) (g' t) (Icc 0 T) t) ∧
      ∃ C, 0 ≤ C ∧ LipOn T C g' := fun k =>
    comp_regular (φ := fun y : (Fin d → ℝ) × (Fin d → ℝ) => E y.1 y.2 k) ((contDiff_pi.1 hE) k) hQ0
      (X := fun t => (x t, v t)) (D := fun t => (v t, fun i => F (x t) i - memForce E κ x v t i))
      (fun t ht => (hdx t ht).prodMk (hdv t ht)) (fun t ht => norm_prod_le_iff.2 ⟨nx t ht, nv t ht⟩)
      (fun t ht => norm_prod_le_iff.2 ⟨nv t ht, na t ht⟩) hR0 dX'
      (fun s hs t ht => norm_prod_le_iff.2 ⟨(dv s hs t ht).trans (by gcongr), da s hs t ht⟩)
  choose ge hge using ex
  obtain ⟨Ce, hCe0, hCe⟩ := unif_const (P := fun (k : Fin b) C => LipOn T C (ge k)) (fun i a b hab hP => hP.mono hab)
    (fun k => (hge k).2)
  -- second differences
  have sE : ∀ k, SecondDiff T (2 * Ce) (fun t => E (x t) (v t) k) := fun k =>
    secondDiff_of_deriv hCe0 (hge k).1 (hCe k)
  have sm : ∀ i, SecondDiff T (∑ _k : Fin b, (T * (2 * Ce * Mκ) + (LE * R * Mκ + ME * Lκ))) (fun t => memForce E κ x v t i) :=
    fun i => (SecondDiff.sum fun k => conv_secondDiff hT hME0 hMκ0 (by positivity) (by positivity) (hME k) (hMκ (k, i))
      (lE k) (hLκ (k, i)) (sE k)).congr fun t ht => memForce_eq cE cκ ht i
  obtain ⟨Sm, hSm⟩ : ∃ Sm : ℝ, Sm = ∑ _k : Fin b, (T * (2 * Ce * Mκ) + (LE * R * Mκ + ME * Lκ)) := ⟨_, rfl⟩
  have hSm0 : 0 ≤ Sm := by rw [hSm]; positivity
  rw [← hSm] at sm
  have sF : ∀ i, ∃ C, 0 ≤ C ∧ SecondDiff T C (fun t => F (x t) i) := by
    intro i
    obtain ⟨g', hg, C, hC, hl⟩ := fx i
    exact ⟨2 * C, by positivity, secondDiff_of_deriv hC hg hl⟩
  obtain ⟨SF, hSF0, hSF⟩ := unif_const (P := fun (i : Fin d) C => SecondDiff T C (fun t => F (x t) i)) (fun i a b hab hP => hP.mono hab) sF
  have sv : ∀ i, SecondDiff T (2 * Q) (fun t => v t i) := fun i =>
    secondDiff_of_deriv hQ0 (fun t ht => h.vel t ht i) ((la i).mono (by rw [hQ]; linarith))
  refine ⟨R, Q + Ce, 2 * Q + SF + Sm, fun t k => ge k t, hR0, by positivity, by positivity, ?_⟩
  constructor
  · exact fun t ht i => (hMx i t ht).trans (by rw [hR]; linarith)
  · exact fun t ht i => (hMv i t ht).trans (by rw [hR]; linarith)
  · exact fun i => (lx i).mono (by rw [hQ, hR]; linarith)
  · exact fun i => (lv i).mono (by rw [hQ, hR]; linarith)
  · exact fun i => (la i).mono (by rw [hQ]; linarith)
  · exact fun i => (sv i).mono (by linarith)
  · exact fun i => ((hSF i).sub (sm i)).mono (by linarith)
  · exact fun i => (sm i).mono (by linarith)
  · exact fun k => (hge k).1
  · exact fun k => (hCe k).mono (by linarith)

end

end Verif
