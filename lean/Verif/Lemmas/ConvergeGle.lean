import Verif.Lemmas.Converge
import Verif.Spec.Integrate
import Mathlib.Analysis.Calculus.ContDiff.RCLike
import Mathlib.Tactic.Module

/-!
# Tools for the convergence of the integrator of the generalised Langevin equation
-/

namespace Verif

open Finset Set

/-! ### Second differences -/

/-- The second differences of `g` on `[0, T]` are at most `S u²`. -/
def SecondDiff (T S : ℝ) (g : ℝ → ℝ) : Prop :=
  ∀ t u, 0 ≤ t → 0 ≤ u → t + 2 * u ≤ T → |g (t + 2 * u) - 2 * g (t + u) + g t| ≤ S * u ^ 2

/-- Lipschitz on `[0, T]`, with the constant. -/
def LipOn (T L : ℝ) (g : ℝ → ℝ) : Prop := ∀ s ∈ Icc 0 T, ∀ t ∈ Icc 0 T, |g s - g t| ≤ L * |s - t|

theorem taylor_one {T L : ℝ} {g g' : ℝ → ℝ} (hL : 0 ≤ L) (hd : ∀ t ∈ Icc 0 T, HasDerivWithinAt g (g' t) (Icc 0 T) t)
    (hl : LipOn T L g') {s t r : ℝ} (hs : s ∈ Icc 0 T) (ht : t ∈ Icc 0 T) (hr : r ∈ Icc 0 T) {w : ℝ}
    (hsr : |s - r| ≤ w) (htr : |t - r| ≤ w) :
    |g t - g s - g' r * (t - s)| ≤ L * w * |t - s| := by
  have hc : Convex ℝ (Icc 0 T ∩ Metric.closedBall r w) := (convex_Icc _ _).inter (convex_closedBall _ _)
  have hg : ∀ u ∈ Icc 0 T ∩ Metric.closedBall r w,
      HasDerivWithinAt (fun u => g u - g' r * u) (g' u - g' r * 1) (Icc 0 T ∩ Metric.closedBall r w) u := by
    intro u hu
    exact ((hd u hu.1).mono inter_subset_left).sub ((hasDerivWithinAt_id u _).const_mul _)
  have hb : ∀ u ∈ Icc 0 T ∩ Metric.closedBall r w, ‖g' u - g' r * 1‖ ≤ L * w := by
    intro u hu
    rw [mul_one, Real.norm_eq_abs]
    refine (hl u hu.1 r hr).trans ?_
    gcongr
    have := hu.2
    rwa [Metric.mem_closedBall, Real.dist_eq] at this
  have := hc.norm_image_sub_le_of_norm_hasDerivWithin_le (f := fun u => g u - g' r * u) hg hb
    (x := s) (y := t) ⟨hs, by rwa [Metric.mem_closedBall, Real.dist_eq]⟩ ⟨ht, by rwa [Metric.mem_closedBall, Real.dist_eq]⟩
  rw [Real.norm_eq_abs, Real.norm_eq_abs] at this
  refine le_trans (le_of_eq ?_) this
  congr 1
  ring

theorem secondDiff_of_deriv {T L : ℝ} {g g' : ℝ → ℝ} (hL : 0 ≤ L)
    (hd : ∀ t ∈ Icc 0 T, HasDerivWithinAt g (g' t) (Icc 0 T) t) (hl : LipOn T L g') : SecondDiff T (2 * L) g := by
  intro t u ht hu hT
  have m0 : t ∈ Icc 0 T := ⟨ht, by linarith⟩
  have m1 : t + u ∈ Icc 0 T := ⟨by linarith, by linarith⟩
  have m2 : t + 2 * u ∈ Icc 0 T := ⟨by linarith, by linarith⟩
  have h1 := taylor_one hL hd hl m1 m2 m1 (w := u) (by simpa using hu) (by rw [abs_of_nonneg] <;> linarith)
  have h2 := taylor_one hL hd hl m0 m1 m1 (w := u) (by rw [abs_sub_comm, abs_of_nonneg] <;> linarith) (by simpa using hu)
  have e1 : t + 2 * u - (t + u) = u := by ring
  have e2 : t + u - t = u := by ring
  rw [e1, abs_of_nonneg hu] at h1
  rw [e2, abs_of_nonneg hu] at h2
  have : g (t + 2 * u) - 2 * g (t + u) + g t = (g (t + 2 * u) - g (t + u) - g' (t + u) * u) - (g (t + u) - g t - g' (t + u) * u) := by
    ring
  rw [this]
  refine (abs_sub _ _).trans ?_
  linarith [h1, h2]

theorem LipOn.contOn {T L : ℝ} {g : ℝ → ℝ} (h : LipOn T L g) : ContinuousOn g (Icc 0 T) := contOn_of_lip h

/-- The midpoint rule on `[t, t + 2u]`. -/
theorem midpoint_quad {T S L : ℝ} {g : ℝ → ℝ} (hS : 0 ≤ S) (hg : SecondDiff T S g) (hl : LipOn T L g) {t u : ℝ} (ht : 0 ≤ t) (hu : 0 ≤ u)
    (hT : t + 2 * u ≤ T) : |(∫ s in t..t + 2 * u, g s) - 2 * u * g (t + u)| ≤ S * u ^ 3 := by
  have hsub : Icc t (t + 2 * u) ⊆ Icc 0 T := Icc_subset_Icc ht hT
  have hI : IntervalIntegrable g MeasureTheory.volume t (t + 2 * u) :=
    (hl.contOn.mono (by rw [Set.uIcc_of_le (by linarith)]; exact hsub)).intervalIntegrable
  have hrefl : (∫ s in t..t + 2 * u, g (2 * t + 2 * u - s)) = ∫ s in t..t + 2 * u, g s := by
    rw [intervalIntegral.integral_comp_sub_left]
    congr 1 <;> ring
  have hI' : IntervalIntegrable (fun s => g (2 * t + 2 * u - s)) MeasureTheory.volume t (t + 2 * u) := by
    refine (ContinuousOn.comp (hl.contOn.mono hsub) (by fun_prop) ?_).intervalIntegrable
    rw [Set.uIcc_of_le (by linarith)]
    intro s hs
    exact ⟨by linarith [hs.2], by linarith [hs.1]⟩
  have hsum : (∫ s in t..t + 2 * u, (g s + g (2 * t + 2 * u - s) - 2 * g (t + u))) =
      2 * ((∫ s in t..t + 2 * u, g s) - 2 * u * g (t + u)) := by
    rw [intervalIntegral.integral_sub (hI.add hI') (by simp), intervalIntegral.integral_add hI hI', hrefl,
      intervalIntegral.integral_const, smul_eq_mul]
    ring
  have hb : ∀ s ∈ Set.uIoc t (t + 2 * u), ‖g s + g (2 * t + 2 * u - s) - 2 * g (t + u)‖ ≤ S * u ^ 2 := by
    intro s hs
    rw [Set.uIoc_of_le (by linarith)] at hs
    rw [Real.norm_eq_abs]
    rcases le_total s (t + u) with c | c
    · have := hg s (t + u - s) (by linarith [hs.1]) (by linarith) (by linarith [hs.1])
      rw [show s + 2 * (t + u - s) = 2 * t + 2 * u - s by ring, show s + (t + u - s) = t + u by ring] at this
      refine le_trans (le_of_eq ?_) (this.trans ?_)
      · congr 1; ring
      · gcongr
        linarith [hs.1]
    · have := hg (2 * t + 2 * u - s) (s - (t + u)) (by linarith [hs.2]) (by linarith) (by linarith [hs.2])
      rw [show 2 * t + 2 * u - s + 2 * (s - (t + u)) = s by ring,
        show 2 * t + 2 * u - s + (s - (t + u)) = t + u by ring] at this
      refine le_trans (le_of_eq ?_) (this.trans ?_)
      · congr 1; ring
      · gcongr
        linarith [hs.2]
  have := intervalIntegral.norm_integral_le_of_norm_le_const hb
  rw [hsum, Real.norm_eq_abs, abs_mul, show t + 2 * u - t = 2 * u by ring, abs_of_nonneg (show (0 : ℝ) ≤ 2 * u by linarith), abs_of_pos (by norm_num : (0 : ℝ) < 2)] at this
  nlinarith [this]

theorem ftc_on {T : ℝ} {g g' : ℝ → ℝ} (hd : ∀ t ∈ Icc 0 T, HasDerivWithinAt g (g' t) (Icc 0 T) t) {L : ℝ} (hl : LipOn T L g')
    {a b : ℝ} (ha : 0 ≤ a) (hab : a ≤ b) (hb : b ≤ T) : ∫ s in a..b, g' s = g b - g a := by
  have hsub : Icc a b ⊆ Icc 0 T := Icc_subset_Icc ha hb
  refine intervalIntegral.integral_eq_sub_of_hasDerivAt_of_le hab
    (fun t ht => ((hd t (hsub ht)).continuousWithinAt).mono hsub) (fun t ht => ?_) ?_
  · exact (hd t (hsub ⟨ht.1.le, ht.2.le⟩)).hasDerivAt (Icc_mem_nhds (by linarith [ht.1]) (by linarith [ht.2]))
  · exact (hl.contOn.mono (by rw [Set.uIcc_of_le hab]; exact hsub)).intervalIntegrable

/-- Simpson's weights on one step. -/
theorem simpson_step {T S L : ℝ} {g g' : ℝ → ℝ} (hS : 0 ≤ S)
    (hd : ∀ t ∈ Icc 0 T, HasDerivWithinAt g (g' t) (Icc 0 T) t) (hl : LipOn T L g') (hg : SecondDiff T S g')
    {t h : ℝ} (ht : 0 ≤ t) (hh : 0 ≤ h) (hT : t + h ≤ T) :
    |g t + h / 6 * (g' t + 4 * g' (t + h / 2) + g' (t + h)) - g (t + h)| ≤ S * h ^ 3 := by
  have h1 := midpoint_quad hS hg hl ht (show 0 ≤ h / 2 by linarith) (by linarith)
  have h2 := hg t (h / 2) ht (by linarith) (by linarith)
  rw [show t + 2 * (h / 2) = t + h by ring, show 2 * (h / 2) = h by ring, ftc_on hd hl ht (by linarith) hT] at h1
  rw [show t + 2 * (h / 2) = t + h by ring] at h2
  have e : g t + h / 6 * (g' t + 4 * g' (t + h / 2) + g' (t + h)) - g (t + h) =
      h / 6 * (g' (t + h) - 2 * g' (t + h / 2) + g' t) - (g (t + h) - g t - h * g' (t + h / 2)) := by ring
  rw [e]
  refine (abs_sub _ _).trans ?_
  rw [abs_mul, abs_of_nonneg (show 0 ≤ h / 6 by linarith)]
  have h3 : h / 6 * |g' (t + h) - 2 * g' (t + h / 2) + g' t| ≤ h / 6 * (S * (h / 2) ^ 2) := by gcongr
  have h4 : 0 ≤ S * h ^ 3 := by positivity
  nlinarith [h1, h3, h4]

/-! ### Convolutions -/

/-- `∫_0^t p(t-s) q(s) ds`. -/
noncomputable def conv (p q : ℝ → ℝ) (t : ℝ) : ℝ := ∫ s in (0 : ℝ)..t, p (t - s) * q s

theorem conv_integrable {T : ℝ} {p q : ℝ → ℝ} (hp : ContinuousOn p (Icc 0 T)) (hq : ContinuousOn q (Icc 0 T)) {t a b : ℝ} (ha : 0 ≤ a) (hab : a ≤ b)
    (hb : b ≤ t) (ht : t ≤ T) : IntervalIntegrable (fun s => p (t - s) * q s) MeasureTheory.volume a b := by
  refine ContinuousOn.intervalIntegrable ?_
  rw [Set.uIcc_of_le hab]
  refine ContinuousOn.mul (hp.comp (by fun_prop) fun s hs => ⟨by linarith [hs.2], by linarith [hs.1]⟩)
    (hq.mono (Icc_subset_Icc ha (by linarith)))

theorem conv_bound {T Mp Mq : ℝ} {p q : ℝ → ℝ} (hMp : 0 ≤ Mp) (hMq : 0 ≤ Mq) (hp : ∀ t ∈ Icc 0 T, |p t| ≤ Mp)
    (hq : ∀ t ∈ Icc 0 T, |q t| ≤ Mq) {t : ℝ} (ht : t ∈ Icc 0 T) : |conv p q t| ≤ T * (Mp * Mq) := by
  have hb : ∀ s ∈ Set.uIoc 0 t, ‖p (t - s) * q s‖ ≤ Mp * Mq := by
    intro s hs
    rw [Set.uIoc_of_le ht.1] at hs
    rw [Real.norm_eq_abs, abs_mul]
    exact mul_le_mul (hp _ ⟨by linarith [hs.2], by linarith [hs.1, ht.2]⟩) (hq _ ⟨hs.1.le, hs.2.trans ht.2⟩) (abs_nonneg _) hMp
  have := intervalIntegral.norm_integral_le_of_norm_le_const hb
  rw [sub_zero, abs_of_nonneg ht.1, Real.norm_eq_abs] at this
  have h2 : Mp * Mq * t ≤ T * (Mp * Mq) := by rw [mul_comm]; gcongr; exact ht.2
  exact this.trans h2

theorem conv_lipOn {T Mp Mq Lp Lq : ℝ} {p q : ℝ → ℝ} (hMp : 0 ≤ Mp) (hMq : 0 ≤ Mq) (hLp : 0 ≤ Lp) (hp : ∀ t ∈ Icc 0 T, |p t| ≤ Mp)
    (hq : ∀ t ∈ Icc 0 T, |q t| ≤ Mq) (hlp : LipOn T Lp p) (hlq : LipOn T Lq q) :
    LipOn T (T * (Lp * Mq) + Mp * Mq) (conv p q) := by
  have key : ∀ t t', 0 ≤ t → t ≤ t' → t' ≤ T → |conv p q t' - conv p q t| ≤ (T * (Lp * Mq) + Mp * Mq) * (t' - t) := by
    intro t t' h0 htt hT'
    have e : conv p q t' - conv p q t = (∫ s in (0 : ℝ)..t, (p (t' - s) * q s - p (t - s) * q s)) + ∫ s in t..t', p (t' - s) * q s := by
      rw [intervalIntegral.integral_sub (conv_integrable hlp.contOn hlq.contOn le_rfl h0 htt hT')
        (conv_integrable hlp.contOn hlq.contOn le_rfl h0 le_rfl (htt.trans hT')), conv, conv,
        ← intervalIntegral.integral_add_adjacent_intervals (conv_integrable hlp.contOn hlq.contOn le_rfl h0 htt hT')
          (conv_integrable hlp.contOn hlq.contOn h0 htt le_rfl hT')]
      ring
    have b1 : ∀ s ∈ Set.uIoc 0 t, ‖p (t' - s) * q s - p (t - s) * q s‖ ≤ Lp * (t' - t) * Mq := by
      intro s hs
      rw [Set.uIoc_of_le h0] at hs
      rw [Real.norm_eq_abs, ← sub_mul, abs_mul]
      refine mul_le_mul ?_ (hq _ ⟨hs.1.le, by linarith [hs.2]⟩) (abs_nonneg _) (mul_nonneg hLp (by linarith))
      refine (hlp _ ⟨by linarith [hs.2], by linarith [hs.1]⟩ _ ⟨by linarith [hs.2], by linarith [hs.1]⟩).trans ?_
      rw [show t' - s - (t - s) = t' - t by ring, abs_of_nonneg (show 0 ≤ t' - t by linarith)]
    have b2 : ∀ s ∈ Set.uIoc t t', ‖p (t' - s) * q s‖ ≤ Mp * Mq := by
      intro s hs
      rw [Set.uIoc_of_le htt] at hs
      rw [Real.norm_eq_abs, abs_mul]
      exact mul_le_mul (hp _ ⟨by linarith [hs.2], by linarith [hs.1]⟩) (hq _ ⟨by linarith [hs.1], by linarith [hs.2]⟩)
        (abs_nonneg _) hMp
    have c1 := intervalIntegral.norm_integral_le_of_norm_le_const b1
    have c2 := intervalIntegral.norm_integral_le_of_norm_le_const b2
    rw [Real.norm_eq_abs, sub_zero, abs_of_nonneg h0] at c1
    rw [Real.norm_eq_abs, abs_of_nonneg (show 0 ≤ t' - t by linarith)] at c2
    rw [e]
    refine (abs_add_le _ _).trans ?_
    have c3 : Lp * (t' - t) * Mq * t ≤ Lp * (t' - t) * Mq * T := by
      have : 0 ≤ Lp * (t' - t) * Mq := mul_nonneg (mul_nonneg hLp (by linarith)) hMq
      gcongr
      linarith
    nlinarith [c1, c2, c3]
  intro s hs t ht
  rcases le_total s t with c | c
  · rw [abs_sub_comm, abs_sub_comm s t, abs_of_nonneg (show 0 ≤ t - s by linarith)]
    exact key s t hs.1 c ht.2
  · rw [abs_of_nonneg (show 0 ≤ s - t by linarith)]
    exact key t s ht.1 c hs.2

theorem conv_secondDiff {T Mp Mq Lp Lq S : ℝ} {p q : ℝ → ℝ} (hT : 0 ≤ T) (hMp : 0 ≤ Mp) (hMq : 0 ≤ Mq) (hLp : 0 ≤ Lp)
    (hS : 0 ≤ S)
    (hp : ∀ t ∈ Icc 0 T, |p t| ≤ Mp) (hq : ∀ t ∈ Icc 0 T, |q t| ≤ Mq) (hlp : LipOn T Lp p) (hlq : LipOn T Lq q)
    (hS2 : SecondDiff T S p) : SecondDiff T (T * (S * Mq) + (Lp * Mq + Mp * Lq)) (conv p q) := by
  intro t u ht hu hTu
  have i1 := conv_integrable hlp.contOn hlq.contOn le_rfl ht (show t ≤ t + 2 * u by linarith) hTu
  have i2 := conv_integrable hlp.contOn hlq.contOn le_rfl ht (show t ≤ t + u by linarith) (show t + u ≤ T by linarith)
  have i3 := conv_integrable hlp.contOn hlq.contOn le_rfl ht le_rfl (show t ≤ T by linarith)
  have i4 := conv_integrable hlp.contOn hlq.contOn ht (show t ≤ t + u by linarith) (show t + u ≤ t + 2 * u by linarith) hTu
  have i5 := conv_integrable hlp.contOn hlq.contOn ht (show t ≤ t + u by linarith) le_rfl (show t + u ≤ T by linarith)
  have i6 := conv_integrable hlp.contOn hlq.contOn (show 0 ≤ t + u by linarith) (show t + u ≤ t + 2 * u by linarith) le_rfl hTu
  have s1 : conv p q (t + 2 * u) = (∫ s in (0 : ℝ)..t, p (t + 2 * u - s) * q s) + (∫ s in t..t + u, p (t + 2 * u - s) * q s) +
      ∫ s in (t + u)..(t + 2 * u), p (t + 2 * u - s) * q s := by
    rw [intervalIntegral.integral_add_adjacent_intervals i1 i4,
      intervalIntegral.integral_add_adjacent_intervals (i1.trans i4) i6, conv]
  have s2 : conv p q (t + u) = (∫ s in (0 : ℝ)..t, p (t + u - s) * q s) + (∫ s in t..t + u, p (t + u - s) * q s) := by
    rw [intervalIntegral.integral_add_adjacent_intervals i2 i5, conv]
  have s3 : (∫ s in (t + u)..(t + 2 * u), p (t + 2 * u - s) * q s) = ∫ s in t..t + u, p (t + u - s) * q (s + u) := by
    have := intervalIntegral.integral_comp_add_right (a := t) (b := t + u) (fun s => p (t + 2 * u - s) * q s) u
    rw [show t + u + u = t + 2 * u by ring] at this
    rw [← this]
    refine intervalIntegral.integral_congr fun s _ => ?_
    rw [show t + 2 * u - (s + u) = t + u - s by ring]
  have i7 : IntervalIntegrable (fun s => p (t + u - s) * q (s + u)) MeasureTheory.volume t (t + u) := by
    refine ContinuousOn.intervalIntegrable ?_
    rw [Set.uIcc_of_le (by linarith)]
    exact ContinuousOn.mul (hlp.contOn.comp (by fun_prop) fun s hs => ⟨by linarith [hs.2], by linarith [hs.1]⟩)
      (hlq.contOn.comp (by fun_prop) fun s hs => ⟨by linarith [hs.1], by linarith [hs.2]⟩)
  have e : conv p q (t + 2 * u) - 2 * conv p q (t + u) + conv p q t =
      (∫ s in (0 : ℝ)..t, (p (t + 2 * u - s) * q s - 2 * (p (t + u - s) * q s) + p (t - s) * q s)) +
      ∫ s in t..t + u, (p (t + 2 * u - s) * q s - 2 * (p (t + u - s) * q s) + p (t + u - s) * q (s + u)) := by
    rw [intervalIntegral.integral_add (i1.sub (i2.const_mul 2)) i3, intervalIntegral.integral_sub i1 (i2.const_mul 2),
      intervalIntegral.integral_add (i4.sub (i5.const_mul 2)) i7, intervalIntegral.integral_sub i4 (i5.const_mul 2),
      intervalIntegral.integral_const_mul, intervalIntegral.integral_const_mul, s1, s2, s3]
    unfold conv
    ring
  have b1 : ∀ s ∈ Set.uIoc 0 t, ‖p (t + 2 * u - s) * q s - 2 * (p (t + u - s) * q s) + p (t - s) * q s‖ ≤ S * u ^ 2 * Mq := by
    intro s hs
    rw [Set.uIoc_of_le ht] at hs
    have := hS2 (t - s) u (by linarith [hs.2]) hu (by linarith [hs.1])
    rw [show t - s + 2 * u = t + 2 * u - s by ring, show t - s + u = t + u - s by ring] at this
    rw [Real.norm_eq_abs, show p (t + 2 * u - s) * q s - 2 * (p (t + u - s) * q s) + p (t - s) * q s =
      (p (t + 2 * u - s) - 2 * p (t + u - s) + p (t - s)) * q s by ring, abs_mul]
    exact mul_le_mul this (hq _ ⟨hs.1.le, by linarith [hs.2]⟩) (abs_nonneg _) (by positivity)
  have b2 : ∀ s ∈ Set.uIoc t (t + u), ‖p (t + 2 * u - s) * q s - 2 * (p (t + u - s) * q s) + p (t + u - s) * q (s + u)‖ ≤
      Lp * u * Mq + Mp * (Lq * u) := by
    intro s hs
    rw [Set.uIoc_of_le (by linarith)] at hs
    rw [Real.norm_eq_abs, show p (t + 2 * u - s) * q s - 2 * (p (t + u - s) * q s) + p (t + u - s) * q (s + u) =
      (p (t + 2 * u - s) - p (t + u - s)) * q s + p (t + u - s) * (q (s + u) - q s) by ring]
    refine (abs_add_le _ _).trans (add_le_add ?_ ?_)
    · rw [abs_mul]
      refine mul_le_mul ?_ (hq _ ⟨by linarith [hs.1], by linarith [hs.2]⟩) (abs_nonneg _) (by positivity)
      refine (hlp _ ⟨by linarith [hs.2], by linarith [hs.1]⟩ _ ⟨by linarith [hs.2], by linarith [hs.1]⟩).trans ?_
      rw [show t + 2 * u - s - (t + u - s) = u by ring, abs_of_nonneg hu]
    · rw [abs_mul]
      refine mul_le_mul (hp _ ⟨by linarith [hs.2], by linarith [hs.1]⟩) ?_ (abs_nonneg _) hMp
      refine (hlq _ ⟨by linarith [hs.1], by linarith [hs.2]⟩ _ ⟨by linarith [hs.1], by linarith [hs.2]⟩).trans ?_
      rw [show s + u - s = u by ring, abs_of_nonneg hu]
  have c1 := intervalIntegral.norm_integral_le_of_norm_le_const b1
  have c2 := intervalIntegral.norm_integral_le_of_norm_le_const b2
  rw [Real.norm_eq_abs, sub_zero, abs_of_nonneg ht] at c1
  rw [Real.norm_eq_abs, show t + u - t = u by ring, abs_of_nonneg hu] at c2
  rw [e]
  refine (abs_add_le _ _).trans ?_
  have c3 : S * u ^ 2 * Mq * t ≤ S * u ^ 2 * Mq * T := by
    gcongr
    linarith
  nlinarith [c1, c2, c3]

/-! ### One Runge-Kutta step, and the accumulation of the errors -/

theorem rk4_error {W : Type*} [NormedAddCommGroup W] [NormedSpace ℝ W] {g : ℝ → W → W} {y X0 Xm X1 D0 Dm D1 : W}
    {h L δ c q r : ℝ} (hh : 0 ≤ h) (hh1 : h ≤ 1) (hL : 0 ≤ L) (hδ : 0 ≤ δ) (hc : 0 ≤ c)
    (g0 : ∀ z, ‖z - X0‖ ≤ r → ‖g 0 z - D0‖ ≤ L * ‖z - X0‖ + δ)
    (gm : ∀ z, ‖z - Xm‖ ≤ r → ‖g (1 / 2) z - Dm‖ ≤ L * ‖z - Xm‖ + δ)
    (g1 : ∀ z, ‖z - X1‖ ≤ r → ‖g 1 z - D1‖ ≤ L * ‖z - X1‖ + δ)
    (t1 : ‖X0 + (h / 2) • D0 - Xm‖ ≤ c) (t2 : ‖X0 + (h / 2) • Dm - Xm‖ ≤ c) (t3 : ‖X0 + h • Dm - X1‖ ≤ c)
    (t4 : ‖X0 + (h / 6) • (D0 + (4 : ℝ) • Dm + D1) - X1‖ ≤ q)
    (hr : (1 + L) ^ 3 * (‖y - X0‖ + δ + c) ≤ r) :
    ‖Spec.rk4 h g y - X1‖ ≤ ‖y - X0‖ + h * ((1 + L) ^ 4 * (‖y - X0‖ + δ + c)) + q := by
  obtain ⟨e, he⟩ : ∃ e : ℝ, e = ‖y - X0‖ := ⟨_, rfl⟩
  have he0 : 0 ≤ e := he ▸ norm_nonneg _
  obtain ⟨E, hE⟩ : ∃ E : ℝ, E = e + δ + c := ⟨_, rfl⟩
  rw [← he, ← hE] at hr ⊢
  have hE0 : 0 ≤ E := by rw [hE]; positivity
  have p1 : (1 : ℝ) ≤ 1 + L := by linarith
  have q1 : E ≤ (1 + L) ^ 3 * E := le_mul_of_one_le_left hE0 (one_le_pow₀ p1)
  have q2 : (1 + L) * E ≤ (1 + L) ^ 3 * E := by
    have := pow_le_pow_right₀ p1 (show 1 ≤ 3 by norm_num)
    rw [pow_one] at this
    gcongr
  have q3 : (1 + L) ^ 2 * E ≤ (1 + L) ^ 3 * E := by
    have := pow_le_pow_right₀ p1 (show 2 ≤ 3 by norm_num)
    gcongr
  -- a stage
  have stage : ∀ (a : ℝ) (k D X : W) (s : ℝ), 0 ≤ a → a ≤ 1 → ‖k - D‖ ≤ L * s + δ → ‖X0 + a • D - X‖ ≤ c → 0 ≤ s →
      ‖y + a • k - X‖ ≤ E + L * s := by
    intro a k D X s ha ha1 hk hX hs
    have : y + a • k - X = (y - X0) + a • (k - D) + (X0 + a • D - X) := by module
    rw [this]
    refine (norm_add₃_le).trans ?_
    rw [norm_smul, Real.norm_eq_abs, abs_of_nonneg ha, ← he]
    have h1 : a * ‖k - D‖ ≤ 1 * (L * s + δ) := mul_le_mul ha1 hk (norm_nonneg _) zero_le_one
    rw [hE]
    linarith
  obtain ⟨k1, hk1⟩ : ∃ k1, k1 = g 0 y := ⟨_, rfl⟩
  obtain ⟨k2, hk2⟩ : ∃ k2, k2 = g (1 / 2) (y + (h / 2) • k1) := ⟨_, rfl⟩
  obtain ⟨k3, hk3⟩ : ∃ k3, k3 = g (1 / 2) (y + (h / 2) • k2) := ⟨_, rfl⟩
  obtain ⟨k4, hk4⟩ : ∃ k4, k4 = g 1 (y + h • k3) := ⟨_, rfl⟩
  have hrk : Spec.rk4 h g y = y + (h / 6) • (k1 + (2 : ℝ) • k2 + (2 : ℝ) • k3 + k4) := by
    rw [hk4, hk3, hk2, hk1]
    rfl
  have eE : e ≤ E := by rw [hE]; linarith
  have b1 : ‖k1 - D0‖ ≤ L * E + δ := by
    rw [hk1]
    refine (g0 y (he ▸ eE.trans (q1.trans hr))).trans ?_
    rw [← he]
    gcongr
  have s2 := stage (h / 2) k1 D0 Xm E (by linarith) (by linarith) b1 t1 hE0
  have s2' : ‖y + (h / 2) • k1 - Xm‖ ≤ (1 + L) * E := by linarith
  have b2 : ‖k2 - Dm‖ ≤ L * ((1 + L) * E) + δ := by
    rw [hk2]
    refine (gm _ (s2'.trans (q2.trans hr))).trans ?_
    gcongr
  have s3 := stage (h / 2) k2 Dm Xm _ (by linarith) (by linarith) b2 t2 (by positivity)
  have s3' : ‖y + (h / 2) • k2 - Xm‖ ≤ (1 + L) ^ 2 * E := by
    have : 0 ≤ L * E := by positivity
    nlinarith [s3]
  have b3 : ‖k3 - Dm‖ ≤ L * ((1 + L) ^ 2 * E) + δ := by
    rw [hk3]
    refine (gm _ (s3'.trans (q3.trans hr))).trans ?_
    gcongr
  have s4 := stage h k3 Dm X1 _ hh hh1 b3 t3 (by positivity)
  have s4' : ‖y + h • k3 - X1‖ ≤ (1 + L) ^ 3 * E := by
    have h1 : 0 ≤ L * E := by positivity
    have h2 : 0 ≤ L ^ 2 * E := by positivity
    nlinarith [s4]
  have b4 : ‖k4 - D1‖ ≤ L * ((1 + L) ^ 3 * E) + δ := by
    rw [hk4]
    refine (g1 _ (s4'.trans hr)).trans ?_
    gcongr
  -- all the slopes are within the same bound
  have hδE : δ ≤ (1 + L) ^ 3 * E := le_trans (by rw [hE]; linarith) q1
  have hB : ∀ s : ℝ, s ≤ (1 + L) ^ 3 * E → L * s + δ ≤ (1 + L) ^ 4 * E := by
    intro s hs
    have h1 : L * s ≤ L * ((1 + L) ^ 3 * E) := by gcongr
    have h2 : (1 + L) ^ 4 * E = L * ((1 + L) ^ 3 * E) + (1 + L) ^ 3 * E := by ring
    linarith
  obtain ⟨B, hBd⟩ : ∃ B : ℝ, B = (1 + L) ^ 4 * E := ⟨_, rfl⟩
  rw [← hBd] at hB ⊢
  have f1 := b1.trans (hB _ q1)
  have f2 := b2.trans (hB _ q2)
  have f3 := b3.trans (hB _ q3)
  have f4 := b4.trans (hB _ le_rfl)
  have : Spec.rk4 h g y - X1 = (y - X0) + (h / 6) • ((k1 - D0) + (2 : ℝ) • (k2 - Dm) + (2 : ℝ) • (k3 - Dm) + (k4 - D1)) +
      (X0 + (h / 6) • (D0 + (4 : ℝ) • Dm + D1) - X1) := by
    rw [hrk]
    module
  rw [this]
  refine (norm_add₃_le).trans ?_
  rw [← he, norm_smul, Real.norm_eq_abs, abs_of_nonneg (show 0 ≤ h / 6 by linarith)]
  have f5 : ‖(k1 - D0) + (2 : ℝ) • (k2 - Dm) + (2 : ℝ) • (k3 - Dm) + (k4 - D1)‖ ≤ 6 * B := by
    refine (norm_add_le _ _).trans ?_
    refine (add_le_add_left (norm_add₃_le) _).trans ?_
    rw [norm_smul, norm_smul, Real.norm_eq_abs, abs_of_pos (by norm_num : (0 : ℝ) < 2)]
    linarith
  have f6 : h / 6 * ‖(k1 - D0) + (2 : ℝ) • (k2 - Dm) + (2 : ℝ) • (k3 - Dm) + (k4 - D1)‖ ≤ h / 6 * (6 * B) := by gcongr
  linarith

/-- Accumulation of the errors of the steps, as long as they stay below `ρ`. -/
theorem error_growth {e : ℕ → ℝ} {N : ℕ} {c β γ ρ : ℝ} (hc : 0 ≤ c) (hβ : 0 ≤ β) (hγ : 0 ≤ γ) (e0 : e 0 ≤ 0)
    (hρ : (β + N * γ) * Real.exp (c * N) ≤ ρ)
    (first : 0 < N → (∀ j ≤ 0, e j ≤ ρ) → e 1 ≤ β)
    (step : ∀ n, 0 < n → n < N → ∀ M, (∀ j ≤ n, e j ≤ M) → M ≤ ρ → e (n + 1) ≤ M * (1 + c) + γ) :
    ∀ n ≤ N, e n ≤ (β + N * γ) * Real.exp (c * N) := by
  have hb : ∀ n ≤ N, (β + n * γ) * (1 + c) ^ n ≤ (β + N * γ) * Real.exp (c * N) := by
    intro n hn
    have h1 : (n : ℝ) ≤ N := by exact_mod_cast hn
    have h2 : (1 + c) ^ n ≤ Real.exp (c * N) := by
      have : (1 + c) ≤ Real.exp c := by linarith [Real.add_one_le_exp c]
      calc (1 + c) ^ n ≤ (1 + c) ^ N := pow_le_pow_right₀ (by linarith) hn
        _ ≤ Real.exp c ^ N := by gcongr
        _ = Real.exp (c * N) := by rw [← Real.exp_nat_mul, mul_comm]
    gcongr
  have hmono : ∀ j n : ℕ, j ≤ n → (β + j * γ) * (1 + c) ^ j ≤ (β + n * γ) * (1 + c) ^ n := by
    intro j n hj
    have h1 : (j : ℝ) ≤ n := by exact_mod_cast hj
    have h2 : (1 + c) ^ j ≤ (1 + c) ^ n := pow_le_pow_right₀ (by linarith) hj
    gcongr
  have key : ∀ n ≤ N, e n ≤ (β + n * γ) * (1 + c) ^ n := by
    intro n
    induction n using Nat.strong_induction_on with
    | _ n ih =>
      intro hn
      rcases n with _ | n
      · exact e0.trans (by simpa using hβ)
      rcases Nat.eq_zero_or_pos n with rfl | hn0
      · have := first hn fun j hj => (ih j (by omega) (by omega)).trans ((hb j (by omega)).trans hρ)
        have h2 : β ≤ (β + γ) * (1 + c) := by nlinarith
        simpa using this.trans h2
      · have h1 := step n hn0 hn ((β + n * γ) * (1 + c) ^ n) (fun j hj => (ih j (by omega) (by omega)).trans (hmono j n hj))
          ((hb n (by omega)).trans hρ)
        refine h1.trans ?_
        have h2 : γ ≤ γ * (1 + c) ^ (n + 1) := le_mul_of_one_le_right hγ (one_le_pow₀ (by linarith))
        have h3 : (β + (n + 1 : ℕ) * γ) * (1 + c) ^ (n + 1) = (β + n * γ) * (1 + c) ^ n * (1 + c) + γ * (1 + c) ^ (n + 1) := by
          push_cast
          ring
        rw [h3]
        linarith
  exact fun n hn => (key n hn).trans (hb n hn)

end Verif
