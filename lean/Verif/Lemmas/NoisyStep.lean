import Verif.Lemmas.GleStep
import Verif.Spec.NoisyGle

/-!
# Errors of the memory force and of one step, with noise and with errors in the model
-/

namespace Verif

open Finset Set

/-- The trapezoidal rule for a Lipschitz function. -/
theorem trapzRule_lip {T L : ℝ} {g : ℝ → ℝ} (hl : LipOn T L g) {h : ℝ} (hh : 0 ≤ h) (n : ℕ) (hn : n * h ≤ T) :
    |Spec.trapzRule h (fun j => g (j * h)) n - ∫ s in (0 : ℝ)..(n * h), g s| ≤ n * h * (L * h) := by
  induction n with
  | zero => simp [Spec.trapzRule]
  | succ n ih =>
    have hc : ((n + 1 : ℕ) : ℝ) * h = n * h + h := by push_cast; ring
    have hn0 : 0 ≤ (n : ℝ) * h := by positivity
    have hnT : (n : ℝ) * h ≤ T := by rw [hc] at hn; linarith
    have ih := ih hnT
    have hsub : Icc (n * h) (n * h + h) ⊆ Icc 0 T := Icc_subset_Icc hn0 (hc ▸ hn)
    have i1 : IntervalIntegrable g MeasureTheory.volume 0 (n * h) :=
      (hl.contOn.mono (by rw [Set.uIcc_of_le hn0]; exact Icc_subset_Icc le_rfl hnT)).intervalIntegrable
    have i2 : IntervalIntegrable g MeasureTheory.volume (n * h) (n * h + h) :=
      (hl.contOn.mono (by rw [Set.uIcc_of_le (by linarith)]; exact hsub)).intervalIntegrable
    rw [hc, ← intervalIntegral.integral_add_adjacent_intervals i1 i2]
    have e1 : Spec.trapzRule h (fun j => g (j * h)) (n + 1) =
        Spec.trapzRule h (fun j => g (j * h)) n + h / 2 * (g (n * h) + g (n * h + h)) := by
      unfold Spec.trapzRule
      rw [Finset.sum_range_succ, smul_eq_mul]
      beta_reduce
      rw [hc]
    have e2 : (∫ s in (n * h)..(n * h + h), (1 / 2 * (g (n * h) + g (n * h + h)) - g s)) =
        h / 2 * (g (n * h) + g (n * h + h)) - ∫ s in (n * h)..(n * h + h), g s := by
      rw [intervalIntegral.integral_sub (by simp) i2, intervalIntegral.integral_const, smul_eq_mul]
      ring
    have hb : ∀ s ∈ Set.uIoc (n * h) (n * h + h), ‖1 / 2 * (g (n * h) + g (n * h + h)) - g s‖ ≤ L * h := by
      intro s hs
      rw [Set.uIoc_of_le (by linarith)] at hs
      have hs' : s ∈ Icc 0 T := hsub ⟨hs.1.le, hs.2⟩
      have h1 := hl (n * h) ⟨hn0, hnT⟩ s hs'
      have h2 := hl (n * h + h) (hsub ⟨by linarith, le_rfl⟩) s hs'
      rw [abs_of_nonpos (by linarith [hs.1]) (a := n * h - s)] at h1
      rw [abs_of_nonneg (by linarith [hs.2]) (a := n * h + h - s)] at h2
      rw [Real.norm_eq_abs, show 1 / 2 * (g (n * h) + g (n * h + h)) - g s =
        1 / 2 * (g (n * h) - g s) + 1 / 2 * (g (n * h + h) - g s) by ring]
      refine (abs_add_le _ _).trans ?_
      rw [abs_mul, abs_mul, abs_of_pos (by norm_num : (0 : ℝ) < 1 / 2)]
      have h3 : 0 ≤ L * h := by
        have := (abs_nonneg _).trans (hl (n * h) ⟨hn0, hnT⟩ (n * h + h) (hsub ⟨by linarith, le_rfl⟩))
        rwa [show (n : ℝ) * h - (n * h + h) = -h by ring, abs_neg, abs_of_nonneg hh] at this
      nlinarith
    have h3 := intervalIntegral.norm_integral_le_of_norm_le_const hb
    rw [e2, Real.norm_eq_abs, show (n : ℝ) * h + h - n * h = h by ring, abs_of_nonneg hh] at h3
    rw [e1]
    calc _ = |(Spec.trapzRule h (fun j => g (j * h)) n - ∫ s in (0 : ℝ)..(n * h), g s) +
          (h / 2 * (g (n * h) + g (n * h + h)) - ∫ s in (n * h)..(n * h + h), g s)| := by congr 1; ring
      _ ≤ n * h * (L * h) + L * h * h := (abs_add_le _ _).trans (add_le_add ih h3)
      _ = _ := by ring

/-- Accumulation of errors. -/
theorem error_growth_one {e : ℕ → ℝ} {N : ℕ} {c β γ ρ : ℝ} (hc : 0 ≤ c) (hβ : 0 ≤ β) (hγ : 0 ≤ γ) (e0 : e 0 ≤ β)
    (hρ : (β + N * γ) * Real.exp (c * N) ≤ ρ)
    (step : ∀ n, n < N → ∀ M, β ≤ M → (∀ j ≤ n, e j ≤ M) → M ≤ ρ → e (n + 1) ≤ M * (1 + c) + γ) :
    ∀ n ≤ N, e n ≤ (β + N * γ) * Real.exp (c * N) := by
  have hb : ∀ n ≤ N, (β + n * γ) * (1 + c) ^ n ≤ (β + N * γ) * Real.exp (c * N) := by
    intro n hn
    have h1 : (n : ℝ) ≤ N := by exact_mod_cast hn
    have h2 : (1 + c) ^ n ≤ Real.exp (c * N) := by
      have : (1 + c) ≤ Real.exp c := by linarith [Real.add_one_le_exp c]
      calc (1 + c) ^ n ≤ (1 + c) ^ N := pow_le_pow_right₀ (by linarith) hn
        _ ≤ Real.exp c ^ N := by gcongr
        _ = Real.exp (c * N) := by rw [← Real.exp_nat_mul, mul_comm]
    gcongr
  have hmono : ∀ j n : ℕ, j ≤ n → (β + j * γ) * (1 + c) ^ j ≤ (β + n * γ) * (1 + c) ^ n := by
    intro j n hj
    have h1 : (j : ℝ) ≤ n := by exact_mod_cast hj
    have h2 : (1 + c) ^ j ≤ (1 + c) ^ n := pow_le_pow_right₀ (by linarith) hj
    gcongr
  have key : ∀ n ≤ N, e n ≤ (β + n * γ) * (1 + c) ^ n := by
    intro n
    induction n using Nat.strong_induction_on with
    | _ n ih =>
      intro hn
      rcases n with _ | n
      · simpa using e0
      have h1 := step n hn ((β + n * γ) * (1 + c) ^ n) (by simpa using hmono 0 n (Nat.zero_le _))
        (fun j hj => (ih j (by omega) (by omega)).trans (hmono j n hj)) ((hb n (by omega)).trans hρ)
      refine h1.trans ?_
      have h2 : γ ≤ γ * (1 + c) ^ (n + 1) := le_mul_of_one_le_right hγ (one_le_pow₀ (by linarith))
      have h3 : (β + (n + 1 : ℕ) * γ) * (1 + c) ^ (n + 1) = (β + n * γ) * (1 + c) ^ n * (1 + c) + γ * (1 + c) ^ (n + 1) := by
        push_cast
        ring
      rw [h3]
      linarith
  exact fun n hn => (key n hn).trans (hb n hn)

section
variable {d b : ℕ}

/-- What is used of a solution of the equation with noise. -/
structure NoisyRegular (T R L M : ℝ) (F : (Fin d → ℝ) → Fin d → ℝ) (E : (Fin d → ℝ) → (Fin d → ℝ) → Fin b → ℝ)
    (κ : ℝ → Matrix (Fin b) (Fin d) ℝ) (ξ x v : ℝ → Fin d → ℝ) : Prop where
  xR : ∀ t ∈ Icc 0 T, ∀ i, |x t i| ≤ R
  vR : ∀ t ∈ Icc 0 T, ∀ i, |v t i| ≤ R
  vL : ∀ i, LipOn T L (fun t => v t i)
  aL : ∀ i, LipOn T L (fun t => F (x t) i - memForce E κ x v t i + ξ t i)
  mL : ∀ i, LipOn T L (fun t => memForce E κ x v t i)
  ξL : ∀ i, LipOn T L (fun t => ξ t i)
  EM : ∀ k, ∀ t ∈ Icc 0 T, |E (x t) (v t) k| ≤ M
  EL : ∀ k, LipOn T L (fun t => E (x t) (v t) k)
  κM : ∀ t ∈ Icc 0 T, ∀ k i, |κ t k i| ≤ M
  κL : ∀ k i, LipOn T L (fun t => κ t k i)

theorem LipOn.add {T L L' : ℝ} {g g' : ℝ → ℝ} (h : LipOn T L g) (h' : LipOn T L' g') :
    LipOn T (L + L') (fun t => g t + g' t) := by
  intro s hs t ht
  have : g s + g' s - (g t + g' t) = (g s - g t) + (g' s - g' t) := by ring
  rw [this, add_mul]
  exact (abs_add_le _ _).trans (add_le_add (h s hs t ht) (h' s hs t ht))

set_option maxHeartbeats 1000000 in
theorem noisy_regular {T : ℝ} (hT : 0 ≤ T) {F : (Fin d → ℝ) → Fin d → ℝ} {E : (Fin d → ℝ) → (Fin d → ℝ) → Fin b → ℝ}
    {κ : ℝ → Matrix (Fin b) (Fin d) ℝ} {ξ x v : ℝ → Fin d → ℝ} (h : Spec.NoisyGle T F E κ ξ x v) (hF : ContDiff ℝ 1 F)
    (hE : ContDiff ℝ 1 (fun y : (Fin d → ℝ) × (Fin d → ℝ) => E y.1 y.2)) (hκ : Spec.Lip T κ)
    {Lξ : ℝ} (hLξ0 : 0 ≤ Lξ) (hξ : ∀ i, LipOn T Lξ (fun t => ξ t i)) :
    ∃ R L M, 0 ≤ R ∧ 0 ≤ L ∧ 0 ≤ M ∧ NoisyRegular T R L M F E κ ξ x v := by
  have hdx : ∀ t ∈ Icc 0 T, HasDerivWithinAt x (v t) (Icc 0 T) t := fun t ht => hasDerivWithinAt_pi.2 (h.pos t ht)
  have hdv : ∀ t ∈ Icc 0 T, HasDerivWithinAt v (fun i => F (x t) i - memForce E κ x v t i + ξ t i) (Icc 0 T) t :=
    fun t ht => hasDerivWithinAt_pi.2 (h.vel t ht)
  have cx : ContinuousOn x (Icc 0 T) := fun t ht => (hdx t ht).continuousWithinAt
  have cv : ContinuousOn v (Icc 0 T) := fun t ht => (hdv t ht).continuousWithinAt
  have cE : ∀ k, ContinuousOn (fun t => E (x t) (v t) k) (Icc 0 T) := fun k =>
    ((continuous_apply k).comp hE.continuous).comp_continuousOn (cx.prodMk cv)
  have cF : ∀ i, ContinuousOn (fun t => F (x t) i) (Icc 0 T) := fun i =>
    ((continuous_apply i).comp hF.continuous).comp_continuousOn cx
  obtain ⟨Lκ, hLκ0, hLκ⟩ : ∃ L, 0 ≤ L ∧ ∀ p : Fin b × Fin d, LipOn T L (fun s => κ s p.1 p.2) := by
    obtain ⟨L, hL⟩ := hκ
    exact ⟨|L|, abs_nonneg _, fun p s hs t ht => (hL s hs t ht p.1 p.2).trans (by gcongr; exact le_abs_self L)⟩
  have cκ : ∀ k i, ContinuousOn (fun t => κ t k i) (Icc 0 T) := fun k i => (hLκ (k, i)).contOn
  obtain ⟨Mκ, hMκ0, hMκ⟩ := unif_const (P := fun (p : Fin b × Fin d) M => ∀ t ∈ Icc 0 T, |κ t p.1 p.2| ≤ M)
    (fun p a b hab hP t ht => (hP t ht).trans hab) (fun p => bound_of_cont (cκ p.1 p.2))
  obtain ⟨ME, hME0, hME⟩ := unif_const (P := fun (k : Fin b) M => ∀ t ∈ Icc 0 T, |E (x t) (v t) k| ≤ M)
    (fun p a b hab hP t ht => (hP t ht).trans hab) (fun k => bound_of_cont (cE k))
  obtain ⟨MF, hMF0, hMF⟩ := unif_const (P := fun (i : Fin d) M => ∀ t ∈ Icc 0 T, |F (x t) i| ≤ M)
    (fun p a b hab hP t ht => (hP t ht).trans hab) (fun k => bound_of_cont (cF k))
  obtain ⟨Mξ, hMξ0, hMξ⟩ := unif_const (P := fun (i : Fin d) M => ∀ t ∈ Icc 0 T, |ξ t i| ≤ M)
    (fun p a b hab hP t ht => (hP t ht).trans hab) (fun k => bound_of_cont (hξ k).contOn)
  obtain ⟨Mx, hMx0, hMx⟩ := unif_const (P := fun (i : Fin d) M => ∀ t ∈ Icc 0 T, |x t i| ≤ M)
    (fun p a b hab hP t ht => (hP t ht).trans hab) (fun k => bound_of_cont ((continuous_apply k).comp_continuousOn cx))
  obtain ⟨Mv, hMv0, hMv⟩ := unif_const (P := fun (i : Fin d) M => ∀ t ∈ Icc 0 T, |v t i| ≤ M)
    (fun p a b hab hP t ht => (hP t ht).trans hab) (fun k => bound_of_cont ((continuous_apply k).comp_continuousOn cv))
  have hm : ∀ t ∈ Icc 0 T, ∀ i, |memForce E κ x v t i| ≤ b * (T * (ME * Mκ)) := by
    intro t ht i
    rw [memForce_eq cE cκ ht]
    refine (Finset.abs_sum_le_sum_abs _ _).trans ?_
    refine (Finset.sum_le_card_nsmul _ _ (T * (ME * Mκ)) fun k _ => ?_).trans (by simp)
    exact conv_bound hME0 hMκ0 (hME k) (hMκ (k, i)) ht
  have ha : ∀ t ∈ Icc 0 T, ∀ i, |F (x t) i - memForce E κ x v t i + ξ t i| ≤ MF + b * (T * (ME * Mκ)) + Mξ := fun t ht i =>
    (abs_add_le _ _).trans (add_le_add ((abs_sub _ _).trans (add_le_add (hMF i t ht) (hm t ht i))) (hMξ i t ht))
  obtain ⟨Ma, hMa⟩ : ∃ Ma, Ma = MF + b * (T * (ME * Mκ)) + Mξ := ⟨_, rfl⟩
  rw [← hMa] at ha
  have hMa0 : 0 ≤ Ma := by rw [hMa]; positivity
  have lx : ∀ i, LipOn T Mv (fun t => x t i) := fun i => lipOn_of_deriv (fun t ht => h.pos t ht i) (hMv i)
  have lv : ∀ i, LipOn T Ma (fun t => v t i) := fun i => lipOn_of_deriv (fun t ht => h.vel t ht i) (fun t ht => ha t ht i)
  obtain ⟨R, hR⟩ : ∃ R, R = Mx + Mv + Ma := ⟨_, rfl⟩
  have hR0 : 0 ≤ R := by rw [hR]; positivity
  have nx : ∀ t ∈ Icc 0 T, ‖x t‖ ≤ R := fun t ht => (pi_norm_le_iff_of_nonneg hR0).2 fun i =>
    (hMx i t ht).trans (by rw [hR]; linarith)
  have nv : ∀ t ∈ Icc 0 T, ‖v t‖ ≤ R := fun t ht => (pi_norm_le_iff_of_nonneg hR0).2 fun i =>
    (hMv i t ht).trans (by rw [hR]; linarith)
  have dx : ∀ s ∈ Icc 0 T, ∀ t ∈ Icc 0 T, ‖x s - x t‖ ≤ R * |s - t| := fun s hs t ht =>
    (pi_norm_le_iff_of_nonneg (by positivity)).2 fun i => ((lx i).mono (by rw [hR]; linarith)) s hs t ht
  have dv : ∀ s ∈ Icc 0 T, ∀ t ∈ Icc 0 T, ‖v s - v t‖ ≤ R * |s - t| := fun s hs t ht =>
    (pi_norm_le_iff_of_nonneg (by positivity)).2 fun i => ((lv i).mono (by rw [hR]; linarith)) s hs t ht
  have dX : ∀ s ∈ Icc 0 T, ∀ t ∈ Icc 0 T, ‖(x s, v s) - (x t, v t)‖ ≤ R * |s - t| := fun s hs t ht =>
    norm_prod_le_iff.2 ⟨dx s hs t ht, dv s hs t ht⟩
  obtain ⟨LE, hLE0, hLE⟩ := lip_ball hE R
  have lE : ∀ k, LipOn T (LE * R) (fun t => E (x t) (v t) k) := by
    intro k s hs t ht
    have h1 := hLE (x s, v s) (x t, v t) (norm_prod_le_iff.2 ⟨nx s hs, nv s hs⟩) (norm_prod_le_iff.2 ⟨nx t ht, nv t ht⟩)
    have h2 := norm_le_pi_norm (E (x s) (v s) - E (x t) (v t)) k
    rw [Pi.sub_apply, Real.norm_eq_abs] at h2
    refine h2.trans (h1.trans ?_)
    rw [mul_assoc]
    exact mul_le_mul_of_nonneg_left (dX s hs t ht) hLE0
  obtain ⟨LF, hLF0, hLF⟩ := lip_ball hF R
  have lF : ∀ i, LipOn T (LF * R) (fun t => F (x t) i) := by
    intro i s hs t ht
    have h1 := hLF (x s) (x t) (nx s hs) (nx t ht)
    have h2 := norm_le_pi_norm (F (x s) - F (x t)) i
    rw [Pi.sub_apply, Real.norm_eq_abs] at h2
    refine h2.trans (h1.trans ?_)
    rw [mul_assoc]
    exact mul_le_mul_of_nonneg_left (dx s hs t ht) hLF0
  have lm : ∀ i, LipOn T (∑ _k : Fin b, (T * (LE * R * Mκ) + ME * Mκ)) (fun t => memForce E κ x v t i) := fun i =>
    (LipOn.sum fun k => conv_lipOn hME0 hMκ0 (by positivity) (hME k) (hMκ (k, i)) (lE k) (hLκ (k, i))).congr
      fun t ht => memForce_eq cE cκ ht i
  obtain ⟨Cm, hCm⟩ : ∃ Cm : ℝ, Cm = ∑ _k : Fin b, (T * (LE * R * Mκ) + ME * Mκ) := ⟨_, rfl⟩
  have hCm0 : 0 ≤ Cm := by rw [hCm]; positivity
  rw [← hCm] at lm
  have la : ∀ i, LipOn T (LF * R + Cm + Lξ) (fun t => F (x t) i - memForce E κ x v t i + ξ t i) := fun i =>
    ((lF i).sub (lm i)).add (hξ i)
  have p1 : 0 ≤ LF * R := by positivity
  have p2 : 0 ≤ LE * R := by positivity
  refine ⟨R, LF * R + Cm + Lξ + Ma + LE * R + Lκ, ME + Mκ, hR0, by positivity, by positivity, ?_⟩
  constructor
  · exact fun t ht i => (hMx i t ht).trans (by rw [hR]; linarith)
  · exact fun t ht i => (hMv i t ht).trans (by rw [hR]; linarith)
  · exact fun i => (lv i).mono (by linarith)
  · exact fun i => (la i).mono (by linarith)
  · exact fun i => (lm i).mono (by linarith)
  · exact fun i => (hξ i).mono (by linarith)
  · exact fun k t ht => (hME k t ht).trans (by linarith)
  · exact fun k => (lE k).mono (by linarith)
  · exact fun t ht k i => (hMκ (k, i) t ht).trans (by linarith)
  · exact fun k i => (hLκ (k, i)).mono (by linarith)

/-- The trapezoidal memory force along the exact solution. -/
theorem mem_consistent_lip {T R L M : ℝ} {F : (Fin d → ℝ) → Fin d → ℝ} {E : (Fin d → ℝ) → (Fin d → ℝ) → Fin b → ℝ}
    {κ : ℝ → Matrix (Fin b) (Fin d) ℝ} {ξ x v : ℝ → Fin d → ℝ} (hr : NoisyRegular T R L M F E κ ξ x v) (hL : 0 ≤ L) (hM : 0 ≤ M)
    {h : ℝ} (hh : 0 ≤ h) {n : ℕ} (hn : n * h ≤ T) :
    ‖Spec.trapzRule h (fun j => Matrix.vecMul (E (x ((n - j : ℕ) * h)) (v ((n - j : ℕ) * h))) (κ (j * h))) n -
        memForce E κ x v (n * h)‖ ≤ T * (b * (2 * (L * M))) * h := by
  have hT : 0 ≤ T := le_trans (by positivity) hn
  refine (pi_norm_le_iff_of_nonneg (by positivity)).2 fun i => ?_
  have hl : LipOn (n * h) (b * (2 * (L * M))) (fun s => Matrix.vecMul (E (x (n * h - s)) (v (n * h - s))) (κ s) i) := by
    intro s hs t ht
    have ms : s ∈ Icc 0 T := ⟨hs.1, hs.2.trans hn⟩
    have mt : t ∈ Icc 0 T := ⟨ht.1, ht.2.trans hn⟩
    have ms' : n * h - s ∈ Icc 0 T := ⟨by linarith [hs.2], by linarith [hs.1]⟩
    have mt' : n * h - t ∈ Icc 0 T := ⟨by linarith [ht.2], by linarith [ht.1]⟩
    simp only [Matrix.vecMul, dotProduct]
    rw [← Finset.sum_sub_distrib]
    refine (Finset.abs_sum_le_sum_abs _ _).trans ?_
    refine (Finset.sum_le_card_nsmul _ _ (2 * (L * M) * |s - t|) fun k _ => ?_).trans (by simp [mul_assoc])
    have h1 := hr.EL k _ ms' _ mt'
    rw [show (n : ℝ) * h - s - (n * h - t) = t - s by ring, abs_sub_comm] at h1
    have h2 := hr.κL k i _ ms _ mt
    have h3 := hr.κM _ ms k i
    have h4 := hr.EM k _ mt'
    rw [abs_sub_comm t s] at h1
    rw [show E (x (n * h - s)) (v (n * h - s)) k * κ s k i - E (x (n * h - t)) (v (n * h - t)) k * κ t k i =
      (E (x (n * h - s)) (v (n * h - s)) k - E (x (n * h - t)) (v (n * h - t)) k) * κ s k i +
        E (x (n * h - t)) (v (n * h - t)) k * (κ s k i - κ t k i) by ring]
    refine (abs_add_le _ _).trans ?_
    rw [abs_mul, abs_mul]
    rw [abs_sub_comm] at h1
    have b1 := mul_le_mul h1 h3 (abs_nonneg _) (by positivity)
    have b2 := mul_le_mul h4 h2 (abs_nonneg _) hM
    linarith
  have h1 := trapzRule_lip hl hh n le_rfl
  rw [Real.norm_eq_abs]
  refine le_trans (le_of_eq ?_) (h1.trans ?_)
  · congr 1
    rw [Pi.sub_apply]
    congr 1
    unfold Spec.trapzRule
    rw [Finset.sum_apply]
    refine Finset.sum_congr rfl fun j hj => ?_
    have hj := Finset.mem_range.1 hj
    have c1 : ((n - j : ℕ) : ℝ) * h = n * h - j * h := by rw [Nat.cast_sub hj.le]; ring
    have c2 : ((n - (j + 1) : ℕ) : ℝ) * h = n * h - (j + 1 : ℕ) * h := by rw [Nat.cast_sub hj]; ring
    rw [Pi.smul_apply, Pi.add_apply]
    beta_reduce
    rw [c1, c2]
  · have : (n : ℝ) * h * (b * (2 * (L * M)) * h) ≤ T * (b * (2 * (L * M)) * h) := by gcongr
    linarith

/-- The memory force computed from a history and a kernel with errors. -/
theorem mem_error_near {T R L M : ℝ} {F : (Fin d → ℝ) → Fin d → ℝ} {E : (Fin d → ℝ) → (Fin d → ℝ) → Fin b → ℝ}
    {κ : ℝ → Matrix (Fin b) (Fin d) ℝ} {ξ x v : ℝ → Fin d → ℝ} (hr : NoisyRegular T R L M F E κ ξ x v) (hL : 0 ≤ L) (hM : 0 ≤ M)
    {h ε η : ℝ} (hh : 0 < h) {len : ℕ} (hlen : 1 ≤ len) {ker : ℕ → Matrix (Fin b) (Fin d) ℝ} (hε : 0 ≤ ε)
    (hker : ∀ j < len, j * h ≤ T → ∀ k i, |ker j k i - κ (j * h) k i| ≤ ε)
    (hcov : T ≤ (len - 1 : ℕ) * h ∨ ∀ s ∈ Icc 0 T, (len - 1 : ℕ) * h ≤ s → ∀ k i, |κ s k i| ≤ ε)
    {n : ℕ} (hn : n * h ≤ T) {hist : ℕ → Fin b → ℝ}
    (hist_err : ∀ j ≤ n, ‖hist j - E (x (j * h)) (v (j * h))‖ ≤ η) :
    ‖Spec.memory h len ker hist n - memForce E κ x v (n * h)‖ ≤
      T * (b * M * η + b * ε * (M + η)) + T * (b * ε * M) + T * (b * (2 * (L * M))) * h := by
  have hmono : ∀ j ≤ n, (j : ℝ) * h ≤ n * h := fun j hj => by
    have : (j : ℝ) ≤ n := by exact_mod_cast hj
    gcongr
  have hη : 0 ≤ η := (norm_nonneg _).trans (hist_err 0 (Nat.zero_le _))
  have hT : 0 ≤ T := le_trans (by positivity) hn
  have nE : ∀ j ≤ n, ‖E (x (j * h)) (v (j * h))‖ ≤ M := fun j hj =>
    (pi_norm_le_iff_of_nonneg hM).2 fun k => hr.EM k _ ⟨by positivity, (hmono j hj).trans hn⟩
  have nH : ∀ j ≤ n, ‖hist j‖ ≤ M + η := fun j hj => by
    have := norm_add_le (hist j - E (x (j * h)) (v (j * h))) (E (x (j * h)) (v (j * h)))
    rw [sub_add_cancel] at this
    linarith [hist_err j hj, nE j hj]
  obtain ⟨m, hm⟩ : ∃ m, m = min n (len - 1) := ⟨_, rfl⟩
  obtain ⟨P, hP⟩ : ∃ P : ℕ → Fin d → ℝ, P = fun j => Matrix.vecMul (E (x ((n - j : ℕ) * h)) (v ((n - j : ℕ) * h))) (κ (j * h)) := ⟨_, rfl⟩
  have hcons := mem_consistent_lip hr hL hM hh.le hn
  rw [← hP] at hcons
  have hmem : Spec.memory h len ker hist n = Spec.trapzRule h (fun j => Matrix.vecMul (hist (n - j)) (ker j)) m := by
    rw [hm]; rfl
  have e2 : Spec.memory h len ker hist n - memForce E κ x v (n * h) =
      Spec.trapzRule h (fun j => Matrix.vecMul (hist (n - j)) (ker j) - P j) m - (Spec.trapzRule h P n - Spec.trapzRule h P m) +
      (Spec.trapzRule h P n - memForce E κ x v (n * h)) := by
    rw [← trapzRule_sub, hmem]
    abel
  rw [e2]
  refine (norm_add_le _ _).trans (add_le_add ((norm_sub_le _ _).trans (add_le_add ?_ ?_)) hcons)
  · have := norm_trapzRule_le (c := b * M * η + b * ε * (M + η)) hh.le (n := m)
      (f := fun j => Matrix.vecMul (hist (n - j)) (ker j) - P j) fun j hj => by
        have hjn : j ≤ n := by omega
        have hjl : j < len := by omega
        have hjT := (hmono j hjn).trans hn
        have e : Matrix.vecMul (hist (n - j)) (ker j) - P j =
            Matrix.vecMul (hist (n - j) - E (x ((n - j : ℕ) * h)) (v ((n - j : ℕ) * h))) (κ (j * h)) +
            Matrix.vecMul (hist (n - j)) (ker j - κ (j * h)) := by
          rw [hP, Matrix.sub_vecMul, Matrix.vecMul_sub]
          abel
        rw [e]
        refine (norm_add_le _ _).trans (add_le_add ?_ ?_)
        · refine (norm_vecMul_le hM (hr.κM _ ⟨by positivity, hjT⟩)).trans ?_
          have := hist_err (n - j) (by omega)
          gcongr
        · refine (norm_vecMul_le hε (fun k i => hker j hjl hjT k i)).trans ?_
          have := nH (n - j) (by omega)
          gcongr
    refine this.trans ?_
    have hmT : (m : ℝ) * h ≤ T := (hmono m (by omega)).trans hn
    gcongr
  · have e3 : Spec.trapzRule h P n - Spec.trapzRule h P m = ∑ j ∈ Finset.Ico m n, (h / 2) • (P j + P (j + 1)) := by
      unfold Spec.trapzRule
      rw [Finset.sum_Ico_eq_sub _ (show m ≤ n by omega)]
    rw [e3]
    refine (norm_sum_le _ _).trans ?_
    have hb : ∀ j, m < n → m ≤ j → j ≤ n → ‖P j‖ ≤ b * ε * M := by
      intro j hmn hmj hjn
      have hml : m = len - 1 := by omega
      have hκ : ∀ k i, |κ (j * h) k i| ≤ ε := by
        rcases hcov with c | c
        · exfalso
          have : (n : ℝ) * h ≤ (len - 1 : ℕ) * h := hn.trans c
          have h2 : (n : ℝ) ≤ (len - 1 : ℕ) := le_of_mul_le_mul_right this hh
          have h3 : n ≤ len - 1 := by exact_mod_cast h2
          omega
        · have h2 : ((len - 1 : ℕ) : ℝ) ≤ j := by exact_mod_cast (hml ▸ hmj)
          exact c _ ⟨by positivity, (hmono j hjn).trans hn⟩ (by gcongr)
      rw [hP]
      refine (norm_vecMul_le hε hκ).trans ?_
      have := nE (n - j) (by omega)
      gcongr
    refine (Finset.sum_le_card_nsmul _ _ (h * (b * ε * M)) fun j hj => ?_).trans ?_
    · have hj := Finset.mem_Ico.1 hj
      rw [norm_smul, Real.norm_eq_abs, abs_of_nonneg (show 0 ≤ h / 2 by linarith)]
      have := (norm_add_le (P j) (P (j + 1))).trans (add_le_add (hb j (by omega) hj.1 (by omega)) (hb (j + 1) (by omega) (by omega) (by omega)))
      calc h / 2 * ‖P j + P (j + 1)‖ ≤ h / 2 * (b * ε * M + b * ε * M) := by gcongr
        _ = _ := by ring
    · rw [Nat.card_Ico, nsmul_eq_mul, ← mul_assoc]
      have hmT : ((n - m : ℕ) : ℝ) * h ≤ T := (hmono (n - m) (by omega)).trans hn
      gcongr

set_option maxHeartbeats 1000000 in
/-- One step from near the exact solution, with a force `F'`, a noise `w` (constant during the step) and memory forces
`A` and `B` (at the beginning and at the end of the step) that have errors. -/
theorem noisy_step {T R L M LF a ε h t : ℝ} {F F' : (Fin d → ℝ) → Fin d → ℝ} {E : (Fin d → ℝ) → (Fin d → ℝ) → Fin b → ℝ}
    {κ : ℝ → Matrix (Fin b) (Fin d) ℝ} {ξ x v : ℝ → Fin d → ℝ} (hg : Spec.NoisyGle T F E κ ξ x v)
    (hr : NoisyRegular T R L M F E κ ξ x v) (hR : 0 ≤ R) (hL : 0 ≤ L) (hLF : 0 ≤ LF)
    (ha : 0 ≤ a) (hε : 0 ≤ ε) (hh : 0 ≤ h) (hh1 : h ≤ 1) (ht : 0 ≤ t) (hT : t + h ≤ T)
    (lF : ∀ y z : Fin d → ℝ, ‖y‖ ≤ R + 1 → ‖z‖ ≤ R + 1 → ‖F y - F z‖ ≤ LF * ‖y - z‖)
    (hF' : ∀ τ ∈ Icc 0 T, ∀ y, ‖y - x τ‖ ≤ 1 → ‖F' y - F y‖ ≤ ε)
    {w : Fin d → ℝ} (hw : ‖w - ξ (t + h)‖ ≤ ε)
    {A : Fin d → ℝ} {B : (Fin d → ℝ) × (Fin d → ℝ) → Fin d → ℝ} (hA : ‖A - memForce E κ x v t‖ ≤ a)
    (hB : ∀ τ ∈ Icc 0 T, ∀ z : (Fin d → ℝ) × (Fin d → ℝ), ‖z - (x τ, v τ)‖ ≤ 1 → ‖B z - memForce E κ x v (t + h)‖ ≤ a)
    {y : (Fin d → ℝ) × (Fin d → ℝ)}
    (hsmall : (1 + (1 + LF)) ^ 3 * (‖y - (x t, v t)‖ + (2 * a + 2 * ε + 3 * L * h) + L * h ^ 2) ≤ 1) :
    ‖Spec.rk4 h (fun c (y : (Fin d → ℝ) × (Fin d → ℝ)) => (y.2, F' y.1 + w - ((1 - c) • A + c • B y))) y - (x (t + h), v (t + h))‖ ≤
      ‖y - (x t, v t)‖ + h * ((1 + (1 + LF)) ^ 4 *
        (‖y - (x t, v t)‖ + (2 * a + 2 * ε + 3 * L * h) + L * h ^ 2)) + L * h ^ 2 := by
  have m0 : t ∈ Icc 0 T := ⟨ht, by linarith⟩
  have mm : t + h / 2 ∈ Icc 0 T := ⟨by linarith, by linarith⟩
  have m1 : t + h ∈ Icc 0 T := ⟨by linarith, hT⟩
  have nX : ∀ τ ∈ Icc 0 T, ‖(x τ, v τ)‖ ≤ R := fun τ hτ => norm_prod_le_iff.2
    ⟨(pi_norm_le_iff_of_nonneg hR).2 (hr.xR τ hτ), (pi_norm_le_iff_of_nonneg hR).2 (hr.vR τ hτ)⟩
  have dm : ∀ τ ∈ Icc 0 T, ∀ σ ∈ Icc 0 T, |τ - σ| ≤ h → ‖memForce E κ x v τ - memForce E κ x v σ‖ ≤ L * h := fun τ hτ σ hσ hd =>
    (pi_norm_le_iff_of_nonneg (by positivity)).2 fun i => (hr.mL i τ hτ σ hσ).trans (by gcongr)
  have dξ : ∀ τ ∈ Icc 0 T, ∀ σ ∈ Icc 0 T, |τ - σ| ≤ h → ‖ξ τ - ξ σ‖ ≤ L * h := fun τ hτ σ hσ hd =>
    (pi_norm_le_iff_of_nonneg (by positivity)).2 fun i => (hr.ξL i τ hτ σ hσ).trans (by gcongr)
  have stage : ∀ c : ℝ, 0 ≤ c → c ≤ 1 → t + c * h ∈ Icc 0 T →
      ∀ z : (Fin d → ℝ) × (Fin d → ℝ), ‖z - (x (t + c * h), v (t + c * h))‖ ≤ 1 →
      ‖((z.2, F' z.1 + w - ((1 - c) • A + c • B z)) : (Fin d → ℝ) × (Fin d → ℝ)) -
          (v (t + c * h), fun i => F (x (t + c * h)) i - memForce E κ x v (t + c * h) i + ξ (t + c * h) i)‖ ≤
        (1 + LF) * ‖z - (x (t + c * h), v (t + c * h))‖ + (2 * a + 2 * ε + 3 * L * h) := by
    intro c hc hc1 hτ z hz
    obtain ⟨τ, hτd⟩ : ∃ τ, τ = t + c * h := ⟨_, rfl⟩
    rw [← hτd] at hτ hz ⊢
    have hzR : ‖z‖ ≤ R + 1 := by
      have := norm_add_le (z - (x τ, v τ)) (x τ, v τ)
      rw [sub_add_cancel] at this
      linarith [nX τ hτ]
    have hch : c * h ≤ h := mul_le_of_le_one_left hh hc1
    have hch0 : 0 ≤ c * h := by positivity
    have d0 : |t - τ| ≤ h := by rw [hτd, abs_sub_comm, add_sub_cancel_left, abs_of_nonneg hch0]; exact hch
    have d1 : |t + h - τ| ≤ h := by
      rw [hτd, show t + h - (t + c * h) = h - c * h by ring, abs_of_nonneg (by linarith)]
      linarith
    obtain ⟨ζ, hζ⟩ : ∃ ζ, ζ = ‖z - (x τ, v τ)‖ := ⟨_, rfl⟩
    have hζ0 : 0 ≤ ζ := hζ ▸ norm_nonneg _
    rw [← hζ]
    have hLh : 0 ≤ L * h := by positivity
    refine norm_prod_le_iff.2 ⟨?_, ?_⟩
    · have h1 : ‖z.2 - v τ‖ ≤ ζ := hζ ▸ (norm_snd_le (z - (x τ, v τ)))
      have h3 : 0 ≤ LF * ζ := by positivity
      refine h1.trans ?_
      nlinarith
    · have e : F' z.1 + w - ((1 - c) • A + c • B z) - (fun i => F (x τ) i - memForce E κ x v τ i + ξ τ i) =
          (F' z.1 - F z.1) + (F z.1 - F (x τ)) + (w - ξ (t + h)) + (ξ (t + h) - ξ τ) -
            ((1 - c) • ((A - memForce E κ x v t) + (memForce E κ x v t - memForce E κ x v τ)) +
              c • ((B z - memForce E κ x v (t + h)) + (memForce E κ x v (t + h) - memForce E κ x v τ))) := by
        have : (fun i => F (x τ) i - memForce E κ x v τ i + ξ τ i) = F (x τ) - memForce E κ x v τ + ξ τ := rfl
        rw [this]
        module
      change ‖F' z.1 + w - ((1 - c) • A + c • B z) - (fun i => F (x τ) i - memForce E κ x v τ i + ξ τ i)‖ ≤ _
      rw [e]
      have hz1 : ‖z.1 - x τ‖ ≤ ζ := hζ ▸ (norm_fst_le (z - (x τ, v τ)))
      have f0 : ‖F' z.1 - F z.1‖ ≤ ε := hF' τ hτ z.1 (hz1.trans (hζ ▸ hz))
      have f1 : ‖F z.1 - F (x τ)‖ ≤ LF * ζ := by
        refine (lF _ _ ((norm_fst_le z).trans hzR) ((norm_fst_le (x τ, v τ)).trans ((nX τ hτ).trans (by linarith)))).trans ?_
        gcongr
      have f2 : ‖(1 - c) • ((A - memForce E κ x v t) + (memForce E κ x v t - memForce E κ x v τ))‖ ≤ a + L * h := by
        rw [norm_smul, Real.norm_eq_abs, abs_of_nonneg (by linarith)]
        exact (mul_le_of_le_one_left (norm_nonneg _) (by linarith)).trans ((norm_add_le _ _).trans (add_le_add hA (dm t m0 τ hτ d0)))
      have f3 : ‖c • ((B z - memForce E κ x v (t + h)) + (memForce E κ x v (t + h) - memForce E κ x v τ))‖ ≤ a + L * h := by
        rw [norm_smul, Real.norm_eq_abs, abs_of_nonneg hc]
        exact (mul_le_of_le_one_left (norm_nonneg _) hc1).trans ((norm_add_le _ _).trans (add_le_add (hB τ hτ z hz) (dm _ m1 τ hτ d1)))
      have f4 := dξ _ m1 τ hτ d1
      refine (norm_sub_le _ _).trans ?_
      have g1 := norm_add_le (F' z.1 - F z.1 + (F z.1 - F (x τ)) + (w - ξ (t + h))) (ξ (t + h) - ξ τ)
      have g2 := norm_add_le (F' z.1 - F z.1 + (F z.1 - F (x τ))) (w - ξ (t + h))
      have g3 := norm_add_le (F' z.1 - F z.1) (F z.1 - F (x τ))
      have g4 := norm_add_le ((1 - c) • ((A - memForce E κ x v t) + (memForce E κ x v t - memForce E κ x v τ)))
        (c • ((B z - memForce E κ x v (t + h)) + (memForce E κ x v (t + h) - memForce E κ x v τ)))
      have k1 : (1 + LF) * ζ = ζ + LF * ζ := by ring
      have k2 : 3 * L * h = L * h + L * h + L * h := by ring
      rw [k1, k2]
      linarith only [g1, g2, g3, g4, f0, f1, f2, f3, f4, hw, hζ0]
  have s0 := stage 0 le_rfl zero_le_one (by simpa using m0)
  have s1 := stage 1 zero_le_one le_rfl (by simpa using m1)
  have sm := stage (1 / 2) (by norm_num) (by norm_num) (by rw [show t + 1 / 2 * h = t + h / 2 by ring]; exact mm)
  rw [show t + 0 * h = t by ring] at s0
  rw [show t + 1 * h = t + h by ring] at s1
  rw [show t + 1 / 2 * h = t + h / 2 by ring] at sm
  have hLh : 0 ≤ L * h ^ 2 := by positivity
  have ta : ∀ {g g' : ℝ → ℝ} {a r σ : ℝ}, (∀ t ∈ Icc 0 T, HasDerivWithinAt g (g' t) (Icc 0 T) t) → LipOn T L g' → 0 ≤ a → a ≤ h →
      r ∈ Icc 0 T → |t - r| ≤ h → |t + a - r| ≤ h → σ = t + a → |g t + a * g' r - g σ| ≤ L * h ^ 2 := by
    intro g g' a r σ hd hl ha hah hrT h1 h2 hσ
    have := taylor_one hL hd hl (s := t) (t := t + a) (r := r) (w := h) m0 ⟨by linarith, by linarith⟩ hrT h1 h2
    rw [add_sub_cancel_left, abs_of_nonneg ha] at this
    rw [hσ, abs_sub_comm, show g (t + a) - (g t + a * g' r) = g (t + a) - g t - g' r * a by ring]
    refine this.trans ?_
    have : L * h * a ≤ L * h * h := by gcongr
    nlinarith
  have comp : ∀ {a r σ : ℝ}, 0 ≤ a → a ≤ h → r ∈ Icc 0 T → |t - r| ≤ h → |t + a - r| ≤ h → σ = t + a →
      ‖(x t, v t) + a • (v r, fun i => F (x r) i - memForce E κ x v r i + ξ r i) - (x σ, v σ)‖ ≤ L * h ^ 2 := by
    intro a r σ ha hah hrT h1 h2 hσ
    refine norm_prod_le_iff.2 ⟨(pi_norm_le_iff_of_nonneg hLh).2 fun i => ?_, (pi_norm_le_iff_of_nonneg hLh).2 fun i => ?_⟩
    · exact ta (g := fun t => x t i) (g' := fun t => v t i) (fun t ht => hg.pos t ht i) (hr.vL i) ha hah hrT h1 h2 hσ
    · exact ta (g := fun t => v t i) (g' := fun t => F (x t) i - memForce E κ x v t i + ξ t i) (fun t ht => hg.vel t ht i) (hr.aL i) ha hah hrT h1 h2 hσ
  have b0 : |t - t| ≤ h := by simpa using hh
  have b1 : |t - (t + h / 2)| ≤ h := by rw [abs_sub_comm, add_sub_cancel_left, abs_of_nonneg] <;> linarith
  have b2 : |t - (t + h)| ≤ h := by rw [abs_sub_comm, add_sub_cancel_left, abs_of_nonneg hh]
  have b3 : |t + h - (t + h / 2)| ≤ h := by rw [show t + h - (t + h / 2) = h / 2 by ring, abs_of_nonneg] <;> linarith
  have t1 := comp (a := h / 2) (r := t) (σ := t + h / 2) (by linarith) (by linarith) m0 b0 (by rw [add_sub_cancel_left, abs_of_nonneg] <;> linarith) rfl
  have t2 := comp (a := h / 2) (r := t + h / 2) (σ := t + h / 2) (by linarith) (by linarith) mm b1 (by simpa using hh) rfl
  have t3 := comp (a := h) (r := t + h / 2) (σ := t + h) hh le_rfl mm b1 b3 rfl
  have t0 := comp (a := h) (r := t) (σ := t + h) hh le_rfl m0 b0 (by rw [add_sub_cancel_left, abs_of_nonneg hh]) rfl
  have t5 := comp (a := h) (r := t + h) (σ := t + h) hh le_rfl m1 b2 (by simpa using hh) rfl
  have t4 : ‖(x t, v t) + (h / 6) • ((v t, fun i => F (x t) i - memForce E κ x v t i + ξ t i) +
      (4 : ℝ) • (v (t + h / 2), fun i => F (x (t + h / 2)) i - memForce E κ x v (t + h / 2) i + ξ (t + h / 2) i) +
      (v (t + h), fun i => F (x (t + h)) i - memForce E κ x v (t + h) i + ξ (t + h) i)) - (x (t + h), v (t + h))‖ ≤ L * h ^ 2 := by
    generalize (v t, fun i => F (x t) i - memForce E κ x v t i + ξ t i) = D0 at t0 ⊢
    generalize (v (t + h / 2), fun i => F (x (t + h / 2)) i - memForce E κ x v (t + h / 2) i + ξ (t + h / 2) i) = Dm at t3 ⊢
    generalize (v (t + h), fun i => F (x (t + h)) i - memForce E κ x v (t + h) i + ξ (t + h) i) = D1 at t5 ⊢
    generalize (x t, v t) = X0 at t0 t3 t5 ⊢
    generalize (x (t + h), v (t + h)) = X1 at t0 t3 t5 ⊢
    have e : X0 + (h / 6) • (D0 + (4 : ℝ) • Dm + D1) - X1 = (1 / 6 : ℝ) • (X0 + h • D0 - X1) + (4 / 6 : ℝ) • (X0 + h • Dm - X1) +
        (1 / 6 : ℝ) • (X0 + h • D1 - X1) := by module
    rw [e]
    have g1 := norm_add_le ((1 / 6 : ℝ) • (X0 + h • D0 - X1) + (4 / 6 : ℝ) • (X0 + h • Dm - X1)) ((1 / 6 : ℝ) • (X0 + h • D1 - X1))
    have g2 := norm_add_le ((1 / 6 : ℝ) • (X0 + h • D0 - X1)) ((4 / 6 : ℝ) • (X0 + h • Dm - X1))
    rw [norm_smul, norm_smul] at g2
    rw [norm_smul _ (X0 + h • D1 - X1)] at g1
    norm_num at g1 g2 ⊢
    linarith
  have hδ : 0 ≤ 2 * a + 2 * ε + 3 * L * h := by positivity
  exact rk4_error (r := 1) hh hh1 (by positivity) hδ hLh (fun z hz => s0 z hz) (fun z hz => sm z hz) (fun z hz => s1 z hz) t1 t2 t3 t4 hsmall

end

end Verif
