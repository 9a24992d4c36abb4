import Verif.Props.RoundingTrapz
import Verif.Props.ConvergeFirst

/-!
# Rounding errors of the rectangle rule, first kind (C188)
-/

namespace Verif

open Finset
open scoped Matrix.Norms.Operator

section
variable {m n b x : ℕ} {u : ℝ}

/-- How well a rounded kernel solves the discrete equation. -/
theorem first_residual {r c dt T MB MD K η : ℝ} {L : ℕ} (hu : 0 ≤ u) (hr : 0 ≤ r) (hdt : 0 < dt) (hT : L * dt ≤ T) {invB0 : Mat ℝ b b}
    {bb : ℕ → Mat ℝ b b} {d ker : ℕ → Mat ℝ b x} (h : Rounded.firstKindRect u L invB0 bb d dt ker) (hd : (bb 1).det ≠ 0) (hc : ‖(bb 1)⁻¹‖ ≤ c)
    (hi : ‖invB0 - (dt • bb 1)⁻¹‖ ≤ r * (c / dt)) (hB : ∀ n ≤ L, ‖bb n‖ ≤ MB) (hD : ∀ n ≤ L, ‖d n‖ ≤ MD) (hK0 : 0 ≤ K)
    (hη : (1 + r) * (1 + u) ^ (2 * b + 4 + L) ≤ 1 + η) {i : ℕ} (hiL : i < L) (hK : ∀ j < i, ‖ker j‖ ≤ K) :
    ‖-∑ j ∈ range (i + 1), dt • (bb (i + 1 - j) * ker j) - d (i + 1)‖ ≤ MB * (c * (η * (T * MB * K + MD))) := by
  have c0 : 0 ≤ c := (norm_nonneg _).trans hc
  have B0' : 0 ≤ MB := (norm_nonneg _).trans (hB 0 (by omega))
  have D0 : 0 ≤ MD := (norm_nonneg _).trans (hD 0 (by omega))
  have T0 : 0 ≤ T := le_trans (by positivity) hT
  obtain ⟨num, s, r1, r2, r3⟩ : ∃ num s, Rounded.rectIntegral u dt i (fun k => bb (1 + k)) ker num ∧ Rounded.each u (num + d (i + 1)) s ∧
      Rounded.matmul u invB0 s (-ker i) := by
    rcases Nat.eq_zero_or_pos i with rfl | hi0
    · exact ⟨0, d 1, ⟨fun _ => 0, rfl, fun j hj => by omega, rfl⟩, by rw [zero_add]; exact each_exact hu _, h.1⟩
    · exact h.2 i hi0 hiL
  have hC : ‖(dt • bb 1)⁻¹‖ ≤ c / dt := by
    let _ := invertibleOfNonzero hdt.ne'
    rw [Matrix.inv_smul _ _ (isUnit_iff_ne_zero.2 hd), norm_smul, invOf_eq_inv, norm_inv, Real.norm_of_nonneg hdt.le, inv_mul_le_iff₀ hdt,
      mul_div_cancel₀ _ hdt.ne']
    exact hc
  have e1 := step_rounding hu hr hC hi r1 r2 r3
  have hd' : IsUnit (dt • bb 1).det := isUnit_iff_ne_zero.2 (by rw [Matrix.det_smul]; exact mul_ne_zero (pow_ne_zero _ hdt.ne') hd)
  have es : ∑ j ∈ range i, dt • (bb (i + 1 - j) * ker j) = ∑ j ∈ range i, dt • (bb (1 + (i - j)) * ker j) :=
    sum_congr rfl fun j hj => by rw [show i + 1 - j = 1 + (i - j) by have := mem_range.1 hj; omega]
  have key : -∑ j ∈ range (i + 1), dt • (bb (i + 1 - j) * ker j) - d (i + 1) =
      dt • (bb 1 * (-ker i - (dt • bb 1)⁻¹ * (∑ j ∈ range i, dt • (bb (1 + (i - j)) * ker j) + d (i + 1)))) := by
    rw [sum_range_succ, show i + 1 - i = 1 by omega, es]
    generalize ∑ j ∈ range i, dt • (bb (1 + (i - j)) * ker j) = X
    have e2 : dt • (bb 1 * ((dt • bb 1)⁻¹ * (X + d (i + 1)))) = X + d (i + 1) := by
      rw [← Matrix.smul_mul dt, ← Matrix.mul_assoc, Matrix.mul_nonsing_inv _ hd', Matrix.one_mul]
    rw [Matrix.mul_sub, smul_sub, e2, Matrix.mul_neg, smul_neg]
    abel
  have hS : ∑ j ∈ range i, |dt| * (‖bb (1 + (i - j))‖ * ‖ker j‖) + ‖d (i + 1)‖ ≤ T * MB * K + MD := by
    refine add_le_add ?_ (hD _ (by omega))
    refine (sum_le_sum (g := fun _ => dt * (MB * K)) fun j hj => ?_).trans ?_
    · have hj := mem_range.1 hj
      rw [abs_of_pos hdt]
      exact mul_le_mul_of_nonneg_left (mul_le_mul (hB _ (by omega)) (hK j hj) (norm_nonneg _) B0') hdt.le
    · rw [sum_const, card_range, nsmul_eq_mul, ← mul_assoc, mul_assoc T]
      refine mul_le_mul_of_nonneg_right (le_trans ?_ hT) (by positivity)
      have : (i : ℝ) ≤ L := by exact_mod_cast hiL.le
      gcongr
  have hη' : (1 + r) * (1 + u) ^ (2 * b + 4 + i) - 1 ≤ η := by
    have : (1 + u) ^ (2 * b + 4 + i) ≤ (1 + u) ^ (2 * b + 4 + L) := pow_le_pow_right₀ (by linarith) (by omega)
    have := mul_le_mul_of_nonneg_left this (show 0 ≤ 1 + r by linarith)
    linarith
  have hη0 : 0 ≤ (1 + r) * (1 + u) ^ (2 * b + 4 + i) - 1 := by
    have := one_le_pow₀ (show 1 ≤ 1 + u by linarith) (n := 2 * b + 4 + i)
    nlinarith
  rw [key, norm_smul, Real.norm_of_nonneg hdt.le]
  calc _ ≤ dt * (MB * (η * (c / dt * (T * MB * K + MD)))) := by
        refine mul_le_mul_of_nonneg_left ((Matrix.linfty_opNorm_mul _ _).trans ?_) hdt.le
        refine mul_le_mul (hB 1 (by omega)) (e1.trans ?_) (norm_nonneg _) B0'
        refine mul_le_mul hη' (mul_le_mul_of_nonneg_left hS (by positivity)) (by positivity) (hη0.trans hη')
    _ = _ := by field_simp

theorem firstKind_rhs_bound {T MB Mk : ℝ} (hMB0 : 0 ≤ MB) (hMk0 : 0 ≤ Mk) {B : ℝ → Mat ℝ b b} {D k : ℝ → Mat ℝ b x}
    (hMB : ∀ t ∈ Set.Icc 0 T, ‖B t‖ ≤ MB) (hMk : ∀ t ∈ Set.Icc 0 T, ‖k t‖ ≤ Mk) (heq : Spec.FirstKind T B D k) :
    ∀ t ∈ Set.Icc 0 T, ‖D t‖ ≤ x * (MB * Mk * |T|) := by
  intro t ht
  refine norm_le_of_entries (by positivity) fun i j => ?_
  rw [← abs_neg, ← heq t ht i j]
  have := intervalIntegral.norm_integral_le_of_norm_le_const (a := 0) (b := t) (f := fun s => (B (t - s) * k s) i j) (C := MB * Mk) fun s hs => by
    rw [Set.uIoc_of_le ht.1] at hs
    have h1 : t - s ∈ Set.Icc 0 T := ⟨by linarith [hs.2], by linarith [hs.1, ht.2]⟩
    have h2 : s ∈ Set.Icc 0 T := ⟨hs.1.le, hs.2.trans ht.2⟩
    exact (entry_le_norm _ i j).trans ((Matrix.linfty_opNorm_mul _ _).trans (mul_le_mul (hMB _ h1) (hMk _ h2) (norm_nonneg _) hMB0))
  refine this.trans (mul_le_mul_of_nonneg_left ?_ (by positivity))
  rw [sub_zero, abs_of_nonneg ht.1]
  exact ht.2.trans (le_abs_self _)

theorem first_small {N LB κ δ0 y h : ℝ} (hMn : 0 ≤ N) (hLB0 : 0 ≤ LB) (hκ0 : 0 ≤ κ) (hδ00 : 0 < δ0) (hδ1 : δ0 * (2 * (N + 1) * (2 * LB + 2 + 3 * κ)) = 1)
    (hh : 0 < h) (hhδ : h ≤ δ0) (y0 : 0 ≤ y) (hyδ : y ≤ δ0 * h) :
    δ0 ≤ 1 ∧ κ * (2 * (y / h)) + κ * y + LB * h ≤ (3 * κ + LB) * (h + y / h) ∧ κ * (2 * (y / h)) + κ * y + LB * h ≤ 1 ∧
      N * (h * (LB + 1) + (κ * (2 * (y / h)) + κ * y + LB * h)) ≤ 1 / 2 := by
  have hδ2 : δ0 * (2 * LB + 2 + 3 * κ) ≤ 1 / 2 := by
    have : δ0 * (2 * LB + 2 + 3 * κ) * 1 ≤ δ0 * (2 * LB + 2 + 3 * κ) * (N + 1) := by gcongr; linarith
    linarith
  have hδ3 : N * (δ0 * (2 * LB + 2 + 3 * κ)) ≤ 1 / 2 := by
    have : N * (δ0 * (2 * LB + 2 + 3 * κ)) ≤ (N + 1) * (δ0 * (2 * LB + 2 + 3 * κ)) := by gcongr; linarith
    linarith
  have hδle : δ0 ≤ 1 := by linarith [mul_nonneg hδ00.le hLB0, mul_nonneg hδ00.le hκ0]
  have hh1 : h ≤ 1 := hhδ.trans hδle
  have hε' : y / h ≤ δ0 := by rw [div_le_iff₀ hh]; exact hyδ
  have hεh : y ≤ y / h := by rw [le_div_iff₀ hh]; exact mul_le_of_le_one_right y0 hh1
  have hεh0 : 0 ≤ y / h := by positivity
  have hηle : κ * (2 * (y / h)) + κ * y + LB * h ≤ (3 * κ + LB) * (h + y / h) := by
    have h1 : κ * y ≤ κ * (y / h) := by gcongr
    have h2 : 0 ≤ κ * h := by positivity
    have h3 : 0 ≤ LB * (y / h) := by positivity
    linarith
  have hηδ : κ * (2 * (y / h)) + κ * y + LB * h ≤ δ0 * (3 * κ + LB) := by
    have h1 : κ * y ≤ κ * δ0 := by gcongr; exact hεh.trans hε'
    have h2 : κ * (2 * (y / h)) ≤ κ * (2 * δ0) := by gcongr
    have h3 : LB * h ≤ LB * δ0 := by gcongr
    linarith
  have hη1 : κ * (2 * (y / h)) + κ * y + LB * h ≤ 1 := by linarith [mul_nonneg hδ00.le hLB0, mul_nonneg hδ00.le hκ0]
  have hsmall : N * (h * (LB + 1) + (κ * (2 * (y / h)) + κ * y + LB * h)) ≤ 1 / 2 := by
    refine le_trans ?_ hδ3
    gcongr
    have : h * (LB + 1) ≤ δ0 * (LB + 1) := by gcongr
    linarith
  exact ⟨hδle, hηle, hη1, hsmall⟩

/-- **C188** The kernel computed by `kernel_first_kind_rect` in floating point arithmetic differs from that of the continuous equation by at most a
constant times `dt + (ε + (L + 1) u + ρ) / dt`. -/
theorem C188_converges {T : ℝ} {B B' : ℝ → Mat ℝ b b} (hB0 : (B 0).det ≠ 0) {D k : ℝ → Mat ℝ b x}
    (hB : Spec.DerivOn T B B') (hB' : Spec.Lip T B') (hk : Spec.Lip T k) (heq : Spec.FirstKind T B D k) :
    ∃ C δ : ℝ, 0 < δ ∧ ∀ (L : ℕ) (dt ε u ρ : ℝ), 1 ≤ L → 0 < dt → dt ≤ δ → L * dt ≤ T → 0 ≤ ε → 0 ≤ u → 0 ≤ ρ → ε + (L + 1) * u + ρ ≤ δ * dt →
      ∀ (invB0 : Mat ℝ b b) (bb : ℕ → Mat ℝ b b) (d ker : ℕ → Mat ℝ b x),
        (∀ n ≤ L, ∀ i j, |bb n i j - B (n * dt) i j| ≤ ε) → (∀ n ≤ L, ∀ i j, |d n i j - D (n * dt) i j| ≤ ε) →
        (∀ i j, |invB0 i j - (dt • bb 1)⁻¹ i j| ≤ ρ / dt) → Rounded.firstKindRect u L invB0 bb d dt ker →
        ∀ n < L, ∀ i j, |ker n i j - k (n * dt) i j| ≤ C * (dt + (ε + (L + 1) * u + ρ) / dt) := by
  obtain ⟨M, hM1, hM2⟩ := det_inv hB0
  obtain ⟨LB, hLB0, hLB⟩ := lip_norm (lip_of_deriv hB hB')
  obtain ⟨MB, hMB0, hMB⟩ := lip_bound (lip_of_deriv hB hB')
  obtain ⟨Mk, hMk0, hMk⟩ := lip_bound hk
  obtain ⟨Q, hQ0, hQ⟩ := increment_consistent hB hB' hk
  have hMD := firstKind_rhs_bound hMB0 hMk0 hMB hMk heq
  have hMn : 0 ≤ ‖M‖ := norm_nonneg M
  -- the constants
  obtain ⟨X, hX⟩ : ∃ X : ℝ, X = Real.exp (2 * ‖M‖ * (LB + 1) * T) := ⟨_, rfl⟩
  have X0 : 0 < X := hX ▸ Real.exp_pos _
  obtain ⟨K, hK⟩ : ∃ K : ℝ, K = Mk + 2 * ‖M‖ * ((Mk * (|T| + 2) + 1) + x * Q) * X := ⟨_, rfl⟩
  have K0 : 0 ≤ K := by rw [hK]; positivity
  obtain ⟨W, hW⟩ : ∃ W : ℝ, W = (MB + b) * ((2 * ‖M‖ + 1) * ((b + 2 * (1 + b) * (2 * b + 4)) * (|T| * (MB + b) * K + (x * (MB * Mk * |T|) + x)))) := ⟨_, rfl⟩
  have W0 : 0 ≤ W := by rw [hW]; positivity
  obtain ⟨κ, hκ⟩ : ∃ κ : ℝ, κ = b + x + W := ⟨_, rfl⟩
  have hκ0 : 0 ≤ κ := by rw [hκ]; positivity
  obtain ⟨δ0, hδ00, hδ1⟩ : ∃ δ : ℝ, 0 < δ ∧ δ * (2 * (‖M‖ + 1) * (2 * LB + 2 + 3 * κ)) = 1 :=
    ⟨1 / (2 * (‖M‖ + 1) * (2 * LB + 2 + 3 * κ)), by positivity, by field_simp⟩
  obtain ⟨δ, hδ⟩ : ∃ δ : ℝ, δ = min δ0 (1 / (2 * b + 4)) := ⟨_, rfl⟩
  have hδδ0 : δ ≤ δ0 := hδ ▸ min_le_left _ _
  have hδ0 : 0 < δ := by rw [hδ]; positivity
  refine ⟨2 * ‖M‖ * X * ((Mk * (|T| + 2) + 1) * (3 * κ + LB) + x * Q), δ, hδ0, ?_⟩
  intro L h ε u ρ hL hh hhδ hNT hε hu hρ hyδ invB0 bb d ker cB cD cI hfl
  have hy0 : 0 ≤ (L + 1) * u := by positivity
  obtain ⟨y, hy⟩ : ∃ y, y = ε + (L + 1) * u + ρ := ⟨_, rfl⟩
  rw [← hy] at hyδ ⊢
  have y0 : 0 ≤ y := by rw [hy]; positivity
  obtain ⟨hδle0, hηle, hη1, hsmall⟩ := first_small hMn hLB0 hκ0 hδ00 hδ1 hh (hhδ.trans hδδ0) y0 (hyδ.trans (mul_le_mul_of_nonneg_right hδδ0 hh.le))
  have hδle : δ ≤ 1 := hδδ0.trans hδle0
  have hh1 : h ≤ 1 := hhδ.trans hδle
  have hεh0 : 0 ≤ y / h := by positivity
  have hWy : W * y = (MB + b) * ((2 * ‖M‖ + 1) * ((b + 2 * (1 + b) * (2 * b + 4)) * y * (|T| * (MB + b) * K + (x * (MB * Mk * |T|) + x)))) := by
    rw [hW]
    ring
  have hyle : y ≤ δ := hyδ.trans (mul_le_of_le_one_right hδ0.le hh1)
  have hε1 : ε ≤ 1 := by linarith
  have hρ1 : ρ ≤ 1 := by linarith
  have hLu : (2 * b + 4) * (L + 1) * u ≤ 1 := by
    have h1 : (L + 1) * u ≤ 1 / (2 * b + 4) := le_trans (by linarith) (hyle.trans (hδ ▸ min_le_right _ _))
    rw [le_div_iff₀ (by positivity)] at h1
    linarith
  have η1 := eta_bound' (b := b) (a := 2 * b + 4) (by omega) hu (by push_cast; exact hLu) hρ hρ1
  push_cast at η1
  have η3 : b * ρ + 2 * (1 + b) * ((2 * b + 4) * ((L + 1) * u)) ≤ (b + 2 * (1 + b) * (2 * b + 4)) * y := by
    have a1 : 0 ≤ (b : ℝ) * (ε + (L + 1) * u) := by positivity
    have a2 : 0 ≤ 2 * (1 + (b : ℝ)) * (2 * b + 4) * (ε + ρ) := by positivity
    rw [hy, show (b + 2 * (1 + b) * (2 * b + 4)) * (ε + (L + 1) * u + ρ) = (b * ρ + 2 * (1 + b) * ((2 * b + 4) * ((L + 1) * u))) +
      ((b : ℝ) * (ε + (L + 1) * u) + 2 * (1 + (b : ℝ)) * (2 * b + 4) * (ε + ρ)) by ring]
    linarith
  have hT : 0 ≤ T := (by positivity : (0 : ℝ) ≤ L * h).trans hNT
  have hTa : |T| = T := abs_of_nonneg hT
  have mem : ∀ n ≤ L, (n : ℝ) * h ∈ Set.Icc 0 T := fun n hn => ⟨by positivity, le_trans (by gcongr) hNT⟩
  have hεy : ε ≤ y := by linarith
  have nB : ∀ n ≤ L, ‖bb n - B (n * h)‖ ≤ κ * y := fun n hn => by
    refine (norm_le_of_entries hε (cB n hn)).trans (mul_le_mul ?_ hεy hε hκ0)
    rw [hκ]; linarith [(by positivity : (0 : ℝ) ≤ x)]
  have bB : ∀ n ≤ L, ‖bb n‖ ≤ MB + b := fun n hn => by
    have a1 := norm_le_of_entries (A := bb n - B (n * h)) hε (cB n hn)
    have a2 := norm_add_le (bb n - B (n * h)) (B (n * h))
    rw [sub_add_cancel] at a2
    have a3 : (b : ℝ) * ε ≤ b := mul_le_of_le_one_right (by positivity) hε1
    linarith [hMB _ (mem n hn)]
  have bD : ∀ n ≤ L, ‖d n‖ ≤ x * (MB * Mk * |T|) + x := fun n hn => by
    have a1 := norm_le_of_entries (A := d n - D (n * h)) hε (cD n hn)
    have a2 := norm_add_le (d n - D (n * h)) (D (n * h))
    rw [sub_add_cancel] at a2
    have a3 : (x : ℝ) * ε ≤ x := mul_le_of_le_one_right (by positivity) hε1
    linarith [hMD _ (mem n hn)]
  have n0 : ‖M‖ * ‖bb 1 - B 0‖ ≤ 1 / 2 := by
    refine le_trans (mul_le_mul_of_nonneg_left ?_ hMn) hsmall
    have h1 := nB 1 hL
    have h2 := hLB _ (mem 1 hL) _ (mem 0 (by omega))
    rw [← sub_mul, abs_mul, abs_of_pos hh] at h2
    simp only [Nat.cast_one, one_mul, Nat.cast_zero, zero_mul, sub_zero, abs_one] at h1 h2
    have h3 := norm_add_le (bb 1 - B h) (B h - B 0)
    rw [sub_add_sub_cancel] at h3
    have h4 : 0 ≤ κ * (2 * (y / h)) := by positivity
    have h5 : 0 ≤ h * (LB + 1) := by positivity
    linarith
  have hdet : (bb 1).det ≠ 0 := det_ne_zero_of_close hM2 (by linarith)
  have bI : ‖(bb 1)⁻¹‖ ≤ 2 * ‖M‖ + 1 := (inv_norm_close hM2 n0).trans (by linarith)
  have bI2 : ‖invB0 - (h • bb 1)⁻¹‖ ≤ b * ρ * ((2 * ‖M‖ + 1) / h) := by
    refine (norm_le_of_entries (by positivity) fun i j => cI i j).trans ?_
    rw [mul_div_assoc', mul_div_assoc', div_le_div_iff_of_pos_right hh]
    have : 0 ≤ (b : ℝ) * ρ * (2 * ‖M‖) := by positivity
    linarith
  -- the right hand side for which the rounded kernel is the exact solution
  obtain ⟨d', hd'⟩ : ∃ d' : ℕ → Mat ℝ b x, ∀ m, d' m = if m = 0 then d 0 else -∑ j ∈ range m, h • (bb (m - j) * ker j) := ⟨_, fun _ => rfl⟩
  have hsol : ∀ m, 1 ≤ m → Spec.FirstKindRectAt h bb d' ker m := by
    intro m hm
    rw [Spec.FirstKindRectAt, hd', if_neg (by omega), neg_neg]
    rfl
  have near : ∀ N ≤ L, (∀ j, j + 1 < N → ‖ker j‖ ≤ K) → ∀ n ≤ N, ‖d' n - D (n * h)‖ ≤ κ * y := by
    intro N hN hj n hn
    have e1 := norm_le_of_entries (A := d n - D (n * h)) hε (cD n (by omega))
    have e3 : (x : ℝ) * ε ≤ x * y := mul_le_mul_of_nonneg_left hεy (by positivity)
    have e4 : 0 ≤ (b : ℝ) * y := by positivity
    have e2 : ‖d' n - d n‖ ≤ W * y := by
      rcases n with _ | i
      · rw [hd', if_pos rfl, sub_self, norm_zero]
        positivity
      · rw [hd', if_neg (by omega)]
        have := first_residual hu (by positivity) hh hNT hfl hdet bI bI2 bB bD K0 η1 (i := i) (by omega) fun j hj' => hj j (by omega)
        refine this.trans ?_
        rw [hWy, hTa]
        gcongr
    have := norm_add_le (d' n - d n) (d n - D (n * h))
    rw [sub_add_sub_cancel] at this
    rw [hκ, add_mul, add_mul]
    linarith
  have main := fun (N : ℕ) (h1 : 1 ≤ N) (hN : N ≤ L) (hj : ∀ j, j + 1 < N → ‖ker j‖ ≤ K) =>
    (rect_first_error (ker := ker) (L := N) hM2 hh y0 hLB0 hMk0 hQ0 hκ0 h1 (le_trans (by gcongr) hNT) hLB hMk (fun N hN => hQ h N hh.le hN) heq
      (fun n hn => nB n (hn.trans hN)) (near N hN hj) hh1 hη1 hsmall).2 fun m hm _ => hsol m hm
  have bK : ∀ j, j < L → ‖ker j‖ ≤ K := by
    intro j
    induction j using Nat.strong_induction_on with
    | _ j ih =>
      intro hj
      have e1 := main (j + 1) (by omega) hj (fun i hi => ih i (by omega) (by omega)) j (by omega)
      have e2 := norm_add_le (ker j - k (j * h)) (k (j * h))
      rw [sub_add_cancel] at e2
      have e3 : 2 * ‖M‖ * ((Mk * (T + 2) + 1) * (κ * (2 * (y / h)) + κ * y + LB * h) + x * (Q * h)) * X ≤
          2 * ‖M‖ * ((Mk * (T + 2) + 1) + x * Q) * X := by
        gcongr
        · exact mul_le_of_le_one_right (by positivity) hη1
        · exact mul_le_of_le_one_right hQ0 hh1
      rw [← hX] at e1
      rw [hK, hTa]
      linarith [hMk _ (mem j hj.le)]
  intro n hn i j
  refine (entry_le_norm (ker n - k (n * h)) i j).trans ((main L hL le_rfl (fun j hj => bK j (by omega)) n hn).trans ?_)
  rw [hTa, ← hX]
  rw [show ∀ p q r : ℝ, 2 * ‖M‖ * (p + q) * r = 2 * ‖M‖ * r * (p + q) by intros; ring, mul_assoc (2 * ‖M‖ * X)]
  refine mul_le_mul_of_nonneg_left ?_ (by positivity)
  have h1 : (Mk * (T + 2) + 1) * (κ * (2 * (y / h)) + κ * y + LB * h) ≤ (Mk * (T + 2) + 1) * ((3 * κ + LB) * (h + y / h)) := by gcongr
  have h2 : 0 ≤ (x : ℝ) * Q * (y / h) := by positivity
  rw [add_mul _ (x * Q), mul_assoc (Mk * (T + 2) + 1)]
  refine add_le_add h1 ?_
  rw [mul_add]
  linarith

/-- **C188** A calculation without rounding errors is one of those considered. -/
theorem C188_executions (hu : 0 ≤ u) {L : ℕ} {B : ℕ → Mat ℝ b b} {D : ℕ → Mat ℝ b x} {dt : ℝ} {ker : ℕ → Mat ℝ b x}
    (h : FKernel.firstKindRect L B D dt = .ok ker) : Rounded.firstKindRect u L (dt • B 1)⁻¹ B D dt ker := by
  obtain ⟨-, M, hM, h0, h1, -⟩ := FKernel.firstKindRect_ok h
  obtain ⟨-, -, hM2⟩ := lapackInv_ok hM
  obtain rfl : (dt • B 1)⁻¹ = M := Matrix.inv_eq_left_inv hM2
  refine ⟨?_, fun i hi hiL => ⟨_, _, rect_exact hu _ _ _ _, each_exact hu _, ?_⟩⟩
  · rw [h0]
    simpa using matmul_exact hu _ _
  · rw [h1 i hi hiL]
    have es : ∑ j ∈ range i, dt • (B (i + 1 - j) * ker j) = ∑ j ∈ range i, dt • (B (1 + (i - j)) * ker j) :=
      sum_congr rfl fun j hj => by rw [show i + 1 - j = 1 + (i - j) by have := mem_range.1 hj; omega]
    simpa [FKernel.rectIntegral, forRange_add, es] using
      matmul_exact hu (dt • B 1)⁻¹ (∑ j ∈ range i, dt • (B (1 + (i - j)) * ker j) + D (i + 1))

/-- **C188** A rounding error of the sum over the past is amplified by `1/dt`: for the memory kernel `1` at the time `(L - 1) dt`, a single rounded
addition changes the kernel by `(L - 1) u`. -/
theorem C188_amplified (hu : 0 ≤ u) {L : ℕ} (hL : 2 ≤ L) {dt : ℝ} (hdt : 0 < dt) :
    (∀ m, Spec.FirstKindRectAt dt (fun _ => (1 : Mat ℝ 1 1)) (fun n => (-((n : ℝ) * dt)) • (1 : Mat ℝ 1 1)) (fun _ => 1) m) ∧
    ∃ ker, Rounded.firstKindRect u L (dt • 1)⁻¹ (fun _ => (1 : Mat ℝ 1 1)) (fun n => (-(n * dt)) • (1 : Mat ℝ 1 1)) dt ker ∧
      ker (L - 1) 0 0 = 1 - (L - 1) * u := by
  have hinv : (dt • (1 : Mat ℝ 1 1))⁻¹ = dt⁻¹ • 1 := by
    refine Matrix.inv_eq_left_inv ?_
    rw [Matrix.smul_mul, Matrix.one_mul, smul_smul, inv_mul_cancel₀ hdt.ne', one_smul]
  refine ⟨fun m => ?_, fun i => if i = L - 1 then (1 - (L - 1) * u) • 1 else 1, ⟨?_, fun i hi hiL => ?_⟩, by simp⟩
  · show ∑ j ∈ range m, dt • ((1 : Mat ℝ 1 1) * 1) = _
    rw [Matrix.one_mul, sum_const, card_range, ← Nat.cast_smul_eq_nsmul ℝ, smul_smul]
    module
  · have := matmul_exact hu (dt⁻¹ • (1 : Mat ℝ 1 1)) ((-((1 : ℕ) * dt)) • (1 : Mat ℝ 1 1))
    rw [hinv]
    dsimp only
    rw [if_neg (show (0 : ℕ) ≠ L - 1 by omega)]
    convert this using 1
    rw [Matrix.smul_mul, Matrix.one_mul, smul_smul]
    simp [hdt.ne']
  · have hr : Rounded.rectIntegral u dt i (fun _ => (1 : Mat ℝ 1 1)) (fun i => if i = L - 1 then (1 - ((L : ℝ) - 1) * u) • (1 : Mat ℝ 1 1) else 1)
        ((i * dt * if i = L - 1 then 1 + u else 1) • 1) := by
      refine ⟨fun j => (j * dt * if j = L - 1 then 1 + u else 1) • 1, by simp, fun j hj => ⟨_, _, matmul_exact hu _ _, each_exact hu _, ?_⟩, rfl⟩
      dsimp only
      rw [if_neg (show j ≠ L - 1 by omega), mul_one, if_neg (show j ≠ L - 1 by omega), Matrix.one_mul, ← add_smul]
      intro a c
      fin_cases a; fin_cases c
      simp only [Fl, Matrix.smul_apply, Matrix.one_apply_eq, smul_eq_mul, mul_one, Fin.zero_eta]
      rw [show (j : ℝ) * dt + dt = ((j + 1 : ℕ) : ℝ) * dt by push_cast; ring]
      split_ifs
      · rw [mul_add, mul_one, add_sub_cancel_left, abs_mul, abs_of_nonneg hu, mul_comm]
      · rw [mul_one, sub_self, abs_zero]
        positivity
    refine ⟨_, _, hr, each_exact hu _, ?_⟩
    rw [hinv]
    have := matmul_exact hu (dt⁻¹ • (1 : Mat ℝ 1 1)) ((i * dt * if i = L - 1 then 1 + u else 1) • 1 + (-((i + 1 : ℕ) * dt)) • (1 : Mat ℝ 1 1))
    convert this using 1
    rw [← add_smul, Matrix.smul_mul, Matrix.one_mul, smul_smul]
    dsimp only
    split_ifs with hiL'
    · rw [← neg_smul]
      congr 1
      have : ((L : ℝ) - 1) = i := by
        rw [hiL', Nat.cast_sub (by omega), Nat.cast_one]
      rw [this]
      push_cast
      field_simp
      ring
    · rw [show dt⁻¹ * (i * dt * 1 + -((i + 1 : ℕ) * dt)) = -1 by push_cast; field_simp; ring, neg_smul, one_smul]

example (hu : 0 ≤ u) {ker : ℕ → Mat ℝ 1 1} (h : Rounded.firstKindRect u 3 (((1 : ℝ) / 2) • 1)⁻¹ (fun _ => (1 : Mat ℝ 1 1)) (fun n => (-((n : ℝ) * (1 / 2))) • (1 : Mat ℝ 1 1)) (1 / 2) ker)
    (hK : ∀ j < 2, ‖ker j‖ ≤ 2) :=
  first_residual (r := 0) (c := 1) (T := 3 / 2) (MB := 1) (MD := 3 / 2) (K := 2) (η := (1 + u) ^ (2 * 1 + 4 + 3) - 1) hu le_rfl (by norm_num)
    (by norm_num) h (by simp) (by simp) (by simp) (by simp) (fun n hn => by
      rw [norm_smul, norm_neg, norm_mul, norm_one, Real.norm_natCast]
      have : (n : ℝ) ≤ 3 := by exact_mod_cast hn
      norm_num
      linarith) (by norm_num) (by simp) (i := 2) (by norm_num) hK

example := C188_converges (by simp [exBd]) exBd_deriv (lip_const 1 0) (lip_of_deriv exK_deriv (lip_const 1 _)) exFirst

example := C188_amplified (u := 1 / 2 ^ 53) (by positivity) (L := 1000) (by norm_num) (dt := 1 / 1000) (by norm_num)

end

end Verif
