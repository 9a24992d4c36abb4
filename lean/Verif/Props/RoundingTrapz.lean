import Verif.Props.Rounding

/-!
# Rounding errors of the trapezoidal rule (C187)
-/

namespace Verif

open Finset
open scoped Matrix.Norms.Operator

section
variable {m n b x : ℕ} {u : ℝ}

theorem trapz_rounding (hu : 0 ≤ u) {dt : ℝ} (hn : 1 ≤ n) {B : ℕ → Mat ℝ m b} {k : ℕ → Mat ℝ b x} {res : Mat ℝ m x}
    (h : Rounded.trapzIntegral u dt n B k res) :
    ‖res - ∑ j ∈ range n, (dt * if j = 0 then 1 / 2 else 1) • (B (n - j) * k j)‖ ≤
      ((1 + u) ^ (b + 3 + n) - 1) * ∑ j ∈ range n, |dt| * (‖B (n - j)‖ * ‖k j‖) := by
  obtain ⟨h, p0, r, hh, hp0, hr1, hr, rfl⟩ := h
  have hr : ∀ j, ∃ p q, 1 ≤ j ∧ j < n → Rounded.matmul u (B (n - j)) (k j) p ∧ Rounded.each u (dt • p) q ∧ Rounded.each u (r j + q) (r (j + 1)) := by
    intro j
    by_cases c : 1 ≤ j ∧ j < n
    · obtain ⟨p, q, h⟩ := hr j c.1 c.2
      exact ⟨p, q, fun _ => h⟩
    · exact ⟨0, 0, fun h => absurd h c⟩
  choose p q H using hr
  have g1 : 1 ≤ (1 + u) ^ (b + 1) := one_le_pow₀ (by linarith)
  have e3 : (1 + u) ^ (b + 3) = (1 + u) ^ (b + 1) * (1 + u) ^ 2 := by rw [← pow_add]
  have g : 0 ≤ (1 + u) ^ (b + 3) - 1 := by linarith [one_le_pow₀ (show 1 ≤ 1 + u by linarith) (n := b + 3)]
  have pn : ∀ {A : Mat ℝ m b} {C : Mat ℝ b x} {P : Mat ℝ m x}, Rounded.matmul u A C P → ‖P‖ ≤ (1 + u) ^ (b + 1) * (‖A‖ * ‖C‖) := by
    intro A C P h
    have h1 := matmul_norm hu h
    have := norm_add_le (P - A * C) (A * C)
    rw [sub_add_cancel] at this
    have := Matrix.linfty_opNorm_mul A C
    linarith
  have := sum_rounding (u := u) (a := (1 + u) ^ (b + 3) - 1) hu g (r := fun j => if j = 0 then 0 else r j) (q := fun j => if j = 0 then r 1 else q j)
    (t := fun j => (dt * if j = 0 then 1 / 2 else 1) • (B (n - j) * k j)) (τ := fun j => |dt| * (‖B (n - j)‖ * ‖k j‖)) (n := n) rfl
    (fun j _ => by
      rw [norm_smul, norm_mul, Real.norm_eq_abs]
      refine mul_le_mul (mul_le_of_le_one_right (abs_nonneg _) ?_) (Matrix.linfty_opNorm_mul _ _) (norm_nonneg _) (abs_nonneg _)
      split_ifs <;> norm_num)
    (fun j hj => by
      have hW : 0 ≤ ‖B (n - j)‖ * ‖k j‖ := by positivity
      rcases Nat.eq_zero_or_pos j with rfl | hj0
      · simp only [if_true, Nat.sub_zero] at hW ⊢
        have e1 := matmul_norm hu hp0
        have e2 := each_norm hu hr1
        have e4 := pn hp0
        rw [Fl] at hh
        rw [abs_mul, abs_of_pos (by norm_num : (0 : ℝ) < 1 / 2)] at hh
        have e5 : |h| ≤ (1 + u) * (1 / 2 * |dt|) := by
          have := abs_add_le (h - 1 / 2 * dt) (1 / 2 * dt)
          rw [sub_add_cancel, abs_mul, abs_of_pos (by norm_num : (0 : ℝ) < 1 / 2)] at this
          linarith
        have e6 : r 1 - (dt * (1 / 2)) • (B n * k 0) = (r 1 - h • p0) + ((h - 1 / 2 * dt) • p0 + (1 / 2 * dt) • (p0 - B n * k 0)) := by
          rw [smul_sub, sub_smul, mul_comm dt]
          abel
        rw [e6]
        refine (norm_add_le _ _).trans ((add_le_add e2 (norm_add_le _ _)).trans ?_)
        rw [norm_smul, norm_smul, norm_smul, Real.norm_eq_abs, Real.norm_eq_abs, Real.norm_eq_abs, abs_mul,
          abs_of_pos (by norm_num : (0 : ℝ) < 1 / 2)]
        generalize ‖B n‖ * ‖k 0‖ = W at *
        have f1 : u * (|h| * ‖p0‖) ≤ u * ((1 + u) * (1 / 2 * |dt|) * ((1 + u) ^ (b + 1) * W)) := by gcongr
        have f2 : |h - 1 / 2 * dt| * ‖p0‖ ≤ u * (1 / 2 * |dt|) * ((1 + u) ^ (b + 1) * W) := by gcongr
        have f3 : 1 / 2 * |dt| * ‖p0 - B n * k 0‖ ≤ 1 / 2 * |dt| * (((1 + u) ^ (b + 1) - 1) * W) := by gcongr
        have f4 : 0 ≤ 1 / 2 * (((1 + u) ^ (b + 3) - 1) * (|dt| * W)) := by positivity
        refine (add_le_add f1 (add_le_add f2 f3)).trans ?_
        rw [e3] at f4 ⊢
        rw [← sub_nonneg]
        refine f4.trans (le_of_eq ?_)
        ring
      · obtain ⟨h1, h2, -⟩ := H j ⟨hj0, hj⟩
        simp only [if_neg (show j ≠ 0 by omega), mul_one]
        have e1 := matmul_norm hu h1
        have e2 := each_norm hu h2
        have e4 := pn h1
        have e6 : q j - dt • (B (n - j) * k j) = (q j - dt • p j) + dt • (p j - B (n - j) * k j) := by
          rw [smul_sub, sub_add_sub_cancel]
        rw [e6]
        refine (norm_add_le _ _).trans ((add_le_add e2 le_rfl).trans ?_)
        rw [norm_smul, norm_smul, Real.norm_eq_abs]
        generalize ‖B (n - j)‖ * ‖k j‖ = W at *
        have f1 : u * (|dt| * ‖p j‖) ≤ u * (|dt| * ((1 + u) ^ (b + 1) * W)) := by gcongr
        have f2 : |dt| * ‖p j - B (n - j) * k j‖ ≤ |dt| * (((1 + u) ^ (b + 1) - 1) * W) := by gcongr
        have f3 : 0 ≤ (1 + u) ^ (b + 1) * u * (1 + u) * (|dt| * W) := by positivity
        refine (add_le_add f1 f2).trans ?_
        rw [e3, ← sub_nonneg]
        refine f3.trans (le_of_eq ?_)
        ring)
    (fun j hj => by
      rcases Nat.eq_zero_or_pos j with rfl | hj0
      · simp only [if_true, zero_add, one_ne_zero, if_false, sub_self, norm_zero]
        positivity
      · simp only [if_neg (show j ≠ 0 by omega), if_neg (show j + 1 ≠ 0 by omega)]
        exact each_norm hu (H j ⟨hj0, hj⟩).2.2)
  rw [show (1 + ((1 + u) ^ (b + 3) - 1)) * (1 + u) ^ n = (1 + u) ^ (b + 3 + n) by rw [add_sub_cancel, ← pow_add]] at this
  simpa only [if_neg (show n ≠ 0 by omega)] using this

/-- One step of a recursion: a sum with known error, an addition and a product. -/
theorem step_core {ρ c G S : ℝ} (hu : 0 ≤ u) (hρ : 0 ≤ ρ) {C C' : Mat ℝ b b} (hc : ‖C‖ ≤ c) (hC : ‖C' - C‖ ≤ ρ * c)
    {X D num s y : Mat ℝ b x} (tS : ‖X‖ ≤ S) (hG : 1 ≤ G) (e1 : ‖num - X‖ ≤ (G - 1) * S) (h2 : Rounded.each u (num + D) s)
    (h3 : Rounded.matmul u C' s y) :
    ‖y - C * (X + D)‖ ≤ ((1 + ρ) * ((1 + u) ^ (b + 1) * ((1 + u) * G)) - 1) * (c * (S + ‖D‖)) := by
  have e2 := each_norm hu h2
  have e3 := matmul_norm hu h3
  have c0 : 0 ≤ c := (norm_nonneg _).trans hc
  have hS : 0 ≤ S := (norm_nonneg _).trans tS
  have hg : 1 ≤ (1 + u) ^ (b + 1) := one_le_pow₀ (by linarith)
  generalize (1 + u) ^ (b + 1) = g at *
  have hD := norm_nonneg D
  have n1 : ‖num + D‖ ≤ G * (S + ‖D‖) := by
    have a1 := norm_add_le (num - X) (X + D)
    rw [show num - X + (X + D) = num + D by abel] at a1
    have a2 := norm_add_le X D
    nlinarith
  have n2 : ‖s‖ ≤ (1 + u) * G * (S + ‖D‖) := by
    have a1 := norm_add_le (s - (num + D)) (num + D)
    rw [sub_add_cancel] at a1
    nlinarith
  have n3 : ‖s - (X + D)‖ ≤ ((1 + u) * G - 1) * (S + ‖D‖) := by
    have a1 := norm_add_le (s - (num + D)) (num - X)
    rw [show s - (num + D) + (num - X) = s - (X + D) by abel] at a1
    nlinarith
  have n4 : ‖C'‖ ≤ (1 + ρ) * c := by
    have a1 := norm_add_le (C' - C) C
    rw [sub_add_cancel] at a1
    linarith
  have a1 : ‖y - C * (X + D)‖ ≤ ‖y - C' * s‖ + (‖C' - C‖ * ‖s‖ + ‖C‖ * ‖s - (X + D)‖) := by
    have := norm_add_le (y - C' * s) (C' * s - C * (X + D))
    rw [sub_add_sub_cancel] at this
    exact this.trans (add_le_add le_rfl (norm_mul_sub_le _ _ _ _))
  have b1 : ‖y - C' * s‖ ≤ (g - 1) * (((1 + ρ) * c) * ((1 + u) * G * (S + ‖D‖))) := by
    refine e3.trans (mul_le_mul_of_nonneg_left ?_ (by linarith))
    exact mul_le_mul n4 n2 (norm_nonneg _) (by positivity)
  have b2 : ‖C' - C‖ * ‖s‖ ≤ ρ * c * ((1 + u) * G * (S + ‖D‖)) := mul_le_mul hC n2 (norm_nonneg _) (by positivity)
  have b3 : ‖C‖ * ‖s - (X + D)‖ ≤ c * (((1 + u) * G - 1) * (S + ‖D‖)) := mul_le_mul hc n3 (norm_nonneg _) c0
  refine a1.trans ((add_le_add b1 (add_le_add b2 b3)).trans (le_of_eq ?_))
  ring

/-- **C187** Every execution of `kernel_second_kind_trapz` in floating point arithmetic is close to the exact result. -/
theorem C187_second_kind_trapz {ρ ρ0 c T MB MD κ dt : ℝ} {L : ℕ} (hu : 0 ≤ u) (hρ : 0 ≤ ρ) (hdt : 0 ≤ dt) (hT : L * dt ≤ T)
    {k0 k0' : Mat ℝ b x} {B0 invB0 : Mat ℝ b b} {Bd : ℕ → Mat ℝ b b} {D ker ker' : ℕ → Mat ℝ b x}
    (h : FKernel.secondKindTrapz L k0 B0 Bd D dt = .ok ker) (h' : Rounded.secondKindTrapz u L k0' invB0 Bd D dt ker')
    (hc : ‖(B0 - ((1 / 2 : ℝ) * dt) • Bd 0)⁻¹‖ ≤ c) (hi : ‖invB0 - (B0 - ((1 / 2 : ℝ) * dt) • Bd 0)⁻¹‖ ≤ ρ * c) (hk0 : ‖k0' - k0‖ ≤ ρ0)
    (hB : ∀ n ≤ L, ‖Bd n‖ ≤ MB) (hD : ∀ n ≤ L, ‖D n‖ ≤ MD) (hk : ∀ n ≤ L, ‖ker n‖ ≤ κ) {η : ℝ}
    (hη : (1 + ρ) * (1 + u) ^ (2 * b + 5 + L) ≤ 1 + η) :
    ∀ n ≤ L, ‖ker' n - ker n‖ ≤ (ρ0 + η * (c * (T * MB * κ + MD))) * Real.exp (c * MB * T * (1 + η)) := by
  obtain ⟨M, hM, h0, h1, -⟩ := FKernel.secondKindTrapz_ok h
  obtain ⟨-, -, hM2⟩ := lapackInv_ok hM
  obtain rfl : (B0 - ((1 / 2 : ℝ) * dt) • Bd 0)⁻¹ = M := Matrix.inv_eq_left_inv hM2
  have h1 : ∀ i, 1 ≤ i → i ≤ L → ker i = (B0 - ((1 / 2 : ℝ) * dt) • Bd 0)⁻¹ *
      (∑ j ∈ range i, (dt * if j = 0 then 1 / 2 else 1) • (Bd (i - j) * ker j) + D i) := by
    intro i hi hiL
    rw [h1 i hi hiL, FKernel.trapzIntegral, forRange_add]
    congr 2
    rw [range_eq_Ico, sum_eq_sum_Ico_succ_bot (show 0 < i by omega), if_pos rfl, Nat.sub_zero, mul_comm dt]
    congr 1
    refine sum_congr rfl fun j hj => ?_
    rw [if_neg (by have := mem_Ico.1 hj; omega), mul_one]
  generalize (B0 - ((1 / 2 : ℝ) * dt) • Bd 0)⁻¹ = C at *
  have c0 : 0 ≤ c := (norm_nonneg _).trans hc
  have B0' : 0 ≤ MB := (norm_nonneg _).trans (hB 0 (by omega))
  have D0 : 0 ≤ MD := (norm_nonneg _).trans (hD 0 (by omega))
  have κ0 : 0 ≤ κ := (norm_nonneg _).trans (hk 0 (by omega))
  have ρ0' : 0 ≤ ρ0 := (norm_nonneg _).trans hk0
  have T0 : 0 ≤ T := le_trans (by positivity) hT
  have η0 : 0 ≤ η := by
    have : 1 ≤ (1 + u) ^ (2 * b + 5 + L) := one_le_pow₀ (by linarith)
    nlinarith
  have step : ∀ i < L + 1, ‖ker' i - ker i‖ ≤ (ρ0 + η * (c * (T * MB * κ + MD))) + c * dt * MB * (1 + η) * ∑ j ∈ range i, ‖ker' j - ker j‖ := by
    intro i hiL
    rcases Nat.eq_zero_or_pos i with rfl | hi0
    · rw [h0, h'.1, range_zero, sum_empty, mul_zero, add_zero]
      refine hk0.trans ?_
      have : 0 ≤ η * (c * (T * MB * κ + MD)) := by positivity
      linarith
    · obtain ⟨num, s, r1, r2, r3⟩ := h'.2 i hi0 (by omega)
      have tS : ‖∑ j ∈ range i, (dt * if j = 0 then 1 / 2 else 1) • (Bd (i - j) * ker' j)‖ ≤ ∑ j ∈ range i, |dt| * (‖Bd (i - j)‖ * ‖ker' j‖) := by
        refine (norm_sum_le _ _).trans (sum_le_sum fun j _ => ?_)
        rw [norm_smul, norm_mul, Real.norm_eq_abs]
        refine mul_le_mul (mul_le_of_le_one_right (abs_nonneg _) ?_) (Matrix.linfty_opNorm_mul _ _) (norm_nonneg _) (abs_nonneg _)
        split_ifs <;> norm_num
      have e1 := step_core hu hρ hc hi tS (one_le_pow₀ (by linarith)) (trapz_rounding hu hi0 r1) r2 r3
      rw [show (1 + u) ^ (b + 1) * ((1 + u) * (1 + u) ^ (b + 3 + i)) = (1 + u) ^ (2 * b + 5 + i) by
        rw [← pow_succ', ← pow_add]; congr 1; omega] at e1
      rw [h1 i hi0 (by omega)]
      have hw : (1 + ρ) * (1 + u) ^ (2 * b + 5 + i) - 1 ≤ η := by
        have : (1 + u) ^ (2 * b + 5 + i) ≤ (1 + u) ^ (2 * b + 5 + L) := pow_le_pow_right₀ (by linarith) (by omega)
        nlinarith
      have hS : ∑ j ∈ range i, |dt| * (‖Bd (i - j)‖ * ‖ker' j‖) ≤ T * MB * κ + dt * MB * ∑ j ∈ range i, ‖ker' j - ker j‖ := by
        have a1 : ∀ j ∈ range i, |dt| * (‖Bd (i - j)‖ * ‖ker' j‖) ≤ dt * MB * κ + dt * MB * ‖ker' j - ker j‖ := by
          intro j hj
          have hj := mem_range.1 hj
          rw [abs_of_nonneg hdt, mul_assoc dt, mul_assoc dt, ← mul_add, ← mul_add]
          refine mul_le_mul_of_nonneg_left (mul_le_mul (hB _ (by omega)) ?_ (norm_nonneg _) B0') hdt
          have := norm_add_le (ker' j - ker j) (ker j)
          rw [sub_add_cancel] at this
          linarith [hk j (by omega)]
        refine (sum_le_sum a1).trans ?_
        rw [sum_add_distrib, sum_const, card_range, nsmul_eq_mul, ← mul_sum]
        have a2 : (i : ℝ) * dt ≤ T := le_trans (by gcongr; exact_mod_cast Nat.lt_succ_iff.1 hiL) hT
        have a3 : (i : ℝ) * (dt * MB * κ) ≤ T * MB * κ := by
          rw [← mul_assoc, ← mul_assoc]
          gcongr
        linarith
      have e2 : ‖C * (∑ j ∈ range i, (dt * if j = 0 then 1 / 2 else 1) • (Bd (i - j) * ker' j) + D i) - C * (∑ j ∈ range i, (dt * if j = 0 then 1 / 2 else 1) • (Bd (i - j) * ker j) + D i)‖ ≤
          c * (dt * MB * ∑ j ∈ range i, ‖ker' j - ker j‖) := by
        rw [← Matrix.mul_sub, add_sub_add_right_eq_sub, ← sum_sub_distrib]
        refine (Matrix.linfty_opNorm_mul _ _).trans (mul_le_mul hc ?_ (norm_nonneg _) c0)
        rw [mul_sum]
        refine (norm_sum_le _ _).trans (sum_le_sum fun j hj => ?_)
        have hj := mem_range.1 hj
        have hw : ‖dt * (if j = 0 then 1 / 2 else 1 : ℝ)‖ ≤ dt := by
          rw [norm_mul, Real.norm_of_nonneg hdt]
          refine mul_le_of_le_one_right hdt ?_
          split_ifs <;> norm_num
        rw [← smul_sub, ← Matrix.mul_sub, norm_smul, mul_assoc]
        refine mul_le_mul hw ((Matrix.linfty_opNorm_mul _ _).trans ?_) (norm_nonneg _) hdt
        exact mul_le_mul_of_nonneg_right (hB _ (by omega)) (norm_nonneg _)
      have e3 := norm_add_le (ker' i - C * (∑ j ∈ range i, (dt * if j = 0 then 1 / 2 else 1) • (Bd (i - j) * ker' j) + D i))
        (C * (∑ j ∈ range i, (dt * if j = 0 then 1 / 2 else 1) • (Bd (i - j) * ker' j) + D i) - C * (∑ j ∈ range i, (dt * if j = 0 then 1 / 2 else 1) • (Bd (i - j) * ker j) + D i))
      rw [sub_add_sub_cancel] at e3
      have e4 : ((1 + ρ) * (1 + u) ^ (2 * b + 5 + i) - 1) * (c * (∑ j ∈ range i, |dt| * (‖Bd (i - j)‖ * ‖ker' j‖) + ‖D i‖)) ≤
          η * (c * ((T * MB * κ + dt * MB * ∑ j ∈ range i, ‖ker' j - ker j‖) + MD)) := by
        refine mul_le_mul hw ?_ (by positivity) η0
        gcongr
        exact hD i (by omega)
      refine e3.trans ((add_le_add (e1.trans e4) e2).trans ?_)
      rw [← sub_nonneg]
      ring_nf
      exact ρ0'
  intro n hn
  refine (gronwall (by positivity) (by positivity) step n (by omega)).trans ?_
  refine mul_le_mul_of_nonneg_left (Real.exp_le_exp.2 ?_) (by positivity)
  have a2 : (n : ℝ) * dt ≤ T := le_trans (by gcongr) hT
  calc c * dt * MB * (1 + η) * n = c * MB * (n * dt) * (1 + η) := by ring
    _ ≤ _ := by gcongr

theorem eta_bound' {ρ : ℝ} {a L : ℕ} (ha : 1 ≤ a) (hu : 0 ≤ u) (hLu : a * (L + 1) * u ≤ 1) (hρ : 0 ≤ ρ) (hρ1 : ρ ≤ 1) :
    (1 + b * ρ) * (1 + u) ^ (a + L) ≤ 1 + (b * ρ + 2 * (1 + b) * (a * ((L + 1) * u))) := by
  have y0 : 0 ≤ a * ((L + 1) * u) := by positivity
  have y1 : a * ((L + 1) * u) ≤ 1 := by linarith
  have p1 : (1 + u) ^ (a + L) ≤ Real.exp (a * ((L + 1) * u)) := by
    calc (1 + u) ^ (a + L) ≤ Real.exp u ^ (a + L) := by
          gcongr
          linarith [Real.add_one_le_exp u]
      _ = Real.exp ((a + L : ℕ) * u) := by rw [Real.exp_nat_mul]
      _ ≤ _ := by
        rw [Real.exp_le_exp, ← mul_assoc]
        refine mul_le_mul_of_nonneg_right ?_ hu
        push_cast
        have ha' : (1 : ℝ) ≤ a := by exact_mod_cast ha
        nlinarith [mul_nonneg (Nat.cast_nonneg (α := ℝ) L) (sub_nonneg.2 ha')]
  have p2 := Real.abs_exp_sub_one_le (x := a * ((L + 1) * u)) (by rwa [abs_of_nonneg y0])
  rw [abs_of_nonneg y0] at p2
  have p3 := le_abs_self (Real.exp (a * ((L + 1) * u)) - 1)
  generalize (a : ℝ) * ((L + 1) * u) = y at *
  have p4 : (1 + u) ^ (a + L) ≤ 1 + 2 * y := by linarith
  refine (mul_le_mul_of_nonneg_left p4 (by positivity)).trans ?_
  have : (b : ℝ) * ρ * y ≤ b * y := by
    refine mul_le_mul_of_nonneg_right (mul_le_of_le_one_right (by positivity) hρ1) y0
  nlinarith

theorem trapz_inv_norm {M B0 B0s b0 : Mat ℝ b b} (hM : M * B0 = 1) {dt ε MB' c : ℝ} (hdt : 0 ≤ dt) (B0' : 0 ≤ MB')
    (bs : ‖B0s - B0‖ ≤ b * ε) (hb : ‖b0‖ ≤ MB') (h1 : ε ≤ 1 / (2 * (‖M‖ * (b + MB') + 1))) (h2 : dt ≤ 1 / (2 * (‖M‖ * (b + MB') + 1)))
    (hc : c = 2 * ‖M‖ + 1) : ‖(B0s - ((1 / 2 : ℝ) * dt) • b0)⁻¹‖ ≤ c := by
  have a0 : ‖B0s - ((1 / 2 : ℝ) * dt) • b0 - B0‖ ≤ b * ε + dt * MB' := by
    rw [sub_right_comm]
    refine (norm_sub_le _ _).trans (add_le_add bs ?_)
    rw [norm_smul, Real.norm_of_nonneg (by positivity)]
    exact mul_le_mul (by linarith) hb (norm_nonneg _) hdt
  have a1 : ‖M‖ * ‖B0s - ((1 / 2 : ℝ) * dt) • b0 - B0‖ ≤ 1 / 2 := by
    have p : 0 < 2 * (‖M‖ * (b + MB') + 1) := by positivity
    have h3 : b * ε + dt * MB' ≤ (b + MB') * (1 / (2 * (‖M‖ * (b + MB') + 1))) := by
      nlinarith [mul_le_mul_of_nonneg_left h1 (Nat.cast_nonneg (α := ℝ) b), mul_le_mul_of_nonneg_right h2 B0']
    refine (mul_le_mul_of_nonneg_left (a0.trans h3) (norm_nonneg M)).trans ?_
    rw [← mul_assoc, mul_one_div, div_le_div_iff₀ p (by norm_num)]
    nlinarith [norm_nonneg M]
  rw [hc]
  linarith [inv_norm_close hM a1]

theorem trapz_rhs_norm {B0 B0s : Mat ℝ b b} {bd : ℕ → Mat ℝ b b} {D : Mat ℝ b x} {ex : ℕ → Mat ℝ b x} {dt ε T MB' κ : ℝ} {m : ℕ} (hdt : 0 ≤ dt)
    (hdt1 : dt ≤ 1) (hT : m * dt ≤ T) (hε1 : ε ≤ 1) (bs : ‖B0s - B0‖ ≤ b * ε) (B0' : 0 ≤ MB') (κ0 : 0 ≤ κ)
    (eqs : B0s * ex m = D + ∑ j ∈ range (m + 1), (dt * if m = 0 then 0 else if j = 0 ∨ j = m then 1 / 2 else 1) • (bd (m - j) * ex j))
    (bB : ∀ j ≤ m, ‖bd j‖ ≤ MB') (bκ : ∀ j ≤ m, ‖ex j‖ ≤ κ) : ‖D‖ ≤ (‖B0‖ + b) * κ + (|T| + 1) * MB' * κ := by
  have a1 := eq_sub_of_add_eq eqs.symm
  have a2 : ‖∑ j ∈ range (m + 1), (dt * if m = 0 then 0 else if j = 0 ∨ j = m then 1 / 2 else 1) • (bd (m - j) * ex j)‖ ≤ (|T| + 1) * MB' * κ := by
    refine (norm_sum_le_of_le (n := fun _ => dt * (MB' * κ)) _ fun j hj => ?_).trans ?_
    · have hj := mem_range.1 hj
      have hw : ‖dt * (if m = 0 then 0 else if j = 0 ∨ j = m then 1 / 2 else 1 : ℝ)‖ ≤ dt := by
        rw [norm_mul, Real.norm_of_nonneg hdt]
        refine mul_le_of_le_one_right hdt ?_
        split_ifs <;> norm_num
      rw [norm_smul]
      refine mul_le_mul hw ((Matrix.linfty_opNorm_mul _ _).trans ?_) (norm_nonneg _) hdt
      exact mul_le_mul (bB _ (by omega)) (bκ _ (by omega)) (norm_nonneg _) B0'
    · rw [sum_const, card_range, nsmul_eq_mul, ← mul_assoc, mul_assoc (|T| + 1)]
      refine mul_le_mul_of_nonneg_right ?_ (by positivity)
      push_cast
      linarith [hT, le_abs_self T]
  have a3 : ‖B0s‖ ≤ ‖B0‖ + b := by
    have := norm_add_le (B0s - B0) B0
    rw [sub_add_cancel] at this
    have : (b : ℝ) * ε ≤ b := mul_le_of_le_one_right (by positivity) hε1
    linarith
  rw [a1]
  refine (norm_sub_le _ _).trans (add_le_add ((Matrix.linfty_opNorm_mul _ _).trans ?_) a2)
  exact mul_le_mul a3 (bκ m le_rfl) (norm_nonneg _) (by positivity)

/-- **C187** The kernel computed by `kernel_second_kind_trapz` in floating point arithmetic differs from that of the continuous equation by at most
a constant times `dt² + ε + (L + 1) u + ρ`. -/
theorem C187_converges {T : ℝ} {B0 : Mat ℝ b b} (hB0 : B0.det ≠ 0) {Bd Bd' : ℝ → Mat ℝ b b} {Dd k k' : ℝ → Mat ℝ b x}
    (hBd : Spec.DerivOn T Bd Bd') (hBd' : Spec.Lip T Bd') (hk : Spec.DerivOn T k k') (hk' : Spec.Lip T k') (heq : Spec.SecondKind T B0 Bd Dd k) :
    ∃ C δ : ℝ, 0 < δ ∧ ∀ (L : ℕ) (dt ε u ρ : ℝ), 0 ≤ dt → dt ≤ δ → 0 ≤ ε → ε ≤ δ → L * dt ≤ T → 0 ≤ u → (2 * b + 5) * (L + 1) * u ≤ 1 →
      0 ≤ ρ → ρ ≤ 1 → ∀ (B0' invB0 : Mat ℝ b b) (bd : ℕ → Mat ℝ b b) (k0 : Mat ℝ b x) (d ker : ℕ → Mat ℝ b x),
        (∀ i j, |B0' i j - B0 i j| ≤ ε) → (∀ n ≤ L, ∀ i j, |bd n i j - Bd (n * dt) i j| ≤ ε) →
        (∀ n ≤ L, ∀ i j, |d n i j - Dd (n * dt) i j| ≤ ε) → (∀ i j, |invB0 i j - (B0' - ((1 / 2 : ℝ) * dt) • bd 0)⁻¹ i j| ≤ ρ) →
        (∀ i j, |k0 i j - (B0'⁻¹ * d 0) i j| ≤ ρ) → Rounded.secondKindTrapz u L k0 invB0 bd d dt ker →
        ∀ n ≤ L, ∀ i j, |ker n i j - k (n * dt) i j| ≤ C * (dt ^ 2 + ε + (L + 1) * u + ρ) := by
  obtain ⟨Q, hQ0, hQ⟩ := trapz_consistent hBd hBd' hk hk'
  obtain ⟨C1, δ1, hδ1, H⟩ := second_kind_common hB0 (lip_of_deriv hBd hBd') (lip_of_deriv hk hk') heq
    (w := fun m j => if m = 0 then 0 else if j = 0 ∨ j = m then 1 / 2 else 1)
    (g := fun h => Q * h ^ 2) (fun m j => by split_ifs <;> norm_num) (fun h hh => by positivity)
    (fun h N hh hN i j => by
      rw [← trapz_as_weights h (fun l => Bd ((N - l : ℕ) * h) * k (l * h))]
      exact hQ h N hh hN i j)
  obtain ⟨MB, hMB0, hMB⟩ := lip_bound (lip_of_deriv hBd hBd')
  obtain ⟨Mk, hMk0, hMk⟩ := lip_bound (lip_of_deriv hk hk')
  obtain ⟨M, hM⟩ : ∃ M : Mat ℝ b b, M * B0 = 1 := ⟨B0⁻¹, Matrix.nonsing_inv_mul _ (isUnit_iff_ne_zero.2 hB0)⟩
  -- the constants
  obtain ⟨c, hc⟩ : ∃ c : ℝ, c = 2 * ‖M‖ + 1 := ⟨_, rfl⟩
  obtain ⟨MB', hMB'⟩ : ∃ y : ℝ, y = MB + b := ⟨_, rfl⟩
  obtain ⟨κ, hκ⟩ : ∃ y : ℝ, y = Mk + x * (|C1| * (Q + 1) * 2) := ⟨_, rfl⟩
  obtain ⟨MD, hMD⟩ : ∃ y : ℝ, y = (‖B0‖ + b) * κ + (|T| + 1) * MB' * κ := ⟨_, rfl⟩
  obtain ⟨W, hW⟩ : ∃ y : ℝ, y = c * (|T| * MB' * κ + MD) := ⟨_, rfl⟩
  obtain ⟨E, hE⟩ : ∃ y : ℝ, y = Real.exp (c * MB' * |T| * (3 * b + 3)) := ⟨_, rfl⟩
  have c0 : 0 < c := by rw [hc]; positivity
  have B0' : 0 ≤ MB' := by rw [hMB']; positivity
  have κ0 : 0 ≤ κ := by rw [hκ]; positivity
  have D0 : 0 ≤ MD := by rw [hMD]; positivity
  have W0 : 0 ≤ W := by rw [hW]; positivity
  have E0 : 0 < E := by rw [hE]; positivity
  refine ⟨|C1| * (Q + 1) + (x + (b + 2 * (1 + b) * (2 * b + 5)) * W) * E, min δ1 (min 1 (1 / (2 * (‖M‖ * (b + MB') + 1)))), by positivity,
    fun L dt ε u ρ hdt hdtδ hε hεδ hLT hu hLu hρ hρ1 B0s invB0 bd k0 d ker n1 n2 n3 n4 n5 hfl n hn i j => ?_⟩
  have hdt1 : dt ≤ 1 := hdtδ.trans ((min_le_right _ _).trans (min_le_left _ _))
  have hε1 : ε ≤ 1 := hεδ.trans ((min_le_right _ _).trans (min_le_left _ _))
  have T0 : 0 ≤ T := le_trans (by positivity) hLT
  have hin : ∀ m ≤ L, ((m : ℝ) * dt) ∈ Set.Icc 0 T := fun m hm => ⟨by positivity, le_trans (by gcongr) hLT⟩
  have H1 := fun ker => H L dt ε hdt (hdtδ.trans (min_le_left _ _)) hε (hεδ.trans (min_le_left _ _)) hLT B0s bd d ker n1 n2 n3
  obtain ⟨ex, hex⟩ := FKernel.secondKindTrapz_total L (B0s⁻¹ * d 0) (H1 0).2.1 d
  obtain ⟨hd, hd2, Hex⟩ := H1 ex
  obtain ⟨s0, s1⟩ := FKernel.secondKindTrapz_solves hex
  have eqs : ∀ m ≤ L, B0s * ex m = d m + ∑ j ∈ range (m + 1), (dt * if m = 0 then 0 else if j = 0 ∨ j = m then 1 / 2 else 1) • (bd (m - j) * ex j) := by
    intro m hm
    rcases Nat.eq_zero_or_pos m with rfl | hm0
    · rw [s0, ← Matrix.mul_assoc, Matrix.mul_nonsing_inv _ (isUnit_iff_ne_zero.2 hd), Matrix.one_mul]
      simp
    · have := s1 m hm0 hm
      rw [Spec.SecondKindTrapzAt, sub_eq_iff_eq_add] at this
      rw [this, trapz_as_weights]
      rfl
  have hex1 := Hex eqs
  have near : ∀ m ≤ L, ∀ i j, |ex m i j - k (m * dt) i j| ≤ |C1| * (Q + 1) * (dt ^ 2 + ε) := fun m hm i j => by
    refine (hex1 m hm i j).trans ?_
    have : C1 * (Q * dt ^ 2 + ε) ≤ |C1| * (Q * dt ^ 2 + ε) := mul_le_mul_of_nonneg_right (le_abs_self _) (by positivity)
    have : |C1| * (Q * dt ^ 2 + ε) ≤ |C1| * ((Q + 1) * (dt ^ 2 + ε)) := by
      gcongr
      nlinarith
    linarith
  have bκ : ∀ m ≤ L, ‖ex m‖ ≤ κ := by
    intro m hm
    have a1 := norm_le_of_entries (A := ex m - k (m * dt)) (by positivity) (near m hm)
    have a2 := norm_add_le (ex m - k (m * dt)) (k (m * dt))
    rw [sub_add_cancel] at a2
    have a3 : (x : ℝ) * (|C1| * (Q + 1) * (dt ^ 2 + ε)) ≤ x * (|C1| * (Q + 1) * 2) := by
      gcongr
      linarith [pow_le_one₀ hdt hdt1 (n := 2)]
    rw [hκ]
    linarith [hMk _ (hin m hm)]
  have bB : ∀ m ≤ L, ‖bd m‖ ≤ MB' := by
    intro m hm
    have a1 := norm_le_of_entries (A := bd m - Bd (m * dt)) hε (n2 m hm)
    have a2 := norm_add_le (bd m - Bd (m * dt)) (Bd (m * dt))
    rw [sub_add_cancel] at a2
    have a3 : (b : ℝ) * ε ≤ b := mul_le_of_le_one_right (by positivity) hε1
    rw [hMB']
    linarith [hMB _ (hin m hm)]
  have bs : ‖B0s - B0‖ ≤ b * ε := norm_le_of_entries hε n1
  have bD : ∀ m ≤ L, ‖d m‖ ≤ MD := fun m hm => hMD ▸ trapz_rhs_norm hdt hdt1 (hin m hm).2 hε1 bs B0' κ0 (eqs m hm) (fun j hj => bB j (hj.trans hm)) (fun j hj => bκ j (hj.trans hm))
  have bc := trapz_inv_norm hM hdt B0' bs (bB 0 (by omega)) (hεδ.trans ((min_le_right _ _).trans (min_le_right _ _)))
    (hdtδ.trans ((min_le_right _ _).trans (min_le_right _ _))) hc
  have η1 := eta_bound' (b := b) (a := 2 * b + 5) (by omega) hu (by push_cast; exact hLu) hρ hρ1
  push_cast at η1
  have key := C187_second_kind_trapz (u := u) (ρ := b * ρ) (ρ0 := x * ρ) (T := T) hu (by positivity) hdt hLT hex hfl bc
    ((norm_le_of_entries hρ fun i j => n4 i j).trans (by nlinarith [mul_nonneg (Nat.cast_nonneg (α := ℝ) b) hρ, norm_nonneg M]))
    (norm_le_of_entries hρ fun i j => n5 i j) bB bD bκ η1 n hn
  have y0 : 0 ≤ (L + 1) * u := by positivity
  have y1 : (2 * b + 5) * ((L + 1) * u) ≤ 1 := by linarith
  have η2 : b * ρ + 2 * (1 + b) * ((2 * b + 5) * ((L + 1) * u)) ≤ 3 * b + 2 := by
    have a1 : (b : ℝ) * ρ ≤ b := mul_le_of_le_one_right (by positivity) hρ1
    have a2 : 2 * (1 + b) * ((2 * b + 5) * ((L + 1) * u)) ≤ 2 * (1 + b) * 1 := by gcongr
    linarith
  have η3 : b * ρ + 2 * (1 + b) * ((2 * b + 5) * ((L + 1) * u)) ≤ (b + 2 * (1 + b) * (2 * b + 5)) * ((L + 1) * u + ρ) := by
    have a1 : 0 ≤ (b : ℝ) * ((L + 1) * u) := by positivity
    have a2 : 0 ≤ 2 * (1 + (b : ℝ)) * (2 * b + 5) * ρ := by positivity
    rw [show (b + 2 * (1 + b) * (2 * b + 5)) * ((L + 1) * u + ρ) = (b * ρ + 2 * (1 + b) * ((2 * b + 5) * ((L + 1) * u))) +
      ((b : ℝ) * ((L + 1) * u) + 2 * (1 + (b : ℝ)) * (2 * b + 5) * ρ) by ring]
    linarith
  have hTa : |T| = T := abs_of_nonneg T0
  have e1 : Real.exp (c * MB' * T * (1 + (b * ρ + 2 * (1 + b) * ((2 * b + 5) * ((L + 1) * u))))) ≤ E := by
    rw [hE, hTa, Real.exp_le_exp]
    exact mul_le_mul_of_nonneg_left (by linarith) (by positivity)
  rw [show c * (T * MB' * κ + MD) = W by rw [hW, hTa]] at key
  have e2 : x * ρ + (b * ρ + 2 * (1 + b) * ((2 * b + 5) * ((L + 1) * u))) * W ≤
      (x + (b + 2 * (1 + b) * (2 * b + 5)) * W) * ((L + 1) * u + ρ) := by
    have a1 := mul_le_mul_of_nonneg_right η3 W0
    have a2 : 0 ≤ (x : ℝ) * ((L + 1) * u) := by positivity
    rw [add_mul (x : ℝ), mul_add (x : ℝ), mul_right_comm (_ + _) W]
    linarith
  have e3 := key.trans (mul_le_mul e2 e1 (Real.exp_pos _).le (by positivity))
  have e4 := entry_le_norm (ker n - ex n) i j
  have e5 := near n hn i j
  have e6 := abs_add_le ((ker n - ex n) i j) (ex n i j - k (n * dt) i j)
  rw [Matrix.sub_apply, sub_add_sub_cancel] at e6
  rw [Matrix.sub_apply] at e4
  have f1 : 0 ≤ |C1| * (Q + 1) * ((L + 1) * u + ρ) := by positivity
  have f2 : 0 ≤ (x + (b + 2 * (1 + b) * (2 * b + 5)) * W) * E * (dt ^ 2 + ε) := by positivity
  refine e6.trans ((add_le_add (e4.trans e3) e5).trans ?_)
  rw [← sub_nonneg]
  refine (add_nonneg f1 f2).trans (le_of_eq ?_)
  ring

theorem trapz_exact (hu : 0 ≤ u) (dt : ℝ) (n : ℕ) (B : ℕ → Mat ℝ m b) (k : ℕ → Mat ℝ b x) :
    Rounded.trapzIntegral u dt n B k (FKernel.trapzIntegral dt n B k) := by
  refine ⟨1 / 2 * dt, _, fun l => FKernel.trapzIntegral dt n B k - ∑ j ∈ Ico l n, dt • (B (n - j) * k j), Fl.refl hu _, matmul_exact hu _ _, ?_,
    fun j _ hj => ⟨_, _, matmul_exact hu _ _, each_exact hu _, ?_⟩, by simp⟩
  · have : FKernel.trapzIntegral dt n B k - ∑ j ∈ Ico 1 n, dt • (B (n - j) * k j) = (1 / 2 * dt) • (B n * k 0) := by
      rw [FKernel.trapzIntegral, forRange_add, add_sub_cancel_right]
    dsimp only
    rw [this]
    exact each_exact hu _
  · have : FKernel.trapzIntegral dt n B k - ∑ j ∈ Ico j n, dt • (B (n - j) * k j) + dt • (B (n - j) * k j) =
        FKernel.trapzIntegral dt n B k - ∑ j ∈ Ico (j + 1) n, dt • (B (n - j) * k j) := by
      rw [sum_eq_sum_Ico_succ_bot hj]
      abel
    dsimp only
    rw [this]
    exact each_exact hu _

/-- **C187** A calculation without rounding errors is one of those considered. -/
theorem C187_executions (hu : 0 ≤ u) (L : ℕ) {k0 : Mat ℝ b x} {B0 : Mat ℝ b b} {Bd : ℕ → Mat ℝ b b} {D : ℕ → Mat ℝ b x} {dt : ℝ} {ker : ℕ → Mat ℝ b x}
    (h : FKernel.secondKindTrapz L k0 B0 Bd D dt = .ok ker) :
    Rounded.secondKindTrapz u L k0 (B0 - ((1 / 2 : ℝ) * dt) • Bd 0)⁻¹ Bd D dt ker := by
  obtain ⟨M, hM, h0, h1, -⟩ := FKernel.secondKindTrapz_ok h
  obtain ⟨-, -, hM2⟩ := lapackInv_ok hM
  obtain rfl : (B0 - ((1 / 2 : ℝ) * dt) • Bd 0)⁻¹ = M := Matrix.inv_eq_left_inv hM2
  refine ⟨h0, fun i hi hiL => ⟨_, _, trapz_exact hu _ _ _ _, each_exact hu _, ?_⟩⟩
  rw [h1 i hi hiL]
  exact matmul_exact hu _ _

/-- A calculation in which the last addition of each step is rounded up. -/
theorem roundedUpTrapz (hu : 0 ≤ u) (L : ℕ) :
    Rounded.secondKindTrapz u L (1 : Mat ℝ 1 1) 1 (fun _ => 0) (fun _ => 1) 1 (fun i => if i = 0 then 1 else (1 + u) • 1) := by
  refine ⟨rfl, fun i hi _ => ⟨0, (1 + u) • 1, ?_, ?_, ?_⟩⟩
  · have := trapz_exact hu 1 i (fun _ => (0 : Mat ℝ 1 1)) (fun i => if i = 0 then (1 : Mat ℝ 1 1) else (1 + u) • 1)
    rw [FKernel.trapzIntegral, forRange_add] at this
    simpa using this
  · intro a c
    fin_cases a; fin_cases c
    simp [Fl, abs_of_nonneg hu]
  · simp only [if_neg (show i ≠ 0 by omega)]
    simpa using matmul_exact hu (1 : Mat ℝ 1 1) ((1 + u) • (1 : Mat ℝ 1 1))

example (hu : 0 ≤ u) (L : ℕ) {ker : ℕ → Mat ℝ 1 1} (h : FKernel.secondKindTrapz L (1 : Mat ℝ 1 1) 1 (fun _ => 0) (fun _ => 1) 1 = .ok ker)
    (hk : ∀ n ≤ L, ‖ker n‖ ≤ 1) :=
  C187_second_kind_trapz (ρ := 0) (ρ0 := 0) (c := 1) (T := L) (MB := 0) (MD := 1) hu le_rfl zero_le_one (by simp) h (roundedUpTrapz hu L) (by simp)
    (by simp) (by simp) (by simp) (by simp) hk (η := (1 + u) ^ (2 * 1 + 5 + L) - 1) (by simp)

example := C187_converges (by simp) exBd_deriv (lip_const 1 0) exK_deriv (lip_const 1 _) exSecond

end

end Verif
