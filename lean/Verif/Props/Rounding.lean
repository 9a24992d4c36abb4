import Verif.Model.Rounding
import Verif.Props.Converge

/-!
# Rounding errors (C186)
-/

namespace Verif

open Finset
open scoped Matrix.Norms.Operator

section
variable {m n b x : ℕ} {u : ℝ}

/-- Errors in a sum of terms `t j`, each of which is known up to the fraction `a` of `τ j`. -/
theorem sum_rounding {E : Type*} [SeminormedAddCommGroup E] {a : ℝ} (hu : 0 ≤ u) (ha : 0 ≤ a) {r q t : ℕ → E} {τ : ℕ → ℝ} {n : ℕ} (h0 : r 0 = 0)
    (ht : ∀ j < n, ‖t j‖ ≤ τ j) (hq : ∀ j < n, ‖q j - t j‖ ≤ a * τ j) (hr : ∀ j < n, ‖r (j + 1) - (r j + q j)‖ ≤ u * ‖r j + q j‖) :
    ‖r n - ∑ j ∈ range n, t j‖ ≤ ((1 + a) * (1 + u) ^ n - 1) * ∑ j ∈ range n, τ j := by
  induction n with
  | zero => simp [h0]
  | succ n ih =>
    have ih := ih (fun j hj => ht j (by omega)) (fun j hj => hq j (by omega)) (fun j hj => hr j (by omega))
    have t0 : 0 ≤ ∑ j ∈ range n, τ j := sum_nonneg fun j hj => (norm_nonneg _).trans (ht j (by have := mem_range.1 hj; omega))
    have tn : 0 ≤ τ n := (norm_nonneg _).trans (ht n (by omega))
    have st : ‖∑ j ∈ range n, t j‖ ≤ ∑ j ∈ range n, τ j := (norm_sum_le _ _).trans (sum_le_sum fun j hj => ht j (by have := mem_range.1 hj; omega))
    have g1 : 1 ≤ (1 + u) ^ n := one_le_pow₀ (by linarith)
    have g2 : a ≤ (1 + a) * (1 + u) ^ n - 1 := by nlinarith
    rw [sum_range_succ, sum_range_succ]
    have e1 : ‖r n + q n - (∑ j ∈ range n, t j + t n)‖ ≤ ((1 + a) * (1 + u) ^ n - 1) * (∑ j ∈ range n, τ j + τ n) := by
      rw [add_sub_add_comm]
      refine (norm_add_le _ _).trans ?_
      have := hq n (by omega)
      nlinarith
    have e2 : ‖r n + q n‖ ≤ (1 + a) * (1 + u) ^ n * (∑ j ∈ range n, τ j + τ n) := by
      have h1 := norm_add_le (r n + q n - (∑ j ∈ range n, t j + t n)) (∑ j ∈ range n, t j + t n)
      rw [sub_add_cancel] at h1
      have h2 := norm_add_le (∑ j ∈ range n, t j) (t n)
      have h3 := ht n (by omega)
      nlinarith
    have e3 := norm_add_le (r (n + 1) - (r n + q n)) (r n + q n - (∑ j ∈ range n, t j + t n))
    rw [sub_add_sub_cancel] at e3
    refine e3.trans ((add_le_add ((hr n (by omega)).trans (mul_le_mul_of_nonneg_left e2 hu)) e1).trans (le_of_eq ?_))
    ring

theorem norm_mono {A B : Mat ℝ m n} (h : ∀ i j, |A i j| ≤ B i j) : ‖A‖ ≤ ‖B‖ := by
  rw [Matrix.linfty_opNorm_def, Matrix.linfty_opNorm_def]
  have : (univ.sup fun i => ∑ j, ‖A i j‖₊) ≤ univ.sup fun i => ∑ j, ‖B i j‖₊ := by
    refine Finset.sup_le fun i _ => le_trans (sum_le_sum fun j _ => ?_) (Finset.le_sup (f := fun i => ∑ j, ‖B i j‖₊) (mem_univ i))
    have : ‖A i j‖ ≤ ‖B i j‖ := (h i j).trans (le_abs_self _)
    exact_mod_cast this
  exact_mod_cast this

theorem norm_abs_mat (A : Mat ℝ m n) : ‖(Matrix.of fun i j => |A i j| : Mat ℝ m n)‖ = ‖A‖ := by
  rw [Matrix.linfty_opNorm_def, Matrix.linfty_opNorm_def]
  simp

theorem each_norm (hu : 0 ≤ u) {A B : Mat ℝ m n} (h : Rounded.each u A B) : ‖B - A‖ ≤ u * ‖A‖ := by
  have := norm_mono (A := B - A) (B := u • Matrix.of fun i j => |A i j|) fun i j => h i j
  rwa [norm_smul, norm_abs_mat, Real.norm_of_nonneg hu] at this

theorem matmul_norm (hu : 0 ≤ u) {A : Mat ℝ m b} {B : Mat ℝ b n} {C : Mat ℝ m n} (h : Rounded.matmul u A B C) :
    ‖C - A * B‖ ≤ ((1 + u) ^ (b + 1) - 1) * (‖A‖ * ‖B‖) := by
  have g : 0 ≤ (1 + u) ^ (b + 1) - 1 := by linarith [one_le_pow₀ (show 1 ≤ 1 + u by linarith) (n := b + 1)]
  have key : ∀ i k, |(C - A * B) i k| ≤
      (((1 + u) ^ (b + 1) - 1) • ((Matrix.of fun i j => |A i j| : Mat ℝ m b) * (Matrix.of fun i j => |B i j| : Mat ℝ b n))) i k := by
    intro i k
    obtain ⟨σ, s, h0, hs, hC⟩ := h i k
    choose p hp hp' using hs
    have := sum_rounding (u := u) (a := u) hu hu (r := s) (q := fun l => if c : l < b then p ⟨l, c⟩ else 0)
      (t := fun l => if c : l < b then A i (σ ⟨l, c⟩) * B (σ ⟨l, c⟩) k else 0)
      (τ := fun l => if c : l < b then |A i (σ ⟨l, c⟩)| * |B (σ ⟨l, c⟩) k| else 0) (n := b) h0
      (fun l hl => by simp only [hl, dif_pos, Real.norm_eq_abs, abs_mul]; exact le_rfl)
      (fun l hl => by
        have := hp ⟨l, hl⟩
        simp only [hl, dif_pos, Real.norm_eq_abs]
        rwa [Fl, abs_mul] at this)
      (fun l hl => by
        have := hp' ⟨l, hl⟩
        simp only [hl, dif_pos, Real.norm_eq_abs]
        exact this)
    rw [← Fin.sum_univ_eq_sum_range (fun l => if c : l < b then A i (σ ⟨l, c⟩) * B (σ ⟨l, c⟩) k else 0),
      ← Fin.sum_univ_eq_sum_range (fun l => if c : l < b then |A i (σ ⟨l, c⟩)| * |B (σ ⟨l, c⟩) k| else 0)] at this
    simp only [Fin.is_lt, dif_pos, Fin.eta] at this
    rw [Equiv.sum_comp σ fun l => A i l * B l k, Equiv.sum_comp σ fun l => |A i l| * |B l k|, ← hC] at this
    rw [Matrix.sub_apply, Matrix.smul_apply, Matrix.mul_apply, Matrix.mul_apply, smul_eq_mul, pow_succ']
    exact this
  have h1 := norm_mono key
  rw [norm_smul, Real.norm_of_nonneg g] at h1
  refine h1.trans (mul_le_mul_of_nonneg_left ?_ g)
  refine (Matrix.linfty_opNorm_mul _ _).trans (le_of_eq ?_)
  rw [norm_abs_mat, norm_abs_mat]

theorem rect_rounding (hu : 0 ≤ u) {dt : ℝ} {B : ℕ → Mat ℝ m b} {k : ℕ → Mat ℝ b x} {res : Mat ℝ m x} (h : Rounded.rectIntegral u dt n B k res) :
    ‖res - ∑ j ∈ range n, dt • (B (n - j) * k j)‖ ≤ ((1 + u) ^ (b + 2 + n) - 1) * ∑ j ∈ range n, |dt| * (‖B (n - j)‖ * ‖k j‖) := by
  obtain ⟨r, h0, hr, rfl⟩ := h
  have hr : ∀ j, ∃ p q, j < n → Rounded.matmul u (B (n - j)) (k j) p ∧ Rounded.each u (dt • p) q ∧ Rounded.each u (r j + q) (r (j + 1)) := by
    intro j
    by_cases c : j < n
    · obtain ⟨p, q, h⟩ := hr j c
      exact ⟨p, q, fun _ => h⟩
    · exact ⟨0, 0, fun h => absurd h c⟩
  choose p q H using hr
  have g : 0 ≤ (1 + u) ^ (b + 2) - 1 := by linarith [one_le_pow₀ (show 1 ≤ 1 + u by linarith) (n := b + 2)]
  have := sum_rounding (u := u) (a := (1 + u) ^ (b + 2) - 1) hu g (r := r) (q := q) (t := fun j => dt • (B (n - j) * k j))
    (τ := fun j => |dt| * (‖B (n - j)‖ * ‖k j‖)) (n := n) h0
    (fun j _ => by
      rw [norm_smul, Real.norm_eq_abs]
      exact mul_le_mul_of_nonneg_left (Matrix.linfty_opNorm_mul _ _) (abs_nonneg _))
    (fun j hj => by
      obtain ⟨h1, h2, -⟩ := H j hj
      have e1 := matmul_norm hu h1
      have e2 := each_norm hu h2
      have e3 := norm_add_le (q j - dt • p j) (dt • (p j - B (n - j) * k j))
      rw [smul_sub, sub_add_sub_cancel] at e3
      have e4 : ‖p j‖ ≤ (1 + u) ^ (b + 1) * (‖B (n - j)‖ * ‖k j‖) := by
        have := norm_add_le (p j - B (n - j) * k j) (B (n - j) * k j)
        rw [sub_add_cancel] at this
        have := Matrix.linfty_opNorm_mul (B (n - j)) (k j)
        linarith
      rw [← smul_sub, norm_smul dt (p j - _), Real.norm_eq_abs] at e3
      rw [norm_smul, Real.norm_eq_abs] at e2
      have e5 : u * (|dt| * ‖p j‖) ≤ u * (|dt| * ((1 + u) ^ (b + 1) * (‖B (n - j)‖ * ‖k j‖))) := by gcongr
      have e6 := mul_le_mul_of_nonneg_left e1 (abs_nonneg dt)
      refine e3.trans ((add_le_add (e2.trans e5) e6).trans (le_of_eq ?_))
      rw [show b + 2 = b + 1 + 1 from rfl, pow_succ (1 + u) (b + 1)]
      ring)
    (fun j hj => each_norm hu (H j hj).2.2)
  rw [show (1 + ((1 + u) ^ (b + 2) - 1)) * (1 + u) ^ n = (1 + u) ^ (b + 2 + n) by rw [add_sub_cancel, ← pow_add]] at this
  exact this

/-- One step of the recursion. -/
theorem step_rounding {ρ c dt : ℝ} (hu : 0 ≤ u) (hρ : 0 ≤ ρ) {C C' : Mat ℝ b b} (hc : ‖C‖ ≤ c) (hC : ‖C' - C‖ ≤ ρ * c)
    {B : ℕ → Mat ℝ b b} {k : ℕ → Mat ℝ b x} {D num s y : Mat ℝ b x} (h1 : Rounded.rectIntegral u dt n B k num) (h2 : Rounded.each u (num + D) s)
    (h3 : Rounded.matmul u C' s y) :
    ‖y - C * (∑ j ∈ range n, dt • (B (n - j) * k j) + D)‖ ≤
      ((1 + ρ) * (1 + u) ^ (2 * b + 4 + n) - 1) * (c * (∑ j ∈ range n, |dt| * (‖B (n - j)‖ * ‖k j‖) + ‖D‖)) := by
  have e1 := rect_rounding hu h1
  have e2 := each_norm hu h2
  have e3 := matmul_norm hu h3
  have c0 : 0 ≤ c := (norm_nonneg _).trans hc
  have tS : ‖∑ j ∈ range n, dt • (B (n - j) * k j)‖ ≤ ∑ j ∈ range n, |dt| * (‖B (n - j)‖ * ‖k j‖) := by
    refine (norm_sum_le _ _).trans (sum_le_sum fun j _ => ?_)
    rw [norm_smul, Real.norm_eq_abs]
    exact mul_le_mul_of_nonneg_left (Matrix.linfty_opNorm_mul _ _) (abs_nonneg _)
  generalize (∑ j ∈ range n, dt • (B (n - j) * k j)) = X at *
  generalize (∑ j ∈ range n, |dt| * (‖B (n - j)‖ * ‖k j‖)) = S at *
  have hS : 0 ≤ S := (norm_nonneg _).trans tS
  have hG : 1 ≤ (1 + u) ^ (b + 2 + n) := one_le_pow₀ (by linarith)
  have hg : 1 ≤ (1 + u) ^ (b + 1) := one_le_pow₀ (by linarith)
  rw [show (1 + u) ^ (2 * b + 4 + n) = (1 + u) ^ (b + 1) * ((1 + u) * (1 + u) ^ (b + 2 + n)) by
    rw [← pow_succ', ← pow_add]; congr 1; omega]
  generalize (1 + u) ^ (b + 2 + n) = G at *
  generalize (1 + u) ^ (b + 1) = g at *
  have hD := norm_nonneg D
  have n1 : ‖num + D‖ ≤ G * (S + ‖D‖) := by
    have a1 := norm_add_le (num - X) (X + D)
    rw [show num - X + (X + D) = num + D by abel] at a1
    have a2 := norm_add_le X D
    nlinarith
  have n2 : ‖s‖ ≤ (1 + u) * G * (S + ‖D‖) := by
    have a1 := norm_add_le (s - (num + D)) (num + D)
    rw [sub_add_cancel] at a1
    nlinarith
  have n3 : ‖s - (X + D)‖ ≤ ((1 + u) * G - 1) * (S + ‖D‖) := by
    have a1 := norm_add_le (s - (num + D)) (num - X)
    rw [show s - (num + D) + (num - X) = s - (X + D) by abel] at a1
    nlinarith
  have n4 : ‖C'‖ ≤ (1 + ρ) * c := by
    have a1 := norm_add_le (C' - C) C
    rw [sub_add_cancel] at a1
    linarith
  have a1 : ‖y - C * (X + D)‖ ≤ ‖y - C' * s‖ + (‖C' - C‖ * ‖s‖ + ‖C‖ * ‖s - (X + D)‖) := by
    have := norm_add_le (y - C' * s) (C' * s - C * (X + D))
    rw [sub_add_sub_cancel] at this
    exact this.trans (add_le_add le_rfl (norm_mul_sub_le _ _ _ _))
  have b1 : ‖y - C' * s‖ ≤ (g - 1) * (((1 + ρ) * c) * ((1 + u) * G * (S + ‖D‖))) := by
    refine e3.trans (mul_le_mul_of_nonneg_left ?_ (by linarith))
    exact mul_le_mul n4 n2 (norm_nonneg _) (by positivity)
  have b2 : ‖C' - C‖ * ‖s‖ ≤ ρ * c * ((1 + u) * G * (S + ‖D‖)) := mul_le_mul hC n2 (norm_nonneg _) (by positivity)
  have b3 : ‖C‖ * ‖s - (X + D)‖ ≤ c * (((1 + u) * G - 1) * (S + ‖D‖)) := mul_le_mul hc n3 (norm_nonneg _) c0
  refine a1.trans ((add_le_add b1 (add_le_add b2 b3)).trans (le_of_eq ?_))
  ring

/-- **C186** Every execution of `kernel_second_kind_rect` in floating point arithmetic is close to the exact result, with a bound that
grows with the number of points at most like that number. -/
theorem C186_second_kind_rect {ρ ρ0 c T MB MD κ dt : ℝ} {L : ℕ} (hu : 0 ≤ u) (hρ : 0 ≤ ρ) (hdt : 0 ≤ dt) (hT : L * dt ≤ T)
    {k0 k0' : Mat ℝ b x} {B0 invB0 : Mat ℝ b b} {Bd : ℕ → Mat ℝ b b} {D ker ker' : ℕ → Mat ℝ b x}
    (h : FKernel.secondKindRect L k0 B0 Bd D dt = .ok ker) (h' : Rounded.secondKindRect u L k0' invB0 Bd D dt ker')
    (hc : ‖B0⁻¹‖ ≤ c) (hi : ‖invB0 - B0⁻¹‖ ≤ ρ * c) (hk0 : ‖k0' - k0‖ ≤ ρ0) (hB : ∀ n ≤ L, ‖Bd n‖ ≤ MB) (hD : ∀ n ≤ L, ‖D n‖ ≤ MD)
    (hk : ∀ n ≤ L, ‖ker n‖ ≤ κ) {η : ℝ} (hη : (1 + ρ) * (1 + u) ^ (2 * b + 4 + L) ≤ 1 + η) :
    ∀ n ≤ L, ‖ker' n - ker n‖ ≤ (ρ0 + η * (c * (T * MB * κ + MD))) * Real.exp (c * MB * T * (1 + η)) := by
  obtain ⟨M, hM, h0, h1, -⟩ := FKernel.secondKindRect_ok h
  obtain ⟨-, -, hM2⟩ := lapackInv_ok hM
  obtain rfl : B0⁻¹ = M := Matrix.inv_eq_left_inv hM2
  have c0 : 0 ≤ c := (norm_nonneg _).trans hc
  have B0' : 0 ≤ MB := (norm_nonneg _).trans (hB 0 (by omega))
  have D0 : 0 ≤ MD := (norm_nonneg _).trans (hD 0 (by omega))
  have κ0 : 0 ≤ κ := (norm_nonneg _).trans (hk 0 (by omega))
  have ρ0' : 0 ≤ ρ0 := (norm_nonneg _).trans hk0
  have T0 : 0 ≤ T := le_trans (by positivity) hT
  have η0 : 0 ≤ η := by
    have : 1 ≤ (1 + u) ^ (2 * b + 4 + L) := one_le_pow₀ (by linarith)
    nlinarith
  have step : ∀ i < L + 1, ‖ker' i - ker i‖ ≤ (ρ0 + η * (c * (T * MB * κ + MD))) + c * dt * MB * (1 + η) * ∑ j ∈ range i, ‖ker' j - ker j‖ := by
    intro i hiL
    rcases Nat.eq_zero_or_pos i with rfl | hi0
    · rw [h0, h'.1, range_zero, sum_empty, mul_zero, add_zero]
      refine hk0.trans ?_
      have : 0 ≤ η * (c * (T * MB * κ + MD)) := by positivity
      linarith
    · obtain ⟨num, s, r1, r2, r3⟩ := h'.2 i hi0 (by omega)
      have e1 := step_rounding hu hρ hc hi r1 r2 r3
      rw [h1 i hi0 (by omega)]
      have hw : (1 + ρ) * (1 + u) ^ (2 * b + 4 + i) - 1 ≤ η := by
        have : (1 + u) ^ (2 * b + 4 + i) ≤ (1 + u) ^ (2 * b + 4 + L) := pow_le_pow_right₀ (by linarith) (by omega)
        nlinarith
      have hS : ∑ j ∈ range i, |dt| * (‖Bd (i - j)‖ * ‖ker' j‖) ≤ T * MB * κ + dt * MB * ∑ j ∈ range i, ‖ker' j - ker j‖ := by
        have a1 : ∀ j ∈ range i, |dt| * (‖Bd (i - j)‖ * ‖ker' j‖) ≤ dt * MB * κ + dt * MB * ‖ker' j - ker j‖ := by
          intro j hj
          have hj := mem_range.1 hj
          rw [abs_of_nonneg hdt, mul_assoc dt, mul_assoc dt, ← mul_add, ← mul_add]
          refine mul_le_mul_of_nonneg_left (mul_le_mul (hB _ (by omega)) ?_ (norm_nonneg _) B0') hdt
          have := norm_add_le (ker' j - ker j) (ker j)
          rw [sub_add_cancel] at this
          linarith [hk j (by omega)]
        refine (sum_le_sum a1).trans ?_
        rw [sum_add_distrib, sum_const, card_range, nsmul_eq_mul, ← mul_sum]
        have a2 : (i : ℝ) * dt ≤ T := le_trans (by gcongr; exact_mod_cast Nat.lt_succ_iff.1 hiL) hT
        have a3 : (i : ℝ) * (dt * MB * κ) ≤ T * MB * κ := by
          rw [← mul_assoc, ← mul_assoc]
          gcongr
        linarith
      have e2 : ‖B0⁻¹ * (∑ j ∈ range i, dt • (Bd (i - j) * ker' j) + D i) - B0⁻¹ * (∑ j ∈ range i, dt • (Bd (i - j) * ker j) + D i)‖ ≤
          c * (dt * MB * ∑ j ∈ range i, ‖ker' j - ker j‖) := by
        rw [← Matrix.mul_sub, add_sub_add_right_eq_sub, ← sum_sub_distrib]
        refine (Matrix.linfty_opNorm_mul _ _).trans (mul_le_mul hc ?_ (norm_nonneg _) c0)
        rw [mul_sum]
        refine (norm_sum_le _ _).trans (sum_le_sum fun j hj => ?_)
        have hj := mem_range.1 hj
        rw [← smul_sub, ← Matrix.mul_sub, norm_smul, Real.norm_of_nonneg hdt, mul_assoc]
        refine mul_le_mul_of_nonneg_left ((Matrix.linfty_opNorm_mul _ _).trans ?_) hdt
        exact mul_le_mul_of_nonneg_right (hB _ (by omega)) (norm_nonneg _)
      have e3 := norm_add_le (ker' i - B0⁻¹ * (∑ j ∈ range i, dt • (Bd (i - j) * ker' j) + D i))
        (B0⁻¹ * (∑ j ∈ range i, dt • (Bd (i - j) * ker' j) + D i) - B0⁻¹ * (∑ j ∈ range i, dt • (Bd (i - j) * ker j) + D i))
      rw [sub_add_sub_cancel] at e3
      have e4 : ((1 + ρ) * (1 + u) ^ (2 * b + 4 + i) - 1) * (c * (∑ j ∈ range i, |dt| * (‖Bd (i - j)‖ * ‖ker' j‖) + ‖D i‖)) ≤
          η * (c * ((T * MB * κ + dt * MB * ∑ j ∈ range i, ‖ker' j - ker j‖) + MD)) := by
        refine mul_le_mul hw ?_ (by positivity) η0
        gcongr
        exact hD i (by omega)
      refine e3.trans ((add_le_add (e1.trans e4) e2).trans ?_)
      rw [← sub_nonneg]
      ring_nf
      exact ρ0'
  intro n hn
  refine (gronwall (by positivity) (by positivity) step n (by omega)).trans ?_
  refine mul_le_mul_of_nonneg_left (Real.exp_le_exp.2 ?_) (by positivity)
  have a2 : (n : ℝ) * dt ≤ T := le_trans (by gcongr) hT
  calc c * dt * MB * (1 + η) * n = c * MB * (n * dt) * (1 + η) := by ring
    _ ≤ _ := by gcongr

theorem inv_norm_close {A A' M : Mat ℝ b b} (hM : M * A = 1) (h : ‖M‖ * ‖A' - A‖ ≤ 1 / 2) : ‖A'⁻¹‖ ≤ 2 * ‖M‖ := by
  have hd := det_ne_zero_of_close hM (by linarith)
  have e : A'⁻¹ = M - M * ((A' - A) * A'⁻¹) := by
    rw [Matrix.sub_mul, Matrix.mul_nonsing_inv _ (isUnit_iff_ne_zero.2 hd), Matrix.mul_sub, ← Matrix.mul_assoc, hM, Matrix.one_mul, Matrix.mul_one,
      sub_sub_cancel]
  have h1 : ‖A'⁻¹‖ ≤ ‖M‖ + ‖M‖ * (‖A' - A‖ * ‖A'⁻¹‖) := by
    conv_lhs => rw [e]
    refine (norm_sub_le _ _).trans (add_le_add le_rfl ((Matrix.linfty_opNorm_mul _ _).trans ?_))
    gcongr
    exact Matrix.linfty_opNorm_mul _ _
  nlinarith [norm_nonneg A'⁻¹, mul_le_mul_of_nonneg_right h (norm_nonneg A'⁻¹)]

theorem eta_bound {ρ : ℝ} {L : ℕ} (hu : 0 ≤ u) (hLu : (2 * b + 4) * (L + 1) * u ≤ 1) (hρ : 0 ≤ ρ) (hρ1 : ρ ≤ 1) :
    (1 + b * ρ) * (1 + u) ^ (2 * b + 4 + L) ≤ 1 + (b * ρ + 2 * (1 + b) * ((2 * b + 4) * ((L + 1) * u))) := by
  have y0 : 0 ≤ (2 * b + 4) * ((L + 1) * u) := by positivity
  have y1 : (2 * b + 4) * ((L + 1) * u) ≤ 1 := by linarith
  have p1 : (1 + u) ^ (2 * b + 4 + L) ≤ Real.exp ((2 * b + 4) * ((L + 1) * u)) := by
    calc (1 + u) ^ (2 * b + 4 + L) ≤ Real.exp u ^ (2 * b + 4 + L) := by
          gcongr
          linarith [Real.add_one_le_exp u]
      _ = Real.exp ((2 * b + 4 + L : ℕ) * u) := by rw [Real.exp_nat_mul]
      _ ≤ _ := by
        rw [Real.exp_le_exp, ← mul_assoc]
        refine mul_le_mul_of_nonneg_right ?_ hu
        push_cast
        nlinarith [Nat.cast_nonneg (α := ℝ) L, mul_nonneg (Nat.cast_nonneg (α := ℝ) L) (Nat.cast_nonneg (α := ℝ) b)]
  have p2 := Real.abs_exp_sub_one_le (x := (2 * b + 4) * ((L + 1) * u)) (by rwa [abs_of_nonneg y0])
  rw [abs_of_nonneg y0] at p2
  have p3 := le_abs_self (Real.exp ((2 * b + 4) * ((L + 1) * u)) - 1)
  generalize (2 * (b : ℝ) + 4) * ((L + 1) * u) = y at *
  have p4 : (1 + u) ^ (2 * b + 4 + L) ≤ 1 + 2 * y := by linarith
  refine (mul_le_mul_of_nonneg_left p4 (by positivity)).trans ?_
  have : (b : ℝ) * ρ * y ≤ b * y := by
    refine mul_le_mul_of_nonneg_right (mul_le_of_le_one_right (by positivity) hρ1) y0
  nlinarith

/-- **C186** The kernel that the program computes in floating point arithmetic with unit roundoff `u` from correlations with errors `ε` differs
from the kernel of the continuous equation by at most a constant times `dt + ε + (L + 1) u + ρ`, where `ρ` is the accuracy of the inverse of a
matrix and of the first value: the discretisation error decreases with the time step, the rounding error increases with the number of points,
linearly only. -/
theorem C186_converges {T : ℝ} {B0 : Mat ℝ b b} (hB0 : B0.det ≠ 0) {Bd : ℝ → Mat ℝ b b} {Dd k : ℝ → Mat ℝ b x} (hBd : Spec.Lip T Bd)
    (hk : Spec.Lip T k) (heq : Spec.SecondKind T B0 Bd Dd k) :
    ∃ C δ : ℝ, 0 < δ ∧ ∀ (L : ℕ) (dt ε u ρ : ℝ), 0 ≤ dt → dt ≤ δ → 0 ≤ ε → ε ≤ δ → L * dt ≤ T → 0 ≤ u → (2 * b + 4) * (L + 1) * u ≤ 1 →
      0 ≤ ρ → ρ ≤ 1 → ∀ (B0' invB0 : Mat ℝ b b) (bd : ℕ → Mat ℝ b b) (k0 : Mat ℝ b x) (d ker : ℕ → Mat ℝ b x),
        (∀ i j, |B0' i j - B0 i j| ≤ ε) → (∀ n ≤ L, ∀ i j, |bd n i j - Bd (n * dt) i j| ≤ ε) →
        (∀ n ≤ L, ∀ i j, |d n i j - Dd (n * dt) i j| ≤ ε) → (∀ i j, |invB0 i j - B0'⁻¹ i j| ≤ ρ) →
        (∀ i j, |k0 i j - (B0'⁻¹ * d 0) i j| ≤ ρ) → Rounded.secondKindRect u L k0 invB0 bd d dt ker →
        ∀ n ≤ L, ∀ i j, |ker n i j - k (n * dt) i j| ≤ C * (dt + ε + (L + 1) * u + ρ) := by
  obtain ⟨Q, hQ0, hQ⟩ := rect_consistent hBd hk
  obtain ⟨C1, δ1, hδ1, H⟩ := second_kind_common hB0 hBd hk heq (w := fun m j => if j < m then 1 else 0)
    (g := fun h => Q * h) (fun m j => by split <;> simp) (fun h hh => by positivity)
    (fun h N hh hN i j => by
      rw [← rect_as_weights h (fun l => Bd ((N - l : ℕ) * h) * k (l * h))]
      exact hQ h N hh hN i j)
  obtain ⟨MB, hMB0, hMB⟩ := lip_bound hBd
  obtain ⟨Mk, hMk0, hMk⟩ := lip_bound hk
  obtain ⟨M, hM⟩ : ∃ M : Mat ℝ b b, M * B0 = 1 := ⟨B0⁻¹, Matrix.nonsing_inv_mul _ (isUnit_iff_ne_zero.2 hB0)⟩
  -- the constants
  obtain ⟨c, hc⟩ : ∃ c : ℝ, c = 2 * ‖M‖ + 1 := ⟨_, rfl⟩
  obtain ⟨MB', hMB'⟩ : ∃ y : ℝ, y = MB + b := ⟨_, rfl⟩
  obtain ⟨κ, hκ⟩ : ∃ y : ℝ, y = Mk + x * (|C1| * (Q + 1) * 2) := ⟨_, rfl⟩
  obtain ⟨MD, hMD⟩ : ∃ y : ℝ, y = (‖B0‖ + b) * κ + |T| * MB' * κ := ⟨_, rfl⟩
  obtain ⟨W, hW⟩ : ∃ y : ℝ, y = c * (|T| * MB' * κ + MD) := ⟨_, rfl⟩
  obtain ⟨E, hE⟩ : ∃ y : ℝ, y = Real.exp (c * MB' * |T| * (3 * b + 3)) := ⟨_, rfl⟩
  have c0 : 0 < c := by rw [hc]; positivity
  have B0' : 0 ≤ MB' := by rw [hMB']; positivity
  have κ0 : 0 ≤ κ := by rw [hκ]; positivity
  have D0 : 0 ≤ MD := by rw [hMD]; positivity
  have W0 : 0 ≤ W := by rw [hW]; positivity
  have E0 : 0 < E := by rw [hE]; positivity
  refine ⟨|C1| * (Q + 1) + (x + (b + 2 * (1 + b) * (2 * b + 4)) * W) * E, min δ1 (min 1 (1 / (2 * (‖M‖ * b + 1)))), by positivity,
    fun L dt ε u ρ hdt hdtδ hε hεδ hLT hu hLu hρ hρ1 B0s invB0 bd k0 d ker n1 n2 n3 n4 n5 hfl n hn i j => ?_⟩
  have hdt1 : dt ≤ 1 := hdtδ.trans ((min_le_right _ _).trans (min_le_left _ _))
  have hε1 : ε ≤ 1 := hεδ.trans ((min_le_right _ _).trans (min_le_left _ _))
  have T0 : 0 ≤ T := le_trans (by positivity) hLT
  have hin : ∀ m ≤ L, ((m : ℝ) * dt) ∈ Set.Icc 0 T := fun m hm => ⟨by positivity, le_trans (by gcongr) hLT⟩
  obtain ⟨ex, hex⟩ : ∃ ex, FKernel.secondKindRect L (B0s⁻¹ * d 0) B0s bd d dt = .ok ex :=
    FKernel.secondKindRect_total L _ (H L dt ε hdt (hdtδ.trans (min_le_left _ _)) hε (hεδ.trans (min_le_left _ _)) hLT B0s bd d 0 n1 n2 n3).1 bd d dt
  obtain ⟨hd, -, Hex⟩ := H L dt ε hdt (hdtδ.trans (min_le_left _ _)) hε (hεδ.trans (min_le_left _ _)) hLT B0s bd d ex n1 n2 n3
  obtain ⟨s0, s1⟩ := FKernel.secondKindRect_solves hex
  have eqs : ∀ m ≤ L, B0s * ex m = d m + ∑ j ∈ range (m + 1), (dt * if j < m then 1 else 0) • (bd (m - j) * ex j) := by
    intro m hm
    rcases Nat.eq_zero_or_pos m with rfl | hm0
    · rw [s0, ← Matrix.mul_assoc, Matrix.mul_nonsing_inv _ (isUnit_iff_ne_zero.2 hd), Matrix.one_mul]
      simp
    · have := s1 m hm0 hm
      rw [Spec.SecondKindRectAt, rect_as_weights] at this
      rw [← this]
      simp [Spec.convIntegrand]
  have hex1 := Hex eqs
  have near : ∀ m ≤ L, ∀ i j, |ex m i j - k (m * dt) i j| ≤ |C1| * (Q + 1) * (dt + ε) := fun m hm i j => by
    refine (hex1 m hm i j).trans ?_
    have : C1 * (Q * dt + ε) ≤ |C1| * (Q * dt + ε) := mul_le_mul_of_nonneg_right (le_abs_self _) (by positivity)
    have : |C1| * (Q * dt + ε) ≤ |C1| * ((Q + 1) * (dt + ε)) := by
      gcongr
      nlinarith
    linarith
  have bκ : ∀ m ≤ L, ‖ex m‖ ≤ κ := by
    intro m hm
    have a1 := norm_le_of_entries (A := ex m - k (m * dt)) (by positivity) (near m hm)
    have a2 := norm_add_le (ex m - k (m * dt)) (k (m * dt))
    rw [sub_add_cancel] at a2
    have a3 : (x : ℝ) * (|C1| * (Q + 1) * (dt + ε)) ≤ x * (|C1| * (Q + 1) * 2) := by
      gcongr
      linarith
    rw [hκ]
    linarith [hMk _ (hin m hm)]
  have bB : ∀ m ≤ L, ‖bd m‖ ≤ MB' := by
    intro m hm
    have a1 := norm_le_of_entries (A := bd m - Bd (m * dt)) hε (n2 m hm)
    have a2 := norm_add_le (bd m - Bd (m * dt)) (Bd (m * dt))
    rw [sub_add_cancel] at a2
    have a3 : (b : ℝ) * ε ≤ b := mul_le_of_le_one_right (by positivity) hε1
    rw [hMB']
    linarith [hMB _ (hin m hm)]
  have bs : ‖B0s - B0‖ ≤ b * ε := norm_le_of_entries hε n1
  have bD : ∀ m ≤ L, ‖d m‖ ≤ MD := by
    intro m hm
    have a1 : d m = B0s * ex m - ∑ j ∈ range m, dt • (bd (m - j) * ex j) := by
      rw [eqs m hm, sum_range_succ, if_neg (lt_irrefl m), mul_zero, zero_smul, add_zero, eq_sub_iff_add_eq]
      congr 1
      refine sum_congr rfl fun j hj => ?_
      rw [if_pos (mem_range.1 hj), mul_one]
    have a2 : ‖∑ j ∈ range m, dt • (bd (m - j) * ex j)‖ ≤ |T| * MB' * κ := by
      refine (norm_sum_le_of_le (n := fun _ => dt * (MB' * κ)) _ fun j hj => ?_).trans ?_
      · have hj := mem_range.1 hj
        rw [norm_smul, Real.norm_of_nonneg hdt]
        refine mul_le_mul_of_nonneg_left ((Matrix.linfty_opNorm_mul _ _).trans ?_) hdt
        exact mul_le_mul (bB _ (by omega)) (bκ _ (by omega)) (norm_nonneg _) B0'
      · rw [sum_const, card_range, nsmul_eq_mul, ← mul_assoc, mul_assoc |T|]
        exact mul_le_mul_of_nonneg_right ((hin m hm).2.trans (le_abs_self _)) (by positivity)
    have a3 : ‖B0s‖ ≤ ‖B0‖ + b := by
      have := norm_add_le (B0s - B0) B0
      rw [sub_add_cancel] at this
      have : (b : ℝ) * ε ≤ b := mul_le_of_le_one_right (by positivity) hε1
      linarith
    rw [a1, hMD]
    refine (norm_sub_le _ _).trans (add_le_add ((Matrix.linfty_opNorm_mul _ _).trans ?_) a2)
    exact mul_le_mul a3 (bκ m hm) (norm_nonneg _) (by positivity)
  have bc : ‖B0s⁻¹‖ ≤ c := by
    have a1 : ‖M‖ * ‖B0s - B0‖ ≤ 1 / 2 := by
      have h1 : ε * (2 * (‖M‖ * b + 1)) ≤ 1 := (le_div_iff₀ (by positivity)).1 (hεδ.trans ((min_le_right _ _).trans (min_le_right _ _)))
      nlinarith [mul_le_mul_of_nonneg_left bs (norm_nonneg M)]
    rw [hc]
    linarith [inv_norm_close hM a1]
  have η1 := eta_bound hu hLu hρ hρ1
  have key := C186_second_kind_rect (u := u) (ρ := b * ρ) (ρ0 := x * ρ) (T := T) hu (by positivity) hdt hLT hex hfl bc
    ((norm_le_of_entries hρ fun i j => n4 i j).trans (by nlinarith [mul_nonneg (Nat.cast_nonneg (α := ℝ) b) hρ, norm_nonneg M]))
    (norm_le_of_entries hρ fun i j => n5 i j) bB bD bκ η1 n hn
  have y0 : 0 ≤ (L + 1) * u := by positivity
  have y1 : (2 * b + 4) * ((L + 1) * u) ≤ 1 := by linarith
  have η2 : b * ρ + 2 * (1 + b) * ((2 * b + 4) * ((L + 1) * u)) ≤ 3 * b + 2 := by
    have a1 : (b : ℝ) * ρ ≤ b := mul_le_of_le_one_right (by positivity) hρ1
    have a2 : 2 * (1 + b) * ((2 * b + 4) * ((L + 1) * u)) ≤ 2 * (1 + b) * 1 := by gcongr
    linarith
  have η3 : b * ρ + 2 * (1 + b) * ((2 * b + 4) * ((L + 1) * u)) ≤ (b + 2 * (1 + b) * (2 * b + 4)) * ((L + 1) * u + ρ) := by
    have a1 : 0 ≤ (b : ℝ) * ((L + 1) * u) := by positivity
    have a2 : 0 ≤ 2 * (1 + (b : ℝ)) * (2 * b + 4) * ρ := by positivity
    rw [show (b + 2 * (1 + b) * (2 * b + 4)) * ((L + 1) * u + ρ) = (b * ρ + 2 * (1 + b) * ((2 * b + 4) * ((L + 1) * u))) +
      ((b : ℝ) * ((L + 1) * u) + 2 * (1 + (b : ℝ)) * (2 * b + 4) * ρ) by ring]
    linarith
  have hTa : |T| = T := abs_of_nonneg T0
  have e1 : Real.exp (c * MB' * T * (1 + (b * ρ + 2 * (1 + b) * ((2 * b + 4) * ((L + 1) * u))))) ≤ E := by
    rw [hE, hTa, Real.exp_le_exp]
    exact mul_le_mul_of_nonneg_left (by linarith) (by positivity)
  rw [show c * (T * MB' * κ + MD) = W by rw [hW, hTa]] at key
  have e2 : x * ρ + (b * ρ + 2 * (1 + b) * ((2 * b + 4) * ((L + 1) * u))) * W ≤
      (x + (b + 2 * (1 + b) * (2 * b + 4)) * W) * ((L + 1) * u + ρ) := by
    have a1 := mul_le_mul_of_nonneg_right η3 W0
    have a2 : 0 ≤ (x : ℝ) * ((L + 1) * u) := by positivity
    rw [add_mul (x : ℝ), mul_add (x : ℝ), mul_right_comm (_ + _) W]
    linarith
  have e3 := key.trans (mul_le_mul e2 e1 (Real.exp_pos _).le (by positivity))
  have e4 := entry_le_norm (ker n - ex n) i j
  have e5 := near n hn i j
  have e6 := abs_add_le ((ker n - ex n) i j) (ex n i j - k (n * dt) i j)
  rw [Matrix.sub_apply, sub_add_sub_cancel] at e6
  rw [Matrix.sub_apply] at e4
  have f1 : 0 ≤ |C1| * (Q + 1) * ((L + 1) * u + ρ) := by positivity
  have f2 : 0 ≤ (x + (b + 2 * (1 + b) * (2 * b + 4)) * W) * E * (dt + ε) := by positivity
  refine e6.trans ((add_le_add (e4.trans e3) e5).trans ?_)
  rw [← sub_nonneg]
  refine (add_nonneg f1 f2).trans (le_of_eq ?_)
  ring

theorem Fl.refl (hu : 0 ≤ u) (y : ℝ) : Fl u y y := by
  rw [Fl, sub_self, abs_zero]
  positivity

/-- A matrix product without rounding errors. -/
theorem matmul_exact (hu : 0 ≤ u) (A : Mat ℝ m b) (B : Mat ℝ b n) : Rounded.matmul u A B (A * B) := by
  intro i k
  refine ⟨Equiv.refl _, fun l => ∑ j : Fin b, if j.val < l then A i j * B j k else 0, by simp, fun l => ⟨_, .refl hu _, ?_⟩, ?_⟩
  · have : (∑ j : Fin b, if j.val < l.val + 1 then A i j * B j k else 0) = (∑ j : Fin b, if j.val < l then A i j * B j k else 0) + A i l * B l k := by
      rw [← Finset.sum_erase_add _ _ (mem_univ l), ← Finset.sum_erase_add (a := l) (f := fun j : Fin b => if j.val < l then _ else _) _ (mem_univ l)]
      simp only [lt_irrefl, if_false, add_zero, Nat.lt_succ_self, if_true]
      congr 1
      refine sum_congr rfl fun j hj => ?_
      have : j.val ≠ l.val := fun e => (mem_erase.1 hj).1 (Fin.ext e)
      by_cases c : j.val < l.val
      · rw [if_pos c, if_pos (by omega)]
      · rw [if_neg c, if_neg (by omega)]
    simp only [Equiv.refl_apply]
    rw [this]
    exact .refl hu _
  · simp [Matrix.mul_apply]

theorem each_exact (hu : 0 ≤ u) (A : Mat ℝ m n) : Rounded.each u A A := fun _ _ => .refl hu _

theorem rect_exact (hu : 0 ≤ u) (dt : ℝ) (n : ℕ) (B : ℕ → Mat ℝ m b) (k : ℕ → Mat ℝ b x) :
    Rounded.rectIntegral u dt n B k (∑ j ∈ range n, dt • (B (n - j) * k j)) :=
  ⟨fun l => ∑ j ∈ range l, dt • (B (n - j) * k j), by simp, fun j _ => ⟨_, _, matmul_exact hu _ _, each_exact hu _, by
    dsimp only
    rw [sum_range_succ]
    exact each_exact hu _⟩, rfl⟩

/-- **C186** A calculation without rounding errors is one of those considered. -/
theorem C186_executions (hu : 0 ≤ u) (L : ℕ) {k0 : Mat ℝ b x} {B0 : Mat ℝ b b} {Bd : ℕ → Mat ℝ b b} {D : ℕ → Mat ℝ b x} {dt : ℝ} {ker : ℕ → Mat ℝ b x}
    (h : FKernel.secondKindRect L k0 B0 Bd D dt = .ok ker) : Rounded.secondKindRect u L k0 B0⁻¹ Bd D dt ker := by
  obtain ⟨M, hM, h0, h1, -⟩ := FKernel.secondKindRect_ok h
  obtain ⟨-, -, hM2⟩ := lapackInv_ok hM
  obtain rfl : B0⁻¹ = M := Matrix.inv_eq_left_inv hM2
  refine ⟨h0, fun i hi hiL => ⟨_, _, rect_exact hu _ _ _ _, each_exact hu _, ?_⟩⟩
  rw [h1 i hi hiL]
  exact matmul_exact hu _ _

/-- A calculation in which the last addition of each step is rounded up. -/
theorem roundedUp (hu : 0 ≤ u) (L : ℕ) : Rounded.secondKindRect u L (1 : Mat ℝ 1 1) 1 (fun _ => 0) (fun _ => 1) 1 (fun i => if i = 0 then 1 else (1 + u) • 1) := by
  refine ⟨rfl, fun i hi _ => ⟨0, (1 + u) • 1, ?_, ?_, ?_⟩⟩
  · have := rect_exact hu 1 i (fun _ => (0 : Mat ℝ 1 1)) (fun i => if i = 0 then (1 : Mat ℝ 1 1) else (1 + u) • 1)
    simpa using this
  · intro a c
    fin_cases a; fin_cases c
    simp [Fl, abs_of_nonneg hu]
  · simp only [if_neg (show i ≠ 0 by omega)]
    simpa using matmul_exact hu (1 : Mat ℝ 1 1) ((1 + u) • (1 : Mat ℝ 1 1))

example (hu : 0 ≤ u) (L : ℕ) {ker : ℕ → Mat ℝ 1 1} (h : FKernel.secondKindRect L (1 : Mat ℝ 1 1) 1 (fun _ => 0) (fun _ => 1) 1 = .ok ker)
    (hk : ∀ n ≤ L, ‖ker n‖ ≤ 1) :=
  C186_second_kind_rect (ρ := 0) (ρ0 := 0) (c := 1) (T := L) (MB := 0) (MD := 1) hu le_rfl zero_le_one (by simp) h (roundedUp hu L) (by simp) (by simp)
    (by simp) (by simp) (by simp) hk (η := (1 + u) ^ (2 * 1 + 4 + L) - 1) (by simp)

example := C186_converges (by simp) (lip_of_deriv exBd_deriv (lip_const 1 0)) (lip_of_deriv exK_deriv (lip_const 1 _)) exSecond

end

end Verif
