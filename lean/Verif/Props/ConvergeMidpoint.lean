import Verif.Props.ConvergeFirst
import Verif.Lemmas.ConvergeMidpoint
import Verif.Lemmas.Api

/-!
# Limit of the methods `midpoint` and `midpoint_w_richardson` of `compute_kernel` as the time step goes to zero: C128, C129
-/

namespace Verif

open Finset Set
open scoped Matrix.Norms.Operator

variable {b x : ℕ}

/-- Increments of the equations solved by the midpoint solver. -/
theorem midpoint_increment {H : ℝ} (hH : H ≠ 0) {B : ℕ → Mat ℝ b b} {D k : ℕ → Mat ℝ b x} {m : ℕ} (hm : 1 ≤ m)
    (h1 : H • (B 1 * k m) + ∑ j ∈ range m, H • (B (2 * (m - j)) * k j) = -D (2 * m + 1))
    (h0 : H • (B 1 * k (m - 1)) + ∑ j ∈ range (m - 1), H • (B (2 * (m - 1 - j)) * k j) = -D (2 * (m - 1) + 1)) :
    B 1 * k m = -(H⁻¹ • (D (2 * m + 1) - D (2 * m - 1))) +
      ∑ j ∈ range (m + 1), (H * if j < m then 1 else 0) •
        ((if m - j = 0 then 0 else -(H⁻¹ • (B (2 * (m - j)) - if m - j = 1 then B 1 else B (2 * (m - j - 1))))) *
          k j) := by
  obtain ⟨p, rfl⟩ : ∃ p, m = p + 1 := ⟨m - 1, by omega⟩
  have e2 : B 1 * k (p + 1) = H⁻¹ • (H • (B 1 * k (p + 1))) := by rw [smul_smul, inv_mul_cancel₀ hH, one_smul]
  have e3 : H • (B 1 * k (p + 1)) = -D (2 * (p + 1) + 1) - ∑ j ∈ range (p + 1), H • (B (2 * (p + 1 - j)) * k j) := by
    rw [← h1]; abel
  rw [show 2 * (p + 1) - 1 = 2 * p + 1 by omega]
  simp only [Nat.add_sub_cancel] at h0
  rw [sum_range_succ, if_neg (lt_irrefl _), mul_zero, zero_smul, add_zero, sum_range_succ, if_pos (by omega),
    if_neg (by omega), if_pos (by omega), mul_one]
  have e4 : ∑ j ∈ range p, (H * if j < p + 1 then 1 else 0) •
        ((if p + 1 - j = 0 then 0 else -(H⁻¹ • (B (2 * (p + 1 - j)) -
          if p + 1 - j = 1 then B 1 else B (2 * (p + 1 - j - 1))))) * k j) =
      H⁻¹ • (∑ j ∈ range p, H • (B (2 * (p - j)) * k j) - ∑ j ∈ range p, H • (B (2 * (p + 1 - j)) * k j)) := by
    rw [← sum_sub_distrib, smul_sum]
    refine sum_congr rfl fun j hj => ?_
    have := Finset.mem_range.1 hj
    rw [if_pos (by omega), if_neg (by omega), if_neg (by omega), mul_one, show p + 1 - j - 1 = p - j by omega,
      Matrix.neg_mul, Matrix.smul_mul, Matrix.sub_mul]
    module
  have e5 : ∑ j ∈ range p, H • (B (2 * (p - j)) * k j) = -D (2 * p + 1) - H • (B 1 * k p) := by
    rw [← h0]; abel
  rw [e4, e2, e3, e5, sum_range_succ, show p + 1 - p = 1 by omega, Matrix.neg_mul, Matrix.smul_mul, Matrix.sub_mul]
  generalize ∑ j ∈ range p, H • (B (2 * (p + 1 - j)) * k j) = S
  module

set_option maxHeartbeats 1000000 in
theorem midpoint_error {T : ℝ} {B B' : ℝ → Mat ℝ b b} (hB0 : (B 0).det ≠ 0) {D k : ℝ → Mat ℝ b x}
    (hB : Spec.DerivOn T B B') (hB' : Spec.Lip T B') (hk : Spec.Lip T k) (heq : Spec.FirstKind T B D k) :
    ∃ C δ : ℝ, 0 ≤ C ∧ 0 < δ ∧ ∀ (L : ℕ) (h ε : ℝ) (bb : ℕ → Mat ℝ b b) (dx : ℕ → Mat ℝ b x), 0 < h → h ≤ δ →
      0 ≤ ε → ε ≤ δ * h → 2 ≤ L → L * h ≤ T → (∀ n ≤ L, ‖bb n - B (n * h)‖ ≤ (b + x) * ε) →
      (∀ n ≤ L, ‖dx n - D (n * h)‖ ≤ (b + x) * ε) →
      ∃ ker, FKernel.firstKindMidpoint L bb dx h = .ok ker ∧
        (∀ i < L / 2, ‖ker i - midLim k h i‖ ≤ C * (h + ε / h)) ∧ ∀ i, L / 2 ≤ i → ker i = 0 := by
  obtain ⟨M, hM1, hM2⟩ := det_inv hB0
  obtain ⟨LB, hLB0, hLB⟩ := lip_norm (lip_of_deriv hB hB')
  obtain ⟨Mk, hMk0, hMk⟩ := lip_bound hk
  obtain ⟨Q, hQ0, hQ⟩ := midpoint_consistent hB hB' hk
  obtain ⟨κ, hκ⟩ : ∃ κ : ℝ, κ = b + x := ⟨_, rfl⟩
  have hκ0 : 0 ≤ κ := by rw [hκ]; positivity
  have hMn : 0 ≤ ‖M‖ := norm_nonneg M
  obtain ⟨δ, hδ0, hδ1⟩ : ∃ δ : ℝ, 0 < δ ∧ δ * (2 * (‖M‖ + 1) * (3 * LB + 3 + 2 * κ)) = 1 :=
    ⟨1 / (2 * (‖M‖ + 1) * (3 * LB + 3 + 2 * κ)), by positivity, by field_simp⟩
  obtain ⟨X, hX⟩ : ∃ X : ℝ, X = 2 * ‖M‖ * Real.exp (2 * ‖M‖ * (LB + 1) * |T|) := ⟨_, rfl⟩
  have hX0 : 0 ≤ X := by rw [hX]; positivity
  refine ⟨X * ((Mk * (|T| + 2) + 1) * (2 * κ + LB) + Q), δ, by positivity, hδ0, ?_⟩
  intro L h ε bb dx hh hhδ hε hεδ hL hLT nB nD
  rw [← hκ] at nB nD
  have hδ2 : δ * (3 * LB + 3 + 2 * κ) ≤ 1 / 2 := by
    have : δ * (3 * LB + 3 + 2 * κ) * 1 ≤ δ * (3 * LB + 3 + 2 * κ) * (‖M‖ + 1) := by gcongr; linarith
    nlinarith
  have hδ3 : ‖M‖ * (δ * (3 * LB + 3 + 2 * κ)) ≤ 1 / 2 := by
    have : ‖M‖ * (δ * (3 * LB + 3 + 2 * κ)) ≤ (‖M‖ + 1) * (δ * (3 * LB + 3 + 2 * κ)) := by gcongr; linarith
    nlinarith
  have hδle : 2 * δ ≤ 1 := by nlinarith
  have hH1 : 2 * h ≤ 1 := by linarith
  have hε' : ε / h ≤ δ := by rwa [div_le_iff₀ hh]
  have hεh : ε ≤ ε / h := by rw [le_div_iff₀ hh]; nlinarith
  have hεh0 : 0 ≤ ε / h := by positivity
  obtain ⟨η, hη⟩ : ∃ η : ℝ, η = κ * (ε / h) + κ * ε + LB * h := ⟨_, rfl⟩
  have hη0 : 0 ≤ η := by rw [hη]; positivity
  have hηle : η ≤ (2 * κ + LB) * (h + ε / h) := by
    have h1 : κ * ε ≤ κ * (ε / h) := by gcongr
    have h2 : 0 ≤ κ * h := by positivity
    have h3 : 0 ≤ LB * (ε / h) := by positivity
    rw [hη]
    nlinarith
  have hηδ : η ≤ δ * (2 * κ + LB) := by
    have h1 : κ * ε ≤ κ * δ := by gcongr; exact hεh.trans hε'
    have h2 : κ * (ε / h) ≤ κ * δ := by gcongr
    have h3 : LB * h ≤ LB * δ := by gcongr
    rw [hη]
    nlinarith
  have hη1 : η ≤ 1 := by nlinarith
  have hsmall : ‖M‖ * (2 * h * (LB + 1) + η) ≤ 1 / 2 := by
    refine le_trans ?_ hδ3
    gcongr
    have : h * (LB + 1) ≤ δ * (LB + 1) := by gcongr
    nlinarith
  have mem : ∀ n ≤ L, (n : ℝ) * h ∈ Icc 0 T := fun n hn => ⟨by positivity, le_trans (by gcongr) hLT⟩
  have hT : 0 ≤ T := (mem L le_rfl).1.trans (mem L le_rfl).2
  have hTa : |T| = T := abs_of_nonneg hT
  have hD : ∀ n ≤ L, convAt B k (n * h) = -D (n * h) := fun n hn => by
    ext i j
    exact heq _ (mem n hn) i j
  have n0 : ‖bb 1 - B 0‖ ≤ η := by
    have h1 := nB 1 (by omega)
    have h2 := hLB _ (mem 1 (by omega)) _ (mem 0 (by omega))
    rw [← sub_mul, abs_mul, abs_of_pos hh] at h2
    simp only [Nat.cast_one, one_mul, Nat.cast_zero, zero_mul, sub_zero, abs_one] at h1 h2
    have h3 := norm_add_le (bb 1 - B h) (B h - B 0)
    rw [sub_add_sub_cancel] at h3
    have h4 : 0 ≤ κ * (ε / h) := by positivity
    rw [hη]
    linarith
  have hdet : (bb 1).det ≠ 0 := by
    refine det_ne_zero_of_close hM2 ?_
    have : ‖M‖ * ‖bb 1 - B 0‖ ≤ ‖M‖ * (2 * h * (LB + 1) + η) := by
      gcongr
      have : 0 ≤ 2 * h * (LB + 1) := by positivity
      linarith
    linarith
  obtain ⟨ker, hker⟩ := FKernel.firstKindMidpoint_total (L := L) (by omega) (B := bb) (dt := h)
    (by rw [Matrix.det_smul]; exact mul_ne_zero (pow_ne_zero _ (by positivity)) hdet) dx
  have hsol := FKernel.firstKindMidpoint_solves hker
  obtain ⟨-, -, -, -, -, hlast⟩ := FKernel.firstKindMidpoint_ok hker
  refine ⟨ker, hker, fun i hi => ?_, fun i hi => hlast i (by omega) hi⟩
  have hH : (0 : ℝ) < 2 * h := by positivity
  have hinv : ‖(2 * h)⁻¹‖ = (2 * h)⁻¹ := Real.norm_of_nonneg (by positivity)
  have hinvle : (2 * h)⁻¹ * (κ * ε + κ * ε) ≤ η := by
    have : (2 * h)⁻¹ * (κ * ε + κ * ε) = κ * (ε / h) := by field_simp; ring
    rw [this, hη]
    have : 0 ≤ κ * ε + LB * h := by positivity
    linarith
  have hdiff : ∀ {y : ℕ} (u u' v v' : Mat ℝ b y), ‖u - u'‖ ≤ κ * ε → ‖v - v'‖ ≤ κ * ε →
      ‖-((2 * h)⁻¹ • (u - v)) - -((2 * h)⁻¹ • (u' - v'))‖ ≤ η := by
    intro y u u' v v' h1 h2
    have e : -((2 * h)⁻¹ • (u - v)) - -((2 * h)⁻¹ • (u' - v')) = (2 * h)⁻¹ • ((v - v') - (u - u')) := by module
    rw [e, norm_smul, hinv]
    refine le_trans ?_ hinvle
    gcongr
    exact (norm_sub_le _ _).trans (add_le_add h2 h1)
  have key := second_kind_error (L := L / 2 - 1) (T := T) (h := 2 * h) (ε := η) (q := Q * h) (B0 := B 0)
    (B0' := bb 1) (M := M) (MB := LB) (Mk := Mk)
    (Bd := fun n => if n = 0 then 0 else -((2 * h)⁻¹ • midInc B h n))
    (Bd' := fun n => if n = 0 then 0 else -((2 * h)⁻¹ • (bb (2 * n) - if n = 1 then bb 1 else bb (2 * (n - 1)))))
    (D := fun n => if n = 0 then -((2 * h)⁻¹ • (D h - 0)) else
      -((2 * h)⁻¹ • (D ((2 * n + 1 : ℕ) * h) - D ((2 * n - 1 : ℕ) * h))))
    (D' := fun n => if n = 0 then -((2 * h)⁻¹ • (dx 1 - 0)) else -((2 * h)⁻¹ • (dx (2 * n + 1) - dx (2 * n - 1))))
    (k := midLim k h) (ker := ker) (w := fun m j => if j < m then 1 else 0) hM2 hH.le hη0 (by positivity)
    hLB0 hMk0 ?_ hH1 hη1 hsmall (fun m j => by split <;> simp) ?_ ?_ n0 ?_ ?_ ?_ ?_ i (by omega)
  · refine key.trans ?_
    rw [hTa, show ∀ p q r : ℝ, 2 * ‖M‖ * (p + q) * r = 2 * ‖M‖ * r * (p + q) by intros; ring, ← hTa, ← hX,
      mul_assoc X]
    gcongr
    have h1 : (Mk * (|T| + 2) + 1) * η ≤ (Mk * (|T| + 2) + 1) * ((2 * κ + LB) * (h + ε / h)) := by gcongr
    have h2 : 0 ≤ Q * (ε / h) := by positivity
    rw [add_mul _ Q, mul_assoc (Mk * (|T| + 2) + 1)]
    refine add_le_add h1 ?_
    rw [mul_add]
    linarith
  · have : ((L / 2 - 1 : ℕ) : ℝ) * (2 * h) = (2 * (L / 2 - 1) : ℕ) * h := by push_cast; ring
    rw [this]
    exact (mem _ (by omega)).2
  · intro j hj
    split
    · simpa using hLB0
    · rw [norm_neg, norm_smul, hinv, inv_mul_le_iff₀ hH, mul_comm]
      exact midInc_bound hLB0 hLB hh.le (by omega) (mem _ (by omega)).2
  · exact fun j hj => midLim_bound hMk hh.le (mem _ (by omega)).2
  · intro j hj
    split
    · simpa using hη0
    · rw [midInc]
      refine hdiff _ _ _ _ (nB (2 * j) (by omega)) ?_
      split
      · simpa using nB 1 (by omega)
      · exact nB _ (by omega)
  · intro j hj
    split
    · refine hdiff _ _ _ _ (by simpa using nD 1 (by omega)) ?_
      simp only [sub_zero, norm_zero]
      positivity
    · exact hdiff _ _ _ _ (nD _ (by omega)) (nD _ (by omega))
  · intro m hm
    rcases Nat.eq_zero_or_pos m with rfl | hm0
    · have := hsol 0 (Or.inl rfl)
      simp only [Finset.range_zero, sum_empty, add_zero, Nat.mul_zero, Nat.zero_add] at this
      rw [sum_range_one, if_pos rfl, if_neg (lt_irrefl 0), mul_zero, zero_smul, add_zero, sub_zero, ← smul_neg, ← this,
        smul_smul, inv_mul_cancel₀ hH.ne', one_smul]
    · rw [if_neg (by omega)]
      exact midpoint_increment hH.ne' hm0 (hsol m (by omega)) (hsol (m - 1) (by omega))
  · intro m hm
    have hdiv : ∀ v : Mat ℝ b x, ‖v‖ ≤ Q * h ^ 2 → ‖-((2 * h)⁻¹ • v)‖ ≤ Q * h := fun v hv => by
      rw [norm_neg, norm_smul, hinv, inv_mul_le_iff₀ hH]
      have : 0 ≤ Q * h ^ 2 := by positivity
      nlinarith
    rcases Nat.eq_zero_or_pos m with rfl | hm0
    · rw [sum_range_one, if_pos rfl, if_neg (lt_irrefl 0), mul_zero, zero_smul, add_zero, sub_zero]
      have h1 := (hQ h hh.le).1 (by simpa using (mem 1 (by omega)).2)
      have hD1 : convAt B k h = -D h := by simpa using hD 1 (by omega)
      rw [hD1] at h1
      have e : -((2 * h)⁻¹ • D h) - B 0 * midLim k h 0 = -((2 * h)⁻¹ • ((2 * h) • (B 0 * midLim k h 0) - -D h)) := by
        rw [smul_sub, smul_smul, inv_mul_cancel₀ hH.ne', one_smul]
        module
      rw [e]
      exact hdiv _ h1
    · rw [if_neg (by omega)]
      have h1 := (hQ h hh.le).2 m hm0 (mem _ (by omega)).2
      rw [hD _ (by omega), hD _ (by omega)] at h1
      have e : -((2 * h)⁻¹ • (D ((2 * m + 1 : ℕ) * h) - D ((2 * m - 1 : ℕ) * h))) +
          ∑ j ∈ range (m + 1), (2 * h * if j < m then 1 else 0) •
            ((if m - j = 0 then 0 else -((2 * h)⁻¹ • midInc B h (m - j))) * midLim k h j) - B 0 * midLim k h m =
          -((2 * h)⁻¹ • (∑ l ∈ range m, (2 * h) • (midInc B h (m - l) * midLim k h l) + (2 * h) • (B 0 * midLim k h m)
            - (-D ((2 * m + 1 : ℕ) * h) - -D ((2 * m - 1 : ℕ) * h)))) := by
        rw [sum_range_succ, if_neg (lt_irrefl m), mul_zero, zero_smul, add_zero]
        have e2 : ∑ j ∈ range m, (2 * h * if j < m then 1 else 0) •
            ((if m - j = 0 then 0 else -((2 * h)⁻¹ • midInc B h (m - j))) * midLim k h j) =
            -((2 * h)⁻¹ • ∑ l ∈ range m, (2 * h) • (midInc B h (m - l) * midLim k h l)) := by
          rw [smul_sum, ← sum_neg_distrib]
          refine sum_congr rfl fun l hl => ?_
          have := Finset.mem_range.1 hl
          rw [if_pos this, if_neg (by omega), mul_one, Matrix.neg_mul, Matrix.smul_mul]
          module
        have e3 : B 0 * midLim k h m = (2 * h)⁻¹ • ((2 * h) • (B 0 * midLim k h m)) := by
          rw [smul_smul, inv_mul_cancel₀ hH.ne', one_smul]
        rw [e2, e3]
        generalize (2 * h) • (B 0 * midLim k h m) = Y
        rw [smul_smul (2 * h), mul_inv_cancel₀ hH.ne', one_smul]
        module
      rw [e]
      exact hdiv _ h1

/-- **C128.** `compute_kernel(method="midpoint")` converges with first order to the solution of the
continuous Volterra equation of the first kind at the times `2 i dt`, `1 ≤ i < (N-1)/2`. At time 0 it
converges to half of the kernel. When `N` is even one more value is returned, which is zero. -/
theorem C128_midpoint_partial {T : ℝ} {B B' : ℝ → Mat ℝ b b} (hB0 : (B 0).det ≠ 0) {D k : ℝ → Mat ℝ b x}
    (hB : Spec.DerivOn T B B') (hB' : Spec.Lip T B') (hk : Spec.Lip T k) (heq : Spec.FirstKind T B D k) :
    ∃ C δ : ℝ, 0 < δ ∧ ∀ (c : Corrs ℝ b x) (dt ε : ℝ) (k0 : Option (Mat ℝ b x)),
      0 < dt → dt ≤ δ → 0 ≤ ε → ε ≤ δ * dt →
      3 ≤ c.N → ((c.N - 1 : ℕ) : ℝ) * dt ≤ T → NearFirst c dt ε B D →
      ∃ r, computeKernel (some c) c.N dt "midpoint" k0 = .ok r ∧
        r.kernel.len = c.N / 2 ∧ r.time.len = c.N / 2 ∧
        (∀ n < c.N / 2, r.time.get n = 2 * n * dt) ∧
        (∀ i j, |r.kernel.get 0 i j - k 0 i j / 2| ≤ C * (dt + ε / dt)) ∧
        (∀ n, 1 ≤ n → n < (c.N - 1) / 2 →
          ∀ i j, |r.kernel.get n i j - k (2 * n * dt) i j| ≤ C * (dt + ε / dt)) ∧
        ∀ n, (c.N - 1) / 2 ≤ n → n < c.N / 2 → r.kernel.get n = 0 := by
  obtain ⟨C, δ, hC, hδ, H⟩ := midpoint_error hB0 hB hB' hk heq
  refine ⟨C, δ, hδ, ?_⟩
  intro c h ε k0 hh hhδ hε hεδ hN hNT ⟨cB, cD⟩
  have nB : ∀ n ≤ c.N - 1, ‖c.bkbk n - B (n * h)‖ ≤ (b + x) * ε := fun n hn => by
    refine (norm_le_of_entries hε (cB n (by omega))).trans ?_
    gcongr
    linarith [(by positivity : (0 : ℝ) ≤ x)]
  have nD : ∀ n ≤ c.N - 1, ‖c.bkdx n - D (n * h)‖ ≤ (b + x) * ε := fun n hn => by
    refine (norm_le_of_entries hε (cD n (by omega))).trans ?_
    gcongr
    linarith [(by positivity : (0 : ℝ) ≤ b)]
  obtain ⟨ker, hker, h1, h2⟩ := H (c.N - 1) h ε c.bkbk c.bkdx hh hhδ hε hεδ (by omega) hNT nB nD
  refine ⟨⟨⟨midpointLen c.N, ker⟩, (fullTime c.N h).slice 0 (c.N - 1) 2⟩, ?_, ?_, ?_, ?_, ?_, ?_, ?_⟩
  · rw [computeKernel_midpoint_eq _ _ (by omega), hker]
    refine finish_of_len ?_
    simp only [midpointLen, Arr.slice, fullTime]
    omega
  · simp only [midpointLen]
    omega
  · simp only [Arr.slice, fullTime]
    omega
  · intro n _
    simp [Arr.slice, fullTime]
  · intro i j
    have := (entry_le_norm _ i j).trans (h1 0 (by omega))
    simp only [midLim, if_true, Matrix.sub_apply, Matrix.smul_apply, smul_eq_mul] at this
    rwa [one_div, inv_mul_eq_div] at this
  · intro n hn0 hn i j
    have := (entry_le_norm _ i j).trans (h1 n (by omega))
    rw [midLim, if_neg (by omega), Matrix.sub_apply] at this
    simpa using this
  · intro n hn _
    exact h2 n hn

/-- **C129.** `compute_kernel(method="midpoint_w_richardson")` converges to the same values as
`midpoint` (half of the kernel at time 0). When the number `⌈N/3⌉` of the correlations kept for the
large step is even, the last value of the large step is zero and the last value returned tends to
`9/8` of the kernel. -/
theorem C129_richardson_partial {T : ℝ} {B B' : ℝ → Mat ℝ b b} (hB0 : (B 0).det ≠ 0) {D k : ℝ → Mat ℝ b x}
    (hB : Spec.DerivOn T B B') (hB' : Spec.Lip T B') (hk : Spec.Lip T k) (heq : Spec.FirstKind T B D k) :
    ∃ C δ : ℝ, 0 < δ ∧ ∀ (c : Corrs ℝ b x) (dt ε : ℝ) (k0 : Option (Mat ℝ b x)),
      0 < dt → dt ≤ δ → 0 ≤ ε → ε ≤ δ * dt →
      7 ≤ c.N → ((c.N - 1 : ℕ) : ℝ) * dt ≤ T → NearFirst c dt ε B D →
      ∃ r, computeKernel (some c) c.N dt "midpoint_w_richardson" k0 = .ok r ∧
        r.kernel.len = (c.N + 2) / 3 / 2 ∧ r.time.len = (c.N + 2) / 3 / 2 ∧
        (∀ n < (c.N + 2) / 3 / 2, r.time.get n = 6 * n * dt) ∧
        (∀ i j, |r.kernel.get 0 i j - k 0 i j / 2| ≤ C * (dt + ε / dt)) ∧
        (∀ n, 1 ≤ n → n < ((c.N + 2) / 3 - 1) / 2 →
          ∀ i j, |r.kernel.get n i j - k (6 * n * dt) i j| ≤ C * (dt + ε / dt)) ∧
        ∀ n, ((c.N + 2) / 3 - 1) / 2 ≤ n → n < (c.N + 2) / 3 / 2 →
          ∀ i j, |r.kernel.get n i j - 9 / 8 * k (6 * n * dt) i j| ≤ C * (dt + ε / dt) := by
  obtain ⟨C, δ, hC, hδ, H⟩ := midpoint_error hB0 hB hB' hk heq
  refine ⟨4 * C, δ / 3, by positivity, ?_⟩
  intro c h ε k0 hh hhδ hε hεδ hN hNT ⟨cB, cD⟩
  have nB : ∀ n ≤ c.N - 1, ‖c.bkbk n - B (n * h)‖ ≤ (b + x) * ε := fun n hn => by
    refine (norm_le_of_entries hε (cB n (by omega))).trans ?_
    gcongr
    linarith [(by positivity : (0 : ℝ) ≤ x)]
  have nD : ∀ n ≤ c.N - 1, ‖c.bkdx n - D (n * h)‖ ≤ (b + x) * ε := fun n hn => by
    refine (norm_le_of_entries hε (cD n (by omega))).trans ?_
    gcongr
    linarith [(by positivity : (0 : ℝ) ≤ b)]
  have c3 : ∀ n : ℕ, (n : ℝ) * (3 * h) = (3 * n : ℕ) * h := fun n => by push_cast; ring
  have hδh : 0 ≤ δ * h := by positivity
  obtain ⟨ker, hker, h1, h2⟩ := H (c.N - 1) h ε c.bkbk c.bkdx hh (by linarith) hε (by linarith) (by omega) hNT nB nD
  obtain ⟨ker3, hker3, h13, h23⟩ := H ((c.N + 2) / 3 - 1) (3 * h) ε (fun k => c.bkbk (3 * k)) (fun k => c.bkdx (3 * k))
    (by positivity) (by linarith) hε (by linarith) (by omega)
    (by rw [c3]; exact le_trans (by gcongr; omega) hNT)
    (fun n hn => by rw [c3]; exact nB (3 * n) (by omega)) (fun n hn => by rw [c3]; exact nD (3 * n) (by omega))
  obtain ⟨s, hs, sl, sg⟩ := richardson_eq ker ker3
      (show midpointLen ((c.N + 2) / 3) ≤ (midpointLen c.N + 2) / 3 by unfold midpointLen; omega)
  have hE0 : 0 ≤ ε / h := by positivity
  have hCE : 0 ≤ C * (h + ε / h) := by positivity
  have hE3 : C * (3 * h + ε / (3 * h)) ≤ 3 * (C * (h + ε / h)) := by
    have : ε / (3 * h) ≤ ε / h := by gcongr; linarith
    have : C * (3 * h + ε / (3 * h)) ≤ C * (3 * (h + ε / h)) := by gcongr; linarith
    linarith
  refine ⟨⟨s, (fullTime c.N h).slice 0 (c.N - 3) 6⟩, ?_, ?_, ?_, ?_, ?_, ?_, ?_⟩
  · rw [computeKernel_richardson_eq _ _ (by omega), third_len, third_get, third_get, hker, hker3]
    simp only [Except.bind, hs]
    refine finish_of_len ?_
    rw [sl]
    simp only [midpointLen, Arr.slice, fullTime]
    omega
  · simp only [sl, midpointLen]
    omega
  · simp only [Arr.slice, fullTime]
    omega
  · intro n _
    simp [Arr.slice, fullTime]
  · intro i j
    have a1 := abs_le.1 ((entry_le_norm _ i j).trans (h1 0 (by omega)))
    have a3 := abs_le.1 (((entry_le_norm _ i j).trans (h13 0 (by omega))).trans hE3)
    simp only [midLim, if_true, Matrix.sub_apply, Matrix.smul_apply, smul_eq_mul] at a1 a3
    simp only [sg, Matrix.sub_apply, Matrix.smul_apply, smul_eq_mul, Nat.mul_zero]
    exact abs_le.2 ⟨by linarith, by linarith⟩
  · intro n hn0 hn i j
    have a1 := abs_le.1 ((entry_le_norm _ i j).trans (h1 (3 * n) (by omega)))
    have a3 := abs_le.1 (((entry_le_norm _ i j).trans (h13 n (by omega))).trans hE3)
    rw [midLim, if_neg (by omega), Matrix.sub_apply, show ((2 * (3 * n) : ℕ) : ℝ) * h = 6 * n * h by push_cast; ring]
      at a1
    rw [midLim, if_neg (by omega), Matrix.sub_apply,
      show ((2 * n : ℕ) : ℝ) * (3 * h) = 6 * n * h by push_cast; ring] at a3
    simp only [sg, Matrix.sub_apply, Matrix.smul_apply, smul_eq_mul]
    exact abs_le.2 ⟨by linarith, by linarith⟩
  · intro n hn0 hn i j
    have a1 := abs_le.1 ((entry_le_norm _ i j).trans (h1 (3 * n) (by omega)))
    rw [midLim, if_neg (by omega), Matrix.sub_apply, show ((2 * (3 * n) : ℕ) : ℝ) * h = 6 * n * h by push_cast; ring]
      at a1
    simp only [sg, h23 n hn0, Matrix.sub_apply, Matrix.smul_apply, smul_eq_mul, Matrix.zero_apply]
    exact abs_le.2 ⟨by linarith, by linarith⟩

/-- **C128, negation.** The value of `midpoint` at time 0 does not converge to the kernel, even for exact
correlations, unless the kernel vanishes there. -/
theorem C128_fails {T : ℝ} {B B' : ℝ → Mat ℝ b b} (hB0 : (B 0).det ≠ 0) {D k : ℝ → Mat ℝ b x}
    (hB : Spec.DerivOn T B B') (hB' : Spec.Lip T B') (hk : Spec.Lip T k) (heq : Spec.FirstKind T B D k)
    {i : Fin b} {j : Fin x} (hk0 : k 0 i j ≠ 0) :
    ∃ δ : ℝ, 0 < δ ∧ ∀ (c : Corrs ℝ b x) (dt : ℝ) (k0 : Option (Mat ℝ b x)), 0 < dt → dt ≤ δ →
      3 ≤ c.N → ((c.N - 1 : ℕ) : ℝ) * dt ≤ T → NearFirst c dt 0 B D →
      ∃ r, computeKernel (some c) c.N dt "midpoint" k0 = .ok r ∧ r.time.get 0 = 0 ∧
        |k 0 i j| / 4 ≤ |r.kernel.get 0 i j - k 0 i j| := by
  obtain ⟨C, δ, hδ, H⟩ := C128_midpoint_partial hB0 hB hB' hk heq
  have hp : 0 < |k 0 i j| := abs_pos.2 hk0
  refine ⟨min δ (|k 0 i j| / (4 * (|C| + 1))), by positivity, fun c dt k0 h1 h2 h3 h4 h5 => ?_⟩
  obtain ⟨r, hr, -, -, ht, H0, -⟩ := H c dt 0 k0 h1 (h2.trans (min_le_left _ _)) le_rfl (by positivity) h3 h4 h5
  refine ⟨r, hr, by simpa using ht 0 (by omega), ?_⟩
  have e1 := H0 i j
  rw [zero_div, add_zero] at e1
  have e2 : C * dt ≤ |k 0 i j| / 4 := by
    have h6 := h2.trans (min_le_right _ _)
    rw [le_div_iff₀ (by positivity)] at h6
    have h7 : C * dt ≤ |C| * dt := by gcongr; exact le_abs_self C
    nlinarith
  have e3 : |k 0 i j| / 2 ≤ |r.kernel.get 0 i j - k 0 i j / 2| + |r.kernel.get 0 i j - k 0 i j| := by
    have h8 : k 0 i j / 2 = (r.kernel.get 0 i j - k 0 i j / 2) - (r.kernel.get 0 i j - k 0 i j) := by ring
    calc |k 0 i j| / 2 = |k 0 i j / 2| := by rw [abs_div, abs_two]
      _ ≤ _ := by
        conv_lhs => rw [h8]
        exact abs_sub _ _
  linarith

/-- **C129, negation.** The same for `midpoint_w_richardson`. -/
theorem C129_fails {T : ℝ} {B B' : ℝ → Mat ℝ b b} (hB0 : (B 0).det ≠ 0) {D k : ℝ → Mat ℝ b x}
    (hB : Spec.DerivOn T B B') (hB' : Spec.Lip T B') (hk : Spec.Lip T k) (heq : Spec.FirstKind T B D k)
    {i : Fin b} {j : Fin x} (hk0 : k 0 i j ≠ 0) :
    ∃ δ : ℝ, 0 < δ ∧ ∀ (c : Corrs ℝ b x) (dt : ℝ) (k0 : Option (Mat ℝ b x)), 0 < dt → dt ≤ δ →
      7 ≤ c.N → ((c.N - 1 : ℕ) : ℝ) * dt ≤ T → NearFirst c dt 0 B D →
      ∃ r, computeKernel (some c) c.N dt "midpoint_w_richardson" k0 = .ok r ∧ r.time.get 0 = 0 ∧
        |k 0 i j| / 4 ≤ |r.kernel.get 0 i j - k 0 i j| := by
  obtain ⟨C, δ, hδ, H⟩ := C129_richardson_partial hB0 hB hB' hk heq
  have hp : 0 < |k 0 i j| := abs_pos.2 hk0
  refine ⟨min δ (|k 0 i j| / (4 * (|C| + 1))), by positivity, fun c dt k0 h1 h2 h3 h4 h5 => ?_⟩
  obtain ⟨r, hr, -, -, ht, H0, -⟩ := H c dt 0 k0 h1 (h2.trans (min_le_left _ _)) le_rfl (by positivity) h3 h4 h5
  refine ⟨r, hr, by simpa using ht 0 (by omega), ?_⟩
  have e1 := H0 i j
  rw [zero_div, add_zero] at e1
  have e2 : C * dt ≤ |k 0 i j| / 4 := by
    have h6 := h2.trans (min_le_right _ _)
    rw [le_div_iff₀ (by positivity)] at h6
    have h7 : C * dt ≤ |C| * dt := by gcongr; exact le_abs_self C
    nlinarith
  have e3 : |k 0 i j| / 2 ≤ |r.kernel.get 0 i j - k 0 i j / 2| + |r.kernel.get 0 i j - k 0 i j| := by
    have h8 : k 0 i j / 2 = (r.kernel.get 0 i j - k 0 i j / 2) - (r.kernel.get 0 i j - k 0 i j) := by ring
    calc |k 0 i j| / 2 = |k 0 i j / 2| := by rw [abs_div, abs_two]
      _ ≤ _ := by
        conv_lhs => rw [h8]
        exact abs_sub _ _
  linarith

/-! ### Example: `B = 1`, `k = 2`, hence `D(t) = -2 t`: the first value is 1 instead of 2 -/

def exK2 : ℝ → Mat ℝ 1 1 := fun _ => !![2]
def exD2 : ℝ → Mat ℝ 1 1 := fun t => !![-(2 * t)]

theorem exFirst2 : Spec.FirstKind 1 exBd exD2 exK2 := by
  intro t _ i j
  fin_cases i; fin_cases j
  simp [exBd, exD2, exK2, Matrix.mul_apply, mul_comm]

/-- The samples, with an error `ε` of alternating sign on the second correlation. -/
noncomputable def exFirstCorrs2 (N : ℕ) (dt ε : ℝ) : Corrs ℝ 1 1 where
  N := N
  bkbk := fun n => exBd (n * dt)
  bkdx := fun n => exD2 (n * dt) + ((-1) ^ n * ε) • !![1]
  dotbkdx := none
  dotbkbk := .none

theorem exFirst2_near (N : ℕ) (dt : ℝ) {ε : ℝ} (hε : 0 ≤ ε) :
    NearFirst (exFirstCorrs2 N dt ε) dt ε exBd exD2 where
  bkbk := by simp [exFirstCorrs2, hε]
  bkdx := by
    intro n _ i j
    fin_cases i; fin_cases j
    simp [exFirstCorrs2, abs_mul, abs_pow, abs_of_nonneg hε]

example : ∃ C δ : ℝ, 0 < δ ∧ ∀ dt : ℝ, 0 < dt → dt ≤ δ → dt ≤ 1 / 11 →
    ∃ r, computeKernel (some (exFirstCorrs2 12 dt (δ * dt ^ 2))) 12 dt "midpoint" none = .ok r ∧
      |r.kernel.get 0 0 0 - 1| ≤ C * (dt + δ * dt) ∧ (∀ n, 1 ≤ n → n < 5 → |r.kernel.get n 0 0 - 2| ≤ C * (dt + δ * dt))
      ∧ r.kernel.get 5 0 0 = 0 := by
  obtain ⟨C, δ, hδ, H⟩ := C128_midpoint_partial (by simp [exBd]) exBd_deriv (lip_const 1 0) (lip_const 1 _) exFirst2
  refine ⟨C, δ, hδ, fun dt h1 h2 h3 => ?_⟩
  obtain ⟨r, hr, -, -, -, H0, H1, H2⟩ := H (exFirstCorrs2 12 dt (δ * dt ^ 2)) dt (δ * dt ^ 2) none h1 h2
    (by positivity) (by gcongr; nlinarith) (by simp [exFirstCorrs2])
    (by simp only [exFirstCorrs2]; norm_num; linarith) (exFirst2_near 12 dt (by positivity))
  have e : δ * dt ^ 2 / dt = δ * dt := by field_simp
  rw [e] at H0 H1
  refine ⟨r, hr, ?_, fun n hn0 hn => by simpa [exK2] using H1 n hn0 (by simpa [exFirstCorrs2] using hn) 0 0, ?_⟩
  · have := H0 0 0
    simpa [exK2] using this
  · rw [H2 5 (by simp [exFirstCorrs2]) (by simp [exFirstCorrs2])]; rfl

example := C129_richardson_partial (by simp [exBd]) exBd_deriv (lip_const 1 0) (lip_const 1 _) exFirst2

example := C128_fails (by simp [exBd]) exBd_deriv (lip_const 1 0) (lip_const 1 _) exFirst2 (i := 0) (j := 0)
  (by simp)
example := C129_fails (by simp [exBd]) exBd_deriv (lip_const 1 0) (lip_const 1 _) exFirst2 (i := 0) (j := 0)
  (by simp)

end Verif
