import Verif.Props.Converge

/-!
# Convergence of the first kind methods of `compute_kernel` as the time step goes to zero: C126
-/

namespace Verif

open Finset Set
open scoped Matrix.Norms.Operator

variable {b x : ℕ}

/-- The correlations held by the estimator are, up to `ε`, the values at the times `n dt` of the
functions `B` and `D`. -/
structure NearFirst (c : Corrs ℝ b x) (dt ε : ℝ) (B : ℝ → Mat ℝ b b) (D : ℝ → Mat ℝ b x) : Prop where
  bkbk : ∀ n < c.N, ∀ i j, |c.bkbk n i j - B (n * dt) i j| ≤ ε
  bkdx : ∀ n < c.N, ∀ i j, |c.bkdx n i j - D (n * dt) i j| ≤ ε

/-- The increments of the rectangle rule turn the first kind equation in one of the second kind. -/
theorem rect_increment {h : ℝ} (hh : h ≠ 0) {B : ℕ → Mat ℝ b b} {D k : ℕ → Mat ℝ b x} {m : ℕ}
    (h1 : Spec.FirstKindRectAt h B D k (m + 1)) (h0 : 1 ≤ m → Spec.FirstKindRectAt h B D k m) :
    B 1 * k m = -(h⁻¹ • (D (m + 1) - if m = 0 then 0 else D m)) +
      ∑ j ∈ range (m + 1), (h * if j < m then 1 else 0) • (-(h⁻¹ • (B (m - j + 1) - B (m - j))) * k j) := by
  have e1 := (rectAt_succ _ _ _ _ _).1 h1
  have e0 : ∑ j ∈ range m, h • (B (m - j) * k j) = -(if m = 0 then 0 else D m) := by
    rcases Nat.eq_zero_or_pos m with rfl | hm
    · simp
    · rw [if_neg (by omega)]
      exact h0 hm
  have e2 : B 1 * k m = h⁻¹ • ((h • B 1) * k m) := by
    rw [Matrix.smul_mul, smul_smul, inv_mul_cancel₀ hh, one_smul]
  rw [sum_range_succ, if_neg (lt_irrefl m), mul_zero, zero_smul, add_zero, e2, e1]
  have e3 : ∑ j ∈ range m, (h * if j < m then 1 else 0) • (-(h⁻¹ • (B (m - j + 1) - B (m - j))) * k j) =
      h⁻¹ • (∑ j ∈ range m, h • (B (m - j) * k j) - ∑ j ∈ range m, h • (B (m + 1 - j) * k j)) := by
    rw [← sum_sub_distrib, smul_sum]
    refine sum_congr rfl fun j hj => ?_
    have := Finset.mem_range.1 hj
    rw [if_pos this, mul_one, show m + 1 - j = m - j + 1 by omega, Matrix.neg_mul, Matrix.smul_mul,
      Matrix.sub_mul]
    module
  rw [e3, e0]
  module

/-- Error of the kernel computed with the rectangle rule, first kind, from perturbed data. -/
theorem rect_first_error {T LB Mk Q κ h ε : ℝ} {L : ℕ} {B : ℝ → Mat ℝ b b} {D k : ℝ → Mat ℝ b x} {M : Mat ℝ b b}
    {bb : ℕ → Mat ℝ b b} {dx ker : ℕ → Mat ℝ b x} (hM2 : M * B 0 = 1) (hh : 0 < h) (hε : 0 ≤ ε)
    (hLB0 : 0 ≤ LB) (hMk0 : 0 ≤ Mk) (hQ0 : 0 ≤ Q) (hκ0 : 0 ≤ κ) (hL1 : 1 ≤ L) (hNT : L * h ≤ T)
    (hLB : ∀ s ∈ Icc 0 T, ∀ t ∈ Icc 0 T, ‖B s - B t‖ ≤ LB * |s - t|) (hMk : ∀ t ∈ Icc 0 T, ‖k t‖ ≤ Mk)
    (hQ : ∀ (N : ℕ), (N + 1 : ℕ) * h ≤ T → ∀ i j,
      |(∑ l ∈ range N, h • ((B ((N + 1 - l : ℕ) * h) - B ((N - l : ℕ) * h)) * k (l * h))
          + h • (B 0 * k (N * h))) i j -
        ((∫ s in (0 : ℝ)..(N + 1 : ℕ) * h, (B ((N + 1 : ℕ) * h - s) * k s) i j) -
          ∫ s in (0 : ℝ)..N * h, (B (N * h - s) * k s) i j)| ≤ Q * h ^ 2)
    (heq : Spec.FirstKind T B D k)
    (nB : ∀ n ≤ L, ‖bb n - B (n * h)‖ ≤ κ * ε) (nD : ∀ n ≤ L, ‖dx n - D (n * h)‖ ≤ κ * ε)
    (hh1 : h ≤ 1) (hη1 : κ * (2 * (ε / h)) + κ * ε + LB * h ≤ 1)
    (hsmall : ‖M‖ * (h * (LB + 1) + (κ * (2 * (ε / h)) + κ * ε + LB * h)) ≤ 1 / 2) :
    (bb 1).det ≠ 0 ∧ ((∀ m, 1 ≤ m → m ≤ L → Spec.FirstKindRectAt h bb dx ker m) →
      ∀ n < L, ‖ker n - k (n * h)‖ ≤ 2 * ‖M‖ * ((Mk * (T + 2) + 1) * (κ * (2 * (ε / h)) + κ * ε + LB * h) +
        x * (Q * h)) * Real.exp (2 * ‖M‖ * (LB + 1) * T)) := by
  have hMn : 0 ≤ ‖M‖ := norm_nonneg M
  have hη0 : 0 ≤ κ * (2 * (ε / h)) + κ * ε + LB * h := by positivity
  have mem : ∀ n ≤ L, (n : ℝ) * h ∈ Icc 0 T := fun n hn =>
    ⟨by positivity, le_trans (by gcongr) hNT⟩
  have hT : 0 ≤ T := (mem L le_rfl).1.trans (mem L le_rfl).2
  have hD0 : D 0 = 0 := by
    ext i j
    have := heq 0 ⟨le_rfl, hT⟩ i j
    simpa using this.symm
  have n0 : ‖bb 1 - B 0‖ ≤ κ * (2 * (ε / h)) + κ * ε + LB * h := by
    have h1 := nB 1 (by omega)
    have h2 := hLB _ (mem 1 (by omega)) _ (mem 0 (by omega))
    rw [← sub_mul, abs_mul, abs_of_pos hh] at h2
    simp only [Nat.cast_one, one_mul, Nat.cast_zero, zero_mul, sub_zero, abs_one] at h1 h2
    have h3 := norm_add_le (bb 1 - B h) (B h - B 0)
    rw [sub_add_sub_cancel] at h3
    have h4 : 0 ≤ κ * (2 * (ε / h)) := by positivity
    linarith
  have hinv : ‖h⁻¹‖ = h⁻¹ := Real.norm_of_nonneg (by positivity)
  have hdiff : ∀ {y : ℕ} (u u' v v' : Mat ℝ b y), ‖u - u'‖ ≤ κ * ε → ‖v - v'‖ ≤ κ * ε →
      ‖-(h⁻¹ • (u - v)) - -(h⁻¹ • (u' - v'))‖ ≤ κ * (2 * (ε / h)) + κ * ε + LB * h := by
    intro y u u' v v' h1 h2
    have e : -(h⁻¹ • (u - v)) - -(h⁻¹ • (u' - v')) = h⁻¹ • ((v - v') - (u - u')) := by module
    rw [e, norm_smul, hinv]
    have h3 : h⁻¹ * ‖(v - v') - (u - u')‖ ≤ h⁻¹ * (κ * ε + κ * ε) := by
      gcongr
      exact (norm_sub_le _ _).trans (add_le_add h2 h1)
    have h4 : h⁻¹ * (κ * ε + κ * ε) = κ * (2 * (ε / h)) := by rw [div_eq_inv_mul]; ring
    have h5 : 0 ≤ κ * ε + LB * h := by positivity
    linarith
  refine ⟨?_, fun hsol n hn => ?_⟩
  · refine det_ne_zero_of_close hM2 ?_
    have : ‖M‖ * ‖bb 1 - B 0‖ ≤ ‖M‖ * (h * (LB + 1) + (κ * (2 * (ε / h)) + κ * ε + LB * h)) := by
      gcongr
      have : 0 ≤ h * (LB + 1) := by positivity
      linarith
    linarith
  refine second_kind_error (L := L - 1) (T := T) (h := h) (q := x * (Q * h)) (B0 := B 0)
    (B0' := bb 1) (M := M) (MB := LB) (Mk := Mk)
    (Bd := fun n => -(h⁻¹ • (B ((n + 1 : ℕ) * h) - B (n * h))))
    (Bd' := fun n => -(h⁻¹ • (bb (n + 1) - bb n)))
    (D := fun n => -(h⁻¹ • (D ((n + 1 : ℕ) * h) - D (n * h))))
    (D' := fun n => -(h⁻¹ • (dx (n + 1) - if n = 0 then 0 else dx n)))
    (k := fun n => k (n * h)) (ker := ker) (w := fun m j => if j < m then 1 else 0) hM2 hh.le hη0 (by positivity)
    hLB0 hMk0 (le_trans (by gcongr; omega) hNT) hh1 hη1 hsmall (fun m j => by split <;> simp) ?_
    (fun j hj => hMk _ (mem j (by omega))) n0 ?_ ?_ ?_ ?_ n (by omega)
  · intro j hj
    rw [norm_neg, norm_smul, hinv]
    have := hLB _ (mem (j + 1) (by omega)) _ (mem j (by omega))
    rw [← sub_mul, abs_mul, abs_of_pos hh] at this
    rw [show ((j + 1 : ℕ) : ℝ) - j = 1 by push_cast; ring, abs_one, one_mul] at this
    rw [inv_mul_le_iff₀ hh]
    linarith
  · intro j hj
    exact hdiff _ _ _ _ (nB (j + 1) (by omega)) (nB j (by omega))
  · intro j hj
    refine hdiff _ _ _ _ (nD (j + 1) (by omega)) ?_
    split
    · rename_i hj0
      rw [hj0, Nat.cast_zero, zero_mul, hD0, sub_zero, norm_zero]
      positivity
    · exact nD j (by omega)
  · intro m hm
    exact rect_increment hh.ne' (hsol (m + 1) (by omega) (by omega)) fun h1 => hsol m h1 (by omega)
  · intro m hm
    refine norm_le_of_entries (by positivity) fun i j => ?_
    have h1 := hQ m (mem (m + 1) (by omega)).2 i j
    rw [heq _ (mem (m + 1) (by omega)) i j, heq _ (mem m (by omega)) i j] at h1
    have e1 : -(h⁻¹ • (D ((m + 1 : ℕ) * h) - D (m * h))) +
        ∑ l ∈ range (m + 1), (h * if l < m then 1 else 0) •
          (-(h⁻¹ • (B ((m - l + 1 : ℕ) * h) - B ((m - l : ℕ) * h))) * k (l * h)) - B 0 * k (m * h) =
        -(h⁻¹ • ((∑ l ∈ range m, h • ((B ((m + 1 - l : ℕ) * h) - B ((m - l : ℕ) * h)) * k (l * h))
          + h • (B 0 * k (m * h))) - (-D ((m + 1 : ℕ) * h) - -D (m * h)))) := by
      rw [sum_range_succ, if_neg (lt_irrefl m), mul_zero, zero_smul, add_zero]
      have e2 : ∑ l ∈ range m, (h * if l < m then 1 else 0) •
          (-(h⁻¹ • (B ((m - l + 1 : ℕ) * h) - B ((m - l : ℕ) * h))) * k (l * h)) =
          -(h⁻¹ • ∑ l ∈ range m, h • ((B ((m + 1 - l : ℕ) * h) - B ((m - l : ℕ) * h)) * k (l * h))) := by
        rw [smul_sum, ← sum_neg_distrib]
        refine sum_congr rfl fun l hl => ?_
        have := Finset.mem_range.1 hl
        rw [if_pos this, mul_one, show m + 1 - l = m - l + 1 by omega, Matrix.neg_mul, Matrix.smul_mul]
        module
      have e3 : B 0 * k (m * h) = h⁻¹ • (h • (B 0 * k (m * h))) := by
        rw [smul_smul, inv_mul_cancel₀ hh.ne', one_smul]
      rw [e2, e3]
      generalize h • (B 0 * k (m * h)) = Y
      rw [smul_smul h, mul_inv_cancel₀ hh.ne', one_smul]
      module
    rw [e1, Matrix.neg_apply, abs_neg, Matrix.smul_apply, smul_eq_mul, abs_mul, abs_of_pos (by positivity : 0 < h⁻¹),
      inv_mul_le_iff₀ hh]
    refine h1.trans (le_of_eq (by ring))

/-- **C126.** `compute_kernel(method="rect")` converges with first order to the solution of the
continuous Volterra equation of the first kind, at all the times but the last one, where it returns
zero. An error `ε` of the correlations is amplified by `1/dt`. -/
theorem C126_rect_converges {T : ℝ} {B B' : ℝ → Mat ℝ b b} (hB0 : (B 0).det ≠ 0) {D k : ℝ → Mat ℝ b x}
    (hB : Spec.DerivOn T B B') (hB' : Spec.Lip T B') (hk : Spec.Lip T k) (heq : Spec.FirstKind T B D k) :
    ∃ C δ : ℝ, 0 < δ ∧ ∀ (c : Corrs ℝ b x) (dt ε : ℝ) (method : String) (k0 : Option (Mat ℝ b x)),
      method ∈ ["rect", "rectangular"] → 0 < dt → dt ≤ δ → 0 ≤ ε → ε ≤ δ * dt →
      2 ≤ c.N → ((c.N - 1 : ℕ) : ℝ) * dt ≤ T → NearFirst c dt ε B D →
      ∃ r, computeKernel (some c) c.N dt method k0 = .ok r ∧
        r.kernel.len = c.N ∧ r.time.len = c.N ∧ r.kernel.get (c.N - 1) = 0 ∧
        ∀ n < c.N - 1, r.time.get n = n * dt ∧
          ∀ i j, |r.kernel.get n i j - k (n * dt) i j| ≤ C * (dt + ε / dt) := by
  obtain ⟨M, hM1, hM2⟩ := det_inv hB0
  obtain ⟨LB, hLB0, hLB⟩ := lip_norm (lip_of_deriv hB hB')
  obtain ⟨Mk, hMk0, hMk⟩ := lip_bound hk
  obtain ⟨Q, hQ0, hQ⟩ := increment_consistent hB hB' hk
  obtain ⟨κ, hκ⟩ : ∃ κ : ℝ, κ = b + x := ⟨_, rfl⟩
  have hκ0 : 0 ≤ κ := by rw [hκ]; positivity
  have hMn : 0 ≤ ‖M‖ := norm_nonneg M
  obtain ⟨δ, hδ0, hδ1⟩ : ∃ δ : ℝ, 0 < δ ∧ δ * (2 * (‖M‖ + 1) * (2 * LB + 2 + 3 * κ)) = 1 :=
    ⟨1 / (2 * (‖M‖ + 1) * (2 * LB + 2 + 3 * κ)), by positivity, by field_simp⟩
  refine ⟨2 * ‖M‖ * Real.exp (2 * ‖M‖ * (LB + 1) * T) * ((Mk * (|T| + 2) + 1) * (3 * κ + LB) + x * Q), δ, hδ0, ?_⟩
  intro c h ε method k0 hm hh hhδ hε hεδ hN hNT ⟨cB, cD⟩
  have hδ2 : δ * (2 * LB + 2 + 3 * κ) ≤ 1 / 2 := by
    have : δ * (2 * LB + 2 + 3 * κ) * 1 ≤ δ * (2 * LB + 2 + 3 * κ) * (‖M‖ + 1) := by gcongr; linarith
    nlinarith
  have hδ3 : ‖M‖ * (δ * (2 * LB + 2 + 3 * κ)) ≤ 1 / 2 := by
    have : ‖M‖ * (δ * (2 * LB + 2 + 3 * κ)) ≤ (‖M‖ + 1) * (δ * (2 * LB + 2 + 3 * κ)) := by gcongr; linarith
    nlinarith
  have hδle : δ ≤ 1 := by nlinarith
  have hh1 : h ≤ 1 := hhδ.trans hδle
  have hε' : ε / h ≤ δ := by rwa [div_le_iff₀ hh]
  have hεh : ε ≤ ε / h := by rw [le_div_iff₀ hh]; nlinarith
  have hεh0 : 0 ≤ ε / h := by positivity
  have hηle : κ * (2 * (ε / h)) + κ * ε + LB * h ≤ (3 * κ + LB) * (h + ε / h) := by
    have h1 : κ * ε ≤ κ * (ε / h) := by gcongr
    have h2 : 0 ≤ κ * h := by positivity
    have h3 : 0 ≤ LB * (ε / h) := by positivity
    nlinarith
  have hηδ : κ * (2 * (ε / h)) + κ * ε + LB * h ≤ δ * (3 * κ + LB) := by
    have h1 : κ * ε ≤ κ * δ := by gcongr; exact hεh.trans hε'
    have h2 : κ * (2 * (ε / h)) ≤ κ * (2 * δ) := by gcongr
    have h3 : LB * h ≤ LB * δ := by gcongr
    nlinarith
  have hη1 : κ * (2 * (ε / h)) + κ * ε + LB * h ≤ 1 := by nlinarith
  have hsmall : ‖M‖ * (h * (LB + 1) + (κ * (2 * (ε / h)) + κ * ε + LB * h)) ≤ 1 / 2 := by
    refine le_trans ?_ hδ3
    gcongr
    have : h * (LB + 1) ≤ δ * (LB + 1) := by gcongr
    nlinarith
  have hT : 0 ≤ T := (by positivity : (0 : ℝ) ≤ (c.N - 1 : ℕ) * h).trans hNT
  have nB : ∀ n ≤ c.N - 1, ‖c.bkbk n - B (n * h)‖ ≤ κ * ε := fun n hn => by
    refine (norm_le_of_entries hε (cB n (by omega))).trans ?_
    gcongr
    rw [hκ]; linarith [(by positivity : (0 : ℝ) ≤ x)]
  have nD : ∀ n ≤ c.N - 1, ‖c.bkdx n - D (n * h)‖ ≤ κ * ε := fun n hn => by
    refine (norm_le_of_entries hε (cD n (by omega))).trans ?_
    gcongr
    rw [hκ]; linarith [(by positivity : (0 : ℝ) ≤ b)]
  have main := fun ker => rect_first_error (ker := ker) hM2 hh hε hLB0 hMk0 hQ0 hκ0 (by omega) hNT hLB hMk
    (fun N hN => hQ h N hh.le hN) heq nB nD hh1 hη1 hsmall
  obtain ⟨ker, hker⟩ := FKernel.firstKindRect_total (L := c.N - 1) (by omega) (B := c.bkbk) (dt := h)
    (by rw [Matrix.det_smul]; exact mul_ne_zero (pow_ne_zero _ hh.ne') (main 0).1) c.bkdx
  have hsol := FKernel.firstKindRect_solves hker
  obtain ⟨-, -, -, -, -, hlast⟩ := FKernel.firstKindRect_ok hker
  refine ⟨⟨⟨c.N, ker⟩, fullTime c.N h⟩, ?_, rfl, rfl, hlast _ le_rfl, fun n hn => ⟨by simp [fullTime], fun i j => ?_⟩⟩
  · rw [computeKernel_rect_eq _ _ (by omega) hm, hker]
    exact finish_of_len rfl
  · refine (entry_le_norm (ker n - k (n * h)) i j).trans (((main ker).2 hsol n hn).trans ?_)
    rw [abs_of_nonneg hT]
    rw [show ∀ p q r : ℝ, 2 * ‖M‖ * (p + q) * r = 2 * ‖M‖ * r * (p + q) by intros; ring,
      mul_assoc (2 * ‖M‖ * Real.exp (2 * ‖M‖ * (LB + 1) * T))]
    refine mul_le_mul_of_nonneg_left ?_ (by positivity)
    have h1 : (Mk * (T + 2) + 1) * (κ * (2 * (ε / h)) + κ * ε + LB * h) ≤
        (Mk * (T + 2) + 1) * ((3 * κ + LB) * (h + ε / h)) := by gcongr
    have h2 : 0 ≤ (x : ℝ) * Q * (ε / h) := by positivity
    rw [add_mul _ (x * Q), mul_assoc (Mk * (T + 2) + 1)]
    refine add_le_add h1 ?_
    rw [mul_add]
    linarith

/-! ### Example: `B = 1`, `k(t) = t`, hence `D(t) = -t²/2` -/

noncomputable def exDFirst : ℝ → Mat ℝ 1 1 := fun t => !![-(t ^ 2 / 2)]

theorem exFirst : Spec.FirstKind 1 exBd exDFirst exK := by
  intro t _ i j
  fin_cases i; fin_cases j
  simp [exBd, exDFirst, exK, Matrix.mul_apply]

/-- The samples, with an error `ε` of alternating sign on the second correlation. -/
noncomputable def exFirstCorrs (N : ℕ) (dt ε : ℝ) : Corrs ℝ 1 1 where
  N := N
  bkbk := fun n => exBd (n * dt)
  bkdx := fun n => exDFirst (n * dt) + ((-1) ^ n * ε) • !![1]
  dotbkdx := some fun _ => 0
  dotbkbk := .none

theorem exFirst_near (N : ℕ) (dt : ℝ) {ε : ℝ} (hε : 0 ≤ ε) :
    NearFirst (exFirstCorrs N dt ε) dt ε exBd exDFirst where
  bkbk := by simp [exFirstCorrs, hε]
  bkdx := by
    intro n _ i j
    fin_cases i; fin_cases j
    simp [exFirstCorrs, abs_mul, abs_pow, abs_of_nonneg hε]

/-- The error computed from 11 samples with an error `dt²` is at most `C dt`. -/
example : ∃ C δ : ℝ, 0 < δ ∧ ∀ dt : ℝ, 0 < dt → dt ≤ δ → dt ≤ 1 / 10 →
    ∃ r, computeKernel (some (exFirstCorrs 11 dt (dt ^ 2))) 11 dt "rect" none = .ok r ∧
      ∀ n < 10, |r.kernel.get n 0 0 - n * dt| ≤ C * (dt + dt) := by
  obtain ⟨C, δ, hδ, H⟩ := C126_rect_converges (by simp [exBd]) exBd_deriv (lip_const 1 0)
    (lip_of_deriv exK_deriv (lip_const 1 _)) exFirst
  refine ⟨C, δ, hδ, fun dt h1 h2 h3 => ?_⟩
  obtain ⟨r, hr, -, -, -, H'⟩ := H (exFirstCorrs 11 dt (dt ^ 2)) dt (dt ^ 2) "rect" none (by decide) h1 h2
    (by positivity) (by nlinarith) (by simp [exFirstCorrs])
    (by simp only [exFirstCorrs]; norm_num; linarith) (exFirst_near 11 dt (by positivity))
  refine ⟨r, hr, fun n hn => ?_⟩
  have := (H' n hn).2 0 0
  rwa [show dt ^ 2 / dt = dt by field_simp] at this

end Verif
