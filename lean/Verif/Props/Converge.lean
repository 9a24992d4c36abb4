import Verif.Lemmas.Converge
import Verif.Lemmas.ComputeKernel
import Mathlib.Analysis.SpecialFunctions.ExpDeriv

/-!
# Convergence of the second kind methods of `compute_kernel` as the time step goes to zero: C124, C125
-/

namespace Verif

open Finset Set
open scoped Matrix.Norms.Operator

variable {b x : ℕ}

/-- The correlations held by the estimator are, up to `ε`, the values at the times `n dt` of the
functions `B` (only at time 0), `Bd`, `Dd`. -/
structure NearSecond (c : Corrs ℝ b x) (dt ε : ℝ) (B0 : Mat ℝ b b) (Bd : ℝ → Mat ℝ b b)
    (Dd : ℝ → Mat ℝ b x) : Prop where
  bkbk : ∀ i j, |c.bkbk 0 i j - B0 i j| ≤ ε
  dotbkbk : ∃ bd, c.dotbkbk = .arr bd ∧ ∀ n < c.N, ∀ i j, |bd n i j - Bd (n * dt) i j| ≤ ε
  dotbkdx : ∃ d, c.dotbkdx = some d ∧ ∀ n < c.N, ∀ i j, |d n i j - Dd (n * dt) i j| ≤ ε

theorem effectiveK0_second {c : Corrs ℝ b x} {method : String} {d : ℕ → Mat ℝ b x}
    (hm : method ∈ ["trapz", "second_kind_rect", "second_kind_trapz"]) (hd : c.dotbkdx = some d)
    (hdet : (c.bkbk 0).det ≠ 0) :
    ∃ k0, effectiveK0 c method none = .ok (some k0) ∧ c.bkbk 0 * k0 = d 0 := by
  obtain ⟨M, hM⟩ := lapackInv_of_det hdet
  have hM' : npInv (c.bkbk 0) = .ok M := by
    unfold lapackInv at hM
    unfold npInv
    split at hM
    · cases hM
    · rename_i h; rw [if_neg h]; exact hM
  obtain ⟨-, h1, -⟩ := lapackInv_ok hM
  refine ⟨M * d 0, ?_, by rw [← Matrix.mul_assoc, h1, Matrix.one_mul]⟩
  unfold effectiveK0
  simp only [Option.isNone_none, true_and, hm, if_true, hd, hM', bind, Except.bind, pure, Except.pure]

theorem secondKindBranch_of {c : Corrs ℝ b x} {n : ℕ} {dt : ℝ} {k0 : Mat ℝ b x} {d : ℕ → Mat ℝ b x}
    {bd : ℕ → Mat ℝ b b} {ker : ℕ → Mat ℝ b x}
    {solver : Mat ℝ b x → (ℕ → Mat ℝ b b) → (ℕ → Mat ℝ b x) → Except Err (ℕ → Mat ℝ b x)}
    (hd : c.dotbkdx = some d) (hb : c.dotbkbk = .arr bd) (hs : solver k0 bd d = .ok ker) (hn : c.N = n) :
    secondKindBranch c n dt (some k0) solver = .ok ⟨⟨c.N, ker⟩, fullTime n dt⟩ := by
  unfold secondKindBranch
  rw [hd, hb]
  simp only [hs, Except.bind]
  exact finish_of_len hn

theorem rect_as_weights {V : Type*} [AddCommGroup V] [Module ℝ V] (h : ℝ) (f : ℕ → V) (m : ℕ) :
    Spec.rectRule h f m = ∑ j ∈ range (m + 1), (h * if j < m then 1 else 0) • f j := by
  rw [Spec.rectRule, sum_range_succ, if_neg (lt_irrefl m), mul_zero, zero_smul, add_zero]
  refine sum_congr rfl fun j hj => ?_
  rw [if_pos (Finset.mem_range.1 hj), mul_one]

theorem trapz_as_weights {V : Type*} [AddCommGroup V] [Module ℝ V] (h : ℝ) (f : ℕ → V) (m : ℕ) :
    Spec.trapzRule h f m =
      ∑ j ∈ range (m + 1), (h * if m = 0 then 0 else if j = 0 ∨ j = m then 1 / 2 else 1) • f j := by
  rcases Nat.eq_zero_or_pos m with rfl | hm
  · simp [Spec.trapzRule]
  · rw [trapzRule_eq _ _ hm, sum_range_succ, range_eq_Ico, sum_eq_sum_Ico_succ_bot hm]
    have h1 : ∑ j ∈ Finset.Ico (0 + 1) m, (h * if m = 0 then 0 else if j = 0 ∨ j = m then 1 / 2 else 1) • f j =
        ∑ j ∈ Finset.Ico 1 m, h • f j := by
      refine sum_congr rfl fun j hj => ?_
      have := Finset.mem_Ico.1 hj
      rw [if_neg (by omega), if_neg (by omega), mul_one]
    rw [h1, if_neg (by omega), if_pos (Or.inl rfl), if_neg (by omega), if_pos (Or.inr rfl), mul_one_div]

/-- Data close to the samples of the continuous equation: the discretised equation can be solved and
its solution is close to the samples of the solution of the continuous equation. -/
theorem second_kind_common {T : ℝ} {B0 : Mat ℝ b b} (hB0 : B0.det ≠ 0)
    {Bd : ℝ → Mat ℝ b b} {Dd k : ℝ → Mat ℝ b x} (hBd : Spec.Lip T Bd) (hk : Spec.Lip T k)
    (heq : Spec.SecondKind T B0 Bd Dd k) {w : ℕ → ℕ → ℝ} (hw : ∀ m j, 0 ≤ w m j ∧ w m j ≤ 1) {g : ℝ → ℝ}
    (hg : ∀ h, 0 ≤ h → 0 ≤ g h)
    (cons : ∀ (h : ℝ) (N : ℕ), 0 ≤ h → N * h ≤ T → ∀ i j,
      |(∑ l ∈ range (N + 1), (h * w N l) • (Bd ((N - l : ℕ) * h) * k (l * h))) i j -
        ∫ s in (0 : ℝ)..N * h, (Bd (N * h - s) * k s) i j| ≤ g h) :
    ∃ C δ : ℝ, 0 < δ ∧ ∀ (L : ℕ) (h ε : ℝ), 0 ≤ h → h ≤ δ → 0 ≤ ε → ε ≤ δ → L * h ≤ T →
      ∀ (B0' : Mat ℝ b b) (bd : ℕ → Mat ℝ b b) (d ker : ℕ → Mat ℝ b x),
        (∀ i j, |B0' i j - B0 i j| ≤ ε) → (∀ n ≤ L, ∀ i j, |bd n i j - Bd (n * h) i j| ≤ ε) →
        (∀ n ≤ L, ∀ i j, |d n i j - Dd (n * h) i j| ≤ ε) →
        B0'.det ≠ 0 ∧ (B0' - ((1 / 2 : ℝ) * h) • bd 0).det ≠ 0 ∧
        ((∀ m ≤ L, B0' * ker m = d m + ∑ j ∈ range (m + 1), (h * w m j) • (bd (m - j) * ker j)) →
          ∀ m ≤ L, ∀ i j, |ker m i j - k (m * h) i j| ≤ C * (g h + ε)) := by
  obtain ⟨M, hM1, hM2⟩ := det_inv hB0
  obtain ⟨MB, hMB0, hMB⟩ := lip_bound hBd
  obtain ⟨Mk, hMk0, hMk⟩ := lip_bound hk
  set κ : ℝ := b + x with hκ
  have hκ0 : 0 ≤ κ := by positivity
  have hMn : 0 ≤ ‖M‖ := norm_nonneg M
  set X : ℝ := 2 * ‖M‖ * Real.exp (2 * ‖M‖ * (MB + 1) * T) with hX
  have hX0 : 0 ≤ X := by positivity
  refine ⟨X * ((Mk * (|T| + 2) + 1) * κ + x), 1 / (2 * (‖M‖ + 1) * (MB + 2 + κ)), by positivity, ?_⟩
  intro L h ε hh hhδ hε hεδ hL B0' bd d ker dB0 dBd dD
  have hT : 0 ≤ T := (by positivity : (0 : ℝ) ≤ L * h).trans hL
  set δ : ℝ := 1 / (2 * (‖M‖ + 1) * (MB + 2 + κ)) with hδ
  have hδ0 : 0 < δ := by positivity
  have hδ1 : δ * (2 * (‖M‖ + 1) * (MB + 2 + κ)) = 1 := by
    rw [hδ]; field_simp
  have hδ2 : δ * (MB + 2 + κ) ≤ 1 / 2 := by
    have : δ * (MB + 2 + κ) * 1 ≤ δ * (MB + 2 + κ) * (‖M‖ + 1) := by gcongr; linarith
    nlinarith
  have hδ3 : ‖M‖ * (δ * (MB + 2 + κ)) ≤ 1 / 2 := by
    have : ‖M‖ * (δ * (MB + 2 + κ)) ≤ (‖M‖ + 1) * (δ * (MB + 2 + κ)) := by gcongr; linarith
    nlinarith
  have hh1 : h ≤ 1 := by nlinarith
  have hκε : κ * ε ≤ κ * δ := by gcongr
  have hκε1 : κ * ε ≤ 1 := by nlinarith
  have hsmall : ‖M‖ * (h * (MB + 1) + κ * ε) ≤ 1 / 2 := by
    refine le_trans ?_ hδ3
    gcongr
    have : h * (MB + 1) ≤ δ * (MB + 1) := by gcongr
    nlinarith
  have n0 : ‖B0' - B0‖ ≤ κ * ε := by
    refine (norm_le_of_entries hε dB0).trans ?_
    gcongr
    rw [hκ]; linarith [(by positivity : (0 : ℝ) ≤ x)]
  have n1 : ∀ n ≤ L, ‖bd n - Bd (n * h)‖ ≤ κ * ε := fun n hn => by
    refine (norm_le_of_entries hε (dBd n hn)).trans ?_
    gcongr
    rw [hκ]; linarith [(by positivity : (0 : ℝ) ≤ x)]
  have n2 : ∀ n ≤ L, ‖d n - Dd (n * h)‖ ≤ κ * ε := fun n hn => by
    refine (norm_le_of_entries hε (dD n hn)).trans ?_
    gcongr
    rw [hκ]; linarith [(by positivity : (0 : ℝ) ≤ b)]
  have mem : ∀ n ≤ L, (n : ℝ) * h ∈ Icc 0 T := fun n hn =>
    ⟨by positivity, le_trans (by gcongr) hL⟩
  refine ⟨det_ne_zero_of_close hM2 ?_, det_ne_zero_of_close hM2 ?_, fun eq m hm i j => ?_⟩
  · have : ‖M‖ * ‖B0' - B0‖ ≤ ‖M‖ * (h * (MB + 1) + κ * ε) := by
      gcongr
      have : 0 ≤ h * (MB + 1) := by positivity
      linarith
    linarith
  · have h1 : ‖B0' - ((1 / 2 : ℝ) * h) • bd 0 - B0‖ ≤ h * (MB + 1) + κ * ε := by
      have e : B0' - ((1 / 2 : ℝ) * h) • bd 0 - B0 =
          (B0' - B0) - ((1 / 2 : ℝ) * h) • bd 0 := by abel
      have h2 : ‖bd 0‖ ≤ MB + 1 := by
        have := norm_add_le (bd 0 - Bd ((0 : ℕ) * h)) (Bd ((0 : ℕ) * h))
        rw [sub_add_cancel] at this
        linarith [n1 0 (Nat.zero_le _), hMB _ (mem 0 (Nat.zero_le _))]
      rw [e]
      refine (norm_sub_le _ _).trans ?_
      rw [norm_smul, Real.norm_of_nonneg (by positivity)]
      have h3 : 1 / 2 * h * ‖bd 0‖ ≤ 1 * h * (MB + 1) := by gcongr; norm_num
      linarith
    have : ‖M‖ * ‖B0' - ((1 / 2 : ℝ) * h) • bd 0 - B0‖ ≤ ‖M‖ * (h * (MB + 1) + κ * ε) := by gcongr
    linarith
  · have hqg := hg h hh
    have key := second_kind_error (L := L) (T := T) (h := h) (ε := κ * ε) (q := x * g h) (B0 := B0) (B0' := B0')
      (M := M) (Bd := fun n => Bd (n * h)) (Bd' := bd) (D := fun n => Dd (n * h)) (D' := d)
      (k := fun n => k (n * h)) (ker := ker) (w := w) hM2 hh (by positivity) (by positivity) hMB0 hMk0
      hL hh1 hκε1 hsmall hw (fun j hj => hMB _ (mem j hj)) (fun j hj => hMk _ (mem j hj)) n0 n1 n2 eq ?_ m hm
    · refine (entry_le_norm (ker m - k (m * h)) i j).trans (key.trans ?_)
      have : |T| = T := abs_of_nonneg hT
      rw [this]
      have e : 2 * ‖M‖ * ((Mk * (T + 2) + 1) * (κ * ε) + x * g h) * Real.exp (2 * ‖M‖ * (MB + 1) * T) =
          X * ((Mk * (T + 2) + 1) * κ * ε + x * g h) := by rw [hX]; ring
      rw [e, mul_assoc X]
      gcongr
      have h1 : 0 ≤ (Mk * (T + 2) + 1) * κ := by positivity
      have h2 : 0 ≤ (Mk * (T + 2) + 1) * κ * g h := mul_nonneg h1 hqg
      have h3 : 0 ≤ (x : ℝ) * ε := mul_nonneg (Nat.cast_nonneg x) hε
      generalize (Mk * (T + 2) + 1) * κ = Y at *
      nlinarith
    · intro n hn
      refine norm_le_of_entries hqg fun i j => ?_
      have h1 := cons h n hh (mem n hn).2 i j
      have h2 := heq _ (mem n hn) i j
      rw [Matrix.sub_apply, Matrix.add_apply, h2]
      refine le_trans (le_of_eq ?_) h1
      congr 1
      ring

/-- **C124.** `compute_kernel(method="second_kind_rect")` converges with first order to the solution
of the continuous Volterra equation of the second kind, and is stable: when the correlations are known
up to `ε` the error is at most `C (dt + ε)` at every time of the kernel, with `C` independent of the
number of points, of the time step and of `ε`. -/
theorem C124_second_kind_rect_converges {T : ℝ} {B0 : Mat ℝ b b} (hB0 : B0.det ≠ 0)
    {Bd : ℝ → Mat ℝ b b} {Dd k : ℝ → Mat ℝ b x} (hBd : Spec.Lip T Bd) (hk : Spec.Lip T k)
    (heq : Spec.SecondKind T B0 Bd Dd k) :
    ∃ C δ : ℝ, 0 < δ ∧ ∀ (c : Corrs ℝ b x) (dt ε : ℝ), 0 < dt → dt ≤ δ → 0 ≤ ε → ε ≤ δ →
      1 ≤ c.N → ((c.N - 1 : ℕ) : ℝ) * dt ≤ T → NearSecond c dt ε B0 Bd Dd →
      ∃ r, computeKernel (some c) c.N dt "second_kind_rect" none = .ok r ∧
        r.kernel.len = c.N ∧ r.time.len = c.N ∧
        ∀ n < c.N, r.time.get n = n * dt ∧ ∀ i j, |r.kernel.get n i j - k (n * dt) i j| ≤ C * (dt + ε) := by
  obtain ⟨Q, hQ0, hQ⟩ := rect_consistent hBd hk
  obtain ⟨C, δ, hδ, H⟩ := second_kind_common hB0 hBd hk heq (w := fun m j => if j < m then 1 else 0)
    (g := fun h => Q * h) (fun m j => by split <;> simp) (fun h hh => by positivity)
    (fun h N hh hN i j => by
      rw [← rect_as_weights h (fun l => Bd ((N - l : ℕ) * h) * k (l * h))]
      exact hQ h N hh hN i j)
  refine ⟨|C| * (Q + 1), δ, hδ, fun c dt ε hdt hdtδ hε hεδ hN hNT hc => ?_⟩
  obtain ⟨cB0, ⟨bd, hbd, cbd⟩, ⟨d, hd, cd⟩⟩ := hc
  have H1 := fun ker => H (c.N - 1) dt ε hdt.le hdtδ hε hεδ hNT (c.bkbk 0) bd d ker cB0
    (fun n hn => cbd n (by omega)) (fun n hn => cd n (by omega))
  obtain ⟨k0, hk0, hk0'⟩ := effectiveK0_second (method := "second_kind_rect") (by decide) hd (H1 0).1
  obtain ⟨ker, hker⟩ := FKernel.secondKindRect_total (c.N - 1) k0 (H1 0).1 bd d dt
  obtain ⟨s0, s1⟩ := FKernel.secondKindRect_solves hker
  refine ⟨⟨⟨c.N, ker⟩, fullTime c.N dt⟩, ?_, rfl, rfl, fun n hn => ⟨by simp [fullTime], fun i j => ?_⟩⟩
  · rw [computeKernel_secondRect_eq _ _ (by omega), hk0]
    exact secondKindBranch_of hd hbd hker rfl
  · refine ((H1 ker).2.2 (fun m hm => ?_) n (by omega) i j).trans ?_
    · rcases Nat.eq_zero_or_pos m with rfl | hm0
      · rw [s0, hk0']; simp
      · have := s1 m hm0 hm
        rw [Spec.SecondKindRectAt, sub_eq_iff_eq_add] at this
        rw [this, rect_as_weights]
        rfl
    · have h1 : C * (Q * dt + ε) ≤ |C| * (Q * dt + ε) := by gcongr; exact le_abs_self C
      refine h1.trans ?_
      rw [mul_assoc]
      gcongr
      nlinarith [mul_nonneg hQ0 hε]

/-- **C125.** `compute_kernel(method="second_kind_trapz")` converges with second order when the
correlations and the kernel have a Lipschitz derivative: the error is at most `C (dt² + ε)`. -/
theorem C125_second_kind_trapz_converges {T : ℝ} {B0 : Mat ℝ b b} (hB0 : B0.det ≠ 0)
    {Bd Bd' : ℝ → Mat ℝ b b} {Dd k k' : ℝ → Mat ℝ b x} (hBd : Spec.DerivOn T Bd Bd') (hBd' : Spec.Lip T Bd')
    (hk : Spec.DerivOn T k k') (hk' : Spec.Lip T k') (heq : Spec.SecondKind T B0 Bd Dd k) :
    ∃ C δ : ℝ, 0 < δ ∧ ∀ (c : Corrs ℝ b x) (dt ε : ℝ), 0 < dt → dt ≤ δ → 0 ≤ ε → ε ≤ δ →
      1 ≤ c.N → ((c.N - 1 : ℕ) : ℝ) * dt ≤ T → NearSecond c dt ε B0 Bd Dd →
      ∃ r, computeKernel (some c) c.N dt "second_kind_trapz" none = .ok r ∧
        r.kernel.len = c.N ∧ r.time.len = c.N ∧
        ∀ n < c.N, r.time.get n = n * dt ∧
          ∀ i j, |r.kernel.get n i j - k (n * dt) i j| ≤ C * (dt ^ 2 + ε) := by
  obtain ⟨Q, hQ0, hQ⟩ := trapz_consistent hBd hBd' hk hk'
  obtain ⟨C, δ, hδ, H⟩ := second_kind_common hB0 (lip_of_deriv hBd hBd') (lip_of_deriv hk hk') heq
    (w := fun m j => if m = 0 then 0 else if j = 0 ∨ j = m then 1 / 2 else 1)
    (g := fun h => Q * h ^ 2) (fun m j => by split_ifs <;> norm_num) (fun h hh => by positivity)
    (fun h N hh hN i j => by
      rw [← trapz_as_weights h (fun l => Bd ((N - l : ℕ) * h) * k (l * h))]
      exact hQ h N hh hN i j)
  refine ⟨|C| * (Q + 1), δ, hδ, fun c dt ε hdt hdtδ hε hεδ hN hNT hc => ?_⟩
  obtain ⟨cB0, ⟨bd, hbd, cbd⟩, ⟨d, hd, cd⟩⟩ := hc
  have H1 := fun ker => H (c.N - 1) dt ε hdt.le hdtδ hε hεδ hNT (c.bkbk 0) bd d ker cB0
    (fun n hn => cbd n (by omega)) (fun n hn => cd n (by omega))
  obtain ⟨k0, hk0, hk0'⟩ := effectiveK0_second (method := "second_kind_trapz") (by decide) hd (H1 0).1
  obtain ⟨ker, hker⟩ := FKernel.secondKindTrapz_total (c.N - 1) k0 (H1 0).2.1 d
  obtain ⟨s0, s1⟩ := FKernel.secondKindTrapz_solves hker
  refine ⟨⟨⟨c.N, ker⟩, fullTime c.N dt⟩, ?_, rfl, rfl, fun n hn => ⟨by simp [fullTime], fun i j => ?_⟩⟩
  · rw [computeKernel_secondTrapz_eq _ _ (by omega), hk0]
    exact secondKindBranch_of hd hbd hker rfl
  · refine ((H1 ker).2.2 (fun m hm => ?_) n (by omega) i j).trans ?_
    · rcases Nat.eq_zero_or_pos m with rfl | hm0
      · rw [s0, hk0']; simp
      · have := s1 m hm0 hm
        rw [Spec.SecondKindTrapzAt, sub_eq_iff_eq_add] at this
        rw [this, trapz_as_weights]
        rfl
    · have h1 : C * (Q * dt ^ 2 + ε) ≤ |C| * (Q * dt ^ 2 + ε) := by gcongr; exact le_abs_self C
      refine h1.trans ?_
      rw [mul_assoc]
      gcongr
      nlinarith [mul_nonneg hQ0 hε, sq_nonneg dt]

/-! ### Example: `k(t) = t`, `Bd = 1`, `B0 = 1`, hence `Dd(t) = t - t²/2` -/

def exBd : ℝ → Mat ℝ 1 1 := fun _ => !![1]
noncomputable def exDd : ℝ → Mat ℝ 1 1 := fun t => !![t - t ^ 2 / 2]
def exK : ℝ → Mat ℝ 1 1 := fun t => !![t]

theorem exSecond : Spec.SecondKind 1 (!![1] : Mat ℝ 1 1) exBd exDd exK := by
  intro t _ i j
  fin_cases i; fin_cases j
  simp [exBd, exDd, exK, Matrix.mul_apply]

theorem exBd_deriv : Spec.DerivOn 1 exBd fun _ => 0 := by
  intro t _ i j
  fin_cases i; fin_cases j
  simpa [exBd] using hasDerivWithinAt_const t (Icc (0 : ℝ) 1) (1 : ℝ)

theorem exK_deriv : Spec.DerivOn 1 exK fun _ => !![1] := by
  intro t _ i j
  fin_cases i; fin_cases j
  exact hasDerivWithinAt_id t (Icc (0 : ℝ) 1)

theorem lip_const {m n : ℕ} (T : ℝ) (A : Mat ℝ m n) : Spec.Lip T fun _ => A :=
  ⟨0, fun s _ t _ i j => by simp⟩

/-- The exact samples. -/
noncomputable def exSecondCorrs (N : ℕ) (dt : ℝ) : Corrs ℝ 1 1 where
  N := N
  bkbk := fun _ => !![1]
  bkdx := fun _ => 0
  dotbkdx := some fun n => exDd (n * dt)
  dotbkbk := .arr fun n => exBd (n * dt)

theorem exSecond_near (N : ℕ) (dt : ℝ) : NearSecond (exSecondCorrs N dt) dt 0 !![1] exBd exDd where
  bkbk := by simp [exSecondCorrs]
  dotbkbk := ⟨_, rfl, by simp⟩
  dotbkdx := ⟨_, rfl, by simp⟩

example := C124_second_kind_rect_converges (by simp) (lip_of_deriv exBd_deriv (lip_const 1 0))
  (lip_of_deriv exK_deriv (lip_const 1 _)) exSecond

example := C125_second_kind_trapz_converges (by simp) exBd_deriv (lip_const 1 0) exK_deriv (lip_const 1 _) exSecond

/-- The values computed from 11 exact samples with `dt = δ/10 ≤ 1/10` are within `C dt²` of `n dt`. -/
example : ∃ C δ : ℝ, 0 < δ ∧ ∀ dt : ℝ, 0 < dt → dt ≤ δ → dt ≤ 1 / 10 →
    ∃ r, computeKernel (some (exSecondCorrs 11 dt)) 11 dt "second_kind_trapz" none = .ok r ∧
      ∀ n < 11, |r.kernel.get n 0 0 - n * dt| ≤ C * dt ^ 2 := by
  obtain ⟨C, δ, hδ, H⟩ := C125_second_kind_trapz_converges (by simp) exBd_deriv (lip_const 1 0) exK_deriv
    (lip_const 1 _) exSecond
  refine ⟨C, δ, hδ, fun dt h1 h2 h3 => ?_⟩
  obtain ⟨r, hr, -, -, H'⟩ := H (exSecondCorrs 11 dt) dt 0 h1 h2 le_rfl hδ.le (by simp [exSecondCorrs])
    (by simp only [exSecondCorrs]; norm_num; linarith) (exSecond_near 11 dt)
  exact ⟨r, hr, fun n hn => by simpa [exK] using (H' n hn).2 0 0⟩

end Verif
