import Verif.Props.ConvergeFirst
import Verif.Lemmas.ConvergeTrapz2
import Verif.Lemmas.Api

/-!
# Convergence of the method `trapz` of `compute_kernel` as the time step goes to zero: C127
-/

namespace Verif

open Finset Set
open scoped Matrix.Norms.Operator

variable {b x : ℕ}

theorem trapz_norm_le {h c : ℝ} (hh : 0 ≤ h) {f : ℕ → Mat ℝ b x} {m : ℕ} (hf : ∀ j ≤ m, ‖f j‖ ≤ c) :
    ‖Spec.trapzRule h f m‖ ≤ m * h * c := by
  rw [Spec.trapzRule]
  refine (norm_sum_le_of_le (n := fun _ => h * c) _ fun j hj => ?_).trans (le_of_eq (by simp; ring))
  have := Finset.mem_range.1 hj
  rw [norm_smul, Real.norm_of_nonneg (by positivity)]
  have h1 : ‖f j + f (j + 1)‖ ≤ c + c := (norm_add_le _ _).trans (add_le_add (hf j (by omega)) (hf (j + 1) (by omega)))
  nlinarith

theorem trapz_sub (h : ℝ) (f g : ℕ → Mat ℝ b x) (m : ℕ) :
    Spec.trapzRule h f m - Spec.trapzRule h g m = Spec.trapzRule h (fun j => f j - g j) m := by
  simp only [Spec.trapzRule]
  rw [← sum_sub_distrib]
  refine sum_congr rfl fun j _ => ?_
  module

/-- Convolution of the error, once the error of the quadrature is removed. -/
theorem trapz_residual {h ε κ Mk T : ℝ} {L : ℕ} {B : ℝ → Mat ℝ b b} {D k : ℝ → Mat ℝ b x} {bb : ℕ → Mat ℝ b b}
    {dx ker : ℕ → Mat ℝ b x} (hh : 0 ≤ h) (hL : L * h ≤ T) (hε : 0 ≤ ε) (hκ : 0 ≤ κ) (hMk0 : 0 ≤ Mk)
    (hMk : ∀ t ∈ Icc 0 T, ‖k t‖ ≤ Mk) (hD0 : D 0 = 0)
    (nB : ∀ n ≤ L, ‖bb n - B (n * h)‖ ≤ κ * ε) (nD : ∀ n ≤ L, ‖dx n - D (n * h)‖ ≤ κ * ε)
    (hsol : ∀ m, 1 ≤ m → m ≤ L → Spec.FirstKindTrapzAt h bb dx ker m) (m : ℕ) (hm : m ≤ L) :
    ‖Spec.trapzRule h (Spec.convIntegrand bb (fun n => ker n - k (n * h)) m) m +
      (Spec.trapzRule h (fun l => B ((m - l : ℕ) * h) * k (l * h)) m + D (m * h))‖ ≤ κ * (1 + T * Mk) * ε := by
  have hmT : (m : ℝ) * h ≤ T := le_trans (by gcongr) hL
  have hT : 0 ≤ T := le_trans (by positivity) hmT
  have e1 : Spec.trapzRule h (Spec.convIntegrand bb (fun n => ker n - k (n * h)) m) m =
      Spec.trapzRule h (Spec.convIntegrand bb ker m) m -
        Spec.trapzRule h (fun l => bb (m - l) * k (l * h)) m := by
    rw [trapz_sub]
    congr 1
    funext j
    simp only [Spec.convIntegrand]
    rw [Matrix.mul_sub]
  have e2 : Spec.trapzRule h (fun l => bb (m - l) * k (l * h)) m -
      Spec.trapzRule h (fun l => B ((m - l : ℕ) * h) * k (l * h)) m =
      Spec.trapzRule h (fun l => (bb (m - l) - B ((m - l : ℕ) * h)) * k (l * h)) m := by
    rw [trapz_sub]
    congr 1
    funext j
    rw [Matrix.sub_mul]
  have n1 : ‖Spec.trapzRule h (fun l => (bb (m - l) - B ((m - l : ℕ) * h)) * k (l * h)) m‖ ≤
      m * h * (κ * ε * Mk) := by
    refine trapz_norm_le hh fun j hj => (Matrix.linfty_opNorm_mul _ _).trans ?_
    gcongr
    · exact nB _ (by omega)
    · exact hMk _ ⟨by positivity, le_trans (by gcongr; omega) hL⟩
  have n2 : ‖Spec.trapzRule h (Spec.convIntegrand bb ker m) m + D (m * h)‖ ≤ κ * ε := by
    rcases Nat.eq_zero_or_pos m with rfl | hm0
    · simp [Spec.trapzRule, hD0]
      positivity
    · rw [show Spec.trapzRule h (Spec.convIntegrand bb ker m) m = -dx m from hsol m hm0 hm, neg_add_eq_sub,
        norm_sub_rev]
      exact nD m hm
  have e3 : Spec.trapzRule h (Spec.convIntegrand bb (fun n => ker n - k (n * h)) m) m +
      (Spec.trapzRule h (fun l => B ((m - l : ℕ) * h) * k (l * h)) m + D (m * h)) =
      (Spec.trapzRule h (Spec.convIntegrand bb ker m) m + D (m * h)) -
      Spec.trapzRule h (fun l => (bb (m - l) - B ((m - l : ℕ) * h)) * k (l * h)) m := by
    rw [e1, ← e2]; abel
  rw [e3]
  refine (norm_sub_le _ _).trans ((add_le_add n2 n1).trans ?_)
  have : (m : ℝ) * h * (κ * ε * Mk) ≤ T * (κ * ε * Mk) := by gcongr
  nlinarith

/-- The condition on the initial value: either `k0` is given up to `η`, or the correlation with the
derivative at time 0 is known up to `η`. -/
def InitialValue (c : Corrs ℝ b x) (η : ℝ) (B0 : Mat ℝ b b) (kz : Mat ℝ b x) (k0 : Option (Mat ℝ b x)) : Prop :=
  (∃ k1, k0 = some k1 ∧ ∀ i j, |k1 i j - kz i j| ≤ η) ∨
    (k0 = none ∧ ∃ d, c.dotbkdx = some d ∧ ∀ i j, |d 0 i j - (B0 * kz) i j| ≤ η)

theorem initialValue_effective {c : Corrs ℝ b x} {η γ Z Mk : ℝ} {B0 : Mat ℝ b b} {kz : Mat ℝ b x}
    {k0 : Option (Mat ℝ b x)} (h : InitialValue c η B0 kz k0) (hη : 0 ≤ η) (hZ : 0 ≤ Z) (hMk : ‖kz‖ ≤ Mk)
    (hγ : ‖c.bkbk 0 - B0‖ ≤ γ) (hinv : ∀ v : Mat ℝ b x, ‖v‖ ≤ Z * ‖c.bkbk 0 * v‖) (hdet : (c.bkbk 0).det ≠ 0) :
    ∃ k1, effectiveK0 c "trapz" k0 = .ok (some k1) ∧ ‖k1 - kz‖ ≤ (1 + Z) * (x * η) + Z * (γ * Mk) := by
  have hγ0 : 0 ≤ γ := (norm_nonneg _).trans hγ
  have hMk0 : 0 ≤ Mk := (norm_nonneg _).trans hMk
  rcases h with ⟨k1, rfl, h1⟩ | ⟨rfl, d, hd, h1⟩
  · refine ⟨k1, rfl, (norm_le_of_entries (A := k1 - kz) hη h1).trans ?_⟩
    have : 0 ≤ Z * (x * η) + Z * (γ * Mk) := by positivity
    linarith
  · obtain ⟨k1, hk1, hk2⟩ := effectiveK0_second (method := "trapz") (by decide) hd hdet
    refine ⟨k1, hk1, (hinv _).trans ?_⟩
    have e : c.bkbk 0 * (k1 - kz) = (d 0 - B0 * kz) - (c.bkbk 0 - B0) * kz := by
      rw [Matrix.mul_sub, hk2, Matrix.sub_mul]; abel
    have n1 : ‖d 0 - B0 * kz‖ ≤ x * η := norm_le_of_entries hη h1
    have n2 : ‖(c.bkbk 0 - B0) * kz‖ ≤ γ * Mk := (Matrix.linfty_opNorm_mul _ _).trans (by gcongr)
    have n3 : ‖c.bkbk 0 * (k1 - kz)‖ ≤ x * η + γ * Mk := by
      rw [e]; exact (norm_sub_le _ _).trans (add_le_add n1 n2)
    have n4 : Z * ‖c.bkbk 0 * (k1 - kz)‖ ≤ Z * (x * η + γ * Mk) := by gcongr
    have : 0 ≤ x * η := by positivity
    nlinarith

set_option maxHeartbeats 1000000 in
/-- The values of the raw kernel. -/
theorem trapz_raw_error {T : ℝ} {B B1 B2 B3 : ℝ → Mat ℝ b b} {D k k1 k2 : ℝ → Mat ℝ b x} (hB0 : (B 0).det ≠ 0)
    (hB1 : Spec.DerivOn T B B1) (hB2 : Spec.DerivOn T B1 B2) (hB3 : Spec.DerivOn T B2 B3) (hLB : Spec.Lip T B3)
    (hk1 : Spec.DerivOn T k k1) (hk2 : Spec.DerivOn T k1 k2) (hLk : Spec.Lip T k2)
    (heq : Spec.FirstKind T B D k) :
    ∃ C δ Z : ℝ, 0 ≤ C ∧ 0 < δ ∧ δ ≤ 1 ∧ 0 ≤ Z ∧ ∀ (L : ℕ) (h ε : ℝ) (bb : ℕ → Mat ℝ b b), 0 < h → h ≤ δ →
      0 ≤ ε → ε ≤ h ^ 2 → 1 ≤ L → L * h ≤ T → (∀ n ≤ L, ‖bb n - B (n * h)‖ ≤ (b + x) * ε) →
      (bb 0).det ≠ 0 ∧ (∀ v : Mat ℝ b x, ‖v‖ ≤ Z * ‖bb 0 * v‖) ∧ ∀ (dx ker : ℕ → Mat ℝ b x),
        (∀ n ≤ L, ‖dx n - D (n * h)‖ ≤ (b + x) * ε) →
        (∀ m, 1 ≤ m → m ≤ L → Spec.FirstKindTrapzAt h bb dx ker m) →
        ∀ n ≤ L, ‖ker n - k (n * h)‖ ≤ C * (‖ker 0 - k 0‖ + (h ^ 2 + ε / h ^ 2)) := by
  obtain ⟨M, hM1, hM2⟩ := det_inv hB0
  have hLB2 := lip_of_deriv hB3 hLB
  have hLB1 := lip_of_deriv hB2 hLB2
  obtain ⟨a, sB⟩ := smooth1_of hB1 hLB1
  obtain ⟨c, sk⟩ := smooth1_of hk1 (lip_of_deriv hk2 hLk)
  obtain ⟨q, pq, hq⟩ := increment_lip hB1 hLB1
  obtain ⟨R, pR, hR⟩ := convErr_second_difference hB1 hB2 hB3 hLB hk1 hk2 hLk
  have pa := sB.pos
  have pc := sk.pos
  have hMn : 0 ≤ ‖M‖ := norm_nonneg M
  obtain ⟨κ, hκ⟩ : ∃ κ : ℝ, κ = b + x := ⟨_, rfl⟩
  have hκ0 : 0 ≤ κ := by rw [hκ]; positivity
  obtain ⟨Z, hZ⟩ : ∃ Z : ℝ, Z = 2 * ‖M‖ := ⟨_, rfl⟩
  have hZ0 : 0 ≤ Z := by rw [hZ]; positivity
  obtain ⟨S, hS⟩ : ∃ S : ℝ, S = x * (R + 8 * (a * c)) + 4 * (κ * (1 + |T| * c)) := ⟨_, rfl⟩
  have hS0 : 0 ≤ S := by rw [hS]; positivity
  obtain ⟨X, hX⟩ : ∃ X : ℝ, X = Real.exp ((2 * Z * (a + 2 * κ) + 3 * Z * (q + 4 * κ) * |T|) * |T|) := ⟨_, rfl⟩
  have hX0 : 0 ≤ X := by rw [hX]; exact (Real.exp_pos _).le
  obtain ⟨δ, hδ0, hδ1⟩ : ∃ δ : ℝ, 0 < δ ∧ δ * (2 * (‖M‖ + 1) * (1 + κ)) = 1 :=
    ⟨1 / (2 * (‖M‖ + 1) * (1 + κ)), by positivity, by field_simp⟩
  have hδ2 : ‖M‖ * (κ * δ) ≤ 1 / 2 := by
    have : ‖M‖ * (κ * δ) ≤ (‖M‖ + 1) * ((1 + κ) * δ) := by gcongr <;> linarith
    nlinarith
  have hδle : δ ≤ 1 := by
    have h1 : 1 * 1 ≤ (‖M‖ + 1) * (1 + κ) := by gcongr <;> linarith
    nlinarith
  refine ⟨((1 + Z * (a + κ)) + 2 * Z * (1 + |T|) * S) * X, δ, Z, by positivity, hδ0, hδle, hZ0, ?_⟩
  intro L h ε bb hh hhδ hε hεh hL1 hLT nB
  rw [← hκ] at nB
  have hT : 0 ≤ T := le_trans (by positivity) hLT
  have hTa : |T| = T := abs_of_nonneg hT
  rw [hTa] at hS hX ⊢
  have hh1 : h ≤ 1 := hhδ.trans hδle
  have hεh1 : ε ≤ h := hεh.trans (by nlinarith)
  have mem : ∀ n ≤ L, (n : ℝ) * h ∈ Icc 0 T := fun n hn => ⟨by positivity, le_trans (by gcongr) hLT⟩
  have hB00 : ‖bb 0 - B 0‖ ≤ κ * ε := by simpa using nB 0 (Nat.zero_le _)
  have hclose : ‖M‖ * ‖bb 0 - B 0‖ ≤ 1 / 2 := by
    refine le_trans ?_ hδ2
    gcongr
    refine hB00.trans ?_
    gcongr
    exact hεh1.trans hhδ
  have hinv : ∀ v : Mat ℝ b x, ‖v‖ ≤ Z * ‖bb 0 * v‖ := fun v => hZ ▸ norm_le_of_close hM2 hclose v
  refine ⟨det_ne_zero_of_close hM2 (by linarith), hinv, fun dx ker nD hsol n hn => ?_⟩
  rw [← hκ] at nD
  have hD0 : D 0 = 0 := by
    ext i j
    have := heq 0 ⟨le_rfl, hT⟩ i j
    simpa using this.symm
  -- the error of the quadrature
  obtain ⟨CE, hCE⟩ : ∃ CE : ℕ → Mat ℝ b x, CE = fun m =>
      Spec.trapzRule h (fun l => B ((m - l : ℕ) * h) * k (l * h)) m + D (m * h) := ⟨_, rfl⟩
  have hCEe : ∀ m ≤ L, ∀ i j, CE m i j = convErr B k h i j m := fun m hm i j => by
    rw [convErr, heq _ (mem m hm) i j]
    simp only [hCE, Matrix.add_apply]
    ring
  have hres : ∀ m ≤ L, ‖Spec.trapzRule h (Spec.convIntegrand bb (fun n => ker n - k (n * h)) m) m + CE m‖ ≤
      κ * (1 + T * c) * ε := fun m hm => by
    rw [hCE]
    exact trapz_residual hh.le hLT hε hκ0 pc sk.bound hD0 nB nD hsol m hm
  have hεq : ε = ε / h ^ 2 * h ^ 2 := by field_simp
  have hE0 : 0 ≤ ε / h ^ 2 := by positivity
  have key := trapz_error_growth (B := bb) (e := fun n => ker n - k (n * h))
    (r := fun m => Spec.trapzRule h (Spec.convIntegrand bb (fun n => ker n - k (n * h)) m) m)
    (p := a + 2 * κ) (q := q + 4 * κ) (R := S * (h ^ 2 + ε / h ^ 2)) (Z := Z) (MB := a + κ) hh hZ0 (by positivity)
    (by positivity) (by positivity) hLT hinv ?_ ?_ ?_ (fun m hm => rfl) ?_ ?_ n hn
  · refine key.trans ?_
    rw [← hX]
    simp only [Nat.cast_zero, zero_mul]
    have h1 : 0 ≤ ‖ker 0 - k 0‖ := norm_nonneg _
    generalize ‖ker 0 - k 0‖ = u at h1 ⊢
    obtain ⟨w, hw⟩ : ∃ w : ℝ, w = h ^ 2 + ε / h ^ 2 := ⟨_, rfl⟩
    have hw0 : 0 ≤ w := by rw [hw]; positivity
    rw [← hw]
    have h2 : (1 + Z * (a + κ)) * u + 2 * Z * (1 + T) * (S * w) ≤
        ((1 + Z * (a + κ)) + 2 * Z * (1 + T) * S) * (u + w) := by
      have h3 : 0 ≤ (1 + Z * (a + κ)) * w := by positivity
      have h4 : 0 ≤ 2 * Z * (1 + T) * S * u := by positivity
      nlinarith
    calc _ ≤ ((1 + Z * (a + κ)) + 2 * Z * (1 + T) * S) * (u + w) * X := by gcongr
      _ = _ := by ring
  · have h1 := nB 1 hL1
    have h2 := sB.bound _ (mem 1 hL1)
    have h3 := norm_add_le (bb 1 - B ((1 : ℕ) * h)) (B ((1 : ℕ) * h))
    rw [sub_add_cancel] at h3
    have : κ * ε ≤ κ * 1 := by gcongr; linarith
    linarith
  · have h1 := nB 1 hL1
    have h2 := sB.lip _ (mem 1 hL1) _ (mem 0 (by omega))
    simp only [Nat.cast_one, one_mul, Nat.cast_zero, zero_mul, sub_zero, abs_of_pos hh] at h1 h2
    have e : bb 1 - bb 0 = (bb 1 - B h) + (B h - B 0) - (bb 0 - B 0) := by abel
    rw [e]
    refine (norm_sub_le _ _).trans ((add_le_add (norm_add_le _ _) le_rfl).trans ?_)
    have : κ * ε ≤ κ * h := by gcongr
    linarith
  · intro j hj
    have t1 : ((j + 1 : ℕ) : ℝ) * h = j * h + h := by push_cast; ring
    have t2 : ((j + 2 : ℕ) : ℝ) * h = j * h + h + h := by push_cast; ring
    have h0 := nB j (by omega)
    have h1 := nB (j + 1) (by omega)
    have h2 := nB (j + 2) (by omega)
    have m2 := mem (j + 2) hj
    rw [t1] at h1
    rw [t2] at h2 m2
    have pj : (0 : ℝ) ≤ j * h := by positivity
    have h3 := hq h (j * h + h) hh.le m2.2 (j * h + h) ⟨by linarith, le_rfl⟩ (j * h) ⟨pj, by linarith⟩
    rw [add_sub_cancel_left, abs_of_pos hh] at h3
    have e : bb (j + 2) - (2 : ℝ) • bb (j + 1) + bb j =
        (bb (j + 2) - B (j * h + h + h)) + (bb j - B (j * h)) - (2 : ℝ) • (bb (j + 1) - B (j * h + h)) +
        ((B (j * h + h + h) - B (j * h + h)) - (B (j * h + h) - B (j * h))) := by module
    rw [e]
    refine (norm_add_le _ _).trans ((add_le_add ((norm_sub_le _ _).trans (add_le_add (norm_add_le _ _) le_rfl))
      le_rfl).trans ?_)
    rw [norm_smul, Real.norm_of_nonneg (by norm_num : (0 : ℝ) ≤ 2)]
    have : κ * ε ≤ κ * h ^ 2 := by gcongr
    have s : (q + 4 * κ) * h ^ 2 = κ * h ^ 2 + κ * h ^ 2 + 2 * (κ * h ^ 2) + q * h * h := by ring
    rw [s]
    linarith
  · intro _
    have h1 := hres 1 hL1
    have h2 : ‖CE 1‖ ≤ x * (8 * (a * c) * h ^ 3) := by
      refine norm_le_of_entries (by positivity) fun i j => ?_
      rw [hCEe 1 hL1, convErr_cells sB sk hh.le (mem 1 hL1).2, sum_range_one]
      have m1 := (mem 1 hL1).2
      exact cellErr_conv (sB.mono m1) (sk.mono m1) hh.le (by simp) (by simp) i j
    have h3 := norm_sub_le (Spec.trapzRule h (Spec.convIntegrand bb (fun n => ker n - k (n * h)) 1) 1 + CE 1) (CE 1)
    rw [add_sub_cancel_right] at h3
    refine h3.trans ((add_le_add h1 h2).trans ?_)
    have h4 : κ * (1 + T * c) * ε ≤ 4 * (κ * (1 + T * c)) * (ε / h ^ 2) * h := by
      have : ε ≤ ε / h ^ 2 * h := by
        rw [div_mul_eq_mul_div, le_div_iff₀ (by positivity)]
        exact mul_le_mul_of_nonneg_left (by nlinarith) hε
      have h5 : 0 ≤ κ * (1 + T * c) := by positivity
      have h6 : κ * (1 + T * c) * ε ≤ κ * (1 + T * c) * (ε / h ^ 2 * h) := by gcongr
      have h7 : 0 ≤ κ * (1 + T * c) * (ε / h ^ 2 * h) := by positivity
      linarith
    rw [hS]
    have h8 : 0 ≤ x * R * (h ^ 2 + ε / h ^ 2) * h := by positivity
    have h9 : 0 ≤ x * (8 * (a * c)) * (ε / h ^ 2) * h := by positivity
    have h10 : 0 ≤ 4 * (κ * (1 + T * c)) * h ^ 2 * h := by positivity
    linarith
  · intro m hm
    have r0 := hres m (by omega)
    have r1 := hres (m + 1) (by omega)
    have r2 := hres (m + 2) hm
    generalize Spec.trapzRule h (Spec.convIntegrand bb (fun n => ker n - k (n * h)) m) m = f0 at r0 ⊢
    generalize Spec.trapzRule h (Spec.convIntegrand bb (fun n => ker n - k (n * h)) (m + 1)) (m + 1) = f1 at r1 ⊢
    generalize Spec.trapzRule h (Spec.convIntegrand bb (fun n => ker n - k (n * h)) (m + 2)) (m + 2) = f2 at r2 ⊢
    have h2 : ‖CE (m + 2) - (2 : ℝ) • CE (m + 1) + CE m‖ ≤ x * (R * h ^ 4) := by
      refine norm_le_of_entries (by positivity) fun i j => ?_
      simp only [Matrix.add_apply, Matrix.sub_apply, Matrix.smul_apply, smul_eq_mul]
      rw [hCEe _ hm, hCEe (m + 1) (by omega), hCEe m (by omega)]
      exact hR h m hh.le (mem _ hm).2 i j
    have e : f2 - (2 : ℝ) • f1 + f0 = (f2 + CE (m + 2)) + (f0 + CE m) - (2 : ℝ) • (f1 + CE (m + 1)) -
        (CE (m + 2) - (2 : ℝ) • CE (m + 1) + CE m) := by module
    rw [e]
    refine (norm_sub_le _ _).trans ((add_le_add ((norm_sub_le _ _).trans (add_le_add (norm_add_le _ _) le_rfl))
      le_rfl).trans ?_)
    rw [norm_smul, Real.norm_of_nonneg (by norm_num : (0 : ℝ) ≤ 2)]
    have h3 : 4 * (κ * (1 + T * c) * ε) + x * (R * h ^ 4) ≤ S * (h ^ 2 + ε / h ^ 2) * h ^ 2 := by
      rw [hS]
      have h8 : 0 ≤ x * R * (ε / h ^ 2) * h ^ 2 := by positivity
      have h9 : 0 ≤ x * (8 * (a * c)) * (h ^ 2 + ε / h ^ 2) * h ^ 2 := by positivity
      have h10 : 0 ≤ 4 * (κ * (1 + T * c)) * h ^ 2 * h ^ 2 := by positivity
      have h11 : 4 * (κ * (1 + T * c)) * (ε / h ^ 2) * h ^ 2 = 4 * (κ * (1 + T * c) * ε) := by
        rw [mul_assoc _ (ε / h ^ 2), ← hεq]; ring
      nlinarith
    linarith

/-- **C127.** `compute_kernel(method="trapz")` converges with second order to the solution of the
continuous Volterra equation of the first kind. The initial value, given or computed, is known up to
`η`. An error `ε` of the correlations is amplified by `1/dt²`. One value less than the number of
correlations is returned. -/
theorem C127_trapz_converges {T : ℝ} {B B1 B2 B3 : ℝ → Mat ℝ b b} {D k k1 k2 : ℝ → Mat ℝ b x} (hB0 : (B 0).det ≠ 0)
    (hB1 : Spec.DerivOn T B B1) (hB2 : Spec.DerivOn T B1 B2) (hB3 : Spec.DerivOn T B2 B3) (hLB : Spec.Lip T B3)
    (hk1 : Spec.DerivOn T k k1) (hk2 : Spec.DerivOn T k1 k2) (hLk : Spec.Lip T k2)
    (heq : Spec.FirstKind T B D k) :
    ∃ C δ : ℝ, 0 < δ ∧ ∀ (c : Corrs ℝ b x) (dt ε η : ℝ) (k0 : Option (Mat ℝ b x)),
      0 < dt → dt ≤ δ → 0 ≤ ε → ε ≤ dt ^ 2 → 0 ≤ η → 2 ≤ c.N → ((c.N - 1 : ℕ) : ℝ) * dt ≤ T →
      NearFirst c dt ε B D → InitialValue c η (B 0) (k 0) k0 →
      ∃ r, computeKernel (some c) c.N dt "trapz" k0 = .ok r ∧
        r.kernel.len = c.N - 1 ∧ r.time.len = c.N - 1 ∧
        ∀ n < c.N - 1, r.time.get n = n * dt ∧
          ∀ i j, |r.kernel.get n i j - k (n * dt) i j| ≤ C * (dt ^ 2 + η + ε / dt ^ 2) := by
  obtain ⟨C, δ, Z, hC, hδ, hδ1, hZ, H⟩ := trapz_raw_error hB0 hB1 hB2 hB3 hLB hk1 hk2 hLk heq
  obtain ⟨Mk, hMk0, hMk⟩ := lip_bound (lip_of_deriv hk1 (lip_of_deriv hk2 hLk))
  obtain ⟨a, pa, ha⟩ := increment_lip hk1 (lip_of_deriv hk2 hLk)
  obtain ⟨κ, hκ⟩ : ∃ κ : ℝ, κ = b + x := ⟨_, rfl⟩
  have hκ0 : 0 ≤ κ := by rw [hκ]; positivity
  obtain ⟨Y, hY⟩ : ∃ Y : ℝ, Y = (1 + Z) * x + Z * (κ * Mk) := ⟨_, rfl⟩
  have hY0 : 0 ≤ Y := by rw [hY]; positivity
  refine ⟨Y + C * (Y + 1) + a, δ, hδ, ?_⟩
  intro c h ε η k0 hh hhδ hε hεh hη hN hNT ⟨cB, cD⟩ hk0
  have hT : 0 ≤ T := (by positivity : (0 : ℝ) ≤ (c.N - 1 : ℕ) * h).trans hNT
  have nB : ∀ n ≤ c.N - 1, ‖c.bkbk n - B (n * h)‖ ≤ (b + x) * ε := fun n hn => by
    refine (norm_le_of_entries hε (cB n (by omega))).trans ?_
    gcongr
    linarith [(by positivity : (0 : ℝ) ≤ x)]
  have nD : ∀ n ≤ c.N - 1, ‖c.bkdx n - D (n * h)‖ ≤ (b + x) * ε := fun n hn => by
    refine (norm_le_of_entries hε (cD n (by omega))).trans ?_
    gcongr
    linarith [(by positivity : (0 : ℝ) ≤ b)]
  obtain ⟨hdet, hinv, H1⟩ := H (c.N - 1) h ε c.bkbk hh hhδ hε hεh (by omega) hNT nB
  obtain ⟨kz, hkz, nkz⟩ := initialValue_effective hk0 hη hZ (hMk 0 ⟨le_rfl, hT⟩)
    (by simpa using nB 0 (Nat.zero_le _)) hinv hdet
  obtain ⟨ker, hker⟩ := FKernel.firstKindTrapz_total (c.N - 1) kz (B := c.bkbk) (dt := h)
    (by rw [Matrix.det_smul]; exact mul_ne_zero (pow_ne_zero _ (by positivity)) hdet) c.bkdx
  obtain ⟨s0, s1⟩ := FKernel.firstKindTrapz_solves hker
  obtain ⟨s, hs, sl, sg⟩ := smooth_eq c.N ker
  have hεle : ε ≤ ε / h ^ 2 := by
    rw [le_div_iff₀ (by positivity)]
    have : h ^ 2 ≤ 1 := by nlinarith
    nlinarith
  have hE0 : 0 ≤ ε / h ^ 2 := by positivity
  obtain ⟨w, hw⟩ : ∃ w : ℝ, w = h ^ 2 + η + ε / h ^ 2 := ⟨_, rfl⟩
  have hw0 : 0 ≤ w := by rw [hw]; positivity
  have n0 : ‖kz - k 0‖ ≤ Y * w := by
    refine nkz.trans ?_
    rw [hY, hw, ← hκ]
    have h1 : Z * (κ * ε * Mk) ≤ Z * (κ * Mk) * (ε / h ^ 2) := by
      have : Z * (κ * Mk) * ε ≤ Z * (κ * Mk) * (ε / h ^ 2) := by gcongr
      linarith
    have h2 : 0 ≤ (1 + Z) * x * (h ^ 2 + ε / h ^ 2) := by positivity
    have h3 : 0 ≤ Z * (κ * Mk) * (h ^ 2 + η) := by positivity
    linarith
  have raw : ∀ n ≤ c.N - 1, ‖ker n - k (n * h)‖ ≤ C * (Y + 1) * w := fun n hn => by
    refine (H1 c.bkdx ker nD s1 n hn).trans ?_
    rw [s0, mul_assoc]
    gcongr
    rw [add_mul, one_mul]
    refine add_le_add n0 ?_
    rw [hw]
    linarith
  refine ⟨⟨s.insert0 kz, (fullTime c.N h).slice 0 (c.N - 1) 1⟩, ?_, ?_, ?_, fun n hn => ⟨?_, fun i j => ?_⟩⟩
  · rw [computeKernel_trapz_eq _ _ (by omega), hkz]
    simp only [Except.bind, hker, hs]
    refine finish_of_len ?_
    simp only [Arr.insert0, sl, Arr.slice, fullTime]
    omega
  · simp only [Arr.insert0, sl]
    omega
  · simp [Arr.slice, fullTime]
  · simp [Arr.slice, fullTime]
  · rw [← hw]
    rcases Nat.eq_zero_or_pos n with rfl | hn0
    · simp only [Arr.insert0, if_true, Nat.cast_zero, zero_mul]
      refine (entry_le_norm (kz - k 0) i j).trans (n0.trans ?_)
      have : 0 ≤ (C * (Y + 1) + a) * w := by positivity
      linarith
    · obtain ⟨m, rfl⟩ : ∃ m, n = m + 1 := ⟨n - 1, by omega⟩
      simp only [Arr.insert0, if_neg (Nat.succ_ne_zero m), Nat.add_sub_cancel, sg]
      have t1 : ((m + 1 : ℕ) : ℝ) * h = m * h + h := by push_cast; ring
      have t2 : ((m + 2 : ℕ) : ℝ) * h = m * h + h + h := by push_cast; ring
      have r0 := raw m (by omega)
      have r1 := raw (m + 1) (by omega)
      have r2 := raw (m + 2) (by omega)
      rw [t1] at r1 ⊢
      rw [t2] at r2
      have pm : (0 : ℝ) ≤ m * h := by positivity
      have h3 := ha h (m * h + h) hh.le (by rw [← t2]; exact le_trans (by gcongr; omega) hNT) (m * h + h)
        ⟨by linarith, le_rfl⟩ (m * h) ⟨pm, by linarith⟩
      rw [add_sub_cancel_left, abs_of_pos hh] at h3
      refine (entry_le_norm ((1 / 2 : ℝ) • (ker (m + 1) + (1 / 2 : ℝ) • (ker m + ker (m + 2))) - k (m * h + h))
        i j).trans ?_
      have e : (1 / 2 : ℝ) • (ker (m + 1) + (1 / 2 : ℝ) • (ker m + ker (m + 2))) - k (m * h + h) =
          (1 / 2 : ℝ) • (ker (m + 1) - k (m * h + h)) + (1 / 4 : ℝ) • (ker m - k (m * h)) +
          (1 / 4 : ℝ) • (ker (m + 2) - k (m * h + h + h)) +
          (1 / 4 : ℝ) • ((k (m * h + h + h) - k (m * h + h)) - (k (m * h + h) - k (m * h))) := by module
      rw [e]
      refine (norm_add_le _ _).trans ((add_le_add ((norm_add_le _ _).trans (add_le_add (norm_add_le _ _) le_rfl))
        le_rfl).trans ?_)
      simp only [norm_smul, Real.norm_of_nonneg (by norm_num : (0 : ℝ) ≤ 1 / 2),
        Real.norm_of_nonneg (by norm_num : (0 : ℝ) ≤ 1 / 4)]
      have h4 : a * h * h ≤ a * w := by
        rw [mul_assoc]
        gcongr
        rw [hw]
        nlinarith
      have h5 : 0 ≤ Y * w := by positivity
      have h6 : 0 ≤ a * w := by positivity
      rw [add_mul, add_mul]
      linarith

theorem exFirst_initial (N : ℕ) (dt ε : ℝ) : InitialValue (exFirstCorrs N dt ε) 0 (exBd 0) (exK 0) none := by
  refine Or.inr ⟨rfl, _, rfl, fun i j => ?_⟩
  fin_cases i; fin_cases j
  simp [exBd, exK, Matrix.mul_apply]

theorem derivOn_const {m n : ℕ} (T : ℝ) (A : Mat ℝ m n) : Spec.DerivOn T (fun _ => A) fun _ => 0 :=
  fun t _ i j => hasDerivWithinAt_const t _ (A i j)

/-- The error computed from 11 samples with an error `dt⁴` is at most `C dt²`. -/
example : ∃ C δ : ℝ, 0 < δ ∧ ∀ dt : ℝ, 0 < dt → dt ≤ δ → dt ≤ 1 / 10 →
    ∃ r, computeKernel (some (exFirstCorrs 11 dt (dt ^ 4))) 11 dt "trapz" none = .ok r ∧
      ∀ n < 10, |r.kernel.get n 0 0 - n * dt| ≤ C * (dt ^ 2 + 0 + dt ^ 2) := by
  obtain ⟨C, δ, hδ, H⟩ := C127_trapz_converges (by simp [exBd]) exBd_deriv (derivOn_const 1 0) (derivOn_const 1 0)
    (lip_const 1 0) exK_deriv (derivOn_const 1 _) (lip_const 1 0) exFirst
  refine ⟨C, δ, hδ, fun dt h1 h2 h3 => ?_⟩
  obtain ⟨r, hr, -, -, H'⟩ := H (exFirstCorrs 11 dt (dt ^ 4)) dt (dt ^ 4) 0 none h1 h2
    (by positivity) (by nlinarith [sq_nonneg dt, (by nlinarith : dt ^ 2 ≤ 1)]) le_rfl (by simp [exFirstCorrs])
    (by simp only [exFirstCorrs]; norm_num; linarith) (exFirst_near 11 dt (by positivity)) (exFirst_initial 11 dt _)
  refine ⟨r, hr, fun n hn => ?_⟩
  have := (H' n hn).2 0 0
  rwa [show dt ^ 4 / dt ^ 2 = dt ^ 2 by field_simp] at this

end Verif
