import Verif.Lemmas.Converge

/-! # Consistency of the midpoint method as implemented -/

namespace Verif

open Finset Set
open scoped Matrix.Norms.Operator

variable {b x : ℕ}

/-- The increment over one step of the convolution, by the rectangle rule. -/
noncomputable def incrRule (A : ℝ → Mat ℝ b b) (B : ℝ → Mat ℝ b x) (h : ℝ) (m : ℕ) : Mat ℝ b x :=
  ∑ l ∈ range m, h • ((A ((m + 1 - l : ℕ) * h) - A ((m - l : ℕ) * h)) * B (l * h)) + h • (A 0 * B (m * h))

/-- The convolution. -/
noncomputable def convAt (A : ℝ → Mat ℝ b b) (B : ℝ → Mat ℝ b x) (t : ℝ) : Mat ℝ b x :=
  Matrix.of fun i j => ∫ s in (0 : ℝ)..t, (A (t - s) * B s) i j

theorem incrRule_consistent {T : ℝ} {A A' : ℝ → Mat ℝ b b} {B : ℝ → Mat ℝ b x} (hA : Spec.DerivOn T A A')
    (hA' : Spec.Lip T A') (hB : Spec.Lip T B) :
    ∃ Q : ℝ, 0 ≤ Q ∧ ∀ (h : ℝ) (m : ℕ), 0 ≤ h → (m + 1 : ℕ) * h ≤ T →
      ‖incrRule A B h m - (convAt A B ((m + 1 : ℕ) * h) - convAt A B (m * h))‖ ≤ Q * h ^ 2 := by
  obtain ⟨Q, hQ0, hQ⟩ := increment_consistent hA hA' hB
  refine ⟨x * Q, by positivity, fun h m hh hm => ?_⟩
  rw [mul_assoc]
  refine norm_le_of_entries (by positivity) fun i j => ?_
  exact hQ h m hh hm i j

/-- The increment changes little over two steps. -/
theorem incrRule_two_steps {T : ℝ} {A A' : ℝ → Mat ℝ b b} {B : ℝ → Mat ℝ b x} (hA : Spec.DerivOn T A A')
    (hA' : Spec.Lip T A') (hB : Spec.Lip T B) :
    ∃ Q : ℝ, 0 ≤ Q ∧ ∀ (h : ℝ) (m : ℕ), 0 ≤ h → (m + 3 : ℕ) * h ≤ T →
      ‖incrRule A B h (m + 2) - incrRule A B h m‖ ≤ Q * h ^ 2 := by
  obtain ⟨a, pa, ha⟩ := increment_lip hA hA'
  obtain ⟨LA, pLA, hLA⟩ := lip_norm (lip_of_deriv hA hA')
  obtain ⟨LB, pLB, hLB⟩ := lip_norm hB
  obtain ⟨MB, pMB, hMB⟩ := lip_bound hB
  have hA0 : 0 ≤ ‖A 0‖ := norm_nonneg _
  refine ⟨|T| * (2 * a * MB) + 2 * (LA * MB) + 2 * (‖A 0‖ * LB), by positivity, fun h m hh hm => ?_⟩
  have t3 : ((m + 3 : ℕ) : ℝ) * h = m * h + 3 * h := by push_cast; ring
  rw [t3] at hm
  have pm : (0 : ℝ) ≤ m * h := by positivity
  have hT : 0 ≤ T := by linarith
  have memB : ∀ l ≤ m + 2, (l : ℝ) * h ∈ Icc 0 T := fun l hl => by
    have : (l : ℝ) * h ≤ (m + 2 : ℕ) * h := by gcongr
    push_cast at this
    exact ⟨by positivity, by linarith⟩
  have inc : ∀ n ≤ m + 2, ‖A ((n + 1 : ℕ) * h) - A (n * h)‖ ≤ LA * h := fun n hn => by
    have h1 : ((n + 1 : ℕ) : ℝ) * h ≤ (m + 3 : ℕ) * h :=
      mul_le_mul_of_nonneg_right (by exact_mod_cast (by omega : n + 1 ≤ m + 3)) hh
    have := hLA ((n + 1 : ℕ) * h) ⟨by positivity, by rw [t3] at h1; linarith⟩ _ (memB n hn)
    rwa [← sub_mul, abs_mul, abs_of_nonneg hh, show ((n + 1 : ℕ) : ℝ) - n = 1 by push_cast; ring, abs_one,
      one_mul] at this
  have e : incrRule A B h (m + 2) - incrRule A B h m =
      ∑ l ∈ range m, h • (((A ((m - l + 3 : ℕ) * h) - A ((m - l + 2 : ℕ) * h)) -
        (A ((m - l + 1 : ℕ) * h) - A ((m - l : ℕ) * h))) * B (l * h)) +
      h • ((A ((2 + 1 : ℕ) * h) - A ((2 : ℕ) * h)) * B (m * h)) +
      h • ((A ((1 + 1 : ℕ) * h) - A ((1 : ℕ) * h)) * B ((m + 1 : ℕ) * h)) +
      h • (A 0 * (B ((m + 2 : ℕ) * h) - B (m * h))) := by
    unfold incrRule
    rw [sum_range_succ, sum_range_succ]
    have e1 : ∑ l ∈ range m, h • (((A ((m - l + 3 : ℕ) * h) - A ((m - l + 2 : ℕ) * h)) -
        (A ((m - l + 1 : ℕ) * h) - A ((m - l : ℕ) * h))) * B (l * h)) =
        ∑ l ∈ range m, h • ((A ((m + 2 + 1 - l : ℕ) * h) - A ((m + 2 - l : ℕ) * h)) * B (l * h)) -
        ∑ l ∈ range m, h • ((A ((m + 1 - l : ℕ) * h) - A ((m - l : ℕ) * h)) * B (l * h)) := by
      rw [← sum_sub_distrib]
      refine sum_congr rfl fun l hl => ?_
      have := Finset.mem_range.1 hl
      rw [show m + 2 + 1 - l = m - l + 3 by omega, show m + 2 - l = m - l + 2 by omega,
        show m + 1 - l = m - l + 1 by omega, Matrix.sub_mul, smul_sub]
    rw [e1, show m + 2 + 1 - m = 2 + 1 by omega, show m + 2 - m = 2 by omega,
      show m + 2 + 1 - (m + 1) = 1 + 1 by omega, show m + 2 - (m + 1) = 1 by omega, Matrix.mul_sub, smul_sub]
    abel
  rw [e]
  have n1 : ‖∑ l ∈ range m, h • (((A ((m - l + 3 : ℕ) * h) - A ((m - l + 2 : ℕ) * h)) -
        (A ((m - l + 1 : ℕ) * h) - A ((m - l : ℕ) * h))) * B (l * h))‖ ≤ |T| * (2 * a * MB) * h ^ 2 := by
    refine (norm_sum_le_of_le (n := fun _ => h * (a * h * (2 * h) * MB)) _ fun l hl => ?_).trans ?_
    · have hl' := Finset.mem_range.1 hl
      rw [norm_smul, Real.norm_of_nonneg hh]
      gcongr
      refine (Matrix.linfty_opNorm_mul _ _).trans ?_
      gcongr
      · have s1 : ((m - l + 1 : ℕ) : ℝ) * h = (m - l : ℕ) * h + h := by push_cast; ring
        have s2 : ((m - l + 2 : ℕ) : ℝ) * h = (m - l : ℕ) * h + 2 * h := by push_cast; ring
        have s3 : ((m - l + 3 : ℕ) : ℝ) * h = (m - l : ℕ) * h + 2 * h + h := by push_cast; ring
        have s4 : ((m - l : ℕ) : ℝ) * h ≤ m * h := by gcongr; omega
        have s5 : (0 : ℝ) ≤ (m - l : ℕ) * h := by positivity
        rw [s1, s2, s3]
        have := ha h (m * h + 2 * h) hh (by linarith) ((m - l : ℕ) * h + 2 * h) ⟨by linarith, by linarith⟩
          ((m - l : ℕ) * h) ⟨s5, by linarith⟩
        rwa [add_sub_cancel_left, abs_of_nonneg (by linarith)] at this
      · exact hMB _ (memB l (by omega))
    · rw [sum_const, card_range, nsmul_eq_mul]
      have hmT : (m : ℝ) * h ≤ |T| := le_trans (by linarith) (le_abs_self T)
      calc (m : ℝ) * (h * (a * h * (2 * h) * MB)) = (m * h) * (2 * a * MB) * h ^ 2 := by ring
        _ ≤ |T| * (2 * a * MB) * h ^ 2 := by gcongr
  have n2 : ‖h • ((A ((2 + 1 : ℕ) * h) - A ((2 : ℕ) * h)) * B (m * h))‖ ≤ LA * MB * h ^ 2 := by
    rw [norm_smul, Real.norm_of_nonneg hh]
    calc h * ‖(A ((2 + 1 : ℕ) * h) - A ((2 : ℕ) * h)) * B (m * h)‖ ≤ h * ((LA * h) * MB) := by
          gcongr
          refine (Matrix.linfty_opNorm_mul _ _).trans ?_
          gcongr
          · exact inc 2 (by omega)
          · exact hMB _ (memB m (by omega))
      _ = _ := by ring
  have n3 : ‖h • ((A ((1 + 1 : ℕ) * h) - A ((1 : ℕ) * h)) * B ((m + 1 : ℕ) * h))‖ ≤ LA * MB * h ^ 2 := by
    rw [norm_smul, Real.norm_of_nonneg hh]
    calc h * ‖(A ((1 + 1 : ℕ) * h) - A ((1 : ℕ) * h)) * B ((m + 1 : ℕ) * h)‖ ≤ h * ((LA * h) * MB) := by
          gcongr
          refine (Matrix.linfty_opNorm_mul _ _).trans ?_
          gcongr
          · exact inc 1 (by omega)
          · exact hMB _ (memB (m + 1) (by omega))
      _ = _ := by ring
  have n4 : ‖h • (A 0 * (B ((m + 2 : ℕ) * h) - B (m * h)))‖ ≤ 2 * (‖A 0‖ * LB) * h ^ 2 := by
    rw [norm_smul, Real.norm_of_nonneg hh]
    calc h * ‖A 0 * (B ((m + 2 : ℕ) * h) - B (m * h))‖ ≤ h * (‖A 0‖ * (LB * (2 * h))) := by
          gcongr
          refine (Matrix.linfty_opNorm_mul _ _).trans ?_
          gcongr
          have := hLB _ (memB (m + 2) le_rfl) _ (memB m (by omega))
          rwa [← sub_mul, abs_mul, abs_of_nonneg hh, show ((m + 2 : ℕ) : ℝ) - m = 2 by push_cast; ring, abs_two] at this
      _ = _ := by ring
  refine (norm_add_le _ _).trans ((add_le_add ((norm_add_le _ _).trans (add_le_add ((norm_add_le _ _).trans
    (add_le_add n1 n2)) n3)) n4).trans (le_of_eq (by ring)))

/-- Increment of the correlation which the midpoint solver uses at the distance `n`. -/
noncomputable def midInc (A : ℝ → Mat ℝ b b) (h : ℝ) (n : ℕ) : Mat ℝ b b :=
  A ((2 * n : ℕ) * h) - if n = 1 then A h else A ((2 * (n - 1) : ℕ) * h)

/-- What the midpoint solver tends to: half the kernel at time 0, the kernel afterwards. -/
noncomputable def midLim (B : ℝ → Mat ℝ b x) (h : ℝ) (l : ℕ) : Mat ℝ b x :=
  if l = 0 then (1 / 2 : ℝ) • B 0 else B ((2 * l : ℕ) * h)

theorem midLim_bound {T MB h : ℝ} {B : ℝ → Mat ℝ b x} (hMB : ∀ t ∈ Icc 0 T, ‖B t‖ ≤ MB) (hh : 0 ≤ h) {l : ℕ}
    (hl : (2 * l : ℕ) * h ≤ T) : ‖midLim B h l‖ ≤ MB := by
  unfold midLim
  have h0 : (0 : ℝ) ≤ (2 * l : ℕ) * h := by positivity
  split
  · rw [norm_smul, Real.norm_of_nonneg (by norm_num)]
    have := hMB 0 ⟨le_rfl, h0.trans hl⟩
    have := norm_nonneg (B 0)
    linarith
  · exact hMB _ ⟨h0, hl⟩

theorem midInc_bound {T LA h : ℝ} {A : ℝ → Mat ℝ b b} (pLA : 0 ≤ LA)
    (hLA : ∀ s ∈ Icc 0 T, ∀ t ∈ Icc 0 T, ‖A s - A t‖ ≤ LA * |s - t|) (hh : 0 ≤ h) {n : ℕ} (hn0 : 1 ≤ n)
    (hn : (2 * n : ℕ) * h ≤ T) : ‖midInc A h n‖ ≤ LA * (2 * h) := by
  unfold midInc
  have h0 : (0 : ℝ) ≤ (2 * n : ℕ) * h := by positivity
  split
  · rename_i h1
    subst h1
    have e : ((2 * 1 : ℕ) : ℝ) * h = 2 * h := by push_cast; ring
    rw [e] at hn ⊢
    refine (hLA _ ⟨by positivity, hn⟩ _ ⟨hh, by linarith⟩).trans ?_
    gcongr
    rw [abs_of_nonneg (by linarith)]
    linarith
  · have e : ((2 * n : ℕ) : ℝ) * h - (2 * (n - 1) : ℕ) * h = 2 * h := by
      rw [← sub_mul, show ((2 * n : ℕ) : ℝ) - (2 * (n - 1) : ℕ) = 2 by
        push_cast [Nat.cast_sub hn0]; ring]
    have h1 : (0 : ℝ) ≤ (2 * (n - 1) : ℕ) * h := by positivity
    have := hLA _ ⟨h0, hn⟩ _ ⟨h1, by linarith⟩
    rwa [e, abs_of_nonneg (by linarith)] at this

/-- The sum over the past which the midpoint solver uses is close to the increment over two steps. -/
theorem midpoint_sum {T : ℝ} {A A' : ℝ → Mat ℝ b b} {B : ℝ → Mat ℝ b x} (hA : Spec.DerivOn T A A')
    (hA' : Spec.Lip T A') (hB : Spec.Lip T B) :
    ∃ Q : ℝ, 0 ≤ Q ∧ ∀ (h : ℝ) (i : ℕ), 0 ≤ h → 1 ≤ i → (2 * i + 2 : ℕ) * h ≤ T →
      ‖∑ l ∈ range i, (2 * h) • (midInc A h (i - l) * midLim B h l) + (2 * h) • (A 0 * B ((2 * i : ℕ) * h))
        - incrRule A B (2 * h) i‖ ≤ Q * h ^ 2 := by
  obtain ⟨a, pa, ha⟩ := increment_lip hA hA'
  obtain ⟨LA, pLA, hLA⟩ := lip_norm (lip_of_deriv hA hA')
  obtain ⟨MB, pMB, hMB⟩ := lip_bound hB
  refine ⟨|T| * (4 * a * MB) + 8 * (LA * MB) + 4 * (LA * MB), by positivity, fun h i hh hi hT => ?_⟩
  have cast2 : ∀ n : ℕ, (n : ℝ) * (2 * h) = (2 * n : ℕ) * h := fun n => by push_cast; ring
  have pT : 0 ≤ T := le_trans (by positivity) hT
  have hle : ∀ n : ℕ, n ≤ 2 * i + 2 → (n : ℝ) * h ≤ T := fun n hn => le_trans (by gcongr) hT
  -- term by term
  have term : ∀ l ∈ range i, ‖(2 * h) • (midInc A h (i - l) * midLim B h l) -
      (2 * h) • ((A ((i + 1 - l : ℕ) * (2 * h)) - A ((i - l : ℕ) * (2 * h))) * B (l * (2 * h)))‖ ≤
      4 * a * MB * h ^ 2 * (2 * h) + (if l = i - 1 then 8 * (LA * MB) * h ^ 2 else 0) +
        (if l = 0 then 4 * (LA * MB) * h ^ 2 else 0) := by
    intro l hl
    have hl' := Finset.mem_range.1 hl
    rw [cast2, cast2, cast2]
    have bm : ‖midLim B h l‖ ≤ MB := midLim_bound hMB hh (hle _ (by omega))
    have bi : ‖A ((2 * (i + 1 - l) : ℕ) * h) - A ((2 * (i - l) : ℕ) * h)‖ ≤ LA * (2 * h) := by
      have := hLA _ ⟨by positivity, hle (2 * (i + 1 - l)) (by omega)⟩ _ ⟨by positivity, hle (2 * (i - l)) (by omega)⟩
      rwa [← sub_mul, show 2 * (i + 1 - l) = 2 * (i - l) + 2 by omega,
        show ((2 * (i - l) + 2 : ℕ) : ℝ) - (2 * (i - l) : ℕ) = 2 by push_cast; ring, abs_of_nonneg (by positivity),
        ← show 2 * (i + 1 - l) = 2 * (i - l) + 2 by omega] at this
    have e : (2 * h) • (midInc A h (i - l) * midLim B h l) -
        (2 * h) • ((A ((2 * (i + 1 - l) : ℕ) * h) - A ((2 * (i - l) : ℕ) * h)) * B ((2 * l : ℕ) * h)) =
        (2 * h) • ((midInc A h (i - l) - (A ((2 * (i + 1 - l) : ℕ) * h) - A ((2 * (i - l) : ℕ) * h))) * midLim B h l) +
        (2 * h) • ((A ((2 * (i + 1 - l) : ℕ) * h) - A ((2 * (i - l) : ℕ) * h)) *
          (midLim B h l - B ((2 * l : ℕ) * h))) := by
      simp only [Matrix.sub_mul, Matrix.mul_sub]
      module
    rw [e, add_assoc, add_comm (if l = i - 1 then _ else _), ← add_assoc, add_right_comm]
    refine (norm_add_le _ _).trans (add_le_add ?_ ?_)
    · rw [norm_smul, Real.norm_of_nonneg (by positivity)]
      have h1 : ‖midInc A h (i - l) - (A ((2 * (i + 1 - l) : ℕ) * h) - A ((2 * (i - l) : ℕ) * h))‖ ≤
          if l = i - 1 then 4 * LA * h else 4 * a * h ^ 2 := by
        split
        · refine (norm_sub_le _ _).trans ((add_le_add
            (midInc_bound (T := T) pLA hLA hh (n := i - l) (by omega) (hle _ (by omega))) bi).trans ?_)
          linarith
        · rename_i hne
          obtain ⟨n, hn⟩ : ∃ n, i - l = n + 2 := ⟨i - l - 2, by omega⟩
          rw [midInc, if_neg (by omega), hn, show i + 1 - l = n + 3 by omega, show n + 2 - 1 = n + 1 by omega]
          have s1 : ((2 * (n + 1) : ℕ) : ℝ) * h = (2 * (n + 1) : ℕ) * h := rfl
          have s2 : ((2 * (n + 2) : ℕ) : ℝ) * h = (2 * (n + 1) : ℕ) * h + 2 * h := by push_cast; ring
          have s3 : ((2 * (n + 3) : ℕ) : ℝ) * h = (2 * (n + 1) : ℕ) * h + 2 * h + 2 * h := by push_cast; ring
          have s4 := hle (2 * (n + 3)) (by omega)
          rw [s3] at s4 ⊢
          rw [s2]
          have p1 : (0 : ℝ) ≤ (2 * (n + 1) : ℕ) * h := by positivity
          have := ha (2 * h) ((2 * (n + 1) : ℕ) * h + 2 * h) (by positivity) s4 ((2 * (n + 1) : ℕ) * h)
            ⟨p1, by linarith⟩ ((2 * (n + 1) : ℕ) * h + 2 * h) ⟨by positivity, le_rfl⟩
          rw [sub_add_cancel_left, abs_neg, abs_of_nonneg (by positivity)] at this
          exact this.trans (le_of_eq (by ring))
      have h2 : 2 * h * ‖(midInc A h (i - l) - (A ((2 * (i + 1 - l) : ℕ) * h) - A ((2 * (i - l) : ℕ) * h))) *
          midLim B h l‖ ≤ 2 * h * ((if l = i - 1 then 4 * LA * h else 4 * a * h ^ 2) * MB) := by
        gcongr
        refine (Matrix.linfty_opNorm_mul _ _).trans ?_
        gcongr
      refine h2.trans ?_
      split
      · have : 0 ≤ 4 * a * MB * h ^ 2 * (2 * h) := by positivity
        linarith
      · linarith
    · split
      · rename_i h0
        subst h0
        rw [norm_smul, Real.norm_of_nonneg (by positivity)]
        have h1 : ‖midLim B h 0 - B ((2 * 0 : ℕ) * h)‖ ≤ MB := by
          have e : midLim B h 0 - B ((2 * 0 : ℕ) * h) = -((1 / 2 : ℝ) • B 0) := by
            simp only [midLim, if_true, Nat.mul_zero, Nat.cast_zero, zero_mul]
            module
          rw [e, norm_neg, norm_smul, Real.norm_of_nonneg (by norm_num)]
          have := hMB 0 ⟨le_rfl, pT⟩
          have := norm_nonneg (B 0)
          linarith
        have h2 : 2 * h * ‖(A ((2 * (i + 1 - 0) : ℕ) * h) - A ((2 * (i - 0) : ℕ) * h)) *
            (midLim B h 0 - B ((2 * 0 : ℕ) * h))‖ ≤ 2 * h * (LA * (2 * h) * MB) := by
          gcongr
          exact (Matrix.linfty_opNorm_mul _ _).trans (by gcongr)
        exact h2.trans (le_of_eq (by ring))
      · rename_i h0
        rw [midLim, if_neg h0, sub_self, Matrix.mul_zero, smul_zero, norm_zero]
  have e : ∑ l ∈ range i, (2 * h) • (midInc A h (i - l) * midLim B h l) + (2 * h) • (A 0 * B ((2 * i : ℕ) * h))
        - incrRule A B (2 * h) i =
      ∑ l ∈ range i, ((2 * h) • (midInc A h (i - l) * midLim B h l) -
        (2 * h) • ((A ((i + 1 - l : ℕ) * (2 * h)) - A ((i - l : ℕ) * (2 * h))) * B (l * (2 * h)))) := by
    rw [incrRule, sum_sub_distrib, cast2 i]
    abel
  rw [e]
  refine (norm_sum_le_of_le _ term).trans ?_
  rw [sum_add_distrib, sum_add_distrib, sum_const, card_range, nsmul_eq_mul, sum_ite_eq', sum_ite_eq',
    if_pos (Finset.mem_range.2 (by omega)), if_pos (Finset.mem_range.2 (by omega)), add_mul, add_mul]
  have hiT : (i : ℝ) * (2 * h) ≤ |T| := by
    rw [cast2]
    exact (hle _ (by omega)).trans (le_abs_self T)
  have : (i : ℝ) * (4 * a * MB * h ^ 2 * (2 * h)) ≤ |T| * (4 * a * MB) * h ^ 2 := by
    calc (i : ℝ) * (4 * a * MB * h ^ 2 * (2 * h)) = (i * (2 * h)) * (4 * a * MB) * h ^ 2 := by ring
      _ ≤ _ := by gcongr
  linarith

/-- Consistency of the increments used by the midpoint solver. -/
theorem midpoint_consistent {T : ℝ} {A A' : ℝ → Mat ℝ b b} {B : ℝ → Mat ℝ b x} (hA : Spec.DerivOn T A A')
    (hA' : Spec.Lip T A') (hB : Spec.Lip T B) :
    ∃ Q : ℝ, 0 ≤ Q ∧ ∀ (h : ℝ), 0 ≤ h →
      (h ≤ T → ‖(2 * h) • (A 0 * midLim B h 0) - convAt A B h‖ ≤ Q * h ^ 2) ∧
      ∀ i : ℕ, 1 ≤ i → (2 * i + 2 : ℕ) * h ≤ T →
      ‖∑ l ∈ range i, (2 * h) • (midInc A h (i - l) * midLim B h l) + (2 * h) • (A 0 * midLim B h i)
        - (convAt A B ((2 * i + 1 : ℕ) * h) - convAt A B ((2 * i - 1 : ℕ) * h))‖ ≤ Q * h ^ 2 := by
  obtain ⟨Q1, p1, q1⟩ := incrRule_consistent hA hA' hB
  obtain ⟨Q2, p2, q2⟩ := incrRule_two_steps hA hA' hB
  obtain ⟨Q3, p3, q3⟩ := midpoint_sum hA hA' hB
  refine ⟨6 * Q1 + Q2 + Q3, by positivity, fun h hh => ⟨fun hT => ?_, fun i hi hT => ?_⟩⟩
  · have h1 := q1 h 0 hh (by simpa using hT)
    have e : incrRule A B h 0 - (convAt A B ((0 + 1 : ℕ) * h) - convAt A B ((0 : ℕ) * h)) =
        (2 * h) • (A 0 * midLim B h 0) - convAt A B h := by
      have e0 : convAt A B 0 = 0 := by
        ext i j
        simp [convAt]
      rw [incrRule, midLim]
      simp only [range_zero, sum_empty, zero_add, Nat.cast_zero, zero_mul, Nat.cast_one, one_mul, e0, sub_zero, if_true]
      rw [Matrix.mul_smul, smul_smul, show 2 * h * (1 / 2) = h by ring]
    rw [e] at h1
    refine h1.trans ?_
    gcongr
    linarith
  · have h1 := q3 h i hh hi hT
    have hle : ∀ n : ℕ, n ≤ 2 * i + 2 → (n : ℝ) * h ≤ T := fun n hn => le_trans (by gcongr) hT
    have h2 := q1 (2 * h) i (by positivity) (by
      have := hle (2 * i + 2) le_rfl
      push_cast at this ⊢; linarith)
    obtain ⟨p, rfl⟩ : ∃ p, i = p + 1 := ⟨i - 1, by omega⟩
    have h3 := q1 h (2 * p + 3) hh (hle _ (by omega))
    have h4 := q1 h (2 * p + 1) hh (hle _ (by omega))
    have h5 := q2 h (2 * p + 1) hh (hle _ (by omega))
    rw [show ((p + 1 + 1 : ℕ) : ℝ) * (2 * h) = (2 * p + 3 + 1 : ℕ) * h by push_cast; ring,
      show ((p + 1 : ℕ) : ℝ) * (2 * h) = (2 * p + 1 + 1 : ℕ) * h by push_cast; ring] at h2
    rw [midLim.eq_1 B h (p + 1), if_neg (Nat.succ_ne_zero p)]
    rw [show 2 * (p + 1) + 1 = 2 * p + 3 by ring, show 2 * (p + 1) - 1 = 2 * p + 1 by omega]
    generalize ∑ l ∈ range (p + 1), (2 * h) • (midInc A h (p + 1 - l) * midLim B h l) +
      (2 * h) • (A 0 * B ((2 * (p + 1) : ℕ) * h)) = S at h1 ⊢
    generalize incrRule A B (2 * h) (p + 1) = J at h1 h2
    rw [show 2 * p + 1 + 2 = 2 * p + 3 by ring] at h5
    generalize incrRule A B h (2 * p + 3) = I3 at h3 h5
    generalize incrRule A B h (2 * p + 1) = I1 at h4 h5
    generalize convAt A B ((2 * p + 3 + 1 : ℕ) * h) = g4 at h2 h3
    generalize convAt A B ((2 * p + 3 : ℕ) * h) = g3 at h3 ⊢
    generalize convAt A B ((2 * p + 1 + 1 : ℕ) * h) = g2 at h2 h4
    generalize convAt A B ((2 * p + 1 : ℕ) * h) = g1 at h4 ⊢
    have e : S - (g3 - g1) = (S - J) + (J - (g4 - g2)) - (I3 - (g4 - g3)) + (I3 - I1) + (I1 - (g2 - g1)) := by abel
    rw [e]
    refine (norm_add_le _ _).trans ((add_le_add ((norm_add_le _ _).trans (add_le_add ((norm_sub_le _ _).trans
      (add_le_add ((norm_add_le _ _).trans (add_le_add h1 h2)) h3)) h5)) h4).trans (le_of_eq (by ring)))

end Verif
