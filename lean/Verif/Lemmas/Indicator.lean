import Verif.Model.LocalFeatures
import Verif.Spec.Indicator
import Verif.Lemmas.Loops
import Mathlib.Analysis.Calculus.Deriv.Add
import Mathlib.Analysis.Calculus.Deriv.Comp
import Mathlib.Analysis.Calculus.Deriv.Mul
import Mathlib.Analysis.Calculus.Deriv.Pow
import Mathlib.Tactic.Linarith
import Mathlib.Tactic.FieldSimp
import Mathlib.Tactic.Ring
import Mathlib.Tactic.NormNum

/-! # Lemmas about `SmoothIndicatorFeatures` -/

set_option linter.unusedSectionVars false
set_option linter.unusedSimpArgs false
set_option linter.unusedVariables false

namespace Verif

open Finset Spec

section
variable {K : Type*} [Field K] [LinearOrder K]

/-- The function of `u` equal to `c` before zero, to zero after one and to `w` in between. -/
def stepVal (c u w : K) : K := if u < 0 then c else if u > 1 then 0 else w

/-- Value of the feature `k` from the steps `S`. -/
def stepDiff (S : ℕ → K) (k : ℕ) : K := if k = 0 then S 0 else S k - S (k - 1)

theorem sum_stepDiff (S : ℕ → K) (n : ℕ) : ∑ k ∈ range (n + 1), stepDiff S k = S n := by
  induction n with
  | zero => simp [stepDiff]
  | succ n ih => rw [sum_range_succ, ih]; simp [stepDiff]

/-- The loop shared by `basis` and `deriv`. -/
theorem indicator_loop (c : K) (U W : ℕ → K) (N : ℕ)
    (h : ∀ n, n + 1 < N → ¬ U (n + 1) < 0 → stepVal c (U n) (W n) = 0) : ∀ n, n < N →
    forRange 1 (n + 1) (fun n (s : (ℕ → K) × K) =>
      (Function.update s.1 n (if U n < 0 then s.2 else if U n > 1 then 0 else W n),
        c - if U n < 0 then c else if U n > 1 then 0 else W n))
      (Function.update (fun _ => 0) 0 (stepVal c (U 0) (W 0)), c - stepVal c (U 0) (W 0)) =
    (fun k => if k < n + 1 then stepDiff (fun n => stepVal c (U n) (W n)) k else 0, c - stepVal c (U n) (W n)) := by
  intro n
  induction n with
  | zero =>
    intro _
    rw [forRange_of_le le_rfl]
    refine Prod.ext ?_ rfl
    funext k
    by_cases hk : k = 0
    · subst hk; simp [stepDiff]
    · simp [hk]
  | succ n ih =>
    intro hn
    rw [forRange_succ (by omega), ih (by omega)]
    refine Prod.ext ?_ rfl
    funext k
    dsimp only
    by_cases hk : k = n + 1
    · subst hk
      rw [Function.update_self, if_pos (by omega : n + 1 < n + 1 + 1)]
      simp only [stepDiff, Nat.add_sub_cancel, Nat.add_eq_zero_iff, one_ne_zero, and_false, if_false]
      by_cases hu : U (n + 1) < 0
      · rw [if_pos hu]
        conv_rhs => rw [stepVal, if_pos hu]
      · rw [if_neg hu, h n hn hu, sub_zero, stepVal, if_neg hu]
    · rw [Function.update_of_ne hk]
      exact if_congr (by omega) rfl rfl

end

section
variable {K : Type*} [Field K] [LinearOrder K] [IsStrictOrderedRing K]

theorem width_pos {bd : K × K} (h : bd.1 ≠ bd.2) : 0 < max bd.1 bd.2 - min bd.1 bd.2 :=
  sub_pos.2 (min_lt_max.2 h)

theorem indicatorArg_neg {bd : K × K} (h : bd.1 ≠ bd.2) (x : K) : indicatorArg bd x < 0 ↔ x < min bd.1 bd.2 := by
  simp only [indicatorArg]
  rw [div_lt_iff₀ (width_pos h), zero_mul, sub_neg]

theorem one_lt_indicatorArg {bd : K × K} (h : bd.1 ≠ bd.2) (x : K) : 1 < indicatorArg bd x ↔ max bd.1 bd.2 < x := by
  simp only [indicatorArg]
  rw [lt_div_iff₀ (width_pos h), one_mul, sub_lt_sub_iff_right]

theorem one_le_indicatorArg {bd : K × K} (h : bd.1 ≠ bd.2) (x : K) : 1 ≤ indicatorArg bd x ↔ max bd.1 bd.2 ≤ x := by
  simp only [indicatorArg]
  rw [le_div_iff₀ (width_pos h), one_mul, sub_le_sub_iff_right]

/-- Later boundaries start after the earlier ones end. -/
theorem Spec.OrderedBoundaries.chain {N : ℕ} {bd : ℕ → K × K} (h : OrderedBoundaries N bd) {m n : ℕ} (hmn : m < n)
    (hn : n < N) : max (bd m).1 (bd m).2 ≤ min (bd n).1 (bd n).2 := by
  induction n with
  | zero => omega
  | succ n ih =>
    rcases Nat.lt_succ_iff_lt_or_eq.1 hmn with h' | rfl
    · exact (ih h' (by omega)).trans ((min_le_max).trans (h.ordered n hn))
    · exact h.ordered _ hn

/-- A step is over when the next one begins, for a boundary function that ends at zero. -/
theorem stepVal_zero_of {N : ℕ} {bd : ℕ → K × K} (h : OrderedBoundaries N bd) (c : K) (w : ℕ → K → K)
    (hw : ∀ n, w n 1 = 0) (x : K) {m n : ℕ} (hmn : m < n) (hn : n < N) (hu : ¬ indicatorArg (bd n) x < 0) :
    stepVal c (indicatorArg (bd m) x) (w m (indicatorArg (bd m) x)) = 0 := by
  rw [indicatorArg_neg (h.proper n hn), not_lt] at hu
  have h1 := (one_le_indicatorArg (h.proper m (by omega)) x).2 ((h.chain hmn hn).trans hu)
  rcases h1.eq_or_lt with h1 | h1
  · rw [← h1, hw]
    have : ¬ (1 : K) < 0 := not_lt.2 zero_le_one
    simp [stepVal, this]
  · have : ¬ indicatorArg (bd m) x < 0 := not_lt.2 (zero_le_one.trans h1.le)
    simp [stepVal, this, h1]

/-- The step function `n` of the basis. -/
def stepOf (B : K → K) (bd : ℕ → K × K) (x : K) (n : ℕ) : K :=
  stepVal 1 (indicatorArg (bd n) x) (B (indicatorArg (bd n) x))

/-- The derivative of order `r` of the step function `n`. -/
def dstepOf (dB : K → K) (r : ℕ) (bd : ℕ → K × K) (x : K) (n : ℕ) : K :=
  stepVal 0 (indicatorArg (bd n) x)
    (dB (indicatorArg (bd n) x) / (max (bd n).1 (bd n).2 - min (bd n).1 (bd n).2) ^ r)

theorem stepVal_first (c u w : K) : (if u > 1 then 0 else if u < 0 then c else w) = stepVal c u w := by
  simp only [stepVal]
  by_cases h : u < 0
  · have : ¬ u > 1 := not_lt.2 (h.le.trans zero_le_one)
    simp [h, this]
  · simp [h]

/-- `basis` in terms of the step functions; only that a step is over when the next begins is used. -/
theorem indicatorBasis_eq' (B : K → K) (bd : Arr (K × K)) (hN : 0 < bd.len) (periodic : Bool) (x : K)
    (h : ∀ n, n + 1 < bd.len → ¬ indicatorArg (bd.get (n + 1)) x < 0 → stepOf B bd.get x n = 0) :
    indicatorBasis B bd periodic x = .ok ⟨bd.len + if periodic then 0 else 1, fun k =>
      let S := stepOf B bd.get x
      if periodic then
        if k = 0 then (if 1 - S (bd.len - 1) > 0 then 1 - S (bd.len - 1) else S 0)
        else if k < bd.len then stepDiff S k else 0
      else if k < bd.len then stepDiff S k else if k = bd.len then 1 - S (bd.len - 1) else 0⟩ := by
  obtain ⟨len, get⟩ := bd
  obtain ⟨N, rfl⟩ : ∃ N, len = N + 1 := ⟨len - 1, by dsimp only at hN; omega⟩
  have hl := indicator_loop (1 : K) (fun n => indicatorArg (get n) x) (fun n => B (indicatorArg (get n) x)) (N + 1) h N
    (by omega)
  dsimp only at h
  unfold indicatorBasis
  simp only [Nat.add_eq_zero_iff, one_ne_zero, and_false, if_false, stepVal_first, hl]
  cases periodic
  · simp only [Bool.false_eq_true, if_false]
    congr 2
    funext k
    by_cases hk : k = N + 1
    · subst hk; simp [stepOf]
    · rw [Function.update_of_ne hk]; simp [hk, stepOf]; rfl
  · simp only [if_true]
    congr 2
    funext k
    by_cases hk : k = 0
    · subst hk; simp [stepOf, stepDiff]
    · rw [Function.update_of_ne hk]; simp [hk, stepOf]; rfl

/-- `deriv` in terms of the step functions. -/
theorem indicatorDeriv_eq' (dB : K → K) (r : ℕ) (bd : Arr (K × K)) (hN : 0 < bd.len) (periodic : Bool) (x : K)
    (h : ∀ n, n + 1 < bd.len → ¬ indicatorArg (bd.get (n + 1)) x < 0 → dstepOf dB r bd.get x n = 0) :
    indicatorDeriv dB r bd periodic x = .ok ⟨bd.len + if periodic then 0 else 1, fun k =>
      let S := dstepOf dB r bd.get x
      if periodic then
        if k = 0 then (if -S (bd.len - 1) ≠ 0 then -S (bd.len - 1) else S 0)
        else if k < bd.len then stepDiff S k else 0
      else if k < bd.len then stepDiff S k else if k = bd.len then -S (bd.len - 1) else 0⟩ := by
  obtain ⟨len, get⟩ := bd
  obtain ⟨N, rfl⟩ : ∃ N, len = N + 1 := ⟨len - 1, by dsimp only at hN; omega⟩
  have hl := indicator_loop (0 : K) (fun n => indicatorArg (get n) x) (fun n => dB (indicatorArg (get n) x) /
    (max (get n).1 (get n).2 - min (get n).1 (get n).2) ^ r) (N + 1) h N (by omega)
  dsimp only at h
  simp only [zero_sub] at hl
  unfold indicatorDeriv
  simp only [Nat.add_eq_zero_iff, one_ne_zero, and_false, if_false, stepVal_first, hl]
  cases periodic
  · simp only [Bool.false_eq_true, if_false]
    congr 2
    funext k
    by_cases hk : k = N + 1
    · subst hk; simp [dstepOf]
    · rw [Function.update_of_ne hk]; simp [hk, dstepOf]; rfl
  · simp only [if_true]
    congr 2
    funext k
    by_cases hk : k = 0
    · subst hk; simp [dstepOf, stepDiff]
    · rw [Function.update_of_ne hk]; simp [hk, dstepOf]; rfl

/-- The features, from the steps: differences of consecutive steps, the first (periodic) or one more (not periodic) feature
being completed by one minus the last step. -/
def stepFeature (c : K) (N : ℕ) (periodic : Bool) (S : ℕ → K) (k : ℕ) : K :=
  if periodic then (if k = 0 then S 0 + (c - S (N - 1)) else stepDiff S k)
  else if k < N then stepDiff S k else c - S (N - 1)

theorem sum_stepFeature (c : K) (N : ℕ) (hN : 0 < N) (periodic : Bool) (S : ℕ → K) :
    ∑ k ∈ range (N + if periodic then 0 else 1), stepFeature c N periodic S k = c := by
  obtain ⟨n, rfl⟩ : ∃ n, N = n + 1 := ⟨N - 1, by omega⟩
  cases periodic
  · simp only [Bool.false_eq_true, if_false, stepFeature]
    rw [sum_range_succ, sum_congr rfl (fun k hk => if_pos (mem_range.1 hk)), sum_stepDiff]
    simp
  · simp only [if_true, add_zero]
    rw [sum_congr rfl (g := fun k => stepDiff S k + if k = 0 then c - S n else 0), sum_add_distrib, sum_stepDiff,
      sum_ite_eq' , if_pos (by simp)]
    · ring
    · intro k _
      by_cases hk : k = 0
      · subst hk; simp [stepFeature, stepDiff]
      · simp [stepFeature, hk]

theorem stepOf_zero_of {B : K → K} (hB1 : B 1 = 0) {N : ℕ} {bd : ℕ → K × K} (h : OrderedBoundaries N bd) (x : K) {m n : ℕ}
    (hmn : m < n) (hn : n < N) (hu : ¬ indicatorArg (bd n) x < 0) : stepOf B bd x m = 0 :=
  stepVal_zero_of h 1 (fun _ => B) (fun _ => hB1) x hmn hn hu

theorem dstepOf_zero_of {dB : K → K} (hB1 : dB 1 = 0) (r : ℕ) {N : ℕ} {bd : ℕ → K × K} (h : OrderedBoundaries N bd) (x : K)
    {m n : ℕ} (hmn : m < n) (hn : n < N) (hu : ¬ indicatorArg (bd n) x < 0) : dstepOf dB r bd x m = 0 :=
  stepVal_zero_of h 0 (fun n u => dB u / (max (bd n).1 (bd n).2 - min (bd n).1 (bd n).2) ^ r)
    (fun _ => by simp [hB1]) x hmn hn hu

/-- A step is either complete or its argument is not negative. -/
theorem stepOf_eq_one_or (B : K → K) (bd : ℕ → K × K) (x : K) (n : ℕ) :
    stepOf B bd x n = 1 ∨ ¬ indicatorArg (bd n) x < 0 := by
  by_cases h : indicatorArg (bd n) x < 0
  · left; simp [stepOf, stepVal, h]
  · right; exact h

theorem dstepOf_eq_zero_or (dB : K → K) (r : ℕ) (bd : ℕ → K × K) (x : K) (n : ℕ) :
    dstepOf dB r bd x n = 0 ∨ ¬ indicatorArg (bd n) x < 0 := by
  by_cases h : indicatorArg (bd n) x < 0
  · left; simp [dstepOf, stepVal, h]
  · right; exact h

theorem indicatorBasis_eq {B : K → K} (hB1 : B 1 = 0) (hle : ∀ u, 0 ≤ u → u ≤ 1 → B u ≤ 1) (bd : Arr (K × K))
    (hN : 0 < bd.len) (periodic : Bool)
    (hp : periodic = true → 2 ≤ bd.len) (h : OrderedBoundaries bd.len bd.get) (x : K) :
    ∃ r, indicatorBasis B bd periodic x = .ok r ∧ r.len = bd.len + (if periodic then 0 else 1) ∧
      ∀ k < r.len, r.get k = stepFeature 1 bd.len periodic (stepOf B bd.get x) k := by
  refine ⟨_, indicatorBasis_eq' B bd hN periodic x fun n hn hu => stepOf_zero_of hB1 h x (Nat.lt_succ_self n) hn hu, rfl, ?_⟩
  intro k hk
  dsimp only at hk ⊢
  cases periodic
  · simp only [Bool.false_eq_true, if_false] at hk ⊢
    by_cases hk' : k < bd.len
    · simp [stepFeature, hk']
    · have : k = bd.len := by omega
      subst this
      simp [stepFeature]
  · simp only [if_true, add_zero] at hk ⊢
    by_cases hk' : k = 0
    · subst hk'
      simp only [if_true, stepFeature]
      have h2 := hp rfl
      rcases stepOf_eq_one_or B bd.get x (bd.len - 1) with h1 | h1
      · simp [h1]
      · have h0 : stepOf B bd.get x 0 = 0 := stepOf_zero_of hB1 h x (by omega) (by omega) h1
        have hle1 : stepOf B bd.get x (bd.len - 1) ≤ 1 := by
          simp only [stepOf, stepVal, h1, if_false]
          split_ifs with h3
          · exact zero_le_one
          · exact hle _ (not_lt.1 h1) (not_lt.1 h3)
        rw [h0, zero_add]
        split_ifs with h3
        · rfl
        · exact le_antisymm (sub_nonneg.2 hle1) (not_lt.1 h3)
    · simp [stepFeature, hk', hk]

theorem indicatorDeriv_eq {dB : K → K} (hB1 : dB 1 = 0) (r : ℕ) (bd : Arr (K × K)) (hN : 0 < bd.len) (periodic : Bool)
    (hp : periodic = true → 2 ≤ bd.len) (h : OrderedBoundaries bd.len bd.get) (x : K) :
    ∃ R, indicatorDeriv dB r bd periodic x = .ok R ∧ R.len = bd.len + (if periodic then 0 else 1) ∧
      ∀ k < R.len, R.get k = stepFeature 0 bd.len periodic (dstepOf dB r bd.get x) k := by
  refine ⟨_, indicatorDeriv_eq' dB r bd hN periodic x
    fun n hn hu => dstepOf_zero_of hB1 r h x (Nat.lt_succ_self n) hn hu, rfl, ?_⟩
  intro k hk
  dsimp only at hk ⊢
  cases periodic
  · simp only [Bool.false_eq_true, if_false] at hk ⊢
    by_cases hk' : k < bd.len
    · simp [stepFeature, hk']
    · have : k = bd.len := by omega
      subst this
      simp [stepFeature]
  · simp only [if_true, add_zero] at hk ⊢
    by_cases hk' : k = 0
    · subst hk'
      simp only [if_true, stepFeature, zero_sub]
      have h2 := hp rfl
      rcases dstepOf_eq_zero_or dB r bd.get x (bd.len - 1) with h1 | h1
      · simp [h1]
      · have h0 : dstepOf dB r bd.get x 0 = 0 := dstepOf_zero_of hB1 r h x (by omega) (by omega) h1
        rw [h0, zero_add]
        split_ifs with h3
        · rfl
        · exact (not_not.1 h3).symm
    · simp [stepFeature, hk', hk]

/-- The steps are between zero and one, and a step that has started is preceded by steps that are over. -/
theorem stepOf_mem {B : K → K} (hB : UnitBoundary B) (bd : ℕ → K × K) (x : K) (n : ℕ) :
    0 ≤ stepOf B bd x n ∧ stepOf B bd x n ≤ 1 := by
  simp only [stepOf, stepVal]
  split_ifs with h1 h2
  · exact ⟨zero_le_one, le_rfl⟩
  · exact ⟨le_rfl, zero_le_one⟩
  · exact ⟨hB.nonneg _ (not_lt.1 h1) (not_lt.1 h2), hB.le_one _ (not_lt.1 h1) (not_lt.1 h2)⟩

theorem stepFeature_mem {B : K → K} (hB : UnitBoundary B) {N : ℕ} (hN : 0 < N) (periodic : Bool)
    (hp : periodic = true → 2 ≤ N) {bd : ℕ → K × K}
    (h : OrderedBoundaries N bd) (x : K) (k : ℕ) (hk : k < N + if periodic then 0 else 1) :
    0 ≤ stepFeature 1 N periodic (stepOf B bd x) k ∧ stepFeature 1 N periodic (stepOf B bd x) k ≤ 1 := by
  have hm := stepOf_mem hB bd x
  have hd : ∀ k < N, 0 ≤ stepDiff (stepOf B bd x) k ∧ stepDiff (stepOf B bd x) k ≤ 1 := by
    intro k hk
    simp only [stepDiff]
    split_ifs with h0
    · exact hm 0
    · rcases stepOf_eq_one_or B bd x k with h1 | h1
      · rw [h1]; constructor <;> linarith [(hm (k - 1)).1, (hm (k - 1)).2]
      · rw [stepOf_zero_of hB.at_one h x (m := k - 1) (n := k) (by omega) hk h1, sub_zero]; exact hm k
  cases periodic
  · simp only [stepFeature, Bool.false_eq_true, if_false]
    split_ifs with h0
    · exact hd k h0
    · constructor <;> linarith [(hm (N - 1)).1, (hm (N - 1)).2]
  · simp only [stepFeature, if_true]
    split_ifs with h0
    · have h2 := hp rfl
      rcases stepOf_eq_one_or B bd x (N - 1) with h1 | h1
      · rw [h1, sub_self, add_zero]; exact hm 0
      · rw [stepOf_zero_of hB.at_one h x (m := 0) (n := N - 1) (by omega) (by omega) h1]
        constructor <;> linarith [(hm (N - 1)).1, (hm (N - 1)).2]
    · exact hd k (by simpa using hk)

end

/-! ### Derivatives -/

/-- Gluing: constant, then `g`, then zero, with `g` flat at both ends. -/
theorem glue_hasDerivAt (f g g' : ℝ → ℝ) (a b c : ℝ) (hab : a < b) (h1 : ∀ y, y < a → f y = c) (h2 : ∀ y, b < y → f y = 0)
    (hg : ∀ y, a ≤ y → y ≤ b → f y = g y) (hd : ∀ y, HasDerivAt g (g' y) y) (ga : g a = c) (gb : g b = 0) (x : ℝ)
    (ga' : x = a → g' a = 0) (gb' : x = b → g' b = 0) :
    HasDerivAt f (if x < a then 0 else if b < x then 0 else g' x) x := by
  rcases lt_trichotomy x a with hx | hx | hx
  · rw [if_pos hx]
    refine (hasDerivAt_const x c).congr_of_eventuallyEq ?_
    filter_upwards [gt_mem_nhds hx] with y hy using h1 y hy
  · subst hx
    rw [if_neg (lt_irrefl _), if_neg (not_lt.2 hab.le), ga' rfl]
    have l : HasDerivWithinAt f 0 (Set.Iic x) x := by
      refine (hasDerivWithinAt_const x _ c).congr_of_mem (fun y hy => ?_) (Set.mem_Iic.2 le_rfl)
      rcases (Set.mem_Iic.1 hy).lt_or_eq with h | rfl
      · exact h1 y h
      · rw [hg _ le_rfl hab.le, ga]
    have r : HasDerivWithinAt f 0 (Set.Icc x b) x := by
      have := (hd x).hasDerivWithinAt (s := Set.Icc x b)
      rw [ga' rfl] at this
      exact this.congr_of_mem (fun y hy => hg y hy.1 hy.2) ⟨le_rfl, hab.le⟩
    refine (l.union r).hasDerivAt (Filter.mem_of_superset (gt_mem_nhds hab) fun y (hy : y < b) => ?_)
    rcases le_total y x with h | h
    · exact Or.inl h
    · exact Or.inr ⟨h, hy.le⟩
  · rw [if_neg (not_lt.2 hx.le)]
    rcases lt_trichotomy x b with hb | hb | hb
    · rw [if_neg (not_lt.2 hb.le)]
      refine (hd x).congr_of_eventuallyEq ?_
      filter_upwards [gt_mem_nhds hb, lt_mem_nhds hx] with y hy hy' using hg y hy'.le hy.le
    · subst hb
      rw [if_neg (lt_irrefl _), gb' rfl]
      have l : HasDerivWithinAt f 0 (Set.Ici x) x := by
        refine (hasDerivWithinAt_const x _ 0).congr_of_mem (fun y hy => ?_) (Set.mem_Ici.2 le_rfl)
        rcases (Set.mem_Ici.1 hy).lt_or_eq with h | rfl
        · exact h2 y h
        · rw [hg _ hab.le le_rfl, gb]
      have r : HasDerivWithinAt f 0 (Set.Icc a x) x := by
        have := (hd x).hasDerivWithinAt (s := Set.Icc a x)
        rw [gb' rfl] at this
        exact this.congr_of_mem (fun y hy => hg y hy.1 hy.2) ⟨hab.le, le_rfl⟩
      refine (l.union r).hasDerivAt (Filter.mem_of_superset (lt_mem_nhds hab) fun y (hy : a < y) => ?_)
      rcases le_total x y with h | h
      · exact Or.inl h
      · exact Or.inr ⟨hy.le, h⟩
    · rw [if_pos hb]
      refine (hasDerivAt_const x 0).congr_of_eventuallyEq ?_
      filter_upwards [lt_mem_nhds hb] with y hy using h2 y hy

theorem indicatorArg_hasDerivAt (bd : ℝ × ℝ) (x : ℝ) :
    HasDerivAt (indicatorArg bd) (1 / (max bd.1 bd.2 - min bd.1 bd.2)) x := by
  exact ((hasDerivAt_id x).sub_const (min bd.1 bd.2)).div_const (max bd.1 bd.2 - min bd.1 bd.2)

theorem stepVal_hasDerivAt {B B' : ℝ → ℝ} (c : ℝ) (h0 : B 0 = c) (h1 : B 1 = 0) (hd : ∀ u, HasDerivAt B (B' u) u)
    {bd : ℝ × ℝ} (h : bd.1 ≠ bd.2) (r : ℕ) (hr : r = 0 ∨ c = 0) (x : ℝ) (h0' : x = min bd.1 bd.2 → B' 0 = 0)
    (h1' : x = max bd.1 bd.2 → B' 1 = 0) :
    HasDerivAt (fun y => stepVal c (indicatorArg bd y) (B (indicatorArg bd y) / (max bd.1 bd.2 - min bd.1 bd.2) ^ r))
      (stepVal 0 (indicatorArg bd x) (B' (indicatorArg bd x) / (max bd.1 bd.2 - min bd.1 bd.2) ^ (r + 1))) x := by
  have hw := width_pos h
  have ea : indicatorArg bd (min bd.1 bd.2) = 0 := by simp [indicatorArg]
  have eb : indicatorArg bd (max bd.1 bd.2) = 1 := by simp only [indicatorArg]; exact div_self hw.ne'
  have key := glue_hasDerivAt
    (fun y => stepVal c (indicatorArg bd y) (B (indicatorArg bd y) / (max bd.1 bd.2 - min bd.1 bd.2) ^ r))
    (fun y => B (indicatorArg bd y) / (max bd.1 bd.2 - min bd.1 bd.2) ^ r)
    (fun y => B' (indicatorArg bd y) / (max bd.1 bd.2 - min bd.1 bd.2) ^ (r + 1))
    (min bd.1 bd.2) (max bd.1 bd.2) c (min_lt_max.2 h)
    (fun y hy => by simp [stepVal, (indicatorArg_neg h y).2 hy])
    (fun y hy => by
      have h1 := (one_lt_indicatorArg h y).2 hy
      have : ¬ indicatorArg bd y < 0 := not_lt.2 (zero_le_one.trans h1.le)
      simp [stepVal, h1, this])
    (fun y hy hy' => by
      have h1 : ¬ 1 < indicatorArg bd y := by rw [one_lt_indicatorArg h]; exact not_lt.2 hy'
      have h2 : ¬ indicatorArg bd y < 0 := by rw [indicatorArg_neg h]; exact not_lt.2 hy
      simp [stepVal, h1, h2])
    (fun y => by
      have := ((hd (indicatorArg bd y)).comp y (indicatorArg_hasDerivAt bd y)).div_const
        ((max bd.1 bd.2 - min bd.1 bd.2) ^ r)
      refine this.congr_deriv ?_
      rw [pow_succ]
      field_simp)
    (by rw [ea, h0]; rcases hr with rfl | rfl <;> simp)
    (by rw [eb, h1, zero_div]) x
    (fun hx => by rw [ea, h0' hx, zero_div]) (fun hx => by rw [eb, h1' hx, zero_div])
  refine key.congr_deriv ?_
  simp only [stepVal, indicatorArg_neg h, gt_iff_lt, one_lt_indicatorArg h]

theorem stepOf_hasDerivAt {B B' : ℝ → ℝ} (hB : SmoothStep B B') {N : ℕ} {bd : ℕ → ℝ × ℝ} (h : OrderedBoundaries N bd)
    (x : ℝ) (n : ℕ) (hn : n < N) : HasDerivAt (fun y => stepOf B bd y n) (dstepOf B' 1 bd x n) x := by
  have := stepVal_hasDerivAt 1 hB.at_zero hB.at_one hB.deriv (h.proper n hn) 0 (Or.inl rfl) x (fun _ => hB.deriv_zero)
    (fun _ => hB.deriv_one)
  simp only [pow_zero, div_one, zero_add] at this
  exact this

theorem dstepOf_hasDerivAt {B' B'' : ℝ → ℝ} (h0 : B' 0 = 0) (h1 : B' 1 = 0) (hd : ∀ u, HasDerivAt B' (B'' u) u) (r : ℕ)
    {N : ℕ} {bd : ℕ → ℝ × ℝ} (h : OrderedBoundaries N bd)
    (x : ℝ) (n : ℕ) (hn : n < N) (h0' : x = min (bd n).1 (bd n).2 → B'' 0 = 0)
    (h1' : x = max (bd n).1 (bd n).2 → B'' 1 = 0) :
    HasDerivAt (fun y => dstepOf B' r bd y n) (dstepOf B'' (r + 1) bd x n) x :=
  stepVal_hasDerivAt 0 h0 h1 hd (h.proper n hn) r (Or.inr rfl) x h0' h1'

theorem stepFeature_hasDerivAt (c : ℝ) (N : ℕ) (hN : 0 < N) (periodic : Bool) (S : ℝ → ℕ → ℝ) (S' : ℕ → ℝ) (x : ℝ)
    (h : ∀ n < N, HasDerivAt (fun y => S y n) (S' n) x) (k : ℕ) (hk : k < N + if periodic then 0 else 1) :
    HasDerivAt (fun y => stepFeature c N periodic (S y) k) (stepFeature 0 N periodic S' k) x := by
  have hd : ∀ k < N, HasDerivAt (fun y => stepDiff (S y) k) (stepDiff S' k) x := by
    intro k hk
    simp only [stepDiff]
    split_ifs with h0
    · exact h 0 (by omega)
    · exact (h k hk).sub (h (k - 1) (by omega))
  cases periodic
  · simp only [stepFeature, Bool.false_eq_true, if_false]
    split_ifs with h0
    · exact hd k h0
    · exact ((hasDerivAt_const x c).sub (h (N - 1) (by omega)))
  · simp only [stepFeature, if_true]
    split_ifs with h0
    · exact (h 0 hN).add ((hasDerivAt_const x c).sub (h (N - 1) (by omega)))
    · exact hd k (by simpa using hk)

end Verif
