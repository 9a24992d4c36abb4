import Verif.Lemmas.Correlation
import Verif.Props.VolterraMore
import Mathlib.Algebra.Order.BigOperators.Group.Finset
import Mathlib.Algebra.BigOperators.Field
import Mathlib.Tactic.Linarith

/-!
# Properties of the correlation functions: C31 - C35
-/

namespace Verif

open Finset

section
variable {K : Type*} [Field K]

theorem fill_from_one {V : Type*} (L : ℕ) (f : ℕ → V) (a : ℕ → V) (h0 : a 0 = f 0) {n : ℕ} (hn : n < L) :
    forRange 1 L (fun n res => Function.update res n (f n)) a n = f n := by
  obtain ⟨h1, h2⟩ := forRange_fill 1 L (fun n _ => f n) a
  rcases Nat.eq_zero_or_pos n with rfl | hp
  · rw [h1 0 (by omega), h0]
  · rw [h2 n hp hn]

theorem lenTrunc_le (N : ℕ) (trunc : Option ℕ) : lenTrunc N trunc ≤ N := by
  cases trunc with
  | none => exact le_rfl
  | some m => exact min_le_left _ _

theorem cast_sub_eq {N n : ℕ} (h : n < N) : (N : K) - n = ((N - n : ℕ) : K) := by
  rw [Nat.cast_sub h.le]

/-- Value of `correlation_direct_1D`: the plain average, at each returned lag. -/
theorem direct1D_spec {N : ℕ} {a : ℕ → K} {b : Option (ℕ → K)} {trunc : Option ℕ} {r : Arr K}
    (h : correlationDirect1D N a b trunc = .ok r) :
    r.len = lenTrunc N trunc ∧ ∀ n < r.len, r.get n = Spec.corr N a (b.getD a) n := by
  unfold correlationDirect1D at h
  by_cases h0 : lenTrunc N trunc = 0
  · simp [h0] at h
  · simp only [h0, if_false, Except.ok.injEq] at h
    subst h
    refine ⟨rfl, fun n hn => ?_⟩
    change n < lenTrunc N trunc at hn
    have hN := lenTrunc_le N trunc
    dsimp only
    rw [fill_from_one (f := fun n => dotShift N a (b.getD a) n / ((N : K) - n)) _ _ (by simp) hn,
      dotShift_eq, Spec.corr, cast_sub_eq (by omega)]

theorem directND_spec {p q N : ℕ} {a : Fin p → ℕ → K} {b : Fin q → ℕ → K} {trunc : Option ℕ}
    {r : Arr (Mat K p q)} (h : correlationDirectND N a b trunc = .ok r) :
    r.len = lenTrunc N trunc ∧ ∀ n < r.len, ∀ i j, r.get n i j = Spec.corr N (a i) (b j) n := by
  unfold correlationDirectND at h
  by_cases h0 : lenTrunc N trunc = 0
  · simp [h0] at h
  · simp only [h0, if_false, Except.ok.injEq] at h
    subst h
    refine ⟨rfl, fun n hn i j => ?_⟩
    change n < lenTrunc N trunc at hn
    have hN := lenTrunc_le N trunc
    dsimp only
    rw [fill_from_one (f := fun n => (Matrix.of fun i j => dotShift N (a i) (b j) n / ((N : K) - n) : Mat K p q))
      _ _ (by simp) hn, Matrix.of_apply, dotShift_eq, Spec.corr, cast_sub_eq (by omega)]

theorem directNDAuto_spec {p N : ℕ} {a : Fin p → ℕ → K} {trunc : Option ℕ}
    {r : Arr (Mat K p p)} (h : correlationDirectNDAuto N a trunc = .ok r) :
    r.len = lenTrunc N trunc ∧ ∀ n < r.len, ∀ i j, r.get n i j = Spec.corr N (a j) (a j) n := by
  unfold correlationDirectNDAuto at h
  by_cases h0 : lenTrunc N trunc = 0
  · simp [h0] at h
  · simp only [h0, if_false, Except.ok.injEq] at h
    subst h
    refine ⟨rfl, fun n hn i j => ?_⟩
    change n < lenTrunc N trunc at hn
    have hN := lenTrunc_le N trunc
    dsimp only
    rw [fill_from_one (f := fun n => (Matrix.of fun i j => dotShift N (a j) (a j) n / ((N : K) - n) : Mat K p p))
      _ _ (by simp) hn, Matrix.of_apply, dotShift_eq, Spec.corr, cast_sub_eq (by omega)]

end

theorem fft1D_spec {N : ℕ} {a : ℕ → ℝ} {b : Option (ℕ → ℝ)} {trunc : Option ℕ} {r : Arr ℝ}
    (h : correlation1D N a b trunc = .ok r) :
    r.len = lenTrunc N trunc ∧ ∀ n < r.len, r.get n = Spec.corr N a (b.getD a) n := by
  unfold correlation1D at h
  by_cases h0 : N = 0
  · simp [h0] at h
  · simp only [h0, if_false, Except.ok.injEq] at h
    subst h
    refine ⟨rfl, fun n hn => ?_⟩
    change n < lenTrunc N trunc at hn
    have hN := lenTrunc_le N trunc
    dsimp only
    cases b with
    | none =>
      dsimp only [Option.getD]
      rw [ifft_corr (by omega) (le_padLen (by omega)) a a (by omega), Complex.ofReal_re, Spec.corr,
        cast_sub_eq (by omega)]
    | some b =>
      dsimp only [Option.getD]
      rw [ifft_corr (by omega) (le_padLen (by omega)) a b (by omega), Complex.ofReal_re, Spec.corr,
        cast_sub_eq (by omega)]

theorem fftND_spec {p q N : ℕ} {a : Fin p → ℕ → ℝ} {b : Fin q → ℕ → ℝ} {trunc : Option ℕ}
    {r : Arr (Mat ℝ p q)} (h : correlationND N a b trunc = .ok r) :
    r.len = lenTrunc N trunc ∧ ∀ n < r.len, ∀ i j, r.get n i j = Spec.corr N (a i) (b j) n := by
  unfold correlationND at h
  by_cases h0 : N = 0
  · simp [h0] at h
  · simp only [h0, if_false, Except.ok.injEq] at h
    subst h
    refine ⟨rfl, fun n hn i j => ?_⟩
    change n < lenTrunc N trunc at hn
    have hN := lenTrunc_le N trunc
    dsimp only
    rw [Matrix.of_apply, ifft_corr (by omega) (le_padLen (by omega)) _ _ (by omega), Complex.ofReal_re,
      Spec.corr, cast_sub_eq (by omega)]

theorem fftNDAuto_spec {p N : ℕ} {a : Fin p → ℕ → ℝ} {trunc : Option ℕ}
    {r : Arr (Mat ℝ p p)} (h : correlationNDAuto N a trunc = .ok r) :
    r.len = lenTrunc N trunc ∧ ∀ n < r.len, ∀ i j, r.get n i j = Spec.corr N (a j) (a i) n := by
  unfold correlationNDAuto at h
  by_cases h0 : N = 0
  · simp [h0] at h
  · simp only [h0, if_false, Except.ok.injEq] at h
    subst h
    refine ⟨rfl, fun n hn i j => ?_⟩
    change n < lenTrunc N trunc at hn
    have hN := lenTrunc_le N trunc
    dsimp only
    rw [Matrix.of_apply, ifft_corr (by omega) (le_padLen (by omega)) _ _ (by omega), Complex.ofReal_re,
      Spec.corr, cast_sub_eq (by omega)]

/-! ### C31, C32: FFT and direct evaluation agree -/

/-- **C31.** For any two series of the same length, or a single one, the FFT correlation and the
direct one have the same length and the same value, the plain average, at each lag. No wrap-around:
the equality has no error term, for any length. -/
theorem C31_fft_direct_1D {N : ℕ} {a : ℕ → ℝ} {b : Option (ℕ → ℝ)} {trunc : Option ℕ} {r s : Arr ℝ}
    (h : correlation1D N a b trunc = .ok r) (h' : correlationDirect1D N a b trunc = .ok s) :
    r.len = lenTrunc N trunc ∧ s.len = r.len ∧ ∀ n < r.len, r.get n = Spec.corr N a (b.getD a) n ∧
      s.get n = r.get n := by
  obtain ⟨e1, e2⟩ := fft1D_spec h
  obtain ⟨f1, f2⟩ := direct1D_spec h'
  refine ⟨e1, by rw [e1, f1], fun n hn => ⟨e2 n hn, ?_⟩⟩
  rw [e2 n hn, f2 n (by rw [f1, ← e1]; exact hn)]

/-- Both succeed on non-empty data (and a non-zero truncation). -/
theorem C31_defined {N : ℕ} (hN : 1 ≤ N) (a : ℕ → ℝ) (b : Option (ℕ → ℝ)) {trunc : Option ℕ}
    (ht : ∀ m ∈ trunc, 1 ≤ m) :
    (∃ r, correlation1D N a b trunc = .ok r) ∧ ∃ s, correlationDirect1D N a b trunc = .ok s := by
  have hN' : N ≠ 0 := by omega
  have hl : lenTrunc N trunc ≠ 0 := by
    cases trunc with
    | none => exact hN'
    | some m => have := ht m rfl; simp only [lenTrunc]; omega
  constructor
  · unfold correlation1D; simp only [hN', if_false]; exact ⟨_, rfl⟩
  · unfold correlationDirect1D; simp only [hl, if_false]; exact ⟨_, rfl⟩

/-- **C32.** Several components, as the estimator calls them: entry `[i, j, n]` is the correlation of
component `i` of the first array with component `j` of the second one, both with the FFT and directly. -/
theorem C32_fft_direct_ND {p q N : ℕ} {a : Fin p → ℕ → ℝ} {b : Fin q → ℕ → ℝ} {trunc : Option ℕ}
    {r s : Arr (Mat ℝ p q)} (h : correlationND N a b trunc = .ok r)
    (h' : correlationDirectND N a b trunc = .ok s) :
    r.len = lenTrunc N trunc ∧ s.len = r.len ∧ ∀ n < r.len, ∀ i j,
      r.get n i j = Spec.corr N (a i) (b j) n ∧ s.get n i j = r.get n i j := by
  obtain ⟨e1, e2⟩ := fftND_spec h
  obtain ⟨f1, f2⟩ := directND_spec h'
  refine ⟨e1, by rw [e1, f1], fun n hn i j => ⟨e2 n hn i j, ?_⟩⟩
  rw [e2 n hn, f2 n (by rw [f1, ← e1]; exact hn)]

/-- The several-component functions agree with the one-dimensional ones on each pair (which is what
`vectorize=True` computes). -/
theorem C32_pairs {p q N : ℕ} {a : Fin p → ℕ → ℝ} {b : Fin q → ℕ → ℝ} {trunc : Option ℕ}
    {r : Arr (Mat ℝ p q)} (h : correlationND N a b trunc = .ok r) (i : Fin p) (j : Fin q) {s : Arr ℝ}
    (h' : correlation1D N (a i) (some (b j)) trunc = .ok s) :
    s.len = r.len ∧ ∀ n < r.len, s.get n = r.get n i j := by
  obtain ⟨e1, e2⟩ := fftND_spec h
  obtain ⟨f1, f2⟩ := fft1D_spec h'
  refine ⟨by rw [e1, f1], fun n hn => ?_⟩
  rw [e2 n hn, f2 n (by rw [f1, ← e1]; exact hn)]
  rfl

theorem C32_defined {p q N : ℕ} (hN : 1 ≤ N) (a : Fin p → ℕ → ℝ) (b : Fin q → ℕ → ℝ) {trunc : Option ℕ}
    (ht : ∀ m ∈ trunc, 1 ≤ m) :
    (∃ r, correlationND N a b trunc = .ok r) ∧ ∃ s, correlationDirectND N a b trunc = .ok s := by
  have hN' : N ≠ 0 := by omega
  have hl : lenTrunc N trunc ≠ 0 := by
    cases trunc with
    | none => exact hN'
    | some m => have := ht m rfl; simp only [lenTrunc]; omega
  constructor
  · unfold correlationND; simp only [hN', if_false]; exact ⟨_, rfl⟩
  · unfold correlationDirectND; simp only [hl, if_false]; exact ⟨_, rfl⟩

/-- Three points, two lags: concrete values of the direct correlation. -/
example : ∃ r, correlationDirect1D 3 (fun t => (t + 1 : ℚ)) (some fun t => (t ^ 2 : ℚ)) (some 2) = .ok r ∧
    r.len = 2 ∧ r.get 1 = 9 / 2 :=
  ⟨_, eq_getOk (by decide +kernel) ⟨0, 0⟩, by decide +kernel, by decide +kernel⟩

example : (∃ r, correlation1D 3 (fun t => (t + 1 : ℝ)) none (some 2) = .ok r) ∧
    ∃ s, correlationDirect1D 3 (fun t => (t + 1 : ℝ)) none (some 2) = .ok s :=
  C31_defined (by norm_num) _ _ (by simp)

/-! ### C33: a single array with several components -/

/-- **C33** for the FFT: entry `[i, j, n]` is the correlation of component `j` (early) with component
`i` (late). *Missing*: the direct evaluation, see `C33_direct` and `C33_direct_fails`. -/
theorem C33_fft_partial {p N : ℕ} {a : Fin p → ℕ → ℝ} {trunc : Option ℕ}
    {r : Arr (Mat ℝ p p)} (h : correlationNDAuto N a trunc = .ok r) :
    r.len = lenTrunc N trunc ∧ ∀ n < r.len, ∀ i j, r.get n i j = Spec.corr N (a j) (a i) n :=
  fftNDAuto_spec h

/-- The direct evaluation returns the autocorrelation of component `j`, whatever `i`. -/
theorem C33_direct {K : Type*} [Field K] {p N : ℕ} {a : Fin p → ℕ → K} {trunc : Option ℕ}
    {r : Arr (Mat K p p)} (h : correlationDirectNDAuto N a trunc = .ok r) :
    r.len = lenTrunc N trunc ∧ ∀ n < r.len, ∀ i j, r.get n i j = Spec.corr N (a j) (a j) n :=
  directNDAuto_spec h

/-- The full statement of C33 is false: for two components the direct evaluation is neither the
correlation of `i` with `j` nor that of `j` with `i`. -/
theorem C33_direct_fails : ∃ (a : Fin 2 → ℕ → ℚ) (r : Arr (Mat ℚ 2 2)),
    correlationDirectNDAuto 2 a none = .ok r ∧ 0 < r.len ∧
    r.get 0 0 1 ≠ Spec.corr 2 (a 0) (a 1) 0 ∧ r.get 0 0 1 ≠ Spec.corr 2 (a 1) (a 0) 0 := by
  refine ⟨fun i t => if i = 0 then 1 else t + 2, _, eq_getOk (by decide +kernel) ⟨0, 0⟩, ?_⟩
  decide +kernel

example (a : Fin 2 → ℕ → ℝ) : ∃ r, correlationNDAuto 3 a (some 2) = .ok r := by
  unfold correlationNDAuto; simp only [show (3 : ℕ) ≠ 0 by norm_num, if_false]; exact ⟨_, rfl⟩

/-! ### C34: truncation -/

/-- **C34.** With `trunc=m` there are `min(N, m)` lags, equal to the untruncated ones. All four
functions used by the estimator. -/
theorem C34_trunc {p q N m : ℕ} {a : ℕ → ℝ} {b : Option (ℕ → ℝ)} {A : Fin p → ℕ → ℝ} {B : Fin q → ℕ → ℝ} :
    (∀ r s, correlation1D N a b (some m) = .ok r → correlation1D N a b none = .ok s →
      r.len = min N m ∧ s.len = N ∧ ∀ n < r.len, r.get n = s.get n) ∧
    (∀ r s, correlationDirect1D N a b (some m) = .ok r → correlationDirect1D N a b none = .ok s →
      r.len = min N m ∧ s.len = N ∧ ∀ n < r.len, r.get n = s.get n) ∧
    (∀ r s, correlationND N A B (some m) = .ok r → correlationND N A B none = .ok s →
      r.len = min N m ∧ s.len = N ∧ ∀ n < r.len, r.get n = s.get n) ∧
    (∀ r s, correlationDirectND N A B (some m) = .ok r → correlationDirectND N A B none = .ok s →
      r.len = min N m ∧ s.len = N ∧ ∀ n < r.len, r.get n = s.get n) := by
  refine ⟨fun r s h h' => ?_, fun r s h h' => ?_, fun r s h h' => ?_, fun r s h h' => ?_⟩
  · obtain ⟨e1, e2⟩ := fft1D_spec h
    obtain ⟨f1, f2⟩ := fft1D_spec h'
    refine ⟨e1, f1, fun n hn => ?_⟩
    rw [e2 n hn, f2 n (by rw [e1] at hn; rw [f1]; exact lt_of_lt_of_le hn (min_le_left _ _))]
  · obtain ⟨e1, e2⟩ := direct1D_spec h
    obtain ⟨f1, f2⟩ := direct1D_spec h'
    refine ⟨e1, f1, fun n hn => ?_⟩
    rw [e2 n hn, f2 n (by rw [e1] at hn; rw [f1]; exact lt_of_lt_of_le hn (min_le_left _ _))]
  · obtain ⟨e1, e2⟩ := fftND_spec h
    obtain ⟨f1, f2⟩ := fftND_spec h'
    refine ⟨e1, f1, fun n hn => ?_⟩
    ext i j
    rw [e2 n hn, f2 n (by rw [e1] at hn; rw [f1]; exact lt_of_lt_of_le hn (min_le_left _ _))]
  · obtain ⟨e1, e2⟩ := directND_spec h
    obtain ⟨f1, f2⟩ := directND_spec h'
    refine ⟨e1, f1, fun n hn => ?_⟩
    ext i j
    rw [e2 n hn, f2 n (by rw [e1] at hn; rw [f1]; exact lt_of_lt_of_le hn (min_le_left _ _))]

example : (∃ r, correlationND 3 (fun (_ : Fin 2) t => (t : ℝ)) (fun (_ : Fin 1) _ => (1 : ℝ)) (some 2) = .ok r) ∧
    (∃ r, correlationND 3 (fun (_ : Fin 2) t => (t : ℝ)) (fun (_ : Fin 1) _ => (1 : ℝ)) none = .ok r) :=
  ⟨(C32_defined (by norm_num) _ _ (by simp)).1, (C32_defined (by norm_num) _ _ (by simp)).1⟩

/-! ### C35: bounds -/

section
variable {K : Type*} [Field K] [LinearOrder K] [IsStrictOrderedRing K]

/-- **C35**, lag zero: the mean square, which is non-negative. -/
theorem C35_lag_zero {N : ℕ} {a : ℕ → K} {trunc : Option ℕ} {r : Arr K}
    (h : correlationDirect1D N a none trunc = .ok r) (h0 : 0 < r.len) :
    r.get 0 = (∑ t ∈ range N, a t ^ 2) / N ∧ 0 ≤ r.get 0 := by
  obtain ⟨e1, e2⟩ := direct1D_spec h
  have e : r.get 0 = (∑ t ∈ range N, a t ^ 2) / N := by
    rw [e2 0 h0]
    simp [Spec.corr, pow_two]
  refine ⟨e, ?_⟩
  rw [e]
  exact div_nonneg (sum_nonneg fun _ _ => sq_nonneg _) (Nat.cast_nonneg _)

/-- **C35**, other lags: `(N-n) |C(n)| ≤ N C(0)`. -/
theorem C35_bound {N : ℕ} {a : ℕ → K} {trunc : Option ℕ} {r : Arr K}
    (h : correlationDirect1D N a none trunc = .ok r) {n : ℕ} (hn : n < r.len) :
    ((N : K) - n) * |r.get n| ≤ N * r.get 0 := by
  obtain ⟨e1, e2⟩ := direct1D_spec h
  have hN : n < N := lt_of_lt_of_le (e1 ▸ hn) (lenTrunc_le _ _)
  have hpos : (0 : K) < ((N - n : ℕ) : K) := by
    rw [Nat.cast_pos]; omega
  have hNpos : (0 : K) < (N : K) := by rw [Nat.cast_pos]; omega
  rw [(C35_lag_zero h (by omega)).1, mul_div_cancel₀ _ hNpos.ne', e2 n hn, cast_sub_eq hN, Spec.corr,
    Option.getD_none, abs_div, abs_of_pos hpos, mul_div_cancel₀ _ hpos.ne']
  have key : |∑ t ∈ range (N - n), a t * a (t + n)| ≤
      ∑ t ∈ range (N - n), (a t ^ 2 + a (t + n) ^ 2) / 2 := by
    refine (abs_sum_le_sum_abs _ _).trans (sum_le_sum fun t _ => ?_)
    rw [abs_mul]
    nlinarith [sq_nonneg (|a t| - |a (t + n)|), sq_abs (a t), sq_abs (a (t + n))]
  refine key.trans ?_
  have h1 : ∑ t ∈ range (N - n), a t ^ 2 ≤ ∑ t ∈ range N, a t ^ 2 :=
    sum_le_sum_of_subset_of_nonneg (fun t ht => mem_range.2 (by have := mem_range.1 ht; omega))
      fun _ _ _ => sq_nonneg _
  have h2 : ∑ t ∈ range (N - n), a (t + n) ^ 2 ≤ ∑ t ∈ range N, a t ^ 2 := by
    have : ∑ t ∈ range (N - n), a (t + n) ^ 2 = ∑ t ∈ Ico n N, a t ^ 2 := by
      rw [sum_Ico_eq_sum_range]
      exact sum_congr rfl fun t _ => by rw [add_comm]
    rw [this]
    exact sum_le_sum_of_subset_of_nonneg (fun t ht => mem_range.2 (mem_Ico.1 ht).2)
      fun _ _ _ => sq_nonneg _
  rw [← sum_div, sum_add_distrib]
  linarith

/-- **C35**, constant series. -/
theorem C35_constant {N : ℕ} {c : K} {trunc : Option ℕ} {r : Arr K}
    (h : correlationDirect1D N (fun _ => c) none trunc = .ok r) {n : ℕ} (hn : n < r.len) :
    r.get n = c ^ 2 := by
  obtain ⟨e1, e2⟩ := direct1D_spec h
  have hN : n < N := lt_of_lt_of_le (e1 ▸ hn) (lenTrunc_le _ _)
  have hpos : (0 : K) < ((N - n : ℕ) : K) := by
    rw [Nat.cast_pos]; omega
  rw [e2 n hn, Spec.corr]
  simp only [Option.getD_none, sum_const, card_range, nsmul_eq_mul]
  field_simp

end

example : ∃ r, correlationDirect1D 4 (fun t => ((t : ℚ) - 1)) none none = .ok r ∧ 2 < r.len ∧
    r.get 2 = -1 / 2 ∧ r.get 0 = 6 / 4 :=
  ⟨_, eq_getOk (by decide +kernel) ⟨0, 0⟩, by decide +kernel, by decide +kernel, by decide +kernel⟩

end Verif
