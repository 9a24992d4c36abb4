import Verif.Props.NoiseGen
import Verif.Lemmas.Character
import Mathlib.Tactic.IntervalCases
import Mathlib.Analysis.SpecialFunctions.Trigonometric.Basic

/-!
# The filter of `ColoredNoiseGenerator` (C87)
-/

namespace Verif

open Finset MeasureTheory

namespace Spec

/-- The discrete spectrum of the kernel, continued to negative lags by symmetry: the lags are
`j - (N - 1)`, from `-(N - 1)` to `N - 1`. -/
noncomputable def spectrum (N : ℕ) (kernel : ℕ → ℝ) (k : ℕ) : ℝ :=
  ∑ j ∈ range (2 * N - 1), kernel ((j : ℤ) - (N - 1 : ℕ)).natAbs * Real.cos (2 * Real.pi * (k * (j - (N - 1 : ℕ))) / (2 * N - 1 : ℕ))

end Spec

section
variable {N : ℕ} {kernel t : ℕ → ℝ} {dt : ℝ}

theorem symmetrise_eq (hN : 1 ≤ N) (j : ℕ) : symmetrise 1 N kernel j = kernel ((j : ℤ) - (N - 1 : ℕ)).natAbs := by
  unfold symmetrise
  split_ifs
  · rw [one_mul]; congr 1; omega
  · congr 1; omega

/-- The spectrum as a complex sum, for integers. -/
noncomputable def specC (N : ℕ) (kernel : ℕ → ℝ) (k : ℤ) : ℂ :=
  ∑ j ∈ range (2 * N - 1), (kernel ((j : ℤ) - (N - 1 : ℕ)).natAbs : ℂ) * ch (2 * N - 1) (-(k * (j - (N - 1 : ℕ))))

theorem specC_neg (hN : 1 ≤ N) (k : ℤ) : specC N kernel (-k) = specC N kernel k := by
  unfold specC
  rw [← sum_range_reflect]
  refine sum_congr rfl fun j hj => ?_
  have := mem_range.1 hj
  have e : ((2 * N - 1 - 1 - j : ℕ) : ℤ) - (N - 1 : ℕ) = -((j : ℤ) - (N - 1 : ℕ)) := by omega
  rw [e, Int.natAbs_neg]
  congr 2
  ring

theorem specC_conj (hN : 1 ≤ N) (k : ℤ) : (starRingEnd ℂ) (specC N kernel k) = specC N kernel k := by
  conv_rhs => rw [← specC_neg hN]
  unfold specC
  rw [map_sum]
  refine sum_congr rfl fun j _ => ?_
  rw [map_mul, ch_conj, Complex.conj_ofReal]
  congr 2
  ring

theorem specC_congr (hN : 1 ≤ N) {k l : ℤ} (h : ((2 * N - 1 : ℕ) : ℤ) ∣ k - l) : specC N kernel k = specC N kernel l := by
  unfold specC
  refine sum_congr rfl fun j _ => ?_
  congr 1
  refine ch_congr (by omega) ?_
  rw [show -(k * ((j : ℤ) - (N - 1 : ℕ))) - -(l * ((j : ℤ) - (N - 1 : ℕ))) = (k - l) * -((j : ℤ) - (N - 1 : ℕ)) by ring]
  exact Dvd.dvd.mul_right h _

theorem specC_eq (hN : 1 ≤ N) (k : ℕ) : specC N kernel k = (Spec.spectrum N kernel k : ℂ) := by
  refine (Complex.conj_eq_iff_re.1 (specC_conj hN _)).symm.trans ?_
  congr 1
  unfold specC Spec.spectrum
  rw [Complex.re_sum]
  refine sum_congr rfl fun j _ => ?_
  rw [Complex.re_ofReal_mul, ch]
  congr 1
  have : (2 * Real.pi * Complex.I * ((-((k : ℤ) * (j - (N - 1 : ℕ))) : ℤ) : ℂ) / (2 * N - 1 : ℕ)) =
      ((-(2 * Real.pi * (k * (j - (N - 1 : ℕ))) / (2 * N - 1 : ℕ)) : ℝ) : ℂ) * Complex.I := by
    push_cast
    ring
  rw [this, Complex.exp_ofReal_mul_I_re, Real.cos_neg]

/-- The square root of the spectrum, for integers. -/
noncomputable def rootC (N : ℕ) (kernel : ℕ → ℝ) (dt : ℝ) (k : ℤ) : ℝ := √(dt * (specC N kernel k).re)

/-- The filter as a Fourier series. -/
noncomputable def filterC (N : ℕ) (kernel : ℕ → ℝ) (dt : ℝ) (n : ℤ) : ℂ :=
  (∑ k ∈ range (2 * N - 1), (rootC N kernel dt k : ℂ) * ch (2 * N - 1) (k * (n - (N - 1 : ℕ)))) / ((2 * N - 1 : ℕ) * dt)

theorem filterC_conj (hN : 1 ≤ N) (n : ℤ) : (starRingEnd ℂ) (filterC N kernel dt n) = filterC N kernel dt n := by
  unfold filterC
  rw [map_div₀, map_mul, Complex.conj_natCast, Complex.conj_ofReal, map_sum]
  congr 1
  rw [← sum_period_neg (show 0 < 2 * N - 1 by omega) (fun k => (rootC N kernel dt k : ℂ) * ch (2 * N - 1) (k * (n - (N - 1 : ℕ))))]
  · refine sum_congr rfl fun k _ => ?_
    rw [map_mul, Complex.conj_ofReal, ch_conj, rootC, rootC, specC_neg hN, neg_mul]
  · intro x y h
    simp only [rootC, specC_congr hN h]
    congr 1
    refine ch_congr (by omega) ?_
    rw [← sub_mul]
    exact Dvd.dvd.mul_right h _

theorem filterC_congr (hN : 1 ≤ N) {n m : ℤ} (h : ((2 * N - 1 : ℕ) : ℤ) ∣ n - m) : filterC N kernel dt n = filterC N kernel dt m := by
  unfold filterC
  congr 1
  refine sum_congr rfl fun k _ => ?_
  congr 1
  refine ch_congr (by omega) ?_
  rw [← mul_sub]
  refine Dvd.dvd.mul_left ?_ _
  simpa using h

/-- The filter computed by the generator. -/
theorem colouredFilter_eq (hN : 2 ≤ N) (hdt : 0 < dt) (ht : ∀ j < N, t j = j * dt)
    (hS : ∀ k < 2 * N - 1, 0 ≤ Spec.spectrum N kernel k) (n : ℕ) :
    (colouredFilter N kernel t n : ℂ) = filterC N kernel dt n := by
  have hM : 0 < 2 * N - 1 := by omega
  have hM' : ((2 * N - 1 : ℕ) : ℂ) ≠ 0 := by exact_mod_cast hM.ne'
  have hMr : ((2 * N - 1 : ℕ) : ℝ) ≠ 0 := by exact_mod_cast hM.ne'
  have hdt' : (dt : ℂ) ≠ 0 := by exact_mod_cast hdt.ne'
  have hpi : (Real.pi : ℂ) ≠ 0 := by exact_mod_cast Real.pi_ne_zero
  have h0 : symmetrise (-1) N t 0 = -((N - 1 : ℕ) * dt) := by
    rw [symmetrise, if_pos (by omega), ht _ (by omega)]
    simp
  have h1 : symmetrise (-1) N t 1 - symmetrise (-1) N t 0 = dt := by
    rw [h0, symmetrise]
    split_ifs with h
    · rw [ht _ (by omega), show N - 1 - 1 = N - 2 by omega, show ((N - 1 : ℕ) : ℝ) = (N - 2 : ℕ) + 1 by
        rw [← Nat.cast_succ]; congr 1; omega]
      ring
    · rw [ht _ (by omega), show N = 2 by omega]
      norm_num
  have hw : ∀ k, k < 2 * N - 1 → Complex.exp (Complex.I * ((2 * Real.pi * fftfreq (2 * N - 1) k / dt : ℝ) : ℂ) *
      ((-((N - 1 : ℕ) * dt) : ℝ) : ℂ)) = ch (2 * N - 1) (-(k * (N - 1 : ℕ))) := by
    intro k hk
    by_cases c : k < (2 * N - 1 + 1) / 2
    · rw [ch, fftfreq, if_pos c]
      congr 1
      push_cast
      field_simp
    · rw [ch_congr hM (y := -((k - (2 * N - 1 : ℕ)) * (N - 1 : ℕ))) ⟨-(N - 1 : ℕ), by ring⟩, ch, fftfreq, if_neg c]
      congr 1
      push_cast
      field_simp
  have hkft : ∀ k, k < 2 * N - 1 → fft (2 * N - 1) (2 * N - 1) (symmetrise 1 N kernel) k * ((dt : ℂ) *
      ch (2 * N - 1) (k * (N - 1 : ℕ))) = ((dt * Spec.spectrum N kernel k : ℝ) : ℂ) := by
    intro k hk
    rw [Complex.ofReal_mul, ← specC_eq (by omega), fft, specC, sum_mul, mul_sum]
    refine sum_congr rfl fun j hj => ?_
    rw [if_pos (mem_range.1 hj), symmetrise_eq (by omega)]
    have : Complex.exp (-(2 * Real.pi * Complex.I * k * j / (2 * N - 1 : ℕ))) = ch (2 * N - 1) (-(k * j)) := by
      rw [ch]
      congr 1
      push_cast
      ring
    rw [this, show (-((k : ℤ) * (j - (N - 1 : ℕ)))) = -(k * j) + k * (N - 1 : ℕ) by ring, ch_add]
    ring
  have hroot : ∀ k, k < 2 * N - 1 → ((dt * Spec.spectrum N kernel k : ℝ) : ℂ) ^ (1 / 2 : ℂ) = (rootC N kernel dt k : ℂ) := by
    intro k hk
    rw [rootC, specC_eq (by omega), Complex.ofReal_re, Real.sqrt_eq_rpow, Complex.ofReal_cpow (mul_nonneg hdt.le (hS k hk))]
    norm_num
  have hw10 : fftfreq (2 * N - 1) 1 - fftfreq (2 * N - 1) 0 = 1 / (2 * N - 1 : ℕ) := by
    rw [fftfreq, fftfreq, if_pos (by omega), if_pos (by omega)]
    simp
  have hC : ifft (2 * N - 1) (fun k => (rootC N kernel dt k : ℂ) * ch (2 * N - 1) (-(k * (N - 1 : ℕ)))) n *
      (((2 * N - 1 : ℕ) : ℂ) * ((1 / ((2 * N - 1 : ℕ) * dt) : ℝ) : ℂ)) = filterC N kernel dt n := by
    rw [ifft, filterC]
    have : ∀ k ∈ range (2 * N - 1), (rootC N kernel dt k : ℂ) * ch (2 * N - 1) (-(k * (N - 1 : ℕ))) *
        Complex.exp (2 * Real.pi * Complex.I * k * n / (2 * N - 1 : ℕ)) =
        (rootC N kernel dt k : ℂ) * ch (2 * N - 1) (k * (n - (N - 1 : ℕ))) := by
      intro k _
      rw [show ((k : ℤ) * (n - (N - 1 : ℕ))) = -(k * (N - 1 : ℕ)) + k * n by ring, ch_add, mul_assoc]
      congr 2
      rw [ch]
      congr 1
      push_cast
      ring
    rw [sum_congr rfl this]
    push_cast
    field_simp
  rw [colouredFilter]
  simp only [h1]
  have hf : ∀ k ∈ range (2 * N - 1), (fft (2 * N - 1) (2 * N - 1) (symmetrise 1 N kernel) k * ((dt : ℂ) *
      Complex.exp (-(Complex.I * ((2 * Real.pi * fftfreq (2 * N - 1) k / dt : ℝ) : ℂ) * (symmetrise (-1) N t 0 : ℂ))))) ^ (1 / 2 : ℂ) *
      Complex.exp (Complex.I * ((2 * Real.pi * fftfreq (2 * N - 1) k / dt : ℝ) : ℂ) * (symmetrise (-1) N t 0 : ℂ)) =
      (rootC N kernel dt k : ℂ) * ch (2 * N - 1) (-(k * (N - 1 : ℕ))) := by
    intro k hk
    have hk := mem_range.1 hk
    rw [h0, hw k hk, Complex.exp_neg, hw k hk, ← hroot k hk, ← hkft k hk]
    congr 3
    have : ch (2 * N - 1) (-(k * (N - 1 : ℕ))) * ch (2 * N - 1) (k * (N - 1 : ℕ)) = 1 := by
      rw [← ch_add, neg_add_cancel, ch_zero]
    rw [inv_eq_of_mul_eq_one_right this]
  have hi : ∀ f g : ℕ → ℂ, (∀ k ∈ range (2 * N - 1), f k = g k) → ifft (2 * N - 1) f n = ifft (2 * N - 1) g n := by
    intro f g hfg
    rw [ifft, ifft, sum_congr rfl fun k hk => by rw [hfg k hk]]
  rw [hi _ _ hf, ← mul_div_assoc, mul_div_assoc]
  have hc : ((2 * N - 1 : ℕ) : ℂ) * (((2 * Real.pi * fftfreq (2 * N - 1) 1 / dt - 2 * Real.pi * fftfreq (2 * N - 1) 0 / dt : ℝ)) : ℂ) /
      (2 * Real.pi) = ((2 * N - 1 : ℕ) : ℂ) * ((1 / ((2 * N - 1 : ℕ) * dt) : ℝ) : ℂ) := by
    have : 2 * Real.pi * fftfreq (2 * N - 1) 1 / dt - 2 * Real.pi * fftfreq (2 * N - 1) 0 / dt =
        2 * Real.pi * (1 / ((2 * N - 1 : ℕ) * dt)) := by
      rw [← sub_div, ← mul_sub, hw10]
      field_simp
    rw [this]
    push_cast
    field_simp
  rw [← mul_div_assoc, mul_div_assoc, hc, hC]
  exact Complex.conj_eq_iff_re.1 (filterC_conj (by omega) _)

theorem filterC_corr (hN : 1 ≤ N) (hdt : 0 < dt) (hS : ∀ k < 2 * N - 1, 0 ≤ Spec.spectrum N kernel k) {τ : ℕ} (hτ : τ < N) :
    ∑ m ∈ range (2 * N - 1), filterC N kernel dt m * filterC N kernel dt (m + τ) = kernel τ / dt := by
  have hM : 0 < 2 * N - 1 := by omega
  have hM' : ((2 * N - 1 : ℕ) : ℂ) ≠ 0 := by exact_mod_cast hM.ne'
  have hdt' : (dt : ℂ) ≠ 0 := by exact_mod_cast hdt.ne'
  set c : ℤ := ((N - 1 : ℕ) : ℤ) with hc
  set r : ℕ → ℂ := fun k => (rootC N kernel dt k : ℂ) with hr
  have hr2 : ∀ k < 2 * N - 1, r k * r k = dt * specC N kernel k := by
    intro k hk
    rw [hr]
    simp only [rootC]
    rw [specC_eq hN, Complex.ofReal_re, ← Complex.ofReal_mul, Real.mul_self_sqrt (mul_nonneg hdt.le (hS k hk))]
    push_cast
    rfl
  have step1 : ∑ m ∈ range (2 * N - 1), filterC N kernel dt m * filterC N kernel dt (m + τ) =
      (∑ k ∈ range (2 * N - 1), ∑ l ∈ range (2 * N - 1), r k * r l * ch (2 * N - 1) (k * c - l * c + l * τ) *
        ∑ m ∈ range (2 * N - 1), ch (2 * N - 1) (m * (l - k))) / (((2 * N - 1 : ℕ) * dt) * ((2 * N - 1 : ℕ) * dt)) := by
    have : ∀ m : ℕ, filterC N kernel dt m * filterC N kernel dt (m + τ) =
        (∑ k ∈ range (2 * N - 1), ∑ l ∈ range (2 * N - 1), r k * r l * ch (2 * N - 1) (k * c - l * c + l * τ) *
          ch (2 * N - 1) (m * (l - k))) / (((2 * N - 1 : ℕ) * dt) * ((2 * N - 1 : ℕ) * dt)) := by
      intro m
      rw [← filterC_conj hN m]
      simp only [filterC]
      rw [map_div₀, map_mul, Complex.conj_natCast, Complex.conj_ofReal, map_sum, div_mul_div_comm, sum_mul_sum]
      congr 1
      refine sum_congr rfl fun k _ => sum_congr rfl fun l _ => ?_
      rw [map_mul, Complex.conj_ofReal, ch_conj, mul_assoc (r k * r l), ← ch_add,
        show ((k : ℤ) * c - l * c + l * τ + m * (l - k)) = -(k * (m - c)) + l * (m + τ - c) by ring, ch_add]
      ring
    simp only [this]
    rw [← sum_div]
    congr 1
    rw [sum_comm]
    refine sum_congr rfl fun k _ => ?_
    rw [sum_comm]
    exact sum_congr rfl fun l _ => by rw [mul_sum]
  have step2 : ∀ k ∈ range (2 * N - 1), ∑ l ∈ range (2 * N - 1), r k * r l * ch (2 * N - 1) (k * c - l * c + l * τ) *
      ∑ m ∈ range (2 * N - 1), ch (2 * N - 1) (m * (l - k)) = (2 * N - 1 : ℕ) * (dt * specC N kernel k * ch (2 * N - 1) (k * τ)) := by
    intro k hk
    have hk' := mem_range.1 hk
    rw [sum_eq_single k]
    · rw [sum_ch hM, if_pos (by rw [sub_self]; exact dvd_zero _), hr2 k hk', sub_self, zero_add]
      ring
    · intro l hl hlk
      have hl' := mem_range.1 hl
      rw [sum_ch hM, if_neg, mul_zero]
      intro hd
      have := Int.eq_zero_of_abs_lt_dvd hd (by rw [abs_lt]; omega)
      omega
    · exact fun h => absurd hk h
  rw [step1, sum_congr rfl step2, ← mul_sum]
  have step3 : ∑ k ∈ range (2 * N - 1), (dt : ℂ) * specC N kernel k * ch (2 * N - 1) (k * τ) =
      dt * ((2 * N - 1 : ℕ) * kernel τ) := by
    simp only [mul_assoc, ← mul_sum]
    congr 1
    simp only [specC, sum_mul]
    rw [sum_comm, sum_eq_single (τ + (N - 1))]
    · have e : (((τ + (N - 1) : ℕ) : ℤ) - (N - 1 : ℕ)) = τ := by push_cast; ring
      rw [e, Int.natAbs_natCast]
      have : ∀ k ∈ range (2 * N - 1), (kernel τ : ℂ) * ch (2 * N - 1) (-((k : ℤ) * τ)) * ch (2 * N - 1) (k * τ) = kernel τ := by
        intro k _
        rw [mul_assoc, ← ch_add, neg_add_cancel, ch_zero, mul_one]
      rw [sum_congr rfl this, sum_const, card_range, nsmul_eq_mul]
    · intro j hj hne
      have hj' := mem_range.1 hj
      have : ∀ k ∈ range (2 * N - 1), (kernel ((j : ℤ) - (N - 1 : ℕ)).natAbs : ℂ) * ch (2 * N - 1) (-((k : ℤ) * (j - (N - 1 : ℕ)))) *
          ch (2 * N - 1) (k * τ) = (kernel ((j : ℤ) - (N - 1 : ℕ)).natAbs : ℂ) * ch (2 * N - 1) (k * (τ - (j - (N - 1 : ℕ)))) := by
        intro k _
        rw [mul_assoc, ← ch_add]
        congr 2
        ring
      rw [sum_congr rfl this, ← mul_sum, sum_ch hM, if_neg, mul_zero]
      intro hd
      have := Int.eq_zero_of_abs_lt_dvd hd (by rw [abs_lt]; omega)
      omega
    · intro h
      exact absurd (mem_range.2 (by omega)) h
  rw [step3]
  field_simp

/-- **C87**, the part that holds: the autocorrelation of the filter, with the lags taken modulo its length, is the
kernel. -/
theorem C87_circular_partial (hN : 2 ≤ N) (hdt : 0 < dt) (ht : ∀ j < N, t j = j * dt)
    (hS : ∀ k < 2 * N - 1, 0 ≤ Spec.spectrum N kernel k) {τ : ℕ} (hτ : τ < N) :
    dt * ∑ m ∈ range (2 * N - 1), colouredFilter N kernel t m * colouredFilter N kernel t ((m + τ) % (2 * N - 1)) = kernel τ := by
  have h := filterC_corr (by omega) hdt hS hτ
  have e : ∀ m ∈ range (2 * N - 1), filterC N kernel dt m * filterC N kernel dt (m + τ) =
      ((colouredFilter N kernel t m * colouredFilter N kernel t ((m + τ) % (2 * N - 1)) : ℝ) : ℂ) := by
    intro m _
    rw [Complex.ofReal_mul, colouredFilter_eq hN hdt ht hS, colouredFilter_eq hN hdt ht hS]
    congr 1
    refine filterC_congr (by omega) ?_
    push_cast
    exact Int.dvd_self_sub_emod
  rw [sum_congr rfl e, ← Complex.ofReal_sum, ← Complex.ofReal_div, Complex.ofReal_inj] at h
  rw [h]
  field_simp

/-- The covariance of the generated noise away from the ends: the autocorrelation of the filter, without wrapping. -/
theorem colouredGenerate_cov {Ω : Type*} [MeasurableSpace Ω] {μ : Measure Ω} {w : ℕ → Ω → ℝ} (hw : IsWhite μ w) {S : ℕ}
    (hN : 1 ≤ N) (hSM : 2 * N - 1 ≤ S) (h : ℕ → ℝ) (hdt : 0 ≤ dt) {n τ : ℕ} (hn : N - 1 ≤ n) (hn' : n + τ + (N - 1) < S) :
    ∫ o, colouredGenerate S (2 * N - 1) h dt (fun k => w k o) n * colouredGenerate S (2 * N - 1) h dt (fun k => w k o) (n + τ) ∂μ =
      dt * ∑ m ∈ range (2 * N - 1 - τ), h m * h (m + τ) := by
  have hg : ∀ n, N - 1 ≤ n → n + (N - 1) < S → ∀ o, colouredGenerate S (2 * N - 1) h dt (fun k => w k o) n =
      ∑ k ∈ range S, (if k ≤ n + (N - 1) ∧ n + (N - 1) - k < 2 * N - 1 then h (n + (N - 1) - k) * √dt else 0) * w k o := by
    intro n hn hn' o
    unfold colouredGenerate
    rw [min_eq_right hSM, show (2 * N - 1 - 1) / 2 = N - 1 by omega, sum_mul]
    simp only [ite_mul, zero_mul]
    rw [← sum_filter, ← sum_filter]
    refine sum_nbij' (fun j => n + (N - 1) - j) (fun k => n + (N - 1) - k) ?_ ?_ ?_ ?_ ?_
    · intro j hj
      simp only [mem_filter, mem_range] at hj ⊢
      omega
    · intro j hj
      simp only [mem_filter, mem_range] at hj ⊢
      omega
    · intro j hj
      simp only [mem_filter, mem_range] at hj
      omega
    · intro j hj
      simp only [mem_filter, mem_range] at hj
      omega
    · intro j hj
      simp only [mem_filter, mem_range] at hj
      rw [show n + (N - 1) - (n + (N - 1) - j) = j by omega]
      ring
  simp only [hg n hn (by omega), hg (n + τ) (by omega) (by omega)]
  rw [hw.cov, mul_sum]
  have e : ∀ k ∈ range S, (if k ≤ n + (N - 1) ∧ n + (N - 1) - k < 2 * N - 1 then h (n + (N - 1) - k) * √dt else 0) *
      (if k ≤ n + τ + (N - 1) ∧ n + τ + (N - 1) - k < 2 * N - 1 then h (n + τ + (N - 1) - k) * √dt else 0) =
      if k ≤ n + (N - 1) ∧ n + (N - 1) - k < 2 * N - 1 - τ then dt * (h (n + (N - 1) - k) * h (n + (N - 1) - k + τ)) else 0 := by
    intro k _
    by_cases c : k ≤ n + (N - 1) ∧ n + (N - 1) - k < 2 * N - 1 - τ
    · rw [if_pos c, if_pos (by omega), if_pos (by omega), show n + τ + (N - 1) - k = n + (N - 1) - k + τ by omega]
      calc _ = h (n + (N - 1) - k) * h (n + (N - 1) - k + τ) * (√dt * √dt) := by ring
        _ = _ := by rw [Real.mul_self_sqrt hdt]; ring
    · rw [if_neg c]
      by_cases c1 : k ≤ n + (N - 1) ∧ n + (N - 1) - k < 2 * N - 1
      · rw [if_neg (c := k ≤ n + τ + (N - 1) ∧ _) (by omega), mul_zero]
      · rw [if_neg c1, zero_mul]
  rw [sum_congr rfl e, ← sum_filter]
  refine sum_nbij' (fun k => n + (N - 1) - k) (fun m => n + (N - 1) - m) ?_ ?_ ?_ ?_ ?_
  · intro j hj
    simp only [mem_filter, mem_range] at hj ⊢
    omega
  · intro j hj
    simp only [mem_filter, mem_range] at hj ⊢
    omega
  · intro j hj
    simp only [mem_filter, mem_range] at hj
    omega
  · intro j hj
    simp only [mem_range] at hj
    omega
  · intro j hj
    rfl

/-- **C87**, what the covariance of the noise is: the kernel, minus the part of the autocorrelation of the filter
that wraps around. -/
theorem C87_covariance {Ω : Type*} [MeasurableSpace Ω] {μ : Measure Ω} {w : ℕ → Ω → ℝ} (hw : IsWhite μ w) {S : ℕ}
    (hN : 2 ≤ N) (hdt : 0 < dt) (ht : ∀ j < N, t j = j * dt) (hS : ∀ k < 2 * N - 1, 0 ≤ Spec.spectrum N kernel k)
    (hSM : 2 * N - 1 ≤ S) {n τ : ℕ} (hτ : τ < N) (hn : N - 1 ≤ n) (hn' : n + τ + (N - 1) < S) :
    ∫ o, colouredGenerate S (2 * N - 1) (colouredFilter N kernel t) dt (fun k => w k o) n *
        colouredGenerate S (2 * N - 1) (colouredFilter N kernel t) dt (fun k => w k o) (n + τ) ∂μ =
      kernel τ - dt * ∑ m ∈ range τ, colouredFilter N kernel t (2 * N - 1 - τ + m) * colouredFilter N kernel t m := by
  rw [colouredGenerate_cov hw (by omega) hSM _ hdt.le hn hn', ← C87_circular_partial hN hdt ht hS hτ, ← mul_sub]
  congr 1
  rw [eq_sub_iff_add_eq]
  conv_rhs => rw [show 2 * N - 1 = (2 * N - 1 - τ) + τ by omega, sum_range_add]
  rw [show 2 * N - 1 - τ + τ = 2 * N - 1 by omega]
  refine congrArg₂ _ (sum_congr rfl fun m hm => ?_) (sum_congr rfl fun m hm => ?_)
  · rw [Nat.mod_eq_of_lt (by have := mem_range.1 hm; omega)]
  · have := mem_range.1 hm
    rw [show 2 * N - 1 - τ + m + τ = m + (2 * N - 1) by omega, Nat.add_mod_right, Nat.mod_eq_of_lt (by omega)]

/-- **C87** at lag zero: the variance is right. -/
theorem C87_variance {Ω : Type*} [MeasurableSpace Ω] {μ : Measure Ω} {w : ℕ → Ω → ℝ} (hw : IsWhite μ w) {S : ℕ}
    (hN : 2 ≤ N) (hdt : 0 < dt) (ht : ∀ j < N, t j = j * dt) (hS : ∀ k < 2 * N - 1, 0 ≤ Spec.spectrum N kernel k)
    (hSM : 2 * N - 1 ≤ S) {n : ℕ} (hn : N - 1 ≤ n) (hn' : n + (N - 1) < S) :
    ∫ o, colouredGenerate S (2 * N - 1) (colouredFilter N kernel t) dt (fun k => w k o) n ^ 2 ∂μ = kernel 0 := by
  have := C87_covariance hw hN hdt ht hS hSM (τ := 0) (by omega) hn (by omega)
  simpa [pow_two] using this

end

/-! ### An example, and the failure at other lags -/

/-- A kernel with a positive spectrum. -/
noncomputable def exampleKer : ℕ → ℝ := fun τ => if τ = 0 then 1 else 1 / 2

theorem exampleKer_spectrum : Spec.spectrum 2 exampleKer 0 = 2 ∧ Spec.spectrum 2 exampleKer 1 = 1 / 2 ∧
    Spec.spectrum 2 exampleKer 2 = 1 / 2 := by
  have h3 : Real.cos (2 * Real.pi / 3) = -(1 / 2) := by
    rw [show 2 * Real.pi / 3 = Real.pi - Real.pi / 3 by ring, Real.cos_pi_sub, Real.cos_pi_div_three]
  have h4 : Real.cos (2 * Real.pi * 2 / 3) = -(1 / 2) := by
    rw [show 2 * Real.pi * 2 / 3 = Real.pi / 3 + Real.pi by ring, Real.cos_add_pi, Real.cos_pi_div_three]
  have h3' : Real.cos (-(2 * Real.pi) / 3) = -(1 / 2) := by rw [neg_div, Real.cos_neg, h3]
  have h4' : Real.cos (-(2 * Real.pi * 2) / 3) = -(1 / 2) := by rw [neg_div, Real.cos_neg, h4]
  refine ⟨?_, ?_, ?_⟩
  · simp [Spec.spectrum, sum_range_succ, exampleKer]
    norm_num
  · simp [Spec.spectrum, sum_range_succ, exampleKer, h3']
    norm_num [h3, h3']
  · simp [Spec.spectrum, sum_range_succ, exampleKer, h4']
    norm_num [h4, h4']

theorem exampleKer_nonneg : ∀ k < 2 * 2 - 1, 0 ≤ Spec.spectrum 2 exampleKer k := by
  obtain ⟨h0, h1, h2⟩ := exampleKer_spectrum
  intro k hk
  interval_cases k
  · rw [h0]; norm_num
  · rw [h1]; norm_num
  · rw [h2]; norm_num

example := C87_circular_partial (N := 2) (t := fun j => j * 1) le_rfl one_pos (fun _ _ => rfl) exampleKer_nonneg (τ := 1) (by decide)

theorem exampleFilter {n : ℕ} (hn : n = 0 ∨ n = 2) : colouredFilter 2 exampleKer (fun j => j * 1) n = (√2 - √(1 / 2)) / 3 := by
  obtain ⟨h0, h1, h2⟩ := exampleKer_spectrum
  have e := colouredFilter_eq (N := 2) (kernel := exampleKer) (t := fun j => j * 1) le_rfl one_pos (fun _ _ => rfl) exampleKer_nonneg n
  have r0 : rootC 2 exampleKer 1 (0 : ℕ) = √2 := by rw [rootC, specC_eq (by decide), h0, Complex.ofReal_re, one_mul]
  have r1 : rootC 2 exampleKer 1 (1 : ℕ) = √(1 / 2) := by rw [rootC, specC_eq (by decide), h1, Complex.ofReal_re, one_mul]
  have r2 : rootC 2 exampleKer 1 (2 : ℕ) = √(1 / 2) := by rw [rootC, specC_eq (by decide), h2, Complex.ofReal_re, one_mul]
  have hs : ∑ k ∈ range (2 * 2 - 1), ch (2 * 2 - 1) (k * ((n : ℤ) - (2 - 1 : ℕ))) = 0 := by
    rw [sum_ch (by decide), if_neg]
    rcases hn with rfl | rfl <;> decide
  rw [filterC] at e
  rw [show 2 * 2 - 1 = 3 by decide] at hs e
  rw [sum_range_succ, sum_range_succ, sum_range_one] at hs e
  rw [r0, r1, r2] at e
  rw [Nat.cast_zero, zero_mul, ch_zero] at hs e
  have hs' : ch 3 ((1 : ℕ) * ((n : ℤ) - (2 - 1 : ℕ))) + ch 3 ((2 : ℕ) * ((n : ℤ) - (2 - 1 : ℕ))) = -1 := by
    rw [eq_neg_iff_add_eq_zero, ← hs]; ring
  rw [add_assoc, ← mul_add, hs'] at e
  apply Complex.ofReal_injective
  rw [e]
  push_cast
  ring

/-- C87 is false for the other lags: for the kernel `1, 1/2` with `dt = 1` the covariance at lag one is not `1/2`. -/
theorem C87_lag_one_fails {Ω : Type*} [MeasurableSpace Ω] {μ : Measure Ω} {w : ℕ → Ω → ℝ} (hw : IsWhite μ w) {S n : ℕ}
    (hS : 3 ≤ S) (hn : 1 ≤ n) (hn' : n + 2 < S) :
    ∫ o, colouredGenerate S 3 (colouredFilter 2 exampleKer fun j => j * 1) 1 (fun k => w k o) n *
      colouredGenerate S 3 (colouredFilter 2 exampleKer fun j => j * 1) 1 (fun k => w k o) (n + 1) ∂μ < exampleKer 1 := by
  have h := C87_covariance hw (N := 2) (kernel := exampleKer) (t := fun j => j * 1) le_rfl one_pos (fun _ _ => rfl) exampleKer_nonneg
    hS (τ := 1) (by decide) hn (by omega)
  rw [show (2 * 2 - 1) = 3 by decide] at h
  rw [h, sum_range_one, exampleFilter (.inr rfl), exampleFilter (.inl rfl)]
  have : √(1 / 2) < √2 := Real.sqrt_lt_sqrt (by norm_num) (by norm_num)
  have : 0 < (√2 - √(1 / 2)) / 3 := by linarith
  nlinarith

/-- White noise indexed by the natural numbers: the coordinates, for the counting measure. -/
theorem exampleWhiteNat : IsWhite (Measure.count : Measure ℕ) fun k o => if k = o then 1 else 0 := by
  have e : ∀ i j : ℕ, (fun o => (if i = o then (1 : ℝ) else 0) * if j = o then 1 else 0) =
      Set.indicator {i} fun _ => if j = i then 1 else 0 := by
    intro i j
    funext o
    by_cases h : i = o
    · subst h; simp
    · simp [h, Ne.symm h]
  refine ⟨fun i j => ?_, fun i => ?_, fun i j hij => ?_⟩
  · rw [e, integrable_indicator_iff (measurableSet_singleton i)]
    exact integrableOn_const (by simp) (by simp)
  · rw [e, integral_indicator (measurableSet_singleton i)]
    simp [Measure.real]
  · rw [e, integral_indicator (measurableSet_singleton i)]
    simp [Ne.symm hij]

example := C87_variance exampleWhiteNat (N := 2) (kernel := exampleKer) (t := fun j => j * 1) le_rfl one_pos (fun _ _ => rfl)
  exampleKer_nonneg (S := 5) (by decide) (n := 2) (by decide) (by decide)
example := C87_covariance exampleWhiteNat (N := 2) (kernel := exampleKer) (t := fun j => j * 1) le_rfl one_pos (fun _ _ => rfl)
  exampleKer_nonneg (S := 5) (by decide) (n := 2) (τ := 1) (by decide) (by decide) (by decide)
example := C87_lag_one_fails exampleWhiteNat (S := 5) (n := 2) (by decide) (by decide) (by decide)

end Verif
