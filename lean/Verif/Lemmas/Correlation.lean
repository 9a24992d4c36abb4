import Verif.Model.Correlation
import Verif.Spec.Correlation
import Verif.Lemmas.Loops
import Mathlib.RingTheory.RootsOfUnity.Complex
import Mathlib.Tactic.FieldSimp
import Mathlib.Tactic.Ring

/-! # The FFT correlation is the direct one -/

namespace Verif

open Finset

theorem le_padLen {N : ℕ} (hN : 1 ≤ N) : 2 * N ≤ padLen N := by
  have h2 : (0 : ℝ) < Real.log 2 := Real.log_pos (by norm_num)
  have hN' : (1 : ℝ) ≤ N := by exact_mod_cast hN
  have hq : 0 ≤ Real.log N / Real.log 2 := div_nonneg (Real.log_nonneg hN') h2.le
  have hc : 0 ≤ ⌈Real.log N / Real.log 2⌉ := Int.ceil_nonneg hq
  obtain ⟨m, hm⟩ := Int.eq_ofNat_of_zero_le hc
  have hle : Real.log N / Real.log 2 ≤ m := by
    have := Int.le_ceil (Real.log N / Real.log 2)
    rw [hm] at this
    exact_mod_cast this
  have : (N : ℝ) ≤ 2 ^ m := by
    rw [div_le_iff₀ h2] at hle
    have h3 : Real.log N ≤ Real.log ((2 : ℝ) ^ m) := by rwa [Real.log_pow]
    exact (Real.log_le_log_iff (by linarith) (by positivity)).1 h3
  have h4 : N ≤ 2 ^ m := by exact_mod_cast this
  unfold padLen
  rw [hm, show ((m : ℤ) + 1).toNat = m + 1 by omega, pow_succ]
  omega

/-- Orthogonality of the characters of the cyclic group. -/
theorem sum_exp {P : ℕ} (hP : 0 < P) (d : ℤ) :
    ∑ k ∈ range P, Complex.exp (2 * Real.pi * Complex.I * k * d / P) = if (P : ℤ) ∣ d then (P : ℂ) else 0 := by
  have hP' : (P : ℂ) ≠ 0 := by exact_mod_cast hP.ne'
  have hroot := Complex.isPrimitiveRoot_exp P hP.ne'
  set ζ := Complex.exp (2 * Real.pi * Complex.I / P) with hζ
  have e : ∀ k : ℕ, Complex.exp (2 * Real.pi * Complex.I * k * d / P) = (ζ ^ d) ^ k := by
    intro k
    rw [hζ, ← Complex.exp_int_mul, ← Complex.exp_nat_mul]
    congr 1
    field_simp
  simp only [e]
  split_ifs with hd
  · rw [(hroot.zpow_eq_one_iff_dvd d).2 hd]
    simp
  · have hne : ζ ^ d ≠ 1 := fun h => hd ((hroot.zpow_eq_one_iff_dvd d).1 h)
    rw [geom_sum_eq hne, ← zpow_natCast, ← zpow_mul, mul_comm, zpow_mul, zpow_natCast, hroot.pow_eq_one]
    simp

theorem ifft_corr {N P : ℕ} (hN : 1 ≤ N) (hP : 2 * N ≤ P) (a b : ℕ → ℝ) {n : ℕ} (hn : n < N) :
    ifft P (fun k => (starRingEnd ℂ) (fft N P a k) * fft N P b k) n =
      ((∑ t ∈ range (N - n), a t * b (t + n) : ℝ) : ℂ) := by
  have hP0 : 0 < P := by omega
  have hP' : (P : ℂ) ≠ 0 := by exact_mod_cast hP0.ne'
  set a' : ℕ → ℝ := fun t => if t < N then a t else 0 with ha'
  set b' : ℕ → ℝ := fun t => if t < N then b t else 0 with hb'
  have hconj : ∀ k, (starRingEnd ℂ) (fft N P a k) =
      ∑ t ∈ range P, (a' t : ℂ) * Complex.exp (2 * Real.pi * Complex.I * k * t / P) := by
    intro k
    unfold fft
    rw [map_sum]
    refine sum_congr rfl fun t _ => ?_
    rw [map_mul, Complex.conj_ofReal, ← Complex.exp_conj]
    congr 2
    simp only [map_neg, map_div₀, map_mul, Complex.conj_ofReal, Complex.conj_I, Complex.conj_ofNat,
      Complex.conj_natCast]
    ring
  unfold ifft
  rw [div_eq_iff hP']
  have hterm : ∀ k, (starRingEnd ℂ) (fft N P a k) * fft N P b k *
      Complex.exp (2 * Real.pi * Complex.I * k * n / P) =
      ∑ t ∈ range P, ∑ s ∈ range P, ((a' t * b' s : ℝ) : ℂ) *
        Complex.exp (2 * Real.pi * Complex.I * k * ((t : ℤ) - s + n : ℤ) / P) := by
    intro k
    rw [hconj]
    unfold fft
    rw [sum_mul_sum, sum_mul]
    refine sum_congr rfl fun t _ => ?_
    rw [sum_mul]
    refine sum_congr rfl fun s _ => ?_
    rw [show Complex.exp (2 * Real.pi * Complex.I * k * ((t : ℤ) - s + n : ℤ) / P) =
      Complex.exp (2 * Real.pi * Complex.I * k * t / P) * Complex.exp (-(2 * Real.pi * Complex.I * k * s / P)) *
        Complex.exp (2 * Real.pi * Complex.I * k * n / P) by
      rw [← Complex.exp_add, ← Complex.exp_add]
      congr 1
      push_cast
      ring]
    push_cast
    ring
  simp only [hterm]
  rw [sum_comm]
  have hswap : ∀ t ∈ range P, ∑ k ∈ range P, ∑ s ∈ range P, ((a' t * b' s : ℝ) : ℂ) *
        Complex.exp (2 * Real.pi * Complex.I * k * ((t : ℤ) - s + n : ℤ) / P) =
      ((a' t * b' (t + n) : ℝ) : ℂ) * P := by
    intro t ht
    rw [sum_comm]
    have : ∀ s ∈ range P, ∑ k ∈ range P, ((a' t * b' s : ℝ) : ℂ) *
        Complex.exp (2 * Real.pi * Complex.I * k * ((t : ℤ) - s + n : ℤ) / P) =
        if s = t + n then ((a' t * b' (t + n) : ℝ) : ℂ) * P else 0 := by
      intro s hs
      rw [← mul_sum, sum_exp hP0]
      have ht' := mem_range.1 ht
      have hs' := mem_range.1 hs
      by_cases h1 : s = t + n
      · subst h1
        rw [if_pos (by push_cast; simp), if_pos rfl]
      · rw [if_neg h1]
        by_cases h2 : (P : ℤ) ∣ (t : ℤ) - s + n
        · -- wrap-around: one of the two padded values vanishes
          by_cases h3 : t < N
          · by_cases h4 : s < N
            · exfalso
              obtain ⟨c, hc⟩ := h2
              have hc0 : c ≠ 0 := by
                rintro rfl
                apply h1
                have : (s : ℤ) = t + n := by linarith
                exact_mod_cast this
              have hlt : (t : ℤ) - s + n < P := by omega
              have hgt : -(P : ℤ) < (t : ℤ) - s + n := by omega
              rw [hc] at hlt hgt
              rcases lt_or_gt_of_ne hc0 with h | h
              · nlinarith
              · nlinarith
            · simp [hb', h4]
          · simp [ha', h3]
        · rw [if_neg h2, mul_zero]
    rw [sum_congr rfl this, sum_ite_eq']
    split_ifs with hmem
    · rfl
    · have : ¬ t + n < N := fun h => hmem (mem_range.2 (by omega))
      simp [hb', this]
  rw [sum_congr rfl hswap, ← sum_mul]
  congr 1
  rw [← Complex.ofReal_sum]
  congr 1
  rw [← sum_subset (s₁ := range (N - n)) (fun t ht => mem_range.2 (by have := mem_range.1 ht; omega))]
  · refine sum_congr rfl fun t ht => ?_
    have := mem_range.1 ht
    simp only [ha', hb', if_pos (show t < N by omega), if_pos (show t + n < N by omega)]
  · intro t _ ht
    have : ¬ t < N - n := fun h => ht (mem_range.2 h)
    have : ¬ t + n < N := by omega
    simp [hb', this]

theorem dotShift_eq {K : Type*} [Field K] (N : ℕ) (a b : ℕ → K) (n : ℕ) :
    dotShift N a b n = ∑ t ∈ range (N - n), a t * b (t + n) := by
  unfold dotShift
  exact sum_congr rfl fun t _ => by rw [add_comm]

end Verif
