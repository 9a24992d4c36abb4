import Verif.Lemmas.Correlation

/-!
# Characters of the cyclic group, with integer arguments
-/

namespace Verif

open Finset

/-- `exp (2 π i x / M)`. -/
noncomputable def ch (M : ℕ) (x : ℤ) : ℂ := Complex.exp (2 * Real.pi * Complex.I * x / M)

variable {M : ℕ}

theorem ch_add (x y : ℤ) : ch M (x + y) = ch M x * ch M y := by
  rw [ch, ch, ch, ← Complex.exp_add]
  congr 1
  push_cast
  ring

theorem ch_zero : ch M 0 = 1 := by simp [ch]

theorem ch_dvd (hM : 0 < M) {x : ℤ} (h : (M : ℤ) ∣ x) : ch M x = 1 := by
  obtain ⟨y, rfl⟩ := h
  have hM' : (M : ℂ) ≠ 0 := by exact_mod_cast hM.ne'
  rw [ch, Complex.exp_eq_one_iff]
  refine ⟨y, ?_⟩
  push_cast
  field_simp

theorem ch_congr (hM : 0 < M) {x y : ℤ} (h : (M : ℤ) ∣ x - y) : ch M x = ch M y := by
  rw [show x = (x - y) + y by ring, ch_add, ch_dvd hM h, one_mul]

theorem ch_conj (x : ℤ) : (starRingEnd ℂ) (ch M x) = ch M (-x) := by
  rw [ch, ch, ← Complex.exp_conj]
  congr 1
  have h2 : (starRingEnd ℂ) 2 = 2 := Complex.conj_ofNat 2
  simp [Complex.conj_ofReal, h2]

theorem sum_ch (hM : 0 < M) (x : ℤ) : ∑ k ∈ range M, ch M (k * x) = if (M : ℤ) ∣ x then (M : ℂ) else 0 := by
  rw [← sum_exp hM x]
  refine sum_congr rfl fun k _ => ?_
  rw [ch]
  congr 1
  push_cast
  ring

/-- The sum of a periodic function over a period does not change when the sign of its argument does. -/
theorem sum_period_neg (hM : 0 < M) (F : ℤ → ℂ) (hF : ∀ x y, (M : ℤ) ∣ x - y → F x = F y) :
    ∑ k ∈ range M, F (-k) = ∑ k ∈ range M, F k := by
  obtain ⟨m, rfl⟩ : ∃ m, M = m + 1 := ⟨M - 1, by omega⟩
  rw [sum_range_succ', sum_range_succ']
  congr 1
  rw [← sum_range_reflect]
  refine sum_congr rfl fun k hk => hF _ _ ?_
  have := mem_range.1 hk
  refine ⟨-1, ?_⟩
  push_cast [show m - 1 - k + 1 = m - k by omega, Nat.cast_sub this.le]
  ring

end Verif
