import Verif.Model.Ft
import Verif.Lemmas.Correlation
import Mathlib.Tactic.FieldSimp
import Mathlib.Tactic.NormNum

/-!
# The Fourier transforms of gle_integrate.py (C120, C121)
-/

namespace Verif

open Finset

set_option linter.unusedSimpArgs false

/-- The discrete transforms of numpy are inverse to each other. -/
theorem ifft_fftC {n : ℕ} (hn : 0 < n) (f : ℕ → ℂ) {m : ℕ} (hm : m < n) : ifft n (fftC n f) m = f m := by
  have hn' : (n : ℂ) ≠ 0 := by exact_mod_cast hn.ne'
  have e : ∀ k j : ℕ, f j * Complex.exp (-(2 * Real.pi * Complex.I * k * j / n)) * Complex.exp (2 * Real.pi * Complex.I * k * m / n) =
      f j * Complex.exp (2 * Real.pi * Complex.I * k * (((m : ℤ) - j : ℤ) : ℂ) / n) := by
    intro k j
    rw [mul_assoc, ← Complex.exp_add]
    congr 2
    push_cast
    ring
  unfold ifft fftC
  simp only [sum_mul, e]
  rw [sum_comm]
  simp only [← mul_sum, sum_exp hn]
  rw [sum_eq_single m]
  · simp [hn']
  · intro j hj hjm
    rw [if_neg, mul_zero]
    intro hd
    have := mem_range.1 hj
    obtain ⟨c, hc⟩ := hd
    rcases lt_trichotomy c 0 with h | h | h
    · nlinarith
    · subst h; omega
    · nlinarith
  · intro h
    exact absurd (mem_range.2 hm) h

/-- **C120** `ft` is the Riemann sum of the Fourier integral at the frequencies `2π k / (n dt)`, taken modulo `n`. -/
theorem C120_transform {f : NumArr} {t : Arr ℝ} (hn : 1 ≤ f.len) (ht : 2 ≤ t.len) {t0 dt : ℝ} (hdt : dt ≠ 0) (h0 : t.get 0 = t0) (h1 : t.get 1 = t0 + dt) :
    ∃ g w, ft f t = .ok (g, w) ∧ g.len = f.len ∧ w.len = f.len ∧ ∀ k < f.len,
      (∃ c : ℤ, w.get k = 2 * Real.pi * (k + c * f.len) / (f.len * dt)) ∧ |w.get k| * |dt| ≤ Real.pi ∧
      g.get k = ∑ j ∈ range f.len, f.get j * Complex.exp (-(Complex.I * w.get k * (t0 + j * dt : ℝ))) * dt := by
  have hn0 : (f.len : ℝ) ≠ 0 := by exact_mod_cast (show f.len ≠ 0 by omega)
  have hpos : (0 : ℝ) < f.len := by exact_mod_cast hn
  have hnC : (f.len : ℂ) ≠ 0 := by exact_mod_cast hn0
  have hdC : (dt : ℂ) ≠ 0 := by exact_mod_cast hdt
  unfold ft
  rw [if_neg (by omega), if_neg (by omega)]
  refine ⟨_, _, rfl, rfl, rfl, fun k hk => ?_⟩
  have hd : t.get 1 - t.get 0 = dt := by rw [h0, h1]; ring
  simp only [hd]
  simp only [h0]
  have hc : ∃ c : ℤ, fftfreq f.len k = (k + c * f.len) / f.len ∧ |(k + c * f.len : ℝ)| ≤ f.len / 2 := by
    have hk' : (k : ℝ) + 1 ≤ f.len := by exact_mod_cast hk
    unfold fftfreq
    by_cases c : k < (f.len + 1) / 2
    · refine ⟨0, by rw [if_pos c]; simp, ?_⟩
      have : 2 * k ≤ f.len := by omega
      have : (2 : ℝ) * k ≤ f.len := by exact_mod_cast this
      rw [Int.cast_zero, zero_mul, add_zero, abs_of_nonneg (Nat.cast_nonneg k)]
      linarith
    · refine ⟨-1, by rw [if_neg c]; push_cast; ring, ?_⟩
      have : f.len ≤ 2 * k := by omega
      have : (f.len : ℝ) ≤ 2 * k := by exact_mod_cast this
      rw [abs_le]
      push_cast
      constructor <;> linarith
  obtain ⟨c, hc, hb⟩ := hc
  refine ⟨⟨c, by rw [hc]; field_simp⟩, ?_, ?_⟩
  · rw [hc, abs_div, abs_mul, abs_div, abs_of_pos (show (0 : ℝ) < 2 * Real.pi by positivity), Nat.abs_cast,
      div_mul_cancel₀ _ (abs_ne_zero.2 hdt)]
    rw [← mul_div_assoc, div_le_iff₀ hpos]
    nlinarith [Real.pi_pos]
  · unfold fftC
    rw [sum_mul]
    refine sum_congr rfl fun j _ => ?_
    have : Complex.exp (-(2 * Real.pi * Complex.I * k * j / f.len)) =
        Complex.exp (-(Complex.I * ((2 * Real.pi * fftfreq f.len k / dt : ℝ) : ℂ) * (j * dt))) := by
      rw [Complex.exp_eq_exp_iff_exists_int]
      refine ⟨c * j, ?_⟩
      rw [hc]
      push_cast
      field_simp
      ring
    rw [this, mul_assoc (f.get j), mul_assoc (f.get j)]
    congr 1
    rw [mul_comm (dt : ℂ), ← mul_assoc, ← Complex.exp_add]
    congr 2
    push_cast
    ring

theorem ift_ft {f : NumArr} {t : Arr ℝ} (hn : 2 ≤ f.len) (ht : 2 ≤ t.len) (hdt : t.get 1 ≠ t.get 0) :
    ∃ g w f' g', ft f t = .ok (g, w) ∧ ift (.complex g) w t = .ok (f', g') ∧ f'.len = f.len ∧ ∀ j < f.len,
      f'.get j = f.get j * ((f.len * (fftfreq f.len 1 - fftfreq f.len 0) : ℝ) : ℂ) := by
  have hd : t.get 1 - t.get 0 ≠ 0 := sub_ne_zero.2 hdt
  have hdC : ((t.get 1 : ℂ) - t.get 0) ≠ 0 := by exact_mod_cast hd
  have hpi : (Real.pi : ℂ) ≠ 0 := by exact_mod_cast Real.pi_ne_zero
  unfold ft
  rw [if_neg (by omega), if_neg (by omega)]
  refine ⟨_, _, ⟨f.len, fun m => ifft f.len (fun k => fftC f.len f.get k * ((t.get 1 - t.get 0 : ℝ) : ℂ)) m *
      (f.len * ((2 * Real.pi * fftfreq f.len 1 / (t.get 1 - t.get 0) - 2 * Real.pi * fftfreq f.len 0 / (t.get 1 - t.get 0) : ℝ) : ℂ) / (2 * Real.pi))⟩,
    ⟨f.len, fun k => fftC f.len f.get k * ((t.get 1 - t.get 0 : ℝ) : ℂ)⟩, rfl, ?_, rfl, fun j hj => ?_⟩
  · unfold ift
    rw [if_neg (by omega)]
    dsimp only
    rw [if_neg (by simp), if_neg (by omega), if_neg (by omega)]
    have e : ∀ z : ℂ, Complex.exp (-z) * Complex.exp z = 1 := fun z => by rw [← Complex.exp_add]; simp
    simp only [mul_assoc, e, mul_one]
  · dsimp only
    have hi : ifft f.len (fun k => fftC f.len f.get k * ((t.get 1 - t.get 0 : ℝ) : ℂ)) j = f.get j * ((t.get 1 - t.get 0 : ℝ) : ℂ) := by
      rw [← ifft_fftC (show 0 < f.len by omega) f.get hj]
      unfold ifft
      rw [div_mul_eq_mul_div, sum_mul]
      congr 1
      exact sum_congr rfl fun k _ => by ring
    rw [hi]
    push_cast
    field_simp

/-- **C120** `ift` inverts `ft` for three points or more. -/
theorem C120_roundtrip_partial {f : NumArr} {t : Arr ℝ} (hn : 3 ≤ f.len) (ht : 2 ≤ t.len) (hdt : t.get 1 ≠ t.get 0) :
    ∃ g w f' g', ft f t = .ok (g, w) ∧ ift (.complex g) w t = .ok (f', g') ∧ f'.len = f.len ∧ ∀ j < f.len, f'.get j = f.get j := by
  obtain ⟨g, w, f', g', h1, h2, h3, h4⟩ := ift_ft (show 2 ≤ f.len by omega) ht hdt
  refine ⟨g, w, f', g', h1, h2, h3, fun j hj => ?_⟩
  have : (f.len : ℝ) ≠ 0 := by exact_mod_cast (show f.len ≠ 0 by omega)
  have e : (f.len * (fftfreq f.len 1 - fftfreq f.len 0) : ℝ) = 1 := by
    rw [fftfreq, fftfreq, if_pos (by omega), if_pos (by omega)]
    push_cast
    field_simp
    ring
  rw [h4 j hj, e]
  simp

/-- C120 is false for two points, where the second frequency is negative: the result has the wrong sign. -/
theorem C120_two_points_fails {f : NumArr} {t : Arr ℝ} (hn : f.len = 2) (ht : 2 ≤ t.len) (hdt : t.get 1 ≠ t.get 0) :
    ∃ g w f' g', ft f t = .ok (g, w) ∧ ift (.complex g) w t = .ok (f', g') ∧ f'.len = f.len ∧ ∀ j < f.len, f'.get j = -f.get j := by
  obtain ⟨g, w, f', g', h1, h2, h3, h4⟩ := ift_ft (show 2 ≤ f.len by omega) ht hdt
  refine ⟨g, w, f', g', h1, h2, h3, fun j hj => ?_⟩
  have e : (f.len * (fftfreq f.len 1 - fftfreq f.len 0) : ℝ) = -1 := by
    rw [hn, fftfreq, fftfreq, if_neg (by decide), if_pos (by decide)]
    norm_num
  rw [h4 j hj, e]
  simp

/-- C120 is false for one point: `ift` raises. -/
theorem C120_one_point_fails {f : NumArr} {t : Arr ℝ} (hn : f.len = 1) (ht : 2 ≤ t.len) :
    ∃ g w, ft f t = .ok (g, w) ∧ ift (.complex g) w t = .error .index := by
  unfold ft
  rw [if_neg (by omega), if_neg (by omega)]
  refine ⟨_, _, rfl, ?_⟩
  unfold ift
  rw [if_neg (by omega)]
  dsimp only
  rw [if_neg (by simp), if_neg (by omega), if_pos (by omega)]

/-- C120: `ift` changes its argument, unless the times start at zero. -/
theorem C120_in_place {f f' g' : Arr ℂ} {w t : Arr ℝ} (h : ift (.complex f) w t = .ok (f', g')) :
    g'.len = f.len ∧ (t.get 0 = 0 → ∀ k, g'.get k = f.get k) ∧
    ∀ k, f.get k ≠ 0 → (g'.get k = f.get k ↔ ∃ c : ℤ, w.get k * t.get 0 = 2 * Real.pi * c) := by
  unfold ift at h
  dsimp only at h
  split_ifs at h
  cases h
  refine ⟨rfl, fun h0 k => by simp [h0], fun k hk => ?_⟩
  dsimp only
  rw [mul_eq_left₀ hk, Complex.exp_eq_one_iff]
  refine exists_congr fun c => ?_
  have hI := Complex.I_ne_zero
  constructor
  · intro e
    have e : Complex.I * ((w.get k * t.get 0 : ℝ) : ℂ) = Complex.I * ((2 * Real.pi * c : ℝ) : ℂ) := by
      push_cast
      linear_combination e
    exact_mod_cast mul_left_cancel₀ hI e
  · intro e
    have e : ((w.get k * t.get 0 : ℝ) : ℂ) = ((2 * Real.pi * c : ℝ) : ℂ) := by rw [e]
    push_cast at e
    linear_combination Complex.I * e

/-- C121 is false: whatever the kernel and the position, `PosColoredNoiseGenerator.generate` raises `TypeError`, because
`ift` multiplies a real array by complex numbers in place. -/
theorem C121_generate_fails {nK dim : ℕ} (G : PosNoise nK dim) (hd : 1 ≤ dim) (ht : G.tSym.len ≠ 0) {l : ℕ} (hl : 1 ≤ l) (E : ℕ → ℕ → ℝ) :
    posNoiseFilters G nK l E = .error .type := by
  obtain ⟨d, rfl⟩ : ∃ d, dim = d + 1 := ⟨dim - 1, by omega⟩
  unfold posNoiseFilters
  rw [if_neg (by simp), List.finRange_succ]
  simp only [List.mapM_cons, bind, Except.bind]
  rw [if_neg (by simp; omega)]
  unfold ift
  rw [if_neg ht]

/-- C121: values of another number of functions than those of the kernel are a `ValueError`. -/
theorem C121_mismatch {nK dim : ℕ} (G : PosNoise nK dim) {k : ℕ} (hk : k ≠ nK) (l : ℕ) (E : ℕ → ℕ → ℝ) :
    posNoiseFilters G k l E = .error .value := by
  unfold posNoiseFilters
  rw [if_pos hk]

/-- C121: the construction succeeds, and what is stored is the real part of the transform of the kernel. -/
theorem C121_constructed {nK dim : ℕ} (hk : 1 ≤ nK) (hd : 1 ≤ dim) {t : Arr ℝ} (ht : 2 ≤ t.len) (kernel : ℕ → Fin nK → Fin dim → ℝ) :
    ∃ G, posNoiseInit t t.len kernel = .ok G ∧ G.tSym.len = 2 * t.len - 1 ∧
      ∀ k d, ∃ g w, ft (.real ⟨2 * t.len - 1, symmetrise 1 t.len fun i => kernel i k d⟩) G.tSym = .ok (g, w) ∧
        G.w.len = w.len ∧ (∀ i, G.w.get i = w.get i) ∧ (G.kernelFt k d).len = g.len ∧ ∀ i, (G.kernelFt k d).get i = (g.get i).re := by
  unfold posNoiseInit
  rw [if_neg (by omega), if_neg (by omega), if_neg (by omega), if_neg (by simp)]
  refine ⟨_, rfl, rfl, fun k d => ?_⟩
  have e : ∀ a : Arr ℝ, a.len ≠ 0 → ∀ s : Arr ℝ, 2 ≤ s.len → ∃ g, ft (.real a) s = .ok g := by
    intro a ha s hs
    unfold ft
    rw [if_neg (by simpa [NumArr.len] using ha), if_neg (by omega)]
    exact ⟨_, rfl⟩
  obtain ⟨⟨g, w⟩, h⟩ := e ⟨2 * t.len - 1, symmetrise 1 t.len fun i => kernel i k d⟩ (by dsimp only; omega) ⟨2 * t.len - 1, symmetrise (-1) t.len t.get⟩
    (by dsimp only; omega)
  refine ⟨g, w, h, ?_⟩
  dsimp only
  rw [h]
  unfold ft at h
  split_ifs at h
  cases h
  exact ⟨rfl, fun _ => rfl, rfl, fun _ => rfl⟩

example := C120_transform (f := .real ⟨4, fun i => i⟩) (t := ⟨4, fun i => 1 + i * (1 / 2)⟩) (t0 := 1) (dt := 1 / 2) (by decide) (by decide) (by norm_num)
  (by simp) (by norm_num)
example := C120_roundtrip_partial (f := .real ⟨4, fun i => i⟩) (t := ⟨4, fun i => 1 + i⟩) (by decide) (by decide) (by norm_num)
example := C120_two_points_fails (f := .real ⟨2, fun i => i⟩) (t := ⟨4, fun i => 1 + i⟩) (by decide) (by decide) (by norm_num)
example := C120_one_point_fails (f := .real ⟨1, fun i => i⟩) (t := ⟨4, fun i => 1 + i⟩) (by decide) (by decide)
example := C120_in_place (ift_ft (f := .real ⟨4, fun i => i⟩) (t := ⟨4, fun i => 1 + i⟩) (by decide) (by decide) (by norm_num)).choose_spec.choose_spec.choose_spec.choose_spec.2.1
example := C121_generate_fails (C121_constructed (nK := 1) (dim := 1) le_rfl le_rfl (t := ⟨2, fun i => i⟩) le_rfl fun _ _ _ => 1).choose le_rfl
  (by rw [(C121_constructed (nK := 1) (dim := 1) le_rfl le_rfl (t := ⟨2, fun i => i⟩) le_rfl fun _ _ _ => 1).choose_spec.2.1]; decide) (l := 1) le_rfl fun _ _ => 1

end Verif
