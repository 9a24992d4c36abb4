import Verif.Props.RoundingTrapz
import Verif.Model.RoundingCorr
import Verif.Props.Correlation

/-!
# Rounding errors of the correlations (C189)
-/

namespace Verif

open Finset

section
variable {u : ℝ}

theorem fl_pow (hu : 0 ≤ u) {x y S x' : ℝ} {d : ℕ} (h : Fl u x y) (hx : |x - x'| ≤ ((1 + u) ^ d - 1) * S) (hS : |x'| ≤ S) :
    |y - x'| ≤ ((1 + u) ^ (d + 1) - 1) * S := by
  have h1 : |y - x'| ≤ |y - x| + |x - x'| := abs_sub_le _ _ _
  have h2 : |x| ≤ (1 + u) ^ d * S := by
    have := abs_add_le (x - x') x'
    rw [sub_add_cancel] at this
    linarith
  have h3 : u * |x| ≤ u * ((1 + u) ^ d * S) := mul_le_mul_of_nonneg_left h2 hu
  have h4 : |y - x| ≤ u * |x| := h
  rw [pow_succ]
  linarith

theorem sum_error (hu : 0 ≤ u) {d : ℕ} {s : Multiset ℝ} {y : ℝ} (h : Rounded.Sum u d s y) :
    |y - s.sum| ≤ ((1 + u) ^ d - 1) * (s.map abs).sum ∧ |s.sum| ≤ (s.map abs).sum := by
  induction h with
  | zero d => simp
  | single d x =>
    have := one_le_pow₀ (show 1 ≤ 1 + u by linarith) (n := d)
    simp only [Multiset.sum_singleton, sub_self, abs_zero, Multiset.map_singleton, le_refl, and_true]
    exact mul_nonneg (by linarith) (abs_nonneg _)
  | @add d s t x y z hs ht h ih1 ih2 =>
    rw [Multiset.sum_add, Multiset.map_add, Multiset.sum_add]
    have e : |s.sum + t.sum| ≤ (s.map abs).sum + (t.map abs).sum := (abs_add_le _ _).trans (add_le_add ih1.2 ih2.2)
    refine ⟨fl_pow hu h ?_ e, e⟩
    rw [add_sub_add_comm, mul_add]
    exact (abs_add_le _ _).trans (add_le_add ih1.1 ih2.1)

theorem dot_error (hu : 0 ≤ u) {d n : ℕ} {a b : ℕ → ℝ} {y : ℝ} (h : Rounded.dot u d n a b y) :
    |y - ∑ i ∈ range n, a i * b i| ≤ ((1 + u) ^ (d + 1) - 1) * ∑ i ∈ range n, |a i * b i| := by
  obtain ⟨p, hp, hs⟩ := h
  have h1 := (sum_error hu hs).1
  rw [Multiset.map_map] at h1
  have e1 : ((Multiset.range n).map p).sum = ∑ i ∈ range n, p i := rfl
  have e2 : ((Multiset.range n).map (abs ∘ p)).sum = ∑ i ∈ range n, |p i| := rfl
  rw [e1, e2] at h1
  have g := one_le_pow₀ (show 1 ≤ 1 + u by linarith) (n := d)
  have h2 : |∑ i ∈ range n, p i - ∑ i ∈ range n, a i * b i| ≤ u * ∑ i ∈ range n, |a i * b i| := by
    rw [← sum_sub_distrib, mul_sum]
    exact (abs_sum_le_sum_abs _ _).trans (sum_le_sum fun i hi => hp i (mem_range.1 hi))
  have h3 : ∑ i ∈ range n, |p i| ≤ (1 + u) * ∑ i ∈ range n, |a i * b i| := by
    rw [mul_sum]
    refine sum_le_sum fun i hi => ?_
    have h4 : |p i - a i * b i| ≤ u * |a i * b i| := hp i (mem_range.1 hi)
    have := abs_add_le (p i - a i * b i) (a i * b i)
    rw [sub_add_cancel] at this
    linarith
  have h5 := abs_sub_le y (∑ i ∈ range n, p i) (∑ i ∈ range n, a i * b i)
  have h6 := mul_le_mul_of_nonneg_left h3 (show 0 ≤ (1 + u) ^ d - 1 by linarith)
  rw [pow_succ]
  linarith

/-- The value at lag `n`, against the exact one. -/
theorem corr_error (hu : 0 ≤ u) {d N n : ℕ} (hn : n < N) {a b : ℕ → ℝ} {r : ℝ} (h : Rounded.corr u d N a b n r) :
    |r - (∑ t ∈ range (N - n), a t * b (n + t)) / ((N : ℝ) - n)| ≤
      ((1 + u) ^ (d + 2) - 1) * ((∑ t ∈ range (N - n), |a t * b (n + t)|) / ((N : ℝ) - n)) := by
  obtain ⟨y, hy, hr⟩ := h
  have hp : (0 : ℝ) < (N : ℝ) - n := by
    have : (n : ℝ) < N := by exact_mod_cast hn
    linarith
  refine fl_pow hu hr ?_ ?_
  · rw [← sub_div, abs_div, abs_of_pos hp, mul_div_assoc']
    exact div_le_div_of_nonneg_right (dot_error hu hy) hp.le
  · rw [abs_div, abs_of_pos hp]
    exact div_le_div_of_nonneg_right (abs_sum_le_sum_abs _ _) hp.le

theorem corr_error_spec (hu : 0 ≤ u) {d N n : ℕ} (hn : n < N) {a b : ℕ → ℝ} {r : ℝ} (h : Rounded.corr u d N a b n r) :
    |r - Spec.corr N a b n| ≤ ((1 + u) ^ (d + 2) - 1) * Spec.corr N (fun t => |a t|) (fun t => |b t|) n := by
  have := corr_error hu hn h
  rw [cast_sub_eq hn] at this
  simpa only [Spec.corr, abs_mul, add_comm] using this

/-- **C189** Every execution of `correlation_direct_1D` in floating point arithmetic is close to the exact averages. -/
theorem C189_1D (hu : 0 ≤ u) {d N : ℕ} {a : ℕ → ℝ} {b : Option (ℕ → ℝ)} {trunc : Option ℕ} {c r : Arr ℝ}
    (h : correlationDirect1D N a b trunc = .ok c) (h' : Rounded.correlationDirect1D u d N a b trunc r) :
    r.len = c.len ∧ ∀ n < c.len, |r.get n - c.get n| ≤ ((1 + u) ^ (d + 2) - 1) * Spec.corr N (fun t => |a t|) (fun t => |b.getD a t|) n := by
  obtain ⟨h1, h2⟩ := direct1D_spec h
  have hl : r.len = c.len := h'.1.trans h1.symm
  refine ⟨hl, fun n hn => ?_⟩
  rw [h2 n hn]
  exact corr_error_spec hu (by have := lenTrunc_le N trunc; omega) (h'.2 n (hl ▸ hn))

/-- **C189** Every execution of `correlation_direct_ND` in floating point arithmetic is close to the exact averages. -/
theorem C189_ND (hu : 0 ≤ u) {d N p q : ℕ} {a : Fin p → ℕ → ℝ} {b : Fin q → ℕ → ℝ} {trunc : Option ℕ} {c r : Arr (Mat ℝ p q)}
    (h : correlationDirectND N a b trunc = .ok c) (h' : Rounded.correlationDirectND u d N a b trunc r) :
    r.len = c.len ∧ ∀ n < c.len, ∀ i j, |r.get n i j - c.get n i j| ≤
      ((1 + u) ^ (d + 2) - 1) * Spec.corr N (fun t => |a i t|) (fun t => |b j t|) n := by
  obtain ⟨h1, h2⟩ := directND_spec h
  have hl : r.len = c.len := h'.1.trans h1.symm
  refine ⟨hl, fun n hn i j => ?_⟩
  rw [h2 n hn]
  exact corr_error_spec hu (by have := lenTrunc_le N trunc; omega) (h'.2 n (hl ▸ hn) i j)

/-- **C189** For bounded data the error is at most a constant times `(d + 2) u`, whatever the number of points. -/
theorem C189_bounded (hu : 0 ≤ u) {d N : ℕ} (hd : (d + 2) * u ≤ 1) {a : ℕ → ℝ} {b : Option (ℕ → ℝ)} {trunc : Option ℕ} {c r : Arr ℝ}
    (h : correlationDirect1D N a b trunc = .ok c) (h' : Rounded.correlationDirect1D u d N a b trunc r) {A B : ℝ} (hA : ∀ t < N, |a t| ≤ A)
    (hB : ∀ t < N, |b.getD a t| ≤ B) : ∀ n < c.len, |r.get n - c.get n| ≤ 2 * ((d + 2) * u) * (A * B) := by
  intro n hn
  obtain ⟨h1, -⟩ := direct1D_spec h
  have hnN : n < N := by have := lenTrunc_le N trunc; omega
  have A0 : 0 ≤ A := (abs_nonneg _).trans (hA n hnN)
  have e1 : (1 + u) ^ (d + 2) - 1 ≤ 2 * ((d + 2) * u) := by
    have p1 : (1 + u) ^ (d + 2) ≤ Real.exp ((d + 2) * u) := by
      calc (1 + u) ^ (d + 2) ≤ Real.exp u ^ (d + 2) := by
            gcongr
            linarith [Real.add_one_le_exp u]
        _ = _ := by rw [← Real.exp_nat_mul]; push_cast; rfl
    have y0 : 0 ≤ (d + 2) * u := by positivity
    have p2 := Real.abs_exp_sub_one_le (x := (d + 2) * u) (by rwa [abs_of_nonneg y0])
    rw [abs_of_nonneg y0] at p2
    linarith [le_abs_self (Real.exp ((d + 2) * u) - 1)]
  have e2 : Spec.corr N (fun t => |a t|) (fun t => |b.getD a t|) n ≤ A * B := by
    have hp : (0 : ℝ) < ((N - n : ℕ) : ℝ) := by exact_mod_cast Nat.sub_pos_of_lt hnN
    rw [Spec.corr, div_le_iff₀ hp]
    refine (sum_le_card_nsmul _ _ (A * B) fun t ht => ?_).trans (by rw [card_range, nsmul_eq_mul, mul_comm])
    have := mem_range.1 ht
    exact mul_le_mul (hA _ (by omega)) (hB _ (by omega)) (abs_nonneg _) A0
  have e3 : 0 ≤ (1 + u) ^ (d + 2) - 1 := by linarith [one_le_pow₀ (show 1 ≤ 1 + u by linarith) (n := d + 2)]
  refine ((C189_1D hu h h').2 n hn).trans ?_
  have B0 : 0 ≤ B := (abs_nonneg _).trans (hB n hnN)
  exact (mul_le_mul_of_nonneg_left e2 e3).trans (mul_le_mul_of_nonneg_right e1 (by positivity))

theorem sum_exact (hu : 0 ≤ u) (n : ℕ) (p : ℕ → ℝ) : ∀ d, n ≤ d → Rounded.Sum u d ((Multiset.range n).map p) (∑ i ∈ range n, p i) := by
  induction n with
  | zero => intro d _; simpa using Rounded.Sum.zero d
  | succ n ih =>
    intro d hd
    obtain ⟨d, rfl⟩ : ∃ d', d = d' + 1 := ⟨d - 1, by omega⟩
    rw [Multiset.range_succ, Multiset.map_cons, sum_range_succ, ← Multiset.singleton_add, add_comm ({p n} : Multiset ℝ)]
    exact .add (ih d (by omega)) (.single d _) (Fl.refl hu _)

/-- **C189** A calculation without rounding errors, adding the products one after the other, is one of those considered. -/
theorem C189_executions (hu : 0 ≤ u) {d N : ℕ} (hd : N ≤ d) {a : ℕ → ℝ} {b : Option (ℕ → ℝ)} {trunc : Option ℕ} {c : Arr ℝ}
    (h : correlationDirect1D N a b trunc = .ok c) : Rounded.correlationDirect1D u d N a b trunc c := by
  obtain ⟨h1, h2⟩ := direct1D_spec h
  refine ⟨h1, fun n hn => ⟨_, ⟨_, fun i _ => Fl.refl hu _, sum_exact hu _ _ _ (by omega)⟩, ?_⟩⟩
  rw [h2 n hn, cast_sub_eq (by have := lenTrunc_le N trunc; omega)]
  simpa only [Spec.corr, add_comm] using Fl.refl hu _

/-- **C189** The error is not small compared to the correlation itself: a correlation that is zero can become different from zero. -/
theorem C189_cancellation (hu : 0 ≤ u) : ∃ c r : Arr ℝ,
    correlationDirect1D 2 (fun _ => (1 : ℝ)) (some fun t => if t = 0 then 1 else -1) (some 1) = .ok c ∧ c.get 0 = 0 ∧
    Rounded.correlationDirect1D u 2 2 (fun _ => 1) (some fun t => if t = 0 then 1 else -1) (some 1) r ∧ r.get 0 = u / 2 := by
  obtain ⟨c, hc⟩ : ∃ c, correlationDirect1D 2 (fun _ => (1 : ℝ)) (some fun t => if t = 0 then 1 else -1) (some 1) = .ok c := ⟨_, rfl⟩
  obtain ⟨h1, h2⟩ := direct1D_spec hc
  refine ⟨c, ⟨1, fun _ => u / 2⟩, hc, ?_, ⟨rfl, fun n hn => ?_⟩, rfl⟩
  · rw [h2 0 (by rw [h1]; decide)]
    simp [Spec.corr, sum_range_succ]
  · obtain rfl : n = 0 := by simp only at hn; omega
    refine ⟨u, ⟨fun i => if i = 0 then 1 + u else -1, fun i hi => ?_, ?_⟩, ?_⟩
    · obtain rfl | rfl : i = 0 ∨ i = 1 := by omega
      · simp [Fl, abs_of_nonneg hu]
      · simp [Fl, hu]
    · have := sum_exact hu 2 (fun i => if i = 0 then 1 + u else -1) 2 le_rfl
      simpa [sum_range_succ] using this
    · simpa using Fl.refl hu _

example {u : ℝ} (hu : 0 ≤ u) {r : Arr ℝ} (h' : Rounded.correlationDirect1D u 1000 1000 (fun t => (-1) ^ t) none none r) : ∃ c : Arr ℝ,
    correlationDirect1D 1000 (fun t => (-1 : ℝ) ^ t) none none = .ok c ∧ ∀ n < c.len, |r.get n - c.get n| ≤
      ((1 + u) ^ (1000 + 2) - 1) * Spec.corr 1000 (fun t => |(-1 : ℝ) ^ t|) (fun t => |(-1 : ℝ) ^ t|) n := by
  obtain ⟨c, hc⟩ : ∃ c, correlationDirect1D 1000 (fun t => (-1 : ℝ) ^ t) none none = .ok c := by
    simp only [correlationDirect1D, show lenTrunc 1000 none ≠ 0 by decide, if_false]
    exact ⟨_, rfl⟩
  exact ⟨c, hc, (C189_1D hu hc h').2⟩

end

end Verif
