import Verif.Model.Asymptotic
import Mathlib.MeasureTheory.Integral.IntervalIntegral.Basic
import Mathlib.Analysis.SpecialFunctions.Integrals.Basic

/-!
# The long-time limit of the integral of the kernel (C137)
-/

namespace Verif

open Finset

/-- The list `p` of two numbers makes the sum of the squares of `p₀ + p₁ / t - y` as small as possible. -/
def Spec.BestAsymptote (n : ℕ) (t y : ℕ → ℝ) (p : List ℝ) : Prop :=
  ∃ a b : ℝ, p = [a, b] ∧ ∀ a' b' : ℝ, ∑ i ∈ range n, (a + b / t i - y i) ^ 2 ≤ ∑ i ∈ range n, (a' + b' / t i - y i) ^ 2

/-- Among the lists of `l` parameters, `p` makes the sum of the squares of `f p t - y` as small as possible. -/
def Spec.LeastSquares (f : FitFun) (n : ℕ) (t y : ℕ → ℝ) (l : ℕ) (p : List ℝ) : Prop :=
  p.length = l ∧ ∃ v : ℕ → ℝ, (∀ i < n, f p (t i) = .ok (v i)) ∧ ∀ (q : List ℝ) (w : ℕ → ℝ), q.length = l → (∀ i < n, f q (t i) = .ok (w i)) →
    ∑ i ∈ range n, (v i - y i) ^ 2 ≤ ∑ i ∈ range n, (w i - y i) ^ 2

/-- The contract of `scipy.optimize.curve_fit` for a function that is linear in its parameters: if it returns, it
returns the parameters of the least squares. -/
def Fitters.SolvesAsymptotic (F : Fitters) : Prop := ∀ (t y : Arr ℝ) (p0 p : List ℝ),
  F.curveFit asymptoticFct t y p0 = .ok p → Spec.LeastSquares asymptoticFct t.len t.get y.get p0.length p

/-- What is fitted is `a + b / t`. -/
theorem leastSquares_asymptotic {n : ℕ} {t y : ℕ → ℝ} {p : List ℝ} (h : Spec.LeastSquares asymptoticFct n t y 2 p) : Spec.BestAsymptote n t y p := by
  obtain ⟨hl, v, hv, hq⟩ := h
  obtain ⟨a, b, rfl⟩ := List.length_eq_two.1 hl
  refine ⟨a, b, rfl, fun a' b' => ?_⟩
  have := hq [a', b'] (fun i => a' + b' / t i) rfl fun i _ => rfl
  refine le_trans (le_of_eq (sum_congr rfl fun i hi => ?_)) this
  have e : (Except.ok (a + b / t i) : Except Err ℝ) = .ok (v i) := hv i (mem_range.1 hi)
  injection e with e
  rw [e]

theorem leastSquares_of_exact {n : ℕ} {t y : ℕ → ℝ} {a b : ℝ} (h : ∀ i < n, y i = a + b / t i) : Spec.LeastSquares asymptoticFct n t y 2 [a, b] := by
  refine ⟨rfl, fun i => a + b / t i, fun i _ => rfl, fun q w _ _ => ?_⟩
  rw [sum_eq_zero fun i hi => by beta_reduce; rw [h i (mem_range.1 hi), sub_self, zero_pow two_ne_zero]]
  exact sum_nonneg fun i _ => sq_nonneg _

/-- The normal equations. -/
theorem normal_eq {n : ℕ} {r v : ℕ → ℝ} (h : ∀ s : ℝ, ∑ i ∈ range n, r i ^ 2 ≤ ∑ i ∈ range n, (r i + s * v i) ^ 2) :
    ∑ i ∈ range n, r i * v i = 0 := by
  obtain ⟨P, hP⟩ : ∃ P : ℝ, P = ∑ i ∈ range n, r i * v i := ⟨_, rfl⟩
  obtain ⟨Q, hQ⟩ : ∃ Q : ℝ, Q = ∑ i ∈ range n, v i ^ 2 := ⟨_, rfl⟩
  have e : ∀ s : ℝ, 0 ≤ 2 * s * P + s ^ 2 * Q := by
    intro s
    have := h s
    have e2 : ∑ i ∈ range n, (r i + s * v i) ^ 2 = ∑ i ∈ range n, r i ^ 2 + (2 * s * P + s ^ 2 * Q) := by
      rw [hP, hQ, mul_sum, mul_sum, ← sum_add_distrib, ← sum_add_distrib]
      exact sum_congr rfl fun i _ => by ring
    linarith
  have hQ0 : 0 ≤ Q := by rw [hQ]; exact sum_nonneg fun i _ => sq_nonneg _
  rw [← hP]
  by_contra hne
  have h1 := e (-P / (Q + 1))
  have hq : 0 < Q + 1 := by linarith
  have : 2 * (-P / (Q + 1)) * P + (-P / (Q + 1)) ^ 2 * Q = -(P ^ 2 * (Q + 2)) / (Q + 1) ^ 2 := by
    field_simp
    ring
  rw [this] at h1
  have hp : 0 < P ^ 2 := by positivity
  have : -(P ^ 2 * (Q + 2)) / (Q + 1) ^ 2 < 0 := by
    apply div_neg_of_neg_of_pos
    · have : 0 < P ^ 2 * (Q + 2) := by positivity
      linarith
    · positivity
  linarith

theorem asymptote_normal {n : ℕ} {t y : ℕ → ℝ} {a b : ℝ}
    (h : ∀ a' b' : ℝ, ∑ i ∈ range n, (a + b / t i - y i) ^ 2 ≤ ∑ i ∈ range n, (a' + b' / t i - y i) ^ 2) :
    ∑ i ∈ range n, (a + b / t i - y i) = 0 ∧ ∑ i ∈ range n, (a + b / t i - y i) * (1 / t i) = 0 := by
  constructor
  · have := normal_eq (n := n) (r := fun i => a + b / t i - y i) (v := fun _ => 1) fun s => by
      refine (h (a + s) b).trans_eq (sum_congr rfl fun i _ => by ring)
    simpa using this
  · exact normal_eq (n := n) (r := fun i => a + b / t i - y i) (v := fun i => 1 / t i) fun s => by
      refine (h a (b + s)).trans_eq (sum_congr rfl fun i _ => by ring)

/-- The solution of the normal equations, for values `q` of which a constant has been subtracted. -/
theorem asymptote_solution {n : ℕ} {x q : ℕ → ℝ} {a b : ℝ} (h1 : ∑ i ∈ range n, (a + b * x i - q i) = 0)
    (h2 : ∑ i ∈ range n, (a + b * x i - q i) * x i = 0) :
    a * (∑ i ∈ range n, ∑ j ∈ range n, (x i - x j) ^ 2) = 2 * ∑ i ∈ range n, ∑ j ∈ range n, q i * (x j * (x j - x i)) := by
  obtain ⟨S0, hS0⟩ : ∃ S : ℝ, S = ∑ i ∈ range n, (1 : ℝ) := ⟨_, rfl⟩
  obtain ⟨S1, hS1⟩ : ∃ S : ℝ, S = ∑ i ∈ range n, x i := ⟨_, rfl⟩
  obtain ⟨S2, hS2⟩ : ∃ S : ℝ, S = ∑ i ∈ range n, x i ^ 2 := ⟨_, rfl⟩
  obtain ⟨Q0, hQ0⟩ : ∃ S : ℝ, S = ∑ i ∈ range n, q i := ⟨_, rfl⟩
  obtain ⟨Q1, hQ1⟩ : ∃ S : ℝ, S = ∑ i ∈ range n, q i * x i := ⟨_, rfl⟩
  have e1 : a * S0 + b * S1 = Q0 := by
    rw [hS0, hS1, hQ0, mul_sum, mul_sum, ← sum_add_distrib, ← sub_eq_zero, ← sum_sub_distrib, ← h1]
    exact sum_congr rfl fun i _ => by ring
  have e2 : a * S1 + b * S2 = Q1 := by
    rw [hS1, hS2, hQ1, mul_sum, mul_sum, ← sum_add_distrib, ← sub_eq_zero, ← sum_sub_distrib, ← h2]
    exact sum_congr rfl fun i _ => by ring
  have e3 : ∑ i ∈ range n, ∑ j ∈ range n, (x i - x j) ^ 2 = 2 * (S0 * S2 - S1 * S1) := by
    rw [hS0, hS1, hS2, sum_mul_sum, sum_mul_sum, ← sum_sub_distrib, mul_sum]
    have : ∑ i ∈ range n, ∑ j ∈ range n, (x i - x j) ^ 2 =
        ∑ i ∈ range n, ∑ j ∈ range n, (1 * x j ^ 2 - x i * x j) + ∑ i ∈ range n, ∑ j ∈ range n, (1 * x i ^ 2 - x j * x i) := by
      rw [← sum_add_distrib]
      refine sum_congr rfl fun i _ => ?_
      rw [← sum_add_distrib]
      exact sum_congr rfl fun j _ => by ring
    rw [this, sum_comm (f := fun i j => 1 * x i ^ 2 - x j * x i), ← two_mul, mul_sum]
    refine sum_congr rfl fun i _ => ?_
    rw [← sum_sub_distrib]
  have e4 : ∑ i ∈ range n, ∑ j ∈ range n, q i * (x j * (x j - x i)) = Q0 * S2 - Q1 * S1 := by
    rw [hQ0, hS2, hQ1, hS1, sum_mul_sum, sum_mul_sum, ← sum_sub_distrib]
    refine sum_congr rfl fun i _ => ?_
    rw [← sum_sub_distrib]
    exact sum_congr rfl fun j _ => by ring
  rw [e3, e4, ← e1, ← e2]
  ring

theorem sum_abs_diff (N : ℕ) : ∑ i ∈ range N, ∑ j ∈ range N, |(i : ℝ) - j| = N * (N ^ 2 - 1) / 3 := by
  induction N with
  | zero => simp
  | succ N ih =>
    have e : ∑ i ∈ range N, |(i : ℝ) - N| = N * (N + 1) / 2 := by
      have : ∀ i ∈ range N, |(i : ℝ) - N| = N - i := by
        intro i hi
        have : (i : ℝ) ≤ N := by exact_mod_cast (mem_range.1 hi).le
        rw [abs_of_nonpos (by linarith)]; ring
      rw [sum_congr rfl this, sum_sub_distrib]
      have : ∑ i ∈ range N, (i : ℝ) = N * (N - 1) / 2 := by
        clear ih this
        induction N with
        | zero => simp
        | succ N ih => rw [sum_range_succ, ih]; push_cast; ring
      rw [this]; simp; ring
    have e' : ∑ j ∈ range N, |(N : ℝ) - j| = N * (N + 1) / 2 := by
      rw [← e]; exact sum_congr rfl fun j _ => abs_sub_comm _ _
    simp only [sum_range_succ, sum_add_distrib, ih, e, e', sub_self, abs_zero]
    push_cast
    ring

theorem sum_sq_diff (N : ℕ) : ∑ i ∈ range N, ∑ j ∈ range N, ((i : ℝ) - j) ^ 2 = N ^ 2 * (N ^ 2 - 1) / 6 := by
  induction N with
  | zero => simp
  | succ N ih =>
    have e : ∑ i ∈ range N, ((i : ℝ) - N) ^ 2 = N * (N + 1) * (2 * N + 1) / 6 := by
      clear ih
      have h1 : ∑ i ∈ range N, (i : ℝ) = N * (N - 1) / 2 := by
        induction N with
        | zero => simp
        | succ N ih => rw [sum_range_succ, ih]; push_cast; ring
      have h2 : ∑ i ∈ range N, (i : ℝ) ^ 2 = N * (N - 1) * (2 * N - 1) / 6 := by
        clear h1
        induction N with
        | zero => simp
        | succ N ih => rw [sum_range_succ, ih]; push_cast; ring
      have : ∑ i ∈ range N, ((i : ℝ) - N) ^ 2 = ∑ i ∈ range N, (i : ℝ) ^ 2 - 2 * N * ∑ i ∈ range N, (i : ℝ) + ∑ i ∈ range N, (N : ℝ) ^ 2 := by
        rw [mul_sum, ← sum_sub_distrib, ← sum_add_distrib]
        exact sum_congr rfl fun i _ => by ring
      rw [this, h1, h2]; simp; ring
    have e' : ∑ j ∈ range N, ((N : ℝ) - j) ^ 2 = N * (N + 1) * (2 * N + 1) / 6 := by
      rw [← e]; exact sum_congr rfl fun j _ => by ring
    simp only [sum_range_succ, sum_add_distrib, ih, e, e', sub_self]
    push_cast
    ring

/-- The constant term of the fit on `N` points that lie in the second half of the times. -/
theorem asymptote_bound {N h : ℕ} {dt a b eps : ℝ} {q : ℕ → ℝ} (hN : 2 ≤ N) (hdt : 0 < dt) (hh : 1 ≤ h) (hlen : N ≤ h + 1) (hlen2 : h ≤ N)
    (hq : ∀ i, i < N → |q i| ≤ eps)
    (h1 : ∑ i ∈ range N, (a + b / ((h + i : ℕ) * dt) - q i) = 0)
    (h2 : ∑ i ∈ range N, (a + b / ((h + i : ℕ) * dt) - q i) * (1 / ((h + i : ℕ) * dt)) = 0) : |a| ≤ 512 * eps := by
  obtain ⟨x, hx⟩ : ∃ x : ℕ → ℝ, x = fun i => (N : ℝ) / (h + i : ℕ) := ⟨_, rfl⟩
  have hN0 : (0 : ℝ) < N := by exact_mod_cast (by omega : 0 < N)
  have hpos : ∀ i : ℕ, (0 : ℝ) < (h + i : ℕ) := fun i => by exact_mod_cast (by omega : 0 < h + i)
  have hsol := asymptote_solution (n := N) (x := x) (q := q) (a := a) (b := b / (N * dt))
    (by rw [← h1]
        refine sum_congr rfl fun i _ => ?_
        rw [hx]; have := (hpos i).ne'; field_simp)
    (by
      have : (N * dt) * ∑ i ∈ range N, (a + b / ((h + i : ℕ) * dt) - q i) * (1 / ((h + i : ℕ) * dt)) = 0 := by rw [h2, mul_zero]
      rw [← this, mul_sum]
      refine sum_congr rfl fun i _ => ?_
      rw [hx]; have := (hpos i).ne'; field_simp)
  have hxd : ∀ i j, x i - x j = N * ((j : ℝ) - i) / ((h + i : ℕ) * (h + j : ℕ)) := by
    intro i j
    rw [hx]
    have hi := (hpos i).ne'
    have hj := (hpos j).ne'
    simp only
    rw [div_sub_div _ _ hi hj]
    push_cast
    ring
  have heps : 0 ≤ eps := (abs_nonneg _).trans (hq 0 (by omega))
  have hhN : (h : ℝ) ≤ N := by exact_mod_cast hlen2
  have hNh : (N : ℝ) ≤ h + 1 := by exact_mod_cast hlen
  have hN2 : (2 : ℝ) ≤ N := by exact_mod_cast hN
  have hh1 : (1 : ℝ) ≤ h := by exact_mod_cast hh
  -- lower bound of the squares
  have lower : ∀ i ∈ range N, ∀ j ∈ range N, ((i : ℝ) - j) ^ 2 / (16 * N ^ 2) ≤ (x i - x j) ^ 2 := by
    intro i hi j hj
    have hi' : (i : ℝ) + 1 ≤ N := by exact_mod_cast mem_range.1 hi
    have hj' : (j : ℝ) + 1 ≤ N := by exact_mod_cast mem_range.1 hj
    rw [hxd, div_pow, mul_pow, show ((j : ℝ) - i) ^ 2 = ((i : ℝ) - j) ^ 2 by ring, div_le_div_iff₀ (by positivity) (by have := hpos i; have := hpos j; positivity)]
    have b1 : ((h + i : ℕ) : ℝ) ≤ 2 * N := by push_cast; linarith
    have b2 : ((h + j : ℕ) : ℝ) ≤ 2 * N := by push_cast; linarith
    have b3 : (((h + i : ℕ) : ℝ) * (h + j : ℕ)) ^ 2 ≤ (2 * N * (2 * N)) ^ 2 :=
      pow_le_pow_left₀ (by have := hpos i; have := hpos j; positivity) (mul_le_mul b1 b2 (hpos j).le (by positivity)) 2
    calc ((i : ℝ) - j) ^ 2 * (((h + i : ℕ) : ℝ) * (h + j : ℕ)) ^ 2 ≤ ((i : ℝ) - j) ^ 2 * (2 * N * (2 * N)) ^ 2 :=
          mul_le_mul_of_nonneg_left b3 (sq_nonneg _)
      _ = N ^ 2 * ((i : ℝ) - j) ^ 2 * (16 * N ^ 2) := by ring
  have upper : ∀ i ∈ range N, ∀ j ∈ range N, |q i * (x j * (x j - x i))| ≤ eps * (8 / N * |(i : ℝ) - j|) := by
    intro i hi j _
    have c1 : (h : ℝ) ≤ (h + i : ℕ) := by push_cast; linarith [(Nat.cast_nonneg i : (0 : ℝ) ≤ i)]
    have c2 : (h : ℝ) ≤ (h + j : ℕ) := by push_cast; linarith [(Nat.cast_nonneg j : (0 : ℝ) ≤ j)]
    have hN2h : (N : ℝ) ≤ 2 * h := by linarith
    have b1 : x j ≤ 2 := by
      rw [hx]; simp only
      rw [div_le_iff₀ (hpos j)]; linarith
    have b0 : 0 ≤ x j := by rw [hx]; exact div_nonneg hN0.le (hpos j).le
    have b2 : |x j - x i| ≤ 4 / N * |(i : ℝ) - j| := by
      rw [hxd, abs_div, abs_mul, abs_of_pos hN0, abs_of_pos (mul_pos (hpos j) (hpos i)), div_le_iff₀ (mul_pos (hpos j) (hpos i))]
      have b3 : (N : ℝ) ^ 2 ≤ 4 * (((h + j : ℕ) : ℝ) * (h + i : ℕ)) := by
        calc (N : ℝ) ^ 2 ≤ (2 * h) ^ 2 := pow_le_pow_left₀ hN0.le hN2h 2
          _ = 4 * (h * h) := by ring
          _ ≤ _ := mul_le_mul_of_nonneg_left (mul_le_mul c2 c1 (by linarith) (hpos j).le) (by norm_num)
      calc N * |(i : ℝ) - j| = (1 / N) * |(i : ℝ) - j| * N ^ 2 := by field_simp
        _ ≤ (1 / N) * |(i : ℝ) - j| * (4 * (((h + j : ℕ) : ℝ) * (h + i : ℕ))) := mul_le_mul_of_nonneg_left b3 (by positivity)
        _ = _ := by ring
    rw [abs_mul, abs_mul, abs_of_nonneg b0]
    refine mul_le_mul (hq i (mem_range.1 hi)) ?_ (by positivity) heps
    calc x j * |x j - x i| ≤ 2 * (4 / N * |(i : ℝ) - j|) := mul_le_mul b1 b2 (abs_nonneg _) (by norm_num)
      _ = _ := by ring
  have S1 : ∑ i ∈ range N, ∑ j ∈ range N, ((i : ℝ) - j) ^ 2 / (16 * N ^ 2) ≤ ∑ i ∈ range N, ∑ j ∈ range N, (x i - x j) ^ 2 :=
    sum_le_sum fun i hi => sum_le_sum fun j hj => lower i hi j hj
  have S2 : |∑ i ∈ range N, ∑ j ∈ range N, q i * (x j * (x j - x i))| ≤ ∑ i ∈ range N, ∑ j ∈ range N, eps * (8 / N * |(i : ℝ) - j|) :=
    (abs_sum_le_sum_abs _ _).trans (sum_le_sum fun i hi => (abs_sum_le_sum_abs _ _).trans (sum_le_sum fun j hj => upper i hi j hj))
  simp only [← sum_div] at S1
  rw [sum_sq_diff] at S1
  have S2' : ∑ i ∈ range N, ∑ j ∈ range N, eps * (8 / N * |(i : ℝ) - j|) = eps * (8 / N * (N * (N ^ 2 - 1) / 3)) := by
    simp only [← mul_sum]
    rw [sum_abs_diff]
  rw [S2'] at S2
  have hM : (0 : ℝ) < N ^ 2 - 1 := by nlinarith only [hN2]
  have S3 : |a| * ((N : ℝ) ^ 2 * (N ^ 2 - 1) / 6 / (16 * N ^ 2)) ≤ 2 * (eps * (8 / N * (N * (N ^ 2 - 1) / 3))) := by
    calc _ ≤ |a| * ∑ i ∈ range N, ∑ j ∈ range N, (x i - x j) ^ 2 := mul_le_mul_of_nonneg_left S1 (abs_nonneg _)
      _ = |2 * ∑ i ∈ range N, ∑ j ∈ range N, q i * (x j * (x j - x i))| := by
        rw [← hsol, abs_mul, abs_of_nonneg (a := ∑ i ∈ range N, ∑ j ∈ range N, (x i - x j) ^ 2) (sum_nonneg fun i _ => sum_nonneg fun j _ => sq_nonneg _)]
      _ ≤ _ := by
        rw [abs_mul, abs_two]
        exact mul_le_mul_of_nonneg_left S2 (by norm_num)
  have e1 : |a| * ((N : ℝ) ^ 2 * (N ^ 2 - 1) / 6 / (16 * N ^ 2)) = |a| / 96 * (N ^ 2 - 1) := by field_simp; ring
  have e2 : 2 * (eps * (8 / N * (N * ((N : ℝ) ^ 2 - 1) / 3))) = 16 / 3 * eps * (N ^ 2 - 1) := by field_simp; ring
  rw [e1, e2] at S3
  have := le_of_mul_le_mul_right S3 hM
  linarith

/-- The points that are fitted. -/
theorem asymptoticFit_ok {F : Fitters} (hF : F.SolvesAsymptotic) {times data : Arr ℝ} {p : List ℝ} (h : asymptoticFitIntegral F times data = .ok p) :
    data.len = times.len ∧ times.len ≠ 0 ∧ Spec.BestAsymptote (times.len - times.len / 2) (fun i => times.get (times.len / 2 + i))
      (fun i => ∑ k ∈ range (times.len / 2 + i), (times.get (k + 1) - times.get k) * (data.get (k + 1) + data.get k) / 2) p := by
  unfold asymptoticFitIntegral cumulativeTrapezoid at h
  by_cases hl : data.len = times.len ∧ data.len ≠ 0
  · rw [if_pos hl] at h
    have := leastSquares_asymptotic (hF _ _ _ _ h)
    refine ⟨hl.1, hl.1 ▸ hl.2, ?_⟩
    simpa only [Arr.slice, min_self, Nat.sub_self, Nat.add_zero, Nat.div_one, one_mul] using this
  · rw [if_neg hl] at h
    cases h

/-- The integrals by the trapezoidal rule up to each time. -/
noncomputable def Spec.runningIntegral (t y : ℕ → ℝ) (i : ℕ) : ℝ := ∑ k ∈ range i, (t (k + 1) - t k) * (y (k + 1) + y k) / 2

/-- **C137**: when the integral is `a + b / t` in the second half of the times, the fit finds `a` and `b`. -/
theorem C137_exact {F : Fitters} (hF : F.SolvesAsymptotic) {times data : Arr ℝ} {p : List ℝ} (h : asymptoticFitIntegral F times data = .ok p)
    (h3 : 3 ≤ times.len) (hpos : 0 < times.get (times.len / 2)) (hmono : StrictMono times.get) {a b : ℝ}
    (hab : ∀ i, times.len / 2 ≤ i → i < times.len → Spec.runningIntegral times.get data.get i = a + b / times.get i) : p = [a, b] := by
  obtain ⟨-, -, a', b', rfl, hbest⟩ := asymptoticFit_ok hF h
  obtain ⟨n, hn⟩ : ∃ n, n = times.len - times.len / 2 := ⟨_, rfl⟩
  rw [← hn] at hbest
  have h0 := hbest a b
  have hz : ∑ i ∈ range n, (a + b / times.get (times.len / 2 + i) - ∑ k ∈ range (times.len / 2 + i), (times.get (k + 1) - times.get k) * (data.get (k + 1) + data.get k) / 2) ^ 2 = 0 := by
    refine sum_eq_zero fun i hi => ?_
    have := hab (times.len / 2 + i) (by omega) (by have := mem_range.1 hi; omega)
    rw [Spec.runningIntegral] at this
    rw [this, sub_self]; simp
  rw [hz] at h0
  have h1 := (sum_eq_zero_iff_of_nonneg (fun i _ => sq_nonneg _)).1 (le_antisymm h0 (sum_nonneg fun i _ => sq_nonneg _))
  have key : ∀ i, i < n → a' + b' / times.get (times.len / 2 + i) = a + b / times.get (times.len / 2 + i) := by
    intro i hi
    have e := h1 i (mem_range.2 hi)
    have e' := hab (times.len / 2 + i) (by omega) (by omega)
    rw [Spec.runningIntegral] at e'
    rw [← e']
    have := pow_eq_zero_iff (two_ne_zero) |>.1 e
    linarith
  have k0 := key 0 (by omega)
  have k1 := key 1 (by omega)
  have hlt : times.get (times.len / 2 + 0) < times.get (times.len / 2 + 1) := hmono (by omega)
  have p0 : 0 < times.get (times.len / 2 + 0) := hpos
  have p1 : 0 < times.get (times.len / 2 + 1) := p0.trans hlt
  generalize times.get (times.len / 2 + 0) = s at *
  generalize times.get (times.len / 2 + 1) = u at *
  have hne : 1 / s - 1 / u ≠ 0 := by
    have : 1 / u < 1 / s := one_div_lt_one_div_of_lt p0 hlt
    linarith
  have hb : (b' - b) * (1 / s - 1 / u) = 0 := by
    have : (b' - b) * (1 / s - 1 / u) = (b' / s - b' / u) - (b / s - b / u) := by ring
    rw [this]; linarith
  have hb' : b' = b := by
    rcases mul_eq_zero.1 hb with h | h
    · linarith
    · exact absurd h hne
  rw [hb'] at k0
  have : a' = a := by linarith
  rw [this, hb']

/-- **C137**: for equidistant times, the first fitted number is as close to the limit of the integral as the integrals in the
second half of the times are, up to a constant. -/
theorem C137_limit {F : Fitters} (hF : F.SolvesAsymptotic) {n : ℕ} (hn : 3 ≤ n) {dt : ℝ} (hdt : 0 < dt) {data : Arr ℝ} {p : List ℝ}
    (h : asymptoticFitIntegral F ⟨n, fun i => i * dt⟩ data = .ok p) {L eps : ℝ}
    (hL : ∀ i, n / 2 ≤ i → i < n → |Spec.runningIntegral (fun i => i * dt) data.get i - L| ≤ eps) :
    ∃ a b, p = [a, b] ∧ |a - L| ≤ 512 * eps := by
  obtain ⟨-, -, a, b, rfl, hbest⟩ := asymptoticFit_ok hF h
  refine ⟨a, b, rfl, ?_⟩
  obtain ⟨e1, e2⟩ := asymptote_normal hbest
  refine asymptote_bound (N := n - n / 2) (h := n / 2) (b := b) (dt := dt)
    (q := fun i => Spec.runningIntegral (fun i => i * dt) data.get (n / 2 + i) - L) (by omega) hdt (by omega) (by omega) (by omega)
    (fun i hi => hL (n / 2 + i) (by omega) (by omega)) ?_ ?_
  · rw [← e1]
    exact sum_congr rfl fun i _ => by simp only [Spec.runningIntegral]; ring
  · rw [← e2]
    exact sum_congr rfl fun i _ => by simp only [Spec.runningIntegral]; ring

/-- The trapezoidal rule for a decreasing function. -/
theorem trapz_antitone {k : ℝ → ℝ} (hk : Antitone k) {dt : ℝ} (hdt : 0 < dt) (n : ℕ) :
    |Spec.runningIntegral (fun i => i * dt) (fun i => k (i * dt)) n - ∫ s in (0 : ℝ)..(n * dt), k s| ≤ dt / 2 * (k 0 - k (n * dt)) := by
  induction n with
  | zero => simp [Spec.runningIntegral]
  | succ n ih =>
    have hii : ∀ a b, IntervalIntegrable k MeasureTheory.volume a b := fun a b => hk.intervalIntegrable
    have hstep : |dt * (k ((n + 1 : ℕ) * dt) + k (n * dt)) / 2 - ∫ s in (n * dt)..((n + 1 : ℕ) * dt), k s| ≤ dt / 2 * (k (n * dt) - k ((n + 1 : ℕ) * dt)) := by
      have hle : (n : ℝ) * dt ≤ (n + 1 : ℕ) * dt := by push_cast; nlinarith only [hdt]
      have hw : ((n + 1 : ℕ) : ℝ) * dt - n * dt = dt := by push_cast; ring
      have u : ∫ s in (n * dt)..((n + 1 : ℕ) * dt), k s ≤ dt * k (n * dt) := by
        have := intervalIntegral.integral_mono_on hle (hii _ _) (intervalIntegrable_const (c := k (n * dt))) fun s hs => hk hs.1
        rwa [intervalIntegral.integral_const, hw, smul_eq_mul] at this
      have l : dt * k ((n + 1 : ℕ) * dt) ≤ ∫ s in (n * dt)..((n + 1 : ℕ) * dt), k s := by
        have := intervalIntegral.integral_mono_on hle (intervalIntegrable_const (c := k ((n + 1 : ℕ) * dt))) (hii _ _) fun s hs => hk hs.2
        rwa [intervalIntegral.integral_const, hw, smul_eq_mul] at this
      rw [abs_le]
      constructor <;> linarith
    have e1 : Spec.runningIntegral (fun i => i * dt) (fun i => k (i * dt)) (n + 1) =
        Spec.runningIntegral (fun i => i * dt) (fun i => k (i * dt)) n + dt * (k ((n + 1 : ℕ) * dt) + k (n * dt)) / 2 := by
      rw [Spec.runningIntegral, sum_range_succ, Spec.runningIntegral]
      congr 2
      push_cast
      ring
    rw [e1, ← intervalIntegral.integral_add_adjacent_intervals (hii 0 (n * dt)) (hii (n * dt) _)]
    rw [abs_le] at *
    constructor <;> linarith [ih.1, ih.2, hstep.1, hstep.2]

/-- **C137**: for a kernel that decreases, sampled with the time step `dt`, the fit gives the integral of the kernel over all times up to
the error of the trapezoidal rule and the part of the integral beyond half of the times. -/
theorem C137_kernel {F : Fitters} (hF : F.SolvesAsymptotic) {n : ℕ} (hn : 3 ≤ n) {dt : ℝ} (hdt : 0 < dt) {k : ℝ → ℝ} (hk : Antitone k) (hk0 : ∀ t, 0 ≤ k t)
    {p : List ℝ} (h : asymptoticFitIntegral F ⟨n, fun i => i * dt⟩ ⟨n, fun i => k (i * dt)⟩ = .ok p) {L delta : ℝ}
    (hL : ∀ t, (n / 2 : ℕ) * dt ≤ t → |(∫ s in (0 : ℝ)..t, k s) - L| ≤ delta) :
    ∃ a b, p = [a, b] ∧ |a - L| ≤ 512 * (dt / 2 * k 0 + delta) := by
  refine C137_limit hF hn hdt h fun i hi _ => ?_
  have e1 := trapz_antitone hk hdt i
  have e2 := hL (i * dt) (mul_le_mul_of_nonneg_right (by exact_mod_cast hi) hdt.le)
  have e3 : dt / 2 * (k 0 - k (i * dt)) ≤ dt / 2 * k 0 := mul_le_mul_of_nonneg_left (by linarith [hk0 (i * dt)]) (by positivity)
  calc _ = |(Spec.runningIntegral (fun i => i * dt) (fun i => k (i * dt)) i - ∫ s in (0 : ℝ)..(i * dt), k s) + ((∫ s in (0 : ℝ)..(i * dt), k s) - L)| := by
        congr 1; ring
    _ ≤ _ := (abs_add_le _ _).trans (by linarith)

open Classical in
/-- Least squares by choice. -/
noncomputable def leastSquaresFitters : Fitters where
  curveFit := fun f t y p0 => if h : ∃ p, Spec.LeastSquares f t.len t.get y.get p0.length p then .ok h.choose else .error .type
  prony := fun _ _ => .error .type

theorem leastSquaresFitters_solves : leastSquaresFitters.SolvesAsymptotic := by
  intro t y p0 p h
  simp only [leastSquaresFitters] at h
  split_ifs at h with hx
  cases h
  exact hx.choose_spec

/-- When the points lie on a curve `a + b / t`, the fit returns. -/
theorem leastSquaresFitters_ok (times data : Arr ℝ) (hl : data.len = times.len) (h0 : data.len ≠ 0) (a b : ℝ)
    (hab : ∀ i, i < times.len - times.len / 2 → ∑ k ∈ range (times.len / 2 + i), (times.get (k + 1) - times.get k) * (data.get (k + 1) + data.get k) / 2 =
      a + b / times.get (times.len / 2 + i)) :
    ∃ p, asymptoticFitIntegral leastSquaresFitters times data = .ok p := by
  unfold asymptoticFitIntegral cumulativeTrapezoid
  rw [if_pos ⟨hl, h0⟩]
  have hx : ∃ p, Spec.LeastSquares asymptoticFct (times.len - times.len / 2) (fun i => times.get (times.len / 2 + i))
      (fun i => ∑ k ∈ range (times.len / 2 + i), (times.get (k + 1) - times.get k) * (data.get (k + 1) + data.get k) / 2) 2 p :=
    ⟨[a, b], leastSquares_of_exact hab⟩
  simp only [bind, Except.bind, leastSquaresFitters, Arr.slice, min_self, Nat.sub_self, Nat.add_zero, Nat.div_one, one_mul, hl]
  exact ⟨hx.choose, dif_pos hx⟩

/-- The data 4, 3, 2, 2, 0 have the integrals 6, 8, 9 at the times 2, 3, 4, that is `12 - 12 / t`. -/
example : asymptoticFitIntegral leastSquaresFitters ⟨5, fun i => i⟩ ⟨5, fun i => [4, 3, 2, 2, 0].getD i 0⟩ = .ok [12, -12] := by
  obtain ⟨p, hp⟩ := leastSquaresFitters_ok ⟨5, fun i => i⟩ ⟨5, fun i => [4, 3, 2, 2, 0].getD i 0⟩ rfl (by decide) 12 (-12) (by
    intro i hi
    have : i = 0 ∨ i = 1 ∨ i = 2 := by simp only at hi; omega
    rcases this with rfl | rfl | rfl <;> norm_num [sum_range_succ])
  rw [hp]
  congr 1
  refine C137_exact leastSquaresFitters_solves hp (by decide) (by norm_num) (fun a b h => by simpa using h) (a := 12) (b := -12) ?_
  intro i h1 h2
  have : i = 2 ∨ i = 3 ∨ i = 4 := by simp only at h1 h2; omega
  rcases this with rfl | rfl | rfl <;> norm_num [Spec.runningIntegral, sum_range_succ]

/-- A kernel that is one up to the time one and then zero. -/
example : ∃ a b, asymptoticFitIntegral leastSquaresFitters ⟨7, fun i => i * (1 / 2)⟩ ⟨7, fun i => if (i : ℝ) * (1 / 2) < 1 then 1 else 0⟩ = .ok [a, b] ∧
    |a - 1| ≤ 512 * (1 / 2 / 2 * 1 + 0) := by
  obtain ⟨p, hp⟩ := leastSquaresFitters_ok ⟨7, fun i => i * (1 / 2)⟩ ⟨7, fun i => if (i : ℝ) * (1 / 2) < 1 then 1 else 0⟩ rfl (by decide) (3 / 4) 0 (by
    intro i hi
    have : i = 0 ∨ i = 1 ∨ i = 2 ∨ i = 3 := by simp only at hi; omega
    rcases this with rfl | rfl | rfl | rfl <;> norm_num [sum_range_succ])
  have hk : Antitone fun t : ℝ => if t < 1 then (1 : ℝ) else 0 := by
    intro s t hst
    dsimp only
    split_ifs <;> linarith
  obtain ⟨a, b, rfl, hab⟩ := C137_kernel leastSquaresFitters_solves (by decide) (by norm_num) hk (fun t => by split_ifs <;> norm_num) hp (L := 1) (delta := 0) (by
    intro t ht
    have ht1 : 1 ≤ t := by norm_num at ht; linarith
    have e1 : ∫ s in (0 : ℝ)..1, (if s < 1 then (1 : ℝ) else 0) = 1 := by
      rw [intervalIntegral.integral_congr_Ioo_of_le (g := fun _ => (1 : ℝ)) zero_le_one]
      · simp
      · intro s hs
        exact if_pos hs.2
    have e2 : ∫ s in (1 : ℝ)..t, (if s < 1 then (1 : ℝ) else 0) = 0 := by
      rw [intervalIntegral.integral_congr (g := fun _ => (0 : ℝ))]
      · simp
      · intro s hs
        rw [Set.uIcc_of_le ht1] at hs
        exact if_neg (not_lt.2 hs.1)
    rw [← intervalIntegral.integral_add_adjacent_intervals (hk.intervalIntegrable (a := 0) (b := 1)) (hk.intervalIntegrable (a := 1) (b := t)), e1, e2]
    norm_num)
  exact ⟨a, b, hp, by simpa using hab⟩

end Verif
