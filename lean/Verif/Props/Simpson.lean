import Verif.Lemmas.Solvers
import Mathlib.Algebra.Order.Field.Basic
import Mathlib.Algebra.Order.Ring.Abs
import Mathlib.Tactic.Linarith
import Mathlib.Tactic.LinearCombination
import Mathlib.Tactic.FieldSimp
import Mathlib.Tactic.Module

/-!
# The Simpson solver of the first kind: C132
-/

namespace Verif

open Finset

section
variable {K V : Type*} [Field K] [AddCommGroup V] [Module K V]

/-- The Simpson rule grows by one panel every two steps. -/
theorem simpsonRule_step (h : K) (f : ℕ → V) (n : ℕ) :
    Spec.simpsonRule h f (n + 2) = Spec.simpsonRule h f n + Spec.simpsonPanel h f n := by
  unfold Spec.simpsonRule
  have e : (n + 2) / 2 = n / 2 + 1 := by omega
  by_cases c : n % 2 = 0
  · rw [if_pos (by omega), if_pos c, e, sum_range_succ, show 2 * (n / 2) = n by omega]
  · rw [if_neg (by omega), if_neg c, e, sum_range_succ, show 2 * (n / 2) + 1 = n by omega, add_assoc]

theorem simpsonRule_one (h : K) (f : ℕ → V) : Spec.simpsonRule h f 1 = Spec.trapzRule h f 1 := by
  simp [Spec.simpsonRule, Spec.trapzRule]

end

section
variable {K : Type*} [Field K] [LinearOrder K] [IsStrictOrderedRing K] {b x : ℕ}

/-- Solutions of `e (n+2) + 4 e (n+1) + e n = 0` grow. -/
theorem simpson_growth {e : ℕ → K} {L : ℕ} (h : ∀ n, n + 2 ≤ L → e n + 4 * e (n + 1) + e (n + 2) = 0)
    (h1 : |e 0| ≤ |e 1|) : ∀ n, n + 1 ≤ L → |e n| ≤ |e (n + 1)| ∧ 3 ^ n * |e 1| ≤ |e (n + 1)| := by
  intro n
  induction n with
  | zero => intro _; exact ⟨h1, by simp⟩
  | succ n ih =>
    intro hn
    obtain ⟨g1, g2⟩ := ih (by omega)
    have := h n (by omega)
    have e1 : 4 * e (n + 1) = -(e n + e (n + 2)) := by linear_combination this
    have e2 : 4 * |e (n + 1)| ≤ |e n| + |e (n + 2)| := by
      have : |4 * e (n + 1)| = 4 * |e (n + 1)| := by rw [abs_mul, abs_of_pos (by norm_num : (0 : K) < 4)]
      rw [← this, e1, abs_neg]
      exact abs_add_le _ _
    have e3 := abs_nonneg (e (n + 1))
    refine ⟨by linarith, ?_⟩
    rw [pow_succ]
    have : (3 : K) ^ n * 3 * |e 1| = 3 * (3 ^ n * |e 1|) := by ring
    rw [this]
    show _ ≤ |e (n + 2)|
    linarith

/-- For constant correlations of the basis, consecutive values of the kernel are related by one panel. -/
theorem simpson_recursion {L : ℕ} {k0 : Mat K b x} {B0 : Mat K b b} {D : ℕ → Mat K b x} {dt : K} {ker : ℕ → Mat K b x}
    (h : FKernel.firstKindSimpson L k0 (fun _ => B0) D dt = .ok ker) (n : ℕ) (hn : n + 2 ≤ L) :
    (dt / 3) • (B0 * (ker n + (4 : K) • ker (n + 1) + ker (n + 2))) = (if n = 0 then 0 else D n) - D (n + 2) := by
  obtain ⟨-, h1, h2⟩ := FKernel.firstKindSimpson_solves h
  have hs : ∀ m, 1 ≤ m → m ≤ L → Spec.simpsonRule dt (fun j => B0 * ker j) m = -D m := by
    intro m hm hmL
    rcases hm.eq_or_lt with rfl | hm
    · rw [simpsonRule_one]; exact h1
    · exact h2 m hm hmL
  have e1 := hs (n + 2) (by omega) hn
  rw [simpsonRule_step] at e1
  have e2 : Spec.simpsonRule dt (fun j => B0 * ker j) n = -(if n = 0 then 0 else D n) := by
    by_cases c : n = 0
    · subst c; simp [Spec.simpsonRule]
    · rw [if_neg c]; exact hs n (by omega) (by omega)
  rw [e2, Spec.simpsonPanel] at e1
  rw [Matrix.mul_add, Matrix.mul_add, Matrix.mul_smul]
  generalize (dt / 3) • (B0 * ker n + (4 : K) • (B0 * ker (n + 1)) + B0 * ker (n + 2)) = P at e1 ⊢
  generalize (if n = 0 then (0 : Mat K b x) else D n) = Z at e1 ⊢
  calc P = Z + (-Z + P) := by abel
    _ = Z - D (n + 2) := by rw [e1, sub_eq_add_neg]

theorem simpson_first {L : ℕ} {k0 : Mat K b x} {B0 : Mat K b b} {D : ℕ → Mat K b x} {dt : K} {ker : ℕ → Mat K b x}
    (h : FKernel.firstKindSimpson L k0 (fun _ => B0) D dt = .ok ker) :
    ker 0 = k0 ∧ (dt / 2) • (B0 * (ker 0 + ker 1)) = -D 1 := by
  obtain ⟨h0, h1, -⟩ := FKernel.firstKindSimpson_solves h
  refine ⟨h0, ?_⟩
  rw [Matrix.mul_add, ← h1]
  simp [Spec.trapzRule, Spec.convIntegrand]

theorem simpson_total {L : ℕ} (hL : L ≠ 0) (k0 : Mat K b x) {B0 : Mat K b b} (hB0 : B0.det ≠ 0)
    (D : ℕ → Mat K b x) {dt : K} (hdt : dt ≠ 0) : ∃ ker, FKernel.firstKindSimpson L k0 (fun _ => B0) D dt = .ok ker := by
  have hd : ∀ c : K, c ≠ 0 → ∃ M, lapackInv (c • B0) = .ok M := fun c hc =>
    lapackInv_of_det (by rw [Matrix.det_smul]; exact mul_ne_zero (pow_ne_zero _ hc) hB0)
  obtain ⟨M1, h1⟩ := hd ((1 / 2) * dt) (by positivity)
  obtain ⟨M2, h2⟩ := hd (dt / 3) (by positivity)
  unfold FKernel.firstKindSimpson
  simp only [hL, if_false, h1, h2, bind, Except.bind, pure, Except.pure]
  exact ⟨_, rfl⟩

omit [LinearOrder K] [IsStrictOrderedRing K] in
theorem mul_cancel_of_det {B0 : Mat K b b} (hB0 : B0.det ≠ 0) {c : K} (hc : c ≠ 0) {X Y : Mat K b x}
    (h : c • (B0 * X) = c • (B0 * Y)) : X = Y := by
  have h1 := (smul_right_injective _ hc) h
  have h2 := congrArg (fun M : Mat K b x => B0⁻¹ * M) h1
  simpa [← Matrix.mul_assoc, Matrix.nonsing_inv_mul _ (Ne.isUnit hB0)] using h2

/-- **C132**, negation: an error of the first value of the kernel is amplified by more than three at each step, however
small the time step, when the correlations of the basis are constant. -/
theorem C132_simpson_amplifies {L : ℕ} (hL : L ≠ 0) (k0 k0' : Mat K b x) {B0 : Mat K b b} (hB0 : B0.det ≠ 0)
    (D : ℕ → Mat K b x) {dt : K} (hdt : dt ≠ 0) :
    ∃ ker ker', FKernel.firstKindSimpson L k0 (fun _ => B0) D dt = .ok ker ∧
      FKernel.firstKindSimpson L k0' (fun _ => B0) D dt = .ok ker' ∧
      ∀ n < L, ∀ i j, 3 ^ n * |k0 i j - k0' i j| ≤ |ker (n + 1) i j - ker' (n + 1) i j| := by
  obtain ⟨ker, h⟩ := simpson_total hL k0 hB0 D hdt
  obtain ⟨ker', h'⟩ := simpson_total hL k0' hB0 D hdt
  refine ⟨ker, ker', h, h', fun n hn i j => ?_⟩
  obtain ⟨h0, h1⟩ := simpson_first h
  obtain ⟨h0', h1'⟩ := simpson_first h'
  have e01 : ker 0 i j + ker 1 i j = ker' 0 i j + ker' 1 i j :=
    congrFun (congrFun (mul_cancel_of_det hB0 (by positivity) (h1.trans h1'.symm)) i) j
  have g1 : ker 1 i j - ker' 1 i j = -(ker 0 i j - ker' 0 i j) := by linear_combination e01
  have := (simpson_growth (e := fun n => ker n i j - ker' n i j) (L := L) (fun m hm => ?_) (by rw [g1, abs_neg]) n
    (by omega)).2
  · rw [g1, abs_neg, h0, h0'] at this
    exact this
  · have e := congrFun (congrFun (mul_cancel_of_det hB0 (by positivity)
      ((simpson_recursion h m hm).trans (simpson_recursion h' m hm).symm)) i) j
    simp only [Matrix.add_apply, Matrix.smul_apply, smul_eq_mul] at e
    linear_combination e

/-- **C132**, negation: for exact data the solution diverges. The data are those of `∫_0^t k = t^3/3`, that is `k(t) = t^2`,
on `[0, 1]` with the time step `1/(N+1)` and the exact first value. -/
theorem C132_simpson_diverges (N : ℕ) : ∃ ker, FKernel.firstKindSimpson (N + 1) (0 : Mat K 1 1) (fun _ => 1)
      (fun n => !![-(n * (1 / (N + 1 : K))) ^ 3 / 3]) (1 / (N + 1 : K)) = .ok ker ∧
      3 ^ N * (1 / (N + 1 : K)) ^ 2 / 3 ≤ |ker (N + 1) 0 0 - 1| := by
  have hN : (N + 1 : K) ≠ 0 := by positivity
  obtain ⟨dt, hdt⟩ : ∃ dt : K, dt = 1 / (N + 1 : K) := ⟨_, rfl⟩
  have hd0 : dt ≠ 0 := by rw [hdt]; positivity
  rw [← hdt]
  obtain ⟨ker, h⟩ := simpson_total (Nat.succ_ne_zero N) (0 : Mat K 1 1) (B0 := 1) (by simp)
    (fun n => !![-(n * dt) ^ 3 / 3]) hd0
  refine ⟨ker, h, ?_⟩
  obtain ⟨h0, h1⟩ := simpson_first h
  have e1 := congrFun (congrFun h1 0) 0
  rw [h0] at e1
  simp only [zero_add, Matrix.smul_apply, smul_eq_mul, Matrix.neg_apply, Matrix.of_apply,
    Matrix.cons_val', Matrix.cons_val_fin_one, Nat.cast_one, one_mul] at e1
  have g1 : ker 1 0 0 - (((1 : ℕ) : K) * dt) ^ 2 = -(dt ^ 2 / 3) := by
    have : dt * (ker 1 0 0 - dt ^ 2 + dt ^ 2 / 3) = 0 := by linear_combination 2 * e1
    have := (mul_eq_zero.1 this).resolve_left hd0
    rw [Nat.cast_one, one_mul]
    linear_combination this
  have := (simpson_growth (e := fun n => ker n 0 0 - ((n : K) * dt) ^ 2) (L := N + 1) (fun m hm => ?_)
    (by rw [g1, h0]; simp) N le_rfl).2
  · rw [g1, abs_neg, abs_of_nonneg (by positivity : 0 ≤ dt ^ 2 / 3)] at this
    have e2 : ((N + 1 : ℕ) : K) * dt = 1 := by rw [hdt]; push_cast; field_simp
    rw [e2, one_pow] at this
    linarith
  · have e := congrFun (congrFun (simpson_recursion h m hm) 0) 0
    have e3 : (if m = 0 then (0 : Mat K 1 1) else !![-(m * dt) ^ 3 / 3]) 0 0 = -(m * dt) ^ 3 / 3 := by
      split_ifs with c
      · simp [c]
      · simp
    rw [Matrix.sub_apply, e3] at e
    simp only [Matrix.one_mul, Matrix.smul_apply, smul_eq_mul, Matrix.add_apply, Matrix.of_apply,
      Matrix.cons_val', Matrix.cons_val_fin_one] at e
    push_cast at e ⊢
    have : dt * (ker m 0 0 - (m * dt) ^ 2 + 4 * (ker (m + 1) 0 0 - ((m + 1) * dt) ^ 2) +
        (ker (m + 2) 0 0 - ((m + 2) * dt) ^ 2)) = 0 := by linear_combination 3 * e
    exact (mul_eq_zero.1 this).resolve_left hd0

end

example := C132_simpson_amplifies (K := ℚ) (L := 5) (by decide) !![1, 0; 0, 2] !![1, 0; 0, 3] (B0 := !![1, 1; 0, 2])
  (by simp [Matrix.det_fin_two]) (fun n => !![n, 1; 0, n]) (dt := 1 / 10) (by norm_num)

end Verif
