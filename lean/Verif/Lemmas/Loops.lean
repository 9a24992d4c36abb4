import Verif.Model.Prelude
import Mathlib.Algebra.BigOperators.Intervals

/-! # Loop lemmas -/

namespace Verif

open Finset

theorem forRange_of_le {σ : Type*} {lo hi : ℕ} (h : hi ≤ lo) (body : ℕ → σ → σ) (s : σ) :
    forRange lo hi body s = s := by
  simp [forRange, Nat.sub_eq_zero_of_le h]

theorem forRange_succ {σ : Type*} {lo hi : ℕ} (h : lo ≤ hi) (body : ℕ → σ → σ) (s : σ) :
    forRange lo (hi + 1) body s = body hi (forRange lo hi body s) := by
  have : hi + 1 - lo = (hi - lo) + 1 := by omega
  rw [forRange, forRange, this, List.range'_concat, List.foldl_append]
  simp [Nat.add_sub_cancel' h]

/-- An accumulating loop is a sum. -/
theorem forRange_add {V : Type*} [AddCommMonoid V] (lo hi : ℕ) (f : ℕ → V) (s : V) :
    forRange lo hi (fun j res => res + f j) s = s + ∑ j ∈ Ico lo hi, f j := by
  rcases Nat.le_total hi lo with h | h
  · rw [forRange_of_le h, Ico_eq_empty_of_le h]; simp
  · induction hi, h using Nat.le_induction with
    | base => rw [forRange_of_le le_rfl]; simp
    | succ n hn ih => rw [forRange_succ hn, ih, sum_Ico_succ_top hn, add_assoc]

/-- The loop that fills entry `i` of an array from the current content of the array. -/
theorem forRange_fill_aux {V : Type*} (lo hi : ℕ) (f : ℕ → (ℕ → V) → V) (a : ℕ → V) :
    ∃ R : ℕ → V, (∀ n, lo ≤ n → n ≤ hi →
        forRange lo n (fun i a => Function.update a i (f i a)) a = fun j => if lo ≤ j ∧ j < n then R j else a j) ∧
      ∀ i, lo ≤ i → i < hi →
        R i = f i (forRange lo i (fun i a => Function.update a i (f i a)) a) := by
  refine ⟨fun i => f i (forRange lo i (fun i a => Function.update a i (f i a)) a), ?_, fun i _ _ => rfl⟩
  intro n hn
  induction n, hn using Nat.le_induction with
  | base =>
    intro _
    rw [forRange_of_le le_rfl]
    funext j
    simp only [right_eq_ite_iff]; omega
  | succ n hn ih =>
    intro hle
    rw [forRange_succ hn]
    funext j
    by_cases hj : j = n
    · subst hj
      simp [hn]
    · rw [Function.update_of_ne hj, ih (by omega)]
      have : (lo ≤ j ∧ j < n + 1) ↔ (lo ≤ j ∧ j < n) := by omega
      simp only [this]

/-- Result of a filling loop, entry by entry: untouched outside of the range, and entry `i` is
computed from the final values below `i` and the initial values from `i` on. -/
theorem forRange_fill {V : Type*} (lo hi : ℕ) (f : ℕ → (ℕ → V) → V) (a : ℕ → V) :
    (∀ j, j < lo ∨ hi ≤ j →
      forRange lo hi (fun i a => Function.update a i (f i a)) a j = a j) ∧
    (∀ i, lo ≤ i → i < hi →
      forRange lo hi (fun i a => Function.update a i (f i a)) a i =
        f i (fun j => if j < i then forRange lo hi (fun i a => Function.update a i (f i a)) a j
          else a j)) := by
  rcases Nat.le_total hi lo with h | h
  · constructor
    · intro j _; rw [forRange_of_le h]
    · intro i h1 h2; omega
  · obtain ⟨R, h1, h2⟩ := forRange_fill_aux lo hi f a
    rw [h1 hi h le_rfl]
    constructor
    · intro j hj
      have : ¬ (lo ≤ j ∧ j < hi) := by omega
      simp [this]
    · intro i hi1 hi2
      beta_reduce
      rw [if_pos ⟨hi1, hi2⟩, h2 i hi1 hi2, h1 i hi1 hi2.le]
      congr 1
      funext j
      by_cases hj : j < i
      · by_cases hl : lo ≤ j
        · simp [hj, hl, lt_trans hj hi2]
        · simp [hj, hl]
      · simp [hj]

end Verif

namespace Verif

open Finset

/-- An accumulating loop with step two is a sum. -/
theorem forStep2_add {V : Type*} [AddCommMonoid V] (lo hi : ℕ) (f : ℕ → V) (s : V) :
    forStep2 lo hi (fun j res => res + f j) s = s + ∑ p ∈ range ((hi - lo + 1) / 2), f (lo + 2 * p) := by
  unfold forStep2
  induction (hi - lo + 1) / 2 with
  | zero => simp
  | succ n ih =>
    rw [List.range'_concat, List.foldl_append, ih, sum_range_succ, ← add_assoc]
    simp

end Verif
