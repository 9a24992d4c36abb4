import Verif.Model.Describe
import Verif.Lemmas.Loops
import Mathlib.Algebra.BigOperators.Intervals
import Mathlib.Order.Bounds.Basic
import Mathlib.Tactic.FieldSimp
import Mathlib.Tactic.NormNum

/-!
# C62: `describe_data`
-/

set_option linter.unusedSectionVars false

namespace Verif

open Finset

section
variable {K : Type*} [Field K] [LinearOrder K] [IsStrictOrderedRing K]

/-- The values of the coordinate `c` in all the frames of all the trajectories. -/
def Spec.values (xs : List (Arr (ℕ → K))) (c : ℕ) : Set K := {v | ∃ X ∈ xs, ∃ i < X.len, v = X.get i c}

/-- The sum of the values of the coordinate `c` over all the frames of all the trajectories. -/
def Spec.total (xs : List (Arr (ℕ → K))) (c : ℕ) : K := (xs.map fun X => ∑ i ∈ range X.len, X.get i c).sum

/-- The number of frames. -/
def Spec.frames (xs : List (Arr (ℕ → K))) : ℕ := (xs.map fun X => X.len).sum

/-- `d` has the count, minimum, maximum and mean of the concatenated trajectories. -/
structure Spec.Describes (d : DescribeResult K) (xs : List (Arr (ℕ → K))) : Prop where
  nobs : d.nobs = frames xs
  min : ∀ c, IsLeast (values xs c) (d.min c)
  max : ∀ c, IsGreatest (values xs c) (d.max c)
  mean : ∀ c, d.mean c = total xs c / (frames xs : K)

theorem forRange_min (f : ℕ → K) (n : ℕ) :
    IsLeast {v | ∃ i < n + 1, v = f i} (forRange 1 (n + 1) (fun i m => min m (f i)) (f 0)) := by
  induction n with
  | zero =>
    rw [forRange_of_le le_rfl]
    refine ⟨⟨0, by omega, rfl⟩, ?_⟩
    rintro v ⟨i, hi, rfl⟩
    rw [show i = 0 by omega]
  | succ n ih =>
    rw [forRange_succ (by omega)]
    obtain ⟨⟨j, hj, hj'⟩, h2⟩ := ih
    constructor
    · rcases min_choice (forRange 1 (n + 1) (fun i m => min m (f i)) (f 0)) (f (n + 1)) with h | h
      · rw [h]; exact ⟨j, by omega, hj'⟩
      · rw [h]; exact ⟨n + 1, by omega, rfl⟩
    · rintro v ⟨i, hi, rfl⟩
      rcases Nat.lt_succ_iff_lt_or_eq.1 hi with h | rfl
      · exact (min_le_left _ _).trans (h2 ⟨i, h, rfl⟩)
      · exact min_le_right _ _

theorem forRange_max (f : ℕ → K) (n : ℕ) :
    IsGreatest {v | ∃ i < n + 1, v = f i} (forRange 1 (n + 1) (fun i m => max m (f i)) (f 0)) := by
  induction n with
  | zero =>
    rw [forRange_of_le le_rfl]
    refine ⟨⟨0, by omega, rfl⟩, ?_⟩
    rintro v ⟨i, hi, rfl⟩
    rw [show i = 0 by omega]
  | succ n ih =>
    rw [forRange_succ (by omega)]
    obtain ⟨⟨j, hj, hj'⟩, h2⟩ := ih
    constructor
    · rcases max_choice (forRange 1 (n + 1) (fun i m => max m (f i)) (f 0)) (f (n + 1)) with h | h
      · rw [h]; exact ⟨j, by omega, hj'⟩
      · rw [h]; exact ⟨n + 1, by omega, rfl⟩
    · rintro v ⟨i, hi, rfl⟩
      rcases Nat.lt_succ_iff_lt_or_eq.1 hi with h | rfl
      · exact (h2 ⟨i, h, rfl⟩).trans (le_max_left _ _)
      · exact le_max_right _ _

theorem scipyDescribe_describes (dim : ℕ) (X : Arr (ℕ → K)) (hX : 0 < X.len) :
    ∃ d, scipyDescribe dim X = .ok d ∧ Spec.Describes d [X] ∧ d.variance = colVar X ∧ d.dim = dim := by
  refine ⟨_, if_neg (by omega), ⟨by simp [Spec.frames], fun c => ?_, fun c => ?_, fun c => ?_⟩, rfl, rfl⟩
  · have : Spec.values [X] c = {v | ∃ i < X.len, v = X.get i c} := by ext v; simp [Spec.values]
    obtain ⟨n, hn⟩ : ∃ n, X.len = n + 1 := ⟨X.len - 1, by omega⟩
    rw [this]
    simp only [colMin, hn]
    exact forRange_min (fun i => X.get i c) n
  · have : Spec.values [X] c = {v | ∃ i < X.len, v = X.get i c} := by ext v; simp [Spec.values]
    obtain ⟨n, hn⟩ : ∃ n, X.len = n + 1 := ⟨X.len - 1, by omega⟩
    rw [this]
    simp only [colMax, hn]
    exact forRange_max (fun i => X.get i c) n
  · simp only [colMean, forRange_add, zero_add, Spec.total, Spec.frames, List.map_cons, List.map_nil, List.sum_cons,
      List.sum_nil, add_zero, ← range_eq_Ico]

theorem values_append (xs ys : List (Arr (ℕ → K))) (c : ℕ) :
    Spec.values (xs ++ ys) c = Spec.values xs c ∪ Spec.values ys c := by
  ext v; simp only [Spec.values, List.mem_append, Set.mem_setOf_eq, Set.mem_union]
  constructor
  · rintro ⟨X, h | h, r⟩
    · exact Or.inl ⟨X, h, r⟩
    · exact Or.inr ⟨X, h, r⟩
  · rintro (⟨X, h, r⟩ | ⟨X, h, r⟩)
    · exact ⟨X, Or.inl h, r⟩
    · exact ⟨X, Or.inr h, r⟩

/-- **C62** for `sum_describe`: it describes the union of what its arguments describe. -/
theorem C62_sum_describe (d1 d2 : DescribeResult K) (xs ys : List (Arr (ℕ → K))) (h1 : Spec.Describes d1 xs)
    (h2 : Spec.Describes d2 ys) (hx : 0 < Spec.frames xs) (hy : 0 < Spec.frames ys) :
    Spec.Describes (sumDescribe d1 d2) (xs ++ ys) := by
  refine ⟨?_, fun c => ?_, fun c => ?_, fun c => ?_⟩
  · simp [sumDescribe, h1.nobs, h2.nobs, Spec.frames]
  · rw [values_append]; exact (h1.min c).union (h2.min c)
  · rw [values_append]; exact (h1.max c).union (h2.max c)
  · have e1 : (Spec.frames xs : K) ≠ 0 := by exact_mod_cast hx.ne'
    have e2 : (Spec.frames ys : K) ≠ 0 := by exact_mod_cast hy.ne'
    have ht : Spec.total (xs ++ ys) c = Spec.total xs c + Spec.total ys c := by simp [Spec.total]
    have hf : (Spec.frames (xs ++ ys) : K) = Spec.frames xs + Spec.frames ys := by
      rw [← Nat.cast_add]; congr 1; simp [Spec.frames]
    simp only [sumDescribe, h1.mean, h2.mean, h1.nobs, h2.nobs, ht, hf, div_mul_cancel₀ _ e1, div_mul_cancel₀ _ e2]

theorem mapM_describe (dim : ℕ) (xs : List (Arr (ℕ → K))) (h : ∀ X ∈ xs, 0 < X.len) :
    ∃ ds, xs.mapM (scipyDescribe dim) = .ok ds ∧
      List.Forall₂ (fun X d => Spec.Describes d [X] ∧ d.variance = colVar X) xs ds := by
  induction xs with
  | nil => exact ⟨[], rfl, .nil⟩
  | cons X xs ih =>
    obtain ⟨ds, h1, h2⟩ := ih fun Y hY => h Y (List.mem_cons_of_mem _ hY)
    obtain ⟨d, h3, h4, h5, -⟩ := scipyDescribe_describes dim X (h X List.mem_cons_self)
    refine ⟨d :: ds, ?_, .cons ⟨h4, h5⟩ h2⟩
    rw [List.mapM_cons, h3, h1]; rfl

theorem frames_pos {xs : List (Arr (ℕ → K))} (hne : xs ≠ []) (h : ∀ X ∈ xs, 0 < X.len) : 0 < Spec.frames xs := by
  cases xs with
  | nil => exact absurd rfl hne
  | cons X xs =>
    have := h X List.mem_cons_self
    simp only [Spec.frames, List.map_cons, List.sum_cons]; omega

theorem foldl_sumDescribe (pre : List (Arr (ℕ → K))) (hp : 0 < Spec.frames pre) (d : DescribeResult K)
    (hd : Spec.Describes d pre) (xs : List (Arr (ℕ → K))) (ds : List (DescribeResult K)) (hx : ∀ X ∈ xs, 0 < X.len)
    (h : List.Forall₂ (fun X d => Spec.Describes d [X] ∧ d.variance = colVar X) xs ds) :
    Spec.Describes (ds.foldl sumDescribe d) (pre ++ xs) ∧ (ds.foldl sumDescribe d).variance = d.variance := by
  induction h generalizing pre d with
  | nil => simpa using hd
  | @cons X e xs ds h1 _ ih =>
    rw [List.foldl_cons, show pre ++ X :: xs = (pre ++ [X]) ++ xs by simp]
    have hX := hx X List.mem_cons_self
    have := ih (pre ++ [X]) (by simp [Spec.frames]; right; exact hX) (sumDescribe d e)
      (C62_sum_describe d e pre [X] hd h1.1 hp (by simpa [Spec.frames] using hX)) fun Y hY => hx Y (List.mem_cons_of_mem _ hY)
    exact ⟨this.1, this.2⟩

/-- **C62**. For every non empty list of non empty trajectories `describe_data` returns the count, minimum, maximum and mean of
the concatenated data, and keeps it for the next call. -/
theorem C62_describe_data (dim : ℕ) (xs : List (Arr (ℕ → K))) (hne : xs ≠ []) (h : ∀ X ∈ xs, 0 < X.len) :
    ∃ d, describeData dim xs none = .ok (d, some d) ∧ Spec.Describes d xs ∧
      ∀ ys, describeData dim ys (some d) = .ok (d, some d) := by
  cases xs with
  | nil => exact absurd rfl hne
  | cons X xs =>
    obtain ⟨ds, h1, h2⟩ := mapM_describe dim (X :: xs) h
    cases h2 with
    | @cons _ d _ ds hd hds =>
      have hf := foldl_sumDescribe [X] (by simpa [Spec.frames] using h X List.mem_cons_self) d hd.1 xs ds
        (fun Y hY => h Y (List.mem_cons_of_mem _ hY)) hds
      refine ⟨ds.foldl sumDescribe d, ?_, hf.1, fun ys => rfl⟩
      simp only [describeData, describeAll, h1, bind, Except.bind, pure, Except.pure]

/-- What C62 does not claim, and what the code does not do: the variance (and likewise skewness and kurtosis) is that of the
first trajectory. -/
theorem C62_variance_of_first (dim : ℕ) (X : Arr (ℕ → K)) (xs : List (Arr (ℕ → K))) (h : ∀ Y ∈ X :: xs, 0 < Y.len) :
    ∃ d, describeData dim (X :: xs) none = .ok (d, some d) ∧ d.variance = colVar X := by
  obtain ⟨ds, h1, h2⟩ := mapM_describe dim (X :: xs) h
  cases h2 with
  | @cons _ d _ ds hd hds =>
    have hf := foldl_sumDescribe [X] (by simpa [Spec.frames] using h X List.mem_cons_self) d hd.1 xs ds
      (fun Y hY => h Y (List.mem_cons_of_mem _ hY)) hds
    refine ⟨ds.foldl sumDescribe d, ?_, hf.2.trans hd.2⟩
    simp only [describeData, describeAll, h1, bind, Except.bind, pure, Except.pure]

end

/-- Two trajectories of lengths 2 and 3. -/
def exampleTrajs : List (Arr (ℕ → ℚ)) := [⟨2, fun i c => i + c⟩, ⟨3, fun i c => 5 - 3 * i + c⟩]

example := C62_describe_data 1 exampleTrajs (by decide) (by
  intro X hX; simp only [exampleTrajs, List.mem_cons, List.not_mem_nil, or_false] at hX; rcases hX with rfl | rfl <;> decide)

example : (describeData 1 exampleTrajs none).map (fun d => (d.1.nobs, d.1.min 0, d.1.max 0, d.1.mean 0)) =
    .ok (5, -1, 5, 7 / 5) := by decide +kernel

example := C62_variance_of_first 1 ⟨2, fun i c => (i + c : ℚ)⟩ [⟨3, fun i c => 5 - 3 * i + c⟩] (by
  intro X hX; simp only [List.mem_cons, List.not_mem_nil, or_false] at hX; rcases hX with rfl | rfl <;> decide)

end Verif
