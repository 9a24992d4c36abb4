import Verif.Model.FreeEnergy
import Mathlib.Algebra.BigOperators.Group.List.Basic
import Mathlib.Tactic.Linarith
import Mathlib.Tactic.FieldSimp
import Mathlib.Tactic.Ring
import Mathlib.Tactic.NormNum
import Mathlib.Tactic.IntervalCases
import Mathlib.Tactic.Positivity

/-!
# The histogram and the free energy of `compute_1d_fe`
-/

set_option linter.unusedSectionVars false

namespace Verif

namespace Spec
section
variable {K : Type*} [Field K] [LinearOrder K]

/-- All the values of position, velocity and acceleration, over trajectories, frames and components. -/
def points (xvas : List (Xva K)) : List (K × K × K) :=
  xvas.flatMap fun y => (List.range y.n).flatMap fun t => (List.range y.dimx).map fun k =>
    (y.data "x" t k, y.data "v" t k, y.data "a" t k)

/-- The values with a position in `(a, b]`. -/
def counted (a b : K) (pts : List (K × K × K)) : List (K × K × K) := pts.filter fun p => a < p.1 ∧ p.1 ≤ b

/-- The `m` bins are between the edges `e 0 < … < e m`: for `bins = m + 1` these are equidistant from the least to the greatest
position, and for a string they are what numpy chooses. -/
def Edges (auto : List K → List K) : BinsArg → List K → ℕ → (ℕ → K) → Prop
  | .int n, xs, m, e => n = m + 1 ∧ 1 ≤ m ∧ ∃ lo ∈ xs, ∃ hi ∈ xs, lo < hi ∧ (∀ x ∈ xs, lo ≤ x ∧ x ≤ hi) ∧
      ∀ i ≤ m, e i = lo + i * ((hi - lo) / m)
  | .str _, xs, m, e => 1 ≤ m ∧ xs ≠ [] ∧ auto xs = (List.range (m + 1)).map e ∧ ∀ i j, i < j → j ≤ m → e i < e j
  | .other, _, _, _ => False

end
end Spec

section
variable {K : Type*} [Field K] [LinearOrder K]

theorem points_eq (xvas : List (Xva K)) : Spec.points xvas = xvas.flatMap stacked := rfl

theorem filter_range_length {N j : ℕ} (hj : j ≤ N) (q : ℕ → Bool) (h1 : ∀ i < j, q i = true) (h2 : ∀ i, j ≤ i → i < N → q i = false) :
    ((List.range N).filter q).length = j := by
  obtain ⟨r, rfl⟩ := Nat.exists_eq_add_of_le hj
  rw [List.range_add, List.filter_append, List.filter_eq_self.2 (fun i hi => h1 i (List.mem_range.1 hi)), List.filter_eq_nil_iff.2]
  · simp
  · intro a ha
    obtain ⟨b, hb, rfl⟩ := List.mem_map.1 ha
    rw [h2 (j + b) (by omega) (by have := List.mem_range.1 hb; omega)]
    simp

/-- `binOf` for increasing edges. -/
theorem binOf_iff {m : ℕ} {e : ℕ → K} (he : ∀ i j, i < j → j ≤ m → e i < e j) (x : K) {i : ℕ} :
    binOf ((List.range (m + 1)).map e) x = some i ↔ i < m ∧ e i < x ∧ x ≤ e (i + 1) := by
  have mono : ∀ a b, a ≤ b → b ≤ m → e a ≤ e b := fun a b hab hb => by
    rcases hab.eq_or_lt with h | h
    · rw [h]
    · exact (he a b h hb).le
  have key : ∃ j ≤ m + 1, (∀ i < j, e i < x) ∧ (∀ i, j ≤ i → i < m + 1 → ¬ e i < x) := by
    by_cases h : ∃ a, a ≤ m ∧ ¬ e a < x
    · classical
      refine ⟨Nat.find h, by have := (Nat.find_spec h).1; omega, fun a ha => ?_, fun a ha hm hx => ?_⟩
      · have := Nat.find_min h ha
        have hm := (Nat.find_spec h).1
        by_contra hn
        exact this ⟨by omega, hn⟩
      · exact (Nat.find_spec h).2 (lt_of_le_of_lt (mono _ a ha (by omega)) hx)
    · exact ⟨m + 1, le_rfl, fun a ha => by_contra fun hn => h ⟨a, by omega, hn⟩, fun a ha hm => by omega⟩
  obtain ⟨j, hj, h1, h2⟩ := key
  have hlen : (((List.range (m + 1)).map e).filter (· < x)).length = j := by
    rw [List.filter_map, List.length_map]
    exact filter_range_length hj _ (fun a ha => by simpa using h1 a ha) (fun a ha hm => by simpa using h2 a ha hm)
  have hlen2 : ((List.range (m + 1)).map e).length = m + 1 := by simp
  unfold binOf
  rw [hlen2]
  simp only [hlen]
  constructor
  · intro h
    split at h
    · cases h
    · rename_i hn
      push Not at hn
      have hi : j - 1 = i := by simpa using h
      refine ⟨by omega, h1 i (by omega), ?_⟩
      exact not_lt.1 (h2 (i + 1) (by omega) (by omega))
  · rintro ⟨him, hx1, hx2⟩
    have hj' : j = i + 1 := by
      rcases lt_trichotomy j (i + 1) with h | h | h
      · exact absurd hx1 (h2 i (by omega) (by omega))
      · exact h
      · exact absurd (h1 (i + 1) h) (not_lt.2 hx2)
    rw [if_neg (by omega)]
    simp [hj']

theorem binOf_isNone {m : ℕ} {e : ℕ → K} (he : ∀ i j, i < j → j ≤ m → e i < e j) (x : K) :
    (binOf ((List.range (m + 1)).map e) x).isNone = true ↔ ¬ (e 0 < x ∧ x ≤ e m) := by
  have mono : ∀ a b, a ≤ b → b ≤ m → e a ≤ e b := fun a b hab hb => by
    rcases hab.eq_or_lt with h | h
    · rw [h]
    · exact (he a b h hb).le
  constructor
  · rintro h ⟨h1, h2⟩
    have : ∃ a, a ≤ m ∧ x ≤ e a := ⟨m, le_rfl, h2⟩
    classical
    have hs := Nat.find_spec this
    rcases Nat.eq_zero_or_pos (Nat.find this) with h0 | h0
    · rw [h0] at hs
      exact absurd h1 (not_lt.2 hs.2)
    · have hm := Nat.find_min this (m := Nat.find this - 1) (by omega)
      have : binOf ((List.range (m + 1)).map e) x = some (Nat.find this - 1) := by
        rw [binOf_iff he]
        refine ⟨by omega, ?_, by rw [Nat.sub_add_cancel h0]; exact hs.2⟩
        by_contra hn
        exact hm ⟨by omega, not_lt.1 hn⟩
      rw [this] at h
      simp at h
  · intro h
    cases hb : binOf ((List.range (m + 1)).map e) x with
    | none => rfl
    | some i =>
      rw [binOf_iff he] at hb
      exact absurd ⟨lt_of_le_of_lt (mono 0 i (by omega) (by omega)) hb.2.1, hb.2.2.trans (mono _ _ (by omega) le_rfl)⟩ h

theorem inBin_eq {m : ℕ} {e : ℕ → K} (he : ∀ i j, i < j → j ≤ m → e i < e j) {i : ℕ} (hi : i < m) (pts : List (K × K × K)) :
    inBin ((List.range (m + 1)).map e) i pts = Spec.counted (e i) (e (i + 1)) pts := by
  unfold inBin Spec.counted
  refine List.filter_congr fun p _ => ?_
  rw [decide_eq_decide, binOf_iff he]
  simp [hi]

theorem binsOk_iff {m : ℕ} {e : ℕ → K} (he : ∀ i j, i < j → j ≤ m → e i < e j) (pts : List (K × K × K)) :
    binsOk ((List.range (m + 1)).map e) pts = true ↔ Spec.counted (e 0) (e m) pts ≠ [] := by
  unfold binsOk
  have h1 : ((List.range (m + 1)).map e).Pairwise (· < ·) := by
    rw [List.pairwise_map]
    refine List.Pairwise.imp_of_mem ?_ List.pairwise_lt_range
    intro a b _ hb hab
    exact he a b hab (by have := List.mem_range.1 hb; omega)
  have h2 : ((List.range (m + 1)).map e).Pairwise (· ≤ ·) := h1.imp le_of_lt
  have h3 : ((List.range (m + 1)).map e).Nodup := h1.imp ne_of_lt
  rw [decide_eq_true h2, decide_eq_true h3, Bool.true_or, Bool.true_and, Bool.true_and, List.any_eq_true, ne_eq]
  unfold Spec.counted
  rw [List.filter_eq_nil_iff]
  push Not
  refine exists_congr fun p => and_congr_right fun _ => ?_
  have := binOf_isNone he p.1
  rw [← Option.not_isNone, Bool.not_eq_true', ← Bool.not_eq_true, this]
  simp

theorem inBin_append (edges : List K) (i : ℕ) (p q : List (K × K × K)) : inBin edges i (p ++ q) = inBin edges i p ++ inBin edges i q :=
  List.filter_append _ _

theorem binSums_ok {edges : List K} : ∀ {xvas : List (Xva K)}, (∀ y ∈ xvas, binsOk edges (stacked y) = true) →
    ∃ r, binSums edges xvas = .ok r ∧ (∀ i, r.count i = (inBin edges i (Spec.points xvas)).length) ∧
      (∀ i, r.v2 i = ((inBin edges i (Spec.points xvas)).map fun p => p.2.1 * p.2.1).sum) ∧
      ∀ i, r.a i = ((inBin edges i (Spec.points xvas)).map fun p => p.2.2).sum
  | [], _ => ⟨_, rfl, fun _ => rfl, fun _ => rfl, fun _ => rfl⟩
  | y :: ys, h => by
    obtain ⟨r, hr, h1, h2, h3⟩ := binSums_ok (xvas := ys) (fun z hz => h z (List.mem_cons_of_mem _ hz))
    have hy := h y List.mem_cons_self
    have hp : Spec.points (y :: ys) = stacked y ++ Spec.points ys := rfl
    refine ⟨_, by rw [binSums, hr, hy]; rfl, fun i => ?_, fun i => ?_, fun i => ?_⟩
    · rw [hp, inBin_append, List.length_append, ← h1]
    · rw [hp, inBin_append, List.map_append, List.sum_append, ← h2]
    · rw [hp, inBin_append, List.map_append, List.sum_append, ← h3]

theorem binSums_error {edges : List K} : ∀ {xvas : List (Xva K)}, (∃ y ∈ xvas, binsOk edges (stacked y) = false) →
    binSums edges xvas = .error .value
  | [], h => by obtain ⟨y, hy, _⟩ := h; cases hy
  | z :: ys, h => by
    rw [binSums]
    cases hz : binsOk edges (stacked z) with
    | false => rfl
    | true =>
      obtain ⟨y, hy, hb⟩ := h
      rcases List.mem_cons.1 hy with rfl | hy
      · rw [hz] at hb; cases hb
      · rw [binSums_error (xvas := ys) ⟨y, hy, hb⟩]; rfl

theorem counted_split {M : Type*} [AddCommMonoid M] {a b c : K} (hab : a ≤ b) (hbc : b ≤ c) (f : K × K × K → M) (pts : List (K × K × K)) :
    ((Spec.counted a c pts).map f).sum = ((Spec.counted a b pts).map f).sum + ((Spec.counted b c pts).map f).sum := by
  unfold Spec.counted
  induction pts with
  | nil => simp
  | cons p ps ih =>
    simp only [List.filter_cons]
    simp only [Bool.decide_and] at ih ⊢
    by_cases h1 : a < p.1 <;> by_cases h2 : p.1 ≤ b <;> by_cases h3 : p.1 ≤ c
    · simp [h1, h2, h3, not_lt.2 h2, ih, add_assoc]
    · exact absurd (h2.trans hbc) h3
    · simp [h1, h2, h3, not_le.1 h2, ih, add_left_comm]
    · simp [h2, h3, ih]
    · simp [h1, h2, h3, not_lt.2 h2, ih]
    · simp [h1, h3, not_lt.2 h2, ih]
    · exact absurd (hab.trans (not_le.1 h2).le) (not_le.2 (lt_of_not_ge fun h => h1 (lt_of_le_of_lt hab (not_le.1 h2))))
    · simp [h2, h3, ih]

theorem sum_counted {M : Type*} [AddCommMonoid M] {m : ℕ} {e : ℕ → K} (he : ∀ i j, i < j → j ≤ m → e i < e j) (f : K × K × K → M)
    (pts : List (K × K × K)) :
    ((List.range m).map fun i => ((Spec.counted (e i) (e (i + 1)) pts).map f).sum).sum = ((Spec.counted (e 0) (e m) pts).map f).sum := by
  induction m with
  | zero =>
    have : Spec.counted (e 0) (e 0) pts = [] := by
      unfold Spec.counted
      rw [List.filter_eq_nil_iff]
      intro p _
      simp
    simp [this]
  | succ m ih =>
    have h0 : e 0 ≤ e m := by
      rcases Nat.eq_zero_or_pos m with rfl | h
      · exact le_rfl
      · exact (he 0 m h (by omega)).le
    rw [List.range_succ, List.map_append, List.sum_append, ih (fun i j hij hj => he i j hij (by omega)),
      counted_split h0 (he m (m + 1) (by omega) le_rfl).le]
    simp

theorem sum_counted_length {m : ℕ} {e : ℕ → K} (he : ∀ i j, i < j → j ≤ m → e i < e j) (pts : List (K × K × K)) :
    ((List.range m).map fun i => (Spec.counted (e i) (e (i + 1)) pts).length).sum = (Spec.counted (e 0) (e m) pts).length := by
  have := sum_counted he (fun _ => (1 : ℕ)) pts
  simpa using this

theorem tail_zip_range (e : ℕ → K) (m : ℕ) :
    (((List.range (m + 1)).map e).tail.zip ((List.range (m + 1)).map e)) = (List.range m).map fun i => (e (i + 1), e i) := by
  apply List.ext_getElem
  · simp
  · intro i h1 h2
    simp

theorem foldl_min_spec : ∀ (ps : List K) (p : K), ps.foldl min p ∈ p :: ps ∧ ∀ x ∈ p :: ps, ps.foldl min p ≤ x
  | [], p => by simp
  | q :: qs, p => by
    obtain ⟨h1, h2⟩ := foldl_min_spec qs (min p q)
    constructor
    · rw [List.foldl_cons]
      rcases List.mem_cons.1 h1 with h | h
      · rw [h]
        rcases min_choice p q with h' | h' <;> rw [h'] <;> simp
      · simp [h]
    · intro x hx
      rw [List.foldl_cons]
      have h0 := h2 (min p q) List.mem_cons_self
      rcases List.mem_cons.1 hx with rfl | hx
      · exact h0.trans (min_le_left _ _)
      · rcases List.mem_cons.1 hx with rfl | hx
        · exact h0.trans (min_le_right _ _)
        · exact h2 x (List.mem_cons_of_mem _ hx)

theorem foldl_max_spec : ∀ (ps : List K) (p : K), ps.foldl max p ∈ p :: ps ∧ ∀ x ∈ p :: ps, x ≤ ps.foldl max p
  | [], p => by simp
  | q :: qs, p => by
    obtain ⟨h1, h2⟩ := foldl_max_spec qs (max p q)
    constructor
    · rw [List.foldl_cons]
      rcases List.mem_cons.1 h1 with h | h
      · rw [h]
        rcases max_choice p q with h' | h' <;> rw [h'] <;> simp
      · simp [h]
    · intro x hx
      rw [List.foldl_cons]
      have h0 := h2 (max p q) List.mem_cons_self
      rcases List.mem_cons.1 hx with rfl | hx
      · exact (le_max_left _ _).trans h0
      · rcases List.mem_cons.1 hx with rfl | hx
        · exact (le_max_right _ _).trans h0
        · exact h2 x (List.mem_cons_of_mem _ hx)

theorem points_fst (xvas : List (Xva K)) : (xvas.flatMap fun y => (stacked y).map (·.1)) = (Spec.points xvas).map (·.1) := by
  rw [points_eq, List.map_flatMap]

variable [IsStrictOrderedRing K]

/-- The edges that the program takes. -/
theorem feEdges_spec {auto : List K → List K} {bins : BinsArg} {xvas : List (Xva K)} {m : ℕ} {e : ℕ → K}
    (h : Spec.Edges auto bins ((Spec.points xvas).map (·.1)) m e) :
    feEdges auto bins xvas = .ok ((List.range (m + 1)).map e) ∧ 1 ≤ m ∧ ∀ i j, i < j → j ≤ m → e i < e j := by
  unfold feEdges
  simp only [points_fst]
  generalize hxs : (Spec.points xvas).map (·.1) = xs at h
  cases bins with
  | other => exact h.elim
  | str s =>
    obtain ⟨hm, h0, h1, h2⟩ := h
    refine ⟨?_, hm, h2⟩
    cases xs with
    | nil => exact absurd rfl h0
    | cons p ps => simp only [h1]
  | int n =>
    obtain ⟨hn, hm, lo, hlo, hi, hhi, hlt, hb, he⟩ := h
    have hmp : (0 : K) < m := by exact_mod_cast hm
    refine ⟨?_, hm, fun i j hij hj => ?_⟩
    · cases xs with
      | nil => cases hlo
      | cons p ps =>
        have e1 : ps.foldl min p = lo := le_antisymm ((foldl_min_spec ps p).2 lo hlo) (hb _ (foldl_min_spec ps p).1).1
        have e2 : ps.foldl max p = hi := le_antisymm (hb _ (foldl_max_spec ps p).1).2 ((foldl_max_spec ps p).2 hi hhi)
        have e3 : n.toNat = m + 1 := by omega
        simp only [e1, e2, e3, if_neg (show ¬ n < 0 by omega)]
        congr 1
        refine List.map_congr_left fun i hi' => ?_
        have hi'' := List.mem_range.1 hi'
        rw [he i (by omega)]
        unfold npLinspace
        simp only
        split
        · rename_i h
          have : i = m := by omega
          rw [this]
          field_simp
          ring
        · push_cast
          rw [add_sub_cancel_right, add_comm]
    · rw [he i (by omega), he j hj]
      have : (i : K) < j := by exact_mod_cast hij
      have hp : 0 < (hi - lo) / m := div_pos (by linarith) hmp
      nlinarith

/-- The sums in the bins. -/
theorem binSums_spec {xvas : List (Xva K)} {m : ℕ} {e : ℕ → K} (he : ∀ i j, i < j → j ≤ m → e i < e j)
    (hx : ∀ y ∈ xvas, Spec.counted (e 0) (e m) (Spec.points [y]) ≠ []) :
    ∃ r, binSums ((List.range (m + 1)).map e) xvas = .ok r ∧
      (∀ i < m, r.count i = (Spec.counted (e i) (e (i + 1)) (Spec.points xvas)).length) ∧
      (∀ i < m, r.v2 i = ((Spec.counted (e i) (e (i + 1)) (Spec.points xvas)).map fun p => p.2.1 * p.2.1).sum) ∧
      ∀ i < m, r.a i = ((Spec.counted (e i) (e (i + 1)) (Spec.points xvas)).map fun p => p.2.2).sum := by
  obtain ⟨r, hr, hc, h2, h3⟩ := binSums_ok (edges := (List.range (m + 1)).map e) (xvas := xvas) (fun y hy => by
    rw [binsOk_iff he]; have := hx y hy; rwa [points_eq, List.flatMap_singleton] at this)
  exact ⟨r, hr, fun i hi => by rw [hc, inBin_eq he hi], fun i hi => by rw [h2, inBin_eq he hi], fun i hi => by rw [h3, inBin_eq he hi]⟩

theorem counted_pos {auto : List K → List K} {bins : BinsArg} {xvas : List (Xva K)} {m : ℕ} {e : ℕ → K}
    (h : Spec.Edges auto bins ((Spec.points xvas).map (·.1)) m e) (hx : ∀ y ∈ xvas, Spec.counted (e 0) (e m) (Spec.points [y]) ≠ []) :
    0 < (Spec.counted (e 0) (e m) (Spec.points xvas)).length := by
  cases xvas with
  | nil =>
    exfalso
    cases bins with
    | other => exact h
    | str s => exact h.2.1 rfl
    | int n => obtain ⟨-, -, lo, hlo, -⟩ := h; cases hlo
  | cons y ys =>
    have h0 := hx y List.mem_cons_self
    have hp : Spec.points (y :: ys) = Spec.points [y] ++ Spec.points ys := by simp [points_eq]
    rw [hp]
    unfold Spec.counted at h0 ⊢
    rw [List.filter_append, List.length_append]
    have := List.length_pos_iff.2 h0
    omega

/-- **C159, the part that holds.** `compute_1d_fe(.., hist=True)` returns the centres of the bins and the fraction of the values in each
bin, among the values above the lowest edge, and the fractions sum to one. -/
theorem C159_hist_partial {auto : List K → List K} {bins : BinsArg} {xvas : List (Xva K)} {m : ℕ} {e : ℕ → K}
    (h : Spec.Edges auto bins ((Spec.points xvas).map (·.1)) m e) (hx : ∀ y ∈ xvas, Spec.counted (e 0) (e m) (Spec.points [y]) ≠ []) :
    ∃ xf pf, computeHist auto bins xvas = .ok (xf, pf) ∧ xf = (List.range m).map (fun i => (e (i + 1) + e i) / 2) ∧
      pf = (List.range m).map (fun i => ((Spec.counted (e i) (e (i + 1)) (Spec.points xvas)).length : K) /
        ((Spec.counted (e 0) (e m) (Spec.points xvas)).length : K)) ∧ pf.sum = 1 := by
  obtain ⟨h1, hm, he⟩ := feEdges_spec h
  obtain ⟨r, hr, hcount, -⟩ := binSums_spec he hx
  have hpos := counted_pos h hx
  refine ⟨_, _, ?_, rfl, rfl, ?_⟩
  · unfold computeHist
    rw [h1]
    simp only [bind, Except.bind, hr, pure, Except.pure]
    rw [tail_zip_range, List.map_map]
    have hl : ((List.range (m + 1)).map e).length - 1 = m := by simp
    rw [hl]
    have hsum : ((List.range m).map r.count).sum = (Spec.counted (e 0) (e m) (Spec.points xvas)).length := by
      rw [← sum_counted_length he]
      exact congrArg _ (List.map_congr_left fun i hi => hcount i (List.mem_range.1 hi))
    rw [hsum]
    congr 2
    exact List.map_congr_left fun i hi => by rw [hcount i (List.mem_range.1 hi)]
  · have h2 := sum_counted_length he (Spec.points xvas)
    obtain ⟨T, hT⟩ : ∃ T, T = (Spec.counted (e 0) (e m) (Spec.points xvas)).length := ⟨_, rfl⟩
    rw [← hT] at h2 hpos ⊢
    have h3 : (((List.range m).map fun i => (Spec.counted (e i) (e (i + 1)) (Spec.points xvas)).length).sum : K) = (T : K) := by
      rw [← h2]
    rw [show ((List.range m).map fun i => ((Spec.counted (e i) (e (i + 1)) (Spec.points xvas)).length : K) / (T : K)) =
      (((List.range m).map fun i => (Spec.counted (e i) (e (i + 1)) (Spec.points xvas)).length).map fun n : ℕ => (n : K)).map
        (fun z => z * (T : K)⁻¹) by simp [List.map_map, Function.comp_def, div_eq_mul_inv], List.sum_map_mul_right, List.map_id']
    rw [show ((((List.range m).map fun i => (Spec.counted (e i) (e (i + 1)) (Spec.points xvas)).length).map fun n : ℕ => (n : K)).sum) =
      (T : K) by rw [← h3]; push_cast; rfl]
    exact mul_inv_cancel₀ (by exact_mod_cast hpos.ne')

/-- **C159.** When a trajectory has no value above the lowest edge there is a `ValueError`. -/
theorem C159_error {auto : List K → List K} {bins : BinsArg} {xvas : List (Xva K)} {m : ℕ} {e : ℕ → K}
    (h : Spec.Edges auto bins ((Spec.points xvas).map (·.1)) m e) (hx : ∃ y ∈ xvas, Spec.counted (e 0) (e m) (Spec.points [y]) = []) :
    computeHist auto bins xvas = .error .value := by
  obtain ⟨h1, hm, he⟩ := feEdges_spec h
  unfold computeHist
  rw [h1]
  simp only [bind, Except.bind]
  rw [binSums_error]
  obtain ⟨y, hy, hb⟩ := hx
  refine ⟨y, hy, ?_⟩
  rw [← Bool.not_eq_true, binsOk_iff he]
  rw [points_eq, List.flatMap_singleton] at hb
  exact not_not.2 hb

/-- **C159.** So it is when all the positions are the same, when there are none, and when `bins` is neither a string nor an integer. -/
theorem C159_error_constant {auto : List K → List K} {bins : BinsArg} {xvas : List (Xva K)}
    (h : bins = .other ∨ ((∃ n, bins = .int n) ∧ ∃ c, ∀ p ∈ Spec.points xvas, p.1 = c)) :
    computeHist auto bins xvas = .error .value := by
  rcases h with rfl | ⟨⟨n, rfl⟩, c, hc⟩
  · rfl
  · unfold computeHist feEdges
    simp only [points_fst]
    cases hp : (Spec.points xvas).map (·.1) with
    | nil => rfl
    | cons p ps =>
      have hall : ∀ x ∈ p :: ps, x = c := by
        intro x hx
        rw [← hp] at hx
        obtain ⟨q, hq, rfl⟩ := List.mem_map.1 hx
        exact hc q hq
      simp only
      split
      · rfl
      · simp only [bind, Except.bind]
        rw [hall _ (foldl_min_spec ps p).1, hall _ (foldl_max_spec ps p).1]
        rw [binSums_error]
        cases xvas with
        | nil => cases hp
        | cons y ys =>
          refine ⟨y, List.mem_cons_self, ?_⟩
          unfold binsOk
          have : ((stacked y).any fun p => (binOf ((List.range n.toNat).map (npLinspace c c n.toNat).get) p.1).isSome) = false := by
            rw [List.any_eq_false]
            intro q hq
            have hq' : q.1 = c := hc q (by rw [points_eq]; simp [hq])
            rw [hq']
            have h0 : ((List.range n.toNat).map (npLinspace c c n.toNat).get).filter (· < c) = [] := by
              rw [List.filter_eq_nil_iff]
              intro z hz
              obtain ⟨i, -, rfl⟩ := List.mem_map.1 hz
              unfold npLinspace
              simp only
              split <;> simp
            unfold binOf
            simp [h0]
          rw [this, Bool.and_false]

/-- Positions `0, 0, 1` with two bins. -/
def twoAtMin : Xva ℚ := ⟨3, 1, fun t => t, fun name t _ => if name = "x" then (if t = 2 then 1 else 0) else 1, fun _ => "", fun _ => 0⟩

/-- **C159 fails**: the frames at the lowest position are in no bin, so that the frequencies are not those of the positions. Two positions out
of three are in the first half, and it has the frequency zero. -/
theorem C159_fails : ¬ ∀ (auto : List ℚ → List ℚ) (xvas : List (Xva ℚ)) (m : ℕ) (e : ℕ → ℚ) (xf pf : List ℚ),
    Spec.Edges auto (.int (m + 1)) ((Spec.points xvas).map (·.1)) m e → computeHist auto (.int (m + 1)) xvas = .ok (xf, pf) →
    ∀ i < m, pf[i]? = some ((((Spec.points xvas).filter fun p =>
      (if i = 0 then e 0 ≤ p.1 else e i < p.1) ∧ p.1 ≤ e (i + 1)).length : ℚ) / ((Spec.points xvas).length : ℚ)) := by
  intro H
  have h := H id [twoAtMin] 2 (fun i => i / 2) [1 / 4, 3 / 4] [0, 1]
    ⟨rfl, by decide, 0, by decide +kernel, 1, by decide +kernel, by decide +kernel, by decide +kernel, by
      intro i hi; norm_num; ring⟩ (by decide +kernel) 0 (by decide)
  revert h
  decide +kernel

example := C159_hist_partial (auto := id) (bins := .int 3) (xvas := [twoAtMin]) (m := 2) (e := fun i => i / 2)
  ⟨rfl, by decide, 0, by decide +kernel, 1, by decide +kernel, by decide +kernel, by decide +kernel, by intro i hi; norm_num; ring⟩
  (by decide +kernel)

end

/-! ## The free energy -/

namespace Spec

/-- The number of values in the bin `i`. -/
noncomputable def cnt (e : ℕ → ℝ) (pts : List (ℝ × ℝ × ℝ)) (i : ℕ) : ℝ := (counted (e i) (e (i + 1)) pts).length

/-- The sum of `f` over the values with a position in `(a, b]`. -/
noncomputable def sumIn (f : ℝ × ℝ × ℝ → ℝ) (a b : ℝ) (pts : List (ℝ × ℝ × ℝ)) : ℝ := ((counted a b pts).map f).sum

/-- The bins that are not empty. -/
noncomputable def filled (e : ℕ → ℝ) (pts : List (ℝ × ℝ × ℝ)) (m : ℕ) : List ℕ :=
  (List.range m).filter fun i => counted (e i) (e (i + 1)) pts ≠ []

end Spec

theorem fold_neg_log {idx : List ℕ} {c : ℕ → ℝ} {M : ℝ} (hM : ∃ i ∈ idx, c i = M) (hM' : ∀ i ∈ idx, c i ≤ M) (hc : ∀ i ∈ idx, 0 < c i)
    {T : ℝ} (hT : 0 < T) :
    ∃ f fs, (idx.map fun i => -Real.log (c i / T)) = f :: fs ∧
      ((idx.map fun i => -Real.log (c i / T)).map fun z => z - fs.foldl min f) = idx.map fun i => -Real.log (c i / M) := by
  obtain ⟨i0, hi0, hc0⟩ := hM
  cases hl : idx.map fun i => -Real.log (c i / T) with
  | nil =>
    rw [List.map_eq_nil_iff] at hl
    rw [hl] at hi0
    cases hi0
  | cons f fs =>
    refine ⟨f, fs, rfl, ?_⟩
    obtain ⟨h1, h2⟩ := foldl_min_spec fs f
    rw [← hl] at h1 h2 ⊢
    have hMp : 0 < M := hc0 ▸ hc i0 hi0
    have hmin : fs.foldl min f = -Real.log (M / T) := by
      apply le_antisymm
      · exact h2 _ (List.mem_map.2 ⟨i0, hi0, by rw [hc0]⟩)
      · obtain ⟨j, hj, he⟩ := List.mem_map.1 h1
        rw [← he, neg_le_neg_iff]
        exact Real.log_le_log (div_pos (hc j hj) hT) (div_le_div_of_nonneg_right (hM' j hj) hT.le)
    rw [hmin, List.map_map]
    refine List.map_congr_left fun i hi => ?_
    simp only [Function.comp]
    rw [Real.log_div (hc i hi).ne' hT.ne', Real.log_div hMp.ne' hT.ne', Real.log_div (hc i hi).ne' hMp.ne']
    ring

/-- **C160.** `compute_1d_fe` returns, for the bins that are not empty, the centre, the free energy `-log (count / greatest count)`, the
mean acceleration and the mean square velocity, over all the trajectories together, and the two forces from the derivatives that the
spline gives. The errors are those of the spline. -/
theorem C160_free_energy {auto : List ℝ → List ℝ} {spl : List ℝ → List ℝ → Except Err (List ℝ)} {bins : BinsArg} {xvas : List (Xva ℝ)}
    {kT : ℝ} {m : ℕ} {e : ℕ → ℝ} (h : Spec.Edges auto bins ((Spec.points xvas).map (·.1)) m e)
    (hx : ∀ y ∈ xvas, Spec.counted (e 0) (e m) (Spec.points [y]) ≠ [])
    {M : ℝ} (hM : ∃ i < m, Spec.cnt e (Spec.points xvas) i = M) (hM' : ∀ i < m, Spec.cnt e (Spec.points xvas) i ≤ M)
    {pts : List (ℝ × ℝ × ℝ)} (hpts : pts = Spec.points xvas) {T : ℝ} (hT : T = (Spec.counted (e 0) (e m) pts).length)
    {x fe : List ℝ} (hxc : x = (Spec.filled e pts m).map fun i => (e (i + 1) + e i) / 2)
    (hfe : fe = (Spec.filled e pts m).map fun i => -Real.log (Spec.cnt e pts i / M)) :
    compute1dFe auto spl bins kT xvas = (do
      let dfe ← spl x fe
      let drho ← spl x ((Spec.filled e pts m).map fun i => Spec.sumIn (fun p => p.2.1 ^ 2) (e i) (e (i + 1)) pts / T)
      return { x := x
               fe := fe
               force := dfe.map fun d => -kT * d / (Spec.sumIn (fun p => p.2.1 ^ 2) (e 0) (e m) pts / T)
               meanA := (Spec.filled e pts m).map fun i => Spec.sumIn (fun p => p.2.2) (e i) (e (i + 1)) pts / Spec.cnt e pts i
               forceTot := List.zipWith (· / ·) drho ((Spec.filled e pts m).map fun i => Spec.cnt e pts i / T)
               mass := (Spec.filled e pts m).map fun i => Spec.sumIn (fun p => p.2.1 ^ 2) (e i) (e (i + 1)) pts / Spec.cnt e pts i }) ∧
      (∀ z ∈ fe, 0 ≤ z) ∧ 0 ∈ fe := by
  obtain ⟨hE, hm, he⟩ := feEdges_spec h
  obtain ⟨r, hr, hc, hv, ha⟩ := binSums_spec he hx
  have hpos := counted_pos h hx
  subst hpts
  have hT0 : 0 < T := by rw [hT]; exact_mod_cast hpos
  have hcnt : ∀ i < m, (r.count i : ℝ) = Spec.cnt e (Spec.points xvas) i := fun i hi => by rw [hc i hi]; rfl
  have hvs : ∀ i < m, r.v2 i = Spec.sumIn (fun p => p.2.1 ^ 2) (e i) (e (i + 1)) (Spec.points xvas) := fun i hi => by
    rw [hv i hi]; unfold Spec.sumIn; simp only [pow_two]
  have has : ∀ i < m, r.a i = Spec.sumIn (fun p => p.2.2) (e i) (e (i + 1)) (Spec.points xvas) := fun i hi => by
    rw [ha i hi]; rfl
  have hsum : (((List.range m).map r.count).sum : ℝ) = T := by
    rw [hT, ← sum_counted_length he]
    exact_mod_cast congrArg List.sum (List.map_congr_left fun i hi => hc i (List.mem_range.1 hi))
  have hvsum : ((List.range m).map r.v2).sum = Spec.sumIn (fun p => p.2.1 ^ 2) (e 0) (e m) (Spec.points xvas) := by
    unfold Spec.sumIn
    rw [← sum_counted he]
    exact congrArg _ (List.map_congr_left fun i hi => hvs i (List.mem_range.1 hi))
  have hmem : ∀ i ∈ Spec.filled e (Spec.points xvas) m, i < m ∧ 0 < Spec.cnt e (Spec.points xvas) i := by
    intro i hi
    unfold Spec.filled at hi
    rw [List.mem_filter, List.mem_range] at hi
    refine ⟨hi.1, ?_⟩
    unfold Spec.cnt
    have := List.length_pos_iff.2 (of_decide_eq_true hi.2)
    exact_mod_cast this
  have hnz : ((List.range m).filter fun i => (r.count i : ℝ) / T ≠ 0) = Spec.filled e (Spec.points xvas) m := by
    unfold Spec.filled
    refine List.filter_congr fun i hi => ?_
    rw [decide_eq_decide, hcnt i (List.mem_range.1 hi)]
    unfold Spec.cnt
    rw [ne_eq, div_eq_zero_iff, not_or, Nat.cast_eq_zero, List.length_eq_zero_iff]
    exact ⟨fun h => h.1, fun h => ⟨h, hT0.ne'⟩⟩
  have hMf : ∃ i ∈ Spec.filled e (Spec.points xvas) m, Spec.cnt e (Spec.points xvas) i = M := by
    obtain ⟨i, hi, hiM⟩ := hM
    refine ⟨i, ?_, hiM⟩
    unfold Spec.filled
    rw [List.mem_filter, List.mem_range]
    refine ⟨hi, decide_eq_true fun h0 => ?_⟩
    have hM0 : M = 0 := by rw [← hiM]; unfold Spec.cnt; rw [h0]; simp
    have : ((List.range m).map fun i => (Spec.counted (e i) (e (i + 1)) (Spec.points xvas)).length).sum = 0 := by
      rw [List.sum_eq_zero_iff]
      intro z hz
      obtain ⟨j, hj, rfl⟩ := List.mem_map.1 hz
      have := hM' j (List.mem_range.1 hj)
      rw [hM0] at this
      unfold Spec.cnt at this
      have h3 : (Spec.counted (e j) (e (j + 1)) (Spec.points xvas)).length ≤ 0 := by exact_mod_cast this
      omega
    rw [sum_counted_length he] at this
    omega
  have hMp : 0 < M := by
    obtain ⟨i, hi, hiM⟩ := hMf
    exact hiM ▸ (hmem i hi).2
  obtain ⟨f, fs, hl, hfold⟩ := fold_neg_log hMf (fun i hi => hM' i (hmem i hi).1) (fun i hi => (hmem i hi).2) hT0
  refine ⟨?_, ?_, ?_⟩
  · have hlen : ((List.range (m + 1)).map e).length - 1 = m := by simp
    have hcent : ∀ i < m, ((((List.range (m + 1)).map e).tail.zip ((List.range (m + 1)).map e)).map
        fun e => (e.1 + e.2) / 2).getD i 0 = (e (i + 1) + e i) / 2 := fun i hi => by
      rw [tail_zip_range, List.map_map, List.getD_eq_getElem?_getD]
      simp [hi]
    unfold compute1dFe
    rw [hE]
    simp only [bind, Except.bind, hr, pure, Except.pure, hlen, hsum, hvsum, hnz]
    have e1 : ((Spec.filled e (Spec.points xvas) m).map fun i => -Real.log ((r.count i : ℝ) / T)) = f :: fs := by
      rw [← hl]
      exact List.map_congr_left fun i hi => by rw [hcnt i (hmem i hi).1]
    have e2 : ((Spec.filled e (Spec.points xvas) m).map fun i => ((((List.range (m + 1)).map e).tail.zip ((List.range (m + 1)).map e)).map
        fun e => (e.1 + e.2) / 2).getD i 0) = x := by
      rw [hxc]
      exact List.map_congr_left fun i hi => hcent i (hmem i hi).1
    have e3 : ((f :: fs).map fun z => z - fs.foldl min f) = fe := by rw [← hl, hfold, hfe]
    have e4 : ((Spec.filled e (Spec.points xvas) m).map fun i => (r.count i : ℝ) / T) =
        (Spec.filled e (Spec.points xvas) m).map fun i => Spec.cnt e (Spec.points xvas) i / T :=
      List.map_congr_left fun i hi => by rw [hcnt i (hmem i hi).1]
    have e5 : ((Spec.filled e (Spec.points xvas) m).map fun i => r.v2 i / (r.count i : ℝ)) =
        (Spec.filled e (Spec.points xvas) m).map fun i =>
          Spec.sumIn (fun p => p.2.1 ^ 2) (e i) (e (i + 1)) (Spec.points xvas) / Spec.cnt e (Spec.points xvas) i :=
      List.map_congr_left fun i hi => by rw [hcnt i (hmem i hi).1, hvs i (hmem i hi).1]
    have e6 : ((Spec.filled e (Spec.points xvas) m).map fun i => r.a i / (r.count i : ℝ)) =
        (Spec.filled e (Spec.points xvas) m).map fun i =>
          Spec.sumIn (fun p => p.2.2) (e i) (e (i + 1)) (Spec.points xvas) / Spec.cnt e (Spec.points xvas) i :=
      List.map_congr_left fun i hi => by rw [hcnt i (hmem i hi).1, has i (hmem i hi).1]
    have e7 : List.zipWith (· * ·) ((Spec.filled e (Spec.points xvas) m).map fun i =>
          Spec.sumIn (fun p => p.2.1 ^ 2) (e i) (e (i + 1)) (Spec.points xvas) / Spec.cnt e (Spec.points xvas) i)
        ((Spec.filled e (Spec.points xvas) m).map fun i => Spec.cnt e (Spec.points xvas) i / T) =
        (Spec.filled e (Spec.points xvas) m).map fun i => Spec.sumIn (fun p => p.2.1 ^ 2) (e i) (e (i + 1)) (Spec.points xvas) / T := by
      rw [List.zipWith_map, List.zipWith_self]
      refine List.map_congr_left fun i hi => ?_
      have := (hmem i hi).2.ne'
      field_simp
    simp only [e1, e2, e3, e4, e5, e6, e7]
    cases spl x fe with
    | error => rfl
    | ok dfe =>
      cases spl x ((Spec.filled e (Spec.points xvas) m).map fun i =>
          Spec.sumIn (fun p => p.2.1 ^ 2) (e i) (e (i + 1)) (Spec.points xvas) / T) with
      | error => rfl
      | ok drho =>
        simp only
        congr 2
        exact List.map_congr_left fun d _ => by ring
  · intro z hz
    rw [hfe] at hz
    obtain ⟨i, hi, rfl⟩ := List.mem_map.1 hz
    rw [neg_nonneg]
    exact Real.log_nonpos (div_nonneg (hmem i hi).2.le hMp.le) ((div_le_one hMp).2 (hM' i (hmem i hi).1))
  · rw [hfe]
    obtain ⟨i, hi, hiM⟩ := hMf
    exact List.mem_map.2 ⟨i, hi, by rw [hiM, div_self hMp.ne', Real.log_one, neg_zero]⟩

/-- **C160.** When a trajectory has no value above the lowest edge there is a `ValueError`. -/
theorem C160_error {auto : List ℝ → List ℝ} {spl : List ℝ → List ℝ → Except Err (List ℝ)} {bins : BinsArg} {kT : ℝ} {xvas : List (Xva ℝ)}
    {m : ℕ} {e : ℕ → ℝ} (h : Spec.Edges auto bins ((Spec.points xvas).map (·.1)) m e)
    (hx : ∃ y ∈ xvas, Spec.counted (e 0) (e m) (Spec.points [y]) = []) : compute1dFe auto spl bins kT xvas = .error .value := by
  obtain ⟨h1, hm, he⟩ := feEdges_spec h
  unfold compute1dFe
  rw [h1]
  simp only [bind, Except.bind]
  rw [binSums_error]
  obtain ⟨y, hy, hb⟩ := hx
  refine ⟨y, hy, ?_⟩
  rw [← Bool.not_eq_true, binsOk_iff he]
  rw [points_eq, List.flatMap_singleton] at hb
  exact not_not.2 hb

/-! ## Success -/

section
variable {K : Type*} [Field K] [LinearOrder K] [IsStrictOrderedRing K]

/-- When the sums in the bins are found, there are at least two edges, increasing, and every trajectory has a value in a bin. -/
theorem edges_of_ok {auto : List K → List K} {n : ℤ} {xvas : List (Xva K)} {edges : List K} {r : BinSums K}
    (h1 : feEdges auto (.int n) xvas = .ok edges) (h2 : binSums edges xvas = .ok r) :
    ∃ m e, Spec.Edges auto (.int n) ((Spec.points xvas).map (·.1)) m e ∧ ∀ y ∈ xvas, Spec.counted (e 0) (e m) (Spec.points [y]) ≠ [] := by
  have hcon : ∀ c, ¬ ∀ p ∈ Spec.points xvas, p.1 = c := fun c hc => by
    have := C159_error_constant (auto := auto) (bins := .int n) (xvas := xvas) (Or.inr ⟨⟨n, rfl⟩, c, hc⟩)
    unfold computeHist at this
    rw [h1] at this
    simp only [bind, Except.bind, h2] at this
    cases this
  have key : ∃ m e, Spec.Edges auto (.int n) ((Spec.points xvas).map (·.1)) m e := by
    have h1' := h1
    unfold feEdges at h1'
    simp only [points_fst] at h1'
    cases hp : (Spec.points xvas).map (·.1) with
    | nil => rw [hp] at h1'; cases h1'
    | cons p ps =>
      rw [hp] at h1'
      simp only at h1'
      split at h1'
      · cases h1'
      · rename_i hn
        obtain ⟨m, hm⟩ : ∃ m : ℕ, n = m := ⟨n.toNat, by omega⟩
        have hm2 : 2 ≤ m := by
          by_contra hlt
          have hE : edges.length ≤ 1 := by
            cases h1'
            simp
            omega
          cases xvas with
          | nil => cases hp
          | cons y ys =>
            rw [binSums_error] at h2
            · cases h2
            · refine ⟨y, List.mem_cons_self, ?_⟩
              unfold binsOk
              have : ((stacked y).any fun p => (binOf edges p.1).isSome) = false := by
                rw [List.any_eq_false]
                intro q _
                unfold binOf
                have := List.length_filter_le (fun z => decide (z < q.1)) edges
                simp only
                rw [if_pos (by omega)]
                simp
              rw [this, Bool.and_false]
        obtain ⟨k, rfl⟩ := Nat.exists_eq_add_of_le' (show 1 ≤ m by omega)
        refine ⟨k, fun i => ps.foldl min p + i * ((ps.foldl max p - ps.foldl min p) / k), by rw [hm]; push_cast; rfl, by omega, ps.foldl min p,
          (foldl_min_spec ps p).1, ps.foldl max p, (foldl_max_spec ps p).1, ?_,
          fun x hx => ⟨(foldl_min_spec ps p).2 x hx, (foldl_max_spec ps p).2 x hx⟩, fun i _ => rfl⟩
        refine lt_of_le_of_ne ((foldl_min_spec ps p).2 _ (foldl_max_spec ps p).1) fun heq => ?_
        refine hcon (ps.foldl min p) fun q hq => ?_
        have hq' : q.1 ∈ p :: ps := by rw [← hp]; exact List.mem_map.2 ⟨q, hq, rfl⟩
        exact le_antisymm (heq ▸ (foldl_max_spec ps p).2 _ hq') ((foldl_min_spec ps p).2 _ hq')
  obtain ⟨m, e, he⟩ := key
  refine ⟨m, e, he, fun y hy hb => ?_⟩
  have := C159_error he ⟨y, hy, hb⟩
  unfold computeHist at this
  rw [h1] at this
  simp only [bind, Except.bind, h2] at this
  cases this

theorem hist_ok {auto : List K → List K} {n : ℤ} {xvas : List (Xva K)} {z : List K × List K} (h : computeHist auto (.int n) xvas = .ok z) :
    ∃ m e, Spec.Edges auto (.int n) ((Spec.points xvas).map (·.1)) m e ∧ ∀ y ∈ xvas, Spec.counted (e 0) (e m) (Spec.points [y]) ≠ [] := by
  unfold computeHist at h
  cases h1 : feEdges auto (.int n) xvas with
  | error => rw [h1] at h; cases h
  | ok edges =>
    rw [h1] at h
    cases h2 : binSums edges xvas with
    | error => simp only [bind, Except.bind, h2] at h; cases h
    | ok r => exact edges_of_ok h1 h2

theorem binSums_value {edges : List K} {err : Err} : ∀ {xvas : List (Xva K)}, binSums edges xvas = .error err → err = .value
  | [], h => by cases h
  | y :: ys, h => by
    rw [binSums] at h
    cases hb : binsOk edges (stacked y) with
    | false => rw [hb] at h; cases h; rfl
    | true =>
      rw [hb] at h
      cases h2 : binSums edges ys with
      | error e =>
        rw [h2] at h
        cases h
        exact binSums_value h2
      | ok r => rw [h2] at h; cases h

theorem hist_value {auto : List K → List K} {bins : BinsArg} {xvas : List (Xva K)} {err : Err} (h : computeHist auto bins xvas = .error err) :
    err = .value := by
  unfold computeHist at h
  cases h1 : feEdges auto bins xvas with
  | error e =>
    rw [h1] at h
    cases h
    unfold feEdges at h1
    simp only at h1
    repeat' split at h1
    all_goals cases h1
    all_goals rfl
  | ok edges =>
    rw [h1] at h
    cases h2 : binSums edges xvas with
    | error e =>
      simp only [bind, Except.bind, h2] at h
      cases h
      exact binSums_value h2
    | ok r => simp only [bind, Except.bind, h2] at h; cases h

/-- **C159.** With a number of edges there is a histogram if there are two edges at least, a trajectory, and in every trajectory a position
above some position; there is a `ValueError` otherwise. -/
theorem C159_success {auto : List K → List K} {n : ℤ} {xvas : List (Xva K)} :
    ((∃ z, computeHist auto (.int n) xvas = .ok z) ↔
      2 ≤ n ∧ xvas ≠ [] ∧ ∀ y ∈ xvas, ∃ p ∈ Spec.points [y], ∃ q ∈ Spec.points xvas, q.1 < p.1) ∧
    ((∃ z, computeHist auto (.int n) xvas = .ok z) ∨ computeHist auto (.int n) xvas = .error .value) := by
  refine ⟨⟨?_, ?_⟩, ?_⟩
  · rintro ⟨z, hz⟩
    obtain ⟨m, e, ⟨hn, hm, lo, hlo, hi, hhi, hlt, hb, he⟩, hx⟩ := hist_ok hz
    refine ⟨by omega, ?_, fun y hy => ?_⟩
    · rintro rfl
      cases hlo
    · obtain ⟨p, hp⟩ := List.exists_mem_of_ne_nil _ (hx y hy)
      obtain ⟨q, hq, hql⟩ := List.mem_map.1 hlo
      unfold Spec.counted at hp
      rw [List.mem_filter] at hp
      refine ⟨p, hp.1, q, hq, ?_⟩
      have h1 := (of_decide_eq_true hp.2).1
      rw [he 0 (by omega)] at h1
      rw [hql]
      simpa using h1
  · rintro ⟨hn, h0, hx⟩
    obtain ⟨y0, hy0⟩ := List.exists_mem_of_ne_nil _ h0
    have hsub : ∀ y ∈ xvas, ∀ p ∈ Spec.points [y], p ∈ Spec.points xvas := fun y hy p hp => by
      rw [points_eq] at hp ⊢
      exact List.mem_flatMap.2 ⟨y, hy, by simpa using hp⟩
    cases hxs : (Spec.points xvas).map (·.1) with
    | nil =>
      obtain ⟨p, hp, -⟩ := hx y0 hy0
      have : p.1 ∈ (Spec.points xvas).map (·.1) := List.mem_map.2 ⟨p, hsub y0 hy0 p hp, rfl⟩
      rw [hxs] at this
      cases this
    | cons a as =>
      obtain ⟨l1, l2⟩ := foldl_min_spec as a
      obtain ⟨g1, g2⟩ := foldl_max_spec as a
      obtain ⟨lo, hlo⟩ : ∃ lo, lo = as.foldl min a := ⟨_, rfl⟩
      obtain ⟨hi, hhi⟩ : ∃ hi, hi = as.foldl max a := ⟨_, rfl⟩
      rw [← hlo] at l1 l2
      rw [← hhi] at g1 g2
      rw [← hxs] at l1 l2 g1 g2
      have hmem : ∀ p ∈ Spec.points xvas, lo ≤ p.1 ∧ p.1 ≤ hi := fun p hp =>
        ⟨l2 _ (List.mem_map.2 ⟨p, hp, rfl⟩), g2 _ (List.mem_map.2 ⟨p, hp, rfl⟩)⟩
      have habove : ∀ y ∈ xvas, ∃ p ∈ Spec.points [y], lo < p.1 ∧ p.1 ≤ hi := fun y hy => by
        obtain ⟨p, hp, q, hq, hqp⟩ := hx y hy
        exact ⟨p, hp, lt_of_le_of_lt (hmem q hq).1 hqp, (hmem p (hsub y hy p hp)).2⟩
      obtain ⟨p0, -, h1, h2⟩ := habove y0 hy0
      obtain ⟨k, hk⟩ : ∃ k : ℕ, n = k + 1 := ⟨n.toNat - 1, by omega⟩
      have hk1 : 1 ≤ k := by omega
      have hk0 : (k : K) ≠ 0 := by
        have : 0 < k := hk1
        exact_mod_cast this.ne'
      have hE : Spec.Edges auto (.int n) ((Spec.points xvas).map (·.1)) k (fun i => lo + i * ((hi - lo) / k)) :=
        ⟨hk, hk1, lo, l1, hi, g1, lt_of_lt_of_le h1 h2, fun x hx' => ⟨l2 x hx', g2 x hx'⟩, fun i _ => rfl⟩
      obtain ⟨xf, pf, h, -⟩ := C159_hist_partial hE (fun y hy => by
        obtain ⟨p, hp, h1, h2⟩ := habove y hy
        refine List.ne_nil_of_mem (a := p) ?_
        unfold Spec.counted
        refine List.mem_filter.2 ⟨hp, decide_eq_true ⟨?_, ?_⟩⟩
        · simpa using h1
        · rw [mul_div_cancel₀ _ hk0]; simpa using h2)
      exact ⟨_, h⟩
  · cases h : computeHist auto (.int n) xvas with
    | ok z => exact Or.inl ⟨z, rfl⟩
    | error e => rw [hist_value h]; exact Or.inr rfl

/-- The edges depend only on which positions there are. -/
theorem edges_unique {auto auto' : List K → List K} {n : ℤ} {xs xs' : List K} (hx : ∀ x, x ∈ xs ↔ x ∈ xs') {m m' : ℕ} {e e' : ℕ → K}
    (h : Spec.Edges auto (.int n) xs m e) (h' : Spec.Edges auto' (.int n) xs' m' e') : m' = m ∧ ∀ i ≤ m, e' i = e i := by
  obtain ⟨hn, -, lo, hlo, hi, hhi, -, hb, he⟩ := h
  obtain ⟨hn', -, lo', hlo', hi', hhi', -, hb', he'⟩ := h'
  have hm : m' = m := by omega
  subst hm
  have e1 : lo' = lo := le_antisymm (hb' lo ((hx _).1 hlo)).1 (hb lo' ((hx _).2 hlo')).1
  have e2 : hi' = hi := le_antisymm (hb hi' ((hx _).2 hhi')).2 (hb' hi ((hx _).1 hhi)).2
  refine ⟨rfl, fun i hi => ?_⟩
  rw [he i hi, he' i hi, e1, e2]

theorem counted_perm {a b : K} {p q : List (K × K × K)} (h : p.Perm q) : (Spec.counted a b p).Perm (Spec.counted a b q) := h.filter _

/-- **C162, the part that holds.** Two sets of trajectories with the same values, in any order and cut in any way, have the same
histogram, if neither is refused. -/
theorem C162_hist_partial {auto auto' : List K → List K} {n : ℤ} {xvas xvas' : List (Xva K)}
    (hp : (Spec.points xvas).Perm (Spec.points xvas')) {z z' : List K × List K} (h : computeHist auto (.int n) xvas = .ok z)
    (h' : computeHist auto' (.int n) xvas' = .ok z') : z' = z := by
  obtain ⟨m, e, hE, hx⟩ := hist_ok h
  obtain ⟨m', e', hE', hx'⟩ := hist_ok h'
  obtain ⟨rfl, he⟩ := edges_unique (fun x => (hp.map (·.1)).mem_iff) hE hE'
  obtain ⟨xf, pf, h1, h2, h3, -⟩ := C159_hist_partial hE hx
  obtain ⟨xf', pf', h1', h2', h3', -⟩ := C159_hist_partial hE' hx'
  rw [h] at h1
  rw [h'] at h1'
  cases h1
  cases h1'
  rw [h2, h2', h3, h3']
  congr 1
  · exact List.map_congr_left fun i hi => by
      have := List.mem_range.1 hi
      rw [he i (by omega), he (i + 1) (by omega)]
  · exact List.map_congr_left fun i hi => by
      have := List.mem_range.1 hi
      rw [he i (by omega), he (i + 1) (by omega), he 0 (by omega), he _ le_rfl, (counted_perm hp).length_eq, (counted_perm hp).length_eq]

end

/-- The values at two of the frames of `twoAtMin`, and at the last one. -/
def twoAtMinFirst : Xva ℚ := { twoAtMin with n := 2 }
@[inherit_doc twoAtMinFirst]
def twoAtMinLast : Xva ℚ := { twoAtMin with n := 1, data := fun name t k => twoAtMin.data name (t + 2) k }

/-- **C162 fails**: cut in two, the trajectory is refused, since its first part has no value in a bin. -/
theorem C162_fails : (Spec.points [twoAtMin]).Perm (Spec.points [twoAtMinFirst, twoAtMinLast]) ∧
    (∃ z, computeHist id (.int 3) [twoAtMin] = .ok z) ∧ computeHist id (.int 3) [twoAtMinFirst, twoAtMinLast] = .error .value := by
  refine ⟨?_, ⟨([1 / 4, 3 / 4], [0, 1]), by decide +kernel⟩, by decide +kernel⟩
  have : Spec.points [twoAtMin] = Spec.points [twoAtMinFirst, twoAtMinLast] := by decide +kernel
  rw [this]

/-- Positions `0, 1, 0, 1`. -/
def upDown : Xva ℚ := ⟨4, 1, fun t => t, fun name t _ => if name = "x" then (if t % 2 = 1 then 1 else 0) else 1, fun _ => "", fun _ => 0⟩

example := C162_hist_partial (auto := id) (auto' := id) (n := 3) (xvas := [upDown, upDown]) (xvas' := [upDown, { upDown with n := 2 }, { upDown with n := 2 }])
  (by have : Spec.points [upDown, upDown] = Spec.points [upDown, { upDown with n := 2 }, { upDown with n := 2 }] := by decide +kernel
      rw [this])
  (z := ([1 / 4, 3 / 4], [0, 1])) (z' := ([1 / 4, 3 / 4], [0, 1])) (by decide +kernel) (by decide +kernel)

/-! ## The free energy of the same values, and in other units -/

theorem fe_ok {auto : List ℝ → List ℝ} {spl : List ℝ → List ℝ → Except Err (List ℝ)} {n : ℤ} {kT : ℝ} {xvas : List (Xva ℝ)} {r : FreeEnergy}
    (h : compute1dFe auto spl (.int n) kT xvas = .ok r) :
    ∃ m e, Spec.Edges auto (.int n) ((Spec.points xvas).map (·.1)) m e ∧ ∀ y ∈ xvas, Spec.counted (e 0) (e m) (Spec.points [y]) ≠ [] := by
  unfold compute1dFe at h
  cases h1 : feEdges auto (.int n) xvas with
  | error => rw [h1] at h; cases h
  | ok edges =>
    rw [h1] at h
    cases h2 : binSums edges xvas with
    | error => simp only [bind, Except.bind, h2] at h; cases h
    | ok r => exact edges_of_ok h1 h2

theorem exists_greatest (f : ℕ → ℝ) : ∀ m, 1 ≤ m → ∃ M, (∃ i < m, f i = M) ∧ ∀ i < m, f i ≤ M
  | 0, h => by omega
  | 1, _ => ⟨f 0, ⟨0, by omega, rfl⟩, fun i hi => by rw [show i = 0 by omega]⟩
  | m + 2, _ => by
    obtain ⟨M, ⟨i, hi, hM⟩, hM'⟩ := exists_greatest f (m + 1) (by omega)
    rcases le_total (f (m + 1)) M with h | h
    · refine ⟨M, ⟨i, by omega, hM⟩, fun j hj => ?_⟩
      rcases Nat.lt_succ_iff_lt_or_eq.1 hj with h' | rfl
      · exact hM' j h'
      · exact h
    · refine ⟨f (m + 1), ⟨m + 1, by omega, rfl⟩, fun j hj => ?_⟩
      rcases Nat.lt_succ_iff_lt_or_eq.1 hj with h' | rfl
      · exact (hM' j h').trans h
      · exact le_rfl

/-- **C162, the part that holds.** Two sets of trajectories with the same values, in any order and cut in any way, have the same free
energy, forces and means, if neither is refused. -/
theorem C162_fe_partial {auto auto' : List ℝ → List ℝ} {spl : List ℝ → List ℝ → Except Err (List ℝ)} {n : ℤ} {kT : ℝ} {xvas xvas' : List (Xva ℝ)}
    (hp : (Spec.points xvas).Perm (Spec.points xvas')) {r r' : FreeEnergy} (h : compute1dFe auto spl (.int n) kT xvas = .ok r)
    (h' : compute1dFe auto' spl (.int n) kT xvas' = .ok r') : r' = r := by
  obtain ⟨m, e, hE, hx⟩ := fe_ok h
  obtain ⟨m', e', hE', hx'⟩ := fe_ok h'
  obtain ⟨rfl, he⟩ := edges_unique (fun x => (hp.map (·.1)).mem_iff) hE hE'
  have hm : 1 ≤ m' := hE.2.1
  have ec : ∀ i < m', Spec.cnt e' (Spec.points xvas') i = Spec.cnt e (Spec.points xvas) i := fun i hi => by
    unfold Spec.cnt
    rw [he i (by omega), he (i + 1) (by omega), (counted_perm hp).length_eq]
  have es : ∀ (f : ℝ × ℝ × ℝ → ℝ) (i j : ℕ), i ≤ m' → j ≤ m' →
      Spec.sumIn f (e' i) (e' j) (Spec.points xvas') = Spec.sumIn f (e i) (e j) (Spec.points xvas) := fun f i j hi hj => by
    unfold Spec.sumIn
    rw [he i hi, he j hj]
    exact ((counted_perm hp).map f).sum_eq.symm
  have ef : Spec.filled e' (Spec.points xvas') m' = Spec.filled e (Spec.points xvas) m' := by
    unfold Spec.filled
    refine List.filter_congr fun i hi => ?_
    have := List.mem_range.1 hi
    rw [decide_eq_decide, he i (by omega), he (i + 1) (by omega), ne_eq, ne_eq, ← List.length_eq_zero_iff, ← List.length_eq_zero_iff,
      (counted_perm hp).length_eq]
  have hlt : ∀ i ∈ Spec.filled e (Spec.points xvas) m', i < m' := fun i hi => List.mem_range.1 (List.mem_filter.1 hi).1
  obtain ⟨M, hM, hM'⟩ := exists_greatest (Spec.cnt e (Spec.points xvas)) m' hm
  have hMM : ∃ i < m', Spec.cnt e' (Spec.points xvas') i = M := by
    obtain ⟨i, hi, hiM⟩ := hM
    exact ⟨i, hi, by rw [ec i hi, hiM]⟩
  have g := (C160_free_energy (spl := spl) (kT := kT) hE hx hM hM' rfl rfl rfl rfl).1
  have g' := (C160_free_energy (spl := spl) (kT := kT) hE' hx' hMM (fun i hi => by rw [ec i hi]; exact hM' i hi) rfl rfl rfl rfl).1
  have k1 : ((Spec.filled e' (Spec.points xvas') m').map fun i => (e' (i + 1) + e' i) / 2) =
      (Spec.filled e (Spec.points xvas) m').map fun i => (e (i + 1) + e i) / 2 := by
    rw [ef]
    exact List.map_congr_left fun i hi => by have := hlt i hi; rw [he i (by omega), he (i + 1) (by omega)]
  have k2 : ((Spec.filled e' (Spec.points xvas') m').map fun i => -Real.log (Spec.cnt e' (Spec.points xvas') i / M)) =
      (Spec.filled e (Spec.points xvas) m').map fun i => -Real.log (Spec.cnt e (Spec.points xvas) i / M) := by
    rw [ef]
    exact List.map_congr_left fun i hi => by rw [ec i (hlt i hi)]
  have k3 : ((Spec.counted (e' 0) (e' m') (Spec.points xvas')).length : ℝ) = (Spec.counted (e 0) (e m') (Spec.points xvas)).length := by
    rw [he 0 (by omega), he m' le_rfl, (counted_perm hp).length_eq]
  have k4 : ∀ T : ℝ, ((Spec.filled e' (Spec.points xvas') m').map fun i =>
        Spec.sumIn (fun p => p.2.1 ^ 2) (e' i) (e' (i + 1)) (Spec.points xvas') / T) =
      (Spec.filled e (Spec.points xvas) m').map fun i => Spec.sumIn (fun p => p.2.1 ^ 2) (e i) (e (i + 1)) (Spec.points xvas) / T := by
    intro T
    rw [ef]
    exact List.map_congr_left fun i hi => by have := hlt i hi; rw [es _ i (i + 1) (by omega) (by omega)]
  have k5 : ∀ f : ℝ × ℝ × ℝ → ℝ, ((Spec.filled e' (Spec.points xvas') m').map fun i =>
        Spec.sumIn f (e' i) (e' (i + 1)) (Spec.points xvas') / Spec.cnt e' (Spec.points xvas') i) =
      (Spec.filled e (Spec.points xvas) m').map fun i =>
        Spec.sumIn f (e i) (e (i + 1)) (Spec.points xvas) / Spec.cnt e (Spec.points xvas) i := by
    intro f
    rw [ef]
    exact List.map_congr_left fun i hi => by have := hlt i hi; rw [es _ i (i + 1) (by omega) (by omega), ec i this]
  have k6 : ∀ T : ℝ, ((Spec.filled e' (Spec.points xvas') m').map fun i => Spec.cnt e' (Spec.points xvas') i / T) =
      (Spec.filled e (Spec.points xvas) m').map fun i => Spec.cnt e (Spec.points xvas) i / T := by
    intro T
    rw [ef]
    exact List.map_congr_left fun i hi => by rw [ec i (hlt i hi)]
  simp only [k1, k2, k3, k4, k5, k6, es _ 0 m' (by omega) le_rfl] at g'
  rw [← g, h', h] at g'
  exact Except.ok.inj g'

namespace Spec

/-- The same trajectory in other units of length and with another origin. -/
def affine (c s : ℝ) (y : Xva ℝ) : Xva ℝ :=
  { y with data := fun name t k => if name = "x" then c * y.data name t k + s else c * y.data name t k }

/-- The derivative of the spline at its knots follows the units of length and of the values. -/
def SplineUnits (spl : List ℝ → List ℝ → Except Err (List ℝ)) : Prop :=
  ∀ c s d : ℝ, 0 < c → ∀ xs ys, spl (xs.map fun x => c * x + s) (ys.map fun y => d * y) = (spl xs ys).map (List.map fun z => d / c * z)

end Spec

theorem points_affine (c s : ℝ) (xvas : List (Xva ℝ)) :
    Spec.points (xvas.map (Spec.affine c s)) = (Spec.points xvas).map fun p => (c * p.1 + s, c * p.2.1, c * p.2.2) := by
  unfold Spec.points
  simp [List.map_flatMap, List.flatMap_map, Spec.affine, Function.comp_def]

theorem counted_affine {c s : ℝ} (hc : 0 < c) (a b : ℝ) (pts : List (ℝ × ℝ × ℝ)) :
    Spec.counted (c * a + s) (c * b + s) (pts.map fun p => (c * p.1 + s, c * p.2.1, c * p.2.2)) =
      (Spec.counted a b pts).map fun p => (c * p.1 + s, c * p.2.1, c * p.2.2) := by
  unfold Spec.counted
  rw [List.filter_map]
  congr 1
  refine List.filter_congr fun p _ => ?_
  simp only [Function.comp]
  rw [decide_eq_decide]
  constructor
  · rintro ⟨h1, h2⟩
    exact ⟨lt_of_mul_lt_mul_left (by linarith) hc.le, le_of_mul_le_mul_left (by linarith) hc⟩
  · rintro ⟨h1, h2⟩
    have := mul_lt_mul_of_pos_left h1 hc
    have := mul_le_mul_of_nonneg_left h2 hc.le
    exact ⟨by linarith, by linarith⟩

theorem edges_affine {auto : List ℝ → List ℝ} {n : ℤ} {xvas : List (Xva ℝ)} {m : ℕ} {e : ℕ → ℝ} {c s : ℝ} (hc : 0 < c)
    (h : Spec.Edges auto (.int n) ((Spec.points xvas).map (·.1)) m e) :
    Spec.Edges auto (.int n) ((Spec.points (xvas.map (Spec.affine c s))).map (·.1)) m (fun i => c * e i + s) := by
  obtain ⟨hn, hm, lo, hlo, hi, hhi, hlt, hb, he⟩ := h
  have hmem : ∀ x, x ∈ (Spec.points (xvas.map (Spec.affine c s))).map (·.1) ↔ ∃ y ∈ (Spec.points xvas).map (·.1), c * y + s = x := by
    intro x
    rw [points_affine]
    simp
  refine ⟨hn, hm, c * lo + s, (hmem _).2 ⟨lo, hlo, rfl⟩, c * hi + s, (hmem _).2 ⟨hi, hhi, rfl⟩, by nlinarith, fun x hx => ?_, fun i hi' => ?_⟩
  · obtain ⟨y, hy, rfl⟩ := (hmem x).1 hx
    have := hb y hy
    constructor <;> nlinarith
  · simp only
    rw [he i hi']
    ring

/-- **C161, the part that holds.** In other units of length and with another origin, and the thermal energy in the same units, the
positions, the free energy, the mean acceleration, the total force and the mean square velocity are in the new units. The force is
divided by the ratio of the units, while it would be multiplied if it were an acceleration. -/
theorem C161_units_partial {auto : List ℝ → List ℝ} {spl : List ℝ → List ℝ → Except Err (List ℝ)} (hs : Spec.SplineUnits spl) {n : ℤ} {kT : ℝ}
    {xvas : List (Xva ℝ)} {c s : ℝ} (hc : 0 < c) {r : FreeEnergy} (h : compute1dFe auto spl (.int n) kT xvas = .ok r) :
    compute1dFe auto spl (.int n) (c ^ 2 * kT) (xvas.map (Spec.affine c s)) = .ok
      { x := r.x.map fun x => c * x + s
        fe := r.fe
        force := r.force.map fun f => f / c
        meanA := r.meanA.map fun a => c * a
        forceTot := r.forceTot.map fun f => c * f
        mass := r.mass.map fun w => c ^ 2 * w } := by
  obtain ⟨m, e, hE, hx⟩ := fe_ok h
  have hm : 1 ≤ m := hE.2.1
  have hx' : ∀ y ∈ xvas.map (Spec.affine c s), Spec.counted (c * e 0 + s) (c * e m + s) (Spec.points [y]) ≠ [] := by
    intro y hy
    obtain ⟨z, hz, rfl⟩ := List.mem_map.1 hy
    have := points_affine c s [z]
    rw [List.map_singleton] at this
    rw [this, counted_affine hc]
    simpa using hx z hz
  obtain ⟨M, hM, hM'⟩ := exists_greatest (Spec.cnt e (Spec.points xvas)) m hm
  have hE' := edges_affine (s := s) hc hE
  obtain ⟨e', he'⟩ : ∃ e' : ℕ → ℝ, e' = fun i => c * e i + s := ⟨_, rfl⟩
  have hval : ∀ i, e' i = c * e i + s := fun i => by rw [he']
  rw [← he'] at hE'
  have ec : ∀ i, Spec.cnt e' (Spec.points (xvas.map (Spec.affine c s))) i = Spec.cnt e (Spec.points xvas) i := fun i => by
    unfold Spec.cnt
    rw [hval, hval, points_affine, counted_affine hc, List.length_map]
  have ef : Spec.filled e' (Spec.points (xvas.map (Spec.affine c s))) m = Spec.filled e (Spec.points xvas) m := by
    unfold Spec.filled
    refine List.filter_congr fun i hi => ?_
    rw [decide_eq_decide, hval, hval, points_affine, counted_affine hc, ne_eq, List.map_eq_nil_iff]
  have ev : ∀ i j : ℕ, Spec.sumIn (fun p => p.2.1 ^ 2) (e' i) (e' j) (Spec.points (xvas.map (Spec.affine c s))) =
      c ^ 2 * Spec.sumIn (fun p => p.2.1 ^ 2) (e i) (e j) (Spec.points xvas) := fun i j => by
    unfold Spec.sumIn
    rw [hval, hval, points_affine, counted_affine hc, List.map_map, ← List.sum_map_mul_left]
    exact congrArg _ (List.map_congr_left fun p _ => by simp only [Function.comp]; ring)
  have ea : ∀ i j : ℕ, Spec.sumIn (fun p => p.2.2) (e' i) (e' j) (Spec.points (xvas.map (Spec.affine c s))) =
      c * Spec.sumIn (fun p => p.2.2) (e i) (e j) (Spec.points xvas) := fun i j => by
    unfold Spec.sumIn
    rw [hval, hval, points_affine, counted_affine hc, List.map_map, ← List.sum_map_mul_left]
    exact congrArg _ (List.map_congr_left fun p _ => by simp only [Function.comp])
  have g := (C160_free_energy (spl := spl) (kT := kT) hE hx hM hM' rfl rfl rfl rfl).1
  have g' := (C160_free_energy (spl := spl) (kT := c ^ 2 * kT) hE' (by rw [hval, hval]; exact hx') (M := M)
    (by obtain ⟨i, hi, hiM⟩ := hM; exact ⟨i, hi, by rw [ec i, hiM]⟩) (fun i hi => by rw [ec i]; exact hM' i hi) rfl rfl rfl rfl).1
  have k3 : ((Spec.counted (e' 0) (e' m) (Spec.points (xvas.map (Spec.affine c s)))).length : ℝ) =
      (Spec.counted (e 0) (e m) (Spec.points xvas)).length := by
    rw [hval, hval, points_affine, counted_affine hc, List.length_map]
  rw [h] at g
  simp only [ef, ec, ev, ea, k3] at g'
  rw [g']
  obtain ⟨T, hT⟩ : ∃ T : ℝ, T = (Spec.counted (e 0) (e m) (Spec.points xvas)).length := ⟨_, rfl⟩
  rw [← hT] at g ⊢
  obtain ⟨F, hF⟩ : ∃ F, F = Spec.filled e (Spec.points xvas) m := ⟨_, rfl⟩
  rw [← hF] at g ⊢
  obtain ⟨x, hxx⟩ : ∃ x, x = F.map fun i => (e (i + 1) + e i) / 2 := ⟨_, rfl⟩
  obtain ⟨fe, hfe⟩ : ∃ fe, fe = F.map fun i => -Real.log (Spec.cnt e (Spec.points xvas) i / M) := ⟨_, rfl⟩
  obtain ⟨w, hw⟩ : ∃ w, w = F.map fun i => Spec.sumIn (fun p => p.2.1 ^ 2) (e i) (e (i + 1)) (Spec.points xvas) / T := ⟨_, rfl⟩
  have kx : (F.map fun i => (e' (i + 1) + e' i) / 2) = x.map fun z => c * z + s := by
    rw [hxx, List.map_map]
    exact List.map_congr_left fun i _ => by simp only [Function.comp, hval]; ring
  have kw : (F.map fun i => c ^ 2 * Spec.sumIn (fun p => p.2.1 ^ 2) (e i) (e (i + 1)) (Spec.points xvas) / T) =
      w.map fun z => c ^ 2 * z := by
    rw [hw, List.map_map]
    exact List.map_congr_left fun i _ => by simp only [Function.comp]; ring
  rw [kx, kw, ← hfe]
  rw [← hxx, ← hfe, ← hw] at g
  have s1 := hs c s 1 hc x fe
  rw [show (fe.map fun y => 1 * y) = fe by simp] at s1
  have s2 := hs c s (c ^ 2) hc x w
  rw [s1, s2]
  cases h1 : spl x fe with
  | error => rw [h1] at g; cases g
  | ok dfe =>
    rw [h1] at g
    cases h2 : spl x w with
    | error => rw [h2] at g; cases g
    | ok drho =>
      rw [h2] at g
      simp only [bind, Except.bind, pure, Except.pure, Except.map] at g ⊢
      rw [Except.ok.inj g]
      simp only [List.map_map]
      have hc0 := hc.ne'
      congr 2
      · refine List.map_congr_left fun d _ => ?_
        simp only [Function.comp]
        rw [mul_div_assoc (c ^ 2)]
        generalize Spec.sumIn (fun p => p.2.1 ^ 2) (e 0) (e m) (Spec.points xvas) / T = q
        rcases eq_or_ne q 0 with rfl | hq
        · simp
        · field_simp
      · exact List.map_congr_left fun i _ => by simp only [Function.comp]; ring
      · rw [List.zipWith_map_left, List.map_zipWith]
        congr 1
        funext a b
        field_simp
      · exact List.map_congr_left fun i _ => by simp only [Function.comp]; ring

/-! ## One, two, four and eight frames in four bins -/

/-- The number of binary digits. -/
def rung (t : ℕ) : ℕ := if t = 0 then 0 else if t < 2 then 1 else if t < 4 then 2 else if t < 8 then 3 else 4

/-- The position is the number of binary digits of the frame, the velocity is one at the first frame of every position. -/
noncomputable def ladder : Xva ℝ :=
  ⟨16, 1, fun t => t, fun name t _ => if name = "x" then (rung t : ℝ) else if t ∈ [1, 2, 4, 8] then 1 else 0, fun _ => "", fun _ => 0⟩

theorem ladder_points : Spec.points [ladder] =
    (List.range 16).map fun t => ((rung t : ℝ), if t ∈ [1, 2, 4, 8] then 1 else 0, if t ∈ [1, 2, 4, 8] then 1 else 0) := by
  rw [points_eq, List.flatMap_singleton]
  unfold stacked
  rw [List.flatMap_eq_foldl]
  rfl

theorem ladder_counted (a b : ℕ) : Spec.counted (a : ℝ) (b : ℝ) (Spec.points [ladder]) =
    ((List.range 16).filter fun t => a < rung t ∧ rung t ≤ b).map fun t =>
      ((rung t : ℝ), if t ∈ [1, 2, 4, 8] then 1 else 0, if t ∈ [1, 2, 4, 8] then 1 else 0) := by
  rw [ladder_points]
  unfold Spec.counted
  rw [List.filter_map]
  congr 1
  refine List.filter_congr fun t _ => ?_
  simp only [Function.comp]
  rw [decide_eq_decide, Nat.cast_lt, Nat.cast_le]

theorem ladder_edges (auto : List ℝ → List ℝ) : Spec.Edges auto (.int 5) ((Spec.points [ladder]).map (·.1)) 4 (fun i => (i : ℝ)) := by
  have hmem : ∀ x, x ∈ (Spec.points [ladder]).map (·.1) ↔ ∃ t < 16, ((rung t : ℕ) : ℝ) = x := by
    intro x
    rw [ladder_points, List.map_map]
    simp
  refine ⟨rfl, by decide, 0, (hmem _).2 ⟨0, by decide, by simp [rung]⟩, 4, (hmem _).2 ⟨15, by decide, ?_⟩, by norm_num, fun x hx => ?_, fun i _ => ?_⟩
  · rw [show rung 15 = 4 by decide]; norm_num
  · obtain ⟨t, ht, rfl⟩ := (hmem x).1 hx
    have : rung t ≤ 4 := by unfold rung; split_ifs <;> omega
    exact ⟨by positivity, by exact_mod_cast this⟩
  · norm_num

theorem ladder_cnt {i : ℕ} (hi : i < 4) : Spec.cnt (fun i => (i : ℝ)) (Spec.points [ladder]) i = 2 ^ i := by
  unfold Spec.cnt
  rw [ladder_counted i (i + 1), List.length_map]
  rw [show ((List.range 16).filter fun t => i < rung t ∧ rung t ≤ i + 1).length = 2 ^ i by interval_cases i <;> decide]
  push_cast
  rfl

theorem ladder_sum {f : ℝ × ℝ × ℝ → ℝ} (hf : ∀ x, f (x, 0, 0) = 0 ∧ f (x, 1, 1) = 1) {a b : ℕ} (hab : a ≤ b) (hb : b ≤ 4) :
    Spec.sumIn f (a : ℝ) (b : ℝ) (Spec.points [ladder]) = b - a := by
  unfold Spec.sumIn
  rw [ladder_counted, List.map_map]
  have : ∀ l : List ℕ, (l.map (f ∘ fun t => ((rung t : ℝ), if t ∈ [1, 2, 4, 8] then (1 : ℝ) else 0, if t ∈ [1, 2, 4, 8] then (1 : ℝ) else 0))).sum =
      ((l.filter fun t => t ∈ [1, 2, 4, 8]).length : ℝ) := by
    intro l
    induction l with
    | nil => simp
    | cons t ts ih =>
      rw [List.map_cons, List.sum_cons, ih, List.filter_cons]
      simp only [Function.comp]
      by_cases h : t ∈ [1, 2, 4, 8]
      · rw [if_pos h, if_pos (decide_eq_true h), (hf _).2, List.length_cons]
        push_cast
        ring
      · rw [if_neg h, if_neg (by simpa using h), (hf _).1, zero_add]
  rw [this, ← Nat.cast_sub hab]
  congr 1
  interval_cases b <;> interval_cases a <;> decide

theorem ladder_hx : ∀ y ∈ [ladder], Spec.counted ((0 : ℕ) : ℝ) ((4 : ℕ) : ℝ) (Spec.points [y]) ≠ [] := by
  intro y hy
  rw [List.mem_singleton.1 hy, ladder_counted, ne_eq, List.map_eq_nil_iff]
  decide

theorem ladder_filled : Spec.filled (fun i => (i : ℝ)) (Spec.points [ladder]) 4 = [0, 1, 2, 3] := by
  unfold Spec.filled
  rw [show [0, 1, 2, 3] = List.range 4 by decide]
  refine List.filter_eq_self.2 fun i hi => decide_eq_true fun h => ?_
  have h1 := ladder_cnt (List.mem_range.1 hi)
  unfold Spec.cnt at h1
  rw [h] at h1
  have : (0 : ℝ) < 2 ^ i := by positivity
  rw [← h1] at this
  simp at this

/-- The derivative of the spline is exact for straight lines, given four increasing points at least. -/
def Spec.SplineLines (spl : List ℝ → List ℝ → Except Err (List ℝ)) : Prop :=
  ∀ (xs : List ℝ) (α β : ℝ), 4 ≤ xs.length → xs.Pairwise (· < ·) → spl xs (xs.map fun x => α + β * x) = .ok (xs.map fun _ => β)

/-- The free energy of `ladder` is a straight line. -/
theorem ladder_fe {auto : List ℝ → List ℝ} {spl : List ℝ → List ℝ → Except Err (List ℝ)} (hs : Spec.SplineLines spl) (kT : ℝ) :
    compute1dFe auto spl (.int 5) kT [ladder] = .ok
      { x := [1 / 2, 3 / 2, 5 / 2, 7 / 2]
        fe := [3 * Real.log 2, 2 * Real.log 2, Real.log 2, 0]
        force := List.replicate 4 (15 / 4 * kT * Real.log 2)
        meanA := [1, 1 / 2, 1 / 4, 1 / 8]
        forceTot := [0, 0, 0, 0]
        mass := [1, 1 / 2, 1 / 4, 1 / 8] } := by
  have g := (C160_free_energy (auto := auto) (spl := spl) (bins := .int 5) (kT := kT) (xvas := [ladder]) (m := 4) (e := fun i => (i : ℝ)) (M := 8)
    (pts := Spec.points [ladder]) (T := 15)
    (x := [1 / 2, 3 / 2, 5 / 2, 7 / 2]) (fe := [3 * Real.log 2, 2 * Real.log 2, Real.log 2, 0]) (ladder_edges auto) ladder_hx
    ⟨3, by decide, by rw [ladder_cnt (by decide)]; norm_num⟩ (fun i hi => by
      rw [ladder_cnt hi]; interval_cases i <;> norm_num) rfl (by
      rw [ladder_counted 0 4, List.length_map]
      rw [show ((List.range 16).filter fun t => 0 < rung t ∧ rung t ≤ 4).length = 15 by decide]; norm_num)
    (by rw [ladder_filled]; norm_num) (by
      rw [ladder_filled]
      simp only [List.map_cons, List.map_nil, ladder_cnt (show 0 < 4 by decide), ladder_cnt (show 1 < 4 by decide),
        ladder_cnt (show 2 < 4 by decide), ladder_cnt (show 3 < 4 by decide)]
      have h8 : Real.log 8 = 3 * Real.log 2 := by rw [show (8 : ℝ) = 2 ^ 3 by norm_num, Real.log_pow]; norm_num
      have h4 : Real.log 4 = 2 * Real.log 2 := by rw [show (4 : ℝ) = 2 ^ 2 by norm_num, Real.log_pow]; norm_num
      norm_num
      simp only [one_div, Real.log_inv, neg_neg, h8, h4, and_self])).1
  rw [g]
  have hv : ∀ i < 4, Spec.sumIn (fun p => p.2.1 ^ 2) ((i : ℕ) : ℝ) ((i + 1 : ℕ) : ℝ) (Spec.points [ladder]) = 1 := fun i hi => by
    rw [ladder_sum (fun x => by norm_num) (by omega) (by omega)]; push_cast; ring
  have ha : ∀ i < 4, Spec.sumIn (fun p => p.2.2) ((i : ℕ) : ℝ) ((i + 1 : ℕ) : ℝ) (Spec.points [ladder]) = 1 := fun i hi => by
    rw [ladder_sum (fun x => by norm_num) (by omega) (by omega)]; push_cast; ring
  have hv0 : Spec.sumIn (fun p => p.2.1 ^ 2) ((0 : ℕ) : ℝ) ((4 : ℕ) : ℝ) (Spec.points [ladder]) = 4 := by
    rw [ladder_sum (fun x => by norm_num) (by omega) (by omega)]; norm_num
  have s1 := hs [1 / 2, 3 / 2, 5 / 2, 7 / 2] (7 / 2 * Real.log 2) (-Real.log 2) (by decide) (by norm_num)
  have s2 := hs [1 / 2, 3 / 2, 5 / 2, 7 / 2] (1 / 15) 0 (by decide) (by norm_num)
  rw [show ([1 / 2, 3 / 2, 5 / 2, 7 / 2].map fun x => 7 / 2 * Real.log 2 + -Real.log 2 * x) =
    [3 * Real.log 2, 2 * Real.log 2, Real.log 2, 0] by
      simp only [List.map_cons, List.map_nil, List.cons.injEq, and_true]; refine ⟨?_, ?_, ?_, ?_⟩ <;> ring] at s1
  rw [ladder_filled]
  simp only [List.map_cons, List.map_nil, hv 0 (by decide), hv 1 (by decide), hv 2 (by decide), hv 3 (by decide), ha 0 (by decide),
    ha 1 (by decide), ha 2 (by decide), ha 3 (by decide), ladder_cnt (show 0 < 4 by decide), ladder_cnt (show 1 < 4 by decide),
    ladder_cnt (show 2 < 4 by decide), ladder_cnt (show 3 < 4 by decide), s1, hv0]
  rw [show ([1 / 2, 3 / 2, 5 / 2, 7 / 2].map fun x : ℝ => 1 / 15 + 0 * x) = [1 / 15, 1 / 15, 1 / 15, 1 / 15] by simp] at s2
  simp only [s2, bind, Except.bind, pure, Except.pure]
  congr 2
  · simp only [List.map_cons, List.map_nil, List.replicate, List.cons.injEq, and_true]
    refine ⟨?_, ?_, ?_, ?_⟩ <;> ring
  · norm_num
  · simp
  · norm_num

/-- **C161 fails**: the force does not follow the units, whichever spline it is that follows the units and is exact for straight lines.
With lengths doubled the accelerations and the total force are doubled, and the force is halved. -/
theorem C161_fails {auto : List ℝ → List ℝ} {spl : List ℝ → List ℝ → Except Err (List ℝ)} (hs : Spec.SplineUnits spl) (hl : Spec.SplineLines spl) :
    ¬ ∀ (n : ℤ) (kT c : ℝ) (xvas : List (Xva ℝ)) (r r' : FreeEnergy), 0 < c → compute1dFe auto spl (.int n) kT xvas = .ok r →
      compute1dFe auto spl (.int n) (c ^ 2 * kT) (xvas.map (Spec.affine c 0)) = .ok r' → r'.force = r.force.map fun f => c * f := by
  intro H
  have h := ladder_fe (auto := auto) hl 1
  have h' := C161_units_partial (s := 0) hs (show (0 : ℝ) < 2 by norm_num) h
  have := H 5 1 2 [ladder] _ _ (by norm_num) h h'
  simp only [List.replicate, List.map_cons, List.cons.injEq] at this
  have hlog : 0 < Real.log 2 := Real.log_pos (by norm_num)
  linarith [this.1]

/-- The slope between the first and the last point. -/
noncomputable def chord (xs ys : List ℝ) : Except Err (List ℝ) :=
  .ok (xs.map fun _ => (ys.getLastD 0 - ys.headD 0) / (xs.getLastD 0 - xs.headD 0))

theorem getLastD_map (f : ℝ → ℝ) : ∀ (l : List ℝ), l ≠ [] → (l.map f).getLastD 0 = f (l.getLastD 0)
  | [], h => absurd rfl h
  | [a], _ => rfl
  | a :: b :: l, _ => by
    have := getLastD_map f (b :: l) (by simp)
    simpa [List.getLastD_cons] using this

theorem chord_units : Spec.SplineUnits chord := by
  intro c s d hc xs ys
  unfold chord
  simp only [Except.map, List.map_map]
  congr 1
  refine List.map_congr_left fun z hz => ?_
  simp only [Function.comp]
  have hx : xs ≠ [] := List.ne_nil_of_mem hz
  rw [getLastD_map _ xs hx]
  have h1 : (ys.map fun y => d * y).getLastD 0 = d * ys.getLastD 0 := by
    by_cases hy : ys = []
    · rw [hy]; simp
    · exact getLastD_map _ ys hy
  have h2 : (ys.map fun y => d * y).headD 0 = d * ys.headD 0 := by cases ys <;> simp
  have h3 : (xs.map fun x => c * x + s).headD 0 = c * xs.headD 0 + s := by
    cases xs with
    | nil => exact absurd rfl hx
    | cons => simp
  rw [h1, h2, h3, add_sub_add_right_eq_sub, ← mul_sub, ← mul_sub, mul_div_mul_comm]

theorem chord_lines {xs : List ℝ} (hx : xs.headD 0 ≠ xs.getLastD 0) (α β : ℝ) : chord xs (xs.map fun x => α + β * x) = .ok (xs.map fun _ => β) := by
  unfold chord
  congr 1
  refine List.map_congr_left fun z hz => ?_
  have h0 : xs ≠ [] := List.ne_nil_of_mem hz
  rw [getLastD_map _ xs h0]
  have h3 : (xs.map fun x => α + β * x).headD 0 = α + β * xs.headD 0 := by
    cases xs with
    | nil => exact absurd rfl h0
    | cons => simp
  rw [h3]
  have : xs.getLastD 0 - xs.headD 0 ≠ 0 := sub_ne_zero.2 (Ne.symm hx)
  field_simp
  ring

theorem chord_splineLines : Spec.SplineLines chord := by
  intro xs α β hl hp
  refine chord_lines (ne_of_lt ?_) α β
  cases xs with
  | nil => simp at hl
  | cons a l =>
    cases l with
    | nil => simp at hl
    | cons b l =>
      rw [List.headD_cons]
      have hm : (a :: b :: l).getLastD 0 ∈ b :: l := by
        rw [List.getLastD_cons, List.getLastD_cons]
        cases l with
        | nil => simp
        | cons c l => 
          rw [List.getLastD_cons, List.getLastD_eq_getLast?]
          cases h : l.getLast? with
          | none => simp
          | some z => simp [List.mem_of_getLast? h]
      exact (List.pairwise_cons.1 hp).1 _ hm

example := C160_free_energy (auto := id) (spl := chord) (bins := .int 5) (kT := 1) (xvas := [ladder]) (m := 4) (e := fun i => (i : ℝ)) (M := 8)
  (ladder_edges id) ladder_hx ⟨3, by decide, by rw [ladder_cnt (by decide)]; norm_num⟩
  (fun i hi => by rw [ladder_cnt hi]; interval_cases i <;> norm_num) rfl rfl rfl rfl

example := C160_error (auto := id) (spl := chord) (bins := .int 5) (kT := 1) (xvas := [ladder, { ladder with n := 1 }]) (m := 4)
  (e := fun i => (i : ℝ)) (by
    obtain ⟨h1, h2, lo, hlo, hi, hhi, hlt, hb, he⟩ := ladder_edges id
    have hz : ∀ x, x ∈ (Spec.points [ladder, { ladder with n := 1 }]).map (·.1) ↔ x ∈ (Spec.points [ladder]).map (·.1) := by
      intro x
      have h1 : (Spec.points [ladder, { ladder with n := 1 }]) = Spec.points [ladder] ++ [((0 : ℝ), (0 : ℝ), (0 : ℝ))] := by
        simp [Spec.points, ladder, rung]
      have h0 : (0 : ℝ) ∈ (Spec.points [ladder]).map (·.1) := by
        rw [ladder_points, List.map_map]
        exact List.mem_map.2 ⟨0, by decide, by simp [rung]⟩
      rw [h1, List.map_append, List.mem_append]
      constructor
      · rintro (h | h)
        · exact h
        · have : x = 0 := by simpa using h
          rwa [this]
      · exact Or.inl
    exact ⟨h1, h2, lo, (hz _).2 hlo, hi, (hz _).2 hhi, hlt, fun x hx => hb x ((hz x).1 hx), he⟩)
  ⟨{ ladder with n := 1 }, by simp, by simp [Spec.points, Spec.counted, ladder, rung]⟩

example := C161_units_partial (auto := id) chord_units (c := 2) (s := 3) (by norm_num) (ladder_fe (auto := id) chord_splineLines 1)
example := C161_fails (auto := id) chord_units chord_splineLines

/-- With `chord` there is always a result. -/
theorem chord_ok {auto : List ℝ → List ℝ} {bins : BinsArg} {kT : ℝ} {xvas : List (Xva ℝ)} {m : ℕ} {e : ℕ → ℝ}
    (hE : Spec.Edges auto bins ((Spec.points xvas).map (·.1)) m e) (hx : ∀ y ∈ xvas, Spec.counted (e 0) (e m) (Spec.points [y]) ≠ []) :
    ∃ r, compute1dFe auto chord bins kT xvas = .ok r := by
  obtain ⟨M, hM, hM'⟩ := exists_greatest (Spec.cnt e (Spec.points xvas)) m (feEdges_spec hE).2.1
  exact ⟨_, (C160_free_energy hE hx hM hM' rfl rfl rfl rfl).1⟩

/-- `ladder` run backwards. -/
noncomputable def ladderBack : Xva ℝ := { ladder with data := fun name t k => ladder.data name (15 - t) k }

theorem ladderBack_perm : (Spec.points [ladder]).Perm (Spec.points [ladderBack]) := by
  rw [show Spec.points [ladderBack] = (Spec.points [ladder]).reverse from rfl]
  exact (List.reverse_perm _).symm

/-- An example of C162: run backwards the trajectory has the same free energy. -/
theorem C162_backwards : ∃ r, compute1dFe id chord (.int 5) 1 [ladder] = .ok r ∧ compute1dFe id chord (.int 5) 1 [ladderBack] = .ok r := by
  obtain ⟨r', h'⟩ := chord_ok (auto := id) (bins := .int 5) (kT := 1) (xvas := [ladderBack]) (m := 4) (e := fun i => (i : ℝ))
    (by
      obtain ⟨h1, h2, lo, hlo, hi, hhi, hlt, hb, he⟩ := ladder_edges id
      have hz : ∀ x, x ∈ (Spec.points [ladder]).map (·.1) ↔ x ∈ (Spec.points [ladderBack]).map (·.1) :=
        fun x => (ladderBack_perm.map (·.1)).mem_iff
      exact ⟨h1, h2, lo, (hz _).1 hlo, hi, (hz _).1 hhi, hlt, fun x hx => hb x ((hz x).2 hx), he⟩)
    (fun y hy h0 => by
      rw [List.mem_singleton.1 hy] at h0
      have := ladder_hx ladder (by simp)
      rw [← List.length_pos_iff, (counted_perm ladderBack_perm).length_eq, h0] at this
      simp at this)
  have h := ladder_fe (auto := id) chord_splineLines 1
  have := C162_fe_partial ladderBack_perm h h'
  exact ⟨_, h, by rw [h', this]⟩

end Verif
