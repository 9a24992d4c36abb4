import Verif.Model.Mesh
import Verif.Spec.Mesh
import Verif.Lemmas.Loops
import Mathlib.Tactic.FieldSimp
import Mathlib.Tactic.Ring
import Mathlib.Tactic.LinearCombination
import Mathlib.Algebra.Field.GeomSum
import Mathlib.Tactic.Positivity

/-!
# C75, C76, C77, C96, C97 and C98: the meshes of `_mesh_utils.py`
-/

set_option linter.unusedSectionVars false

namespace Verif

open Finset Spec

section
variable {K : Type*} [Field K] [LinearOrder K] [IsStrictOrderedRing K]

theorem linspace_get {a b : K} {n : ℕ} (hn : 0 < n) {i : ℕ} (hi : i ≤ n) :
    (npLinspace a b (n + 1)).get i = a + i * ((b - a) / n) := by
  have hn' : (n : K) ≠ 0 := Nat.cast_ne_zero.2 hn.ne'
  simp only [npLinspace]
  split_ifs with h
  · obtain rfl : i = n := by omega
    field_simp
    ring
  · push_cast
    rw [add_sub_cancel_right]
    ring

theorem linspace_mesh {a b : K} (hab : a < b) {n : ℕ} (hn : 0 < n) : MeshOf n a b (npLinspace a b (n + 1)).get := by
  have hn' : (0 : K) < n := Nat.cast_pos.2 hn
  refine ⟨?_, ?_, ?_⟩
  · rw [linspace_get hn (Nat.zero_le n)]; simp
  · rw [linspace_get hn le_rfl]; field_simp; ring
  · intro i j hij hj
    rw [linspace_get hn (by omega), linspace_get hn hj]
    have : (i : K) < j := Nat.cast_lt.2 hij
    have := mul_lt_mul_of_pos_right this (div_pos (sub_pos.2 hab) hn')
    linarith

/-- **C75**, `uniform_line`: `num + 1` points, a mesh of the domain when there is an element and `x_start < x_end`, all
the elements being of the same length. -/
theorem C75_uniform (a b : K) (num : ℕ) :
    (uniformLine a b num).len = num + 1 ∧ (uniformLine a b num).get 0 = a ∧
    (0 < num → (uniformLine a b num).get num = b) ∧
    (0 < num → a < b → MeshOf num a b (uniformLine a b num).get) ∧
    ∀ i < num, (uniformLine a b num).get (i + 1) - (uniformLine a b num).get i = (b - a) / num := by
  refine ⟨rfl, ?_, fun h => ?_, fun h hab => linspace_mesh hab h, fun i hi => ?_⟩
  · simp only [uniformLine, npLinspace]
    split_ifs with h
    · omega
    · simp
  · have : (num : K) ≠ 0 := Nat.cast_ne_zero.2 h.ne'
    rw [uniformLine, linspace_get h le_rfl]; field_simp; ring
  · rw [uniformLine, linspace_get (by omega) (by omega), linspace_get (by omega) (by omega)]
    push_cast
    ring

/-- C75 fails for a mesh without element: its only point is `x_start`. -/
theorem C75_no_element_fails {a b : K} (hab : a < b) : ∀ i < (uniformLine a b 0).len, (uniformLine a b 0).get i ≠ b := by
  intro i hi
  have : i = 0 := by simp only [uniformLine, npLinspace] at hi; omega
  subst this
  rw [(C75_uniform a b 0).2.1]
  exact hab.ne

example : (uniformLine (1 : ℚ) 3 4).get 3 = 5 / 2 := by decide +kernel

theorem npCumsum_eq (a : ℕ → K) (i : ℕ) : npCumsum a i = ∑ j ∈ range (i + 1), a j := by
  rw [npCumsum, forRange_add, zero_add, range_eq_Ico]

/-- **C75**, `non_uniform_line`: `num + 1` points from `x_start` to `x_end`, each element being `ratio` times the one
before. -/
theorem C75_non_uniform {a b ratio : K} {num : ℕ} (hnum : 0 < num) (h0 : 0 < ratio) (h1 : ratio ≠ 1) :
    ∃ r, nonUniformLine a b num ratio = .ok r ∧ r.len = num + 1 ∧ r.get 0 = a ∧ r.get num = b ∧
      (a < b → MeshOf num a b r.get) ∧
      ∀ i, i + 2 ≤ num → r.get (i + 2) - r.get (i + 1) = ratio * (r.get (i + 1) - r.get i) := by
  have hne : ratio ^ num - 1 ≠ 0 := by
    intro h
    exact h1 ((pow_eq_one_iff_of_nonneg h0.le hnum.ne').1 (sub_eq_zero.1 h))
  have h1' : ratio - 1 ≠ 0 := sub_ne_zero.2 h1
  refine ⟨_, if_neg hne, rfl, ?_, ?_, ?_, ?_⟩
  all_goals
    have key : ∀ i : ℕ, (if i = 0 then 0 else (ratio - 1) / (ratio ^ num - 1) * npCumsum (fun j => ratio ^ j) (i - 1)) =
        (ratio ^ i - 1) / (ratio ^ num - 1) := by
      intro i
      rcases Nat.eq_zero_or_pos i with rfl | hi
      · simp
      · rw [if_neg hi.ne', npCumsum_eq, Nat.sub_add_cancel hi, geom_sum_eq h1]
        field_simp
    simp only [key]
  · simp
  · rw [div_self hne]; ring
  · intro hab
    refine ⟨by simp, by rw [div_self hne]; ring, ?_⟩
    intro i j hij hj
    have : (ratio ^ i - 1) / (ratio ^ num - 1) < (ratio ^ j - 1) / (ratio ^ num - 1) := by
      rcases lt_or_gt_of_ne h1 with h | h
      · have hlt : ratio ^ j < ratio ^ i := pow_lt_pow_right_of_lt_one₀ h0 h hij
        have : ratio ^ num - 1 < 0 := sub_neg.2 (pow_lt_one₀ h0.le h hnum.ne')
        exact (div_lt_div_right_of_neg this).2 (by linarith)
      · have hlt : ratio ^ i < ratio ^ j := pow_lt_pow_right₀ h hij
        have : 0 < ratio ^ num - 1 := sub_pos.2 (one_lt_pow₀ h hnum.ne')
        exact (div_lt_div_iff_of_pos_right this).2 (by linarith)
    have := mul_lt_mul_of_pos_right this (sub_pos.2 hab)
    linarith
  · intro i hi
    field_simp
    ring

/-- `non_uniform_line` raises for a ratio of one, and without element. -/
theorem C75_ratio_one (a b ratio : K) (num : ℕ) :
    nonUniformLine a b num 1 = .error .zeroDivision ∧ nonUniformLine a b 0 ratio = .error .zeroDivision := by
  constructor <;> simp [nonUniformLine]

example : ∃ r, nonUniformLine (1 : ℚ) 8 3 2 = .ok r ∧ r.get 1 = 2 ∧ r.get 2 = 4 := by
  refine ⟨_, if_neg (by norm_num), ?_, ?_⟩ <;> norm_num [npCumsum, forRange, List.range', List.foldl]

/-! ### C76 -/

/-- A point with finite coordinates. -/
def finPt (p : K × K) : Flt K × Flt K := (.fin p.1, .fin p.2)

/-- **C76**: for lines that are not parallel the result is the only point on both, for parallel ones it is infinite. -/
theorem C76_intersection (a a' b b' : K × K) :
    (¬ Parallel a a' b b' → ∃ p, getIntersect (finPt a) (finPt a') (finPt b) (finPt b') = finPt p ∧ OnLine a a' p ∧
      OnLine b b' p ∧ ∀ q, OnLine a a' q → OnLine b b' q → q = p) ∧
    (Parallel a a' b b' → getIntersect (finPt a) (finPt a') (finPt b) (finPt b') = (.inf false, .inf false)) := by
  obtain ⟨a1, a2⟩ := a
  obtain ⟨a1', a2'⟩ := a'
  obtain ⟨b1, b2⟩ := b
  obtain ⟨b1', b2'⟩ := b'
  simp only [getIntersect, finPt, cross3, Flt.mul, Flt.sub, Flt.opp, Flt.add, Flt.isZero, Parallel, OnLine, Prod.mk.injEq,
    decide_eq_true_eq, Prod.forall, Prod.exists]
  set z := (a2 * 1 + -(1 * a2')) * (1 * b1' + -(b1 * 1)) + -((1 * a1' + -(a1 * 1)) * (b2 * 1 + -(1 * b2'))) with hz
  have e : z = (a1' - a1) * (b2' - b2) - (a2' - a2) * (b1' - b1) := by rw [hz]; ring
  constructor
  · intro h
    have hz0 : z ≠ 0 := fun h0 => h (sub_eq_zero.1 (e ▸ h0))
    simp only [if_neg hz0, Flt.div]
    refine ⟨_, _, rfl, ?_, ?_, ?_⟩
    · field_simp
      rw [e]; ring
    · field_simp
      rw [e]; ring
    · intro q1 q2 h1 h2
      constructor
      · rw [eq_div_iff hz0, e]
        linear_combination (b1' - b1) * h1 - (a1' - a1) * h2
      · rw [eq_div_iff hz0, e]
        linear_combination (b2' - b2) * h1 - (a2' - a2) * h2
  · intro h
    rw [if_pos (by rw [e]; exact sub_eq_zero.2 h)]

example : getIntersect (finPt ((0, 0) : ℚ × ℚ)) (finPt (1, 1)) (finPt (0, 2)) (finPt (2, 0)) = finPt (1, 1) ∧
    ¬ Parallel ((0, 0) : ℚ × ℚ) (1, 1) (0, 2) (2, 0) := by
  constructor
  · decide +kernel
  · unfold Parallel; norm_num

example : Parallel ((0, 0) : ℚ × ℚ) (1, 2) (0, 1) (2, 5) := by unfold Parallel; norm_num

/-! ### C77 -/

theorem edgeLengths_length (bv : List (Flt K × Flt K)) : (edgeLengths bv).length = bv.length - 1 := by
  simp [edgeLengths]

theorem argmin_lt {l : List (Flt K)} {i : ℕ} (h : npArgmin l = .ok i) : i < l.length := by
  cases l with
  | nil => simp [npArgmin] at h
  | cons a l =>
    simp only [npArgmin, Except.ok.injEq] at h
    subst h
    have key : ∀ (l : List (Flt K)) (k : ℕ) (best : Flt K × ℕ), best.2 < k →
        ((l.zipIdx k).foldl (fun (best : Flt K × ℕ) p =>
          if best.1 = .nan then best else if p.1 = .nan ∨ p.1.lt best.1 then p else best) best).2 < k + l.length := by
      intro l
      induction l with
      | nil => intro k best h; simpa using h
      | cons b l ih =>
        intro k best h
        rw [List.zipIdx_cons, List.foldl_cons]
        have := ih (k + 1) (if best.1 = .nan then best else if b = .nan ∨ b.lt best.1 then (b, k) else best)
          (by
            by_cases h1 : best.1 = .nan
            · rw [if_pos h1]; omega
            · rw [if_neg h1]
              by_cases h2 : b = .nan ∨ b.lt best.1
              · rw [if_pos h2]; exact Nat.lt_succ_self k
              · rw [if_neg h2]; omega)
        rw [List.length_cons, show k + (l.length + 1) = k + 1 + l.length by omega]
        exact this
    have := key l 1 (a, 0) Nat.one_pos
    simp only [List.length_cons]
    omega

/-- **C77**: an iteration that goes on has removed exactly one vertex, one that stops has changed nothing, and there is an
error when less than two vertices are left, only. -/
theorem C77_one_vertex (bv : List (Flt K × Flt K)) (limit : K) :
    (∀ bv', removeOnePoint bv limit = .ok (bv', true) → bv'.length + 1 = bv.length) ∧
    (∀ bv', removeOnePoint bv limit = .ok (bv', false) → bv' = bv) ∧
    ((∃ e, removeOnePoint bv limit = .error e) ↔ bv.length < 2) := by
  cases hm : npArgmin (edgeLengths bv) with
  | error e =>
    have : bv.length < 2 := by
      cases h : edgeLengths bv with
      | nil => have := edgeLengths_length bv; rw [h, List.length_nil] at this; omega
      | cons a l => rw [h] at hm; simp [npArgmin] at hm
    have e : removeOnePoint bv limit = .error e := by simp only [removeOnePoint, hm]
    simp [this, e]
  | ok i =>
    have hi := argmin_lt hm
    rw [edgeLengths_length] at hi
    have h2 : ¬ bv.length < 2 := by omega
    rcases Bool.eq_false_or_eq_true ((((edgeLengths bv).getD i .nan).div ((edgeLengths bv).foldl Flt.add (.fin 0))).lt
      (.fin limit)) with h | h
    · have e : ∃ p, removeOnePoint bv limit = .ok ((bv.set i p).eraseIdx ((i + 1) % bv.length), true) := by
        simp only [removeOnePoint, hm, h, if_true, List.length_set]
        exact ⟨_, rfl⟩
      obtain ⟨p, e⟩ := e
      rw [e]
      refine ⟨fun bv' hb => ?_, fun bv' hb => ?_, ⟨fun ⟨e, he⟩ => ?_, fun h => absurd h h2⟩⟩
      · simp only [Except.ok.injEq, Prod.mk.injEq, and_true] at hb
        rw [← hb, List.length_eraseIdx, List.length_set, if_pos (Nat.mod_lt _ (by omega))]
        omega
      · simp at hb
      · cases he
    · have e : removeOnePoint bv limit = .ok (bv, false) := by
        simp only [removeOnePoint, hm, h, Bool.false_eq_true, if_false]
      rw [e]
      simp [h2, eq_comm]

/-- **C77**: the loop stops after at most as many iterations as vertices (one iteration if there is no vertex). -/
theorem C77_terminates (limit : K) (bv : List (Flt K × Flt K)) :
    ∃ r, ∀ fuel, max 1 bv.length ≤ fuel → hullLoop limit fuel bv = some r := by
  induction hn : bv.length using Nat.strong_induction_on generalizing bv with
  | _ n ih =>
    subst hn
    obtain ⟨h1, h2, h3⟩ := C77_one_vertex bv limit
    cases hr : removeOnePoint bv limit with
    | error e =>
      refine ⟨.error e, fun fuel hf => ?_⟩
      obtain ⟨f, rfl⟩ : ∃ f, fuel = f + 1 := ⟨fuel - 1, by omega⟩
      simp [hullLoop, hr]
    | ok r =>
      obtain ⟨bv', go⟩ := r
      cases go with
      | false =>
        refine ⟨.ok bv', fun fuel hf => ?_⟩
        obtain ⟨f, rfl⟩ : ∃ f, fuel = f + 1 := ⟨fuel - 1, by omega⟩
        simp [hullLoop, hr]
      | true =>
        have hlen := h1 _ hr
        have h2' : ¬ bv.length < 2 := fun h => by obtain ⟨e, he⟩ := h3.2 h; rw [hr] at he; cases he
        obtain ⟨r, hr'⟩ := ih bv'.length (by omega) bv' rfl
        refine ⟨r, fun fuel hf => ?_⟩
        obtain ⟨f, rfl⟩ : ∃ f, fuel = f + 1 := ⟨fuel - 1, by omega⟩
        simp only [hullLoop, hr]
        exact hr' f (by omega)

/-- **C77** for `centroid_driven_mesh`: it terminates; the vertices are those of the simplified hull, or the given ones as
they are, followed by the centres of the clusters. -/
theorem C77_mesh (hull centres : List (Flt K × Flt K)) (limit : K) :
    (∃ r, ∀ fuel, max 1 hull.length ≤ fuel → centroidDrivenMesh fuel hull centres none limit = some r) ∧
    (limit ≤ 0 → ∀ fuel, centroidDrivenMesh fuel hull centres none limit = some (.ok (hull ++ centres))) ∧
    (0 < limit → ∀ fuel bv, hullLoop limit fuel hull = some (.ok bv) →
      centroidDrivenMesh fuel hull centres none limit = some (.ok (bv ++ centres))) ∧
    ∀ fuel bv, centroidDrivenMesh fuel hull centres (some bv) limit = some (.ok (bv ++ centres)) := by
  obtain ⟨r, hr⟩ := C77_terminates limit hull
  refine ⟨?_, fun h fuel => ?_, fun h fuel bv hb => ?_, fun _ _ => rfl⟩
  · by_cases h : 0 < limit
    · refine ⟨r.map (· ++ centres), fun fuel hf => ?_⟩
      rw [centroidDrivenMesh]
      rw [if_pos h, hr fuel hf, Option.map_some]
    · exact ⟨.ok (hull ++ centres), fun fuel _ => by simp [centroidDrivenMesh, h]⟩
  · simp [centroidDrivenMesh, not_lt.2 h]
  · simp [centroidDrivenMesh, h, hb, Except.map]

theorem ratio_one_edge (l : Flt K) {limit : K} (h : limit ≤ 1) :
    (l.div (Flt.add (.fin 0) l)).lt (.fin limit) = false := by
  cases l with
  | fin x =>
    simp only [Flt.add, zero_add, Flt.div]
    split_ifs with hx
    · simp [hx, Flt.neg?, Flt.lt]
    · simp [div_self hx, Flt.lt, h]
  | inf s => simp [Flt.add, Flt.div, Flt.lt]
  | nan => simp [Flt.div, Flt.lt]

/-- **C77**, further: with a limit not above one and at least two vertices, the loop returns, with at least two
vertices. -/
theorem C77_returns {limit : K} (hl : limit ≤ 1) (bv : List (Flt K × Flt K)) (h2 : 2 ≤ bv.length) :
    ∃ r, 2 ≤ r.length ∧ r.length ≤ bv.length ∧ ∀ fuel, bv.length ≤ fuel → hullLoop limit fuel bv = some (.ok r) := by
  induction hn : bv.length using Nat.strong_induction_on generalizing bv with
  | _ n ih =>
    subst hn
    obtain ⟨h1, h2', h3⟩ := C77_one_vertex bv limit
    cases hr : removeOnePoint bv limit with
    | error e => exact absurd (h3.1 ⟨e, hr⟩) (by omega)
    | ok r =>
      obtain ⟨bv', go⟩ := r
      cases go with
      | false =>
        obtain rfl := h2' _ hr
        refine ⟨bv', h2, le_rfl, fun fuel hf => ?_⟩
        obtain ⟨f, rfl⟩ : ∃ f, fuel = f + 1 := ⟨fuel - 1, by omega⟩
        simp [hullLoop, hr]
      | true =>
        have hlen := h1 _ hr
        have h3' : 2 ≤ bv'.length := by
          by_contra hc
          obtain ⟨p, q, rfl⟩ : ∃ p q, bv = [p, q] := List.length_eq_two.1 (by omega)
          simp only [removeOnePoint, edgeLengths, List.tail_cons, List.zipWith_cons_cons, List.zipWith_nil_right, npArgmin,
            List.zipIdx_nil, List.foldl_nil, List.getD_cons_zero, List.foldl_cons] at hr
          rw [ratio_one_edge _ hl] at hr
          simp at hr
        obtain ⟨r, a1, a2, a3⟩ := ih bv'.length (by omega) bv' h3' rfl
        refine ⟨r, a1, by omega, fun fuel hf => ?_⟩
        obtain ⟨f, rfl⟩ : ∃ f, fuel = f + 1 := ⟨fuel - 1, by omega⟩
        simp only [hullLoop, hr]
        exact a3 f (by omega)

/-- With a limit above one, two distinct points are reduced to one, and the next iteration raises. -/
theorem C77_limit_above_one {limit : K} (hl : 1 < limit) (p q : K × K) (hpq : p ≠ q) (fuel : ℕ) :
    hullLoop limit (fuel + 2) [finPt p, finPt q] = some (.error .value) := by
  have hx : (q.1 - p.1) * (q.1 - p.1) + (q.2 - p.2) * (q.2 - p.2) ≠ 0 := by
    intro h
    have h1 : q.1 - p.1 = 0 := by
      by_contra hc
      have := mul_self_pos.2 hc
      have := mul_self_nonneg (q.2 - p.2)
      linarith
    have h2 : q.2 - p.2 = 0 := by
      rw [h1, mul_zero, zero_add] at h
      exact mul_self_eq_zero.1 h
    exact hpq (Prod.ext (sub_eq_zero.1 h1).symm (sub_eq_zero.1 h2).symm)
  have h1 : ∃ r, removeOnePoint [finPt p, finPt q] limit = .ok ([r], true) := by
    simp only [removeOnePoint, edgeLengths, List.tail_cons, List.zipWith_cons_cons, List.zipWith_nil_right, npArgmin,
      List.zipIdx_nil, List.foldl_nil, List.getD_cons_zero, List.foldl_cons, finPt, Flt.sub, Flt.opp, Flt.add, Flt.mul,
      zero_add, Flt.div]
    simp only [← sub_eq_add_neg, if_neg hx, div_self hx, Flt.lt, hl, decide_true, if_true]
    exact ⟨_, rfl⟩
  obtain ⟨r, hr⟩ := h1
  have h2 : removeOnePoint [r] limit = .error .value := by simp [removeOnePoint, edgeLengths, npArgmin]
  rw [hullLoop, hr]
  dsimp only
  rw [hullLoop, h2]

/-! ### C96 -/

/-- **C96** fails: a triangle, whose third edge is not looked at, is reduced to twice the same point. -/
theorem C96_triangle_fails :
    hullLoop (1 / 100 : ℚ) 3 [finPt (0, 0), finPt (10, 0), finPt (10, 1 / 2)] = some (.ok [finPt (0, 0), finPt (0, 0)]) := by
  decide +kernel

theorem loop_stopped {limit : K} {fuel : ℕ} {bv r : List (Flt K × Flt K)} (h : hullLoop limit fuel bv = some (.ok r)) :
    removeOnePoint r limit = .ok (r, false) := by
  induction fuel generalizing bv with
  | zero => simp [hullLoop] at h
  | succ f ih =>
    rw [hullLoop] at h
    cases hr : removeOnePoint bv limit with
    | error e => rw [hr] at h; simp at h
    | ok q =>
      obtain ⟨bv', go⟩ := q
      rw [hr] at h
      cases go with
      | true => exact ih h
      | false =>
        obtain rfl := (C77_one_vertex bv limit).2.1 _ hr
        simp only [Option.some.injEq, Except.ok.injEq] at h
        rw [← h]
        exact hr

theorem argmin_fin {l : List K} {i : ℕ} (h : npArgmin (l.map Flt.fin) = .ok i) : ∀ x ∈ l, l.getD i 0 ≤ x := by
  cases l with
  | nil => simp
  | cons a l =>
    simp only [npArgmin, List.map_cons, Except.ok.injEq] at h
    have key : ∀ (l pre : List K) (b : K) (n : ℕ), (pre ++ l).getD n 0 = b → (∀ x ∈ pre, b ≤ x) →
        ∀ x ∈ pre ++ l, (pre ++ l).getD (((l.map Flt.fin).zipIdx pre.length).foldl (fun (best : Flt K × ℕ) p =>
          if best.1 = .nan then best else if p.1 = .nan ∨ p.1.lt best.1 then p else best) (.fin b, n)).2 0 ≤ x := by
      intro l
      induction l with
      | nil =>
        intro pre b n hb hmin x hx
        simp only [List.append_nil] at hx hb ⊢
        simp only [List.map_nil, List.zipIdx_nil, List.foldl_nil, hb]
        exact hmin x hx
      | cons c l ih =>
        intro pre b n hb hmin
        rw [List.map_cons, List.zipIdx_cons, List.foldl_cons]
        have e : pre ++ c :: l = (pre ++ [c]) ++ l := by simp
        have e' : pre.length + 1 = (pre ++ [c]).length := by simp
        rw [e, e']
        simp only [reduceCtorEq, if_false, false_or, Flt.lt, decide_eq_true_eq]
        by_cases hc : c < b
        · rw [if_pos hc]
          refine ih (pre ++ [c]) c pre.length (by simp) fun x hx => ?_
          rcases List.mem_append.1 hx with hx | hx
          · exact hc.le.trans (hmin x hx)
          · exact (List.mem_singleton.1 hx).ge
        · rw [if_neg hc]
          refine ih (pre ++ [c]) b n (by rw [← e]; exact hb) fun x hx => ?_
          rcases List.mem_append.1 hx with hx | hx
          · exact hmin x hx
          · rw [List.mem_singleton.1 hx]; exact not_lt.1 hc
    have := key l [a] a 0 (by simp) (by simp)
    rw [List.length_singleton, h] at this
    exact this

theorem foldl_fin (l : List K) (a : K) : (l.map Flt.fin).foldl Flt.add (.fin a) = .fin (a + l.sum) := by
  induction l generalizing a with
  | nil => simp
  | cons b l ih => rw [List.map_cons, List.foldl_cons, Flt.add, ih, List.sum_cons, add_assoc]

/-- The squares of the lengths of the edges between consecutive points. -/
def sqLengths (pts : List (K × K)) : List K :=
  List.zipWith (fun p q => (q.1 - p.1) * (q.1 - p.1) + (q.2 - p.2) * (q.2 - p.2)) pts pts.tail

theorem edgeLengths_fin (pts : List (K × K)) : edgeLengths (pts.map finPt) = (sqLengths pts).map Flt.fin := by
  rw [edgeLengths, sqLengths, List.map_zipWith, ← List.map_tail, List.zipWith_map]
  refine congrArg (fun f => List.zipWith f pts pts.tail) ?_
  funext p q
  simp only [finPt, Flt.sub, Flt.opp, Flt.add, Flt.mul, sub_eq_add_neg]

/-- **C96**, what is true: when all the vertices that are left are finite, the square of the length of each edge, the
closing one left out, is at least the given part of the sum of these squares. -/
theorem C96_edges_partial {limit : K} {fuel : ℕ} {bv : List (Flt K × Flt K)} {pts : List (K × K)}
    (h : hullLoop limit fuel bv = some (.ok (pts.map finPt))) (i : ℕ) (hi : i + 1 < pts.length) :
    let sq := fun i => ((pts.getD (i + 1) 0).1 - (pts.getD i 0).1) ^ 2 + ((pts.getD (i + 1) 0).2 - (pts.getD i 0).2) ^ 2
    limit * ∑ j ∈ range (pts.length - 1), sq j ≤ sq i := by
  intro sq
  have hlen : (sqLengths pts).length = pts.length - 1 := by simp [sqLengths]
  have hget : ∀ j (hj : j < (sqLengths pts).length), (sqLengths pts)[j] = sq j := by
    intro j hj
    have h1 : j + 1 < pts.length := by omega
    simp only [sqLengths, sq, List.getElem_zipWith, List.getElem_tail, List.getD_eq_getElem?_getD, h1,
      List.getElem?_eq_getElem, Option.getD_some, show j < pts.length by omega]
    ring
  have hsum : (sqLengths pts).sum = ∑ j ∈ range (pts.length - 1), sq j := by
    rw [← hlen, ← Fin.sum_univ_eq_sum_range, ← Fin.sum_univ_getElem]
    exact sum_congr rfl fun j _ => hget j j.2
  have hs := loop_stopped h
  rw [removeOnePoint, edgeLengths_fin] at hs
  cases hm : npArgmin ((sqLengths pts).map Flt.fin) with
  | error e => rw [hm] at hs; simp at hs
  | ok k =>
    have hk := argmin_lt hm
    rw [List.length_map] at hk
    have hmin := argmin_fin hm
    have hi' : i < (sqLengths pts).length := by omega
    have hik : (sqLengths pts)[k] ≤ sq i := by
      have := hmin _ (List.getElem_mem hi')
      rwa [hget, List.getD_eq_getElem?_getD, List.getElem?_eq_getElem hk, Option.getD_some] at this
    have hnn : ∀ j, 0 ≤ sq j := fun j => add_nonneg (sq_nonneg _) (sq_nonneg _)
    rw [hm] at hs
    dsimp only at hs
    rw [List.getD_eq_getElem?_getD, List.getElem?_map, List.getElem?_eq_getElem hk, Option.map_some, Option.getD_some, foldl_fin, zero_add, hsum] at hs
    rcases (sum_nonneg fun j _ => hnn j : 0 ≤ ∑ j ∈ range (pts.length - 1), sq j).eq_or_lt with h0 | hpos
    · rw [← h0, mul_zero]; exact hnn i
    · refine le_trans ?_ hik
      by_contra hc
      rw [Flt.div, if_neg hpos.ne', Flt.lt, if_pos (decide_eq_true ((div_lt_iff₀ hpos).2 (not_le.1 hc)))] at hs
      simp at hs

/-- The loop leaves this triangle as it is. -/
example : hullLoop (1 / 100 : ℚ) 3 (([(0, 0), (1, 0), (1, 2)] : List (ℚ × ℚ)).map finPt) =
    some (.ok (([(0, 0), (1, 0), (1, 2)] : List (ℚ × ℚ)).map finPt)) := by
  decide +kernel

/-! ### C97, C98 -/

theorem listFoldMin_le (l : List K) (a : K) : l.foldl min a ≤ a ∧ ∀ x ∈ l, l.foldl min a ≤ x := by
  induction l generalizing a with
  | nil => simp
  | cons b l ih =>
    rw [List.foldl_cons]
    have := ih (min a b)
    refine ⟨this.1.trans (min_le_left _ _), fun x hx => ?_⟩
    rcases List.mem_cons.1 hx with rfl | hx
    · exact this.1.trans (min_le_right _ _)
    · exact this.2 x hx

theorem le_listFoldMax (l : List K) (a : K) : a ≤ l.foldl max a ∧ ∀ x ∈ l, x ≤ l.foldl max a := by
  induction l generalizing a with
  | nil => simp
  | cons b l ih =>
    rw [List.foldl_cons]
    have := ih (max a b)
    refine ⟨(le_max_left _ _).trans this.1, fun x hx => ?_⟩
    rcases List.mem_cons.1 hx with rfl | hx
    · exact (le_max_right _ _).trans this.1
    · exact this.2 x hx

theorem listFoldMin_mem (l : List K) (a : K) : l.foldl min a ∈ a :: l := by
  induction l generalizing a with
  | nil => simp
  | cons b l ih =>
    rw [List.foldl_cons]
    rcases List.mem_cons.1 (ih (min a b)) with h | h
    · rcases min_choice a b with h' | h' <;> rw [h'] at h <;> simp [h, h']
    · simp [h]

theorem listFoldMax_mem (l : List K) (a : K) : l.foldl max a ∈ a :: l := by
  induction l generalizing a with
  | nil => simp
  | cons b l ih =>
    rw [List.foldl_cons]
    rcases List.mem_cons.1 (ih (max a b)) with h | h
    · rcases max_choice a b with h' | h' <;> rw [h'] at h <;> simp [h, h']
    · simp [h]

theorem listMin_ok {l : List K} (h : l ≠ []) : ∃ a, listMin l = .ok a ∧ a ∈ l ∧ ∀ x ∈ l, a ≤ x := by
  cases l with
  | nil => exact absurd rfl h
  | cons a l =>
    refine ⟨_, rfl, listFoldMin_mem l a, fun x hx => ?_⟩
    rcases List.mem_cons.1 hx with rfl | hx
    · exact (listFoldMin_le l x).1
    · exact (listFoldMin_le l a).2 x hx

theorem listMax_ok {l : List K} (h : l ≠ []) : ∃ b, listMax l = .ok b ∧ b ∈ l ∧ ∀ x ∈ l, x ≤ b := by
  cases l with
  | nil => exact absurd rfl h
  | cons a l =>
    refine ⟨_, rfl, listFoldMax_mem l a, fun x hx => ?_⟩
    rcases List.mem_cons.1 hx with rfl | hx
    · exact (le_listFoldMax l x).1
    · exact (le_listFoldMax l a).2 x hx

/-- **C97**: `data_driven_line` without ends returns a mesh of `bins` elements, which begins at the smallest data and ends
at the largest when the data are not all equal, and contains all the data in any case. -/
theorem C97_covers {data : List K} (hd : data ≠ []) {bins : ℕ} (hb : 0 < bins) :
    ∃ r a b, dataDrivenLine data bins none none = .ok r ∧ r.len = bins + 1 ∧ MeshOf bins a b r.get ∧
      (∀ x ∈ data, a ≤ x ∧ x ≤ b) ∧ ((∃ x ∈ data, ∃ y ∈ data, x ≠ y) → a ∈ data ∧ b ∈ data) := by
  obtain ⟨a, ha, ham, hal⟩ := listMin_ok hd
  obtain ⟨b, hb', hbm, hbl⟩ := listMax_ok hd
  have hle : ¬ b < a := not_lt.2 (hal b hbm)
  by_cases hab : a = b
  · subst hab
    refine ⟨npLinspace (a - 1 / 2) (a + 1 / 2) (bins + 1), a - 1 / 2, a + 1 / 2, ?_, rfl, linspace_mesh (by linarith [one_half_pos (α := K)]) hb,
      fun x hx => ?_, fun ⟨x, hx, y, hy, hne⟩ => ?_⟩
    · simp only [dataDrivenLine, ha, hb', bind, Except.bind, pure, Except.pure, hb.ne', lt_irrefl, or_self, if_false, if_true]
    · have := hal x hx; have := hbl x hx; have := one_half_pos (α := K); constructor <;> linarith
    · exact absurd ((le_antisymm (hbl x hx) (hal x hx)).trans (le_antisymm (hbl y hy) (hal y hy)).symm) hne
  · refine ⟨npLinspace a b (bins + 1), a, b, ?_, rfl, linspace_mesh (lt_of_le_of_ne (hal b hbm) hab) hb,
      fun x hx => ⟨hal x hx, hbl x hx⟩, fun _ => ⟨ham, hbm⟩⟩
    simp only [dataDrivenLine, ha, hb', bind, Except.bind, pure, Except.pure, hb.ne', hle, or_self, if_false, hab]

/-- **C97** with given ends: the mesh of the interval between them; a decreasing range and no bin are rejected. -/
theorem C97_given (data : List K) (bins : ℕ) (a b : K) :
    (0 < bins → a < b → ∃ r, dataDrivenLine data bins (some a) (some b) = .ok r ∧ r.len = bins + 1 ∧ MeshOf bins a b r.get) ∧
    (bins = 0 ∨ b < a → dataDrivenLine data bins (some a) (some b) = .error .value) := by
  constructor
  · intro hb hab
    refine ⟨npLinspace a b (bins + 1), ?_, rfl, linspace_mesh hab hb⟩
    simp only [dataDrivenLine, bind, Except.bind, pure, Except.pure, hb.ne', hab.not_gt, or_self, if_false, hab.ne]
  · intro h
    simp only [dataDrivenLine, bind, Except.bind, pure, Except.pure, h, if_true, throw, throwThe, MonadExceptOf.throw]

example := C97_covers (data := [(3 : ℚ), 1, 2]) (by simp) (bins := 4) (by norm_num)

/-- **C98**, what is true: with as many centres as wanted elements, all of them between the data, the nodes are in order,
from the smallest data to the largest, and there is one element more than wanted. -/
theorem C98_sorted_partial {data centres : List K} (hd : data ≠ [])
    (hc : ∀ c ∈ centres, (∃ x ∈ data, x ≤ c) ∧ ∃ x ∈ data, c ≤ x) :
    ∃ r, centroidDrivenLine data centres = .ok r ∧ r.length = centres.length + 2 ∧ r.Pairwise (· ≤ ·) ∧
      (∃ a ∈ data, r.head? = some a ∧ ∀ x ∈ data, a ≤ x) ∧ (∃ b ∈ data, r.getLast? = some b ∧ ∀ x ∈ data, x ≤ b) ∧
      ∀ c ∈ centres, c ∈ r := by
  obtain ⟨a, ha, ham, hal⟩ := listMin_ok hd
  obtain ⟨b, hb, hbm, hbl⟩ := listMax_ok hd
  refine ⟨[a] ++ centres.mergeSort (fun p q => decide (p ≤ q)) ++ [b], ?_, ?_, ?_, ⟨a, ham, rfl, hal⟩, ⟨b, hbm, List.getLast?_concat, hbl⟩, ?_⟩
  · simp only [centroidDrivenLine, ha, hb, bind, Except.bind, pure, Except.pure]
  · simp [List.length_mergeSort]
  · have hs : (centres.mergeSort (fun p q => decide (p ≤ q))).Pairwise (· ≤ ·) := by
      have := List.pairwise_mergeSort (le := fun p q : K => decide (p ≤ q)) (fun x y z h1 h2 => by
        simp only [decide_eq_true_eq] at *; exact h1.trans h2) (fun x y => by simp [le_total]) centres
      exact this.imp fun h => by simpa using h
    have hm : ∀ c, c ∈ centres.mergeSort (fun p q => decide (p ≤ q)) → a ≤ c ∧ c ≤ b := by
      intro c h
      obtain ⟨⟨x, hx, hxc⟩, y, hy, hcy⟩ := hc c (List.mem_mergeSort.1 h)
      exact ⟨(hal x hx).trans hxc, hcy.trans (hbl y hy)⟩
    rw [List.append_assoc, List.pairwise_append, List.pairwise_append]
    refine ⟨by simp, ⟨hs, by simp, fun x hx y hy => ?_⟩, fun x hx y hy => ?_⟩
    · rw [List.mem_singleton.1 hy]; exact (hm x hx).2
    · rw [List.mem_singleton.1 hx]
      rcases List.mem_append.1 hy with hy | hy
      · exact (hm y hy).1
      · rw [List.mem_singleton.1 hy]; exact hal b hbm
  · intro c h
    simp [List.mem_mergeSort, h]

example := C98_sorted_partial (data := [(3 : ℚ), 1, 2]) (centres := [5 / 2, 1]) (by simp) (by
  intro c hc
  simp only [List.mem_cons, List.not_mem_nil, or_false] at hc
  rcases hc with rfl | rfl
  · exact ⟨⟨1, by simp, by norm_num⟩, 3, by simp, by norm_num⟩
  · exact ⟨⟨1, by simp, le_rfl⟩, 3, by simp, by norm_num⟩)

/-- **C98** fails: there are `bins + 1` elements, and an element is empty as soon as a cluster is made of copies of the
smallest data, as when there are as many clusters as different data. -/
theorem C98_empty_element_fails {data centres : List K} {a : K} (ha : listMin data = .ok a) (hd : data ≠ [])
    (hc : ∀ c ∈ centres, (∃ x ∈ data, x ≤ c) ∧ ∃ x ∈ data, c ≤ x) (hac : a ∈ centres) :
    ∃ r, centroidDrivenLine data centres = .ok r ∧ r.length - 1 = centres.length + 1 ∧ ∃ rest, r = a :: a :: rest := by
  obtain ⟨r, h1, h2, h3, ⟨a', ham, h4, hal⟩, -, h5⟩ := C98_sorted_partial hd hc
  obtain ⟨a'', ha'', ham'', hal''⟩ := listMin_ok hd
  obtain rfl : a'' = a := by rw [ha] at ha''; injection ha'' with h; exact h.symm
  obtain rfl : a' = a'' := le_antisymm (hal _ ham'') (hal'' _ ham)
  refine ⟨r, h1, by omega, ?_⟩
  obtain ⟨b, hb⟩ : ∃ b, listMax data = .ok b := ⟨_, (listMax_ok hd).choose_spec.1⟩
  simp only [centroidDrivenLine, ha, hb, bind, Except.bind, pure, Except.pure, Except.ok.injEq] at h1
  obtain ⟨c, cs, hcs⟩ : ∃ c cs, centres.mergeSort (fun p q => decide (p ≤ q)) = c :: cs := by
    cases h : centres.mergeSort (fun p q => decide (p ≤ q)) with
    | nil => have := List.mem_mergeSort (le := fun p q => decide (p ≤ q)) |>.2 hac; rw [h] at this; simp at this
    | cons c cs => exact ⟨c, cs, rfl⟩
  rw [hcs] at h1
  have hc1 : a' ≤ c := by
    obtain ⟨⟨x, hx, hxc⟩, -⟩ := hc c (List.mem_mergeSort (le := fun p q => decide (p ≤ q)) |>.1 (by rw [hcs]; simp))
    exact (hal x hx).trans hxc
  have hc2 : c ≤ a' := by
    have hs := List.pairwise_mergeSort (le := fun p q : K => decide (p ≤ q)) (fun x y z h1 h2 => by
        simp only [decide_eq_true_eq] at *; exact h1.trans h2) (fun x y => by simp [le_total]) centres
    have hm := List.mem_mergeSort (le := fun p q => decide (p ≤ q)) |>.2 hac
    rw [hcs] at hs hm
    rcases List.mem_cons.1 hm with h | h
    · exact h.ge
    · simpa using (List.pairwise_cons.1 hs).1 _ h
  refine ⟨cs ++ [b], ?_⟩
  rw [← h1, le_antisymm hc2 hc1]
  simp

example := C98_empty_element_fails (data := [(3 : ℚ), 1, 3]) (centres := [3, 1]) (a := 1) (by decide +kernel) (by simp) (by
  intro c hc
  simp only [List.mem_cons, List.not_mem_nil, or_false] at hc
  rcases hc with rfl | rfl
  · exact ⟨⟨1, by simp, by norm_num⟩, 3, by simp, by norm_num⟩
  · exact ⟨⟨1, by simp, le_rfl⟩, 3, by simp, by norm_num⟩) (by simp)

end

end Verif
