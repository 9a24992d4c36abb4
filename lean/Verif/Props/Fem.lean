import Verif.Model.Fem
import Verif.Props.Mesh
import Mathlib.Tactic.IntervalCases

/-!
# C78, C79 and C99 to C102: `_fem_features.py`
-/

set_option linter.unusedSectionVars false

namespace Verif

open Finset Spec

section
variable {K : Type*} [Field K] [LinearOrder K] [IsStrictOrderedRing K]

/-- The element `e` of the mesh contains `x`. -/
def Spec.Contains (mesh : LineMesh K) (e : ℕ) (x : K) : Prop :=
  ∃ t a b, mesh.t[e]? = some t ∧ mesh.p[t.1]? = some a ∧ mesh.p[t.2]? = some b ∧ min a b ≤ x ∧ x ≤ max a b

/-- The points are given in increasing order, and the elements, in any order, are the intervals between consecutive points,
each with its left end first. -/
structure OrderedMesh (mesh : LineMesh K) : Prop where
  sorted : mesh.p.Pairwise (· < ·)
  two : 2 ≤ mesh.p.length
  elems : ∀ e ∈ mesh.t, e.2 = e.1 + 1 ∧ e.2 < mesh.p.length
  all : ∀ i, i + 1 < mesh.p.length → (i, i + 1) ∈ mesh.t

theorem sorted_sort {l : List K} (h : l.Pairwise (· < ·)) : l.insertionSort (· ≤ ·) = l :=
  List.Pairwise.insertionSort_eq (h.imp fun hab => hab.le)

theorem sorted_get {l : List K} (h : l.Pairwise (· < ·)) {i j : ℕ} (hij : i < j) (hj : j < l.length) :
    l[i] < l[j] := List.pairwise_iff_getElem.1 h i j (by omega) hj hij

theorem listMax_sorted {l : List K} (h : l.Pairwise (· < ·)) (hl : 0 < l.length) :
    listMax l = .ok (l[l.length - 1]) := by
  obtain ⟨b, hb, hm, hle⟩ := listMax_ok (l := l) (List.ne_nil_of_length_pos hl)
  obtain ⟨i, hi, rfl⟩ := List.mem_iff_getElem.1 hm
  rw [hb]
  rcases Nat.lt_or_ge i (l.length - 1) with hlt | hge
  · exact absurd (hle _ (List.getElem_mem (by omega : l.length - 1 < l.length))) (not_le.2 (sorted_get h hlt (by omega)))
  · have : i = l.length - 1 := by omega
    subst this; rfl

theorem digitize_sorted {l : List K} (h : l.Pairwise (· < ·)) {i : ℕ} (hi : i + 1 < l.length) {x : K} (h1 : l[i] ≤ x)
    (h2 : x < l[i + 1]) : npDigitize x l = i + 1 := by
  have e : l = l.take (i + 1) ++ l.drop (i + 1) := (List.take_append_drop _ _).symm
  have a1 : (l.take (i + 1)).filter (fun b => decide (b ≤ x)) = l.take (i + 1) := by
    rw [List.filter_eq_self]
    intro b hb
    obtain ⟨j, hj, rfl⟩ := List.mem_take_iff_getElem.1 hb
    have hj' : j < l.length := by omega
    have : l[j] ≤ l[i] := by
      rcases Nat.lt_or_ge j i with hlt | hge
      · exact (sorted_get h hlt (by omega)).le
      · have : j = i := by omega
        subst this; exact le_rfl
    simpa using this.trans h1
  have a2 : (l.drop (i + 1)).filter (fun b => decide (b ≤ x)) = [] := by
    rw [List.filter_eq_nil_iff]
    intro b hb
    obtain ⟨j, hj, rfl⟩ := List.mem_drop_iff_getElem.1 hb
    have : l[i + 1] ≤ l[j + (i + 1)] := by
      rcases Nat.eq_zero_or_pos j with rfl | hj0
      · simp
      · exact (sorted_get h (by omega) (by omega)).le
    simpa [Nat.add_comm j] using h2.trans_le this
  rw [npDigitize]
  conv_lhs => rw [e]
  rw [List.filter_append, a1, a2, List.append_nil, List.length_take]
  omega

theorem digitize_mem {l : List K} (hl : 2 ≤ l.length) {x : K} (h0 : l[0] ≤ x)
    (h1 : x < l[l.length - 1]) : ∃ i, ∃ hi : i + 1 < l.length, l[i] ≤ x ∧ x < l[i + 1] := by
  classical
  let P : ℕ → Prop := fun j => ∃ hj : j < l.length, x < l[j]
  have hP : ∃ j, P j := ⟨l.length - 1, by omega, h1⟩
  obtain ⟨hj, hxj⟩ := Nat.find_spec hP
  have hpos : 0 < Nat.find hP := by
    rcases Nat.eq_zero_or_pos (Nat.find hP) with hz | hz
    · simp only [hz] at hxj
      exact absurd h0 (not_le.2 hxj)
    · exact hz
  have hlt : ¬ P (Nat.find hP - 1) := Nat.find_min hP (by omega)
  refine ⟨Nat.find hP - 1, by omega, ?_, ?_⟩
  · by_contra hc
    exact hlt ⟨by omega, not_le.1 hc⟩
  · have : Nat.find hP - 1 + 1 = Nat.find hP := by omega
    simpa only [this] using hxj

theorem argmax_true {l : List Bool} (h : true ∈ l) : ∃ i, npArgmaxBool l = .ok i ∧ l[i]? = some true := by
  have hne : l ≠ [] := List.ne_nil_of_mem h
  have hlt : l.findIdx (· = true) < l.length := List.findIdx_lt_length_of_exists ⟨true, h, by simp⟩
  refine ⟨l.findIdx (· = true), by rw [npArgmaxBool, if_neg hne, if_pos h], ?_⟩
  rw [List.getElem?_eq_getElem hlt]
  have := List.findIdx_getElem (w := hlt)
  simpa using this

theorem argmax_false {l : List Bool} (hne : l ≠ []) (h : true ∉ l) : npArgmaxBool l = .ok 0 := by
  rw [npArgmaxBool, if_neg hne, if_neg h]

/-- What is found for a point of the interval between the vertices `i` and `i + 1`. -/
theorem find_interval {mesh : LineMesh K} (hm : OrderedMesh mesh) {tol x : K} {i : ℕ} (hi : i + 1 < mesh.p.length)
    (h1 : mesh.p[i] ≤ if x = mesh.p[mesh.p.length - 1]'(by omega) then x - tol else x)
    (h2 : (if x = mesh.p[mesh.p.length - 1]'(by omega) then x - tol else x) < mesh.p[i + 1]) :
    ∃ e, findElement1D mesh tol x = .ok (e, if x = mesh.p[mesh.p.length - 1]'(by omega) then x - tol else x) ∧
      mesh.t[e]? = some (i, i + 1) := by
  have hmax := listMax_sorted hm.sorted (by omega)
  set x' := if x = mesh.p[mesh.p.length - 1]'(by omega) then x - tol else x with hx'
  have hd := digitize_sorted hm.sorted hi h1 h2
  have hmem : true ∈ mesh.t.map fun e => decide ((npDigitize x' mesh.p : ℤ) - 1 = e.1) := by
    refine List.mem_map.2 ⟨(i, i + 1), hm.all i hi, ?_⟩
    rw [hd]; simp
  obtain ⟨e, he, hge⟩ := argmax_true hmem
  refine ⟨e, ?_, ?_⟩
  · simp only [findElement1D, hmax, sorted_sort hm.sorted, ← hx', he]
  · rw [List.getElem?_map, Option.map_eq_some_iff] at hge
    obtain ⟨t, ht, hdec⟩ := hge
    rw [hd] at hdec
    have h3 : t.1 = i := by
      have := of_decide_eq_true hdec
      push_cast at this
      omega
    have h4 := (hm.elems t (List.mem_of_getElem? ht)).1
    rw [ht]
    congr 1
    exact Prod.ext h3 (by simp [h4, h3])

/-- **C78**. Proved: on a mesh given in increasing order, whose last element is not shorter than `1e-10`, the element that
is found contains the point. Full statement: the same for every mesh; this is false, see `C78_unsorted_fails`. -/
theorem C78_contains_partial {mesh : LineMesh K} (hm : OrderedMesh mesh) {tol x a b : K} (ht : 0 < tol)
    (hlast : ∀ c, mesh.p[mesh.p.length - 2]? = some c → c + tol ≤ b)
    (ha : mesh.p[0]? = some a) (hb : mesh.p[mesh.p.length - 1]? = some b) (h0 : a ≤ x) (h1 : x ≤ b) :
    ∃ e x', findElement1D mesh tol x = .ok (e, x') ∧ Contains mesh e x := by
  have h2 := hm.two
  have hlen : 0 < mesh.p.length := by omega
  have hlen1 : mesh.p.length - 1 < mesh.p.length := by omega
  rw [List.getElem?_eq_getElem hlen, Option.some.injEq] at ha
  rw [List.getElem?_eq_getElem hlen1, Option.some.injEq] at hb
  have hc := hlast _ (List.getElem?_eq_getElem (by omega : mesh.p.length - 2 < mesh.p.length))
  by_cases hx : x = b
  · subst hx
    have e1 : mesh.p.length - 2 + 1 = mesh.p.length - 1 := by omega
    obtain ⟨e, he, hte⟩ := find_interval hm (tol := tol) (x := x) (i := mesh.p.length - 2) (by omega)
      (by rw [if_pos hb.symm]; linarith) (by rw [if_pos hb.symm]; simp only [e1, hb]; linarith)
    refine ⟨e, _, he, _, mesh.p[mesh.p.length - 2], x, hte, List.getElem?_eq_getElem _, ?_, ?_, ?_⟩
    · dsimp only
      rw [e1, List.getElem?_eq_getElem hlen1, hb]
    · exact min_le_right _ _
    · exact le_max_right _ _
  · have hlt : x < mesh.p[mesh.p.length - 1] := hb ▸ lt_of_le_of_ne h1 hx
    obtain ⟨i, hi, hi1, hi2⟩ := digitize_mem h2 (ha ▸ h0) hlt
    obtain ⟨e, he, hte⟩ := find_interval hm (tol := tol) (x := x) hi (by rw [if_neg hlt.ne]; exact hi1)
      (by rw [if_neg hlt.ne]; exact hi2)
    exact ⟨e, _, he, _, mesh.p[i], mesh.p[i + 1], hte, List.getElem?_eq_getElem _, List.getElem?_eq_getElem _,
      (min_le_left _ _).trans hi1, hi2.le.trans (le_max_right _ _)⟩

/-- A mesh of three elements, stored in another order. -/
def exampleMesh : LineMesh ℚ := ⟨[0, 1, 3, 4], [(1, 2), (0, 1), (2, 3)]⟩

theorem exampleMesh_ordered : OrderedMesh exampleMesh where
  sorted := by decide +kernel
  two := by decide
  elems := by decide
  all i hi := by
    have : i + 1 < 4 := hi
    have : i < 3 := by omega
    interval_cases i <;> decide

example := C78_contains_partial exampleMesh_ordered (tol := 1 / 10 ^ 10) (x := 4) (a := 0) (b := 4) (by norm_num)
  (by intro c hc; cases hc; norm_num) rfl rfl (by norm_num) (by norm_num)

/-- The interval `[0, 1]` refined twice: the new vertices are added at the end, as `mesh.refined()` does. -/
def refinedMesh : LineMesh ℚ := ⟨[0, 1, 1 / 2, 1 / 4, 3 / 4], [(0, 3), (2, 3), (2, 4), (1, 4)]⟩

/-- The full statement of **C78** is false: in the refined mesh, which is a partition of `[0, 1]`, the point `3/10` is
assigned the element `[3/4, 1]`. -/
theorem C78_unsorted_fails : ∃ (mesh : LineMesh ℚ) (x : ℚ) (e : ℕ), (∃ e', Contains mesh e' x) ∧
    findElement1D mesh (1 / 10 ^ 10) x = .ok (e, x) ∧ ¬ Contains mesh e x := by
  refine ⟨refinedMesh, 3 / 10, 3, ⟨1, (2, 3), 1 / 2, 1 / 4, rfl, rfl, rfl, by norm_num, by norm_num⟩, by decide +kernel, ?_⟩
  rintro ⟨t, a, b, ht, ha, hb, h1, _⟩
  cases ht; cases ha; cases hb
  norm_num at h1

/-- **C99**: the samples given to the element finder are changed, and so are the features at the end of the mesh: the
property that `find_element_1D` leaves its argument alone is false for every ordered mesh, at its last point. -/
theorem C99_argument_changed_fails {mesh : LineMesh K} (hm : OrderedMesh mesh) {tol b : K} (ht : 0 < tol)
    (hlast : ∀ c, mesh.p[mesh.p.length - 2]? = some c → c + tol ≤ b) (hb : mesh.p[mesh.p.length - 1]? = some b) :
    ∃ e, findElement1D mesh tol b = .ok (e, b - tol) ∧ b - tol ≠ b := by
  have h2 := hm.two
  have hlen1 : mesh.p.length - 1 < mesh.p.length := by omega
  rw [List.getElem?_eq_getElem hlen1, Option.some.injEq] at hb
  have hc := hlast _ (List.getElem?_eq_getElem (by omega : mesh.p.length - 2 < mesh.p.length))
  have e1 : mesh.p.length - 2 + 1 = mesh.p.length - 1 := by omega
  obtain ⟨e, he, _⟩ := find_interval hm (tol := tol) (x := b) (i := mesh.p.length - 2) (by omega)
    (by rw [if_pos hb.symm]; linarith) (by rw [if_pos hb.symm]; simp only [e1, hb]; linarith)
  rw [if_pos hb.symm] at he
  exact ⟨e, he, by linarith⟩

example := C99_argument_changed_fails exampleMesh_ordered (tol := 1 / 10 ^ 10) (b := 4) (by norm_num)
  (by intro c hc; cases hc; norm_num) rfl

/-- **C99**, the true part: any other point is left as it is. -/
theorem C99_argument_kept_partial (mesh : LineMesh K) {tol x b : K} (hb : listMax mesh.p = .ok b) (hx : x ≠ b) {e : ℕ}
    {x' : K} (h : findElement1D mesh tol x = .ok (e, x')) : x' = x := by
  simp only [findElement1D, hb, if_neg hx] at h
  cases hi : npArgmaxBool (mesh.t.map fun e =>
      decide ((npDigitize x (mesh.p.insertionSort (· ≤ ·)) : ℤ) - 1 = e.1)) with
  | error e => simp only [hi] at h; cases h
  | ok i => simp only [hi] at h; cases h; rfl

example := C99_argument_kept_partial exampleMesh (tol := 1 / 10 ^ 10) (x := 2) (b := 4) (by decide +kernel) (by norm_num)
  (e := 0) (x' := 2) (by decide +kernel)

/-- **C100**: a point outside of the mesh is not refused: it is given to the element number zero. -/
theorem C100_outside_fails {mesh : LineMesh K} (hm : OrderedMesh mesh) {tol x : K}
    (hx : (∀ a ∈ mesh.p, x < a) ∨ ∀ a ∈ mesh.p, a < x) :
    findElement1D mesh tol x = .ok (0, x) ∧ ¬ ∃ e, Contains mesh e x := by
  have h2 := hm.two
  have hmax := listMax_sorted hm.sorted (by omega)
  have hlen1 : mesh.p.length - 1 < mesh.p.length := by omega
  have hne : x ≠ mesh.p[mesh.p.length - 1] := by
    rcases hx with h | h
    · exact (h _ (List.getElem_mem hlen1)).ne
    · exact (h _ (List.getElem_mem hlen1)).ne'
  have hd : npDigitize x mesh.p = 0 ∨ npDigitize x mesh.p = mesh.p.length := by
    rcases hx with h | h
    · left
      rw [npDigitize, List.length_eq_zero_iff, List.filter_eq_nil_iff]
      intro a ha
      simpa using h a ha
    · right
      rw [npDigitize, List.filter_eq_self.2]
      intro a ha
      simpa using (h a ha).le
  refine ⟨?_, ?_⟩
  · have hne2 : (mesh.t.map fun e => decide ((npDigitize x mesh.p : ℤ) - 1 = e.1)) ≠ [] := by
      have := List.ne_nil_of_mem (hm.all 0 (by omega))
      simpa using this
    have hnm : true ∉ mesh.t.map fun e => decide ((npDigitize x mesh.p : ℤ) - 1 = e.1) := by
      intro hmem
      obtain ⟨e, he, hdec⟩ := List.mem_map.1 hmem
      have h3 := of_decide_eq_true hdec
      have h4 := hm.elems e he
      rcases hd with h | h <;> rw [h] at h3 <;> omega
    simp only [findElement1D, hmax, sorted_sort hm.sorted, if_neg hne, argmax_false hne2 hnm]
  · rintro ⟨e, t, a, b, _, ha, hb, h3, h4⟩
    have ha := List.mem_of_getElem? ha
    have hb := List.mem_of_getElem? hb
    rcases hx with h | h
    · exact absurd h3 (not_le.2 (lt_min (h a ha) (h b hb)))
    · exact absurd h4 (not_le.2 (max_lt (h a ha) (h b hb)))

example := C100_outside_fails exampleMesh_ordered (tol := 1 / 10 ^ 10) (x := 7) (by decide +kernel)

/-! ### Higher dimensions -/

/-- **C101**: in dimension two, if one of the five elements whose centres are the nearest to the point contains it (up to
the machine precision), an element that contains the point is found. Full statement: if any element contains the point,
the element that is found contains it; this is false, see `C101_far_centre_fails`. -/
theorem C101_contains_partial {nElem : ℕ} {eps : K} {nearest : List ℕ} {invF : ℕ → ℕ → K} (hn : ∀ e ∈ nearest, e < nElem)
    (h : ∃ e ∈ nearest, -eps ≤ invF e 0 ∧ -eps ≤ invF e 1 ∧ -eps ≤ 1 - invF e 0 - invF e 1) :
    ∃ e ∈ nearest, findElementND 2 nElem eps nearest invF = .ok e ∧ -eps ≤ invF e 0 ∧ -eps ≤ invF e 1 ∧
      -eps ≤ 1 - invF e 0 - invF e 1 := by
  have hany : ¬ (nearest.any fun e => decide (nElem ≤ e)) = true := by
    simpa using hn
  obtain ⟨e, he, h1, h2, h3⟩ := h
  have hmem : true ∈ nearest.map fun e => inside2D eps (invF e) :=
    List.mem_map.2 ⟨e, he, by simp [inside2D, h1, h2, h3]⟩
  obtain ⟨i, hi, hgi⟩ := argmax_true hmem
  rw [List.getElem?_map, Option.map_eq_some_iff] at hgi
  obtain ⟨f, hf, hin⟩ := hgi
  refine ⟨f, List.mem_of_getElem? hf, ?_, ?_⟩
  · rw [findElementND, if_neg hany, if_pos rfl]
    simp only [hi, hf]
  · simpa [inside2D, and_assoc] using hin

example := C101_contains_partial (K := ℚ) (nElem := 6) (eps := 1 / 100) (nearest := [4, 1, 2, 3, 0])
  (invF := fun e i => if e = 2 then 1 / 4 else if i = 0 then -1 else 3) (by decide) ⟨2, by decide, by norm_num⟩

/-- **C101**: when none of the five nearest elements contains the point, the nearest one is returned, whatever the other
elements are. -/
theorem C101_far_centre_fails {nElem : ℕ} {eps : K} {e : ℕ} {nearest : List ℕ} {invF : ℕ → ℕ → K}
    (hn : ∀ e' ∈ e :: nearest, e' < nElem) (h : ∀ e' ∈ e :: nearest, inside2D eps (invF e') = false) :
    findElementND 2 nElem eps (e :: nearest) invF = .ok e := by
  have hany : ¬ ((e :: nearest).any fun e => decide (nElem ≤ e)) = true := by
    simpa using hn
  have hnm : true ∉ (e :: nearest).map fun e => inside2D eps (invF e) := by
    intro hm
    obtain ⟨f, hf, hin⟩ := List.mem_map.1 hm
    rw [h f hf] at hin
    cases hin
  rw [findElementND, if_neg hany, if_pos rfl, argmax_false (by simp) hnm]
  rfl

/-- The point is in the element five, which is not one of the five nearest ones. -/
example : inside2D (1 / 100 : ℚ) (fun _ => 1 / 4) = true := by decide +kernel
example := C101_far_centre_fails (K := ℚ) (nElem := 6) (eps := 1 / 100) (e := 4) (nearest := [1, 2, 3, 0])
  (invF := fun e i => if e = 5 then 1 / 4 else if i = 0 then -1 else 3) (by decide) (by decide +kernel)

/-- **C102**: the finder never returns an element in dimension three or more: the features of finite elements can not
be evaluated there. -/
theorem C102_three_dimensions_fails {dim nElem : ℕ} (hd : 3 ≤ dim) (eps : K) (nearest : List ℕ) (invF : ℕ → ℕ → K) :
    ∃ err, findElementND dim nElem eps nearest invF = .error err := by
  rw [findElementND]
  split
  · exact ⟨_, rfl⟩
  · rw [if_neg (by omega)]
    split <;> exact ⟨_, rfl⟩

example := C102_three_dimensions_fails (K := ℚ) (dim := 3) (nElem := 6) (by norm_num) (1 / 100) [0, 1, 2, 3, 4]
  (fun _ _ => 1 / 5)

/-- **C102**: with fewer than five elements, some of the five neighbours are missing and the finder fails, in every
dimension above one. -/
theorem C102_few_elements_fails {dim nElem : ℕ} (eps : K) {nearest : List ℕ} (h : nElem ∈ nearest) (invF : ℕ → ℕ → K) :
    findElementND dim nElem eps nearest invF = .error .index := by
  rw [findElementND, if_pos]
  exact List.any_eq_true.2 ⟨nElem, h, by simp⟩

example := C102_few_elements_fails (K := ℚ) (dim := 2) (nElem := 2) (1 / 100) (nearest := [1, 0, 2, 2, 2]) (by decide)
  (fun _ _ => 1 / 5)

/-- **C102**, the true part: in dimension two, with at least five elements (five neighbours are found), an element of the
mesh is returned. -/
theorem C102_two_dimensions_partial {nElem : ℕ} (eps : K) {nearest : List ℕ} (h5 : nearest.length = 5)
    (hn : ∀ e ∈ nearest, e < nElem) (invF : ℕ → ℕ → K) :
    ∃ e < nElem, findElementND 2 nElem eps nearest invF = .ok e := by
  by_cases h : ∃ e ∈ nearest, inside2D eps (invF e) = true
  · obtain ⟨e, he, hin⟩ := h
    obtain ⟨f, hf, hr, _⟩ := C101_contains_partial (eps := eps) (invF := invF) hn
      ⟨e, he, by simpa [inside2D, and_assoc] using hin⟩
    exact ⟨f, hn f hf, hr⟩
  · push Not at h
    cases nearest with
    | nil => simp at h5
    | cons e l =>
      exact ⟨e, hn e (by simp), C101_far_centre_fails hn fun e' he' => by simpa using h e' he'⟩

example := C102_two_dimensions_partial (K := ℚ) (nElem := 6) (1 / 100) (nearest := [1, 0, 2, 4, 5]) rfl (by decide)
  (fun _ _ => 1 / 5)

end

/-! ### The features -/

section
variable {K : Type*} [Field K]

theorem flatMap_range {α : Type*} (m n : ℕ) (f : ℕ → ℕ → α) :
    (List.range m).flatMap (fun k => (List.range n).map (f k)) =
      (List.range (m * n)).map fun p => f (p / n) (p % n) := by
  induction m with
  | zero => simp
  | succ m ih =>
    rw [List.range_succ, List.flatMap_append, ih, Nat.succ_mul, List.range_add, List.map_append]
    congr 1
    simp only [List.flatMap_cons, List.flatMap_nil, List.append_nil, List.map_map]
    refine List.map_congr_left fun i hi => ?_
    have hi := List.mem_range.1 hi
    have hn : 0 < n := by omega
    simp only [Function.comp]
    rw [Nat.mul_comm m n, Nat.mul_add_div hn, Nat.mul_add_mod, Nat.div_eq_of_lt hi, Nat.mod_eq_of_lt hi, Nat.add_zero]

theorem npTile_range {α : Type*} (n m : ℕ) (f : ℕ → α) :
    npTile ((List.range n).map f) m = (List.range (m * n)).map fun p => f (p % n) := by
  rw [← flatMap_range m n (fun _ i => f i), npTile, List.flatMap_def]
  congr 1
  rw [List.map_const', List.length_range]

theorem npRepeat_range {α : Type*} (n m : ℕ) (f : ℕ → α) :
    npRepeat ((List.range n).map f) m = (List.range (n * m)).map fun p => f (p / m) := by
  rw [← flatMap_range n m (fun i _ => f i), npRepeat, List.flatMap_map]
  simp [List.map_const']

theorem cooDense_range {ι : Type*} [DecidableEq ι] (n : ℕ) (c : ℕ → ι) (v : ℕ → K) (i : ι) :
    cooDense ((List.range n).map c) ((List.range n).map v) i = ∑ p ∈ range n, if c p = i then v p else 0 := by
  rw [cooDense, List.zip_map']
  rw [List.map_map]
  induction n with
  | zero => simp
  | succ n ih => rw [List.range_succ, List.map_append, List.sum_append, ih, Finset.sum_range_succ]; simp

theorem sum_blocks {M : Type*} [AddCommMonoid M] (m n : ℕ) (f : ℕ → ℕ → M) :
    ∑ p ∈ range (m * n), f (p / n) (p % n) = ∑ k ∈ range m, ∑ s ∈ range n, f k s := by
  induction m with
  | zero => simp
  | succ m ih =>
    rw [Nat.succ_mul, Finset.sum_range_add, ih, Finset.sum_range_succ]
    congr 1
    refine Finset.sum_congr rfl fun i hi => ?_
    have hi := Finset.mem_range.1 hi
    have hn : 0 < n := by omega
    rw [Nat.mul_comm m n, Nat.mul_add_div hn, Nat.mul_add_mod, Nat.div_eq_of_lt hi, Nat.mod_eq_of_lt hi, Nat.add_zero]

/-- **C79**, the values: the feature `j` at the sample `s` is the sum of the local functions of the element of the sample
that have the index `j`. -/
theorem C79_basis (nb ns : ℕ) (dofs : ℕ → ℕ → ℕ) (phi : ℕ → ℕ → K) {s : ℕ} (hs : s < ns) (j : ℕ) :
    femBasis nb ns dofs phi s j = ∑ k ∈ range nb, if dofs k s = j then phi k s else 0 := by
  rw [femBasis, flatDofs, flatMap_range, flatMap_range, show List.range ns = (List.range ns).map id by simp,
    npTile_range, List.zip_map', cooDense_range]
  have := sum_blocks nb ns fun k s' => if (s', dofs k s') = (s, j) then phi k s' else 0
  rw [show (∑ p ∈ range (nb * ns), if (id (p % ns), dofs (p / ns) (p % ns)) = (s, j) then phi (p / ns) (p % ns) else 0) =
    _ from this]
  refine Finset.sum_congr rfl fun k _ => ?_
  rw [Finset.sum_eq_single s (fun s' _ hne => if_neg fun h => hne (congrArg Prod.fst h))
    (fun h => absurd (Finset.mem_range.2 hs) h)]
  simp

example := C79_basis (K := ℚ) 2 3 (fun k s => s + k) (fun k s => s / (k + 1)) (s := 1) (by norm_num) 2

/-- The entries of `deriv` in the order of the data. -/
theorem femDeriv_eq (dim nb ns : ℕ) (dofs : ℕ → ℕ → ℕ) (grad : ℕ → ℕ → ℕ → K) (s j d : ℕ) :
    femDeriv dim nb ns dofs grad s j d = ∑ p ∈ range (dim * (nb * ns)),
      if (p % ns, dofs (p % (nb * ns) / ns) (p % (nb * ns) % ns), p / (nb * ns)) = (s, j, d) then
        grad (p / (ns * dim)) (p % (ns * dim) / dim) (p % (ns * dim) % dim) else 0 := by
  have h1 : ((List.range nb).flatMap fun k => (List.range ns).flatMap fun s => (List.range dim).map fun d => grad k s d) =
      (List.range (dim * (nb * ns))).map fun p => grad (p / (ns * dim)) (p % (ns * dim) / dim) (p % (ns * dim) % dim) := by
    simp only [flatMap_range]
    rw [show dim * (nb * ns) = nb * (ns * dim) by ring]
  have h2 : npTile (List.range ns) (dim * nb) = (List.range (dim * (nb * ns))).map fun p => p % ns := by
    conv_lhs => rw [show List.range ns = (List.range ns).map id by simp, npTile_range]
    rw [show dim * (nb * ns) = dim * nb * ns by ring]; rfl
  have h3 : npRepeat (List.range dim) (ns * nb) = (List.range (dim * (nb * ns))).map fun p => p / (nb * ns) := by
    conv_lhs => rw [show List.range dim = (List.range dim).map id by simp, npRepeat_range]
    rw [Nat.mul_comm ns nb]; rfl
  rw [femDeriv, flatDofs, flatMap_range, npTile_range, h1, h2, h3, List.zip_map', List.zip_map', cooDense_range]

/-- **C79**, the derivatives in dimension one. Full statement: the same in every dimension; this is false, see
`C79_deriv_fails`. -/
theorem C79_deriv_one_dimension_partial (nb ns : ℕ) (dofs : ℕ → ℕ → ℕ) (grad : ℕ → ℕ → ℕ → K) {s : ℕ} (hs : s < ns)
    (j : ℕ) : femDeriv 1 nb ns dofs grad s j 0 = ∑ k ∈ range nb, if dofs k s = j then grad k s 0 else 0 := by
  rw [← C79_basis nb ns dofs (fun k s => grad k s 0) hs j, femDeriv_eq]
  rw [femBasis, flatDofs, flatMap_range, flatMap_range, show List.range ns = (List.range ns).map id by simp,
    npTile_range, List.zip_map', cooDense_range, one_mul]
  refine Finset.sum_congr rfl fun p hp => ?_
  have hp := Finset.mem_range.1 hp
  simp only [mul_one, Nat.mod_one, Nat.div_one, Nat.mod_eq_of_lt hp, Nat.div_eq_of_lt hp, Prod.mk.injEq, and_true, id]

example := C79_deriv_one_dimension_partial (K := ℚ) 2 3 (fun k s => s + k) (fun k s _ => s / (k + 1)) (s := 1)
  (by norm_num) 2

/-- **C79**, the derivatives: in every dimension above one, as soon as there are two entries (two samples, or two local
functions), the components of the gradients are stored in the wrong places: whatever the indices of the functions, there
are gradients for which the component one of the first function at the first sample is lost. -/
theorem C79_deriv_fails {dim nb ns : ℕ} (_hd : 2 ≤ dim) (hn : 2 ≤ nb * ns) (dofs : ℕ → ℕ → ℕ) :
    ∃ grad : ℕ → ℕ → ℕ → K, femDeriv dim nb ns dofs grad 0 (dofs 0 0) 1 = 0 ∧
      (∑ k ∈ range nb, if dofs k 0 = dofs 0 0 then grad k 0 1 else 0) = 1 := by
  have hb : 0 < nb := Nat.pos_of_mul_pos_right (by omega : 0 < nb * ns)
  have hs : 0 < ns := Nat.pos_of_mul_pos_left (by omega : 0 < nb * ns)
  refine ⟨fun k s d => if k = 0 ∧ s = 0 ∧ d = 1 then 1 else 0, ?_, ?_⟩
  · rw [femDeriv_eq]
    refine Finset.sum_eq_zero fun p hp => ?_
    split_ifs with h1 h2
    · exfalso
      have hd1 : p / (nb * ns) = 1 := congrArg (fun q : ℕ × ℕ × ℕ => q.2.2) h1
      have e1 := Nat.div_add_mod p (ns * dim)
      have e2 := Nat.div_add_mod (p % (ns * dim)) dim
      rw [h2.1, Nat.mul_zero, Nat.zero_add] at e1
      rw [h2.2.1, h2.2.2, Nat.mul_zero, Nat.zero_add, e1] at e2
      rw [← e2, Nat.div_eq_of_lt (by omega)] at hd1
      omega
    · rfl
    · rfl
  · rw [Finset.sum_eq_single 0 (fun k _ hk => by simp [hk]) (fun h => absurd (Finset.mem_range.2 hb) h)]
    simp

example := C79_deriv_fails (K := ℚ) (dim := 2) (nb := 3) (ns := 1) (by norm_num) (by norm_num) (fun k _ => k)

end

end Verif
