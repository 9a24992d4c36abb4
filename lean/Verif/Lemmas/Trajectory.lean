import Verif.Spec.Trajectory
import Mathlib.Tactic.Ring
import Mathlib.Tactic.Linarith
import Mathlib.Tactic.FieldSimp

/-!
# Lemmas on `dropna` and finite differences
-/

set_option linter.unusedSimpArgs false
set_option linter.unusedSectionVars false

namespace Verif

variable {K : Type*}

theorem filter_range_interior (n : ℕ) (p : ℕ → Bool) (hp : ∀ i < n, p i = decide (1 ≤ i ∧ i + 1 < n)) :
    (List.range n).filter p = List.range' 1 (n - 2) := by
  have h1 : (List.range n).filter p = (List.range n).filter fun i => decide (1 ≤ i ∧ i + 1 < n) :=
    List.filter_congr fun i hi => hp i (List.mem_range.1 hi)
  rw [h1]
  match n with
  | 0 => rfl
  | 1 => simp
  | m + 2 =>
    have : List.range (m + 2) = [0] ++ (List.range' 1 m ++ [m + 1]) := by
      rw [List.range_eq_range']
      have e1 : List.range' 0 (m + 2) = List.range' 0 1 ++ List.range' 1 (m + 1) := by
        rw [show m + 2 = 1 + (m + 1) by omega, ← List.range'_append]
      have e2 : List.range' 1 (m + 1) = List.range' 1 m ++ [m + 1] := by
        rw [← List.range'_append]; simp [Nat.add_comm]
      rw [e1, e2]; rfl
    rw [this, List.filter_append, List.filter_append]
    have h2 : (List.range' 1 m).filter (fun i => decide (1 ≤ i ∧ i + 1 < m + 2)) = List.range' 1 m := by
      apply List.filter_eq_self.2
      intro a ha
      rw [List.mem_range'_1] at ha
      simp; omega
    rw [h2]
    simp

/-- The frames kept by `dropna`, for the datasets built by `compute_va` and the like. -/
theorem complete_interior (ds : Dataset K) (x v a : DataVar K) (hv : ds.vars = [("x", x), ("v", v), ("a", a)])
    (hx : ∀ i < ds.n, ∀ k < x.dim, (x.get i k).isSome)
    (hvi : ∀ i, 1 ≤ i → i + 1 < ds.n → ∀ k < v.dim, (v.get i k).isSome)
    (hai : ∀ i, 1 ≤ i → i + 1 < ds.n → ∀ k < a.dim, (a.get i k).isSome)
    (hd : 0 < a.dim) (hn : ∀ i < ds.n, ¬ (1 ≤ i ∧ i + 1 < ds.n) → a.get i 0 = none) :
    ds.complete = List.range' 1 (ds.n - 2) := by
  apply filter_range_interior
  intro i hi
  rw [hv]
  by_cases h : 1 ≤ i ∧ i + 1 < ds.n
  · rw [decide_eq_true h]
    simp only [List.all_cons, List.all_nil, Bool.and_true, Bool.and_eq_true, List.all_eq_true, List.mem_range]
    exact ⟨fun k hk => hx i hi k hk, fun k hk => hvi i h.1 h.2 k hk, fun k hk => hai i h.1 h.2 k hk⟩
  · rw [decide_eq_false h]
    have hne := hn i hi h
    simp only [List.all_cons, List.all_nil, Bool.and_true, Bool.and_eq_false_iff]
    right; right
    rw [List.all_eq_false]
    exact ⟨0, List.mem_range.2 hd, by rw [hne]; simp⟩

/-- `dropna` of such a dataset: the interior frames. -/
theorem dropna_interior (ds : Dataset K) (x v a : DataVar K) (d : ℕ) (hv : ds.vars = [("x", x), ("v", v), ("a", a)])
    (X V A : ℕ → ℕ → K) (hdx : x.dim = d) (hdv : v.dim = d) (hda : a.dim = d)
    (hx : ∀ i < ds.n, ∀ k < d, x.get i k = some (X i k))
    (hvi : ∀ i, 1 ≤ i → i + 1 < ds.n → ∀ k < d, v.get i k = some (V i k))
    (hai : ∀ i, 1 ≤ i → i + 1 < ds.n → ∀ k < d, a.get i k = some (A i k))
    (hd : 0 < d) (hn : ∀ i < ds.n, ¬ (1 ≤ i ∧ i + 1 < ds.n) → a.get i 0 = none) :
    IsInterior ds ds.dropna ∧ ds.dropna.Has "x" d (fun i => X (i + 1)) ∧
      ds.dropna.Has "v" d (fun i => V (i + 1)) ∧ ds.dropna.Has "a" d (fun i => A (i + 1)) := by
  have hc := complete_interior ds x v a hv (fun i hi k hk => by rw [hx i hi k (hdx ▸ hk)]; rfl)
    (fun i h1 h2 k hk => by rw [hvi i h1 h2 k (hdv ▸ hk)]; rfl)
    (fun i h1 h2 k hk => by rw [hai i h1 h2 k (hda ▸ hk)]; rfl) (hda ▸ hd) hn
  have hidx : ∀ i < ds.n - 2, (ds.complete[i]?).getD 0 = i + 1 := by
    intro i hi
    rw [hc, List.getElem?_range']
    · simp [Nat.add_comm]
    · exact hi
  have hlen : ds.dropna.n = ds.n - 2 := by simp [Dataset.dropna, hc]
  refine ⟨⟨hlen, rfl, fun i hi => ?_⟩, ⟨⟨x.dim, fun i k => x.get ((ds.complete[i]?).getD 0) k⟩, ?_, hdx, ?_⟩,
    ⟨⟨v.dim, fun i k => v.get ((ds.complete[i]?).getD 0) k⟩, ?_, hdv, ?_⟩,
    ⟨⟨a.dim, fun i k => a.get ((ds.complete[i]?).getD 0) k⟩, ?_, hda, ?_⟩⟩
  · rw [hlen] at hi
    simp only [Dataset.dropna, hidx i hi]
  · simp [Dataset.dropna, hv, List.lookup]
  · intro i hi k hk
    rw [hlen] at hi
    dsimp only
    rw [hidx i hi, hx _ (by omega) k hk]
  · simp [Dataset.dropna, hv, List.lookup]
  · intro i hi k hk
    rw [hlen] at hi
    dsimp only
    rw [hidx i hi, hvi _ (by omega) (by omega) k hk]
  · simp [Dataset.dropna, hv, List.lookup]
  · intro i hi k hk
    rw [hlen] at hi
    dsimp only
    rw [hidx i hi, hai _ (by omega) (by omega) k hk]

section
variable [Field K]

/-- The raw differences. -/
theorem diff_get (x : DataVar K) (X : ℕ → ℕ → K) (n d : ℕ) (hx : ∀ i < n, ∀ k < d, x.get i k = some (X i k))
    (i : ℕ) (hi : i < n) (k : ℕ) (hk : k < d) (f : K → K → K) :
    (x.zip f x.shiftUp).get i k = if i = 0 then none else some (f (X i k) (X (i - 1) k)) := by
  by_cases h : i = 0
  · subst h; simp [DataVar.zip, DataVar.shiftUp, hx 0 hi k hk]
  · simp [DataVar.zip, DataVar.shiftUp, h, hx i hi k hk, hx (i - 1) (by omega) k hk]

variable [LinearOrder K]

/-- What the jump correction does to one increment. -/
def fixJump (jumps : Option (K × K)) (δ : K) : K :=
  match jumps with
  | none => δ
  | some (jump, thr) =>
    let δ := if δ > -thr then δ else δ + jump
    if δ < thr then δ else δ - jump

theorem jumpDiffs_get (x : DataVar K) (X : ℕ → ℕ → K) (n d : ℕ) (hx : ∀ i < n, ∀ k < d, x.get i k = some (X i k))
    (jumps : Option (K × K)) (i : ℕ) (hi : i < n) (k : ℕ) (hk : k < d) :
    (jumpDiffs x jumps).get i k = if i = 0 then none else some (fixJump jumps (X i k - X (i - 1) k)) := by
  match jumps with
  | none => exact diff_get x X n d hx i hi k hk _
  | some (jump, thr) =>
    simp only [jumpDiffs, DataVar.whereElse, diff_get x X n d hx i hi k hk]
    by_cases h : i = 0
    · simp [h]
    · simp [h, fixJump]

theorem jumpDiffs_dim (x : DataVar K) (jumps : Option (K × K)) : (jumpDiffs x jumps).dim = x.dim := by
  match jumps with
  | none => rfl
  | some _ => rfl

/-- `compute_va`, with the increments written out. -/
theorem computeVa_spec (ds : Dataset K) (jumps : Option (K × K)) (lamb dt : K) (d : ℕ) (X : ℕ → ℕ → K) (hd : 0 < d)
    (hdt : ds.dt = some dt) (hX : ds.Has "x" d X) :
    ∃ r, computeVa ds jumps lamb = .ok r ∧ IsInterior ds r ∧ r.Has "x" d (fun i => X (i + 1)) ∧
      r.Has "v" d (fun i k => (lamb * fixJump jumps (X (i + 2) k - X (i + 1) k) +
        (1 - lamb) * fixJump jumps (X (i + 1) k - X i k)) / dt) ∧
      r.Has "a" d (fun i k => (fixJump jumps (X (i + 2) k - X (i + 1) k) - fixJump jumps (X (i + 1) k - X i k)) / dt ^ 2) := by
  obtain ⟨x, hl, hdim, hx⟩ := hX
  have hg := jumpDiffs_get x X ds.n d hx jumps
  have hjd : (jumpDiffs x jumps).dim = d := (jumpDiffs_dim x jumps).trans hdim
  have hgd : ds.getDt = .ok dt := by simp only [Dataset.getDt, hdt]
  simp only [computeVa, Dataset.var, hl, hgd, bind, Except.bind, pure, Except.pure]
  refine ⟨_, rfl, ?_⟩
  have key := fun h1 h2 h3 => dropna_interior (Dataset.mk ds.n ds.time [("x", x), ("v", ((((jumpDiffs x jumps).shiftDown ds.n).map (lamb * ·)).zip (· + ·) ((jumpDiffs x jumps).map ((1 - lamb) * ·))).map (· / dt)),
      ("a", (((jumpDiffs x jumps).shiftDown ds.n).zip (· - ·) (jumpDiffs x jumps)).map (· / dt ^ 2))] ds.dt) x (((((jumpDiffs x jumps).shiftDown ds.n).map (lamb * ·)).zip (· + ·) ((jumpDiffs x jumps).map ((1 - lamb) * ·))).map (· / dt))
    ((((jumpDiffs x jumps).shiftDown ds.n).zip (· - ·) (jumpDiffs x jumps)).map (· / dt ^ 2)) d rfl X
    (fun i k => (lamb * fixJump jumps (X (i + 1) k - X i k) + (1 - lamb) * fixJump jumps (X i k - X (i - 1) k)) / dt)
    (fun i k => (fixJump jumps (X (i + 1) k - X i k) - fixJump jumps (X i k - X (i - 1) k)) / dt ^ 2)
    hdim hjd hjd hx h1 h2 hd h3
  refine key ?_ ?_ ?_
  · intro i h1 h2 k hk
    have h2' : i + 1 < ds.n := h2
    simp [DataVar.map, DataVar.zip, DataVar.shiftDown, h2', hg (i + 1) h2' k hk, hg i (by omega) k hk, show i ≠ 0 by omega]
  · intro i h1 h2 k hk
    have h2' : i + 1 < ds.n := h2
    simp [DataVar.map, DataVar.zip, DataVar.shiftDown, h2', hg (i + 1) h2' k hk, hg i (by omega) k hk, show i ≠ 0 by omega]
  · intro i hi h
    have hi' : i < ds.n := hi
    have h' : ¬ (1 ≤ i ∧ i + 1 < ds.n) := h
    by_cases h0 : i = 0
    · subst h0
      simp [DataVar.map, DataVar.zip, hg 0 hi' 0 hd]
    · have : ¬ (i + 1 < ds.n) := fun h2 => h' ⟨by omega, h2⟩
      simp [DataVar.map, DataVar.zip, DataVar.shiftDown, this]

/-- `compute_va_gjf`, with the increments written out. -/
theorem computeVaGjf_spec (ds : Dataset K) (jumps : Option (K × K)) (dt : K) (d : ℕ) (X : ℕ → ℕ → K) (hd : 0 < d)
    (hdt : ds.dt = some dt) (hX : ds.Has "x" d X) :
    ∃ r, computeVaGjf ds jumps = .ok r ∧ IsInterior ds r ∧ r.Has "x" d (fun i => X (i + 1)) ∧
      r.Has "v" d (fun i k => fixJump jumps (X (i + 1) k - X i k) / dt) ∧
      r.Has "a" d (fun i k => (fixJump jumps (X (i + 2) k - X (i + 1) k) - fixJump jumps (X (i + 1) k - X i k)) / dt ^ 2) := by
  obtain ⟨x, hl, hdim, hx⟩ := hX
  have hg := jumpDiffs_get x X ds.n d hx jumps
  have hjd : (jumpDiffs x jumps).dim = d := (jumpDiffs_dim x jumps).trans hdim
  have hgd : ds.getDt = .ok dt := by simp only [Dataset.getDt, hdt]
  simp only [computeVaGjf, Dataset.var, hl, hgd, bind, Except.bind, pure, Except.pure]
  refine ⟨_, rfl, ?_⟩
  have key := fun h1 h2 h3 => dropna_interior (Dataset.mk ds.n ds.time [("x", x), ("v", (jumpDiffs x jumps).map (· / dt)),
      ("a", (((jumpDiffs x jumps).shiftDown ds.n).zip (· - ·) (jumpDiffs x jumps)).map (· / dt ^ 2))] ds.dt) x ((jumpDiffs x jumps).map (· / dt))
    ((((jumpDiffs x jumps).shiftDown ds.n).zip (· - ·) (jumpDiffs x jumps)).map (· / dt ^ 2)) d rfl X (fun i k => fixJump jumps (X i k - X (i - 1) k) / dt)
    (fun i k => (fixJump jumps (X (i + 1) k - X i k) - fixJump jumps (X i k - X (i - 1) k)) / dt ^ 2)
    hdim hjd hjd hx h1 h2 hd h3
  refine key ?_ ?_ ?_
  · intro i h1 h2 k hk
    have h2' : i + 1 < ds.n := h2
    simp [DataVar.map, hg i (by omega) k hk, show i ≠ 0 by omega]
  · intro i h1 h2 k hk
    have h2' : i + 1 < ds.n := h2
    simp [DataVar.map, DataVar.zip, DataVar.shiftDown, h2', hg (i + 1) h2' k hk, hg i (by omega) k hk, show i ≠ 0 by omega]
  · intro i hi h
    have hi' : i < ds.n := hi
    have h' : ¬ (1 ≤ i ∧ i + 1 < ds.n) := h
    by_cases h0 : i = 0
    · subst h0
      simp [DataVar.map, DataVar.zip, hg 0 hi' 0 hd]
    · have : ¬ (i + 1 < ds.n) := fun h2 => h' ⟨by omega, h2⟩
      simp [DataVar.map, DataVar.zip, DataVar.shiftDown, this]

omit [LinearOrder K] in
/-- `compute_a`. -/
theorem computeA_spec (ds : Dataset K) (dt : K) (d : ℕ) (X V : ℕ → ℕ → K) (hd : 0 < d)
    (hdt : ds.dt = some dt) (hX : ds.Has "x" d X) (hV : ds.Has "v" d V) :
    ∃ r, computeA ds = .ok r ∧ IsInterior ds r ∧ r.Has "x" d (fun i => X (i + 1)) ∧ r.Has "v" d (fun i => V (i + 1)) ∧
      r.Has "a" d (fun i k => ((X (i + 2) k - X (i + 1) k) - (X (i + 1) k - X i k)) / dt ^ 2) := by
  obtain ⟨x, hl, hdim, hx⟩ := hX
  obtain ⟨v, hlv, hdimv, hv⟩ := hV
  have hg := fun i hi k hk => diff_get x X ds.n d hx i hi k hk (· - ·)
  have hgd : ds.getDt = .ok dt := by simp only [Dataset.getDt, hdt]
  simp only [computeA, Dataset.var, hl, hlv, hgd, bind, Except.bind, pure, Except.pure]
  refine ⟨_, rfl, ?_⟩
  have key := fun h2 h3 => dropna_interior (Dataset.mk ds.n ds.time [("x", x), ("v", v),
      ("a", (((x.zip (· - ·) x.shiftUp).shiftDown ds.n).zip (· - ·) (x.zip (· - ·) x.shiftUp)).map (· / dt ^ 2))] ds.dt) x (v)
    ((((x.zip (· - ·) x.shiftUp).shiftDown ds.n).zip (· - ·) (x.zip (· - ·) x.shiftUp)).map (· / dt ^ 2)) d rfl X V
    (fun i k => ((X (i + 1) k - X i k) - (X i k - X (i - 1) k)) / dt ^ 2)
    hdim hdimv hdim hx (fun i _ h2 k hk => hv i (Nat.lt_of_succ_lt h2) k hk) h2 hd h3
  refine key ?_ ?_
  · intro i h1 h2 k hk
    have h2' : i + 1 < ds.n := h2
    have e1 := hg (i + 1) h2' k hk
    have e2 := hg i (by omega) k hk
    rw [if_neg (by omega)] at e1 e2
    simp only [DataVar.map, DataVar.shiftDown, h2', if_true]
    simp only [DataVar.zip, DataVar.map, if_true, h2'] at e1 e2 ⊢
    rw [e1, e2]; rfl
  · intro i hi h
    have hi' : i < ds.n := hi
    have h' : ¬ (1 ≤ i ∧ i + 1 < ds.n) := h
    by_cases h0 : i = 0
    · subst h0
      simp [DataVar.map, DataVar.zip, DataVar.shiftUp]
    · have : ¬ (i + 1 < ds.n) := fun h2 => h' ⟨by omega, h2⟩
      simp [DataVar.map, DataVar.zip, DataVar.shiftDown, this]

omit [LinearOrder K] in
/-- `compute_a_from_vel`. -/
theorem computeAFromVel_spec (ds : Dataset K) (dt : K) (d : ℕ) (X V : ℕ → ℕ → K) (hd : 0 < d)
    (hdt : ds.dt = some dt) (hX : ds.Has "x" d X) (hV : ds.Has "v" d V) :
    ∃ r, computeAFromVel ds = .ok r ∧ IsInterior ds r ∧ r.Has "x" d (fun i => X (i + 1)) ∧
      r.Has "v" d (fun i => V (i + 1)) ∧ r.Has "a" d (fun i k => (V (i + 2) k - V i k) / (2 * dt)) := by
  obtain ⟨x, hl, hdim, hx⟩ := hX
  obtain ⟨v, hlv, hdimv, hv⟩ := hV
  have hgd : ds.getDt = .ok dt := by simp only [Dataset.getDt, hdt]
  simp only [computeAFromVel, Dataset.var, hl, hlv, hgd, bind, Except.bind, pure, Except.pure]
  refine ⟨_, rfl, ?_⟩
  have key := fun h2 h3 => dropna_interior (Dataset.mk ds.n ds.time [("x", x), ("v", v),
      ("a", ((v.shiftDown ds.n).zip (· - ·) v.shiftUp).map (· / (2 * dt)))] ds.dt) x (v)
    (((v.shiftDown ds.n).zip (· - ·) v.shiftUp).map (· / (2 * dt))) d rfl X V (fun i k => (V (i + 1) k - V (i - 1) k) / (2 * dt))
    hdim hdimv hdimv hx (fun i _ h2 k hk => hv i (Nat.lt_of_succ_lt h2) k hk) h2 hd h3
  refine key ?_ ?_
  · intro i h1 h2 k hk
    have h2' : i + 1 < ds.n := h2
    simp [DataVar.map, DataVar.zip, DataVar.shiftDown, DataVar.shiftUp, h2', hv (i + 1) h2' k hk, hv (i - 1) (by omega) k hk,
      show i ≠ 0 by omega]
  · intro i hi h
    have h' : ¬ (1 ≤ i ∧ i + 1 < ds.n) := h
    by_cases h0 : i = 0
    · subst h0
      simp [DataVar.map, DataVar.zip, DataVar.shiftUp]
    · have : ¬ (i + 1 < ds.n) := fun h2 => h' ⟨by omega, h2⟩
      simp [DataVar.map, DataVar.zip, DataVar.shiftDown, this]

end

end Verif
