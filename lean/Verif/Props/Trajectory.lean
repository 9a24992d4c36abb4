import Verif.Lemmas.Trajectory
import Mathlib.Data.Rat.Floor
import Mathlib.Tactic.Set
import Mathlib.Algebra.Order.Round
import Mathlib.Algebra.Order.AbsoluteValue.Basic

/-!
# C45 to C49: the trajectory utilities
-/

set_option linter.unusedSectionVars false

namespace Verif

/-! ### Sample data -/

namespace ExTraj

/-- Four frames of a two-dimensional motion. -/
def X : ℕ → ℕ → ℚ := fun i k => if k = 0 then (i : ℚ) ^ 2 else 3 * i

/-- The dataset returned by `xframe` for this motion, with `dt = 1/2`. -/
def ds : Dataset ℚ := ⟨4, fun i => i / 2, [("x", ⟨2, fun i k => some (X i k)⟩)], some (1 / 2)⟩

theorem has_x : ds.Has "x" 2 X := ⟨_, rfl, rfl, fun _ _ _ _ => rfl⟩

/-- The same with velocities. -/
def dsv : Dataset ℚ :=
  ⟨4, fun i => i / 2, [("x", ⟨2, fun i k => some (X i k)⟩), ("v", ⟨2, fun i k => some (i + k)⟩)], some (1 / 2)⟩

theorem hasv_x : dsv.Has "x" 2 X := ⟨_, rfl, rfl, fun _ _ _ _ => rfl⟩

theorem hasv_v : dsv.Has "v" 2 (fun i k => i + k) := ⟨_, rfl, rfl, fun _ _ _ _ => rfl⟩

end ExTraj

/-! ### C45 -/

section
variable {K : Type*} [Field K] [LinearOrder K]

/-- **C45**. `compute_va` keeps exactly the interior frames, with their time stamps and positions, and gives
them the centred second difference as acceleration and the `lamb`-mixed difference as velocity. -/
theorem C45_compute_va (ds : Dataset K) (lamb dt : K) (d : ℕ) (X : ℕ → ℕ → K) (hd : 0 < d)
    (hdt : ds.dt = some dt) (hX : ds.Has "x" d X) :
    ∃ r, computeVa ds none lamb = .ok r ∧ IsInterior ds r ∧
      r.Has "x" d (fun i => X (i + 1)) ∧
      r.Has "v" d (fun i => Spec.mixedDifference dt lamb X (i + 1)) ∧
      r.Has "a" d (fun i => Spec.secondDifference dt X (i + 1)) := by
  obtain ⟨r, h1, h2, h3, h4, h5⟩ := computeVa_spec ds none lamb dt d X hd hdt hX
  refine ⟨r, h1, h2, h3, h4, ?_⟩
  obtain ⟨a, ha, hda, hav⟩ := h5
  refine ⟨a, ha, hda, fun i hi k hk => ?_⟩
  rw [hav i hi k hk]
  simp only [fixJump, Spec.secondDifference, Nat.add_sub_cancel]
  congr 2; ring

example :=
  C45_compute_va ExTraj.ds (1 / 3) (1 / 2) 2 ExTraj.X (by decide) rfl ExTraj.has_x

/-- **C45** for `compute_va_gjf`: the velocity is the backward difference. -/
theorem C45_compute_va_gjf (ds : Dataset K) (dt : K) (d : ℕ) (X : ℕ → ℕ → K) (hd : 0 < d)
    (hdt : ds.dt = some dt) (hX : ds.Has "x" d X) :
    ∃ r, computeVaGjf ds none = .ok r ∧ IsInterior ds r ∧
      r.Has "x" d (fun i => X (i + 1)) ∧
      r.Has "v" d (fun i => Spec.backwardDifference dt X (i + 1)) ∧
      r.Has "a" d (fun i => Spec.secondDifference dt X (i + 1)) := by
  obtain ⟨r, h1, h2, h3, h4, h5⟩ := computeVaGjf_spec ds none dt d X hd hdt hX
  refine ⟨r, h1, h2, h3, h4, ?_⟩
  obtain ⟨a, ha, hda, hav⟩ := h5
  refine ⟨a, ha, hda, fun i hi k hk => ?_⟩
  rw [hav i hi k hk]
  simp only [fixJump, Spec.secondDifference, Nat.add_sub_cancel]
  congr 2; ring

example :=
  C45_compute_va_gjf ExTraj.ds (1 / 2) 2 ExTraj.X (by decide) rfl ExTraj.has_x

/-- **C45**, missing data: whatever entries of the trajectory are missing, the frames kept by `compute_va` are, in
order, the interior frames for which neither the frame nor its two neighbours miss an entry. -/
theorem C45_missing_frames (ds : Dataset K) (lamb dt : K) (x : DataVar K) (hd : 0 < x.dim)
    (hdt : ds.dt = some dt) (hx : ds.vars.lookup "x" = some x) :
    ∃ r, computeVa ds none lamb = .ok r ∧
      let kept := (List.range ds.n).filter fun i => decide (1 ≤ i ∧ i + 1 < ds.n ∧ ∀ k < x.dim,
        (x.get (i - 1) k).isSome ∧ (x.get i k).isSome ∧ (x.get (i + 1) k).isSome)
      r.n = kept.length ∧ ∀ i (h : i < kept.length), r.time i = ds.time kept[i] := by
  have hgd : ds.getDt = .ok dt := by simp only [Dataset.getDt, hdt]
  simp only [computeVa, Dataset.var, hx, hgd, bind, Except.bind, pure, Except.pure]
  refine ⟨_, rfl, ?_⟩
  set kept := (List.range ds.n).filter fun i => decide (1 ≤ i ∧ i + 1 < ds.n ∧ ∀ k < x.dim,
    (x.get (i - 1) k).isSome ∧ (x.get i k).isSome ∧ (x.get (i + 1) k).isSome) with hkept
  have hc' : (Dataset.mk ds.n ds.time [("x", x),
      ("v", ((((jumpDiffs x none).shiftDown ds.n).map (lamb * ·)).zip (· + ·)
        ((jumpDiffs x none).map ((1 - lamb) * ·))).map (· / dt)),
      ("a", (((jumpDiffs x none).shiftDown ds.n).zip (· - ·) (jumpDiffs x none)).map (· / dt ^ 2))] ds.dt).complete =
      kept := by
    unfold Dataset.complete
    apply List.filter_congr
    intro i hi
    rw [List.mem_range] at hi
    rw [Bool.eq_iff_iff]
    simp only [List.all_cons, List.all_nil, Bool.and_true, Bool.and_eq_true, List.all_eq_true, List.mem_range,
      decide_eq_true_eq, jumpDiffs]
    by_cases h0 : i = 0
    · subst h0
      simp only [show ¬ (1 ≤ 0) by omega, false_and, iff_false, not_and]
      intro _ h2 
      have := h2 0 hd
      simp [DataVar.map, DataVar.zip, DataVar.shiftDown, DataVar.shiftUp] at this
    · by_cases h1 : i + 1 < ds.n
      · have hi1 : 1 ≤ i := by omega
        simp only [hi1, h1, true_and]
        constructor
        · rintro ⟨a1, a2, a3⟩ k hk
          have b1 := a1 k hk
          have b3 := a3 k hk
          simp only [DataVar.map, DataVar.zip, DataVar.shiftDown, DataVar.shiftUp, h0, h1, if_true, if_false,
            Nat.add_sub_cancel, Nat.succ_ne_zero] at b3
          cases e1 : x.get (i - 1) k <;> cases e2 : x.get i k <;> cases e3 : x.get (i + 1) k <;>
            simp_all
        · intro h
          refine ⟨fun k hk => (h k hk).2.1, fun k hk => ?_, fun k hk => ?_⟩ <;>
          · obtain ⟨c1, c2, c3⟩ := h k hk
            obtain ⟨_, e1⟩ := Option.isSome_iff_exists.1 c1
            obtain ⟨_, e2⟩ := Option.isSome_iff_exists.1 c2
            obtain ⟨_, e3⟩ := Option.isSome_iff_exists.1 c3
            simp [DataVar.map, DataVar.zip, DataVar.shiftDown, DataVar.shiftUp, h0, h1, e1, e2, e3]
      · simp only [h1, false_and, and_false, iff_false, not_and]
        intro _ h2
        have := h2 0 hd
        simp [DataVar.map, DataVar.zip, DataVar.shiftDown, h1] at this
  refine ⟨?_, fun i hi => ?_⟩
  · simp only [Dataset.dropna]
    rw [hc']
  · simp only [Dataset.dropna]
    rw [hc', List.getElem?_eq_getElem hi]; rfl

example :=
  C45_missing_frames (⟨5, fun i => (i : ℚ), [("x", ⟨1, fun i _ => if i = 4 then none else some (i : ℚ)⟩)], some 1⟩ : Dataset ℚ) (1 / 2) 1 _ (by decide) rfl rfl

/-- **C45**, the reported failures: without `x` or without the attribute `dt` there is a `KeyError`. -/
theorem C45_key_error (ds : Dataset K) (lamb : K) (h : ds.vars.lookup "x" = none ∨ ds.dt = none) :
    computeVa ds none lamb = .error .key := by
  rcases h with h | h
  · simp [computeVa, Dataset.var, h, bind, Except.bind]
  · simp only [computeVa, Dataset.var, Dataset.getDt, h, bind, Except.bind]
    cases ds.vars.lookup "x" <;> rfl

example : computeVa ({ ExTraj.ds with dt := none } : Dataset ℚ) none (1 / 2) = .error .key :=
  C45_key_error _ _ (Or.inr rfl)

end

/-! ### C46 -/

section
variable {K : Type*} [Field K] [LinearOrder K] [CharZero K]

/-- Uniformly accelerated motion sampled at the times `t0 + i dt`. -/
def Spec.quadraticMotion (t0 dt : K) (x0 v0 a : ℕ → K) : ℕ → ℕ → K := fun i k =>
  x0 k + v0 k * (t0 + i * dt) + a k / 2 * (t0 + i * dt) ^ 2

/-- Its velocity. -/
def Spec.linearVelocity (t0 dt : K) (v0 a : ℕ → K) : ℕ → ℕ → K := fun i k => v0 k + a k * (t0 + i * dt)

theorem Dataset.Has.congr {K : Type*} {ds : Dataset K} {name : String} {d : ℕ} {X Y : ℕ → ℕ → K} (h : ds.Has name d X)
    (e : ∀ i k, X i k = Y i k) : ds.Has name d Y := by
  obtain ⟨v, h1, h2, h3⟩ := h
  exact ⟨v, h1, h2, fun i hi k hk => by rw [h3 i hi k hk, e]⟩

/-- **C46** for `compute_va`: on uniformly accelerated motion the acceleration is exact for every `lamb`, and the
velocity is exact for the default `lamb = 1/2`, at every frame. -/
theorem C46_compute_va (ds : Dataset K) (t0 dt : K) (d : ℕ) (x0 v0 a : ℕ → K) (hd : 0 < d) (hdt0 : dt ≠ 0)
    (hdt : ds.dt = some dt) (hX : ds.Has "x" d (Spec.quadraticMotion t0 dt x0 v0 a)) (lamb : K) :
    ∃ r, computeVa ds none lamb = .ok r ∧ IsInterior ds r ∧ r.Has "a" d (fun _ k => a k) ∧
      (lamb = 1 / 2 → r.Has "v" d (fun i => Spec.linearVelocity t0 dt v0 a (i + 1))) := by
  obtain ⟨r, h1, h2, -, h4, h5⟩ := C45_compute_va ds lamb dt d _ hd hdt hX
  refine ⟨r, h1, h2, h5.congr fun i k => ?_, fun hl => h4.congr fun i k => ?_⟩
  · simp only [Spec.secondDifference, Spec.quadraticMotion, Nat.add_sub_cancel]
    push_cast
    field_simp
    ring
  · subst hl
    simp only [Spec.mixedDifference, Spec.quadraticMotion, Spec.linearVelocity, Nat.add_sub_cancel]
    push_cast
    field_simp
    ring

/-- **C46** for `compute_a`, from positions. -/
theorem C46_compute_a (ds : Dataset K) (t0 dt : K) (d : ℕ) (x0 v0 a : ℕ → K) (V : ℕ → ℕ → K) (hd : 0 < d) (hdt0 : dt ≠ 0)
    (hdt : ds.dt = some dt) (hX : ds.Has "x" d (Spec.quadraticMotion t0 dt x0 v0 a)) (hV : ds.Has "v" d V) :
    ∃ r, computeA ds = .ok r ∧ IsInterior ds r ∧ r.Has "v" d (fun i => V (i + 1)) ∧ r.Has "a" d (fun _ k => a k) := by
  obtain ⟨r, h1, h2, -, h4, h5⟩ := computeA_spec ds dt d _ V hd hdt hX hV
  refine ⟨r, h1, h2, h4, h5.congr fun i k => ?_⟩
  simp only [Spec.quadraticMotion]
  push_cast
  field_simp
  ring

/-- **C46** for `compute_a_from_vel`, from velocities. -/
theorem C46_compute_a_from_vel (ds : Dataset K) (t0 dt : K) (d : ℕ) (v0 a : ℕ → K) (X : ℕ → ℕ → K) (hd : 0 < d)
    (hdt0 : dt ≠ 0) (hdt : ds.dt = some dt) (hX : ds.Has "x" d X) (hV : ds.Has "v" d (Spec.linearVelocity t0 dt v0 a)) :
    ∃ r, computeAFromVel ds = .ok r ∧ IsInterior ds r ∧ r.Has "x" d (fun i => X (i + 1)) ∧
      r.Has "a" d (fun _ k => a k) := by
  obtain ⟨r, h1, h2, h3, -, h5⟩ := computeAFromVel_spec ds dt d X _ hd hdt hX hV
  refine ⟨r, h1, h2, h3, h5.congr fun i k => ?_⟩
  simp only [Spec.linearVelocity]
  push_cast
  field_simp
  ring

namespace ExTraj

/-- A motion with acceleration `2` and `0`, from time one on. -/
def quad : Dataset ℚ := ⟨5, fun i => 1 + i * (1 / 3),
  [("x", ⟨2, fun i k => some (Spec.quadraticMotion 1 (1 / 3) (fun _ => 4) (fun k => k) (fun k => 2 - 2 * k) i k)⟩),
   ("v", ⟨2, fun i k => some (Spec.linearVelocity 1 (1 / 3) (fun k => k) (fun k => 2 - 2 * k) i k)⟩)], some (1 / 3)⟩

example :=
  C46_compute_va quad 1 (1 / 3) 2 (fun _ => 4) (fun k => k) (fun k => 2 - 2 * k) (by decide) (by norm_num) rfl
    ⟨_, rfl, rfl, fun _ _ _ _ => rfl⟩ (1 / 2)

example :=
  C46_compute_a quad 1 (1 / 3) 2 (fun _ => 4) (fun k => k) (fun k => 2 - 2 * k) _ (by decide) (by norm_num) rfl
    ⟨_, rfl, rfl, fun _ _ _ _ => rfl⟩ ⟨_, rfl, rfl, fun _ _ _ _ => rfl⟩

example :=
  C46_compute_a_from_vel quad 1 (1 / 3) 2 (fun k => k) (fun k => 2 - 2 * k) _ (by decide) (by norm_num) rfl
    ⟨_, rfl, rfl, fun _ _ _ _ => rfl⟩ ⟨_, rfl, rfl, fun _ _ _ _ => rfl⟩

end ExTraj

end

/-! ### C47 -/

section
variable {K : Type*} [Field K] [LinearOrder K] [IsStrictOrderedRing K]

/-- The correction gives back an increment wrapped by at most one jump. -/
theorem fixJump_wrapped (jump thr δ : K) (s : ℤ) (hs : |s| ≤ 1) (h1 : |δ| < thr) (h2 : |δ| ≤ jump - thr) :
    fixJump (some (jump, thr)) (δ - jump * s) = δ := by
  obtain ⟨a1, a2⟩ := abs_lt.1 h1
  obtain ⟨b1, b2⟩ := abs_le.1 h2
  have : s = -1 ∨ s = 0 ∨ s = 1 := by rw [abs_le] at hs; omega
  rcases this with rfl | rfl | rfl
  · have e1 : δ - jump * ((-1 : ℤ) : K) > -thr := by push_cast; nlinarith [abs_nonneg δ]
    have e2 : ¬ (δ - jump * ((-1 : ℤ) : K) < thr) := by push_cast; linarith
    simp only [fixJump, if_pos e1, if_neg e2]
    push_cast; ring
  · have e1 : δ - jump * ((0 : ℤ) : K) > -thr := by push_cast; linarith
    have e2 : δ - jump * ((0 : ℤ) : K) < thr := by push_cast; linarith
    simp only [fixJump, if_pos e1, if_pos e2]
    push_cast; ring
  · have e1 : ¬ (δ - jump * ((1 : ℤ) : K) > -thr) := by push_cast; linarith
    have e2 : δ - jump * ((1 : ℤ) : K) + jump < thr := by push_cast; linarith
    simp only [fixJump, if_neg e1, if_pos e2]
    push_cast; ring

/-- The trajectory `X` is `Y` wrapped by multiples of `jump`, at most one more or less from a frame to the next. -/
def Spec.IsWrapped (n d : ℕ) (jump : K) (X Y : ℕ → ℕ → K) : Prop :=
  ∃ w : ℕ → ℕ → ℤ, (∀ i k, X i k = Y i k - jump * w i k) ∧ ∀ i, i + 1 < n → ∀ k < d, |w (i + 1) k - w i k| ≤ 1

/-- The increments of `Y` are small compared to the thresholds of the correction. -/
def Spec.SmallSteps (n d : ℕ) (jump thr : K) (Y : ℕ → ℕ → K) : Prop :=
  ∀ i, i + 1 < n → ∀ k < d, |Y (i + 1) k - Y i k| < thr ∧ |Y (i + 1) k - Y i k| ≤ jump - thr

theorem Dataset.Has.congr' {K : Type*} {ds : Dataset K} {name : String} {d : ℕ} {X Y : ℕ → ℕ → K} (h : ds.Has name d X)
    (e : ∀ i < ds.n, ∀ k < d, X i k = Y i k) : ds.Has name d Y := by
  obtain ⟨v, h1, h2, h3⟩ := h
  exact ⟨v, h1, h2, fun i hi k hk => by rw [h3 i hi k hk, e i hi k hk]⟩

theorem fixJump_step {n d : ℕ} {jump thr : K} {X Y : ℕ → ℕ → K} (hw : Spec.IsWrapped n d jump X Y)
    (hs : Spec.SmallSteps n d jump thr Y) (i : ℕ) (hi : i + 1 < n) (k : ℕ) (hk : k < d) :
    fixJump (some (jump, thr)) (X (i + 1) k - X i k) = Y (i + 1) k - Y i k := by
  obtain ⟨w, hX, hw⟩ := hw
  obtain ⟨s1, s2⟩ := hs i hi k hk
  have := fixJump_wrapped jump thr _ _ (hw i hi k hk) s1 s2
  rw [← this, hX, hX]
  congr 1
  push_cast; ring

/-- **C47**. With `correct_jumps` the velocities and accelerations of a wrapped trajectory are those of the unwrapped
one (the positions stay the wrapped ones), for `compute_va` with any `lamb`. -/
theorem C47_compute_va (ds dsU : Dataset K) (jump thr lamb dt : K) (d : ℕ) (X Y : ℕ → ℕ → K) (hd : 0 < d)
    (hn : ds.n = dsU.n) (hdt : ds.dt = some dt) (hdtU : dsU.dt = some dt) (hX : ds.Has "x" d X) (hY : dsU.Has "x" d Y)
    (hw : Spec.IsWrapped ds.n d jump X Y) (hs : Spec.SmallSteps ds.n d jump thr Y) :
    ∃ r rU, computeVa ds (some (jump, thr)) lamb = .ok r ∧ computeVa dsU none lamb = .ok rU ∧ r.n = rU.n ∧
      r.Has "x" d (fun i => X (i + 1)) ∧
      ∃ V A, r.Has "v" d V ∧ rU.Has "v" d V ∧ r.Has "a" d A ∧ rU.Has "a" d A := by
  obtain ⟨r, h1, h2, h3, h4, h5⟩ := computeVa_spec ds (some (jump, thr)) lamb dt d X hd hdt hX
  obtain ⟨rU, u1, u2, u3, u4, u5⟩ := computeVa_spec dsU none lamb dt d Y hd hdtU hY
  have hrn : r.n = ds.n - 2 := h2.1
  refine ⟨r, rU, h1, u1, by rw [hrn, u2.1, hn], h3, _, _, h4.congr' ?_, u4, h5.congr' ?_, u5⟩ <;>
  · intro i hi k hk
    rw [fixJump_step hw hs (i + 1) (by omega) k hk, fixJump_step hw hs i (by omega) k hk]
    rfl

/-- **C47** for `compute_va_gjf`. -/
theorem C47_compute_va_gjf (ds dsU : Dataset K) (jump thr dt : K) (d : ℕ) (X Y : ℕ → ℕ → K) (hd : 0 < d)
    (hn : ds.n = dsU.n) (hdt : ds.dt = some dt) (hdtU : dsU.dt = some dt) (hX : ds.Has "x" d X) (hY : dsU.Has "x" d Y)
    (hw : Spec.IsWrapped ds.n d jump X Y) (hs : Spec.SmallSteps ds.n d jump thr Y) :
    ∃ r rU, computeVaGjf ds (some (jump, thr)) = .ok r ∧ computeVaGjf dsU none = .ok rU ∧ r.n = rU.n ∧
      r.Has "x" d (fun i => X (i + 1)) ∧
      ∃ V A, r.Has "v" d V ∧ rU.Has "v" d V ∧ r.Has "a" d A ∧ rU.Has "a" d A := by
  obtain ⟨r, h1, h2, h3, h4, h5⟩ := computeVaGjf_spec ds (some (jump, thr)) dt d X hd hdt hX
  obtain ⟨rU, u1, u2, u3, u4, u5⟩ := computeVaGjf_spec dsU none dt d Y hd hdtU hY
  have hrn : r.n = ds.n - 2 := h2.1
  refine ⟨r, rU, h1, u1, by rw [hrn, u2.1, hn], h3, _, _, h4.congr' ?_, u4, h5.congr' ?_, u5⟩
  · intro i hi k hk
    rw [fixJump_step hw hs i (by omega) k hk]
    rfl
  · intro i hi k hk
    rw [fixJump_step hw hs (i + 1) (by omega) k hk, fixJump_step hw hs i (by omega) k hk]
    rfl

/-- **C47**, the limits of the correction: an increment larger than `jump - jump_thr` that crosses the boundary upwards
(so that `jump` is subtracted) is not repaired, the code keeps `δ - jump` as long as this is below the threshold. -/
theorem C47_not_repaired (jump thr δ : K) (hj : 0 < jump) (h1 : jump - thr < δ) (h2 : δ < thr) :
    fixJump (some (jump, thr)) (δ - jump) = δ - jump := by
  have e1 : δ - jump > -thr := by linarith
  have e2 : δ - jump < thr := by linarith
  simp only [fixJump, if_pos e1, if_pos e2]

namespace ExTraj

/-- A steady motion by `1/10` per frame on a circle of length one … -/
def Y : ℕ → ℕ → ℚ := fun i _ => 8 / 10 + i / 10
/-- … and the same, wrapped to `[0, 1)`. -/
def Xw : ℕ → ℕ → ℚ := fun i _ => 8 / 10 + i / 10 - (if 2 ≤ i then 1 else 0)

theorem wrapped : Spec.IsWrapped 6 1 1 Xw Y :=
  ⟨fun i _ => if 2 ≤ i then 1 else 0, fun i k => by simp only [Xw, Y]; split_ifs <;> simp,
   fun i hi k hk => by
    by_cases h : i = 1
    · subst h; simp
    · have : (2 ≤ i + 1) = (2 ≤ i) := by apply propext; omega
      simp [this]⟩

theorem smallSteps : Spec.SmallSteps 6 1 1 (7 / 8 : ℚ) Y := fun i _ k _ => by
  have : Y (i + 1) k - Y i k = 1 / 10 := by simp only [Y]; push_cast; ring
  rw [this]; norm_num [abs_of_pos]

example :=
  C47_compute_va (⟨6, fun i => i, [("x", ⟨1, fun i k => some (Xw i k)⟩)], some 1⟩ : Dataset ℚ)
    (⟨6, fun i => i, [("x", ⟨1, fun i k => some (Y i k)⟩)], some 1⟩ : Dataset ℚ) 1 (7 / 8) (1 / 2) 1 1 Xw Y (by decide) rfl rfl rfl ⟨_, rfl, rfl, fun _ _ _ _ => rfl⟩
    ⟨_, rfl, rfl, fun _ _ _ _ => rfl⟩ wrapped smallSteps

example :=
  C47_compute_va_gjf (⟨6, fun i => i, [("x", ⟨1, fun i k => some (Xw i k)⟩)], some 1⟩ : Dataset ℚ)
    (⟨6, fun i => i, [("x", ⟨1, fun i k => some (Y i k)⟩)], some 1⟩ : Dataset ℚ) 1 (7 / 8) 1 1 Xw Y (by decide) rfl rfl rfl ⟨_, rfl, rfl, fun _ _ _ _ => rfl⟩
    ⟨_, rfl, rfl, fun _ _ _ _ => rfl⟩ wrapped smallSteps

example : fixJump (some ((1 : ℚ), 7 / 8)) (1 / 2 - 1) = 1 / 2 - 1 :=
  C47_not_repaired 1 (7 / 8) (1 / 2) (by norm_num) (by norm_num) (by norm_num)

end ExTraj

end

/-! ### C48 -/

section
variable {K : Type*} [Field K] [LinearOrder K] [IsStrictOrderedRing K] [FloorRing K]

/-- `np.round` gives a nearest integer. -/
theorem npRound_near (q : K) : |q - npRound q| ≤ 1 / 2 := by
  have h0 := Int.fract_nonneg q
  have h1 := Int.fract_lt_one q
  have h2 : q = ⌊q⌋ + Int.fract q := (Int.floor_add_fract q).symm
  unfold npRound
  split_ifs with a b c
  · rw [show q - (⌊q⌋ : K) = Int.fract q from rfl, abs_le]; constructor <;> linarith
  · push_cast
    rw [abs_le]; constructor <;> linarith
  · rw [show q - (⌊q⌋ : K) = Int.fract q from rfl, abs_le]; constructor <;> linarith
  · push_cast
    rw [abs_le]; constructor <;> linarith

/-- The time step recorded by `xframe`: the given one (when not negative), else a multiple of `round_time` nearest to
the first time step when `fix_time`, else the first time step. -/
def Spec.IsTimeStep (fixTime : Bool) (roundTime dtArg : K) (time : ℕ → K) (dt : K) : Prop :=
  if fixTime then
    if dtArg < 0 then ∃ m : ℤ, dt = m * roundTime ∧ |time 1 - time 0 - dt| ≤ |roundTime| / 2
    else dt = dtArg
  else dt = time 1 - time 0

/-- **C48**, with `fix_time=True`: one row per sample, a uniform time axis from zero, and the step in the attributes. -/
theorem C48_fix_time (x : NdArray K) (nt : ℕ) (time : ℕ → K) (roundTime dtArg : K) (hr : roundTime ≠ 0)
    (hn : 2 ≤ x.column.1) (hnt : 2 ≤ nt) :
    ∃ ds dt, xframe x nt time none none true roundTime dtArg = .ok ds ∧ ds.n = x.column.1 ∧
      ds.vars = [("x", x.column.2)] ∧ ds.dt = some dt ∧ Spec.IsTimeStep true roundTime dtArg time dt ∧
      ∀ i < ds.n, ds.time i = i * dt := by
  have h2 : ¬ (x.column.1 < 2) := by omega
  have h3 : ¬ (dtArg < 0 ∧ nt < 2) := by omega
  simp only [xframe, if_true, if_neg h3, if_neg h2, bind, Except.bind, pure, Except.pure, ne_eq, not_true_eq_false,
    if_false]
  refine ⟨_, _, rfl, rfl, rfl, rfl, ?_, ?_⟩
  · simp only [Spec.IsTimeStep, if_true]
    split_ifs with h
    · refine ⟨_, rfl, ?_⟩
      have h := npRound_near ((time 1 - time 0) / roundTime)
      have e : time 1 - time 0 - (npRound ((time 1 - time 0) / roundTime) : K) * roundTime =
          ((time 1 - time 0) / roundTime - npRound ((time 1 - time 0) / roundTime)) * roundTime := by
        field_simp
      rw [e, abs_mul]
      calc _ ≤ 1 / 2 * |roundTime| := mul_le_mul_of_nonneg_right h (abs_nonneg _)
        _ = _ := by ring
    · rfl
  · intro i _
    have hne : (x.column.1 : K) - 1 ≠ 0 := by
      have : (2 : K) ≤ x.column.1 := by exact_mod_cast hn
      intro h; linarith
    dsimp only
    by_cases hi : i = 1
    · subst hi; simp
    · rw [Function.update_of_ne hi, mul_div_cancel_right₀ _ hne]

/-- **C48**, without `fix_time`: the given time axis is kept and `dt` is its first step. -/
theorem C48_keep_time (x : NdArray K) (time : ℕ → K) (roundTime dtArg : K) (hn : 2 ≤ x.column.1) :
    ∃ ds, xframe x x.column.1 time none none false roundTime dtArg = .ok ds ∧ ds.n = x.column.1 ∧
      ds.vars = [("x", x.column.2)] ∧ ds.dt = some (time 1 - time 0) ∧ ds.time = time := by
  have h2 : ¬ (x.column.1 < 2) := by omega
  simp only [xframe, Bool.false_eq_true, if_neg h2, bind, Except.bind, pure, Except.pure, ne_eq, not_true_eq_false,
    if_false]
  exact ⟨_, rfl, rfl, rfl, rfl, rfl⟩

/-- **C48**, the shape of the data: a one-dimensional array becomes one column, a two-dimensional one is unchanged. -/
theorem C48_reshape (n d : ℕ) (f : ℕ → Option K) (g : ℕ → ℕ → Option K) :
    (NdArray.d1 n f).column.1 = n ∧ (NdArray.d1 n f).column.2.dim = 1 ∧ (∀ i, (NdArray.d1 n f).column.2.get i 0 = f i) ∧
    (NdArray.d2 n d g).column.1 = n ∧ (NdArray.d2 n d g).column.2.dim = d ∧ (NdArray.d2 n d g).column.2.get = g :=
  ⟨rfl, rfl, fun _ => rfl, rfl, rfl, rfl⟩

/-- **C48** with velocities and accelerations of matching shapes: they are stored as given. -/
theorem C48_with_velocity (x v a : NdArray K) (time : ℕ → K) (roundTime dtArg : K) (hn : 2 ≤ x.column.1)
    (hv : v.column.1 = x.column.1 ∧ v.column.2.dim = x.column.2.dim)
    (ha : a.column.1 = x.column.1 ∧ a.column.2.dim = x.column.2.dim) :
    ∃ ds, xframe x x.column.1 time (some v) (some a) false roundTime dtArg = .ok ds ∧ ds.n = x.column.1 ∧
      ds.vars = [("x", x.column.2), ("v", v.column.2), ("a", a.column.2)] ∧ ds.dt = some (time 1 - time 0) ∧
      ds.time = time := by
  have h2 : ¬ (x.column.1 < 2) := by omega
  simp only [xframe, Bool.false_eq_true, if_neg h2, bind, Except.bind, pure, Except.pure, ne_eq, not_true_eq_false,
    if_false, hv.1, hv.2, ha.1, ha.2, or_self, Option.isNone_some]
  exact ⟨_, rfl, rfl, rfl, rfl, rfl⟩

/-- **C48**, what is rejected: less than two samples, a time axis of another length, accelerations without
velocities. -/
theorem C48_rejected (x : NdArray K) (nt : ℕ) (time : ℕ → K) (roundTime dtArg : K) :
    (nt < 2 → ∀ v a, xframe x nt time v a false roundTime dtArg = .error .index) ∧
    (2 ≤ nt → x.column.1 ≠ nt → ∀ v a, xframe x nt time v a false roundTime dtArg = .error .value) ∧
    (2 ≤ nt → x.column.1 = nt → ∀ a, xframe x nt time none (some a) false roundTime dtArg = .error .key) ∧
    (x.column.1 < 2 → ∀ v a, xframe x nt time v a true roundTime dtArg = .error .index) := by
  refine ⟨fun h v a => ?_, fun h h' v a => ?_, fun h h' a => ?_, fun h v a => ?_⟩
  · simp [xframe, h, bind, Except.bind, throw, throwThe, MonadExceptOf.throw]
  · have : ¬ nt < 2 := by omega
    simp [xframe, this, h', bind, Except.bind, pure, Except.pure, throw, throwThe, MonadExceptOf.throw]
  · have : ¬ nt < 2 := by omega
    simp [xframe, this, h', bind, Except.bind, pure, Except.pure, throw, throwThe, MonadExceptOf.throw]
  · simp only [xframe, if_true, h, bind, Except.bind, pure, Except.pure, throw, throwThe, MonadExceptOf.throw]
    split_ifs <;> rfl

end

namespace ExTraj

/-- Three samples of a scalar trajectory. -/
def scalarTraj : NdArray ℚ := .d1 3 fun i => some (i : ℚ)

example :=
  C48_fix_time scalarTraj 3 (fun i => 5 + i * (1001 / 1000)) (1 / 10) (-1) (by norm_num) (by decide) (by decide)

example :=
  C48_keep_time scalarTraj (fun i => 5 + i) (1 / 10) (-1) (by decide)

example :=
  C48_with_velocity scalarTraj scalarTraj scalarTraj (fun i => 5 + i) (1 / 10) (-1) (by decide) ⟨rfl, rfl⟩ ⟨rfl, rfl⟩

example : xframe scalarTraj 4 (fun i => (i : ℚ)) none none false (1 / 10) (-1) = .error .value :=
  (C48_rejected scalarTraj 4 _ (1 / 10) (-1)).2.1 (by decide) (by decide) none none

end ExTraj

/-! ### C49 -/

/-- **C49**. `concat_underdamped` stacks `(x, v)` and `(v, a)`: the dimension doubles, frames, time axis and `dt` are
unchanged. -/
theorem C49_concat_underdamped {K : Type*} (ds : Dataset K) (dt : K) (d : ℕ) (X V A : ℕ → ℕ → K) (hdt : ds.dt = some dt)
    (hX : ds.Has "x" d X) (hV : ds.Has "v" d V) (hA : ds.Has "a" d A) :
    ∃ r, concatUnderdamped ds = .ok r ∧ r.n = ds.n ∧ r.time = ds.time ∧ r.dt = some dt ∧
      r.Has "x" (2 * d) (fun i k => if k < d then X i k else V i (k - d)) ∧
      r.Has "v" (2 * d) (fun i k => if k < d then V i k else A i (k - d)) := by
  obtain ⟨x, hl, hdim, hx⟩ := hX
  obtain ⟨v, hlv, hdimv, hv⟩ := hV
  obtain ⟨a, hla, hdima, ha⟩ := hA
  simp only [concatUnderdamped, Dataset.var, hl, hlv, hla, hdt, bind, Except.bind, pure, Except.pure]
  refine ⟨_, rfl, rfl, rfl, rfl, ⟨_, rfl, ?_, ?_⟩, ⟨_, rfl, ?_, ?_⟩⟩
  · simp only [concatUnderdamped.cat]; omega
  · intro i hi k hk
    simp only [concatUnderdamped.cat, hdim]
    split_ifs with h
    · exact hx i hi k h
    · exact hv i hi _ (by omega)
  · simp only [concatUnderdamped.cat]; omega
  · intro i hi k hk
    simp only [concatUnderdamped.cat, hdimv]
    split_ifs with h
    · exact hv i hi k h
    · exact ha i hi _ (by omega)

/-- **C49** on the output of `compute_va`: the phase space trajectory of the interior frames. -/
theorem C49_after_compute_va {K : Type*} [Field K] [LinearOrder K] (ds : Dataset K) (lamb dt : K) (d : ℕ) (X : ℕ → ℕ → K)
    (hd : 0 < d) (hdt : ds.dt = some dt) (hX : ds.Has "x" d X) :
    ∃ r, (computeVa ds none lamb).bind concatUnderdamped = .ok r ∧ r.n = ds.n - 2 ∧ r.dt = some dt ∧
      (∀ i < r.n, r.time i = ds.time (i + 1)) ∧
      r.Has "x" (2 * d) (fun i k => if k < d then X (i + 1) k else Spec.mixedDifference dt lamb X (i + 1) (k - d)) ∧
      r.Has "v" (2 * d) (fun i k => if k < d then Spec.mixedDifference dt lamb X (i + 1) k
        else Spec.secondDifference dt X (i + 1) (k - d)) := by
  obtain ⟨r, h1, h2, h3, h4, h5⟩ := C45_compute_va ds lamb dt d X hd hdt hX
  obtain ⟨q, q1, q2, q3, q4, q5, q6⟩ := C49_concat_underdamped r dt d _ _ _ (h2.2.1.trans hdt) h3 h4 h5
  refine ⟨q, ?_, q2.trans h2.1, q4, fun i hi => ?_, q5, q6⟩
  · rw [h1]; exact q1
  · rw [q3]; exact h2.2.2 i (q2 ▸ hi)

example :=
  C49_after_compute_va ExTraj.ds (1 / 2) (1 / 2) 2 ExTraj.X (by decide) rfl ExTraj.has_x

example :=
  C49_concat_underdamped ({ ExTraj.dsv with vars := ("a", ⟨2, fun _ _ => some 7⟩) :: ExTraj.dsv.vars } : Dataset ℚ) (1 / 2) 2 ExTraj.X (fun i k => i + k) (fun _ _ => 7) rfl
    ⟨_, rfl, rfl, fun _ _ _ _ => rfl⟩ ⟨_, rfl, rfl, fun _ _ _ _ => rfl⟩ ⟨_, rfl, rfl, fun _ _ _ _ => rfl⟩

end Verif
