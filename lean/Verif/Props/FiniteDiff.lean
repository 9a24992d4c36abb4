import Verif.Props.Trajectory
import Mathlib.Analysis.Calculus.MeanValue
import Mathlib.Analysis.Calculus.Deriv.Pow
import Mathlib.Analysis.SpecialFunctions.Trigonometric.Deriv
import Mathlib.Analysis.SpecialFunctions.Trigonometric.Bounds

/-!
# C168: order of the finite differences

The velocities and accelerations that `compute_va`, `compute_va_gjf`, `compute_a` and `compute_a_from_vel` compute from a
sampled motion converge to those of the motion.
-/

namespace Verif

/-! ### Remainders -/

/-- A function that vanishes at `0` and whose derivative is at most `C |s|^n`. -/
theorem abs_le_of_deriv {g g' : ℝ → ℝ} {C : ℝ} {n : ℕ} (h0 : g 0 = 0) (hg : ∀ s, HasDerivAt g (g' s) s)
    (hb : ∀ s, |g' s| ≤ C * |s| ^ n) (s : ℝ) : |g s| ≤ C / (n + 1) * |s| ^ (n + 1) := by
  have key : ∀ {g g' : ℝ → ℝ}, g 0 = 0 → (∀ s, HasDerivAt g (g' s) s) → (∀ s, |g' s| ≤ C * |s| ^ n) → ∀ s, 0 ≤ s →
      |g s| ≤ C / (n + 1) * s ^ (n + 1) := by
    intro g g' h0 hg hb s hs
    refine image_norm_le_of_norm_deriv_right_le_deriv_boundary (a := 0) (b := s) (f := g) (f' := g')
      (B := fun s => C / (n + 1) * s ^ (n + 1)) (B' := fun s => C * s ^ n)
      (fun x _ => (hg x).continuousAt.continuousWithinAt) (fun x _ => (hg x).hasDerivWithinAt) (by simp [h0]) (fun x => ?_)
      (fun x hx => ?_) (Set.right_mem_Icc.2 hs)
    · refine ((hasDerivAt_pow (n + 1) x).const_mul (C / (n + 1))).congr_deriv ?_
      have : (n : ℝ) + 1 ≠ 0 := by positivity
      push_cast
      field_simp
    · have := hb x
      rwa [abs_of_nonneg hx.1] at this
  rcases le_total 0 s with hs | hs
  · rw [abs_of_nonneg hs]
    exact key h0 hg hb s hs
  · have := key (g := fun s => g (-s)) (g' := fun s => -g' (-s)) (by simpa using h0)
      (fun s => by
        have h := (hg (-s)).comp s (hasDerivAt_neg s)
        rw [mul_neg_one] at h
        exact h) (fun s => by simpa using hb (-s)) (-s) (by linarith)
    rw [abs_of_nonpos hs]
    simpa using this

section
variable {f f1 f2 f3 : ℝ → ℝ} {L : ℝ}

private theorem hasDerivAt_shift {f f1 : ℝ → ℝ} (h : ∀ s, HasDerivAt f (f1 s) s) (t s : ℝ) :
    HasDerivAt (fun s => f (t + s)) (f1 (t + s)) s := (h (t + s)).comp_const_add t s

theorem remainder_one (h1 : ∀ s, HasDerivAt f (f1 s) s) (hL : ∀ s s', |f1 s - f1 s'| ≤ L * |s - s'|) (t h : ℝ) :
    |f (t + h) - f t - h * f1 t| ≤ L / 2 * |h| ^ 2 := by
  have := abs_le_of_deriv (g := fun s => f (t + s) - f t - s * f1 t) (g' := fun s => f1 (t + s) - f1 t) (C := L) (n := 1)
    (by simp) (fun s => by
      refine (((hasDerivAt_shift h1 t s).sub_const (f t)).sub ((hasDerivAt_id s).mul_const (f1 t))).congr_deriv ?_
      ring)
    (fun s => by simpa using hL (t + s) t) h
  norm_num at this ⊢
  exact this

theorem remainder_two (h1 : ∀ s, HasDerivAt f (f1 s) s) (h2 : ∀ s, HasDerivAt f1 (f2 s) s)
    (hL : ∀ s s', |f2 s - f2 s'| ≤ L * |s - s'|) (t h : ℝ) :
    |f (t + h) - f t - h * f1 t - h ^ 2 / 2 * f2 t| ≤ L / 6 * |h| ^ 3 := by
  have := abs_le_of_deriv (g := fun s => f (t + s) - f t - s * f1 t - s ^ 2 / 2 * f2 t)
    (g' := fun s => f1 (t + s) - f1 t - s * f2 t) (C := L / 2) (n := 2)
    (by simp) (fun s => by
      refine ((((hasDerivAt_shift h1 t s).sub_const (f t)).sub ((hasDerivAt_id s).mul_const (f1 t))).sub
        (((hasDerivAt_pow 2 s).div_const 2).mul_const (f2 t))).congr_deriv ?_
      push_cast; ring)
    (fun s => remainder_one h2 hL t s) h
  refine this.trans (le_of_eq ?_)
  push_cast; ring

theorem remainder_three (h1 : ∀ s, HasDerivAt f (f1 s) s) (h2 : ∀ s, HasDerivAt f1 (f2 s) s) (h3 : ∀ s, HasDerivAt f2 (f3 s) s)
    (hL : ∀ s s', |f3 s - f3 s'| ≤ L * |s - s'|) (t h : ℝ) :
    |f (t + h) - f t - h * f1 t - h ^ 2 / 2 * f2 t - h ^ 3 / 6 * f3 t| ≤ L / 24 * |h| ^ 4 := by
  have := abs_le_of_deriv (g := fun s => f (t + s) - f t - s * f1 t - s ^ 2 / 2 * f2 t - s ^ 3 / 6 * f3 t)
    (g' := fun s => f1 (t + s) - f1 t - s * f2 t - s ^ 2 / 2 * f3 t) (C := L / 6) (n := 3)
    (by simp) (fun s => by
      refine (((((hasDerivAt_shift h1 t s).sub_const (f t)).sub ((hasDerivAt_id s).mul_const (f1 t))).sub
        (((hasDerivAt_pow 2 s).div_const 2).mul_const (f2 t))).sub
        (((hasDerivAt_pow 3 s).div_const 6).mul_const (f3 t))).congr_deriv ?_
      push_cast; ring)
    (fun s => remainder_two h2 h3 hL t s) h
  refine this.trans (le_of_eq ?_)
  push_cast; ring

/-- The mixed difference. -/
theorem mixed_error (h1 : ∀ s, HasDerivAt f (f1 s) s) (h2 : ∀ s, HasDerivAt f1 (f2 s) s)
    (hL : ∀ s s', |f2 s - f2 s'| ≤ L * |s - s'|) {h : ℝ} (hh : 0 < h) (lamb t : ℝ) :
    |(lamb * (f (t + h) - f t) + (1 - lamb) * (f t - f (t - h))) / h - f1 t - (lamb - 1 / 2) * h * f2 t| ≤
      (|lamb| + |1 - lamb|) * (L / 6 * h ^ 2) := by
  have p := remainder_two h1 h2 hL t h
  have q := remainder_two h1 h2 hL t (-h)
  rw [abs_neg] at q
  rw [abs_of_pos hh] at p q
  rw [← sub_eq_add_neg] at q
  have e : (lamb * (f (t + h) - f t) + (1 - lamb) * (f t - f (t - h))) / h - f1 t - (lamb - 1 / 2) * h * f2 t =
      (lamb * (f (t + h) - f t - h * f1 t - h ^ 2 / 2 * f2 t) -
        (1 - lamb) * (f (t - h) - f t - -h * f1 t - (-h) ^ 2 / 2 * f2 t)) / h := by
    field_simp
    ring
  rw [e, abs_div, abs_of_pos hh, div_le_iff₀ hh]
  refine (abs_sub _ _).trans ?_
  rw [abs_mul, abs_mul]
  nlinarith [mul_le_mul_of_nonneg_left p (abs_nonneg lamb), mul_le_mul_of_nonneg_left q (abs_nonneg (1 - lamb))]

/-- The second difference, for a motion with Lipschitz acceleration. -/
theorem second_error (h1 : ∀ s, HasDerivAt f (f1 s) s) (h2 : ∀ s, HasDerivAt f1 (f2 s) s)
    (hL : ∀ s s', |f2 s - f2 s'| ≤ L * |s - s'|) {h : ℝ} (hh : 0 < h) (t : ℝ) :
    |(f (t + h) - 2 * f t + f (t - h)) / h ^ 2 - f2 t| ≤ L / 3 * h := by
  have p := remainder_two h1 h2 hL t h
  have q := remainder_two h1 h2 hL t (-h)
  rw [abs_neg] at q
  rw [abs_of_pos hh] at p q
  rw [← sub_eq_add_neg] at q
  have e : (f (t + h) - 2 * f t + f (t - h)) / h ^ 2 - f2 t =
      ((f (t + h) - f t - h * f1 t - h ^ 2 / 2 * f2 t) +
        (f (t - h) - f t - -h * f1 t - (-h) ^ 2 / 2 * f2 t)) / h ^ 2 := by
    field_simp
    ring
  rw [e, abs_div, abs_of_pos (by positivity : 0 < h ^ 2), div_le_iff₀ (by positivity)]
  refine (abs_add_le _ _).trans ((add_le_add p q).trans (le_of_eq (by ring)))

/-- The second difference, for a motion whose acceleration has a Lipschitz derivative. -/
theorem second_error' (h1 : ∀ s, HasDerivAt f (f1 s) s) (h2 : ∀ s, HasDerivAt f1 (f2 s) s) (h3 : ∀ s, HasDerivAt f2 (f3 s) s)
    (hL : ∀ s s', |f3 s - f3 s'| ≤ L * |s - s'|) {h : ℝ} (hh : 0 < h) (t : ℝ) :
    |(f (t + h) - 2 * f t + f (t - h)) / h ^ 2 - f2 t| ≤ L / 12 * h ^ 2 := by
  have p := remainder_three h1 h2 h3 hL t h
  have q := remainder_three h1 h2 h3 hL t (-h)
  rw [abs_neg] at q
  rw [abs_of_pos hh] at p q
  rw [← sub_eq_add_neg] at q
  have e : (f (t + h) - 2 * f t + f (t - h)) / h ^ 2 - f2 t =
      ((f (t + h) - f t - h * f1 t - h ^ 2 / 2 * f2 t - h ^ 3 / 6 * f3 t) +
        (f (t - h) - f t - -h * f1 t - (-h) ^ 2 / 2 * f2 t - (-h) ^ 3 / 6 * f3 t)) / h ^ 2 := by
    field_simp
    ring
  rw [e, abs_div, abs_of_pos (by positivity : 0 < h ^ 2), div_le_iff₀ (by positivity)]
  refine (abs_add_le _ _).trans ((add_le_add p q).trans (le_of_eq (by ring)))

end

/-! ### The property -/

namespace Spec

/-- A motion of `d` coordinates with velocity `v` and acceleration `a`, whose acceleration is Lipschitz. -/
structure Moves (d : ℕ) (L : ℝ) (q v a : ℝ → ℕ → ℝ) : Prop where
  vel : ∀ k < d, ∀ s, HasDerivAt (fun s => q s k) (v s k) s
  acc : ∀ k < d, ∀ s, HasDerivAt (fun s => v s k) (a s k) s
  lip : ∀ k < d, ∀ s s', |a s k - a s' k| ≤ L * |s - s'|

/-- The acceleration has a derivative `b`, which is Lipschitz. -/
structure Jerks (d : ℕ) (M : ℝ) (a b : ℝ → ℕ → ℝ) : Prop where
  jerk : ∀ k < d, ∀ s, HasDerivAt (fun s => a s k) (b s k) s
  lip : ∀ k < d, ∀ s s', |b s k - b s' k| ≤ M * |s - s'|

/-- The frames are at the times `t0 + i dt`. -/
structure Uniform (ds : Dataset ℝ) (t0 h : ℝ) : Prop where
  pos : 0 < h
  dt : ds.dt = some h
  time : ∀ i, ds.time i = t0 + i * h

/-- The variable `name` has the values of `f`, with `d` components, at the time stamps. -/
def Samples (ds : Dataset ℝ) (name : String) (d : ℕ) (f : ℝ → ℕ → ℝ) : Prop := ds.Has name d fun i => f (ds.time i)

/-- The variable `name` has the values of `f`, with `d` components, at the time stamps, up to `ε`. -/
def Approximates (ds : Dataset ℝ) (name : String) (d : ℕ) (f : ℝ → ℕ → ℝ) (ε : ℝ) : Prop :=
  ∃ Y, ds.Has name d Y ∧ ∀ i < ds.n, ∀ k < d, |Y i k - f (ds.time i) k| ≤ ε

end Spec

theorem Dataset.Has.congr_lt {K : Type*} {ds : Dataset K} {name : String} {d : ℕ} {X Y : ℕ → ℕ → K} (h : ds.Has name d X)
    (e : ∀ i < ds.n, ∀ k < d, X i k = Y i k) : ds.Has name d Y := by
  obtain ⟨v, h1, h2, h3⟩ := h
  exact ⟨v, h1, h2, fun i hi k hk => by rw [h3 i hi k hk, e i hi k hk]⟩

open Spec

section
variable {ds : Dataset ℝ} {d : ℕ} {t0 dt L M : ℝ} {q v a b : ℝ → ℕ → ℝ}

private theorem time_next (hu : Uniform ds t0 dt) (i : ℕ) : ds.time (i + 1) = t0 + ((i : ℝ) + 1) * dt ∧
    ds.time (i + 1 + 1) = ds.time (i + 1) + dt ∧ ds.time i = ds.time (i + 1) - dt := by
  refine ⟨?_, ?_, ?_⟩ <;> simp only [hu.time] <;> push_cast <;> ring

private theorem interior_time {r : Dataset ℝ} (h : IsInterior ds r) {i : ℕ} (hi : i < r.n) : r.time i = ds.time (i + 1) :=
  h.2.2 i hi

private theorem second_near (hu : Uniform ds t0 dt) (hq : Moves d L q v a) {r : Dataset ℝ} (hI : IsInterior ds r)
    (h : r.Has "a" d (fun i => secondDifference dt (fun i => q (ds.time i)) (i + 1))) :
    Approximates r "a" d a (L / 3 * dt) ∧ (Jerks d M a b → Approximates r "a" d a (M / 12 * dt ^ 2)) := by
  have e : ∀ i k, secondDifference dt (fun i => q (ds.time i)) (i + 1) k =
      (q (ds.time (i + 1) + dt) k - 2 * q (ds.time (i + 1)) k + q (ds.time (i + 1) - dt) k) / dt ^ 2 := by
    intro i k
    simp only [secondDifference, Nat.add_sub_cancel]
    rw [(time_next hu i).2.1, (time_next hu i).2.2]
  refine ⟨⟨_, h, fun i hi k hk => ?_⟩, fun hj => ⟨_, h, fun i hi k hk => ?_⟩⟩
  · rw [e, interior_time hI hi]
    exact second_error (hq.vel k hk) (hq.acc k hk) (hq.lip k hk) hu.pos _
  · rw [e, interior_time hI hi]
    exact second_error' (hq.vel k hk) (hq.acc k hk) (hj.jerk k hk) (hj.lip k hk) hu.pos _

/-- **C168** for `compute_va`: the dataset has the positions of the motion, its velocities up to `dt^2` for the default
`lamb = 1/2` (in general with the first term `(lamb - 1/2) dt a` of the error), and its accelerations up to `dt`, or up to
`dt^2` if they have a Lipschitz derivative. -/
theorem C168_compute_va (hd : 0 < d) (hu : Uniform ds t0 dt) (hq : Moves d L q v a) (hx : Samples ds "x" d q) (lamb : ℝ) :
    ∃ r, computeVa ds none lamb = .ok r ∧ IsInterior ds r ∧ Samples r "x" d q ∧
      Approximates r "v" d (fun s k => v s k + (lamb - 1 / 2) * dt * a s k) ((|lamb| + |1 - lamb|) * (L / 6 * dt ^ 2)) ∧
      (lamb = 1 / 2 → Approximates r "v" d v (L / 6 * dt ^ 2)) ∧
      Approximates r "a" d a (L / 3 * dt) ∧ (Jerks d M a b → Approximates r "a" d a (M / 12 * dt ^ 2)) := by
  obtain ⟨r, h1, hI, hX, hV, hA⟩ := C45_compute_va ds lamb dt d _ hd hu.dt hx
  have hv : Approximates r "v" d (fun s k => v s k + (lamb - 1 / 2) * dt * a s k) ((|lamb| + |1 - lamb|) * (L / 6 * dt ^ 2)) := by
    refine ⟨_, hV, fun i hi k hk => ?_⟩
    have := mixed_error (hq.vel k hk) (hq.acc k hk) (hq.lip k hk) hu.pos lamb (ds.time (i + 1))
    rw [interior_time hI hi]
    simp only [mixedDifference, Nat.add_sub_cancel]
    rw [(time_next hu i).2.1, (time_next hu i).2.2, ← sub_sub]
    exact this
  refine ⟨r, h1, hI, hX.congr_lt fun i hi k _ => by rw [interior_time hI hi], hv, fun hl => ?_, second_near hu hq hI hA⟩
  subst hl
  obtain ⟨Y, hY, hb⟩ := hv
  refine ⟨Y, hY, fun i hi k hk => (le_of_eq ?_).trans ((hb i hi k hk).trans (le_of_eq ?_))⟩
  · simp
  · norm_num

/-- **C168** for `compute_va_gjf`: the velocities are those of the motion half a step earlier, up to `dt^2`. -/
theorem C168_compute_va_gjf (hd : 0 < d) (hu : Uniform ds t0 dt) (hq : Moves d L q v a) (hx : Samples ds "x" d q) :
    ∃ r, computeVaGjf ds none = .ok r ∧ IsInterior ds r ∧ Samples r "x" d q ∧
      Approximates r "v" d (fun s => v (s - dt / 2)) (L / 24 * dt ^ 2) ∧
      Approximates r "a" d a (L / 3 * dt) ∧ (Jerks d M a b → Approximates r "a" d a (M / 12 * dt ^ 2)) := by
  obtain ⟨r, h1, hI, hX, hV, hA⟩ := C45_compute_va_gjf ds dt d _ hd hu.dt hx
  refine ⟨r, h1, hI, hX.congr_lt fun i hi k _ => by rw [interior_time hI hi], ⟨_, hV, fun i hi k hk => ?_⟩,
    second_near hu hq hI hA⟩
  have := mixed_error (hq.vel k hk) (hq.acc k hk) (hq.lip k hk) (half_pos hu.pos) (1 / 2) (ds.time (i + 1) - dt / 2)
  have e : |(1 / 2 : ℝ)| + |1 - 1 / 2| = 1 := by norm_num
  rw [e, sub_self, zero_mul, zero_mul, sub_zero, one_mul] at this
  rw [interior_time hI hi]
  simp only [backwardDifference, Nat.add_sub_cancel]
  rw [(time_next hu i).2.2]
  rw [show ds.time (i + 1) - dt / 2 + dt / 2 = ds.time (i + 1) by ring,
    show ds.time (i + 1) - dt / 2 - dt / 2 = ds.time (i + 1) - dt by ring] at this
  refine (le_of_eq (congrArg abs ?_)).trans (this.trans (le_of_eq (by ring)))
  have := hu.pos.ne'
  field_simp
  ring

/-- **C168** for `compute_a`: positions and velocities are kept. -/
theorem C168_compute_a (hd : 0 < d) (hu : Uniform ds t0 dt) (hq : Moves d L q v a) (hx : Samples ds "x" d q)
    (hv : Samples ds "v" d v) :
    ∃ r, computeA ds = .ok r ∧ IsInterior ds r ∧ Samples r "x" d q ∧ Samples r "v" d v ∧
      Approximates r "a" d a (L / 3 * dt) ∧ (Jerks d M a b → Approximates r "a" d a (M / 12 * dt ^ 2)) := by
  obtain ⟨r, h1, hI, hX, hV, hA⟩ := computeA_spec ds dt d _ _ hd hu.dt hx hv
  refine ⟨r, h1, hI, hX.congr_lt fun i hi k _ => by rw [interior_time hI hi],
    hV.congr_lt fun i hi k _ => by rw [interior_time hI hi], second_near hu hq hI (hA.congr fun i k => ?_)⟩
  simp only [secondDifference, Nat.add_sub_cancel]
  congr 1
  ring

/-- **C168** for `compute_a_from_vel`. -/
theorem C168_compute_a_from_vel (hd : 0 < d) (hu : Uniform ds t0 dt) (hq : Moves d L q v a) (hx : Samples ds "x" d q)
    (hv : Samples ds "v" d v) :
    ∃ r, computeAFromVel ds = .ok r ∧ IsInterior ds r ∧ Samples r "x" d q ∧ Samples r "v" d v ∧
      Approximates r "a" d a (L / 2 * dt) ∧ (Jerks d M a b → Approximates r "a" d a (M / 6 * dt ^ 2)) := by
  obtain ⟨r, h1, hI, hX, hV, hA⟩ := computeAFromVel_spec ds dt d _ _ hd hu.dt hx hv
  have e : ∀ i, ds.time (i + 2) = ds.time (i + 1) + dt := fun i => (time_next hu i).2.1
  refine ⟨r, h1, hI, hX.congr_lt fun i hi k _ => by rw [interior_time hI hi],
    hV.congr_lt fun i hi k _ => by rw [interior_time hI hi], ⟨_, hA, fun i hi k hk => ?_⟩, fun hj => ⟨_, hA, fun i hi k hk => ?_⟩⟩
  · rw [interior_time hI hi, e, (time_next hu i).2.2]
    have p := remainder_one (hq.acc k hk) (hq.lip k hk) (ds.time (i + 1)) dt
    have p' := remainder_one (hq.acc k hk) (hq.lip k hk) (ds.time (i + 1)) (-dt)
    have hp := hu.pos
    rw [abs_neg] at p'
    rw [abs_of_pos hp] at p p'
    rw [← sub_eq_add_neg] at p'
    rw [show (v (ds.time (i + 1) + dt) k - v (ds.time (i + 1) - dt) k) / (2 * dt) - a (ds.time (i + 1)) k =
      ((v (ds.time (i + 1) + dt) k - v (ds.time (i + 1)) k - dt * a (ds.time (i + 1)) k) -
        (v (ds.time (i + 1) - dt) k - v (ds.time (i + 1)) k - -dt * a (ds.time (i + 1)) k)) / (2 * dt) by field_simp; ring,
      abs_div, abs_of_pos (by positivity : 0 < 2 * dt), div_le_iff₀ (by positivity)]
    exact (abs_sub _ _).trans ((add_le_add p p').trans (le_of_eq (by ring)))
  · have := mixed_error (hq.acc k hk) (hj.jerk k hk) (hj.lip k hk) hu.pos (1 / 2) (ds.time (i + 1))
    have e' : |(1 / 2 : ℝ)| + |1 - 1 / 2| = 1 := by norm_num
    rw [e', sub_self, zero_mul, zero_mul, sub_zero, one_mul] at this
    rw [interior_time hI hi, e, (time_next hu i).2.2]
    refine (le_of_eq (congrArg abs ?_)).trans this
    have := hu.pos.ne'
    field_simp
    ring

end

/-! ### Example: an oscillator -/

namespace Oscillates

theorem moves : Moves 1 1 (fun s _ => Real.sin s) (fun s _ => Real.cos s) (fun s _ => -Real.sin s) where
  vel := fun _ _ s => Real.hasDerivAt_sin s
  acc := fun _ _ s => Real.hasDerivAt_cos s
  lip := fun _ _ s s' => by
    have := Real.abs_sin_sub_sin_le s' s
    rw [show -Real.sin s - -Real.sin s' = Real.sin s' - Real.sin s by ring, one_mul, abs_sub_comm s s']
    exact this

theorem jerks : Jerks 1 1 (fun s _ => -Real.sin s) (fun s _ => -Real.cos s) where
  jerk := fun _ _ s => (Real.hasDerivAt_sin s).neg
  lip := fun _ _ s s' => by
    have := Real.abs_cos_sub_cos_le s' s
    rw [show -Real.cos s - -Real.cos s' = Real.cos s' - Real.cos s by ring, one_mul, abs_sub_comm s s']
    exact this

/-- Ten frames with positions and velocities. -/
noncomputable def ds : Dataset ℝ := ⟨10, fun i => 3 + i * (1 / 5), [("x", ⟨1, fun i _ => some (Real.sin (3 + i * (1 / 5)))⟩),
  ("v", ⟨1, fun i _ => some (Real.cos (3 + i * (1 / 5)))⟩)], some (1 / 5)⟩

theorem uniform : Uniform ds 3 (1 / 5) := ⟨by norm_num, rfl, fun _ => rfl⟩

theorem has_x : Samples ds "x" 1 (fun s _ => Real.sin s) := ⟨_, rfl, rfl, fun _ _ _ _ => rfl⟩

theorem has_v : Samples ds "v" 1 (fun s _ => Real.cos s) := ⟨_, rfl, rfl, fun _ _ _ _ => rfl⟩

example := C168_compute_va (M := 1) (b := fun s _ => -Real.cos s) (by decide) uniform moves has_x (1 / 2)
example := C168_compute_va_gjf (M := 1) (b := fun s _ => -Real.cos s) (by decide) uniform moves has_x
example := C168_compute_a (M := 1) (b := fun s _ => -Real.cos s) (by decide) uniform moves has_x has_v
example := C168_compute_a_from_vel (M := 1) (b := fun s _ => -Real.cos s) (by decide) uniform moves has_x has_v
example := jerks

end Oscillates

end Verif
