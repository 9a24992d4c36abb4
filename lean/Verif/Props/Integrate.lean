import Verif.Lemmas.Integrate
import Verif.Spec.Integrate
import Mathlib.Tactic.NormNum
import Mathlib.Tactic.FieldSimp

/-!
# Properties of `Integrator_gle.run` (C66, C67, C68, C84)
-/

namespace Verif

open Finset

set_option linter.unusedSectionVars false

section
variable {K : Type*} [Field K] {d nB nD b : ℕ} {I : Integrator K d nB nD b}

/-- The functions seen by the memory along a trajectory. -/
def history (I : Integrator K d nB nD b) (trj : Trj K d) (t : ℕ) : Fin b → K :=
  I.proj.mulVec (I.vec (trj.x t) (trj.v t))

/-- Number of frames of the initial data. -/
def initLen (x0 : Option (InitData K d)) : ℕ := (x0.map (·.n)).getD 1

theorem rkStep_eq [CharZero K] (x v rmi fr : Fin d → K) (lastE : Fin b → K) (lastRmi : Fin d → K) :
    I.rkStep x v rmi fr lastE lastRmi = Spec.rk4 I.dt (fun c (y : (Fin d → K) × (Fin d → K)) =>
      (y.2, Matrix.vecMul (I.basis y.1) I.forceCoeff + fr -
        ((1 - c) • (lastRmi + ((1 / 2 : K) * I.dt) • Matrix.vecMul lastE (I.kernel.get 0)) +
          c • (rmi + ((1 / 2 : K) * I.dt) • Matrix.vecMul (I.E y.1 y.2) (I.kernel.get 0))))) (x, v) := by
  have hf : (fun c (y : (Fin d → K) × (Fin d → K)) =>
      (y.2, Matrix.vecMul (I.basis y.1) I.forceCoeff + fr -
        ((1 - c) • (lastRmi + ((1 / 2 : K) * I.dt) • Matrix.vecMul lastE (I.kernel.get 0)) +
          c • (rmi + ((1 / 2 : K) * I.dt) • Matrix.vecMul (I.E y.1 y.2) (I.kernel.get 0))))) =
      fun c y => I.fRk y.1 y.2 rmi fr (1 - c) lastE lastRmi := by
    funext c y
    simp only [Integrator.fRk, sub_sub_cancel]
  rw [hf]
  have h2 : (1 - 1 / 2 : K) = 1 / 2 := by ring
  simp only [Spec.rk4, Integrator.rkStep, sub_zero, sub_self, h2, Prod.fst_add, Prod.snd_add, Prod.smul_fst, Prod.smul_snd]
  refine Prod.ext rfl ?_
  simp only [Prod.snd_add, Prod.smul_snd]
  module

/-- **C66** The equation solved by `run`: each new row is a Runge-Kutta step from the previous one, in which the
memory force is interpolated between the trapezoidal convolutions at the previous and at the new time (the latter
with the current position and velocity of the step as last point of the history). This holds for every step but
the one from the very first row, `2 ≤ n`; for that one see `C66_first_step` and `C66_first_step_fails`. -/
theorem C66_memory_partial [CharZero K] [DecidableEq K] {nSteps : ℕ} {x0 : Option (InitData K d)} {noise : ℕ → Fin d → K}
    {trj : Trj K d} (h : I.run nSteps x0 noise = .ok trj) {n : ℕ} (hn0 : initLen x0 ≤ n) (hn : n < nSteps) (h2 : 2 ≤ n) :
    (trj.x n, trj.v n) = Spec.rk4 I.dt (fun c (y : (Fin d → K) × (Fin d → K)) =>
      (y.2, Matrix.vecMul (I.basis y.1) I.forceCoeff + noise n -
        ((1 - c) • Spec.memory I.dt I.kernel.len I.kernel.get (history I trj) (n - 1) +
          c • Spec.memory I.dt I.kernel.len I.kernel.get
            (Function.update (history I trj) n (I.proj.mulVec (I.vec y.1 y.2))) n))) (trj.x (n - 1), trj.v (n - 1)) := by
  obtain ⟨-, -, h1, -, hT, E, hI⟩ := I.run_spec h
  have hT := hT n hn0 hn
  have hE : ∀ t < nSteps, E t = history I trj t := hI.hE
  have hs : (trj.x n, trj.v n) = I.rkStep (trj.x (n - 1)) (trj.v (n - 1)) (I.memTail E n) (noise n) (E (n - 1))
    (if n = 1 then 0 else I.memTail E (n - 1)) := hI.step n hn0 hn
  rw [hs, if_neg (by omega), rkStep_eq]
  congr 1
  funext c y
  rw [I.memTail_congr hT (show 1 ≤ n - 1 by omega) (fun t ht => hE t (by omega)),
    I.memTail_congr hT (show 1 ≤ n by omega) (fun t ht => hE t (by omega)), I.memTail_trapz hT _ (by omega),
    I.memTail_trapz hT _ (by omega), hE (n - 1) (by omega), Function.update_eq_self]
  rfl

/-- The first step of a run started from a single row: in the place of the memory force at time zero, which is
zero, there is half of a term of the kernel at lag zero. -/
theorem C66_first_step [CharZero K] [DecidableEq K] {nSteps : ℕ} {x0 : Option (InitData K d)} {noise : ℕ → Fin d → K}
    {trj : Trj K d} (h : I.run nSteps x0 noise = .ok trj) (hn0 : initLen x0 = 1) (hn : 1 < nSteps) :
    (trj.x 1, trj.v 1) = Spec.rk4 I.dt (fun c (y : (Fin d → K) × (Fin d → K)) =>
      (y.2, Matrix.vecMul (I.basis y.1) I.forceCoeff + noise 1 -
        ((1 - c) • (I.dt / 2) • Matrix.vecMul (history I trj 0) (I.kernel.get 0) +
          c • Spec.memory I.dt I.kernel.len I.kernel.get
            (Function.update (history I trj) 1 (I.proj.mulVec (I.vec y.1 y.2))) 1))) (trj.x 0, trj.v 0) := by
  obtain ⟨-, -, h1, -, hT, E, hI⟩ := I.run_spec h
  have hT := hT 1 (le_of_eq hn0) hn
  have hE : ∀ t < nSteps, E t = history I trj t := hI.hE
  have hs : (trj.x 1, trj.v 1) = I.rkStep (trj.x 0) (trj.v 0) (I.memTail E 1) (noise 1) (E 0)
    (if 1 = 1 then 0 else I.memTail E 0) := hI.step 1 (le_of_eq hn0) hn
  rw [hs, if_pos rfl, rkStep_eq]
  congr 1
  funext c y
  rw [I.memTail_congr hT (show 1 ≤ 1 by omega) (fun t ht => hE t (by omega)),
    I.memTail_trapz hT _ (by omega), hE _ (by omega), zero_add, show (1 / 2 : K) * I.dt = I.dt / 2 by ring]
  rfl

/-- **C67** The rows of the initial data are kept; without initial data the first row is zero. -/
theorem C67_initial [DecidableEq K] {nSteps : ℕ} {x0 : Option (InitData K d)} {noise : ℕ → Fin d → K}
    {trj : Trj K d} (h : I.run nSteps x0 noise = .ok trj) :
    trj.n = nSteps ∧ (∀ D, x0 = some D → D.n ≤ nSteps ∧ ∀ t < D.n, trj.x t = D.x t ∧ trj.v t = D.v t) ∧
    (x0 = none → trj.x 0 = 0 ∧ trj.v 0 = 0) := by
  obtain ⟨h0, -, h1, h2, hT, E, hI⟩ := I.run_spec h
  refine ⟨h0, ?_, ?_⟩
  · rintro D rfl
    refine ⟨h2, fun t ht => ?_⟩
    have := hI.init t (.inl ht)
    simpa [initRows, ht] using this
  · rintro rfl
    exact hI.init 0 (.inl (by simp))

/-- **C67** A shorter run, with a noise that agrees on its rows (none for instance), succeeds too and is a prefix. -/
theorem C67_prefix [DecidableEq K] {m n : ℕ} {x0 : Option (InitData K d)} {noise noise' : ℕ → Fin d → K}
    {trj : Trj K d} (h : I.run n x0 noise = .ok trj) (h0 : initLen x0 ≤ m) (hm : m ≤ n) (hn : ∀ t < m, noise' t = noise t) :
    ∃ trj', I.run m x0 noise' = .ok trj' ∧ trj'.n = m ∧
      ∀ t < m, trj'.x t = trj.x t ∧ trj'.v t = trj.v t ∧ trj'.time t = trj.time t := by
  obtain ⟨-, ht, h1, h2, hT, E, hI⟩ := I.run_spec h
  rcases Nat.lt_or_ge (initLen x0) n with c | c
  · have hT := hT _ le_rfl c
    have h3 : ∀ D, x0 = some D → ∀ t < D.n, D.time t = t * I.dt := by
      intro D hD t htD
      by_contra hne
      subst hD
      have c2 : ((some D).map fun D : InitData K d => (List.range D.n).all fun t => decide (D.time t = t * I.dt)) = some false := by
        simp only [Option.map_some, Option.some.injEq, List.all_eq_false, List.mem_range]
        exact ⟨t, htD, by simpa using hne⟩
      simp only [Integrator.run, if_pos c2, bind, Except.bind, throw, throwThe, MonadExceptOf.throw, pure, Except.pure] at h
      split_ifs at h
    obtain ⟨trj', h'⟩ := I.run_ok noise' hT h1 h0 h3
    refine ⟨trj', h', ?_⟩
    obtain ⟨e, ht', -, -, -, E', hI'⟩ := I.run_spec h'
    refine ⟨e, fun t htm => ?_⟩
    have := hI'.unique hT h1 hI hm hn t htm
    exact ⟨this.1, this.2, by rw [ht, ht']⟩
  · have e : m = n := by have := h0.trans hm; omega
    subst e
    have hn' : I.run m x0 noise' = I.run m x0 noise := by
      have hl : ∀ s, forRangeE (initLen x0) m (I.runStep noise') s = forRangeE (initLen x0) m (I.runStep noise) s := by
        intro s
        rw [show m = initLen x0 by omega, forRangeE_self, forRangeE_self]
      unfold initLen at hl
      unfold Integrator.run
      simp only [hl]
    exact ⟨trj, hn'.trans h, (I.run_spec h).1, fun t _ => ⟨rfl, rfl, rfl⟩⟩

/-- **C68** Uniformly accelerated motion is integrated exactly: with a zero kernel, no noise and the constant
force `a`, the run follows the parabola through the last row of the initial data. -/
theorem C68_constant_force [CharZero K] [DecidableEq K] {nSteps : ℕ} {x0 : Option (InitData K d)}
    {trj : Trj K d} (h : I.run nSteps x0 0 = .ok trj) (hk : ∀ i < I.kernel.len, I.kernel.get i = 0) {a : Fin d → K}
    (hF : ∀ x, Matrix.vecMul (I.basis x) I.forceCoeff = a) {k : ℕ} (hkn : initLen x0 - 1 + k < nSteps) :
    trj.v (initLen x0 - 1 + k) = trj.v (initLen x0 - 1) + (k * I.dt) • a ∧
    trj.x (initLen x0 - 1 + k) = trj.x (initLen x0 - 1) + (k * I.dt) • trj.v (initLen x0 - 1) + ((k * I.dt) ^ 2 / 2) • a := by
  obtain ⟨-, -, h1, h2, hT, E, hI⟩ := I.run_spec h
  have h1 : 1 ≤ initLen x0 := h1
  induction k with
  | zero => simp
  | succ k ih =>
    have ih := ih (by omega)
    have hT := hT (initLen x0 - 1 + (k + 1)) (by unfold initLen at h1 ⊢; omega) hkn
    have hm : ∀ n, I.memTail E n = 0 := by
      intro n
      unfold Integrator.memTail
      rw [hk _ (by omega), Matrix.vecMul_zero, sum_eq_zero]
      · simp
      · intro i hi
        have := mem_range.1 hi
        rw [hk _ (by omega), Matrix.vecMul_zero]
    have hs := hI.step (initLen x0 - 1 + (k + 1)) (by unfold initLen at h1 ⊢; omega) hkn
    simp only [hm, ite_self] at hs
    rw [rkStep_eq, hk 0 (by omega)] at hs
    simp only [hF, Matrix.vecMul_zero, smul_zero, add_zero, sub_zero, Pi.zero_apply] at hs
    have hprev : initLen x0 - 1 + (k + 1) - 1 = initLen x0 - 1 + k := by omega
    rw [hprev] at hs
    have hv := congrArg Prod.snd hs
    have hx := congrArg Prod.fst hs
    simp only [Spec.rk4, Prod.snd_add, Prod.smul_snd, Prod.fst_add, Prod.smul_fst, ih.1, ih.2] at hv hx
    constructor
    · rw [hv]
      push_cast
      module
    · rw [hx]
      push_cast
      module

/-- **C68** Free motion. -/
theorem C68_free [CharZero K] [DecidableEq K] {nSteps : ℕ} {x0 : Option (InitData K d)}
    {trj : Trj K d} (h : I.run nSteps x0 0 = .ok trj) (hk : ∀ i < I.kernel.len, I.kernel.get i = 0)
    (hF : I.forceCoeff = 0) {k : ℕ} (hkn : initLen x0 - 1 + k < nSteps) :
    trj.v (initLen x0 - 1 + k) = trj.v (initLen x0 - 1) ∧
    trj.x (initLen x0 - 1 + k) = trj.x (initLen x0 - 1) + (k * I.dt) • trj.v (initLen x0 - 1) := by
  have := C68_constant_force h hk (a := 0) (fun x => by rw [hF, Matrix.vecMul_zero]) hkn
  simpa using this

/-- **C84** for a single initial row (or none). The full statement (any initial data) is false:
`C84_time_shift`. -/
theorem C84_time_partial [DecidableEq K] {nSteps : ℕ} {x0 : Option (InitData K d)} {noise : ℕ → Fin d → K}
    {trj : Trj K d} (h : I.run nSteps x0 noise = .ok trj) (h1 : initLen x0 = 1) (t : ℕ) :
    trj.time t = t * I.dt := by
  obtain ⟨-, ht, -⟩ := I.run_spec h
  rw [ht, show (x0.map (·.n)).getD 1 = 1 from h1]
  simp

/-- With several initial rows all the times are shifted: every initial row is labelled with another time
than the one it had. -/
theorem C84_time_shift [CharZero K] [DecidableEq K] {nSteps : ℕ} {D : InitData K d} {noise : ℕ → Fin d → K}
    {trj : Trj K d} (h : I.run nSteps (some D) noise = .ok trj) (h2 : 2 ≤ D.n) (hdt : I.dt ≠ 0) {t : ℕ} (ht : t < D.n) :
    trj.time t = D.time t + (D.n - 1 : ℕ) * I.dt ∧ trj.time t ≠ D.time t := by
  obtain ⟨-, htt, -⟩ := I.run_spec h
  have hD : D.time t = t * I.dt := by
    by_contra hne
    have c2 : ((some D).map fun D : InitData K d => (List.range D.n).all fun t => decide (D.time t = t * I.dt)) = some false := by
      simp only [Option.map_some, Option.some.injEq, List.all_eq_false, List.mem_range]
      exact ⟨t, ht, by simpa using hne⟩
    simp only [Integrator.run, if_pos c2, bind, Except.bind, throw, throwThe, MonadExceptOf.throw, pure, Except.pure] at h
    split_ifs at h
  have e : trj.time t = D.time t + (D.n - 1 : ℕ) * I.dt := by
    rw [htt, hD]
    simp only [Option.map_some, Option.getD_some]
    ring
  refine ⟨e, ?_⟩
  rw [e]
  simpa using ⟨show D.n - 1 ≠ 0 by omega, hdt⟩

end

/-! ### Examples -/

/-- A particle with a constant kernel of two points and a linear force. -/
def exampleInt (k : ℚ) (f : ℚ) : Integrator ℚ 1 1 1 1 where
  basis x := x
  vec := constVec
  proj := 1
  forceCoeff := fun _ _ => f
  kernel := ⟨2, fun _ _ _ => k⟩
  dt := 1 / 2

/-- Initial data with two rows. -/
def exampleInit (n : ℕ) : InitData ℚ 1 := ⟨n, fun t => t * (1 / 2), fun t _ => t, fun _ _ => 1⟩

theorem exampleInt_runs (k f : ℚ) {n : ℕ} (hn : 1 ≤ n) {nSteps : ℕ} (h : n ≤ nSteps) (noise : ℕ → Fin 1 → ℚ) :
    ∃ trj, (exampleInt k f).run nSteps (some (exampleInit n)) noise = .ok trj :=
  (exampleInt k f).run_ok noise (le_refl 2) hn h (by rintro D ⟨⟩ t _; rfl)

example := C66_memory_partial (exampleInt_runs 1 (-1) (n := 2) (by decide) (nSteps := 5) (by decide) 1).choose_spec
  (n := 3) (by decide) (by decide) (by decide)
example := C66_first_step (exampleInt_runs 1 (-1) (n := 1) (by decide) (nSteps := 5) (by decide) 1).choose_spec
  (by decide) (by decide)
example := C67_initial (exampleInt_runs 1 (-1) (n := 2) (by decide) (nSteps := 5) (by decide) 1).choose_spec
example := C67_prefix (exampleInt_runs 1 (-1) (n := 2) (by decide) (nSteps := 5) (by decide) 0).choose_spec (m := 3)
  (noise' := 0) (by decide) (by decide) (fun _ _ => rfl)
example := C68_free (exampleInt_runs 0 0 (n := 2) (by decide) (nSteps := 5) (by decide) 0).choose_spec (fun _ _ => rfl) rfl
  (k := 2) (by decide)
example := C84_time_partial (exampleInt_runs 1 1 (n := 1) (by decide) (nSteps := 5) (by decide) 0).choose_spec rfl 3
example := C84_time_shift (exampleInt_runs 1 1 (n := 2) (by decide) (nSteps := 5) (by decide) 0).choose_spec (by decide)
  (by norm_num [exampleInt]) (t := 1) (by decide)

/-- A constant force. -/
def exampleForce : Integrator ℚ 1 1 1 1 where
  basis _ _ := 1
  vec := constVec
  proj := 1
  forceCoeff := fun _ _ => 3
  kernel := ⟨2, fun _ => 0⟩
  dt := 1 / 2

example := C68_constant_force (I := exampleForce) (exampleForce.run_ok (nSteps := 4) (x0 := none) 0 (by decide) (by decide)
  (by decide) (by rintro D ⟨⟩)).choose_spec (fun _ _ => rfl) (a := fun _ => 3)
  (fun x => by funext i; simp [exampleForce, Matrix.vecMul, dotProduct]) (k := 2) (by decide)

/-- C66 is false for the first step: the equation of `C66_memory_partial` does not hold for `n = 1`. -/
theorem C66_first_step_fails : ∃ (I : Integrator ℚ 1 1 1 1) (D : InitData ℚ 1) (trj : Trj ℚ 1),
    I.run 2 (some D) 0 = .ok trj ∧ D.n = 1 ∧
    (trj.x 1, trj.v 1) ≠ Spec.rk4 I.dt (fun c (y : (Fin 1 → ℚ) × (Fin 1 → ℚ)) =>
      (y.2, Matrix.vecMul (I.basis y.1) I.forceCoeff + 0 -
        ((1 - c) • Spec.memory I.dt I.kernel.len I.kernel.get (history I trj) 0 +
          c • Spec.memory I.dt I.kernel.len I.kernel.get
            (Function.update (history I trj) 1 (I.proj.mulVec (I.vec y.1 y.2))) 1))) (trj.x 0, trj.v 0) := by
  obtain ⟨trj, h⟩ := exampleInt_runs 1 0 (n := 1) le_rfl (nSteps := 2) (by decide) 0
  refine ⟨exampleInt 1 0, exampleInit 1, trj, h, rfl, ?_⟩
  have hf := C66_first_step h rfl (by decide)
  have h0 := (C67_initial h).2.1 _ rfl
  have hx := (h0.2 0 (by decide)).1
  have hv := (h0.2 0 (by decide)).2
  rw [hf]
  intro hc
  have hc := congrFun (congrArg Prod.snd hc) 0
  simp [Spec.rk4, Spec.memory, Spec.trapzRule, history, hx, hv, exampleInt, exampleInit, constVec, Matrix.vecMul, dotProduct] at hc
  norm_num at hc

end Verif
