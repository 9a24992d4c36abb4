import Verif.Props.Integrate
import Verif.Props.IntegrateMore

/-!
# A simulation can be continued (C157)
-/

namespace Verif

open Finset

section
variable {K : Type*} [Field K] {d nB nD b : ℕ} {I : Integrator K d nB nD b}

theorem memTail_shift (hT : 2 ≤ I.kernel.len) {E E' : ℕ → Fin b → K} {n j : ℕ} (hn : 1 ≤ n) (hj : j = 0 ∨ I.kernel.len - 1 ≤ n)
    (h : ∀ t < n, E' t = E (j + t)) : I.memTail E' n = I.memTail E (j + n) := by
  have e : min (j + n) (I.kernel.len - 1) = min n (I.kernel.len - 1) := by omega
  unfold Integrator.memTail
  rw [e, h _ (by omega), show j + (n - min n (I.kernel.len - 1)) = j + n - min n (I.kernel.len - 1) by omega]
  congr 2
  refine sum_congr rfl fun i hi => ?_
  have := mem_range.1 hi
  rw [h _ (by omega), show j + (n - 1 - i) = j + n - 1 - i by omega]

/-- A trajectory returned by `run`, as argument of `initial_conditions`. -/
def Trj.toData (trj : Trj K d) : InitData K d := ⟨trj.n, trj.time, trj.x, trj.v⟩

/-- **C157.** Take as initial conditions the `nMem + 1` frames that end with the frame `point` of a simulated trajectory. If they are at
least as many as the points of the kernel (or all the frames up to `point`), the run from there, with the same noise from there on,
follows the same trajectory. -/
theorem C157_continue [DecidableEq K] {nSteps : ℕ} {x0 : Option (InitData K d)} {noise : ℕ → Fin d → K} {trj : Trj K d}
    (h : I.run nSteps x0 noise = .ok trj) {nMem point : ℕ} (h1 : nMem ≤ point) (h2 : point < nSteps) (h3 : initLen x0 ≤ point + 1)
    (hT : 2 ≤ I.kernel.len) (hw : I.kernel.len ≤ nMem + 1 ∨ nMem = point) {nSteps' : ℕ} (hs : nMem + 1 ≤ nSteps')
    {noise' : ℕ → Fin d → K} (hn : ∀ t, point < t → t < nSteps → noise' (t - (point - nMem)) = noise t) :
    ∃ D trj', initialConditions I.dt trj.toData nMem point = .ok D ∧ I.run nSteps' (some D) noise' = .ok trj' ∧ trj'.n = nSteps' ∧
      ∀ t < nSteps', point - nMem + t < nSteps → trj'.x t = trj.x (point - nMem + t) ∧ trj'.v t = trj.v (point - nMem + t) := by
  obtain ⟨hN, -, hp, hle, -, E, hI⟩ := I.run_spec h
  obtain ⟨D, hD, hDn, hDx, -, -, hrun⟩ := C89_initial I trj.toData (nMem := nMem) (point := point) h1 (by rw [Trj.toData, hN]; exact h2)
  obtain ⟨trj', h'⟩ := hrun hT nSteps' noise' hs
  refine ⟨D, trj', hD, h', (I.run_spec h').1, ?_⟩
  obtain ⟨-, -, hp', hle', -, E', hI'⟩ := I.run_spec h'
  have hini := ((C67_initial h').2.1 D rfl).2
  obtain ⟨j, hj⟩ : ∃ j, j = point - nMem := ⟨_, rfl⟩
  rw [← hj] at hn ⊢ hDx
  intro t
  induction t using Nat.strong_induction_on with
  | h t ih =>
    intro ht htn
    by_cases c : t < D.n
    · rw [(hini t c).1, (hini t c).2]
      exact hDx t (by omega)
    · have hEE : ∀ r < t, E' r = E (j + r) := by
        intro r hr
        have e1 : E' r = I.E (trj'.x r) (trj'.v r) := hI'.hE r (by omega)
        have e2 : E (j + r) = I.E (trj.x (j + r)) (trj.v (j + r)) := hI.hE (j + r) (by omega)
        have := ih r hr (by omega) (by omega)
        rw [e1, e2, this.1, this.2]
      have s' : (trj'.x t, trj'.v t) = I.rkStep (trj'.x (t - 1)) (trj'.v (t - 1)) (I.memTail E' t) (noise' t) (E' (t - 1))
        (if t = 1 then 0 else I.memTail E' (t - 1)) := hI'.step t (by simpa using Nat.not_lt.1 c) ht
      have s : (trj.x (j + t), trj.v (j + t)) = I.rkStep (trj.x (j + t - 1)) (trj.v (j + t - 1)) (I.memTail E (j + t)) (noise (j + t))
        (E (j + t - 1)) (if j + t = 1 then 0 else I.memTail E (j + t - 1)) :=
        hI.step (j + t) (by unfold initLen at h3; omega) htn
      have hpre := ih (t - 1) (by omega) (by omega) (by omega)
      have e : j + (t - 1) = j + t - 1 := by omega
      rw [e] at hpre
      have hmem : (if t = 1 then 0 else I.memTail E' (t - 1)) = if j + t = 1 then 0 else I.memTail E (j + t - 1) := by
        by_cases c1 : t = 1
        · rw [if_pos c1, if_pos (by omega)]
        · rw [if_neg c1, if_neg (by omega), ← e]
          exact memTail_shift hT (by omega) (by omega) fun r hr => hEE r (by omega)
      have hno : noise' t = noise (j + t) := by
        have := hn (j + t) (by omega) htn
        rwa [Nat.add_sub_cancel_left] at this
      rw [hmem, memTail_shift hT (by omega) (by omega) hEE, hno, hEE _ (by omega), e, hpre.1, hpre.2, ← s] at s'
      exact Prod.mk.inj s'

end

/-- A particle with a kernel of three points. -/
def resumeInt : Integrator ℚ 1 1 1 1 where
  basis x := x
  vec := constVec
  proj := 1
  forceCoeff := fun _ _ => -1
  kernel := ⟨3, fun i _ _ => 3 - i⟩
  dt := 1 / 2

def resumeNoise (t : ℕ) (_ : Fin 1) : ℚ := t

theorem resume_runs (n : ℕ) (hn : 1 ≤ n) : ∃ trj, resumeInt.run n (some (exampleInit 1)) resumeNoise = .ok trj :=
  resumeInt.run_ok _ (by decide) le_rfl hn (by rintro D ⟨⟩ t _; rfl)

example := C157_continue (resume_runs 10 (by decide)).choose_spec (nMem := 2) (point := 6) (by decide) (by decide) (by decide)
  (by decide) (.inl (by decide)) (nSteps' := 6) (by decide) (noise' := fun t => resumeNoise (4 + t))
  (fun t h _ => by rw [show 4 + (t - (6 - 2)) = t by omega])
example := C157_continue (resume_runs 10 (by decide)).choose_spec (nMem := 1) (point := 1) (by decide) (by decide) (by decide)
  (by decide) (.inr rfl) (nSteps' := 6) (by decide) (noise' := resumeNoise) (fun t h _ => by simp)

/-- The velocity at a frame. -/
def velocityAt (r : Except Err (Trj ℚ 1)) (n : ℕ) : ℚ := match r with
  | .ok trj => trj.v n 0
  | .error _ => 0

/-- **C157** One frame less is not enough: the memory integral at the last frame is cut. -/
theorem C157_short_window_fails : ∃ (I : Integrator ℚ 1 1 1 1) (trj trj' : Trj ℚ 1) (D : InitData ℚ 1),
    I.run 5 none (fun _ _ => 1) = .ok trj ∧ I.kernel.len = 3 ∧ initialConditions I.dt trj.toData 1 3 = .ok D ∧
    I.run 3 (some D) (fun _ _ => 1) = .ok trj' ∧ trj'.v 2 ≠ trj.v 4 := by
  obtain ⟨trj, h⟩ := resumeInt.run_ok (nSteps := 5) (x0 := none) (fun _ _ => 1) (by decide) (by decide) (by decide) (by rintro D ⟨⟩)
  obtain ⟨D, hD, -, -, -, -, hr⟩ := C89_initial resumeInt trj.toData (nMem := 1) (point := 3) (by decide)
    (by show 3 < trj.n; rw [(resumeInt.run_spec h).1]; decide)
  obtain ⟨trj', h'⟩ := hr (by decide) 3 (fun _ _ => 1) (by decide)
  refine ⟨resumeInt, trj, trj', D, h, rfl, hD, h', fun e => ?_⟩
  have e1 : velocityAt (do
      let trj ← resumeInt.run 5 none (fun _ _ => 1)
      let D ← initialConditions resumeInt.dt trj.toData 1 3
      resumeInt.run 3 (some D) (fun _ _ => 1)) 2 = velocityAt (resumeInt.run 5 none (fun _ _ => 1)) 4 := by
    simp only [h, hD, h', bind, Except.bind, velocityAt, e]
  revert e1
  decide +kernel

end Verif
