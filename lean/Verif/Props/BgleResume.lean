import Verif.Model.BgleResume
import Verif.Props.Bgle

/-!
# Continuing a trajectory with the private arguments of `BGLEIntegrator.integrate` (C174)
-/

namespace Verif

open Finset

set_option linter.unusedSectionVars false
set_option linter.unusedSimpArgs false

namespace Bgle

variable {K : Type*} [Field K] (B : Bgle K)

/-- The step taken in iteration `n` of a loop that starts after row `n0`: the first one has no memory integral before it. -/
def stepFrom (n0 : ℕ) (noise xs vs : ℕ → K) (n : ℕ) : K × K × K :=
  B.rkStep (xs (n - 1)) (vs (n - 1)) (B.rmiAt vs n) (noise n) (if 1 < n then vs (n - 1) else 0)
    (if n0 + 1 < n then B.rmiAt vs (n - 1) else 0)

theorem stepFrom_congr {n0 : ℕ} {noise x x' v v' : ℕ → K} {n : ℕ} (h1 : 1 ≤ n)
    (hx : ∀ t < n, x t = x' t) (h : ∀ t < n, v t = v' t) :
    B.stepFrom n0 noise x v n = B.stepFrom n0 noise x' v' n := by
  unfold stepFrom
  rw [B.rmiAt_congr h, hx _ (by omega), h _ (by omega), B.rmiAt_congr (n := n - 1) fun t ht => h t (by omega)]

theorem stepFrom_eq {n0 : ℕ} {noise x v : ℕ → K} {n : ℕ} (h : n0 + 1 < n) : B.stepFrom n0 noise x v n = B.stepAt noise x v n := by
  have h1 : 1 < n := by omega
  simp only [stepFrom, stepAt, if_pos h, if_pos h1]

/-- What is known about the variables of the loop before iteration `n`. -/
structure InvFrom (noise : ℕ → K) (n0 : ℕ) (px pv : ℕ → K) (x0 v0 : K) (n : ℕ) (s : BgleState K) : Prop where
  hx : s.x = s.xs (n - 1)
  hv : s.v = s.vs (n - 1)
  hr : s.rmi = if n0 + 1 < n then B.rmiAt s.vs (n - 1) else 0
  pre : ∀ t < n0, s.xs t = px t ∧ s.vs t = pv t
  hx0 : s.xs n0 = x0
  hv0 : s.vs n0 = v0
  zero : ∀ t ≤ n0, s.mem t = 0 ∧ s.a t = 0
  step : ∀ t, n0 < t → t < n → (s.xs t, s.vs t, s.a t) = B.stepFrom n0 noise s.xs s.vs t
  mem : ∀ t, n0 < t → t < n → s.mem t = B.rmiAt s.vs t

theorem body_invFrom (hT : 2 ≤ B.kernel.len) {noise : ℕ → K} {n0 : ℕ} {px pv : ℕ → K} {x0 v0 : K} {n : ℕ} (hn : n0 + 1 ≤ n) {s : BgleState K}
    (h : B.InvFrom noise n0 px pv x0 v0 n s) : ∃ s', B.body noise n s = .ok s' ∧ B.InvFrom noise n0 px pv x0 v0 (n + 1) s' := by
  have e : B.memoryOf n s = .ok (B.rmiAt s.vs n, if 1 < n then s.vs (n - 1) else 0, if n0 + 1 < n then B.rmiAt s.vs (n - 1) else 0) := by
    unfold memoryOf
    by_cases c : 1 < n
    · simp only [if_pos c, B.bgleMem_ok hT, bind, Except.bind, pure, Except.pure, h.hr]
      rw [show B.rmiAt s.vs n = B.memVal s.vs n from if_pos c]
    · rw [if_neg c, if_neg c, if_neg (by omega), rmiAt, if_neg c]
  unfold body
  simp only [e, bind, Except.bind, pure, Except.pure, if_neg (show ¬ B.kernel.len = 0 by omega)]
  refine ⟨_, rfl, ?_⟩
  have hst : B.rkStep s.x s.v (B.rmiAt s.vs n) (noise n) (if 1 < n then s.vs (n - 1) else 0) (if n0 + 1 < n then B.rmiAt s.vs (n - 1) else 0)
      = B.stepFrom n0 noise s.xs s.vs n := by rw [stepFrom, h.hx, h.hv]
  rw [hst]
  have hv : ∀ a, ∀ t < n, s.vs t = Function.update s.vs n a t := fun a t ht => (Function.update_of_ne (by omega) ..).symm
  have hx : ∀ a, ∀ t < n, s.xs t = Function.update s.xs n a t := fun a t ht => (Function.update_of_ne (by omega) ..).symm
  refine ⟨?_, ?_, ?_, ?_, ?_, ?_, ?_, ?_, ?_⟩
  · simp
  · simp
  · dsimp only
    rw [if_pos (by omega), Nat.add_sub_cancel]
    exact B.rmiAt_congr (hv _)
  · intro t ht
    dsimp only
    rw [← hx _ t (by omega), ← hv _ t (by omega)]
    exact h.pre t ht
  · dsimp only; rw [← hx _ n0 (by omega)]; exact h.hx0
  · dsimp only; rw [← hv _ n0 (by omega)]; exact h.hv0
  · intro t ht
    dsimp only
    rw [Function.update_of_ne (by omega), Function.update_of_ne (by omega)]
    exact h.zero t ht
  · intro t h1 ht
    rw [← B.stepFrom_congr (by omega) (fun u hu => hx _ u (by omega)) fun u hu => hv _ u (by omega)]
    rcases Nat.lt_or_ge t n with c | c
    · dsimp only
      rw [← hx _ t c, ← hv _ t c, Function.update_of_ne (by omega)]
      exact h.step t h1 c
    · obtain rfl : t = n := by omega
      simp
  · intro t h1 ht
    rw [← B.rmiAt_congr fun u hu => hv _ u (by omega)]
    rcases Nat.lt_or_ge t n with c | c
    · dsimp only
      rw [Function.update_of_ne (by omega)]
      exact h.mem t h1 c
    · obtain rfl : t = n := by omega
      simp

theorem loop_invFrom (hT : 2 ≤ B.kernel.len) {noise : ℕ → K} {n0 : ℕ} {px pv : ℕ → K} {x0 v0 : K} {s : BgleState K}
    (h : B.InvFrom noise n0 px pv x0 v0 (n0 + 1) s) {n : ℕ} (hn : n0 + 1 ≤ n) :
    ∃ s', forRangeE (n0 + 1) n (B.body noise) s = .ok s' ∧ B.InvFrom noise n0 px pv x0 v0 n s' := by
  induction n, hn using Nat.le_induction with
  | base => exact ⟨s, forRangeE_self .., h⟩
  | succ n hn ih =>
    obtain ⟨s', e, hI⟩ := ih
    obtain ⟨s'', e', hI'⟩ := B.body_invFrom hT hn hI
    exact ⟨s'', by rw [forRangeE_succ hn, e]; exact e', hI'⟩

end Bgle

section
variable {K : Type*} [Field K] [DecidableEq K]

/-- **C174 (first part).** Without the private arguments `integrate` is what it was. -/
theorem C174_plain (B : Bgle K) (nSteps : ℕ) (x0 : Start K) (v0 : K) (noiseLen : ℕ) (noise : ℕ → K) :
    B.integrateFull nSteps x0 v0 noiseLen noise none none 0 = B.integrate nSteps x0 v0 noiseLen noise := by
  unfold Bgle.integrateFull Bgle.integrate Bgle.predefined
  by_cases h : noiseLen ≠ nSteps
  · simp only [if_pos h]
    rfl
  rcases Nat.eq_zero_or_pos nSteps with rfl | hp
  · simp only [if_neg h]
    rfl
  have h1 : ¬ nSteps ≤ 0 := by omega
  have h2 : ¬ nSteps = 0 := by omega
  simp only [if_neg h, if_neg h1, if_neg h2, bind, Except.bind, pure, Except.pure]
  cases x0 with
  | numpy x => simp [Start.isPython, Start.val]
  | python x =>
    rcases Nat.eq_or_lt_of_le (show 1 ≤ nSteps from hp) with rfl | h3
    · simp [Start.isPython, Start.val]
    · simp only [Start.isPython, Bgle.memoryOf, zero_add, lt_irrefl, if_false, if_neg (show ¬ nSteps = 1 by omega), h3, and_self, if_true]
      split_ifs <;> rfl

/-- **C174, the part that holds.** A run that is given the arrays `px` and `pv`, which hold the start values in row `n0 - 1`, keeps the rows
before `n0`, repeats the row `n0 - 1` as row `n0`, and makes the other rows by the steps of the integrator from all the rows before, where the
first of these steps takes the memory integral before it as zero. -/
theorem C174_rows_partial (B : Bgle K) (hT : 2 ≤ B.kernel.len) {nSteps n0 : ℕ} (h0 : 1 ≤ n0) (hn : n0 < nSteps) (px pv noise : ℕ → K) :
    ∃ trj, B.integrateFull nSteps (.numpy (px (n0 - 1))) (pv (n0 - 1)) nSteps noise (some ⟨nSteps, px⟩) (some ⟨nSteps, pv⟩) n0 = .ok trj ∧
      trj.n = nSteps ∧ (∀ t, trj.time t = t * B.dt) ∧
      (∀ t < n0, trj.x t = px t ∧ trj.v t = pv t) ∧
      (trj.x n0 = trj.x (n0 - 1) ∧ trj.v n0 = trj.v (n0 - 1)) ∧
      (∀ t ≤ n0, trj.mem t = 0 ∧ trj.a t = 0) ∧
      (∀ t, n0 < t → t < nSteps → trj.mem t = B.rmiAt trj.v t ∧ (trj.x t, trj.v t, trj.a t) = B.stepFrom n0 noise trj.x trj.v t) := by
  obtain ⟨s, e, hI⟩ := B.loop_invFrom hT (noise := noise) (n0 := n0) (px := px) (pv := pv) (x0 := px (n0 - 1)) (v0 := pv (n0 - 1))
    (s := { x := px (n0 - 1), v := pv (n0 - 1), rmi := 0, xs := Function.update px n0 (px (n0 - 1)),
            vs := Function.update pv n0 (pv (n0 - 1)), mem := 0, a := 0 })
    ⟨by simp, by simp, by simp, fun t ht => ⟨Function.update_of_ne (by omega) .., Function.update_of_ne (by omega) ..⟩,
      by simp, by simp, fun t _ => ⟨rfl, rfl⟩, fun t _ _ => by omega, fun t _ _ => by omega⟩ (n := nSteps) (by omega)
  unfold Bgle.integrateFull Bgle.predefined
  simp only [ne_eq, not_true_eq_false, if_false, if_neg (show ¬ (nSteps = 0 ∨ nSteps < n0) by omega), if_neg (show ¬ n0 = 0 by omega),
    if_neg (show ¬ nSteps ≤ n0 by omega), Start.val, Start.isPython, Bool.false_eq_true, false_and, bind, Except.bind, pure, Except.pure, e]
  refine ⟨_, rfl, rfl, fun _ => rfl, hI.pre, ⟨?_, ?_⟩, hI.zero, fun t h1 h2 => ⟨hI.mem t h1 h2, hI.step t h1 h2⟩⟩
  · exact hI.hx0.trans (hI.pre (n0 - 1) (by omega)).1.symm
  · exact hI.hv0.trans (hI.pre (n0 - 1) (by omega)).2.symm

/-- **C174 (assertions).** The start values have to be those of row `n0 - 1`. -/
theorem C174_assertion (B : Bgle K) {nSteps n0 : ℕ} (h0 : 1 ≤ n0) (hn : n0 ≤ nSteps) (px pv noise : ℕ → K) (x0 : Start K) {v0 : K}
    (h : pv (n0 - 1) ≠ v0 ∨ px (n0 - 1) ≠ x0.val) :
    B.integrateFull nSteps x0 v0 nSteps noise (some ⟨nSteps, px⟩) (some ⟨nSteps, pv⟩) n0 = .error (.exception "AssertionError") := by
  unfold Bgle.integrateFull Bgle.predefined
  simp only [ne_eq, not_true_eq_false, if_false, if_neg (show ¬ (nSteps = 0 ∨ nSteps < n0) by omega), if_neg (show ¬ n0 = 0 by omega),
    bind, Except.bind, pure, Except.pure]
  by_cases c : pv (n0 - 1) = v0
  · have c' := h.resolve_left (not_not.2 c)
    simp [c, c']
  · simp [c]

/-- **C174 (lengths).** Arrays of another length than `n_steps` fail the assertions. -/
theorem C174_length (B : Bgle K) {nSteps : ℕ} {p : Arr K} (h : p.len ≠ nSteps) (n0 : ℕ) (x0 : Start K) (v0 : K) (noise : ℕ → K) (q : Option (Arr K)) :
    B.integrateFull nSteps x0 v0 nSteps noise q (some p) n0 = .error (.exception "AssertionError") ∧
    B.integrateFull nSteps x0 v0 nSteps noise (some p) none n0 = .error (.exception "AssertionError") := by
  unfold Bgle.integrateFull Bgle.predefined
  simp only [ne_eq, not_true_eq_false, if_false, if_pos h, h, not_false_eq_true, if_true, bind, Except.bind, pure, Except.pure, and_self]

/-- **C174 (`_n_0`).** `_n_0` has to be a row: otherwise `IndexError` without arrays, and never a result. -/
theorem C174_index (B : Bgle K) {nSteps n0 : ℕ} (h : nSteps ≤ n0) (x0 : Start K) (v0 : K) (noise : ℕ → K) :
    B.integrateFull nSteps x0 v0 nSteps noise none none n0 = .error .index ∧
    ∀ px pv, ¬ ∃ trj, B.integrateFull nSteps x0 v0 nSteps noise px pv n0 = .ok trj := by
  constructor
  · unfold Bgle.integrateFull Bgle.predefined
    simp only [ne_eq, not_true_eq_false, if_false, if_pos h, bind, Except.bind, pure, Except.pure]
    rfl
  · rintro px pv ⟨trj, e⟩
    unfold Bgle.integrateFull at e
    simp only [ne_eq, not_true_eq_false, if_false, if_pos h, bind, Except.bind, pure, Except.pure] at e
    rcases h1 : Bgle.predefined nSteps n0 v0 pv with _ | _
    · rw [h1] at e
      cases e
    · rw [h1] at e
      rcases h2 : Bgle.predefined nSteps n0 x0.val px with _ | _ <;> rw [h2] at e <;> cases e

/-- **C174 (Python numbers).** A start position without `reshape` raises in the first step, also here. -/
theorem C174_python (B : Bgle K) (hT : 2 ≤ B.kernel.len) {nSteps n0 : ℕ} (hn : n0 + 1 < nSteps) (x0 v0 : K) (noise : ℕ → K) :
    B.integrateFull nSteps (.python x0) v0 nSteps noise none none n0 = .error .attribute := by
  unfold Bgle.integrateFull Bgle.predefined Bgle.memoryOf
  simp only [ne_eq, not_true_eq_false, if_false, if_neg (show ¬ nSteps ≤ n0 by omega), Start.isPython, hn, and_self, if_true, bind, Except.bind,
    pure, Except.pure, B.bgleMem_ok hT, if_neg (show ¬ B.kernel.len = 0 by omega)]
  split_ifs <;> rfl

/-- **C174 does not hold.** Take a run and a frame `n0` at which it moves, in position or velocity. No call of `integrate` with
`_n_0 = n0`, arrays and the same noise gives the frames of the run, whatever the arrays and the start values: with those of row `n0 - 1` it repeats
them, with any others, for instance those of frame `n0`, it raises. -/
theorem C174_continue_fails (B : Bgle K) (hT : 2 ≤ B.kernel.len) {nSteps n0 : ℕ} (h0 : 1 ≤ n0) (hn : n0 < nSteps) (x0 v0 : K) (noise : ℕ → K)
    {trj : BgleTrj K} (_h : B.integrate nSteps (.numpy x0) v0 nSteps noise = .ok trj)
    (hmove : (trj.x n0, trj.v n0) ≠ (trj.x (n0 - 1), trj.v (n0 - 1))) (px pv : ℕ → K) (x v : K) :
    ¬ ∃ trj', B.integrateFull nSteps (.numpy x) v nSteps noise (some ⟨nSteps, px⟩) (some ⟨nSteps, pv⟩) n0 = .ok trj' ∧
      ∀ t < nSteps, trj'.x t = trj.x t ∧ trj'.v t = trj.v t := by
  rintro ⟨trj', h', hs⟩
  by_cases c : pv (n0 - 1) ≠ v ∨ px (n0 - 1) ≠ x
  · rw [C174_assertion B h0 hn.le px pv noise (.numpy x) c] at h'
    exact absurd h' (by simp)
  · obtain ⟨rfl, rfl⟩ : pv (n0 - 1) = v ∧ px (n0 - 1) = x := by tauto
    obtain ⟨t', e, -, -, -, hr, -⟩ := C174_rows_partial B hT h0 hn px pv noise
    obtain rfl : t' = trj' := Except.ok.inj (e.symm.trans h')
    refine hmove ?_
    rw [← (hs n0 hn).1, ← (hs n0 hn).2, hr.1, hr.2, (hs (n0 - 1) (by omega)).1, (hs (n0 - 1) (by omega)).2]

end

/-- Motion without force and friction. -/
def exFreeBgle : Bgle ℚ := ⟨fun _ => 0, ⟨2, fun _ => 0⟩, 1⟩

example : ∃ trj, exFreeBgle.integrate 3 (.numpy 0) 1 3 (fun _ => 0) = .ok trj ∧ (trj.x 0, trj.x 1, trj.x 2) = (0, 1, 2) ∧
    ∃ trj', exFreeBgle.integrateFull 3 (.numpy 1) 1 3 (fun _ => 0) (some ⟨3, fun n => n⟩) (some ⟨3, fun _ => 1⟩) 2 = .ok trj' ∧
      (trj'.x 0, trj'.x 1, trj'.x 2) = (0, 1, 1) :=
  ⟨_, rfl, by decide +kernel, _, rfl, by decide +kernel⟩

example := C174_rows_partial exFreeBgle le_rfl (nSteps := 5) (n0 := 2) (by norm_num) (by norm_num) (fun n => n) (fun _ => 1) fun _ => 0
example := C174_length exFreeBgle (nSteps := 5) (p := ⟨4, fun _ => 0⟩) (by norm_num) 2 (.numpy 0) 0 (fun _ => 0) none
example := C174_index exFreeBgle (nSteps := 5) (n0 := 5) le_rfl (.numpy 0) 0 fun _ => 0
example := C174_python exFreeBgle le_rfl (nSteps := 5) (n0 := 2) (by norm_num) 0 0 fun _ => 0
example := C174_assertion exFreeBgle (nSteps := 5) (n0 := 2) (by norm_num) (by norm_num) (fun n => n) (fun _ => 1) (fun _ => 0) (.numpy 2) (v0 := 1)
  (.inr (by simp [Start.val]))

end Verif
