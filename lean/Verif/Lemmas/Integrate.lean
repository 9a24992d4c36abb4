import Verif.Model.Integrate
import Verif.Spec.Quadrature
import Verif.Lemmas.Loops
import Verif.Lemmas.Volterra
import Mathlib.Tactic.Module
import Mathlib.Tactic.Ring

/-!
# The loop of `Integrator_gle.run`
-/

namespace Verif

open Finset

set_option linter.unusedSectionVars false

theorem forRangeE_self {σ : Type*} (lo : ℕ) (body : ℕ → σ → Except Err σ) (s : σ) : forRangeE lo lo body s = .ok s := by
  simp [forRangeE, pure, Except.pure]

theorem forRangeE_succ {σ : Type*} {lo hi : ℕ} (h : lo ≤ hi) (body : ℕ → σ → Except Err σ) (s : σ) :
    forRangeE lo (hi + 1) body s = forRangeE lo hi body s >>= body hi := by
  have : hi + 1 - lo = (hi - lo) + 1 := by omega
  rw [forRangeE, forRangeE, this, List.range'_concat, List.foldlM_append]
  simp [Nat.add_sub_cancel' h]

section
variable {K : Type*} [Field K] {d nB nD b : ℕ} (I : Integrator K d nB nD b)

namespace Integrator

/-- The value of `memIntRed` when it does not raise. -/
def memTail (E : ℕ → Fin b → K) (n : ℕ) : Fin d → K :=
  I.dt • (∑ i ∈ range (min n (I.kernel.len - 1) - 1), Matrix.vecMul (E (n - 1 - i)) (I.kernel.get (1 + i))) +
    ((1 / 2 : K) * I.dt) • Matrix.vecMul (E (n - min n (I.kernel.len - 1))) (I.kernel.get (min n (I.kernel.len - 1)))

theorem memIntRed_ok (hT : 2 ≤ I.kernel.len) (E : ℕ → Fin b → K) {n : ℕ} (hn : 1 ≤ n) :
    I.memIntRed E n = .ok (I.memTail E n) := by
  rw [memIntRed, if_neg (by omega)]
  rfl

theorem memTail_congr (hT : 2 ≤ I.kernel.len) {E E' : ℕ → Fin b → K} {n : ℕ} (hn : 1 ≤ n) (h : ∀ t < n, E t = E' t) :
    I.memTail E n = I.memTail E' n := by
  unfold memTail
  rw [h (n - min n (I.kernel.len - 1)) (by omega)]
  congr 2
  refine sum_congr rfl fun i hi => ?_
  rw [h _ (by omega)]

theorem memTail_trapz [CharZero K] (hT : 2 ≤ I.kernel.len) (E : ℕ → Fin b → K) {n : ℕ} (hn : 1 ≤ n) (e : Fin b → K) :
    I.memTail E n + ((1 / 2 : K) * I.dt) • Matrix.vecMul e (I.kernel.get 0) =
      Spec.trapzRule I.dt (fun j => Matrix.vecMul (Function.update E n e (n - j)) (I.kernel.get j))
        (min n (I.kernel.len - 1)) := by
  rw [trapzRule_eq _ _ (by omega)]
  have h0 : Function.update E n e (n - 0) = e := by simp
  have h1 : ∀ j, 1 ≤ j → Function.update E n e (n - j) = E (n - j) := fun j hj => Function.update_of_ne (by omega) ..
  have h2 : ∑ i ∈ range (min n (I.kernel.len - 1) - 1), Matrix.vecMul (E (n - 1 - i)) (I.kernel.get (1 + i)) =
      ∑ j ∈ Ico 1 (min n (I.kernel.len - 1)), Matrix.vecMul (Function.update E n e (n - j)) (I.kernel.get j) := by
    rw [sum_Ico_eq_sum_range]
    refine sum_congr rfl fun i _ => ?_
    rw [h1 _ (by omega), show n - (1 + i) = n - 1 - i by omega]
  unfold memTail
  rw [h2, h0, h1 _ (by omega), ← smul_sum]
  module

/-- The body of the loop when nothing raises. -/
def pureStep (noise : ℕ → Fin d → K) (ind : ℕ) (s : RunState K d b) : RunState K d b :=
  let rmi := I.memTail s.E ind
  let xv := I.rkStep s.x s.v rmi (noise ind) (s.E (ind - 1)) s.rmi
  { x := xv.1, v := xv.2, rmi := rmi, xs := Function.update s.xs ind xv.1, vs := Function.update s.vs ind xv.2,
    E := Function.update s.E ind (I.E xv.1 xv.2) }

theorem forRangeE_runStep (hT : 2 ≤ I.kernel.len) (noise : ℕ → Fin d → K) {lo hi : ℕ} (h1 : 1 ≤ lo) (h : lo ≤ hi)
    (s : RunState K d b) : forRangeE lo hi (I.runStep noise) s = .ok (forRange lo hi (I.pureStep noise) s) := by
  induction hi, h using Nat.le_induction with
  | base => rw [forRangeE_self, forRange_of_le le_rfl]
  | succ n hn ih =>
    rw [forRangeE_succ hn, ih, forRange_succ hn]
    simp only [bind, Except.bind, runStep, I.memIntRed_ok hT _ (h1.trans hn)]
    rfl

/-- What is known about the variables of the loop before iteration `n`. -/
structure Inv (noise : ℕ → Fin d → K) (n0 n : ℕ) (s0 s : RunState K d b) : Prop where
  hx : s.x = s.xs (n - 1)
  hv : s.v = s.vs (n - 1)
  hE : ∀ t < n, s.E t = I.E (s.xs t) (s.vs t)
  hr : s.rmi = if n = 1 then 0 else I.memTail s.E (n - 1)
  init : ∀ t, t < n0 ∨ n ≤ t → s.xs t = s0.xs t ∧ s.vs t = s0.vs t
  step : ∀ t, n0 ≤ t → t < n → (s.xs t, s.vs t) =
    I.rkStep (s.xs (t - 1)) (s.vs (t - 1)) (I.memTail s.E t) (noise t) (s.E (t - 1))
      (if t = 1 then 0 else I.memTail s.E (t - 1))

theorem inv_loop (hT : 2 ≤ I.kernel.len) (noise : ℕ → Fin d → K) {n0 : ℕ} (h1 : 1 ≤ n0) {s0 : RunState K d b}
    (h0 : I.Inv noise n0 n0 s0 s0) {n : ℕ} (h : n0 ≤ n) : I.Inv noise n0 n s0 (forRange n0 n (I.pureStep noise) s0) := by
  induction n, h using Nat.le_induction with
  | base => rw [forRange_of_le le_rfl]; exact h0
  | succ n hn ih =>
    rw [forRange_succ hn]
    generalize forRange n0 n (I.pureStep noise) s0 = s at ih ⊢
    have hlt : ∀ (f : ℕ → Fin d → K) (a : Fin d → K) (t : ℕ), t ≠ n → Function.update f n a t = f t :=
      fun f a t ht => Function.update_of_ne ht ..
    have hEt : ∀ t, t ≠ n → (I.pureStep noise n s).E t = s.E t := fun t ht => Function.update_of_ne ht ..
    have hmt : ∀ m, 1 ≤ m → m ≤ n → I.memTail (I.pureStep noise n s).E m = I.memTail s.E m :=
      fun m hm hmn => I.memTail_congr hT hm fun t ht => hEt t (by omega)
    refine ⟨?_, ?_, ?_, ?_, ?_, ?_⟩
    · simp [pureStep]
    · simp [pureStep]
    · intro t ht
      rcases eq_or_ne t n with rfl | h
      · simp [pureStep]
      · rw [hEt t h, ih.hE t (by omega)]
        simp only [pureStep]
        rw [hlt _ _ _ h, hlt _ _ _ h]
    · rw [if_neg (by omega), Nat.add_sub_cancel, hmt n (by omega) le_rfl]
      rfl
    · intro t ht
      simp only [pureStep]
      rw [hlt _ _ _ (by omega), hlt _ _ _ (by omega)]
      exact ih.init t (by omega)
    · intro t ht htn
      have hp : (if t = 1 then 0 else I.memTail (I.pureStep noise n s).E (t - 1)) =
          (if t = 1 then 0 else I.memTail s.E (t - 1)) := by
        split_ifs
        · rfl
        · exact hmt _ (by omega) (by omega)
      rw [hp, hmt t (by omega) (by omega), hEt _ (by omega)]
      rcases eq_or_ne t n with rfl | h
      · have e1 : (I.pureStep noise t s).xs (t - 1) = s.x := by
          rw [ih.hx]; exact hlt _ _ _ (by omega)
        have e2 : (I.pureStep noise t s).vs (t - 1) = s.v := by
          rw [ih.hv]; exact hlt _ _ _ (by omega)
        rw [e1, e2, ← ih.hr]
        simp [pureStep]
      · simp only [pureStep]
        rw [hlt _ _ _ h, hlt _ _ _ h, hlt _ _ _ (by omega), hlt _ _ _ (by omega)]
        exact ih.step t ht (by omega)

/-- Two loops with the same initial rows and the same noise compute the same rows. -/
theorem Inv.unique {I : Integrator K d nB nD b} (hT : 2 ≤ I.kernel.len) {noise noise' : ℕ → Fin d → K} {n0 m n : ℕ} (h1 : 1 ≤ n0) {s0 s s' : RunState K d b}
    (h : I.Inv noise n0 m s0 s) (h' : I.Inv noise' n0 n s0 s') (hmn : m ≤ n) (hn : ∀ t < m, noise t = noise' t) :
    ∀ t < m, s.xs t = s'.xs t ∧ s.vs t = s'.vs t := by
  intro t
  induction t using Nat.strong_induction_on with
  | h t ih =>
    intro ht
    by_cases c : t < n0
    · rw [(h.init t (.inl c)).1, (h.init t (.inl c)).2, (h'.init t (.inl c)).1, (h'.init t (.inl c)).2]
      exact ⟨rfl, rfl⟩
    · have hE : ∀ u < t, s.E u = s'.E u := fun u hu => by
        rw [h.hE u (by omega), h'.hE u (by omega), (ih u hu (by omega)).1, (ih u hu (by omega)).2]
      have e := h.step t (by omega) ht
      have e' := h'.step t (by omega) (by omega)
      have hp : (if t = 1 then (0 : Fin d → K) else I.memTail s.E (t - 1)) = if t = 1 then 0 else I.memTail s'.E (t - 1) := by
        split_ifs
        · rfl
        · exact I.memTail_congr hT (by omega) fun u hu => hE u (by omega)
      rw [hp, (ih (t - 1) (by omega) (by omega)).1, (ih (t - 1) (by omega) (by omega)).2,
        I.memTail_congr hT (show 1 ≤ t by omega) hE, hE _ (by omega), hn t ht, ← e'] at e
      exact ⟨congrArg Prod.fst e, congrArg Prod.snd e⟩

/-- What a successful `run` says. -/
theorem run_spec [DecidableEq K] {nSteps : ℕ} {x0 : Option (InitData K d)} {noise : ℕ → Fin d → K} {trj : Trj K d}
    (h : I.run nSteps x0 noise = .ok trj) :
    trj.n = nSteps ∧ (∀ t, trj.time t = (((x0.map (·.n)).getD 1 - 1 : ℕ) + t : K) * I.dt) ∧
    1 ≤ (x0.map (·.n)).getD 1 ∧ (x0.map (·.n)).getD 1 ≤ nSteps ∧
    (∀ t, (x0.map (·.n)).getD 1 ≤ t → t < nSteps → 2 ≤ I.kernel.len) ∧
    ∃ E, I.Inv noise ((x0.map (·.n)).getD 1) nSteps
      { x := 0, v := 0, rmi := 0, E := 0
        xs := initRows x0 (·.x)
        vs := initRows x0 (·.v) }
      { x := trj.x (nSteps - 1), v := trj.v (nSteps - 1)
        rmi := if nSteps = 1 then 0 else I.memTail E (nSteps - 1)
        xs := trj.x, vs := trj.v, E := E } := by
  unfold run at h
  generalize hn0 : (x0.map (·.n)).getD 1 = n0 at h ⊢
  by_cases c1 : nSteps < n0 ∨ n0 = 0
  · simp only [if_pos c1, bind, Except.bind, throw, throwThe, MonadExceptOf.throw] at h
    cases h
  by_cases c2 : (x0.map fun D => (List.range D.n).all fun t => decide (D.time t = t * I.dt)) = some false
  · simp only [if_neg c1, if_pos c2, bind, Except.bind, throw, throwThe, MonadExceptOf.throw, pure, Except.pure] at h
    cases h
  simp only [if_neg c1, if_neg c2, bind, Except.bind, pure, Except.pure] at h
  generalize initRows x0 (·.x) = xs at h ⊢
  generalize initRows x0 (·.v) = vs at h ⊢
  by_cases hT : 2 ≤ I.kernel.len
  · obtain ⟨r, hr, hr'⟩ : ∃ r, I.firstRmi (fun t => if t < n0 then I.E (xs t) (vs t) else 0) n0 = .ok r ∧ r = if n0 = 1 then 0 else I.memTail (fun t => if t < n0 then I.E (xs t) (vs t) else 0) (n0 - 1) := by
      unfold firstRmi
      by_cases c : 1 < n0
      · rw [if_pos c, if_neg (by omega)]
        exact ⟨_, I.memIntRed_ok hT _ (by omega), rfl⟩
      · rw [if_neg c, if_pos (by omega)]
        exact ⟨_, rfl, rfl⟩
    rw [hr] at h
    simp only [I.forRangeE_runStep hT noise (show 1 ≤ n0 by omega) (show n0 ≤ nSteps by omega)] at h
    cases h
    refine ⟨rfl, fun t => rfl, by omega, by omega, fun _ _ _ => hT, ?_⟩
    have hI := I.inv_loop hT noise (show 1 ≤ n0 by omega) (n := nSteps) (s0 := ⟨xs (n0 - 1), vs (n0 - 1), r, xs, vs,
        fun t => if t < n0 then I.E (xs t) (vs t) else 0⟩)
        ⟨rfl, rfl, fun t ht => by simp [ht], hr', fun t _ => ⟨rfl, rfl⟩, fun t h1 h2 => by omega⟩ (by omega)
    generalize forRange n0 nSteps (I.pureStep noise) _ = s at hI ⊢
    exact ⟨s.E, rfl, rfl, hI.hE, rfl, hI.init, hI.step⟩
  · by_cases c : 1 < n0
    · rw [firstRmi, if_pos c, memIntRed, if_pos (by omega)] at h
      cases h
    rw [firstRmi, if_neg c] at h
    have h1 : n0 = 1 := by omega
    by_cases c3 : nSteps = 1
    · subst c3
      subst h1
      simp only [forRangeE_self] at h
      cases h
      refine ⟨rfl, fun t => rfl, le_rfl, le_rfl, fun t h1 h2 => by omega, fun t => if t < 1 then I.E (xs t) (vs t) else 0, ?_⟩
      exact ⟨rfl, rfl, fun t ht => by simp [ht], rfl, fun t _ => ⟨rfl, rfl⟩, fun t h1 h2 => by omega⟩
    · exfalso
      have key : ∀ m, 2 ≤ m → ∀ s, forRangeE 1 m (I.runStep noise) s = .error .index := by
        intro m hm s
        induction m, hm using Nat.le_induction with
        | base =>
          rw [forRangeE_succ le_rfl, forRangeE_self]
          simp only [bind, Except.bind, runStep, memIntRed]
          rw [if_pos (by omega)]
        | succ m hm ih =>
          rw [forRangeE_succ (by omega), ih]
          rfl
      subst h1
      simp only [key nSteps (by omega)] at h
      cases h

/-- When `run` succeeds. -/
theorem run_ok [DecidableEq K] {nSteps : ℕ} {x0 : Option (InitData K d)} (noise : ℕ → Fin d → K)
    (hT : 2 ≤ I.kernel.len) (h1 : 1 ≤ (x0.map (·.n)).getD 1) (h2 : (x0.map (·.n)).getD 1 ≤ nSteps)
    (h3 : ∀ D, x0 = some D → ∀ t < D.n, D.time t = t * I.dt) : ∃ trj, I.run nSteps x0 noise = .ok trj := by
  unfold run
  have c2 : ¬ (x0.map fun D => (List.range D.n).all fun t => decide (D.time t = t * I.dt)) = some false := by
    cases x0 with
    | none => simp
    | some D => simpa using h3 D rfl
  simp only [if_neg (show ¬ (nSteps < (x0.map (·.n)).getD 1 ∨ (x0.map (·.n)).getD 1 = 0) by omega), if_neg c2, bind,
    Except.bind, pure, Except.pure, firstRmi]
  by_cases c : 1 < (x0.map (·.n)).getD 1
  · simp only [if_pos c, I.memIntRed_ok hT _ (show 1 ≤ (x0.map (·.n)).getD 1 - 1 by omega), I.forRangeE_runStep hT noise h1 h2]
    exact ⟨_, rfl⟩
  · simp only [if_neg c, I.forRangeE_runStep hT noise h1 h2]
    exact ⟨_, rfl⟩

end Integrator

end

end Verif
