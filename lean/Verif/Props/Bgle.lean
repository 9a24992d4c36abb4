import Verif.Model.Bgle
import Verif.Props.Integrate
import Verif.Props.IntegrateMore
import Mathlib.Tactic.LinearCombination

/-!
# The scalar integrator (C119)
-/

namespace Verif

open Finset

set_option linter.unusedSectionVars false
set_option linter.unusedSimpArgs false

section
variable {K : Type*} [Field K]

namespace Bgle

variable (B : Bgle K)

/-- The value of `bgleMem` when it does not raise. -/
def memVal (v : ℕ → K) (n : ℕ) : K :=
  (1 / 2 * (B.kernel.get (1 + (B.kernel.len - 2)) * Spec.extendZero v (n - (1 + (B.kernel.len - 2) : ℕ))) +
    ∑ i ∈ range (B.kernel.len - 2), B.kernel.get (1 + i) * Spec.extendZero v (n - (1 + i : ℕ))) * B.dt

theorem bgleMem_ok (hT : 2 ≤ B.kernel.len) (v : ℕ → K) (n : ℕ) : bgleMem B.kernel B.dt v n = .ok (B.memVal v n) := by
  unfold memVal bgleMem
  rw [if_neg (by omega)]
  have hw : ∀ i, i ≤ B.kernel.len - 2 → (if n < B.kernel.len then
      (if (if n < B.kernel.len then B.kernel.len + 1 else n) - 1 - i < B.kernel.len - n + 1 then 0
        else v ((if n < B.kernel.len then B.kernel.len + 1 else n) - 1 - i - (B.kernel.len - n + 1)))
      else v ((if n < B.kernel.len then B.kernel.len + 1 else n) - 1 - i)) = Spec.extendZero v (n - (1 + i : ℕ)) := by
    intro i hi
    unfold Spec.extendZero
    by_cases c : n < B.kernel.len
    · simp only [if_pos c]
      by_cases c' : B.kernel.len + 1 - 1 - i < B.kernel.len - n + 1
      · rw [if_pos c', if_pos (by omega)]
      · rw [if_neg c', if_neg (by omega)]
        congr 1
        omega
    · simp only [if_neg c]
      rw [if_neg (by omega)]
      congr 1
      omega
  dsimp only
  rw [hw _ le_rfl, sum_congr rfl fun i hi => by rw [hw i (by have := mem_range.1 hi; omega)]]

theorem _root_.Verif.extendZero_congr {v v' : ℕ → K} {n : ℕ} (h : ∀ t < n, v t = v' t) (i : ℕ) :
    Spec.extendZero v ((n : ℤ) - (1 + i : ℕ)) = Spec.extendZero v' ((n : ℤ) - (1 + i : ℕ)) := by
  unfold Spec.extendZero
  split_ifs
  · rfl
  · exact h _ (by omega)

theorem memVal_congr {v v' : ℕ → K} {n : ℕ} (h : ∀ t < n, v t = v' t) : B.memVal v n = B.memVal v' n := by
  unfold memVal
  simp only [extendZero_congr h]

/-- The memory integral used in iteration `n`. -/
def rmiAt (v : ℕ → K) (n : ℕ) : K := if 1 < n then B.memVal v n else 0

/-- The step taken in iteration `n`, from the rows before it. -/
def stepAt (noise xs vs : ℕ → K) (n : ℕ) : K × K × K :=
  B.rkStep (xs (n - 1)) (vs (n - 1)) (B.rmiAt vs n) (noise n) (if 1 < n then vs (n - 1) else 0)
    (if 1 < n then B.rmiAt vs (n - 1) else 0)

theorem rmiAt_congr {v v' : ℕ → K} {n : ℕ} (h : ∀ t < n, v t = v' t) :
    B.rmiAt v n = B.rmiAt v' n := by
  unfold rmiAt
  split_ifs
  · exact B.memVal_congr h
  · rfl

theorem stepAt_congr {noise noise' x x' v v' : ℕ → K} {n : ℕ} (h1 : 1 ≤ n) (hn : noise n = noise' n)
    (hx : ∀ t < n, x t = x' t) (h : ∀ t < n, v t = v' t) :
    B.stepAt noise x v n = B.stepAt noise' x' v' n := by
  unfold stepAt
  rw [B.rmiAt_congr h, hn, hx _ (by omega), h _ (by omega), B.rmiAt_congr (n := n - 1) fun t ht => h t (by omega)]

/-- What is known about the variables of the loop before iteration `n`. -/
structure Inv (noise : ℕ → K) (x0 v0 : K) (n : ℕ) (s : BgleState K) : Prop where
  hx : s.x = s.xs (n - 1)
  hv : s.v = s.vs (n - 1)
  hr : s.rmi = B.rmiAt s.vs (n - 1)
  hx0 : s.xs 0 = x0
  hv0 : s.vs 0 = v0
  hm0 : s.mem 0 = 0
  ha0 : s.a 0 = 0
  step : ∀ t, 1 ≤ t → t < n → (s.xs t, s.vs t, s.a t) = B.stepAt noise s.xs s.vs t
  mem : ∀ t, 1 ≤ t → t < n → s.mem t = B.rmiAt s.vs t

theorem body_inv (hT : 2 ≤ B.kernel.len) {noise : ℕ → K} {x0 v0 : K} {n : ℕ} (hn : 1 ≤ n) {s : BgleState K}
    (h : B.Inv noise x0 v0 n s) : ∃ s', B.body noise n s = .ok s' ∧ B.Inv noise x0 v0 (n + 1) s' := by
  have e : B.memoryOf n s = .ok (B.rmiAt s.vs n, if 1 < n then s.vs (n - 1) else 0, if 1 < n then B.rmiAt s.vs (n - 1) else 0) := by
    unfold memoryOf
    by_cases c : 1 < n
    · simp only [if_pos c, B.bgleMem_ok hT, bind, Except.bind, pure, Except.pure, rmiAt, h.hr]
    · simp only [if_neg c, rmiAt]
  unfold body
  simp only [e, bind, Except.bind, pure, Except.pure, if_neg (show ¬ B.kernel.len = 0 by omega)]
  refine ⟨_, rfl, ?_⟩
  have hst : B.rkStep s.x s.v (B.rmiAt s.vs n) (noise n) (if 1 < n then s.vs (n - 1) else 0) (if 1 < n then B.rmiAt s.vs (n - 1) else 0)
      = B.stepAt noise s.xs s.vs n := by rw [stepAt, h.hx, h.hv]
  rw [hst]
  have hv : ∀ a, ∀ t < n, s.vs t = Function.update s.vs n a t := fun a t ht => (Function.update_of_ne (by omega) ..).symm
  have hx : ∀ a, ∀ t < n, s.xs t = Function.update s.xs n a t := fun a t ht => (Function.update_of_ne (by omega) ..).symm
  refine ⟨?_, ?_, ?_, ?_, ?_, ?_, ?_, ?_, ?_⟩
  · simp
  · simp
  · exact B.rmiAt_congr (hv _)
  · dsimp only; rw [← hx _ 0 (by omega)]; exact h.hx0
  · dsimp only; rw [← hv _ 0 (by omega)]; exact h.hv0
  · dsimp only; rw [Function.update_of_ne (by omega)]; exact h.hm0
  · dsimp only; rw [Function.update_of_ne (by omega)]; exact h.ha0
  · intro t h1 ht
    rw [← B.stepAt_congr h1 rfl (fun u hu => hx _ u (by omega)) fun u hu => hv _ u (by omega)]
    rcases Nat.lt_or_ge t n with c | c
    · dsimp only
      rw [← hx _ t c, ← hv _ t c, Function.update_of_ne (by omega)]
      exact h.step t h1 c
    · obtain rfl : t = n := by omega
      simp
  · intro t h1 ht
    rw [← B.rmiAt_congr fun u hu => hv _ u (by omega)]
    rcases Nat.lt_or_ge t n with c | c
    · dsimp only
      rw [Function.update_of_ne (by omega)]
      exact h.mem t h1 c
    · obtain rfl : t = n := by omega
      simp

theorem loop_inv (hT : 2 ≤ B.kernel.len) {noise : ℕ → K} {x0 v0 : K} {s : BgleState K} (h : B.Inv noise x0 v0 1 s) {n : ℕ} (hn : 1 ≤ n) :
    ∃ s', forRangeE 1 n (B.body noise) s = .ok s' ∧ B.Inv noise x0 v0 n s' := by
  induction n, hn using Nat.le_induction with
  | base => exact ⟨s, forRangeE_self .., h⟩
  | succ n hn ih =>
    obtain ⟨s', e, hI⟩ := ih
    obtain ⟨s'', e', hI'⟩ := B.body_inv hT hn hI
    exact ⟨s'', by rw [forRangeE_succ hn, e]; exact e', hI'⟩

/-- What `integrate` returns. -/
structure IsTrj (nSteps : ℕ) (x0 v0 : K) (noise : ℕ → K) (trj : BgleTrj K) : Prop where
  hn : trj.n = nSteps
  hx0 : trj.x 0 = x0
  hv0 : trj.v 0 = v0
  hm0 : trj.mem 0 = 0
  ha0 : trj.a 0 = 0
  step : ∀ t, 1 ≤ t → t < nSteps → (trj.x t, trj.v t, trj.a t) = B.stepAt noise trj.x trj.v t
  mem : ∀ t, 1 ≤ t → t < nSteps → trj.mem t = B.rmiAt trj.v t
  time : ∀ t, trj.time t = t * B.dt

theorem integrate_ok (hT : 2 ≤ B.kernel.len) {nSteps : ℕ} (hn : 1 ≤ nSteps) (x0 v0 : K) (noise : ℕ → K) :
    ∃ trj, B.integrate nSteps (.numpy x0) v0 nSteps noise = .ok trj ∧ B.IsTrj nSteps x0 v0 noise trj := by
  obtain ⟨s, e, hI⟩ := B.loop_inv hT (noise := noise) (x0 := x0) (v0 := v0)
    (s := { x := x0, v := v0, rmi := 0, xs := Function.update 0 0 x0, vs := Function.update 0 0 v0, mem := 0, a := 0 })
    ⟨by simp, by simp, by simp [rmiAt], by simp, by simp, rfl, rfl, fun t _ _ => by omega, fun t _ _ => by omega⟩ hn
  unfold integrate
  simp only [ne_eq, not_true_eq_false, if_false, if_neg (show ¬ nSteps = 0 by omega), bind, Except.bind, pure, Except.pure, e]
  exact ⟨_, rfl, rfl, hI.hx0, hI.hv0, hI.hm0, hI.ha0, hI.step, hI.mem, fun _ => rfl⟩

theorem IsTrj.unique {B : Bgle K} {m n : ℕ} {x0 v0 : K} {noise noise' : ℕ → K} {trj trj' : BgleTrj K} (h : B.IsTrj m x0 v0 noise trj)
    (h' : B.IsTrj n x0 v0 noise' trj') (hmn : m ≤ n) (hn : ∀ t < m, noise t = noise' t) :
    ∀ t < m, trj.x t = trj'.x t ∧ trj.v t = trj'.v t := by
  intro t
  induction t using Nat.strong_induction_on with
  | h t ih =>
    intro ht
    rcases Nat.eq_zero_or_pos t with rfl | h1
    · rw [h.hx0, h.hv0, h'.hx0, h'.hv0]; exact ⟨rfl, rfl⟩
    · have e := h.step t h1 ht
      rw [B.stepAt_congr h1 (hn t ht) (fun u hu => (ih u hu (by omega)).1) fun u hu => (ih u hu (by omega)).2,
        ← h'.step t h1 (by omega)] at e
      exact ⟨congrArg (·.1) e, congrArg (·.2.1) e⟩

end Bgle

/-- The memory integrals of the two integrators agree when the first velocity is zero. -/
theorem toBgle_memVal {nB : ℕ} (I : Integrator K 1 nB 1 1) (hT : 2 ≤ I.kernel.len) {E : ℕ → Fin 1 → K} (h0 : E 0 = 0) {n : ℕ} (hn : 1 ≤ n) :
    I.memTail E n 0 = I.toBgle.memVal (fun t => E t 0) n := by
  unfold Integrator.memTail Bgle.memVal
  simp only [Integrator.toBgle, Pi.add_apply, Pi.smul_apply, smul_eq_mul, Finset.sum_apply, Matrix.vecMul, dotProduct, Fin.sum_univ_one,
    Fin.isValue]
  have hz : E 0 0 = 0 := by rw [h0]; rfl
  rcases Nat.lt_or_ge n (I.kernel.len - 1) with c | c
  · rw [min_eq_left c.le, Nat.sub_self, hz]
    have e1 : Spec.extendZero (fun t => E t 0) ((n : ℤ) - (1 + (I.kernel.len - 2) : ℕ)) = 0 := by
      rw [Spec.extendZero, if_pos (by omega)]
    rw [e1]
    have e2 : ∑ i ∈ range (I.kernel.len - 2), I.kernel.get (1 + i) 0 0 * Spec.extendZero (fun t => E t 0) ((n : ℤ) - (1 + i : ℕ)) =
        ∑ i ∈ range (n - 1), E (n - 1 - i) 0 * I.kernel.get (1 + i) 0 0 := by
      symm
      refine sum_subset_zero_on_sdiff (fun i hi => ?_) (fun i hi => ?_) fun i hi => ?_
      · have := mem_range.1 hi
        exact mem_range.2 (by omega)
      · rw [mem_sdiff, mem_range, mem_range] at hi
        unfold Spec.extendZero
        split_ifs with c'
        · simp
        · rw [show ((n : ℤ) - (1 + i : ℕ)).toNat = 0 by omega]
          change _ * E 0 0 = 0
          rw [hz, mul_zero]
      · have := mem_range.1 hi
        unfold Spec.extendZero
        rw [if_neg (by omega), show ((n : ℤ) - (1 + i : ℕ)).toNat = n - 1 - i by omega, mul_comm]
    rw [e2]
    ring
  · rw [min_eq_right c, show I.kernel.len - 1 - 1 = I.kernel.len - 2 by omega, show 1 + (I.kernel.len - 2) = I.kernel.len - 1 by omega]
    have e1 : ∀ i, i ≤ I.kernel.len - 1 → Spec.extendZero (fun t => E t 0) ((n : ℤ) - (i : ℕ)) = E (n - i) 0 := by
      intro i hi
      rw [Spec.extendZero, if_neg (by omega), show ((n : ℤ) - (i : ℕ)).toNat = n - i by omega]
    have e2 : ∑ i ∈ range (I.kernel.len - 2), I.kernel.get (1 + i) 0 0 * Spec.extendZero (fun t => E t 0) ((n : ℤ) - (1 + i : ℕ)) =
        ∑ i ∈ range (I.kernel.len - 2), E (n - 1 - i) 0 * I.kernel.get (1 + i) 0 0 := by
      refine sum_congr rfl fun i hi => ?_
      have := mem_range.1 hi
      rw [e1 (1 + i) (by omega), show n - (1 + i) = n - 1 - i by omega, mul_comm]
    rw [e1 _ le_rfl, e2]
    ring

/-- A step of the scalar integrator is a step of the general one. -/
theorem toBgle_rkStep [CharZero K] {nB : ℕ} (I : Integrator K 1 nB 1 1) (hv : I.vec = constVec) (hp : I.proj = 1) (x v rmi fr lastE lastRmi : Fin 1 → K) :
    (I.rkStep x v rmi fr lastE lastRmi).1 0 = (I.toBgle.rkStep (x 0) (v 0) (rmi 0) (fr 0) (lastE 0) (lastRmi 0)).1 ∧
    (I.rkStep x v rmi fr lastE lastRmi).2 0 = (I.toBgle.rkStep (x 0) (v 0) (rmi 0) (fr 0) (lastE 0) (lastRmi 0)).2.1 := by
  have hf : ∀ x v α, (I.fRk x v rmi fr α lastE lastRmi).1 0 = (I.toBgle.fRk (x 0) (v 0) (rmi 0) (fr 0) (1 - α) α (lastE 0) (lastRmi 0)).1 ∧
      (I.fRk x v rmi fr α lastE lastRmi).2 0 = (I.toBgle.fRk (x 0) (v 0) (rmi 0) (fr 0) (1 - α) α (lastE 0) (lastRmi 0)).2 := by
    intro x v α
    have hx : (fun _ => x 0 : Fin 1 → K) = x := by funext i; rw [Subsingleton.elim i 0]
    refine ⟨rfl, ?_⟩
    simp only [Integrator.fRk, Bgle.fRk, Bgle.dU, Integrator.toBgle, Integrator.E, hv, hp, constVec, Matrix.one_mulVec, Pi.add_apply, Pi.sub_apply,
      Pi.smul_apply, smul_eq_mul, hx]
    simp only [Matrix.vecMul, dotProduct, Fin.sum_univ_one, Fin.isValue]
    ring
  have h2 : (1 - 1 / 2 : K) = 1 / 2 := by ring
  unfold Integrator.rkStep Bgle.rkStep
  dsimp only
  simp only [Pi.add_apply, Pi.smul_apply, smul_eq_mul, hf, sub_self, sub_zero, h2]
  have e : I.toBgle.dt = I.dt := rfl
  have c : ∀ y : K, I.dt / 2 * y = y * I.dt / 2 := fun y => by ring
  have c' : ∀ y : K, I.dt * y = y * I.dt := fun y => by ring
  refine ⟨?_, ?_⟩
  · simp only [e, c, c']
    ring
  · simp only [e, c, c']
    ring

/-- **C119** Started at rest, the scalar integrator follows the trajectory of `Integrator_gle_const_kernel.run`. -/
theorem C119_at_rest [CharZero K] [DecidableEq K] {nB : ℕ} {I : Integrator K 1 nB 1 1} (hv : I.vec = constVec) (hp : I.proj = 1)
    (hT : 2 ≤ I.kernel.len) {nSteps : ℕ} (hn : 1 ≤ nSteps) (x0 : K) (noise : ℕ → K) {D : InitData K 1} (h1 : D.n = 1)
    (ht : D.time 0 = 0) (hx : D.x 0 = fun _ => x0) (hv0 : D.v 0 = 0) :
    ∃ trj trj', I.toBgle.integrate nSteps (.numpy x0) 0 nSteps noise = .ok trj ∧
      I.run nSteps (some D) (fun t _ => noise t) = .ok trj' ∧ trj.n = trj'.n ∧
      ∀ t < nSteps, trj.x t = trj'.x t 0 ∧ trj.v t = trj'.v t 0 ∧ trj.time t = trj'.time t := by
  obtain ⟨trj, h, hI⟩ := I.toBgle.integrate_ok hT hn x0 0 noise
  obtain ⟨trj', h'⟩ := I.run_ok (nSteps := nSteps) (x0 := some D) (fun t _ => noise t) hT (by simp [h1]) (by simpa [h1] using hn) (by
    rintro D' ⟨⟩ t htD
    rw [h1] at htD
    obtain rfl : t = 0 := by omega
    rw [ht]; simp)
  refine ⟨trj, trj', h, h', ?_⟩
  obtain ⟨e, htime, -, -, -, E, hI'⟩ := I.run_spec h'
  simp only [Option.map_some, Option.getD_some, h1] at hI' htime
  have hE : ∀ t < nSteps, E t = trj'.v t := by
    intro t htn
    have := hI'.hE t htn
    dsimp only at this
    rw [this, Integrator.E, hp, hv, constVec, Matrix.one_mulVec]
  have hx0' : trj'.x 0 = fun _ => x0 := by
    have := (hI'.init 0 (.inl (by omega))).1
    simpa [initRows, h1, hx] using this
  have hv0' : trj'.v 0 = 0 := by
    have := (hI'.init 0 (.inl (by omega))).2
    simpa [initRows, h1, hv0] using this
  have hE0 : E 0 = 0 := by rw [hE 0 (by omega), hv0']
  have key : ∀ t, t < nSteps → trj.x t = trj'.x t 0 ∧ trj.v t = trj'.v t 0 := by
    intro t
    induction t using Nat.strong_induction_on with
    | h t ih =>
      intro htn
      rcases Nat.eq_zero_or_pos t with rfl | h1t
      · rw [hI.hx0, hI.hv0, hx0', hv0']; exact ⟨rfl, rfl⟩
      have s1 := hI.step t h1t htn
      have s2 := hI'.step t h1t htn
      dsimp only at s2
      have hvE : ∀ u < t, trj.v u = (fun t => E t 0) u := fun u hu => by
        dsimp only
        rw [(ih u hu (by omega)).2, hE u (by omega)]
      have hr : ∀ m, m ≤ t → I.toBgle.rmiAt trj.v m = if 1 < m then I.memTail E m 0 else 0 := by
        intro m hm
        unfold Bgle.rmiAt
        split_ifs
        · rw [toBgle_memVal I hT hE0 (by omega)]
          exact I.toBgle.memVal_congr fun u hu => hvE u (by omega)
        · rfl
      have hr1 : I.toBgle.rmiAt trj.v t = I.memTail E t 0 := by
        rw [hr t le_rfl]
        split_ifs with c
        · rfl
        · obtain rfl : t = 1 := by omega
          have : min 1 (I.kernel.len - 1) = 1 := by omega
          simp [Integrator.memTail, this, hE0]
      have hr2 : (if 1 < t then I.toBgle.rmiAt trj.v (t - 1) else 0) =
          (if t = 1 then (0 : Fin 1 → K) else I.memTail E (t - 1)) 0 := by
        by_cases c : t = 1
        · rw [if_neg (by omega), if_pos c]; rfl
        · rw [if_pos (by omega), if_neg c, hr _ (by omega)]
          split_ifs with c'
          · rfl
          · have : min 1 (I.kernel.len - 1) = 1 := by omega
            simp [show t - 1 = 1 by omega, Integrator.memTail, this, hE0]
      have hl : (if 1 < t then trj.v (t - 1) else 0) = E (t - 1) 0 := by
        split_ifs with c
        · exact hvE _ (by omega)
        · rw [show t - 1 = 0 by omega, hE0]; rfl
      unfold Bgle.stepAt at s1
      rw [hr1, hr2, hl, (ih (t - 1) (by omega) (by omega)).1, (ih (t - 1) (by omega) (by omega)).2] at s1
      have s3 := toBgle_rkStep I hv hp (trj'.x (t - 1)) (trj'.v (t - 1)) (I.memTail E t) (fun _ => noise t) (E (t - 1))
        (if t = 1 then 0 else I.memTail E (t - 1))
      rw [← s2, ← s1] at s3
      exact ⟨s3.1.symm, s3.2.symm⟩
  refine ⟨by rw [e, hI.hn], fun t htn => ⟨(key t htn).1, (key t htn).2, ?_⟩⟩
  rw [hI.time, htime]
  simp [Integrator.toBgle]

/-- **C119** The increments of the velocity are the returned accelerations, and the returned memory is, with the
term at lag zero, the trapezoidal convolution of the velocities, extended by zero, from the second step on. -/
theorem C119_outputs [CharZero K] {B : Bgle K} (hT : 2 ≤ B.kernel.len) {nSteps : ℕ} {x0 v0 : K} {noise : ℕ → K} {trj : BgleTrj K}
    (h : B.integrate nSteps (.numpy x0) v0 nSteps noise = .ok trj) {t : ℕ} (h1 : 1 ≤ t) (ht : t < nSteps) :
    trj.v t = trj.v (t - 1) + B.dt * trj.a t ∧ (t = 1 → trj.mem t = 0) ∧
    (2 ≤ t → trj.mem t + 1 / 2 * B.kernel.get 0 * trj.v t * B.dt =
      Spec.trapzRule B.dt (fun j => B.kernel.get j * Spec.extendZero trj.v (t - j)) (B.kernel.len - 1)) := by
  obtain ⟨trj', h', hI⟩ := B.integrate_ok hT (show 1 ≤ nSteps by omega) x0 v0 noise
  rw [h] at h'
  cases h'
  have s := hI.step t h1 ht
  refine ⟨?_, ?_, fun h2 => ?_⟩
  · have e1 : trj.v t = _ := congrArg (·.2.1) s
    have e2 : trj.a t = _ := congrArg (·.2.2) s
    rw [e1, e2]
    unfold Bgle.stepAt Bgle.rkStep
    dsimp only
    ring
  · rintro rfl
    rw [hI.mem 1 le_rfl ht]; simp [Bgle.rmiAt]
  · obtain ⟨r, hr, hr'⟩ := C88_trapezoid hT B.dt trj.v t
    rw [B.bgleMem_ok hT] at hr
    cases hr
    rw [hI.mem t h1 ht, Bgle.rmiAt, if_pos (by omega), hr']

/-- **C119** A shorter run with the same noise is a prefix. -/
theorem C119_prefix {B : Bgle K} (hT : 2 ≤ B.kernel.len) {m n : ℕ} (h1 : 1 ≤ m) (hmn : m ≤ n) {x0 v0 : K} {noise noise' : ℕ → K}
    (hn : ∀ t < m, noise t = noise' t) :
    ∃ trj trj', B.integrate m (.numpy x0) v0 m noise = .ok trj ∧ B.integrate n (.numpy x0) v0 n noise' = .ok trj' ∧
      ∀ t < m, trj.x t = trj'.x t ∧ trj.v t = trj'.v t ∧ trj.time t = trj'.time t := by
  obtain ⟨trj, h, hI⟩ := B.integrate_ok hT h1 x0 v0 noise
  obtain ⟨trj', h', hI'⟩ := B.integrate_ok hT (h1.trans hmn) x0 v0 noise'
  exact ⟨trj, trj', h, h', fun t ht => ⟨(hI.unique hI' hmn hn t ht).1, (hI.unique hI' hmn hn t ht).2, by rw [hI.time, hI'.time]⟩⟩

/-- **C119** Without memory and noise, uniformly accelerated motion is integrated exactly. -/
theorem C119_constant_force [CharZero K] {B : Bgle K} (hT : 2 ≤ B.kernel.len) (hk : ∀ j < B.kernel.len, B.kernel.get j = 0) {f : K}
    (hf : ∀ x, B.force x = f) {nSteps : ℕ} (hn : 1 ≤ nSteps) (x0 v0 : K) :
    ∃ trj, B.integrate nSteps (.numpy x0) v0 nSteps 0 = .ok trj ∧
      ∀ t < nSteps, trj.x t = x0 + v0 * (t * B.dt) + f * (t * B.dt) ^ 2 / 2 ∧ trj.v t = v0 + f * (t * B.dt) := by
  obtain ⟨trj, h, hI⟩ := B.integrate_ok hT hn x0 v0 0
  refine ⟨trj, h, fun t => ?_⟩
  have hr : ∀ v n, B.rmiAt v n = 0 := by
    intro v n
    unfold Bgle.rmiAt Bgle.memVal
    split_ifs
    · rw [hk _ (by omega), sum_eq_zero fun i hi => by rw [hk _ (by have := mem_range.1 hi; omega), zero_mul]]
      ring
    · rfl
  induction t with
  | zero => intro _; rw [hI.hx0, hI.hv0]; simp
  | succ t ih =>
    intro htn
    obtain ⟨i1, i2⟩ := ih (by omega)
    have s := hI.step (t + 1) (by omega) htn
    have e0 : trj.x (t + 1) = _ := congrArg (·.1) s
    have e1 : trj.v (t + 1) = _ := congrArg (·.2.1) s
    rw [e0, e1]
    unfold Bgle.stepAt Bgle.rkStep Bgle.fRk Bgle.dU
    simp only [Nat.add_sub_cancel, hr, hf, hk 0 (by omega), i1, i2, Pi.zero_apply, ite_self, Nat.cast_add, Nat.cast_one]
    constructor
    · ring
    · ring

/-- C119: the default start value is a Python number, for which every run of more than one frame raises. -/
theorem C119_default_fails {B : Bgle K} (hT : 1 ≤ B.kernel.len) {nSteps : ℕ} (hn : 2 ≤ nSteps) (x0 v0 : K) (noise : ℕ → K) :
    B.integrate nSteps (.python x0) v0 nSteps noise = .error .attribute := by
  unfold Bgle.integrate
  simp only [ne_eq, not_true_eq_false, if_false, if_neg (show ¬ nSteps = 0 by omega), if_neg (show ¬ nSteps = 1 by omega),
    if_neg (show ¬ B.kernel.len = 0 by omega), bind, Except.bind, pure, Except.pure, throw, throwThe, MonadExceptOf.throw]

/-- **C119**: a kernel without points is an `IndexError`. -/
theorem C119_no_kernel {B : Bgle K} (hT : B.kernel.len = 0) {nSteps : ℕ} (hn : 2 ≤ nSteps) (x0 : Start K) (v0 : K) (noise : ℕ → K) :
    B.integrate nSteps x0 v0 nSteps noise = .error .index := by
  have e : ∀ s, forRangeE 1 nSteps (B.body noise) s = .error .index := by
    intro s
    induction nSteps, hn using Nat.le_induction with
    | base =>
      rw [forRangeE_succ le_rfl, forRangeE_self]
      simp [Bgle.body, Bgle.memoryOf, hT, bind, Except.bind, throw, throwThe, MonadExceptOf.throw]
    | succ n hn ih =>
      rw [forRangeE_succ (by omega), ih]
      rfl
  unfold Bgle.integrate
  cases x0 <;> simp only [ne_eq, not_true_eq_false, if_false, if_neg (show ¬ nSteps = 0 by omega), if_neg (show ¬ nSteps = 1 by omega), hT, if_true,
    bind, Except.bind, pure, Except.pure, throw, throwThe, MonadExceptOf.throw, e]

example := C119_no_kernel (B := (⟨fun x => -x, ⟨0, 0⟩, 1⟩ : Bgle ℚ)) rfl (nSteps := 2) le_rfl (.numpy 1) 0 0

end

/-- C119 is false when the first velocity is not zero: the first step of the scalar integrator leaves the memory of
that velocity out. -/
theorem C119_moving_fails : ∃ (I : Integrator ℚ 1 1 1 1) (D : InitData ℚ 1) (trj : BgleTrj ℚ) (trj' : Trj ℚ 1),
    I.vec = constVec ∧ I.proj = 1 ∧ D.n = 1 ∧ D.x 0 = (fun _ => 0) ∧ D.v 0 = (fun _ => 1) ∧
    I.toBgle.integrate 2 (.numpy 0) 1 2 0 = .ok trj ∧ I.run 2 (some D) 0 = .ok trj' ∧ trj.v 1 ≠ trj'.v 1 0 := by
  obtain ⟨trj', h'⟩ := exampleInt_runs 1 0 (n := 1) le_rfl (nSteps := 2) (by decide) 0
  obtain ⟨trj, h, hI⟩ := (exampleInt 1 0).toBgle.integrate_ok (le_refl 2) (nSteps := 2) (by decide) 0 1 0
  refine ⟨exampleInt 1 0, exampleInit 1, trj, trj', rfl, rfl, rfl, by funext i; simp [exampleInit], rfl, h, h', ?_⟩
  have hf := C66_first_step h' rfl (by decide)
  have h0 := (C67_initial h').2.1 _ rfl
  have hx := (h0.2 0 (by decide)).1
  have hv := (h0.2 0 (by decide)).2
  have e1 : trj.v 1 = _ := congrArg (·.2.1) (hI.step 1 le_rfl (by decide))
  have e2 : trj'.v 1 = _ := congrArg Prod.snd hf
  rw [e1, e2]
  simp [Spec.rk4, Spec.memory, Spec.trapzRule, history, hx, hv, exampleInt, exampleInit, constVec, Matrix.vecMul, dotProduct,
    Bgle.stepAt, Bgle.rkStep, Bgle.fRk, Bgle.dU, Bgle.rmiAt, Integrator.toBgle, hI.hx0, hI.hv0]
  norm_num

example := C119_at_rest (I := exampleInt 1 (-1)) rfl rfl (le_refl 2) (nSteps := 5) (by decide) 2 (fun t => (t : ℚ))
  (D := ⟨1, fun t => t * (1 / 2), fun _ _ => 2, 0⟩) rfl (by simp) rfl rfl
example := C119_outputs (B := (exampleInt 1 (-1)).toBgle) (le_refl 2)
  ((exampleInt 1 (-1)).toBgle.integrate_ok (le_refl 2) (nSteps := 5) (by decide) 1 1 0).choose_spec.1 (t := 3) (by decide) (by decide)
example := C119_prefix (B := (exampleInt 1 (-1)).toBgle) (le_refl 2) (m := 2) (n := 4) (by decide) (by decide) (x0 := 1) (v0 := 1)
  (noise := 1) (noise' := 1) fun _ _ => rfl
example := C119_constant_force (B := ⟨fun _ => (3 : ℚ), ⟨2, 0⟩, 1 / 2⟩) (le_refl 2) (fun _ _ => rfl) (fun _ => rfl) (nSteps := 3) (by decide) 1 1
example := C119_default_fails (B := (exampleInt 1 (-1)).toBgle) (by decide) (nSteps := 2) (by decide) 0 0 0

end Verif
