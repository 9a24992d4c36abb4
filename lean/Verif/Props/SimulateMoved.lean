import Verif.Props.Simulate
import Verif.Props.Covariant
import Verif.Props.BasisChange
import Mathlib.Tactic.Module

/-!
# Simulations in other coordinates, other units and another basis (C152)
-/

namespace Verif

set_option linter.unusedSectionVars false

open LArr Finset

universe u v

namespace Spec

variable {K : Type*} [Field K] {d : ℕ}

/-- The vector `R x`. -/
def moveVec (R : ℕ → ℕ → K) (x : Fin d → K) (i : Fin d) : K := ∑ j : Fin d, R i j * x j

/-- The initial data in the coordinates `R x`, with times multiplied by `c`. -/
def movedInit (R : ℕ → ℕ → K) (c : K) (D : InitData K d) : InitData K d where
  n := D.n
  time t := c * D.time t
  x t := moveVec R (D.x t)
  v t := moveVec (fun i j => R i j / c) (D.v t)

/-- A force, which is an acceleration, in the coordinates `R x`, with times multiplied by `c`. -/
def movedNoise (R : ℕ → ℕ → K) (c : K) (noise : ℕ → Fin d → K) (t : ℕ) : Fin d → K := moveVec (fun i j => R i j / c ^ 2) (noise t)

/-- The trajectory in the coordinates `R x`, with times multiplied by `c`. -/
def movedTrj (R : ℕ → ℕ → K) (c : K) (D : Trj K d) : Trj K d where
  n := D.n
  time t := c * D.time t
  x t := moveVec R (D.x t)
  v t := moveVec (fun i j => R i j / c) (D.v t)

end Spec

section
variable {K : Type*} [Field K] {d : ℕ}

/-- Both calls succeed with related results, or both fail with the same exception. -/
def ExRel {α β : Type*} (r : α → β → Prop) : Except Err α → Except Err β → Prop
  | .ok a, .ok b => r a b
  | .error e, .error e' => e = e'
  | _, _ => False

theorem ExRel.bind {α α' : Type u} {β β' : Type v} {r : α → β → Prop} {r' : α' → β' → Prop} {a : Except Err α} {b : Except Err β}
    {f : α → Except Err α'} {g : β → Except Err β'} (h : ExRel r a b) (h' : ∀ x y, r x y → ExRel r' (f x) (g y)) :
    ExRel r' (a >>= f) (b >>= g) := by
  cases a <;> cases b
  · exact h
  · exact h.elim
  · exact h.elim
  · exact h' _ _ h

theorem ExRel.foldlM {σ : Type u} {τ : Type v} {r : σ → τ → Prop} {f : σ → ℕ → Except Err σ} {g : τ → ℕ → Except Err τ}
    (h : ∀ i s t, r s t → ExRel r (f s i) (g t i)) :
    ∀ (l : List ℕ) s t, r s t → ExRel r (l.foldlM f s) (l.foldlM g t)
  | [], _, _, hr => hr
  | i :: l, s, t, hr => by
    rw [List.foldlM_cons, List.foldlM_cons]
    exact (h i s t hr).bind fun x y hxy => ExRel.foldlM h l x y hxy

variable {nB nD b nB' nD' b' : ℕ} {I : Integrator K d nB nD b} {I' : Integrator K d nB' nD' b'} {A : Matrix (Fin d) (Fin d) K} {q : K}

/-- The force and the memory of `I'` are those of `I`, in the coordinates `A x` and with velocities multiplied by `q`. -/
structure MovedIntegrator (A : Matrix (Fin d) (Fin d) K) (q : K) (I : Integrator K d nB nD b) (I' : Integrator K d nB' nD' b') :
    Prop where
  unit : q ≠ 0
  dt : I.dt = q * I'.dt
  len : I'.kernel.len = I.kernel.len
  force : ∀ y, Matrix.vecMul (I'.basis (A.mulVec y)) I'.forceCoeff = q ^ 2 • A.mulVec (Matrix.vecMul (I.basis y) I.forceCoeff)
  memory : ∀ y w t, Matrix.vecMul (I'.E (A.mulVec y) (q • A.mulVec w)) (I'.kernel.get t) =
    q ^ 3 • A.mulVec (Matrix.vecMul (I.E y w) (I.kernel.get t))

/-- The same for rows of `E`. -/
def MovedE (A : Matrix (Fin d) (Fin d) K) (q : K) (I : Integrator K d nB nD b) (I' : Integrator K d nB' nD' b') (E : Fin b → K)
    (E' : Fin b' → K) : Prop :=
  ∀ t, Matrix.vecMul E' (I'.kernel.get t) = q ^ 3 • A.mulVec (Matrix.vecMul E (I.kernel.get t))

theorem movedE_zero : MovedE A q I I' 0 0 := fun t => by simp

theorem MovedIntegrator.memIntRed (h : MovedIntegrator A q I I') {E : ℕ → Fin b → K} {E' : ℕ → Fin b' → K}
    (hE : ∀ t, MovedE A q I I' (E t) (E' t)) (n : ℕ) :
    ExRel (fun r r' => r' = q ^ 2 • A.mulVec r) (I.memIntRed E n) (I'.memIntRed E' n) := by
  unfold Integrator.memIntRed
  rw [h.len]
  split_ifs
  · rfl
  · simp only [ExRel, hE _ _, h.dt, Matrix.mulVec_add, Matrix.mulVec_smul, Matrix.mulVec_sum, ← Finset.smul_sum]
    module

theorem MovedIntegrator.fRk (h : MovedIntegrator A q I I') {x v rmi fr lastRmi : Fin d → K} {lastE : Fin b → K} {lastE' : Fin b' → K}
    (hE : MovedE A q I I' lastE lastE') (alpha : K) :
    I'.fRk (A.mulVec x) (q • A.mulVec v) (q ^ 2 • A.mulVec rmi) (q ^ 2 • A.mulVec fr) alpha lastE' (q ^ 2 • A.mulVec lastRmi) =
      (q • A.mulVec (I.fRk x v rmi fr alpha lastE lastRmi).1, q ^ 2 • A.mulVec (I.fRk x v rmi fr alpha lastE lastRmi).2) := by
  refine Prod.ext rfl ?_
  simp only [Integrator.fRk, hE _, h.memory, h.force, h.dt, Matrix.mulVec_add, Matrix.mulVec_smul, Matrix.mulVec_sub]
  module

theorem MovedIntegrator.rkStep (h : MovedIntegrator A q I I') {x v rmi fr lastRmi : Fin d → K} {lastE : Fin b → K} {lastE' : Fin b' → K}
    (hE : MovedE A q I I' lastE lastE') :
    I'.rkStep (A.mulVec x) (q • A.mulVec v) (q ^ 2 • A.mulVec rmi) (q ^ 2 • A.mulVec fr) lastE' (q ^ 2 • A.mulVec lastRmi) =
      (A.mulVec (I.rkStep x v rmi fr lastE lastRmi).1, q • A.mulVec (I.rkStep x v rmi fr lastE lastRmi).2) := by
  have hx : ∀ (s : K) (x k : Fin d → K), A.mulVec x + (s * I'.dt) • q • A.mulVec k = A.mulVec (x + (s * I.dt) • k) := fun s x k => by
    rw [h.dt, Matrix.mulVec_add, Matrix.mulVec_smul]
    module
  have hv : ∀ (s : K) (x k : Fin d → K), q • A.mulVec x + (s * I'.dt) • q ^ 2 • A.mulVec k = q • A.mulVec (x + (s * I.dt) • k) :=
    fun s x k => by
      rw [h.dt, Matrix.mulVec_add, Matrix.mulVec_smul]
      module
  have e2 : ∀ z : K, z / 2 = 1 / 2 * z := fun z => by ring
  have e6 : ∀ z : K, z / 6 = 1 / 6 * z := fun z => by ring
  have e1 : ∀ z : K, z = 1 * z := fun z => by ring
  unfold Integrator.rkStep
  rw [e2 I.dt, e2 I'.dt, e6 I.dt, e6 I'.dt]
  have k1 := h.fRk (x := x) (v := v) (rmi := rmi) (fr := fr) (lastRmi := lastRmi) hE 1
  obtain ⟨a1, ha1⟩ : ∃ a, a = I.fRk x v rmi fr 1 lastE lastRmi := ⟨_, rfl⟩
  rw [← ha1] at k1
  have k2 := h.fRk (x := x + (1 / 2 * I.dt) • a1.1) (v := v + (1 / 2 * I.dt) • a1.2) (rmi := rmi) (fr := fr) (lastRmi := lastRmi)
    hE (1 / 2)
  obtain ⟨a2, ha2⟩ : ∃ a, a = I.fRk (x + (1 / 2 * I.dt) • a1.1) (v + (1 / 2 * I.dt) • a1.2) rmi fr (1 / 2) lastE lastRmi := ⟨_, rfl⟩
  rw [← ha2] at k2
  have k3 := h.fRk (x := x + (1 / 2 * I.dt) • a2.1) (v := v + (1 / 2 * I.dt) • a2.2) (rmi := rmi) (fr := fr) (lastRmi := lastRmi)
    hE (1 / 2)
  obtain ⟨a3, ha3⟩ : ∃ a, a = I.fRk (x + (1 / 2 * I.dt) • a2.1) (v + (1 / 2 * I.dt) • a2.2) rmi fr (1 / 2) lastE lastRmi := ⟨_, rfl⟩
  rw [← ha3] at k3
  have k4 := h.fRk (x := x + (1 * I.dt) • a3.1) (v := v + (1 * I.dt) • a3.2) (rmi := rmi) (fr := fr) (lastRmi := lastRmi)
    hE 0
  rw [one_mul] at k4
  obtain ⟨a4, ha4⟩ : ∃ a, a = I.fRk (x + I.dt • a3.1) (v + I.dt • a3.2) rmi fr 0 lastE lastRmi := ⟨_, rfl⟩
  rw [← ha4] at k4
  have hx1 := fun x k => hx 1 x k
  have hv1 := fun x k => hv 1 x k
  simp only [one_mul] at hx1 hv1
  simp only [k1, hx, hv, k2, k3, hx1, hv1, k4, ← ha1, ← ha2, ← ha3, ← ha4]
  refine Prod.ext ?_ ?_
  · simp only [h.dt, Matrix.mulVec_add, Matrix.mulVec_smul]
    module
  · simp only [h.dt, Matrix.mulVec_add, Matrix.mulVec_smul]
    module

/-- The relation between the variables of the loops. -/
structure MovedState (A : Matrix (Fin d) (Fin d) K) (q : K) (I : Integrator K d nB nD b) (I' : Integrator K d nB' nD' b')
    (s : RunState K d b) (s' : RunState K d b') : Prop where
  x : s'.x = A.mulVec s.x
  v : s'.v = q • A.mulVec s.v
  rmi : s'.rmi = q ^ 2 • A.mulVec s.rmi
  xs : ∀ t, s'.xs t = A.mulVec (s.xs t)
  vs : ∀ t, s'.vs t = q • A.mulVec (s.vs t)
  E : ∀ t, MovedE A q I I' (s.E t) (s'.E t)

theorem MovedIntegrator.runStep (h : MovedIntegrator A q I I') {noise noise' : ℕ → Fin d → K}
    (hn : ∀ t, noise' t = q ^ 2 • A.mulVec (noise t)) (ind : ℕ) (s : RunState K d b) (s' : RunState K d b')
    (hs : MovedState A q I I' s s') : ExRel (MovedState A q I I') (I.runStep noise ind s) (I'.runStep noise' ind s') := by
  unfold Integrator.runStep
  refine (h.memIntRed hs.E ind).bind fun r r' hr => ?_
  subst hr
  have hst := h.rkStep (x := s.x) (v := s.v) (rmi := r) (fr := noise ind) (lastRmi := s.rmi) (hs.E (ind - 1))
  rw [← hs.x, ← hs.v, ← hs.rmi, ← hn] at hst
  have h1 := congrArg Prod.fst hst
  have h2 := congrArg Prod.snd hst
  dsimp only at h1 h2
  refine ⟨h1, h2, rfl, fun t => ?_, fun t => ?_, fun t => ?_⟩
  · by_cases ht : t = ind
    · subst ht; simp only [Function.update_self]; exact h1
    · simp only [Function.update_of_ne ht]; exact hs.xs t
  · by_cases ht : t = ind
    · subst ht; simp only [Function.update_self]; exact h2
    · simp only [Function.update_of_ne ht]; exact hs.vs t
  · by_cases ht : t = ind
    · subst ht
      simp only [Function.update_self]
      intro j
      rw [h1, h2]
      exact h.memory _ _ j
    · simp only [Function.update_of_ne ht]; exact hs.E t

/-- `run` in other coordinates and units. -/
theorem MovedIntegrator.run [DecidableEq K] (h : MovedIntegrator A q I I') {noise noise' : ℕ → Fin d → K}
    (hn : ∀ t, noise' t = q ^ 2 • A.mulVec (noise t)) (nSteps : ℕ) {x0 x0' : Option (InitData K d)}
    (hx : x0' = x0.map fun D => ⟨D.n, fun t => q⁻¹ * D.time t, fun t => A.mulVec (D.x t), fun t => q • A.mulVec (D.v t)⟩) :
    ExRel (fun D D' => D'.n = D.n ∧ (∀ t, D'.time t = q⁻¹ * D.time t) ∧ (∀ t, D'.x t = A.mulVec (D.x t)) ∧
      ∀ t, D'.v t = q • A.mulVec (D.v t)) (I.run nSteps x0 noise) (I'.run nSteps x0' noise') := by
  have hdt : I'.dt = q⁻¹ * I.dt := by rw [h.dt, inv_mul_cancel_left₀ h.unit]
  have hn0 : (x0'.map (·.n)).getD 1 = (x0.map (·.n)).getD 1 := by subst hx; cases x0 <;> rfl
  have hxs : ∀ t, initRows x0' (·.x) t = A.mulVec (initRows x0 (·.x) t) := fun t => by
    subst hx
    cases x0 with
    | none => simp [initRows]
    | some D => simp only [initRows, Option.map_some]; split_ifs <;> simp
  have hvs : ∀ t, initRows x0' (·.v) t = q • A.mulVec (initRows x0 (·.v) t) := fun t => by
    subst hx
    cases x0 with
    | none => simp [initRows]
    | some D => simp only [initRows, Option.map_some]; split_ifs <;> simp
  have htime : (x0'.map fun D => (List.range D.n).all fun t => decide (D.time t = t * I'.dt)) =
      (x0.map fun D => (List.range D.n).all fun t => decide (D.time t = t * I.dt)) := by
    subst hx
    cases x0 with
    | none => rfl
    | some D =>
      simp only [Option.map_some]
      congr 2
      funext t
      refine decide_eq_decide.2 ?_
      rw [hdt, mul_left_comm]
      exact mul_right_inj' (inv_ne_zero h.unit)
  unfold Integrator.run
  rw [hn0, htime]
  dsimp only
  obtain ⟨n0, en0⟩ : ∃ n0, n0 = (x0.map (·.n)).getD 1 := ⟨_, rfl⟩
  rw [← en0]
  split_ifs
  · rfl
  · rfl
  · rfl
  · have hE : ∀ t, MovedE A q I I' (if t < n0 then I.E (initRows x0 (·.x) t) (initRows x0 (·.v) t) else 0)
        (if t < n0 then I'.E (initRows x0' (·.x) t) (initRows x0' (·.v) t) else 0) := fun t => by
      split_ifs
      · intro j
        rw [hxs, hvs]
        exact h.memory _ _ j
      · exact movedE_zero
    have hr : ExRel (fun r r' => r' = q ^ 2 • A.mulVec r)
        (I.firstRmi (fun t => if t < n0 then I.E (initRows x0 (·.x) t) (initRows x0 (·.v) t) else 0) n0)
        (I'.firstRmi (fun t => if t < n0 then I'.E (initRows x0' (·.x) t) (initRows x0' (·.v) t) else 0) n0) := by
      unfold Integrator.firstRmi
      split_ifs
      · exact h.memIntRed hE _
      · simp [ExRel]
    refine hr.bind fun r r' hrr => ?_
    refine ExRel.bind (r := MovedState A q I I') ?_ fun s s' hs => ?_
    · refine ExRel.foldlM (fun i s t hst => h.runStep hn i s t hst) _ _ _ ⟨?_, ?_, hrr, hxs, hvs, hE⟩
      · exact hxs _
      · exact hvs _
    · exact ⟨rfl, fun t => by rw [hdt]; ring, hs.xs, hs.vs⟩

end

/-! ### Models -/

namespace Spec

variable {K : Type*} [Field K]

/-- The model `s'` evaluates the force and the kernel of `s` in the coordinates `R x`, of which there are `n`, and with times
multiplied by `c`: the force is an acceleration, and the kernel maps velocities to accelerations per unit of time. -/
structure MovedModel (n : ℕ) (R : ℕ → ℕ → K) (c : K) (s s' : ModelState K) : Prop where
  unit : c ≠ 0
  dt : s'.dt = c * s.dt
  truncInd : s'.truncInd = s.truncInd
  len : ∃ b x k b' x' k', s.kernel = some ⟨b, x, k⟩ ∧ s'.kernel = some ⟨b', x', k'⟩ ∧ k'.kernel.len = k.kernel.len
  force : ∀ y : Fin n → K, ∃ F F', forceEval s none 1 (fun _ => point y) = .ok F ∧
    forceEval s' none 1 (fun _ => point (moveVec R y)) = .ok F' ∧ ∀ l : Fin n, F'.get 0 l = ∑ j : Fin n, R l j / c ^ 2 * F.get 0 j
  kernel : ∀ y : Fin n → K, ∃ G G', kernelEvalAt s 1 (fun _ => point y) = .ok G ∧
    kernelEvalAt s' 1 (fun _ => point (moveVec R y)) = .ok G' ∧ ∀ t, ∀ l j : Fin n,
    ∑ i : Fin n, G' t l 0 i * R i j = ∑ i : Fin n, R l i / c ^ 2 * G t i 0 j

end Spec

section
variable {K : Type*} [Field K]

theorem moveVec_eq {d : ℕ} (R : ℕ → ℕ → K) (x : Fin d → K) :
    Spec.moveVec R x = (Matrix.of fun i j : Fin d => R i j).mulVec x := rfl

theorem moveVec_div {d : ℕ} (R : ℕ → ℕ → K) (c : K) (x : Fin d → K) :
    Spec.moveVec (fun i j => R i j / c) x = c⁻¹ • (Matrix.of fun i j : Fin d => R i j).mulVec x := by
  funext i
  simp only [Spec.moveVec, Pi.smul_apply, Matrix.mulVec, dotProduct, Matrix.of_apply, smul_eq_mul, mul_sum]
  exact sum_congr rfl fun j _ => by ring

variable [DecidableEq K]

/-- `simulate_integrator`, with the number of coordinates given. -/
theorem simulate_integrator_of {s : ModelState K} {c : LArr K} {d : String} {b : ℕ} {r : KernelData K b s.bm.dimObs}
    (h : Estimated s c d r) {cls : IntegratorClass} (hm : Spec.Meant s.bm.cls cls) (trunc : Option ℕ) {n : ℕ} (hn : s.bm.dimObs = n) :
    ∃ (nB nD : ℕ) (I : Integrator K n nB nD b), Spec.Simulates s (min (trunc.getD s.truncInd) r.kernel.len) I ∧
      ∀ nSteps x0 noise, simulate s cls trunc nSteps x0 noise = I.run nSteps x0 noise := by
  subst hn
  exact C149_simulates_partial h hm trunc

/-- **C152.** If a model evaluates the force and the kernel of another in other coordinates and units, then its simulations are those
of the other in these coordinates and units. -/
theorem C152_simulation {s s' : ModelState K} {f f' : LArr K} {d d' : String} {b b' : ℕ} {r : KernelData K b s.bm.dimObs}
    {r' : KernelData K b' s'.bm.dimObs} (hs : Estimated s f d r) (hs' : Estimated s' f' d' r') {cls cls' : IntegratorClass}
    (hm : Spec.Meant s.bm.cls cls) (hm' : Spec.Meant s'.bm.cls cls') {n : ℕ} (hn : s.bm.dimObs = n) (hn' : s'.bm.dimObs = n)
    {R : ℕ → ℕ → K} {c : K} (h : Spec.MovedModel n R c s s') (trunc : Option ℕ) (nSteps : ℕ) (x0 : Option (InitData K n))
    (noise : ℕ → Fin n → K) :
    simulate s' cls' trunc nSteps (x0.map (Spec.movedInit R c)) (Spec.movedNoise R c noise) =
      (simulate s cls trunc nSteps x0 noise).map (Spec.movedTrj R c) := by
  obtain ⟨nB, nD, I, sim, hI⟩ := simulate_integrator_of hs hm trunc hn
  obtain ⟨nB', nD', I', sim', hI'⟩ := simulate_integrator_of hs' hm' trunc hn'
  have hc := h.unit
  have hlen : r'.kernel.len = r.kernel.len := by
    obtain ⟨_, _, k, _, _, k', e, e', e1⟩ := h.len
    rw [hs.kernel] at e
    rw [hs'.kernel] at e'
    cases e
    cases e'
    exact e1
  obtain ⟨A, hA⟩ : ∃ A : Matrix (Fin n) (Fin n) K, A = Matrix.of fun i j : Fin n => R i j := ⟨_, rfl⟩
  have hmv : ∀ x : Fin n → K, A.mulVec x = Spec.moveVec R x := fun x => by rw [hA]; rfl
  have M : MovedIntegrator A c⁻¹ I I' := by
    refine ⟨inv_ne_zero hc, ?_, ?_, fun y => ?_, fun y w t => ?_⟩
    · rw [sim.dt, sim'.dt, h.dt, inv_mul_cancel_left₀ hc]
    · rw [sim.len, sim'.len, hlen, h.truncInd]
    · obtain ⟨F, F', e, e', hF⟩ := h.force y
      obtain ⟨G, g, hG⟩ := sim.force y
      obtain ⟨G', g', hG'⟩ := sim'.force (A.mulVec y)
      rw [hmv] at g'
      obtain rfl := Except.ok.inj (e.symm.trans g)
      obtain rfl := Except.ok.inj (e'.symm.trans g')
      funext l
      rw [← hG' l, hF l, Pi.smul_apply, hA]
      simp only [Matrix.mulVec, dotProduct, Matrix.of_apply, smul_eq_mul, mul_sum, ← hG]
      exact sum_congr rfl fun j _ => by field_simp
    · obtain ⟨G, G', e, e', hG⟩ := h.kernel y
      obtain ⟨H, g, hH⟩ := sim.memory y w
      obtain ⟨H', g', hH'⟩ := sim'.memory (A.mulVec y) (c⁻¹ • A.mulVec w)
      rw [hmv] at g'
      obtain rfl := Except.ok.inj (e.symm.trans g)
      obtain rfl := Except.ok.inj (e'.symm.trans g')
      funext l
      unfold Integrator.E
      rw [hH', Pi.smul_apply]
      have hr : (A.mulVec (Matrix.vecMul (I.proj.mulVec (I.vec y w)) (I.kernel.get t))) l =
          ∑ i : Fin n, R l i * ∑ j : Fin n, G t i 0 j * w j := by
        rw [hA]
        simp only [Matrix.mulVec, dotProduct, Matrix.of_apply]
        refine sum_congr rfl fun i _ => ?_
        rw [← hH t i]
      rw [hr]
      have hl : ∑ i : Fin n, G' t l 0 i * (c⁻¹ • A.mulVec w) i = c⁻¹ * ∑ j : Fin n, (∑ i : Fin n, G' t l 0 i * R i j) * w j := by
        rw [hA]
        simp only [Matrix.mulVec, dotProduct, Matrix.of_apply, Pi.smul_apply, smul_eq_mul, mul_sum, sum_mul]
        rw [sum_comm]
        exact sum_congr rfl fun i _ => sum_congr rfl fun j _ => by ring
      rw [hl]
      simp only [hG, mul_sum, sum_mul, smul_eq_mul]
      rw [sum_comm]
      exact sum_congr rfl fun i _ => sum_congr rfl fun j _ => by field_simp
  rw [hI, hI']
  have key := M.run (noise := noise) (noise' := Spec.movedNoise R c noise) (fun t => ?_) nSteps (x0 := x0)
    (x0' := x0.map (Spec.movedInit R c)) ?_
  · rcases e1 : I.run nSteps x0 noise with er | D
    · rcases e2 : I'.run nSteps (x0.map (Spec.movedInit R c)) (Spec.movedNoise R c noise) with er' | D'
      · rw [e1, e2] at key
        rw [show er = er' from key]
        rfl
      · rw [e1, e2] at key
        exact key.elim
    · rcases e2 : I'.run nSteps (x0.map (Spec.movedInit R c)) (Spec.movedNoise R c noise) with er' | D'
      · rw [e1, e2] at key
        exact key.elim
      · rw [e1, e2] at key
        obtain ⟨k1, k2, k3, k4⟩ := key
        obtain ⟨n', t', x', v'⟩ := D'
        dsimp only at k1 k2 k3 k4
        refine congrArg Except.ok ?_
        unfold Spec.movedTrj
        rw [Trj.mk.injEq]
        refine ⟨k1, funext fun t => ?_, funext fun t => ?_, funext fun t => ?_⟩
        · rw [k2, inv_inv]
        · rw [k3, hmv]
        · rw [k4, moveVec_div, hA]
  · unfold Spec.movedNoise
    rw [moveVec_div, hA, inv_pow]
  · congr 1
    funext D
    unfold Spec.movedInit
    rw [InitData.mk.injEq]
    refine ⟨rfl, funext fun t => ?_, funext fun t => ?_, funext fun t => ?_⟩
    · rw [inv_inv]
    · rw [hmv]
    · rw [moveVec_div, hA]

end

/-! ### Estimate, then simulate -/

section
variable {K : Type*} [Field K] [LinearOrder K] {R R' : ℕ → ℕ → K} {c : K} {d : String}

/-- The model after the three steps of an estimation without projection. -/
theorem estimated_of_setup [CharZero K] {env : Env K} {method km : String} {vectorize : Bool} {rankTol : Option K} {s s1 s2 s3 : EstState K}
    (hs : Setup env method vectorize s.model.bm d s) (hd : s.model.bm.dimx = s.model.bm.dimObs)
    (h1 : computeMeanForce env s = (s1, none)) (h2 : computeCorrs env method vectorize true rankTol s1 = (s2, none))
    (h3 : computeKernelStep km (fun _ _ => none) s2 = (s3, none)) :
    s3.model.bm = s.model.bm ∧ s3.model.dt = s.model.dt ∧ s3.model.truncInd = s.model.truncInd ∧
      ∃ (f : LArr K) (b : ℕ) (r : KernelData K b s3.model.bm.dimObs), Estimated s3.model f d r := by
  have hpos : ∀ xva ∈ s.xvas, 1 ≤ xva.n := fun xva hx => hs.tpos.trans (hs.tle xva hx)
  obtain ⟨f, hc, c1, c2, -, -⟩ := computeMeanForce_ok hs.loop hs.wf hs.obs hs.ne hpos h1
  obtain ⟨e1, e2, e3, e4, e5, e6, -⟩ := computeMeanForce_frame h1
  obtain ⟨f1, f2, f3, f4, f5⟩ := computeCorrs_frame h2
  obtain ⟨g1, g2, g3, g4, g5⟩ := computeKernelStep_frame h3
  have hbm : s3.model.bm = s.model.bm := by rw [g1, f1, e2]
  have r : CorrReady env method vectorize s1 d s.model.bm.dimObs f :=
    ⟨hs.loop, hs.fn, by rw [e2]; exact hs.wf, by rw [e1, e3]; exact hs.obs, hs.dim, by rw [e1, e2]; exact hs.dimx, hc, c1,
    by rw [e2]; exact c2, by rw [e2]; exact hs.npos, hs.xpos, by rw [e5]; exact hs.tpos, by rw [e1, e5]; exact hs.tle,
    by rw [e1]; exact hs.ne⟩
  obtain ⟨C, hC, a1, a2, -⟩ := computeCorrs_true (rankTol := rankTol) r (e6.trans hs.noProj) (b := Spec.nCorr s.model.bm) (by rw [e2])
  rw [h2] at hC
  obtain rfl : s2 = { s1 with corrs := some C } := (Prod.mk.inj hC).1
  obtain ⟨C0, ⟨b, x, k⟩, hC0, hs3, hk, hb, hx⟩ := C42_method_recorded h3
  obtain rfl : C = C0 := Option.some.inj hC0
  dsimp only at hk hb hx
  rw [a1] at hb
  rw [a2] at hx
  have hx' : x = s3.model.bm.dimObs := by rw [hbm, hx]
  have hker : s3.model.kernel = some ⟨b, x, k⟩ := by rw [hs3]
  subst hx'
  refine ⟨hbm, by rw [g2, f2, e4], by rw [g3, f3, e5], f, b, k,
    ⟨⟨by rw [g5, f5, hc], c1, by rw [hbm]; exact c2, hs.obs.1, hs.obs.2.1⟩, by rw [hbm]; exact hs.wf, hker,
      by rw [hbm]; exact hd, fun _ => by rw [hbm, hb], fun h => ?_⟩⟩
  rw [g4, f4, e6, hs.noProj] at h
  cases h

theorem moved_point {n m : ℕ} (h : m = n) (y : Fin n → K) : Spec.Moved m R (point y) (point (Spec.moveVec R y)) := by
  subst h
  intro i hi
  rw [Finset.sum_range]
  simp only [point, dif_pos hi, Spec.moveVec, Fin.is_lt, dite_true]

/-- Two models that evaluate the same force and kernel in other coordinates and units, in the sense of C144. -/
theorem moved_of_covariant {bm : BasisModel K} {m m' : ModelState K} (h : Spec.Covariant R R' (fun i j => R i j / c ^ 2) c bm m m')
    (hc : c ≠ 0) (hinv : Spec.IsInv bm.dimx R R') (hdt : m'.dt = c * m.dt) (htr : m'.truncInd = m.truncInd)
    {cls : IntegratorClass} (hm : Spec.Meant bm.cls cls) {n : ℕ} (hd : bm.dimx = n) (hn : bm.dimObs = n) :
    Spec.MovedModel n R c m m' := by
  have hvel : Spec.kernelOfVelocity bm.cls = true := by rcases hm with ⟨e, -⟩ | ⟨e, -⟩ <;> rw [e] <;> rfl
  refine ⟨hc, hdt, htr, ?_, fun y => ?_, fun y => ?_⟩
  · obtain ⟨b, x, k, k', e, e', -, -, e3⟩ := h.kernel
    exact ⟨b, x, k, b, x, k', e, e', e3⟩
  · have hF := h.force 1 (fun _ => point y) (fun _ => point (Spec.moveVec R y)) fun _ => moved_point hd y
    rw [hn] at hF
    obtain ⟨F, F', e, e', -, -, hF⟩ := hF
    exact ⟨F, F', e, e', fun l => (hF 0 l l.2).trans (Finset.sum_range _)⟩
  · have hG := h.eval (fun e => by rcases hm with ⟨e', -⟩ | ⟨e', -⟩ <;> rw [e'] at e <;> cases e)
      (fun _ => hn.trans hd.symm) 1 (fun _ => point y) (fun _ => point (Spec.moveVec R y)) fun _ => moved_point hd y
    rw [hn] at hG
    obtain ⟨G, G', e, e', hG⟩ := hG
    refine ⟨G, G', e, e', fun t l j => ?_⟩
    rw [hd] at hinv hG
    have e1 : ∀ i : Fin n, G' t l 0 i = ∑ q : Fin n, R l q / c ^ 2 * ∑ e : Fin n, G t q 0 e * R' e i := fun i => by
      rw [hG t l l.2 0 i i.2, if_pos hvel, Finset.sum_range]
      refine sum_congr rfl fun q _ => ?_
      rw [Finset.sum_range]
    have e2 : ∀ e : Fin n, ∑ i : Fin n, R' e i * R i j = if e = j then 1 else 0 := fun e => by
      have := IsInv_symm hinv e e.2 j j.2
      rw [Finset.sum_range] at this
      rw [this]
      simp only [Fin.ext_iff]
    simp only [e1, sum_mul]
    rw [sum_comm]
    refine sum_congr rfl fun q _ => ?_
    have e3 : ∀ i : Fin n, R l q / c ^ 2 * (∑ e : Fin n, G t q 0 e * R' e i) * R i j =
        ∑ e : Fin n, R l q / c ^ 2 * G t q 0 e * (R' e i * R i j) := fun i => by
      rw [mul_sum, sum_mul]
      exact sum_congr rfl fun _ _ => by ring
    simp only [e3]
    rw [sum_comm]
    simp only [← mul_sum, e2, mul_ite, mul_one, mul_zero, Finset.sum_ite_eq', mem_univ, if_true]

/-- Both estimations succeed, and the second model evaluates the force and the kernel of the first. -/
theorem moved_of_data [CharZero K] {env : Env K} {method : String} {vectorize : Bool} {s s' : EstState K}
    (hs : Setup env method vectorize s.model.bm d s) (hs' : Setup env method vectorize s'.model.bm d s')
    (h : MovedData R R' (fun i j => R i j / c ^ 2) c s s') {cls : IntegratorClass} (hm : Spec.Meant s.model.bm.cls cls)
    (hd : s.model.bm.dimx = s.model.bm.dimObs) {rankTol : Option K} {km : String} {s1 s2 s3 : EstState K}
    (h1 : computeMeanForce env s = (s1, none)) (h2 : computeCorrs env method vectorize true rankTol s1 = (s2, none))
    (h3 : computeKernelStep km (fun _ _ => none) s2 = (s3, none)) :
    ∃ s1' s2' s3', computeMeanForce env s' = (s1', none) ∧
      computeCorrs env method vectorize true rankTol s1' = (s2', none) ∧
      computeKernelStep km (fun _ _ => none) s2' = (s3', none) ∧ s3.model.bm = s.model.bm ∧ s3'.model.bm = s'.model.bm ∧
      (∃ (f : LArr K) (b : ℕ) (r : KernelData K b s3.model.bm.dimObs), Estimated s3.model f d r) ∧
      (∃ (f : LArr K) (b : ℕ) (r : KernelData K b s3'.model.bm.dimObs), Estimated s3'.model f d r) ∧
      Spec.MovedModel s.model.bm.dimObs R c s3.model s3'.model := by
  obtain ⟨s1', s2', s3', h1', h2', h3', cov⟩ := C144_covariant hs hs' h h1 h2 h3
  have hd' : s'.model.bm.dimx = s'.model.bm.dimObs := by rw [h.basis.dimx, h.basis.dimObs, hd]
  obtain ⟨a1, a2, a3, hE⟩ := estimated_of_setup hs hd h1 h2 h3
  obtain ⟨a1', a2', a3', hE'⟩ := estimated_of_setup hs' hd' h1' h2' h3'
  exact ⟨s1', s2', s3', h1', h2', h3', a1, a1', hE, hE', moved_of_covariant cov h.unit h.basis.inv (by rw [a2, a2', h.dt])
    (by rw [a3, a3', h.truncInd]) hm hd rfl⟩

/-- **C152**, from the data: the model estimated from the trajectories in other coordinates and units, with the same functions,
has the simulations of the model estimated from the trajectories, in these coordinates and units. -/
theorem C152_estimated [CharZero K] {env : Env K} {method : String} {vectorize : Bool} {s s' : EstState K}
    (hs : Setup env method vectorize s.model.bm d s) (hs' : Setup env method vectorize s'.model.bm d s')
    (h : MovedData R R' (fun i j => R i j / c ^ 2) c s s') {cls : IntegratorClass} (hm : Spec.Meant s.model.bm.cls cls)
    (hd : s.model.bm.dimx = s.model.bm.dimObs) {rankTol : Option K} {km : String} {s1 s2 s3 : EstState K}
    (h1 : computeMeanForce env s = (s1, none)) (h2 : computeCorrs env method vectorize true rankTol s1 = (s2, none))
    (h3 : computeKernelStep km (fun _ _ => none) s2 = (s3, none)) :
    ∃ s1' s2' s3', computeMeanForce env s' = (s1', none) ∧
      computeCorrs env method vectorize true rankTol s1' = (s2', none) ∧
      computeKernelStep km (fun _ _ => none) s2' = (s3', none) ∧
      ∀ (trunc : Option ℕ) (nSteps : ℕ) (x0 : Option (InitData K s.model.bm.dimObs)) (noise : ℕ → Fin s.model.bm.dimObs → K),
        simulate s3'.model cls trunc nSteps (x0.map (Spec.movedInit R c)) (Spec.movedNoise R c noise) =
          (simulate s3.model cls trunc nSteps x0 noise).map (Spec.movedTrj R c) := by
  obtain ⟨s1', s2', s3', h1', h2', h3', a1, a1', ⟨f, b, r, hE⟩, ⟨f', b', r', hE'⟩, hM⟩ := moved_of_data hs hs' h hm hd h1 h2 h3
  refine ⟨s1', s2', s3', h1', h2', h3', fun trunc nSteps x0 noise => ?_⟩
  exact C152_simulation hE hE' (by rw [a1]; exact hm) (by rw [a1', h.basis.cls]; exact hm) (by rw [a1]) (by rw [a1', h.basis.dimObs])
    hM trunc nSteps x0 noise

/-- **C152**, in another basis: the simulations depend on the basis only through the space of functions it spans. -/
theorem C152_basis [CharZero K] {env : Env K} (hl : IsLoop env.loop) {method : String} {vectorize : Bool}
    (hf : IsCorrFn (env.corrFn method vectorize)) {T T' : ℕ → ℕ → K} {s s' : EstState K} (h : SameData T T' d s s')
    {cls : IntegratorClass} (hm : Spec.Meant s.model.bm.cls cls) (hd : s.model.bm.dimx = s.model.bm.dimObs)
    {rankTol : Option K} {km : String} {s1 s2 s3 : EstState K}
    (h1 : computeMeanForce env s = (s1, none)) (h2 : computeCorrs env method vectorize true rankTol s1 = (s2, none))
    (h3 : computeKernelStep km (fun _ _ => none) s2 = (s3, none)) :
    ∃ s1' s2' s3', computeMeanForce env s' = (s1', none) ∧
      computeCorrs env method vectorize true rankTol s1' = (s2', none) ∧
      computeKernelStep km (fun _ _ => none) s2' = (s3', none) ∧
      ∀ (trunc : Option ℕ) (nSteps : ℕ) (x0 : Option (InitData K s.model.bm.dimObs)) (noise : ℕ → Fin s.model.bm.dimObs → K),
        simulate s3'.model cls trunc nSteps x0 noise = simulate s3.model cls trunc nSteps x0 noise := by
  obtain ⟨s1', s2', s3', h1', h2', h3', hF, hK, hG⟩ := C138_same_functions hl hf h h1 h2 h3
  refine ⟨s1', s2', s3', h1', h2', h3', fun trunc nSteps x0 noise => ?_⟩
  have hs : Setup env method vectorize s.model.bm d s :=
    ⟨hl, hf, rfl, fun e => absurd e (by rw [h.span.full]; exact Bool.false_ne_true), h.noProj, h.obs, h.dim, h.dimx, h.npos, h.xpos, h.tpos, h.tle, h.ne⟩
  have hs' : Setup env method vectorize s'.model.bm d s' :=
    ⟨hl, hf, rfl, fun e => absurd e (by rw [h.span.full']; exact Bool.false_ne_true), h.noProj', by rw [h.xvas, h.Lobs, h.span.dimObs]; exact h.obs, h.dim,
      by rw [h.xvas, h.span.dimx]; exact h.dimx, by rw [h.span.nCorr]; exact h.npos, by rw [h.span.dimObs]; exact h.xpos,
      by rw [h.truncInd]; exact h.tpos, by rw [h.xvas, h.truncInd]; exact h.tle, by rw [h.xvas]; exact h.ne⟩
  have hd' : s'.model.bm.dimx = s'.model.bm.dimObs := by rw [h.span.dimx, h.span.dimObs, hd]
  obtain ⟨a1, a2, a3, f, b, r, hE⟩ := estimated_of_setup hs hd h1 h2 h3
  obtain ⟨a1', a2', a3', f', b', r', hE'⟩ := estimated_of_setup hs' hd' h1' h2' h3'
  have hid : ∀ x : Fin s.model.bm.dimObs → K, Spec.moveVec (fun i j => if i = j then 1 else 0) x = x := fun x => by
    funext i
    simp only [Spec.moveVec, ← Fin.ext_iff, ite_mul, one_mul, zero_mul, Finset.sum_ite_eq, mem_univ, if_true]
  have key := C152_simulation hE hE' (cls := cls) (cls' := cls) (by rw [a1]; exact hm) (by rw [a1', h.span.cls]; exact hm) (by rw [a1])
    (by rw [a1', h.span.dimObs]) (n := s.model.bm.dimObs) (R := fun i j => if i = j then 1 else 0) (c := 1)
    ⟨one_ne_zero, by rw [a2, a2', h.dt, one_mul], by rw [a3, a3', h.truncInd], ?_, fun y => ?_, fun y => ?_⟩ trunc nSteps x0 noise
  · have i1 : x0.map (Spec.movedInit (fun i j => if i = j then 1 else 0) 1) = x0 := by
      cases x0 with
      | none => rfl
      | some D => simp only [Option.map_some, Spec.movedInit, div_one, hid, one_mul]
    have i2 : Spec.movedNoise (fun i j => if i = j then 1 else 0) 1 noise = noise := by
      funext t
      simp only [Spec.movedNoise, one_pow, div_one, hid]
    have i3 : Spec.movedTrj (d := s.model.bm.dimObs) (fun i j => if i = j then 1 else 0) (1 : K) = id := by
      funext D
      simp only [Spec.movedTrj, div_one, hid, one_mul, id]
    rw [i1, i2, i3] at key
    rw [key]
    cases simulate s3.model cls trunc nSteps x0 noise <;> rfl
  · obtain ⟨b, x, k, k', e, e', -, e3⟩ := hK
    exact ⟨b, x, k, b, x, k', e, e', e3⟩
  · obtain ⟨F, F', e, e', -, -, e3⟩ := hF 1 fun _ => point y
    refine ⟨F, F', e, by rw [hid]; exact e', fun l => ?_⟩
    rw [e3 0 l l.2]
    simp only [← Fin.ext_iff, one_pow, div_one, ite_mul, one_mul, zero_mul, Finset.sum_ite_eq, mem_univ, if_true]
  · obtain ⟨G, G', e, e', e3⟩ := hG (fun e => by rcases hm with ⟨e', -⟩ | ⟨e', -⟩ <;> rw [e'] at e <;> cases e)
      (fun _ => hd.symm) 1 fun _ => point y
    refine ⟨G, G', e, by rw [hid]; exact e', fun t l j => ?_⟩
    simp only [← Fin.ext_iff, one_pow, div_one, ite_mul, one_mul, zero_mul, mul_ite, mul_one, mul_zero, Finset.sum_ite_eq,
      Finset.sum_ite_eq', mem_univ, if_true]
    exact e3 t l l.2 0 j

end

/-! ### Examples: a shear and times three times as large, and another basis -/

namespace CovariantEx

example := C152_estimated (setup (.inr rfl) rfl rfl (.inl rfl)) (setup (.inr rfl) rfl rfl (.inr rfl)) (movedData .constKernel)
  (cls := .constKernel) (.inr ⟨rfl, rfl⟩) rfl (Prod.ext rfl (step1 _ (by decide))) (Prod.ext rfl (step2 _ (by decide)))
  (Prod.ext rfl (step3 _ (by decide)))

/-- The simulation succeeds, and the positions do change. -/
example : (match simulate (d := 2) (computeKernelStep "second_kind_rect" (fun _ _ => none) (computeCorrs Ex.env "direct" false true none
    (computeMeanForce Ex.env (state .constKernel lin xvas 1)).1).1).1.model .constKernel none 4
    (some ⟨1, fun _ => 0, fun _ _ => 1, fun _ i => i.1⟩) (fun t _ => t) with
  | .ok trj => decide (trj.x 3 0 ≠ 1) && decide (trj.x 3 0 ≠ trj.x 3 1)
  | .error _ => false) = true := by decide +kernel

example : ∃ (s s' : ModelState ℚ) (f f' : LArr ℚ) (d d' : String) (b b' : ℕ) (r : KernelData ℚ b s.bm.dimObs)
    (r' : KernelData ℚ b' s'.bm.dimObs), Estimated s f d r ∧ Estimated s' f' d' r' ∧ Spec.Meant s.bm.cls .constKernel ∧
    Spec.Meant s'.bm.cls .constKernel ∧ s.bm.dimObs = 2 ∧ s'.bm.dimObs = 2 ∧ Spec.MovedModel 2 R 3 s s' := by
  obtain ⟨_, _, s3', -, -, -, a1, a1', ⟨f, b, r, hE⟩, ⟨f', b', r', hE'⟩, hM⟩ := moved_of_data (setup (.inr rfl) rfl rfl (.inl rfl))
    (setup (.inr rfl) rfl rfl (.inr rfl)) (movedData .constKernel) (cls := .constKernel) (.inr ⟨rfl, rfl⟩) rfl
    (Prod.ext rfl (step1 _ (by decide))) (Prod.ext rfl (step2 _ (by decide))) (Prod.ext rfl (step3 _ (by decide)))
  exact ⟨_, _, f, f', _, _, b, b', r, r', hE, hE', by rw [a1]; exact .inr ⟨rfl, rfl⟩, by rw [a1']; exact .inr ⟨rfl, rfl⟩, by rw [a1]; rfl,
    by rw [a1']; rfl, hM⟩

end CovariantEx

namespace BasisChangeEx

/-- `x` and `x²`. -/
def gleBasis : PointBasis ℚ :=
  ⟨2, false, fun x k => x 0 ^ (k + 1), fun x k _ => (k + 1) * x 0 ^ k, fun x k _ _ => (k + 1) * k * x 0 ^ (k - 1),
    fun x k => x 0 ^ (k + 2) / (k + 2)⟩

/-- `x + x²` and `2 x²`. -/
def gleBasis' : PointBasis ℚ where
  nOut := 2
  constRemoved := false
  basis := fun x k => ∑ l ∈ range 2, T k l * gleBasis.basis x l
  deriv := fun x k d => ∑ l ∈ range 2, T k l * gleBasis.deriv x l d
  hessian := fun x k d d' => ∑ l ∈ range 2, T k l * gleBasis.hessian x l d d'
  antiderivative := gleBasis.antiderivative

def gleState (b : PointBasis ℚ) : EstState ℚ :=
  { Ex.state false with model := { (Ex.state false).model with bm := ⟨.posGle, b, 1, 1⟩ } }

theorem gleData : SameData T T' "dim_x" (gleState gleBasis) (gleState gleBasis') :=
  { sameData with
    span := ⟨rfl, rfl, rfl, rfl, rfl, rfl, inv, fun _ _ _ => rfl, fun _ _ _ _ => rfl, fun _ _ _ _ _ => rfl⟩
    npos := by decide }

theorem gle1 : (computeMeanForce Ex.env (gleState gleBasis)).2 = none := by decide +kernel
theorem gle2 : (computeCorrs Ex.env "direct" false true none (computeMeanForce Ex.env (gleState gleBasis)).1).2 = none := by
  decide +kernel
theorem gle3 : (computeKernelStep "rectangular" (fun _ _ => none)
    (computeCorrs Ex.env "direct" false true none (computeMeanForce Ex.env (gleState gleBasis)).1).1).2 = none := by
  decide +kernel

example := C152_basis Ex.isLoop Ex.isCorrFn gleData (cls := .gle) (.inl ⟨rfl, rfl⟩) rfl (Prod.ext rfl gle1) (Prod.ext rfl gle2)
  (Prod.ext rfl gle3)

end BasisChangeEx

end Verif
