import Verif.Props.Resume
import Mathlib.Probability.Moments.Covariance
import Mathlib.Probability.Distributions.Uniform
import Mathlib.MeasureTheory.Integral.Bochner.Basic

/-!
# Superposition of simulations with a linear force (C178)
-/

namespace Verif

open Finset MeasureTheory ProbabilityTheory

namespace Spec

variable {K : Type*} [Field K] {d nB nD b : ℕ}

/-- The force is an affine function of the position, and the functions on which the memory acts are linear functions of the velocity. -/
structure LinearGle (I : Integrator K d nB nD b) (L : (Fin d → K) →ₗ[K] (Fin d → K)) (g : Fin d → K)
    (M : (Fin d → K) →ₗ[K] (Fin nD → K)) : Prop where
  force : ∀ x, Matrix.vecMul (I.basis x) I.forceCoeff = L x + g
  memory : ∀ x v, I.vec x v = M v

end Spec

section
variable {K : Type*} [Field K] {ι : Type*} {s : Finset ι} {c : ι → K}

/-- The value at `none` is the combination of the others. -/
def Comb {A : Type*} [AddCommGroup A] [Module K A] (s : Finset ι) (c : ι → K) (f : Option ι → A) : Prop := f none = ∑ k ∈ s, c k • f (some k)

variable {A B : Type*} [AddCommGroup A] [Module K A] [AddCommGroup B] [Module K B]

theorem Comb.add {f g : Option ι → A} (hf : Comb s c f) (hg : Comb s c g) : Comb s c fun o => f o + g o := by
  simp only [Comb, smul_add, sum_add_distrib] at *
  rw [hf, hg]

theorem Comb.sub {f g : Option ι → A} (hf : Comb s c f) (hg : Comb s c g) : Comb s c fun o => f o - g o := by
  simp only [Comb, smul_sub, sum_sub_distrib] at *
  rw [hf, hg]

theorem Comb.lin {f : Option ι → A} (hf : Comb s c f) (L : A →ₗ[K] B) : Comb s c fun o => L (f o) := by
  simp only [Comb] at *
  rw [hf, map_sum]
  simp only [map_smul]

theorem Comb.smul {f : Option ι → A} (hf : Comb s c f) (r : K) : Comb s c fun o => r • f o := hf.lin (r • LinearMap.id)

theorem Comb.sum {n : Finset ℕ} {f : ℕ → Option ι → A} (hf : ∀ i ∈ n, Comb s c (f i)) : Comb s c fun o => ∑ i ∈ n, f i o := by
  simp only [Comb, smul_sum] at *
  rw [sum_comm]
  exact sum_congr rfl fun i hi => hf i hi

theorem Comb.vecMul {m n : ℕ} {f : Option ι → Fin m → K} (hf : Comb s c f) (A : Mat K m n) : Comb s c fun o => Matrix.vecMul (f o) A :=
  hf.lin (Matrix.vecMulLinear A)

theorem Comb.mulVec {m n : ℕ} {f : Option ι → Fin n → K} (hf : Comb s c f) (A : Mat K m n) : Comb s c fun o => Matrix.mulVec A (f o) :=
  hf.lin (Matrix.mulVecLin A)

theorem Comb.const {a : A} (h : (∑ k ∈ s, c k) • a = a) : Comb s c fun _ => a := by
  simp only [Comb]
  rw [← sum_smul, h]

theorem Comb.zero : Comb s c fun _ : Option ι => (0 : A) := by
  simp [Comb]

variable {d nB nD b : ℕ} {I : Integrator K d nB nD b} {L : (Fin d → K) →ₗ[K] (Fin d → K)} {g : Fin d → K} {M : (Fin d → K) →ₗ[K] (Fin nD → K)}

theorem Comb.E (hI : Spec.LinearGle I L g M) {x v : Option ι → Fin d → K} (hv : Comb s c v) : Comb s c fun o => I.E (x o) (v o) := by
  have : (fun o => I.E (x o) (v o)) = fun o => Matrix.mulVec I.proj (M (v o)) := by
    funext o
    rw [Integrator.E, hI.memory]
  rw [this]
  exact (hv.lin M).mulVec _

theorem Comb.fRk (hI : Spec.LinearGle I L g M) (hg : (∑ k ∈ s, c k) • g = g) {x v rmi fr lastRmi : Option ι → Fin d → K}
    {lastE : Option ι → Fin b → K} (hx : Comb s c x) (hv : Comb s c v) (hr : Comb s c rmi) (hf : Comb s c fr) (hE : Comb s c lastE)
    (hR : Comb s c lastRmi) (α : K) : Comb s c fun o => (I.fRk (x o) (v o) (rmi o) (fr o) α (lastE o) (lastRmi o)).2 := by
  simp only [Integrator.fRk, hI.force]
  exact (((hx.lin L).add (.const hg)).add hf).sub (((hR.add ((hE.vecMul _).smul _)).smul _).add ((hr.add (((Comb.E hI hv).vecMul _).smul _)).smul _))

theorem Comb.rkStep (hI : Spec.LinearGle I L g M) (hg : (∑ k ∈ s, c k) • g = g) {x v rmi fr lastRmi : Option ι → Fin d → K}
    {lastE : Option ι → Fin b → K} (hx : Comb s c x) (hv : Comb s c v) (hr : Comb s c rmi) (hf : Comb s c fr) (hE : Comb s c lastE)
    (hR : Comb s c lastRmi) : (Comb s c fun o => (I.rkStep (x o) (v o) (rmi o) (fr o) (lastE o) (lastRmi o)).1) ∧
      Comb s c fun o => (I.rkStep (x o) (v o) (rmi o) (fr o) (lastE o) (lastRmi o)).2 := by
  have k1 := Comb.fRk hI hg hx hv hr hf hE hR 1
  have x2 := hx.add (hv.smul (I.dt / 2))
  have v2 := hv.add (k1.smul (I.dt / 2))
  have k2 := Comb.fRk hI hg x2 v2 hr hf hE hR (1 / 2)
  have x3 := hx.add (v2.smul (I.dt / 2))
  have v3 := hv.add (k2.smul (I.dt / 2))
  have k3 := Comb.fRk hI hg x3 v3 hr hf hE hR (1 / 2)
  have x4 := hx.add (v3.smul I.dt)
  have v4 := hv.add (k3.smul I.dt)
  have k4 := Comb.fRk hI hg x4 v4 hr hf hE hR 0
  constructor
  · exact hx.add ((((hv.add (v2.smul 2)).add (v3.smul 2)).add v4).smul _)
  · exact hv.add (((((k1.add (k2.smul 2)).add (k3.smul 2)).add k4).smul _).smul _)

theorem Comb.memTail {E : Option ι → ℕ → Fin b → K} {n : ℕ} (hT : 2 ≤ I.kernel.len) (hn : 1 ≤ n) (hE : ∀ t < n, Comb s c fun o => E o t) :
    Comb s c fun o => I.memTail (E o) n := by
  unfold Integrator.memTail
  refine ((Comb.sum fun i hi => ?_).smul _).add (((hE _ (by omega)).vecMul _).smul _)
  have := mem_range.1 hi
  exact (hE _ (by omega)).vecMul _

/-- The rows of the combination of runs. -/
theorem run_comb [DecidableEq K] (hI : Spec.LinearGle I L g M) (hg : (∑ k ∈ s, c k) • g = g) {nSteps n0 : ℕ} {D : Option ι → InitData K d}
    (hn : ∀ o, (D o).n = n0) (hx : ∀ t < n0, Comb s c fun o => (D o).x t) (hv : ∀ t < n0, Comb s c fun o => (D o).v t)
    {noise : Option ι → ℕ → Fin d → K} (hf : ∀ t < nSteps, n0 ≤ t → Comb s c fun o => noise o t) {trj : Option ι → Trj K d}
    (h : ∀ o, I.run nSteps (some (D o)) (noise o) = .ok (trj o)) :
    ∀ t < nSteps, (Comb s c fun o => (trj o).x t) ∧ Comb s c fun o => (trj o).v t := by
  have H := fun o => I.run_spec (h o)
  simp only [Option.map_some, Option.getD_some, hn] at H
  choose _ _ h1 h2 hT E hInv using H
  have h1 := h1 none
  have hT := hT none
  have hini : ∀ o, ∀ t < n0, (trj o).x t = (D o).x t ∧ (trj o).v t = (D o).v t := fun o t ht =>
    ((C67_initial (h o)).2.1 (D o) rfl).2 t (by rw [hn]; exact ht)
  intro t
  induction t using Nat.strong_induction_on with
  | h t ih =>
    intro ht
    by_cases c0 : t < n0
    · simp only [(hini _ t c0).1, (hini _ t c0).2]
      exact ⟨hx t c0, hv t c0⟩
    · have hT := hT t (by omega) ht
      have hE : ∀ r < t, Comb s c fun o => E o r := by
        intro r hr
        have e : (fun o => E o r) = fun o => I.E ((trj o).x r) ((trj o).v r) := funext fun o => (hInv o).hE r (by omega)
        rw [e]
        exact Comb.E hI (ih r hr (by omega)).2
      have hR : Comb s c fun o => if t = 1 then 0 else I.memTail (E o) (t - 1) := by
        by_cases c1 : t = 1
        · simp only [if_pos c1]
          exact .zero
        · simp only [if_neg c1]
          exact Comb.memTail hT (by omega) fun r hr => hE r (by omega)
      have hp := ih (t - 1) (by omega) (by omega)
      have key := Comb.rkStep hI hg hp.1 hp.2 (Comb.memTail hT (by omega) hE) (hf t ht (by omega)) (hE (t - 1) (by omega)) hR
      have hs : ∀ o, ((trj o).x t, (trj o).v t) = _ := fun o => (hInv o).step t (by omega) ht
      have e1 : (fun o => (trj o).x t) = _ := funext fun o => congrArg Prod.fst (hs o)
      have e2 : (fun o => (trj o).v t) = _ := funext fun o => congrArg Prod.snd (hs o)
      rw [e1, e2]
      exact key

/-- **C178** Superposition. Let the force be affine in the position and the memory act on linear functions of the velocity. Take runs from
the data `D k` with the noises `noise k`, as many frames in all of them, and coefficients of sum 1 (any coefficients when the force is linear). The
run from the combination of the data with the combination of the noises succeeds and gives the combination of the trajectories. -/
theorem C178_superposition [DecidableEq K] (hI : Spec.LinearGle I L g M) (hg : g = 0 ∨ ∑ k ∈ s, c k = 1) (hT : 2 ≤ I.kernel.len) {nSteps : ℕ}
    {D0 : InitData K d} (h1 : 1 ≤ D0.n) (h2 : D0.n ≤ nSteps) (ht : ∀ t < D0.n, D0.time t = t * I.dt) {D : ι → InitData K d} (hn : ∀ k, (D k).n = D0.n)
    (hx : ∀ t < D0.n, D0.x t = ∑ k ∈ s, c k • (D k).x t) (hv : ∀ t < D0.n, D0.v t = ∑ k ∈ s, c k • (D k).v t)
    {noise0 : ℕ → Fin d → K} {noise : ι → ℕ → Fin d → K} (hf : ∀ t < nSteps, D0.n ≤ t → noise0 t = ∑ k ∈ s, c k • noise k t)
    {trj : ι → Trj K d} (h : ∀ k, I.run nSteps (some (D k)) (noise k) = .ok (trj k)) :
    ∃ trj0, I.run nSteps (some D0) noise0 = .ok trj0 ∧ ∀ t < nSteps,
      trj0.x t = ∑ k ∈ s, c k • (trj k).x t ∧ trj0.v t = ∑ k ∈ s, c k • (trj k).v t := by
  obtain ⟨trj0, h0⟩ := I.run_ok (x0 := some D0) noise0 hT h1 h2 (fun D e => by cases e; exact ht)
  refine ⟨trj0, h0, ?_⟩
  exact run_comb (s := s) (c := c) hI (hg.elim (fun e => by rw [e, smul_zero]) fun e => by rw [e, one_smul]) (D := fun o => o.elim D0 D)
    (n0 := D0.n) (fun o => match o with | none => rfl | some k => hn k) hx hv (noise := fun o => o.elim noise0 noise) hf (trj := fun o => o.elim trj0 trj)
    (fun o => match o with | none => h0 | some k => h k)

/-- The noise that is one in the component `i` of the frame `r` and zero elsewhere. -/
def Spec.pulse (K : Type*) [Field K] {d : ℕ} (r : ℕ) (i : Fin d) (t : ℕ) (j : Fin d) : K := if t = r ∧ j = i then 1 else 0

/-- **C178** The response to the noise. With an affine force the trajectory is that without noise plus, for every frame and component of the noise, its
value times the response: the difference that a noise of one in this frame and component alone makes. The response is zero up to this frame. -/
theorem C178_response [DecidableEq K] (hI : Spec.LinearGle I L g M) (hT : 2 ≤ I.kernel.len) {nSteps : ℕ} {D : InitData K d} (h1 : 1 ≤ D.n)
    (h2 : D.n ≤ nSteps) (ht : ∀ t < D.n, D.time t = t * I.dt) : ∃ (free : Trj K d) (resp : ℕ → Fin d → Trj K d),
      I.run nSteps (some D) (fun _ _ => 0) = .ok free ∧ (∀ r i, I.run nSteps (some D) (Spec.pulse K r i) = .ok (resp r i)) ∧
      (∀ r i, ∀ t < nSteps, t < r → (resp r i).x t = free.x t ∧ (resp r i).v t = free.v t) ∧
      ∀ noise, ∃ trj, I.run nSteps (some D) noise = .ok trj ∧ ∀ t < nSteps,
        trj.x t = free.x t + ∑ r ∈ range nSteps, ∑ i, noise r i • ((resp r i).x t - free.x t) ∧
        trj.v t = free.v t + ∑ r ∈ range nSteps, ∑ i, noise r i • ((resp r i).v t - free.v t) := by
  have ok : ∀ noise, ∃ trj, I.run nSteps (some D) noise = .ok trj := fun noise =>
    I.run_ok (x0 := some D) noise hT h1 h2 (fun D e => by cases e; exact ht)
  obtain ⟨free, hfree⟩ := ok fun _ _ => 0
  choose resp hresp using fun (r : ℕ) (i : Fin d) => ok (Spec.pulse K r i)
  refine ⟨free, resp, hfree, hresp, fun r i t ht htr => ?_, fun noise => ?_⟩
  · rcases Nat.lt_or_ge t D.n with c | c
    · have e1 := ((C67_initial hfree).2.1 D rfl).2 t c
      have e2 := ((C67_initial (hresp r i)).2.1 D rfl).2 t c
      rw [e1.1, e1.2, e2.1, e2.2]
      exact ⟨rfl, rfl⟩
    · obtain ⟨t1, a1, -, a2⟩ := C67_prefix hfree (m := t + 1) (noise' := fun _ _ => 0) (by show D.n ≤ _; omega) ht fun _ _ => rfl
      obtain ⟨t2, b1, -, b2⟩ := C67_prefix (hresp r i) (m := t + 1) (noise' := fun _ _ => 0) (by show D.n ≤ _; omega) ht fun u hu => by
        funext j
        rw [Spec.pulse, if_neg (by omega)]
      rw [a1] at b1
      cases b1
      have a := a2 t (by omega)
      have b := b2 t (by omega)
      rw [← a.1, ← a.2.1, ← b.1, ← b.2.1]
      exact ⟨rfl, rfl⟩
  · obtain ⟨trj, h, h'⟩ := C178_superposition (s := insertNone (range nSteps ×ˢ (univ : Finset (Fin d))))
      (c := fun o => o.elim (1 - ∑ p ∈ range nSteps ×ˢ (univ : Finset (Fin d)), noise p.1 p.2) fun p => noise p.1 p.2)
      hI (.inr (by rw [sum_insertNone]; simp)) hT h1 h2 ht
      (D := fun _ => D) (fun _ => rfl) (fun t ht => by rw [sum_insertNone, ← sum_smul, ← add_smul]; simp)
      (fun t ht => by rw [sum_insertNone, ← sum_smul, ← add_smul]; simp)
      (noise0 := noise) (noise := fun o => o.elim (fun _ _ => 0) fun p => Spec.pulse K p.1 p.2)
      (fun t ht _ => by
        rw [sum_insertNone]
        funext j
        simp only [Option.elim, Pi.add_apply, Pi.smul_apply, smul_eq_mul, mul_zero, zero_add, Finset.sum_apply, Spec.pulse]
        rw [sum_product, sum_eq_single t, sum_eq_single j]
        · simp
        · intro i _ hi
          rw [if_neg (fun e => hi e.2.symm), mul_zero]
        · simp
        · intro r _ hr
          exact sum_eq_zero fun i _ => by rw [if_neg (fun e => hr e.1.symm), mul_zero]
        · intro e
          exact absurd (mem_range.2 ht) e)
      (trj := fun o => o.elim free fun p => resp p.1 p.2) (fun o => match o with | none => hfree | some p => hresp p.1 p.2)
    refine ⟨trj, h, fun t ht => ?_⟩
    obtain ⟨e1, e2⟩ := h' t ht
    rw [e1, e2, sum_insertNone, sum_insertNone, sum_product, sum_product, sum_product]
    simp only [Option.elim, smul_sub, sum_sub_distrib, sub_smul, one_smul, sum_smul]
    constructor <;> abel

end

/-- **C178** Averages. With an affine force and a random noise of finite mean, the mean of every frame of the trajectory is the frame of the run with the
mean of the noise. -/
theorem C178_mean {d nB nD b : ℕ} {I : Integrator ℝ d nB nD b} {L : (Fin d → ℝ) →ₗ[ℝ] (Fin d → ℝ)} {g : Fin d → ℝ} {M : (Fin d → ℝ) →ₗ[ℝ] (Fin nD → ℝ)}
    (hI : Spec.LinearGle I L g M) (hT : 2 ≤ I.kernel.len) {nSteps : ℕ} {D : InitData ℝ d} (h1 : 1 ≤ D.n)
    (h2 : D.n ≤ nSteps) (ht : ∀ t < D.n, D.time t = t * I.dt) {Ω : Type*} [MeasurableSpace Ω] {P : Measure Ω} [IsProbabilityMeasure P]
    {noise : Ω → ℕ → Fin d → ℝ} (hn : ∀ r < nSteps, ∀ i, Integrable (fun ω => noise ω r i) P) :
    ∃ (trj : Ω → Trj ℝ d) (mean : Trj ℝ d), (∀ ω, I.run nSteps (some D) (noise ω) = .ok (trj ω)) ∧
      I.run nSteps (some D) (fun r i => ∫ ω, noise ω r i ∂P) = .ok mean ∧ ∀ t < nSteps, ∀ j,
        (Integrable (fun ω => (trj ω).x t j) P ∧ ∫ ω, (trj ω).x t j ∂P = mean.x t j) ∧
        (Integrable (fun ω => (trj ω).v t j) P ∧ ∫ ω, (trj ω).v t j ∂P = mean.v t j) := by
  obtain ⟨free, resp, -, -, -, H⟩ := C178_response hI hT h1 h2 ht
  choose trj h h' using fun ω => H (noise ω)
  obtain ⟨mean, hm, hm'⟩ := H fun r i => ∫ ω, noise ω r i ∂P
  refine ⟨trj, mean, h, hm, fun t ht j => ?_⟩
  have key : ∀ (a : ℝ) (e : ℕ → Fin d → ℝ), Integrable (fun ω => a + ∑ r ∈ range nSteps, ∑ i, noise ω r i * e r i) P ∧
      ∫ ω, a + ∑ r ∈ range nSteps, ∑ i, noise ω r i * e r i ∂P = a + ∑ r ∈ range nSteps, ∑ i, (∫ ω, noise ω r i ∂P) * e r i := by
    intro a e
    have i1 : ∀ r ∈ range nSteps, ∀ i, Integrable (fun ω => noise ω r i * e r i) P := fun r hr i => (hn r (mem_range.1 hr) i).mul_const _
    have i2 : ∀ r ∈ range nSteps, Integrable (fun ω => ∑ i, noise ω r i * e r i) P := fun r hr => integrable_finsetSum _ fun i _ => i1 r hr i
    refine ⟨(integrable_const a).add (integrable_finsetSum _ i2), ?_⟩
    rw [integral_add (integrable_const a) (integrable_finsetSum _ i2), integral_finsetSum _ i2, integral_const, probReal_univ, one_smul]
    congr 1
    refine sum_congr rfl fun r hr => ?_
    rw [integral_finsetSum _ fun i _ => i1 r hr i]
    exact sum_congr rfl fun i _ => integral_mul_const _ _
  constructor
  · have e : (fun ω => (trj ω).x t j) = fun ω => free.x t j + ∑ r ∈ range nSteps, ∑ i, noise ω r i * ((resp r i).x t j - free.x t j) := by
      funext ω
      rw [(h' ω t ht).1]
      simp [Finset.sum_apply]
    rw [e, (hm' t ht).1]
    simpa [Finset.sum_apply] using key (free.x t j) fun r i => (resp r i).x t j - free.x t j
  · have e : (fun ω => (trj ω).v t j) = fun ω => free.v t j + ∑ r ∈ range nSteps, ∑ i, noise ω r i * ((resp r i).v t j - free.v t j) := by
      funext ω
      rw [(h' ω t ht).2]
      simp [Finset.sum_apply]
    rw [e, (hm' t ht).2]
    simpa [Finset.sum_apply] using key (free.v t j) fun r i => (resp r i).v t j - free.v t j

/-- **C178** Fluctuations. With an affine force the covariances of positions and velocities are those of the noise, multiplied with the responses. -/
theorem C178_covariance {d nB nD b : ℕ} {I : Integrator ℝ d nB nD b} {L : (Fin d → ℝ) →ₗ[ℝ] (Fin d → ℝ)} {g : Fin d → ℝ} {M : (Fin d → ℝ) →ₗ[ℝ] (Fin nD → ℝ)}
    (hI : Spec.LinearGle I L g M) (hT : 2 ≤ I.kernel.len) {nSteps : ℕ} {D : InitData ℝ d} (h1 : 1 ≤ D.n)
    (h2 : D.n ≤ nSteps) (ht : ∀ t < D.n, D.time t = t * I.dt) {Ω : Type*} [MeasurableSpace Ω] {P : Measure Ω} [IsProbabilityMeasure P]
    {noise : Ω → ℕ → Fin d → ℝ} (hn : ∀ r < nSteps, ∀ i, MemLp (fun ω => noise ω r i) 2 P) :
    ∃ (free : Trj ℝ d) (resp : ℕ → Fin d → Trj ℝ d) (trj : Ω → Trj ℝ d), I.run nSteps (some D) (fun _ _ => 0) = .ok free ∧
      (∀ r i, I.run nSteps (some D) (Spec.pulse ℝ r i) = .ok (resp r i)) ∧ (∀ ω, I.run nSteps (some D) (noise ω) = .ok (trj ω)) ∧
      ∀ t < nSteps, ∀ t' < nSteps, ∀ j j',
        cov[fun ω => (trj ω).x t j, fun ω => (trj ω).x t' j'; P] = ∑ r ∈ range nSteps, ∑ i, ∑ r' ∈ range nSteps, ∑ i',
          ((resp r i).x t j - free.x t j) * ((resp r' i').x t' j' - free.x t' j') * cov[fun ω => noise ω r i, fun ω => noise ω r' i'; P] ∧
        cov[fun ω => (trj ω).x t j, fun ω => (trj ω).v t' j'; P] = ∑ r ∈ range nSteps, ∑ i, ∑ r' ∈ range nSteps, ∑ i',
          ((resp r i).x t j - free.x t j) * ((resp r' i').v t' j' - free.v t' j') * cov[fun ω => noise ω r i, fun ω => noise ω r' i'; P] ∧
        cov[fun ω => (trj ω).v t j, fun ω => (trj ω).v t' j'; P] = ∑ r ∈ range nSteps, ∑ i, ∑ r' ∈ range nSteps, ∑ i',
          ((resp r i).v t j - free.v t j) * ((resp r' i').v t' j' - free.v t' j') * cov[fun ω => noise ω r i, fun ω => noise ω r' i'; P] := by
  obtain ⟨free, resp, hfree, hresp, -, H⟩ := C178_response hI hT h1 h2 ht
  choose trj h h' using fun ω => H (noise ω)
  refine ⟨free, resp, trj, hfree, hresp, h, fun t ht t' ht' j j' => ?_⟩
  have key : ∀ (a a' : ℝ) (e e' : ℕ → Fin d → ℝ),
      cov[fun ω => a + ∑ r ∈ range nSteps, ∑ i, noise ω r i * e r i, fun ω => a' + ∑ r ∈ range nSteps, ∑ i, noise ω r i * e' r i; P] =
        ∑ r ∈ range nSteps, ∑ i, ∑ r' ∈ range nSteps, ∑ i', e r i * e' r' i' * cov[fun ω => noise ω r i, fun ω => noise ω r' i'; P] := by
    intro a a' e e'
    have m1 : ∀ (e : ℕ → Fin d → ℝ), ∀ r ∈ range nSteps, ∀ i, MemLp (fun ω => noise ω r i * e r i) 2 P := fun e r hr i =>
      (hn r (mem_range.1 hr) i).mul_const _
    have m2 : ∀ (e : ℕ → Fin d → ℝ), ∀ r ∈ range nSteps, MemLp (fun ω => ∑ i, noise ω r i * e r i) 2 P := fun e r hr =>
      memLp_finsetSum _ fun i _ => m1 e r hr i
    have m3 : ∀ e : ℕ → Fin d → ℝ, MemLp (fun ω => ∑ r ∈ range nSteps, ∑ i, noise ω r i * e r i) 2 P := fun e => memLp_finsetSum _ (m2 e)
    rw [ProbabilityTheory.covariance_const_add_left ((m3 e).integrable one_le_two), ProbabilityTheory.covariance_const_add_right ((m3 e').integrable one_le_two)]
    rw [ProbabilityTheory.covariance_fun_sum_left' (m2 e) (m3 e')]
    refine sum_congr rfl fun r hr => ?_
    rw [ProbabilityTheory.covariance_fun_sum_left' (fun i _ => m1 e r hr i) (m3 e')]
    refine sum_congr rfl fun i _ => ?_
    rw [ProbabilityTheory.covariance_fun_sum_right' (m2 e') (m1 e r hr i)]
    refine sum_congr rfl fun r' hr' => ?_
    rw [ProbabilityTheory.covariance_fun_sum_right' (fun i _ => m1 e' r' hr' i) (m1 e r hr i)]
    refine sum_congr rfl fun i' _ => ?_
    rw [ProbabilityTheory.covariance_mul_const_left, ProbabilityTheory.covariance_mul_const_right]
    ring
  have ex : ∀ t < nSteps, ∀ j, (fun ω => (trj ω).x t j) =
      fun ω => free.x t j + ∑ r ∈ range nSteps, ∑ i, noise ω r i * ((resp r i).x t j - free.x t j) := by
    intro t ht j
    funext ω
    rw [(h' ω t ht).1]
    simp [Finset.sum_apply]
  have ev : ∀ t < nSteps, ∀ j, (fun ω => (trj ω).v t j) =
      fun ω => free.v t j + ∑ r ∈ range nSteps, ∑ i, noise ω r i * ((resp r i).v t j - free.v t j) := by
    intro t ht j
    funext ω
    rw [(h' ω t ht).2]
    simp [Finset.sum_apply]
  rw [ex t ht, ev t ht, ex t' ht', ev t' ht']
  exact ⟨key _ _ _ _, key _ _ _ _, key _ _ _ _⟩

/-- A particle with the force `1 - x` and a kernel of three points. -/
def springInt (K : Type*) [Field K] : Integrator K 1 2 1 1 where
  basis x k := if k = 0 then 1 else x 0
  vec := constVec
  proj := 1
  forceCoeff := fun k _ => if k = 0 then 1 else -1
  kernel := ⟨3, fun i _ _ => 3 - i⟩
  dt := 1 / 2

theorem springInt_linear (K : Type*) [Field K] :
    Spec.LinearGle (springInt K) (-LinearMap.id) (fun _ => 1) LinearMap.id where
  force := fun x => by
    funext j
    have : j = 0 := by omega
    subst this
    simp [springInt, Matrix.vecMul, dotProduct]
    ring
  memory := fun _ _ => rfl

def springData (K : Type*) [Field K] (x v : K) : InitData K 1 := ⟨1, fun t => t * (1 / 2), fun _ _ => x, fun _ _ => v⟩

noncomputable def coinLaw : Measure Bool := (PMF.uniformOfFintype Bool).toMeasure

noncomputable instance : IsProbabilityMeasure coinLaw := by
  unfold coinLaw
  infer_instance

/-- A noise that is `1` in all frames or `-1` in all frames. -/
def coinNoise (ω : Bool) (_ : ℕ) (_ : Fin 1) : ℝ := if ω then 1 else -1

example := C178_response (springInt_linear ℚ) (by decide) (D := springData ℚ 3 1) le_rfl (nSteps := 20) (by decide) (by simp [springData, springInt])
example := C178_mean (springInt_linear ℝ) (by simp [springInt]) (D := springData ℝ 3 1) le_rfl (nSteps := 20) (by simp [springData]) (by simp [springData, springInt])
  (P := coinLaw) (noise := coinNoise) fun _ _ _ => .of_finite
example := C178_covariance (springInt_linear ℝ) (by simp [springInt]) (D := springData ℝ 3 1) le_rfl (nSteps := 20) (by simp [springData]) (by simp [springData, springInt])
  (P := coinLaw) (noise := coinNoise) fun _ _ _ => .of_discrete

/-- The middle between two runs is the run from the middle. -/
example {n : ℕ} (hn : 1 ≤ n) (noise noise' : ℕ → Fin 1 → ℚ) {trj trj' : Trj ℚ 1} (h : (springInt ℚ).run n (some (springData ℚ 3 1)) noise = .ok trj)
    (h' : (springInt ℚ).run n (some (springData ℚ (-1) 5)) noise' = .ok trj') :
    ∃ trj0, (springInt ℚ).run n (some (springData ℚ 1 3)) (fun t i => (noise t i + noise' t i) / 2) = .ok trj0 ∧
      ∀ t < n, trj0.x t 0 = (trj.x t 0 + trj'.x t 0) / 2 := by
  obtain ⟨trj0, h0, H⟩ := C178_superposition (springInt_linear ℚ) (s := (univ : Finset Bool)) (c := fun _ => 1 / 2) (.inr (by simp)) (by decide)
    (nSteps := n) (D0 := springData ℚ 1 3) le_rfl hn (by simp [springData, springInt])
    (D := fun b => if b then springData ℚ 3 1 else springData ℚ (-1) 5) (fun b => by cases b <;> rfl)
    (fun t _ => by funext i; simp [springData]; norm_num) (fun t _ => by funext i; simp [springData]; norm_num)
    (noise0 := fun t i => (noise t i + noise' t i) / 2) (noise := fun b => if b then noise else noise')
    (fun t _ _ => by funext i; simp; ring) (trj := fun b => if b then trj else trj') (fun b => by cases b; exacts [h', h])
  refine ⟨trj0, h0, fun t ht => ?_⟩
  rw [(H t ht).1]
  simp
  ring

end Verif
