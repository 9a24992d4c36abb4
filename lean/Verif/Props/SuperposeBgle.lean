import Verif.Props.Superpose
import Verif.Props.Bgle

/-!
# Superposition of simulations of `BGLEIntegrator` with a linear force (C183)
-/

namespace Verif

open Finset MeasureTheory ProbabilityTheory

section
variable {K : Type*} [Field K] {ι : Type*} {s : Finset ι} {c : ι → K} {B : Bgle K} {p g : K}

theorem Comb.cmul {f : Option ι → K} (hf : Comb s c f) (r : K) : Comb s c fun o => r * f o := hf.smul r

theorem Comb.div {f : Option ι → K} (hf : Comb s c f) (r : K) : Comb s c fun o => f o / r := by
  simpa only [div_eq_mul_inv, mul_comm] using hf.cmul r⁻¹

theorem Comb.bgleRk (hB : ∀ x, B.force x = p * x + g) (hg : (∑ k ∈ s, c k) * g = g) {x v rmi fr lastV lastRmi : Option ι → K}
    (hx : Comb s c x) (hv : Comb s c v) (hr : Comb s c rmi) (hf : Comb s c fr) (hV : Comb s c lastV)
    (hR : Comb s c lastRmi) (a b : K) : Comb s c fun o => (B.fRk (x o) (v o) (rmi o) (fr o) a b (lastV o) (lastRmi o)).2 := by
  have e : (fun o => (B.fRk (x o) (v o) (rmi o) (fr o) a b (lastV o) (lastRmi o)).2) = fun o =>
      -a * rmi o - b * lastRmi o - 1 / 2 * a * B.kernel.get 0 * B.dt * v o - 1 / 2 * b * B.kernel.get 0 * B.dt * lastV o + (p * x o + g) + fr o := by
    funext o
    simp only [Bgle.fRk, Bgle.dU, hB]
    ring
  rw [e]
  exact (((((hr.cmul _).sub (hR.cmul _)).sub (hv.cmul _)).sub (hV.cmul _)).add ((hx.cmul _).add (.const hg))).add hf

theorem Comb.bgleStep (hB : ∀ x, B.force x = p * x + g) (hg : (∑ k ∈ s, c k) * g = g) {x v rmi fr lastV lastRmi : Option ι → K}
    (hx : Comb s c x) (hv : Comb s c v) (hr : Comb s c rmi) (hf : Comb s c fr) (hV : Comb s c lastV) (hR : Comb s c lastRmi) :
    (Comb s c fun o => (B.rkStep (x o) (v o) (rmi o) (fr o) (lastV o) (lastRmi o)).1) ∧
    (Comb s c fun o => (B.rkStep (x o) (v o) (rmi o) (fr o) (lastV o) (lastRmi o)).2.1) ∧
      Comb s c fun o => (B.rkStep (x o) (v o) (rmi o) (fr o) (lastV o) (lastRmi o)).2.2 := by
  have hd : ∀ {f g : Option ι → K} (_ : Comb s c f) (_ : Comb s c g), Comb s c fun o => f o + g o * B.dt / 2 := fun hf hg => by
    simpa only [mul_comm B.dt] using hf.add ((hg.cmul B.dt).div 2)
  have hd' : ∀ {f g : Option ι → K} (_ : Comb s c f) (_ : Comb s c g), Comb s c fun o => f o + g o * B.dt := fun hf hg => by
    simpa only [mul_comm B.dt] using hf.add (hg.cmul B.dt)
  have k1 := Comb.bgleRk hB hg hx hv hr hf hV hR 0 1
  have x2 := hd hx hv
  have v2 := hd hv k1
  have k2 := Comb.bgleRk hB hg x2 v2 hr hf hV hR (1 / 2) (1 / 2)
  have x3 := hd hx v2
  have v3 := hd hv k2
  have k3 := Comb.bgleRk hB hg x3 v3 hr hf hV hR (1 / 2) (1 / 2)
  have x4 := hd' hx v3
  have v4 := hd' hv k3
  have k4 := Comb.bgleRk hB hg x4 v4 hr hf hV hR 1 0
  have sx := ((hv.add (v2.cmul 2)).add (v3.cmul 2)).add v4
  have sk := ((k1.add (k2.cmul 2)).add (k3.cmul 2)).add k4
  refine ⟨?_, ?_, ?_⟩
  · exact hx.add ((sx.cmul B.dt).div 6)
  · exact hv.add ((sk.cmul B.dt).div 6)
  · exact sk.div 6

theorem Comb.bgleMem {v : Option ι → ℕ → K} {n : ℕ} (hv : ∀ t < n, Comb s c fun o => v o t) : Comb s c fun o => B.rmiAt (v o) n := by
  have he : ∀ i : ℕ, Comb s c fun o => Spec.extendZero (v o) ((n : ℤ) - (1 + i : ℕ)) := by
    intro i
    unfold Spec.extendZero
    split_ifs
    · exact .zero
    · exact hv _ (by omega)
  unfold Bgle.rmiAt
  split_ifs
  · unfold Bgle.memVal
    have := (((he (B.kernel.len - 2)).cmul (B.kernel.get (1 + (B.kernel.len - 2)))).cmul (1 / 2)).add
      (Comb.sum (n := range (B.kernel.len - 2)) fun i _ => (he i).cmul (B.kernel.get (1 + i)))
    simpa only [mul_comm B.dt] using this.cmul B.dt
  · exact .zero

/-- The rows of the combination of simulations. -/
theorem bgle_comb (hB : ∀ x, B.force x = p * x + g) (hg : (∑ k ∈ s, c k) * g = g) {nSteps : ℕ} {x0 v0 : Option ι → K}
    (hx : Comb s c x0) (hv : Comb s c v0) {noise : Option ι → ℕ → K} (hf : ∀ t < nSteps, 1 ≤ t → Comb s c fun o => noise o t)
    {trj : Option ι → BgleTrj K} (h : ∀ o, B.IsTrj nSteps (x0 o) (v0 o) (noise o) (trj o)) :
    ∀ t < nSteps, (Comb s c fun o => (trj o).x t) ∧ (Comb s c fun o => (trj o).v t) ∧ (Comb s c fun o => (trj o).a t) ∧
      Comb s c fun o => (trj o).mem t := by
  intro t
  induction t using Nat.strong_induction_on with
  | h t ih =>
    intro ht
    by_cases c0 : t = 0
    · subst c0
      simp only [(h _).hx0, (h _).hv0, (h _).ha0, (h _).hm0]
      exact ⟨hx, hv, .zero, .zero⟩
    · have hV : ∀ r < t, Comb s c fun o => (trj o).v r := fun r hr => (ih r hr (by omega)).2.1
      have hp := ih (t - 1) (by omega) (by omega)
      have z : ∀ f : Option ι → K, Comb s c f → Comb s c fun o => if 1 < t then f o else 0 := by
        intro f hf
        split_ifs
        · exact hf
        · exact .zero
      have key := Comb.bgleStep hB hg hp.1 hp.2.1 (Comb.bgleMem (B := B) hV) (hf t ht (by omega)) (z _ hp.2.1)
        (z _ (Comb.bgleMem (B := B) (n := t - 1) fun r hr => hV r (by omega)))
      have hs : ∀ o, ((trj o).x t, (trj o).v t, (trj o).a t) = _ := fun o => (h o).step t (by omega) ht
      have e1 : (fun o => (trj o).x t) = _ := funext fun o => congrArg Prod.fst (hs o)
      have e2 : (fun o => (trj o).v t) = _ := funext fun o => congrArg (fun q => q.2.1) (hs o)
      have e3 : (fun o => (trj o).a t) = _ := funext fun o => congrArg (fun q => q.2.2) (hs o)
      have e4 : (fun o => (trj o).mem t) = _ := funext fun o => (h o).mem t (by omega) ht
      rw [e1, e2, e3, e4]
      exact ⟨key.1, key.2.1, key.2.2, Comb.bgleMem hV⟩

/-- **C183** Superposition. Let the force be affine in the position. Take simulations from the data `x k`, `v k` with the noises `noise k` and
coefficients of sum 1 (any coefficients when the force is linear). The simulation from the combination of the data with the combination of the
noises succeeds and gives the combination of the trajectories, of the accelerations and of the memory integrals. -/
theorem C183_superposition (hB : ∀ x, B.force x = p * x + g) (hg : g = 0 ∨ ∑ k ∈ s, c k = 1) (hT : 2 ≤ B.kernel.len) {nSteps : ℕ}
    (h1 : 1 ≤ nSteps) {x v : ι → K} {noise0 : ℕ → K} {noise : ι → ℕ → K} (hf : ∀ t < nSteps, 1 ≤ t → noise0 t = ∑ k ∈ s, c k * noise k t)
    {trj : ι → BgleTrj K} (h : ∀ k, B.integrate nSteps (.numpy (x k)) (v k) nSteps (noise k) = .ok (trj k)) :
    ∃ trj0, B.integrate nSteps (.numpy (∑ k ∈ s, c k * x k)) (∑ k ∈ s, c k * v k) nSteps noise0 = .ok trj0 ∧ ∀ t < nSteps,
      trj0.x t = ∑ k ∈ s, c k * (trj k).x t ∧ trj0.v t = ∑ k ∈ s, c k * (trj k).v t ∧
      trj0.a t = ∑ k ∈ s, c k * (trj k).a t ∧ trj0.mem t = ∑ k ∈ s, c k * (trj k).mem t := by
  obtain ⟨trj0, h0, i0⟩ := B.integrate_ok hT h1 (∑ k ∈ s, c k * x k) (∑ k ∈ s, c k * v k) noise0
  have ik : ∀ k, B.IsTrj nSteps (x k) (v k) (noise k) (trj k) := by
    intro k
    obtain ⟨t, e, i⟩ := B.integrate_ok hT h1 (x k) (v k) (noise k)
    rw [h k] at e
    cases e
    exact i
  refine ⟨trj0, h0, ?_⟩
  exact bgle_comb (s := s) (c := c) hB (hg.elim (fun e => by rw [e, mul_zero]) fun e => by rw [e, one_mul])
    (x0 := fun o => o.elim (∑ k ∈ s, c k * x k) x) (v0 := fun o => o.elim (∑ k ∈ s, c k * v k) v) rfl rfl
    (noise := fun o => o.elim noise0 noise) hf (trj := fun o => o.elim trj0 trj)
    (fun o => match o with | none => i0 | some k => ik k)

/-- **C183** The response to the noise. With an affine force the trajectory is that without noise plus, for every frame of the noise, its
value times the response: the difference that a noise of one in this frame alone makes. The response is zero before this frame, and the noise
of the frame zero has none. -/
theorem C183_response (hB : ∀ x, B.force x = p * x + g) (hT : 2 ≤ B.kernel.len) {nSteps : ℕ} (h1 : 1 ≤ nSteps) (x0 v0 : K) :
    ∃ (free : BgleTrj K) (resp : ℕ → BgleTrj K), B.integrate nSteps (.numpy x0) v0 nSteps (fun _ => 0) = .ok free ∧
      (∀ r, B.integrate nSteps (.numpy x0) v0 nSteps (fun t => if t = r then 1 else 0) = .ok (resp r)) ∧
      (∀ r, ∀ t < nSteps, t < r ∨ r = 0 → (resp r).x t = free.x t ∧ (resp r).v t = free.v t) ∧
      ∀ noise, ∃ trj, B.integrate nSteps (.numpy x0) v0 nSteps noise = .ok trj ∧ ∀ t < nSteps,
        trj.x t = free.x t + ∑ r ∈ range nSteps, noise r * ((resp r).x t - free.x t) ∧
        trj.v t = free.v t + ∑ r ∈ range nSteps, noise r * ((resp r).v t - free.v t) := by
  have ok := fun noise => B.integrate_ok hT h1 x0 v0 noise
  obtain ⟨free, hfree, ifree⟩ := ok fun _ => 0
  choose resp hresp iresp using fun r : ℕ => ok fun t => if t = r then 1 else 0
  refine ⟨free, resp, hfree, hresp, fun r t ht htr => ?_, fun noise => ?_⟩
  · rcases htr with htr | rfl
    · obtain ⟨t1, t2, a1, b1, e⟩ := C119_prefix (B := B) hT (m := t + 1) (n := nSteps) (by omega) (by omega) (x0 := x0) (v0 := v0)
        (noise := fun _ => 0) (noise' := fun _ => 0) fun _ _ => rfl
      obtain ⟨t1', t2', a1', b1', e'⟩ := C119_prefix (B := B) hT (m := t + 1) (n := nSteps) (by omega) (by omega) (x0 := x0) (v0 := v0)
        (noise := fun _ => 0) (noise' := fun t => if t = r then 1 else 0) fun u hu => by rw [if_neg (by omega)]
      rw [a1] at a1'
      cases a1'
      rw [hfree] at b1
      cases b1
      rw [hresp r] at b1'
      cases b1'
      have a := e t (by omega)
      have b := e' t (by omega)
      rw [← a.1, ← a.2.1, ← b.1, ← b.2.1]
      exact ⟨rfl, rfl⟩
    · have := bgle_comb (s := ({0} : Finset ℕ)) (c := fun _ => 1) hB (by simp) (x0 := fun _ => x0) (v0 := fun _ => v0)
        (by simp [Comb]) (by simp [Comb]) (noise := fun o => o.elim (fun t => if t = 0 then 1 else 0) fun _ _ => 0)
        (nSteps := nSteps) (fun u _ hu => by simp [Comb]; omega) (trj := fun o => o.elim (resp 0) fun _ => free)
        (fun o => match o with | none => iresp 0 | some _ => ifree) t ht
      simp only [Comb, sum_singleton, one_smul] at this
      exact ⟨this.1, this.2.1⟩
  · obtain ⟨trj, h, h'⟩ := C183_superposition (s := insertNone (range nSteps))
      (c := fun o => o.elim (1 - ∑ r ∈ range nSteps, noise r) noise)
      hB (.inr (by rw [sum_insertNone]; simp)) hT h1 (x := fun _ => x0) (v := fun _ => v0)
      (noise0 := noise) (noise := fun o => o.elim (fun _ => 0) fun r t => if t = r then 1 else 0)
      (fun t ht _ => by
        rw [sum_insertNone]
        simp only [Option.elim, mul_zero, zero_add]
        rw [sum_eq_single t]
        · simp
        · intro r _ hr
          rw [if_neg (fun e => hr e.symm), mul_zero]
        · intro e
          exact absurd (mem_range.2 ht) e)
      (trj := fun o => o.elim free resp) (fun o => match o with | none => hfree | some r => hresp r)
    have hc : ∀ y : K, ∑ k ∈ insertNone (range nSteps), (fun o : Option ℕ => o.elim (1 - ∑ r ∈ range nSteps, noise r) noise) k * y = y := by
      intro y
      rw [← sum_mul, sum_insertNone]
      simp
    rw [hc, hc] at h
    refine ⟨trj, h, fun t ht => ?_⟩
    obtain ⟨e1, e2, -⟩ := h' t ht
    rw [e1, e2, sum_insertNone, sum_insertNone]
    simp only [Option.elim, mul_sub, sum_sub_distrib, sub_mul, one_mul, sum_mul]
    constructor <;> abel

end

/-- **C183** Averages. With an affine force and a random noise of finite mean, the mean of every frame of the trajectory is the frame of the
simulation with the mean of the noise. -/
theorem C183_mean {B : Bgle ℝ} {p g : ℝ} (hB : ∀ x, B.force x = p * x + g) (hT : 2 ≤ B.kernel.len) {nSteps : ℕ} (h1 : 1 ≤ nSteps) (x0 v0 : ℝ)
    {Ω : Type*} [MeasurableSpace Ω] {P : Measure Ω} [IsProbabilityMeasure P]
    {noise : Ω → ℕ → ℝ} (hn : ∀ r < nSteps, Integrable (fun ω => noise ω r) P) :
    ∃ (trj : Ω → BgleTrj ℝ) (mean : BgleTrj ℝ), (∀ ω, B.integrate nSteps (.numpy x0) v0 nSteps (noise ω) = .ok (trj ω)) ∧
      B.integrate nSteps (.numpy x0) v0 nSteps (fun r => ∫ ω, noise ω r ∂P) = .ok mean ∧ ∀ t < nSteps,
        (Integrable (fun ω => (trj ω).x t) P ∧ ∫ ω, (trj ω).x t ∂P = mean.x t) ∧
        (Integrable (fun ω => (trj ω).v t) P ∧ ∫ ω, (trj ω).v t ∂P = mean.v t) := by
  obtain ⟨free, resp, -, -, -, H⟩ := C183_response hB hT h1 x0 v0
  choose trj h h' using fun ω => H (noise ω)
  obtain ⟨mean, hm, hm'⟩ := H fun r => ∫ ω, noise ω r ∂P
  refine ⟨trj, mean, h, hm, fun t ht => ?_⟩
  have key : ∀ (a : ℝ) (e : ℕ → ℝ), Integrable (fun ω => a + ∑ r ∈ range nSteps, noise ω r * e r) P ∧
      ∫ ω, a + ∑ r ∈ range nSteps, noise ω r * e r ∂P = a + ∑ r ∈ range nSteps, (∫ ω, noise ω r ∂P) * e r := by
    intro a e
    have i1 : ∀ r ∈ range nSteps, Integrable (fun ω => noise ω r * e r) P := fun r hr => (hn r (mem_range.1 hr)).mul_const _
    refine ⟨(integrable_const a).add (integrable_finsetSum _ i1), ?_⟩
    rw [integral_add (integrable_const a) (integrable_finsetSum _ i1), integral_finsetSum _ i1, integral_const, probReal_univ, one_smul]
    congr 1
    exact sum_congr rfl fun r _ => integral_mul_const _ _
  constructor
  · rw [show (fun ω => (trj ω).x t) = _ from funext fun ω => (h' ω t ht).1, (hm' t ht).1]
    exact key _ _
  · rw [show (fun ω => (trj ω).v t) = _ from funext fun ω => (h' ω t ht).2, (hm' t ht).2]
    exact key _ _

/-- **C183** Fluctuations. With an affine force the covariances of positions and velocities are those of the noise, multiplied with the responses. -/
theorem C183_covariance {B : Bgle ℝ} {p g : ℝ} (hB : ∀ x, B.force x = p * x + g) (hT : 2 ≤ B.kernel.len) {nSteps : ℕ} (h1 : 1 ≤ nSteps) (x0 v0 : ℝ)
    {Ω : Type*} [MeasurableSpace Ω] {P : Measure Ω} [IsProbabilityMeasure P]
    {noise : Ω → ℕ → ℝ} (hn : ∀ r < nSteps, MemLp (fun ω => noise ω r) 2 P) :
    ∃ (free : BgleTrj ℝ) (resp : ℕ → BgleTrj ℝ) (trj : Ω → BgleTrj ℝ), B.integrate nSteps (.numpy x0) v0 nSteps (fun _ => 0) = .ok free ∧
      (∀ r, B.integrate nSteps (.numpy x0) v0 nSteps (fun t => if t = r then 1 else 0) = .ok (resp r)) ∧
      (∀ ω, B.integrate nSteps (.numpy x0) v0 nSteps (noise ω) = .ok (trj ω)) ∧
      ∀ t < nSteps, ∀ t' < nSteps,
        cov[fun ω => (trj ω).x t, fun ω => (trj ω).x t'; P] = ∑ r ∈ range nSteps, ∑ r' ∈ range nSteps,
          ((resp r).x t - free.x t) * ((resp r').x t' - free.x t') * cov[fun ω => noise ω r, fun ω => noise ω r'; P] ∧
        cov[fun ω => (trj ω).x t, fun ω => (trj ω).v t'; P] = ∑ r ∈ range nSteps, ∑ r' ∈ range nSteps,
          ((resp r).x t - free.x t) * ((resp r').v t' - free.v t') * cov[fun ω => noise ω r, fun ω => noise ω r'; P] ∧
        cov[fun ω => (trj ω).v t, fun ω => (trj ω).v t'; P] = ∑ r ∈ range nSteps, ∑ r' ∈ range nSteps,
          ((resp r).v t - free.v t) * ((resp r').v t' - free.v t') * cov[fun ω => noise ω r, fun ω => noise ω r'; P] := by
  obtain ⟨free, resp, hfree, hresp, -, H⟩ := C183_response hB hT h1 x0 v0
  choose trj h h' using fun ω => H (noise ω)
  refine ⟨free, resp, trj, hfree, hresp, h, fun t ht t' ht' => ?_⟩
  have key : ∀ (a a' : ℝ) (e e' : ℕ → ℝ),
      cov[fun ω => a + ∑ r ∈ range nSteps, noise ω r * e r, fun ω => a' + ∑ r ∈ range nSteps, noise ω r * e' r; P] =
        ∑ r ∈ range nSteps, ∑ r' ∈ range nSteps, e r * e' r' * cov[fun ω => noise ω r, fun ω => noise ω r'; P] := by
    intro a a' e e'
    have m1 : ∀ (e : ℕ → ℝ), ∀ r ∈ range nSteps, MemLp (fun ω => noise ω r * e r) 2 P := fun e r hr => (hn r (mem_range.1 hr)).mul_const _
    have m3 : ∀ e : ℕ → ℝ, MemLp (fun ω => ∑ r ∈ range nSteps, noise ω r * e r) 2 P := fun e => memLp_finsetSum _ (m1 e)
    rw [ProbabilityTheory.covariance_const_add_left ((m3 e).integrable one_le_two), ProbabilityTheory.covariance_const_add_right ((m3 e').integrable one_le_two)]
    rw [ProbabilityTheory.covariance_fun_sum_left' (m1 e) (m3 e')]
    refine sum_congr rfl fun r hr => ?_
    rw [ProbabilityTheory.covariance_fun_sum_right' (m1 e') (m1 e r hr)]
    refine sum_congr rfl fun r' hr' => ?_
    rw [ProbabilityTheory.covariance_mul_const_left, ProbabilityTheory.covariance_mul_const_right]
    ring
  have ex : ∀ t < nSteps, (fun ω => (trj ω).x t) = fun ω => free.x t + ∑ r ∈ range nSteps, noise ω r * ((resp r).x t - free.x t) :=
    fun t ht => funext fun ω => (h' ω t ht).1
  have ev : ∀ t < nSteps, (fun ω => (trj ω).v t) = fun ω => free.v t + ∑ r ∈ range nSteps, noise ω r * ((resp r).v t - free.v t) :=
    fun t ht => funext fun ω => (h' ω t ht).2
  rw [ex t ht, ev t ht, ex t' ht', ev t' ht']
  exact ⟨key _ _ _ _, key _ _ _ _, key _ _ _ _⟩

/-- A particle with the force `1 - x` and a kernel of three points. -/
def springBgle (K : Type*) [Field K] : Bgle K := ⟨fun x => 1 - x, ⟨3, fun i => 3 - i⟩, 1 / 2⟩

theorem springBgle_linear (K : Type*) [Field K] (x : K) : (springBgle K).force x = -1 * x + 1 := by
  simp only [springBgle]
  ring

example := C183_response (springBgle_linear ℚ) (by decide) (nSteps := 20) (by decide) 3 1
example := C183_mean (springBgle_linear ℝ) (by simp [springBgle]) (nSteps := 20) (by simp) 3 1 (P := coinLaw) (noise := fun ω t => coinNoise ω t 0)
  fun _ _ => .of_finite
example := C183_covariance (springBgle_linear ℝ) (by simp [springBgle]) (nSteps := 20) (by simp) 3 1 (P := coinLaw)
  (noise := fun ω t => coinNoise ω t 0) fun _ _ => .of_discrete

/-- The middle between two simulations is the simulation from the middle. -/
example {n : ℕ} (hn : 1 ≤ n) (noise noise' : ℕ → ℚ) {trj trj' : BgleTrj ℚ} (h : (springBgle ℚ).integrate n (.numpy 3) 1 n noise = .ok trj)
    (h' : (springBgle ℚ).integrate n (.numpy (-1)) 5 n noise' = .ok trj') :
    ∃ trj0, (springBgle ℚ).integrate n (.numpy 1) 3 n (fun t => (noise t + noise' t) / 2) = .ok trj0 ∧
      ∀ t < n, trj0.x t = (trj.x t + trj'.x t) / 2 := by
  obtain ⟨trj0, h0, H⟩ := C183_superposition (springBgle_linear ℚ) (s := (univ : Finset Bool)) (c := fun _ => 1 / 2) (.inr (by simp)) (by decide)
    hn (x := fun b => if b then 3 else -1) (v := fun b => if b then 1 else 5)
    (noise0 := fun t => (noise t + noise' t) / 2) (noise := fun b => if b then noise else noise')
    (fun t _ _ => by simp; ring) (trj := fun b => if b then trj else trj') (fun b => by cases b; exacts [h', h])
  refine ⟨trj0, by simpa [show (2⁻¹ * 3 + -2⁻¹ : ℚ) = 1 by norm_num, show (2⁻¹ + 2⁻¹ * 5 : ℚ) = 3 by norm_num] using h0, fun t ht => ?_⟩
  rw [(H t ht).1]
  simp
  ring

end Verif
