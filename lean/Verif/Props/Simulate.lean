import Verif.Model.CopyModel
import Verif.Props.ConvergeNoisy
import Verif.Props.Sampled

/-!
# Simulation of an estimated model (C149, C150)
-/

namespace Verif

open LArr Finset

namespace Spec

/-- The class of integrators meant for a class of models. -/
def Meant (m : ModelClass) (c : IntegratorClass) : Prop :=
  (m = .posGle ∧ c = .gle) ∨ (m = .constKernel ∧ c = .constKernel)

/-- The integrator `I` holds the terms of the model: its force is what `force_eval` returns, its memory acts on the
velocity `w` by what `kernel_eval` returns, and its kernel has `N` points of step `dt`. -/
structure Simulates {K : Type*} [Field K] {d nB nD b : ℕ} (s : ModelState K) (N : ℕ) (I : Integrator K d nB nD b) : Prop where
  force : ∀ y, ∃ R, forceEval s none 1 (fun _ => point y) = .ok R ∧ ∀ l : Fin d, R.get 0 l = Matrix.vecMul (I.basis y) I.forceCoeff l
  memory : ∀ y w, ∃ R, kernelEvalAt s 1 (fun _ => point y) = .ok R ∧ ∀ t, ∀ l : Fin d,
    Matrix.vecMul (I.proj.mulVec (I.vec y w)) (I.kernel.get t) l = ∑ i : Fin d, R t l 0 i * w i
  len : I.kernel.len = N
  dt : I.dt = s.dt

end Spec

set_option linter.unusedSectionVars false

section
variable {K : Type*} [Field K]

theorem point_fin {d : ℕ} (y : Fin d → K) (i : Fin d) : point y i = y i := by simp [point]

/-- A model that has been estimated: the force, the kernel and, with a rank projection, the matrix of the projection have the
sizes of the class, and the observable has as many components as the positions. -/
structure Estimated (s : ModelState K) (c : LArr K) (d : String) {b : ℕ} (r : KernelData K b s.bm.dimObs) : Prop where
  force : HasForce s c d
  wf : s.bm.WF
  kernel : s.kernel = some ⟨b, s.bm.dimObs, r⟩
  dims : s.bm.dimx = s.bm.dimObs
  plain : s.rankProjection = false → Spec.nCorr s.bm = b
  projected : s.rankProjection = true → ∃ P, s.Prange = some P ∧ P.dims = ["dim_basis", "dim_basis_old"] ∧
    P.shape = [b, Spec.nCorr s.bm]

/-- What `_copy_from_estimator` copies from a model with force `c` and kernel `r`. -/
def copied (s : ModelState K) (c : LArr K) {b x : ℕ} (r : KernelData K b x) (trunc : Option ℕ) : Copied K where
  bm := s.bm
  forceCoeff := c
  kernel := ⟨b, x, ⟨min (trunc.getD s.truncInd) r.kernel.len, r.kernel.get⟩⟩
  rankProjection := s.rankProjection
  Prange := s.Prange
  dt := s.dt
  nKernel := s.bm.nKernel
  dim := s.bm.dimObs

theorem copy_ok {s : ModelState K} {c : LArr K} {b x : ℕ} {r : KernelData K b x} (hf : s.forceCoeff = some c)
    (hk : s.kernel = some ⟨b, x, r⟩) (trunc : Option ℕ) : copyFromEstimator s trunc = .ok (copied s c r trunc) := by
  simp only [copyFromEstimator, hf, hk, copied]

variable [DecidableEq K]

/-- The integrator of an estimated model. -/
theorem simulate_integrator {s : ModelState K} {c : LArr K} {d : String} {b : ℕ} {r : KernelData K b s.bm.dimObs}
    (h : Estimated s c d r) {cls : IntegratorClass} (hm : Spec.Meant s.bm.cls cls) (trunc : Option ℕ) :
    ∃ (nB nD : ℕ) (I : Integrator K s.bm.dimObs nB nD b), Spec.Simulates s (min (trunc.getD s.truncInd) r.kernel.len) I ∧
      (∀ j k l, I.kernel.get j k l = r.kernel.get j k l) ∧
      (s.rankProjection = false → ∀ y w (k : Fin b), I.proj.mulVec (I.vec y w) k =
        ∑ i : Fin s.bm.dimObs, Spec.kernelAt s.bm (point y) k i * w i) ∧
      ∀ nSteps x0 noise, simulate s cls trunc nSteps x0 noise = I.run nSteps x0 noise := by
  obtain ⟨C, hC⟩ : ∃ C : Copied K, C = copied s c r trunc := ⟨_, rfl⟩
  have hcopy : copyFromEstimator s trunc = .ok C := by rw [hC]; exact copy_ok h.force.force h.kernel trunc
  have hnF : s.bm.nForce = s.bm.basis.nOut := by
    unfold BasisModel.nForce
    rcases hm with ⟨e, -⟩ | ⟨e, -⟩ <;> rw [e]
  have hnV : C.nVec cls s.bm.dimObs = Spec.nCorr s.bm := by
    unfold Copied.nVec Spec.nCorr
    rcases hm with ⟨e, rfl⟩ | ⟨e, rfl⟩
    · rw [hC]; simp [copied, BasisModel.nDeriv, e]; rfl
    · rw [e]; exact h.dims.symm
  have hfit : C.Fits cls s.bm.dimObs := by
    unfold Copied.Fits
    rw [hnV]
    subst hC
    refine ⟨rfl, h.dims, by change c.shape = [s.bm.basis.nOut, _]; rw [h.force.shape, hnF], rfl, ?_⟩
    change if s.rankProjection then s.Prange.map (·.shape) = some [b, _] else _ = b
    split_ifs with hr
    · obtain ⟨P, hP, -, hs⟩ := h.projected hr
      rw [hP, Option.map_some, hs]
    · exact h.plain (by simpa using hr)
  have hnK : Spec.nKernelAt s.bm = Spec.nCorr s.bm := by
    unfold Spec.nKernelAt Spec.nCorr
    rcases hm with ⟨e, -⟩ | ⟨e, -⟩ <;> rw [e]
    exact h.dims.symm
  have hc0 : Spec.constRows s.bm = 0 := by
    unfold Spec.constRows
    rcases hm with ⟨e, -⟩ | ⟨e, -⟩ <;> simp [e]
  have hvec : ∀ (y w : Fin s.bm.dimObs → K) (q : Fin (C.nVec cls s.bm.dimObs)),
      (C.integrator cls s.bm.dimObs).vec y w q = ∑ i : Fin s.bm.dimObs, Spec.kernelAt s.bm (point y) q i * w i := by
    intro y w q
    unfold Spec.kernelAt
    rcases hm with ⟨e, rfl⟩ | ⟨e, rfl⟩
    · subst hC; rw [e]; rfl
    · rw [e]
      obtain ⟨p, hp⟩ : ∃ p : Fin s.bm.dimObs, p = q := ⟨_, rfl⟩
      change w q = _
      rw [← hp]
      simp only [ite_mul, one_mul, zero_mul, ← Fin.ext_iff, Finset.sum_ite_eq, mem_univ, if_true]
  have key : ∀ y : Fin s.bm.dimObs → K, ∃ R, kernelEvalAt s 1 (fun _ => point y) = .ok R ∧ ∀ t, ∀ l i : Fin s.bm.dimObs,
      R t l 0 i = ∑ k : Fin b, r.kernel.get t k l * ∑ q ∈ range (Spec.nCorr s.bm),
        (if s.rankProjection then (s.Prange.map fun P => P.get [k.1, q]).getD 0 else if k.1 = q then 1 else 0) *
          Spec.kernelAt s.bm (point y) q i := by
    intro y
    by_cases hr : s.rankProjection = true
    · obtain ⟨P, hP, hd, hs⟩ := h.projected hr
      obtain ⟨R, hR, hv⟩ := C108_kernel_eval_projected h.kernel hr hP hd (r := b) (by rw [hs, hnK]) (by rw [hc0]; rfl) 1 (fun _ => point y)
      refine ⟨R, hR, fun t l i => ?_⟩
      rw [hv t l l.2 0 i, hnK]
      refine sum_congr rfl fun k _ => ?_
      simp only [hr, if_true, hP, Option.map_some, Option.getD_some, hc0, Nat.add_zero]
    · have hr : s.rankProjection = false := by simpa using hr
      obtain ⟨R, hR, hv⟩ := C108_kernel_eval h.kernel hr (by rw [hc0, hnK]; exact h.plain hr) 1 (fun _ => point y)
      refine ⟨R, hR, fun t l i => ?_⟩
      rw [hv t l l.2 0 i]
      have e1 := h.plain hr
      subst e1
      rw [← Equiv.sum_comp (finCongr hnK)]
      refine sum_congr rfl fun k _ => ?_
      simp only [hr, hc0, Nat.add_zero, ite_mul, one_mul, zero_mul, Bool.false_eq_true, if_false]
      rw [Finset.sum_ite_eq, if_pos (mem_range.2 (Fin.is_lt _))]
      rfl
  subst hC
  obtain ⟨I, hI⟩ : ∃ I : Integrator K s.bm.dimObs s.bm.basis.nOut ((copied s c r trunc).nVec cls s.bm.dimObs) b,
      I = (copied s c r trunc).integrator cls s.bm.dimObs := ⟨_, rfl⟩
  have hproj : ∀ k q, I.proj k q = if s.rankProjection then (s.Prange.map fun P => P.get [k.1, q.1]).getD 0 else
      if k.1 = q.1 then 1 else 0 := fun k q => by rw [hI]; rfl
  have hker : ∀ j k l, I.kernel.get j k l = r.kernel.get j k l := fun j k l => by
    rw [hI]
    exact dif_pos l.2
  have hvec' : ∀ y w q, I.vec y w q = ∑ i : Fin s.bm.dimObs, Spec.kernelAt s.bm (point y) q i * w i := fun y w q => by
    rw [hI]; exact hvec y w q
  refine ⟨_, _, I, ⟨fun y => ?_, fun y w => ?_, by rw [hI]; rfl, by rw [hI]; rfl⟩, hker,
    fun hr y w k => ?_, fun nSteps x0 noise => ?_⟩
  · obtain ⟨R, h1, -, -, h4⟩ := forceEval_ok h.force h.wf 1 (fun _ => point y)
    refine ⟨R, h1, fun l => ?_⟩
    rw [h4, Finset.sum_range, hI]
    rfl
  · obtain ⟨R, hR, hv⟩ := key y
    refine ⟨R, hR, fun t l => ?_⟩
    simp only [hv, Matrix.vecMul, Matrix.mulVec, dotProduct, hvec', hproj, hker]
    rw [← hnV]
    simp only [Finset.sum_range, Finset.sum_mul, Finset.mul_sum]
    rw [Finset.sum_comm (s := univ (α := Fin s.bm.dimObs))]
    refine sum_congr rfl fun k _ => ?_
    rw [Finset.sum_comm]
    exact sum_congr rfl fun i _ => sum_congr rfl fun q _ => by ring
  · have hk : (k : ℕ) < (copied s c r trunc).nVec cls s.bm.dimObs := by rw [hnV, h.plain hr]; exact k.2
    simp only [Matrix.mulVec, dotProduct, hvec', hproj, hr, Bool.false_eq_true, if_false]
    rw [Finset.sum_eq_single_of_mem (⟨k, hk⟩ : Fin ((copied s c r trunc).nVec cls s.bm.dimObs)) (mem_univ _)
      fun q _ hq => by rw [if_neg (fun e => hq (Fin.ext e.symm)), zero_mul]]
    simp
  · simp only [simulate, hcopy, bind, Except.bind, Copied.run, if_pos hfit]
    rw [hI]
    rfl

/-- **C149** A model with memory of the gradients simulated by `Integrator_gle`, or with a constant kernel simulated by
`Integrator_gle_const_kernel`: the equation that `run` integrates has the force of `force_eval` and the memory of `kernel_eval`. -/
theorem C149_simulates_partial {s : ModelState K} {c : LArr K} {d : String} {b : ℕ} {r : KernelData K b s.bm.dimObs}
    (h : Estimated s c d r) {cls : IntegratorClass} (hm : Spec.Meant s.bm.cls cls) (trunc : Option ℕ) :
    ∃ (nB nD : ℕ) (I : Integrator K s.bm.dimObs nB nD b), Spec.Simulates s (min (trunc.getD s.truncInd) r.kernel.len) I ∧
      ∀ nSteps x0 noise, simulate s cls trunc nSteps x0 noise = I.run nSteps x0 noise := by
  obtain ⟨nB, nD, I, h1, -, -, h4⟩ := simulate_integrator h hm trunc
  exact ⟨nB, nD, I, h1, h4⟩

/-- **C149**, before the estimation: `AttributeError`. -/
theorem C149_not_computed {s : ModelState K} (h : s.forceCoeff = none ∨ s.kernel = none) (cls : IntegratorClass)
    (trunc : Option ℕ) {d : ℕ} (nSteps : ℕ) (x0 : Option (InitData K d)) (noise : ℕ → Fin d → K) :
    simulate s cls trunc nSteps x0 noise = .error .attribute := by
  have : copyFromEstimator s trunc = .error .attribute := by
    unfold copyFromEstimator
    rcases h with h | h
    · rw [h]
    · cases s.forceCoeff <;> rw [h]
  simp only [simulate, this, bind, Except.bind]

/-- **C149** is false of the class with friction: the coefficients of the friction make `run` raise `ValueError`, for both
classes of integrators. -/
theorem C149_friction_fails {s : ModelState K} (hf : s.bm.cls = .withFriction) {c : LArr K} {d : String} {b x : ℕ}
    {r : KernelData K b x} (hc : HasForce s c d) (hw : s.bm.WF) (hk : s.kernel = some ⟨b, x, r⟩) (hd : 1 ≤ s.bm.nDeriv)
    (cls : IntegratorClass) (trunc : Option ℕ) {dim : ℕ} (nSteps : ℕ) (x0 : Option (InitData K dim)) (noise : ℕ → Fin dim → K) :
    simulate s cls trunc nSteps x0 noise = .error .value := by
  have hn : ¬ (copied s c r trunc).Fits cls dim := by
    rintro ⟨-, -, h, -⟩
    rw [show (copied s c r trunc).forceCoeff = c from rfl, hc.shape, nForce_wf hw, if_pos hf] at h
    have h1 := (List.cons.inj h).1
    change s.bm.basis.nOut + s.bm.nDeriv = s.bm.basis.nOut at h1
    omega
  simp only [simulate, copy_ok hc.force hk, bind, Except.bind, Copied.run, if_neg hn]

/-- **C149** is false of the hybrid class: the kernel has rows for the velocity and for the functions of the basis, and
`basis_vector` of the integrators has only one of the two. -/
theorem C149_hybrid_fails {s : ModelState K} (hf : s.bm.cls = .hybrid) {c : LArr K} {x : ℕ}
    {r : KernelData K (Spec.nCorr s.bm) x} (hc : s.forceCoeff = some c) (hp : s.rankProjection = false)
    (hk : s.kernel = some ⟨_, x, r⟩) (hx : 1 ≤ s.bm.dimx) (ho : 1 ≤ s.bm.basis.nOut)
    (cls : IntegratorClass) (trunc : Option ℕ) {dim : ℕ} (nSteps : ℕ) (x0 : Option (InitData K dim)) (noise : ℕ → Fin dim → K) :
    simulate s cls trunc nSteps x0 noise = .error .value := by
  have hn : ¬ (copied s c r trunc).Fits cls dim := by
    rintro ⟨h1, h2, -, -, h⟩
    rw [show (copied s c r trunc).rankProjection = false from hp, if_neg (by simp)] at h
    have hN : Spec.nCorr s.bm = s.bm.dimx + s.bm.basis.nOut := by unfold Spec.nCorr; rw [hf]
    replace h : (copied s c r trunc).nVec cls dim = s.bm.dimx + s.bm.basis.nOut := h.trans hN
    change s.bm.dimx = dim at h2
    cases cls
    · change s.bm.nDeriv = _ at h
      have : s.bm.nDeriv = s.bm.basis.nOut := by unfold BasisModel.nDeriv; rw [hf]
      omega
    · change dim = _ at h
      omega
  simp only [simulate, copy_ok hc hk, bind, Except.bind, Copied.run, if_neg hn]

end

/-! ### Estimate, then simulate -/

namespace Spec

/-- The force with coefficients `F`, at a point. -/
noncomputable def gleForceAt (m : BasisModel ℝ) (F : Mat ℝ m.nForce m.dimObs) (y : Fin m.dimObs → ℝ) (l : Fin m.dimObs) : ℝ :=
  ∑ q ∈ range m.basis.nOut, m.basis.basis (point y) q * entry F q l

/-- The functions of position and velocity on which the kernel acts: `∇b_k(y) · w`, or `w_k` for a constant kernel. -/
noncomputable def memoryAt (m : BasisModel ℝ) (y w : Fin m.dimObs → ℝ) (k : Fin (nCorr m)) : ℝ :=
  ∑ i : Fin m.dimObs, kernelAt m (point y) k i * w i

/-- The functions of the basis and of the kernel are continuously differentiable. -/
structure SmoothBasis (m : BasisModel ℝ) : Prop where
  basis : ∀ q < m.basis.nOut, ContDiff ℝ 1 fun y : Fin m.dimObs → ℝ => m.basis.basis (point y) q
  kernel : ∀ k < nCorr m, ∀ i < m.dimObs, ContDiff ℝ 1 fun y : Fin m.dimObs → ℝ => kernelAt m (point y) k i

end Spec

open Spec (Averages NearAverages Estimates)

section
variable {m : BasisModel ℝ} {F : Mat ℝ m.nForce m.dimObs}

theorem Spec.SmoothBasis.force (h : Spec.SmoothBasis m) : ContDiff ℝ 1 (Spec.gleForceAt m F) := by
  refine contDiff_pi.2 fun l => ?_
  unfold Spec.gleForceAt
  exact ContDiff.sum fun q hq => (h.basis q (mem_range.1 hq)).mul contDiff_const

theorem Spec.SmoothBasis.memory (h : Spec.SmoothBasis m) :
    ContDiff ℝ 1 (fun y : (Fin m.dimObs → ℝ) × (Fin m.dimObs → ℝ) => Spec.memoryAt m y.1 y.2) := by
  refine contDiff_pi.2 fun k => ?_
  unfold Spec.memoryAt
  refine ContDiff.sum fun i _ => ((h.kernel k k.2 i i.2).comp contDiff_fst).mul ?_
  exact (contDiff_apply ℝ ℝ i).comp contDiff_snd

/-- The functions of the basis are bounded near a solution. -/
theorem basis_bound {T : ℝ} (h : Spec.SmoothBasis m) {x : ℝ → Fin m.dimObs → ℝ}
    (hx : ∀ i, ContinuousOn (fun t => x t i) (Set.Icc 0 T)) :
    ∃ B : ℝ, 0 ≤ B ∧ ∀ t ∈ Set.Icc 0 T, ∀ y : Fin m.dimObs → ℝ, (∀ i, |y i - x t i| ≤ 1) →
      ∑ q ∈ range m.basis.nOut, |m.basis.basis (point y) q| ≤ B := by
  have hxc : ContinuousOn x (Set.Icc 0 T) := continuousOn_pi.2 hx
  obtain ⟨R, hR⟩ := isCompact_Icc.exists_bound_of_continuousOn hxc
  have hc : Continuous fun y : Fin m.dimObs → ℝ => ∑ q ∈ range m.basis.nOut, |m.basis.basis (point y) q| :=
    continuous_finsetSum _ fun q hq => (h.basis q (mem_range.1 hq)).continuous.abs
  obtain ⟨B, hB⟩ := (isCompact_closedBall (0 : Fin m.dimObs → ℝ) (|R| + 1)).exists_bound_of_continuousOn hc.continuousOn
  refine ⟨|B|, abs_nonneg _, fun t ht y hy => ?_⟩
  have hin : y ∈ Metric.closedBall (0 : Fin m.dimObs → ℝ) (|R| + 1) := by
    rw [mem_closedBall_zero_iff]
    refine (pi_norm_le_iff_of_nonneg (by positivity)).2 fun i => ?_
    have h1 : |x t i| ≤ R := (norm_le_pi_norm (x t) i).trans (hR t ht)
    have h2 := abs_add_le (y i - x t i) (x t i)
    rw [sub_add_cancel] at h2
    have := le_abs_self R
    have h3 := hy i
    rw [Real.norm_eq_abs]
    linarith
  have := hB y hin
  rw [Real.norm_eq_abs] at this
  exact (le_abs_self _).trans (this.trans (le_abs_self B))

/-- A model that has been estimated up to `e` simulates the equation up to a multiple of `dt + e`. -/
theorem simulate_near {cls : IntegratorClass} (hm : Spec.Meant m.cls cls) (hd : m.dimx = m.dimObs) (hw : m.WF)
    (hb : Spec.SmoothBasis m) {T : ℝ} {k : ℝ → Mat ℝ (Spec.nCorr m) m.dimObs} {ξ x v : ℝ → Fin m.dimObs → ℝ}
    (hg : Spec.NoisyGle T (Spec.gleForceAt m F) (Spec.memoryAt m) k ξ x v) (hk : Spec.Lip T k) (hξ : Spec.Lip T (Spec.rowMat ξ)) :
    ∃ C δ : ℝ, 0 < C ∧ 0 < δ ∧ ∀ (s : ModelState ℝ) (c : LArr ℝ) (d : String) (N nSteps : ℕ) (D : InitData ℝ m.dimObs)
      (noise : ℕ → Fin m.dimObs → ℝ) (e : ℝ), s.bm = m → HasForce s c d → s.rankProjection = false →
      Spec.Estimates m F k N s.dt e e s → 0 < s.dt → s.dt ≤ δ → 0 ≤ e → e ≤ δ → 2 ≤ N → N ≤ s.truncInd →
      (nSteps - 1 : ℕ) * s.dt ≤ T → T ≤ (N - 1 : ℕ) * s.dt → 1 ≤ D.n → D.n ≤ nSteps →
      (∀ t < D.n, D.time t = t * s.dt ∧ ∀ i, |D.x t i - x (t * s.dt) i| ≤ e ∧ |D.v t i - v (t * s.dt) i| ≤ e) →
      (∀ n < nSteps, ∀ i, |noise n i - ξ (n * s.dt) i| ≤ e) →
      ∃ trj, simulate s cls none nSteps (some D) noise = .ok trj ∧ ∀ n < nSteps, ∀ i,
        |trj.x n i - x (n * s.dt) i| ≤ C * (s.dt + e) ∧ |trj.v n i - v (n * s.dt) i| ≤ C * (s.dt + e) := by
  obtain ⟨B, hB0, hB⟩ := basis_bound hb (T := T) (x := x) fun i t ht => (hg.pos t ht i).continuousWithinAt
  obtain ⟨C, δ, hδ, H⟩ := C148_run_noise hg hb.force hb.memory hk hξ
  refine ⟨(|C| + 1) * (B + 1), δ / (B + 1), by positivity, by positivity, ?_⟩
  intro s c d N nSteps D noise e hbm hf hp hest hdt hdtδ he heδ hN hNt hT hcov hD1 hD2 hinit hnoise
  subst hbm
  obtain ⟨r, r1, r2, -, r4⟩ := hest.kernel
  have hE : Estimated s c d r := ⟨hf, hw, r1, hd, fun _ => rfl, fun h => by rw [hp] at h; cases h⟩
  obtain ⟨nB, nD, I, sim, hker, hvec, hrun⟩ := simulate_integrator hE hm none
  have hlen : N ≤ I.kernel.len := by rw [sim.len]; exact le_min (by simpa using hNt) r2
  have le1 : e ≤ (B + 1) * e := by nlinarith
  have hδ1 : δ / (B + 1) ≤ δ := div_le_self hδ.le (by linarith)
  have hnear : NearGle T ((B + 1) * e) (Spec.gleForceAt s.bm F) (Spec.memoryAt s.bm) k x v I := by
    refine ⟨fun t ht y hy l => ?_, fun t ht y w _ _ q => ?_, hN.trans hlen, fun j hj hjT q l => ?_, Or.inl (hcov.trans ?_)⟩
    · obtain ⟨R, h1, h2⟩ := sim.force y
      obtain ⟨R', h3, -, -, h4⟩ := hest.force 1 fun _ => point y
      obtain rfl : R = R' := Except.ok.inj (h1.symm.trans h3)
      rw [← h2 l]
      refine (h4 0 l l.2).trans ?_
      have := mul_le_mul_of_nonneg_left (hB t ht y hy) he
      nlinarith
    · rw [hvec hp y w q]
      unfold Spec.memoryAt
      rw [sub_self, abs_zero]
      positivity
    · rw [sim.dt] at hjT ⊢
      have hjN : j < N := by
        have h1 : (j : ℝ) * s.dt ≤ (N - 1 : ℕ) * s.dt := hjT.trans hcov
        have h2 : (j : ℝ) ≤ (N - 1 : ℕ) := le_of_mul_le_mul_right h1 hdt
        have : j ≤ N - 1 := by exact_mod_cast h2
        omega
      rw [hker]
      exact ((r4 j hjN).2 q l).trans le1
    · rw [sim.dt]
      refine mul_le_mul_of_nonneg_right ?_ hdt.le
      exact_mod_cast (by omega : N - 1 ≤ I.kernel.len - 1)
  obtain ⟨trj, h1, h2⟩ := H nB nD I nSteps D noise ((B + 1) * e) (by rw [sim.dt]; exact hdt) (by rw [sim.dt]; exact hdtδ.trans hδ1)
    (by positivity) (by rw [le_div_iff₀' (by positivity)] at heδ; exact heδ) (by rw [sim.dt]; exact hT) hnear hD1 hD2
    (by
      rw [sim.dt]
      exact fun t ht => ⟨(hinit t ht).1, fun i => ⟨((hinit t ht).2 i).1.trans le1, ((hinit t ht).2 i).2.trans le1⟩⟩)
    (by
      rw [sim.dt]
      exact fun n hn i => (hnoise n hn i).trans le1)
  refine ⟨trj, (hrun _ _ _).trans h1, fun n hn i => ?_⟩
  rw [sim.dt] at h2
  have bound : C * (s.dt + (B + 1) * e) ≤ (|C| + 1) * (B + 1) * (s.dt + e) := by
    have a1 : C * (s.dt + (B + 1) * e) ≤ (|C| + 1) * (s.dt + (B + 1) * e) :=
      mul_le_mul_of_nonneg_right ((le_abs_self C).trans (by linarith)) (by positivity)
    have a2 : s.dt + (B + 1) * e ≤ (B + 1) * (s.dt + e) := by nlinarith
    rw [mul_assoc]
    exact a1.trans (mul_le_mul_of_nonneg_left a2 (by positivity))
  exact ⟨((h2 n hn i).1).trans bound, ((h2 n hn i).2).trans bound⟩

theorem computeCorrs_frame {K : Type*} [Field K] [LinearOrder K] {env : Env K} {method : String} {vectorize second : Bool} {rankTol : Option K} {s s' : EstState K}
    (h : computeCorrs env method vectorize second rankTol s = (s', none)) : s'.model.bm = s.model.bm ∧ s'.model.dt = s.model.dt ∧
    s'.model.truncInd = s.model.truncInd ∧ s'.model.rankProjection = s.model.rankProjection ∧
    s'.model.forceCoeff = s.model.forceCoeff := by
  unfold computeCorrs at h
  split at h
  · simp [raises] at h
  · split at h
    · simp [raises] at h
    · dsimp only at h
      split_ifs at h <;> (try split at h) <;>
        (obtain ⟨rfl, -⟩ := Prod.mk.inj h; exact ⟨rfl, rfl, rfl, rfl, rfl⟩)
    · simp [raises] at h

theorem computeKernelStep_frame {K : Type*} [Field K] [LinearOrder K] {km : String} {k0 : ∀ b x : ℕ, Option (Mat K b x)} {s s' : EstState K}
    (h : computeKernelStep km k0 s = (s', none)) : s'.model.bm = s.model.bm ∧ s'.model.dt = s.model.dt ∧
    s'.model.truncInd = s.model.truncInd ∧ s'.model.rankProjection = s.model.rankProjection ∧
    s'.model.forceCoeff = s.model.forceCoeff := by
  unfold computeKernelStep at h
  split at h
  · simp [raises] at h
  · dsimp only at h
    split_ifs at h
    · simp [raises] at h
    · split at h
      · simp [raises] at h
      · obtain ⟨rfl, -⟩ := Prod.mk.inj h
        exact ⟨rfl, rfl, rfl, rfl, rfl⟩

/-- The settings of the model after the three steps. -/
theorem estimation_frame {env : Env ℝ} {method km : String} {vectorize second : Bool} {rankTol : Option ℝ} {d : String}
    {s s1 s2 s3 : EstState ℝ} (hs : Setup env method vectorize m d s) (h1 : computeMeanForce env s = (s1, none))
    (h2 : computeCorrs env method vectorize second rankTol s1 = (s2, none))
    (h3 : computeKernelStep km (fun _ _ => none) s2 = (s3, none)) :
    ∃ c, s3.model.bm = m ∧ HasForce s3.model c d ∧ s3.model.rankProjection = false ∧ s3.model.dt = s.model.dt ∧
      s3.model.truncInd = s.model.truncInd := by
  obtain ⟨rfl, hs⟩ : s.model.bm = m ∧ Setup env method vectorize m d s := ⟨hs.bm, hs⟩
  have hpos : ∀ xva ∈ s.xvas, 1 ≤ xva.n := fun xva hx => hs.tpos.trans (hs.tle xva hx)
  obtain ⟨c, hc, c1, c2, -, -⟩ := computeMeanForce_ok hs.loop hs.wf hs.obs hs.ne hpos h1
  obtain ⟨-, e2, -, e4, e5, e6, -⟩ := computeMeanForce_frame h1
  obtain ⟨f1, f2, f3, f4, f5⟩ := computeCorrs_frame h2
  obtain ⟨g1, g2, g3, g4, g5⟩ := computeKernelStep_frame h3
  have hbm : s3.model.bm = s.model.bm := by rw [g1, f1, e2]
  refine ⟨c, hbm, ⟨by rw [g5, f5, hc], c1, by rw [hbm]; exact c2, hs.obs.1, hs.obs.2.1⟩, by rw [g4, f4, e6]; exact hs.noProj,
    by rw [g2, f2, e4], by rw [g3, f3, e5]⟩

section
variable {μ : Averages m.nForce (Spec.nCorr m) m.dimObs} {T MW S : ℝ} {k : ℝ → Mat ℝ (Spec.nCorr m) m.dimObs}
  {ξ x v : ℝ → Fin m.dimObs → ℝ} {cls : IntegratorClass}

/-- What is asked of the simulation: `nSteps` steps of `dt` that do not go beyond the times `S` of the solution, initial rows
and values of the noise that are within `ε` of the solution and of its noise. -/
structure Spec.Launch {n : ℕ} (S dt ε : ℝ) (ξ x v : ℝ → Fin n → ℝ) (nSteps : ℕ) (D : InitData ℝ n)
    (noise : ℕ → Fin n → ℝ) : Prop where
  time : (nSteps - 1 : ℕ) * dt ≤ S
  one : 1 ≤ D.n
  le : D.n ≤ nSteps
  init : ∀ t < D.n, D.time t = t * dt ∧ ∀ i, |D.x t i - x (t * dt) i| ≤ ε ∧ |D.v t i - v (t * dt) i| ≤ ε
  noise : ∀ n < nSteps, ∀ i, |noise n i - ξ (n * dt) i| ≤ ε

/-- The simulation of the model `s` succeeds, and its rows are within `e` of `x` and `v`. -/
def Spec.Close {n : ℕ} (s : ModelState ℝ) (cls : IntegratorClass) (dt e : ℝ) (x v : ℝ → Fin n → ℝ) (nSteps : ℕ)
    (D : InitData ℝ n) (noise : ℕ → Fin n → ℝ) : Prop :=
  ∃ trj, simulate s cls none nSteps (some D) noise = .ok trj ∧ ∀ j < nSteps, ∀ i,
    |trj.x j i - x (j * dt) i| ≤ e ∧ |trj.v j i - v (j * dt) i| ≤ e

set_option maxHeartbeats 1000000 in
/-- The three steps and the simulation. -/
theorem chain (hm : Spec.Meant m.cls cls) (hd : m.dimx = m.dimObs) (hw : m.WF) (hb : Spec.SmoothBasis m)
    (hg : Spec.NoisyGle S (Spec.gleForceAt m F) (Spec.memoryAt m) k ξ x v) (hkS : Spec.Lip S k) (hξ : Spec.Lip S (Spec.rowMat ξ)) (C : ℝ) :
    ∃ C' δ : ℝ, 0 < δ ∧ ∀ (env : Env ℝ) (method km : String) (vectorize second : Bool) (rankTol : Option ℝ) (d : String)
      (s s1 s2 s3 : EstState ℝ) (N nSteps : ℕ) (D : InitData ℝ m.dimObs) (noise : ℕ → Fin m.dimObs → ℝ) (ε η : ℝ),
      Setup env method vectorize m d s → computeMeanForce env s = (s1, none) →
      computeCorrs env method vectorize second rankTol s1 = (s2, none) →
      computeKernelStep km (fun _ _ => none) s2 = (s3, none) →
      Estimates m F k N s.model.dt (C * ε) (C * η) s3.model → 0 < s.model.dt → s.model.dt ≤ δ → 0 ≤ ε → ε ≤ η → η ≤ δ →
      2 ≤ N → N ≤ s.model.truncInd → S ≤ (N - 1 : ℕ) * s.model.dt →
      Spec.Launch S s.model.dt ε ξ x v nSteps D noise →
      Spec.Close s3.model cls s.model.dt (C' * (s.model.dt + η)) x v nSteps D noise := by
  obtain ⟨C0, δ, hC0, hδ, H⟩ := simulate_near hm hd hw hb hg hkS hξ
  refine ⟨C0 * (|C| + 1), δ / (|C| + 1), by positivity, ?_⟩
  intro env method km vectorize second rankTol d s s1 s2 s3 N nSteps D noise ε η hs h1 h2 h3 hest hdt hdtδ hε hεη hηδ hN hNt hcov hl
  obtain ⟨c, e1, e2, e3, e4, e5⟩ := estimation_frame hs h1 h2 h3
  have hη : 0 ≤ η := hε.trans hεη
  have hCp : 0 ≤ |C| := abs_nonneg C
  obtain ⟨e, he⟩ : ∃ e : ℝ, e = (|C| + 1) * η := ⟨_, rfl⟩
  have b1 : C * ε ≤ e := by
    rw [he]
    have a1 := mul_le_mul_of_nonneg_right (le_abs_self C) hε
    have a2 := mul_le_mul_of_nonneg_left hεη hCp
    nlinarith
  have b2 : C * η ≤ e := by
    rw [he]
    have a1 := mul_le_mul_of_nonneg_right (le_abs_self C) hη
    nlinarith
  have b3 : ε ≤ e := by rw [he]; nlinarith [mul_nonneg hCp hη]
  have b4 : δ / (|C| + 1) ≤ δ := div_le_self hδ.le (by linarith)
  have b5 : e ≤ δ := by
    rw [le_div_iff₀' (by positivity)] at hηδ
    rw [he]; exact hηδ
  obtain ⟨trj, t1, t2⟩ := H s3.model c d N nSteps D noise e e1 e2 e3 (by rw [e4]; exact Spec.Estimates.mono hest b1 b2) (by rw [e4]; exact hdt)
    (by rw [e4]; exact hdtδ.trans b4) (hε.trans b3) b5 hN (by rw [e5]; exact hNt) (by rw [e4]; exact hl.time)
    (by rw [e4]; exact hcov) hl.one hl.le
    (by
      rw [e4]
      exact fun t ht => ⟨(hl.init t ht).1, fun i => ⟨((hl.init t ht).2 i).1.trans b3, ((hl.init t ht).2 i).2.trans b3⟩⟩)
    (by
      rw [e4]
      exact fun n hn i => (hl.noise n hn i).trans b3)
  rw [e4] at t2
  have bound : C0 * (s.model.dt + e) ≤ C0 * (|C| + 1) * (s.model.dt + η) := by
    rw [mul_assoc]
    refine mul_le_mul_of_nonneg_left ?_ hC0.le
    rw [he]
    nlinarith [mul_nonneg hCp hdt.le]
  exact ⟨trj, t1, fun n hn i => ⟨((t2 n hn i).1).trans bound, ((t2 n hn i).2).trans bound⟩⟩

/-- **C150**, rectangle rule of the second kind: a model estimated from data whose averages are within `ε` of those of the
process, and then simulated with a noise within `ε` of that of a trajectory of the process, gives this trajectory up to
`C (dt + ε)`. -/
theorem C150_second_kind_rect (hm : Spec.Meant m.cls cls) (hd : m.dimx = m.dimObs) (hw : m.WF) (hx1 : 1 ≤ m.dimx)
    (hb : Spec.SmoothBasis m) (hG : μ.gram.det ≠ 0) (hF : μ.gram * F = μ.proj)
    (hW : ∀ t ∈ Set.Icc 0 T, ∀ i j, |μ.cross t i j| ≤ MW ∧ |μ.dcross t i j| ≤ MW) (hB0 : (μ.corr 0).det ≠ 0)
    (hB : Spec.Lip T μ.dcorr) (hk : Spec.Lip T k) (heq : Spec.SecondKind T (μ.corr 0) μ.dcorr (μ.dresidual F) k)
    (hg : Spec.NoisyGle S (Spec.gleForceAt m F) (Spec.memoryAt m) k ξ x v) (hkS : Spec.Lip S k) (hξ : Spec.Lip S (Spec.rowMat ξ)) :
    ∃ C δ : ℝ, 0 < δ ∧ ∀ (env : Env ℝ) (method : String) (vectorize : Bool) (rankTol : Option ℝ) (d : String)
      (s : EstState ℝ) (nSteps : ℕ) (D : InitData ℝ m.dimObs) (noise : ℕ → Fin m.dimObs → ℝ) (ε : ℝ),
      Setup env method vectorize m d s → NearAverages m s.model.Lobs μ s.xvas s.model.truncInd s.model.dt ε →
      0 < s.model.dt → s.model.dt ≤ δ → 0 ≤ ε → ε ≤ δ → 2 ≤ s.model.truncInd →
      ((s.model.truncInd - 1 : ℕ) : ℝ) * s.model.dt ≤ T → S ≤ ((s.model.truncInd - 1 : ℕ) : ℝ) * s.model.dt →
      Spec.Launch S s.model.dt ε ξ x v nSteps D noise →
      ∃ s1 s2 s3, computeMeanForce env s = (s1, none) ∧ computeCorrs env method vectorize true rankTol s1 = (s2, none) ∧
        computeKernelStep "second_kind_rect" (fun _ _ => none) s2 = (s3, none) ∧
        Spec.Close s3.model cls s.model.dt (C * (s.model.dt + ε)) x v nSteps D noise := by
  have hh : m.cls ≠ .hybrid := by rcases hm with ⟨e, -⟩ | ⟨e, -⟩ <;> simp [e]
  obtain ⟨C1, δ1, hδ1, H1⟩ := C142_second_kind_rect hG hF hW hw hx1 hh hB0 hB hk heq
  obtain ⟨C2, δ2, hδ2, H2⟩ := chain hm hd hw hb hg hkS hξ C1
  refine ⟨|C2| * 2, min δ1 (δ2 / 2), by positivity, ?_⟩
  intro env method vectorize rankTol d s nSteps D noise ε hs hn hdt hdtδ hε hεδ hN hT hcov hl
  obtain ⟨s1, s2, s3, h1, h2, h3, hest⟩ := H1 env method vectorize rankTol d s ε hs hn hdt (hdtδ.trans (min_le_left _ _)) hε
    (hεδ.trans (min_le_left _ _)) hT
  have l1 := hdtδ.trans (min_le_right _ _)
  have l2 := hεδ.trans (min_le_right _ _)
  obtain ⟨trj, t1, t2⟩ := H2 env method _ vectorize true rankTol d s s1 s2 s3 _ nSteps D noise ε _ hs h1 h2 h3 hest hdt (by linarith) hε
    (by linarith) (by linarith) hN le_rfl hcov hl
  refine ⟨s1, s2, s3, h1, h2, h3, trj, t1, fun n hn i => ?_⟩
  have bound : C2 * (s.model.dt + (s.model.dt + ε)) ≤ |C2| * 2 * (s.model.dt + ε) := by
    have := le_abs_self C2
    have a1 : C2 * (s.model.dt + (s.model.dt + ε)) ≤ |C2| * (s.model.dt + (s.model.dt + ε)) := by gcongr
    nlinarith [abs_nonneg C2, mul_nonneg (abs_nonneg C2) hε]
  exact ⟨((t2 n hn i).1).trans bound, ((t2 n hn i).2).trans bound⟩

/-- **C150**, trapezoidal rule of the second kind. -/
theorem C150_second_kind_trapz (hm : Spec.Meant m.cls cls) (hd : m.dimx = m.dimObs) (hw : m.WF) (hx1 : 1 ≤ m.dimx)
    (hb : Spec.SmoothBasis m) (hG : μ.gram.det ≠ 0) (hF : μ.gram * F = μ.proj)
    (hW : ∀ t ∈ Set.Icc 0 T, ∀ i j, |μ.cross t i j| ≤ MW ∧ |μ.dcross t i j| ≤ MW) (hB0 : (μ.corr 0).det ≠ 0)
    {B' : ℝ → Mat ℝ (Spec.nCorr m) (Spec.nCorr m)} {k' : ℝ → Mat ℝ (Spec.nCorr m) m.dimObs}
    (hB : Spec.DerivOn T μ.dcorr B') (hB' : Spec.Lip T B') (hk : Spec.DerivOn T k k') (hk' : Spec.Lip T k')
    (heq : Spec.SecondKind T (μ.corr 0) μ.dcorr (μ.dresidual F) k)
    (hg : Spec.NoisyGle S (Spec.gleForceAt m F) (Spec.memoryAt m) k ξ x v) (hkS : Spec.Lip S k) (hξ : Spec.Lip S (Spec.rowMat ξ)) :
    ∃ C δ : ℝ, 0 < δ ∧ ∀ (env : Env ℝ) (method : String) (vectorize : Bool) (rankTol : Option ℝ) (d : String)
      (s : EstState ℝ) (nSteps : ℕ) (D : InitData ℝ m.dimObs) (noise : ℕ → Fin m.dimObs → ℝ) (ε : ℝ),
      Setup env method vectorize m d s → NearAverages m s.model.Lobs μ s.xvas s.model.truncInd s.model.dt ε →
      0 < s.model.dt → s.model.dt ≤ δ → 0 ≤ ε → ε ≤ δ → 2 ≤ s.model.truncInd →
      ((s.model.truncInd - 1 : ℕ) : ℝ) * s.model.dt ≤ T → S ≤ ((s.model.truncInd - 1 : ℕ) : ℝ) * s.model.dt →
      Spec.Launch S s.model.dt ε ξ x v nSteps D noise →
      ∃ s1 s2 s3, computeMeanForce env s = (s1, none) ∧ computeCorrs env method vectorize true rankTol s1 = (s2, none) ∧
        computeKernelStep "second_kind_trapz" (fun _ _ => none) s2 = (s3, none) ∧
        Spec.Close s3.model cls s.model.dt (C * (s.model.dt + ε)) x v nSteps D noise := by
  have hh : m.cls ≠ .hybrid := by rcases hm with ⟨e, -⟩ | ⟨e, -⟩ <;> simp [e]
  obtain ⟨C1, δ1, hδ1, H1⟩ := C142_second_kind_trapz hG hF hW hw hx1 hh hB0 hB hB' hk hk' heq
  obtain ⟨C2, δ2, hδ2, H2⟩ := chain hm hd hw hb hg hkS hξ C1
  refine ⟨|C2| * 2, min 1 (min δ1 (δ2 / 2)), by positivity, ?_⟩
  intro env method vectorize rankTol d s nSteps D noise ε hs hn hdt hdtδ hε hεδ hN hT hcov hl
  obtain ⟨s1, s2, s3, h1, h2, h3, hest⟩ := H1 env method vectorize rankTol d s ε hs hn hdt
    (hdtδ.trans ((min_le_right _ _).trans (min_le_left _ _))) hε (hεδ.trans ((min_le_right _ _).trans (min_le_left _ _))) hT
  have l0 := hdtδ.trans (min_le_left _ _)
  have l1 := hdtδ.trans ((min_le_right _ _).trans (min_le_right _ _))
  have l2 := hεδ.trans ((min_le_right _ _).trans (min_le_right _ _))
  have sq : s.model.dt ^ 2 ≤ s.model.dt := by nlinarith
  have sq0 : 0 ≤ s.model.dt ^ 2 := by positivity
  obtain ⟨trj, t1, t2⟩ := H2 env method _ vectorize true rankTol d s s1 s2 s3 _ nSteps D noise ε _ hs h1 h2 h3 hest hdt (by linarith) hε
    (by linarith) (by linarith) hN le_rfl hcov hl
  refine ⟨s1, s2, s3, h1, h2, h3, trj, t1, fun n hn i => ?_⟩
  have bound : C2 * (s.model.dt + (s.model.dt ^ 2 + ε)) ≤ |C2| * 2 * (s.model.dt + ε) := by
    have := le_abs_self C2
    have a1 : C2 * (s.model.dt + (s.model.dt ^ 2 + ε)) ≤ |C2| * (s.model.dt + (s.model.dt ^ 2 + ε)) := by gcongr
    have a2 : |C2| * (s.model.dt + (s.model.dt ^ 2 + ε)) ≤ |C2| * (2 * (s.model.dt + ε)) :=
      mul_le_mul_of_nonneg_left (by linarith) (abs_nonneg C2)
    linarith
  exact ⟨((t2 n hn i).1).trans bound, ((t2 n hn i).2).trans bound⟩

/-- **C150**, rectangle rule of the first kind, which divides the errors of the averages by `dt`. -/
theorem C150_rect (hm : Spec.Meant m.cls cls) (hd : m.dimx = m.dimObs) (hw : m.WF) (hx1 : 1 ≤ m.dimx)
    (hb : Spec.SmoothBasis m) (hG : μ.gram.det ≠ 0) (hF : μ.gram * F = μ.proj)
    (hW : ∀ t ∈ Set.Icc 0 T, ∀ i j, |μ.cross t i j| ≤ MW ∧ |μ.dcross t i j| ≤ MW) (hB0 : (μ.corr 0).det ≠ 0)
    {B' : ℝ → Mat ℝ (Spec.nCorr m) (Spec.nCorr m)} (hB : Spec.DerivOn T μ.corr B') (hB' : Spec.Lip T B') (hk : Spec.Lip T k)
    (heq : Spec.FirstKind T μ.corr (μ.residual F) k)
    (hg : Spec.NoisyGle S (Spec.gleForceAt m F) (Spec.memoryAt m) k ξ x v) (hkS : Spec.Lip S k) (hξ : Spec.Lip S (Spec.rowMat ξ)) :
    ∃ C δ : ℝ, 0 < δ ∧ ∀ (env : Env ℝ) (method km : String) (vectorize : Bool) (rankTol : Option ℝ) (d : String)
      (s : EstState ℝ) (nSteps : ℕ) (D : InitData ℝ m.dimObs) (noise : ℕ → Fin m.dimObs → ℝ) (ε : ℝ),
      km ∈ ["rect", "rectangular"] →
      Setup env method vectorize m d s → NearAverages m s.model.Lobs μ s.xvas s.model.truncInd s.model.dt ε →
      0 < s.model.dt → s.model.dt ≤ δ → 0 ≤ ε → ε ≤ δ * s.model.dt → 3 ≤ s.model.truncInd →
      ((s.model.truncInd - 1 : ℕ) : ℝ) * s.model.dt ≤ T → S ≤ ((s.model.truncInd - 2 : ℕ) : ℝ) * s.model.dt →
      Spec.Launch S s.model.dt ε ξ x v nSteps D noise →
      ∃ s1 s2 s3, computeMeanForce env s = (s1, none) ∧ computeCorrs env method vectorize true rankTol s1 = (s2, none) ∧
        computeKernelStep km (fun _ _ => none) s2 = (s3, none) ∧
        Spec.Close s3.model cls s.model.dt (C * (s.model.dt + ε / s.model.dt)) x v nSteps D noise := by
  obtain ⟨C1, δ1, hδ1, H1⟩ := C142_rect hG hF hW hw hx1 hB0 hB hB' hk heq
  obtain ⟨C2, δ2, hδ2, H2⟩ := chain hm hd hw hb hg hkS hξ C1
  refine ⟨|C2| * 2, min 1 (min δ1 (δ2 / 2)), by positivity, ?_⟩
  intro env method km vectorize rankTol d s nSteps D noise ε hkm hs hn hdt hdtδ hε hεδ hN hT hcov hl
  have l0 := hdtδ.trans (min_le_left _ _)
  have l1 := hdtδ.trans ((min_le_right _ _).trans (min_le_right _ _))
  have l2 : ε / s.model.dt ≤ min 1 (min δ1 (δ2 / 2)) := (div_le_iff₀ hdt).2 hεδ
  have l3 := l2.trans ((min_le_right _ _).trans (min_le_right _ _))
  obtain ⟨s1, s2, s3, h1, h2, h3, hest⟩ := H1 env method km vectorize rankTol d s ε hkm hs hn hdt
    (hdtδ.trans ((min_le_right _ _).trans (min_le_left _ _))) hε
    (hεδ.trans (mul_le_mul_of_nonneg_right ((min_le_right _ _).trans (min_le_left _ _)) hdt.le)) (by omega) hT
  have q0 : 0 ≤ ε / s.model.dt := by positivity
  have q1 : ε ≤ ε / s.model.dt := (le_div_iff₀ hdt).2 (by nlinarith)
  obtain ⟨trj, t1, t2⟩ := H2 env method _ vectorize true rankTol d s s1 s2 s3 _ nSteps D noise ε _ hs h1 h2 h3 hest hdt (by linarith) hε
    (by linarith) (by linarith) (by omega) (by omega) (by rw [Nat.sub_sub]; exact hcov) hl
  refine ⟨s1, s2, s3, h1, h2, h3, trj, t1, fun n hn i => ?_⟩
  have bound : C2 * (s.model.dt + (s.model.dt + ε / s.model.dt)) ≤ |C2| * 2 * (s.model.dt + ε / s.model.dt) := by
    have := le_abs_self C2
    have a1 : C2 * (s.model.dt + (s.model.dt + ε / s.model.dt)) ≤ |C2| * (s.model.dt + (s.model.dt + ε / s.model.dt)) := by gcongr
    have a2 : |C2| * (s.model.dt + (s.model.dt + ε / s.model.dt)) ≤ |C2| * (2 * (s.model.dt + ε / s.model.dt)) :=
      mul_le_mul_of_nonneg_left (by linarith) (abs_nonneg C2)
    linarith
  exact ⟨((t2 n hn i).1).trans bound, ((t2 n hn i).2).trans bound⟩

/-- **C150**, trapezoidal rule of the first kind, which divides the errors of the averages by `dt²`. -/
theorem C150_trapz (hm : Spec.Meant m.cls cls) (hd : m.dimx = m.dimObs) (hw : m.WF) (hx1 : 1 ≤ m.dimx)
    (hb : Spec.SmoothBasis m) (hG : μ.gram.det ≠ 0) (hF : μ.gram * F = μ.proj)
    (hW : ∀ t ∈ Set.Icc 0 T, ∀ i j, |μ.cross t i j| ≤ MW ∧ |μ.dcross t i j| ≤ MW) (hB0 : (μ.corr 0).det ≠ 0)
    {B1 B2 B3 : ℝ → Mat ℝ (Spec.nCorr m) (Spec.nCorr m)} {k1 k2 : ℝ → Mat ℝ (Spec.nCorr m) m.dimObs}
    (hB1 : Spec.DerivOn T μ.corr B1) (hB2 : Spec.DerivOn T B1 B2) (hB3 : Spec.DerivOn T B2 B3) (hLB : Spec.Lip T B3)
    (hk1 : Spec.DerivOn T k k1) (hk2 : Spec.DerivOn T k1 k2) (hLk : Spec.Lip T k2)
    (heq : Spec.FirstKind T μ.corr (μ.residual F) k) (h0 : μ.dresidual F 0 = μ.corr 0 * k 0)
    (hg : Spec.NoisyGle S (Spec.gleForceAt m F) (Spec.memoryAt m) k ξ x v) (hkS : Spec.Lip S k) (hξ : Spec.Lip S (Spec.rowMat ξ)) :
    ∃ C δ : ℝ, 0 < δ ∧ ∀ (env : Env ℝ) (method : String) (vectorize : Bool) (rankTol : Option ℝ) (d : String)
      (s : EstState ℝ) (nSteps : ℕ) (D : InitData ℝ m.dimObs) (noise : ℕ → Fin m.dimObs → ℝ) (ε : ℝ),
      Setup env method vectorize m d s → NearAverages m s.model.Lobs μ s.xvas s.model.truncInd s.model.dt ε →
      0 < s.model.dt → s.model.dt ≤ δ → 0 ≤ ε → ε ≤ δ * s.model.dt ^ 2 → 3 ≤ s.model.truncInd →
      ((s.model.truncInd - 1 : ℕ) : ℝ) * s.model.dt ≤ T → S ≤ ((s.model.truncInd - 2 : ℕ) : ℝ) * s.model.dt →
      Spec.Launch S s.model.dt ε ξ x v nSteps D noise →
      ∃ s1 s2 s3, computeMeanForce env s = (s1, none) ∧ computeCorrs env method vectorize true rankTol s1 = (s2, none) ∧
        computeKernelStep "trapz" (fun _ _ => none) s2 = (s3, none) ∧
        Spec.Close s3.model cls s.model.dt (C * (s.model.dt + ε / s.model.dt ^ 2)) x v nSteps D noise := by
  have hh : m.cls ≠ .hybrid := by rcases hm with ⟨e, -⟩ | ⟨e, -⟩ <;> simp [e]
  obtain ⟨C1, δ1, hδ1, H1⟩ := C142_trapz hG hF hW hw hx1 hh hB0 hB1 hB2 hB3 hLB hk1 hk2 hLk heq h0
  obtain ⟨C2, δ2, hδ2, H2⟩ := chain hm hd hw hb hg hkS hξ C1
  refine ⟨|C2| * 2, min 1 (min δ1 (δ2 / 2)), by positivity, ?_⟩
  intro env method vectorize rankTol d s nSteps D noise ε hs hn hdt hdtδ hε hεδ hN hT hcov hl
  have l0 := hdtδ.trans (min_le_left _ _)
  have l1 := hdtδ.trans ((min_le_right _ _).trans (min_le_right _ _))
  have sqp : 0 < s.model.dt ^ 2 := by positivity
  have l2 : ε / s.model.dt ^ 2 ≤ min 1 (min δ1 (δ2 / 2)) := (div_le_iff₀ sqp).2 hεδ
  have l3 := l2.trans ((min_le_right _ _).trans (min_le_right _ _))
  obtain ⟨s1, s2, s3, h1, h2, h3, hest⟩ := H1 env method vectorize rankTol d s ε hs hn hdt
    (hdtδ.trans ((min_le_right _ _).trans (min_le_left _ _))) hε
    (hεδ.trans (mul_le_mul_of_nonneg_right ((min_le_right _ _).trans (min_le_left _ _)) sqp.le)) (by omega) hT
  have sq : s.model.dt ^ 2 ≤ s.model.dt := by nlinarith
  have q0 : 0 ≤ ε / s.model.dt ^ 2 := by positivity
  have q1 : ε ≤ ε / s.model.dt ^ 2 := (le_div_iff₀ sqp).2 (by nlinarith)
  obtain ⟨trj, t1, t2⟩ := H2 env method _ vectorize true rankTol d s s1 s2 s3 _ nSteps D noise ε _ hs h1 h2 h3 hest hdt (by linarith) hε
    (by linarith) (by linarith) (by omega) (by omega) (by rw [Nat.sub_sub]; exact hcov) hl
  refine ⟨s1, s2, s3, h1, h2, h3, trj, t1, fun n hn i => ?_⟩
  have bound : C2 * (s.model.dt + (s.model.dt ^ 2 + ε / s.model.dt ^ 2)) ≤ |C2| * 2 * (s.model.dt + ε / s.model.dt ^ 2) := by
    have := le_abs_self C2
    have a1 : C2 * (s.model.dt + (s.model.dt ^ 2 + ε / s.model.dt ^ 2)) ≤ |C2| * (s.model.dt + (s.model.dt ^ 2 + ε / s.model.dt ^ 2)) := by
      gcongr
    have a2 : |C2| * (s.model.dt + (s.model.dt ^ 2 + ε / s.model.dt ^ 2)) ≤ |C2| * (2 * (s.model.dt + ε / s.model.dt ^ 2)) :=
      mul_le_mul_of_nonneg_left (by linarith) (abs_nonneg C2)
    linarith
  exact ⟨((t2 n hn i).1).trans bound, ((t2 n hn i).2).trans bound⟩

end

end

/-! ### Examples -/

namespace Ex

/-- Kernels and forces of the models of `Ex.kernelModel`. -/
def simModel (cls : ModelClass) (b nF : ℕ) : ModelState ℚ :=
  { kernelModel cls b with forceCoeff := some (mk2 "dim_basis" nF "dim_x" 1 fun k _ => (k : ℚ) - 3) }

def simModelP : ModelState ℚ :=
  { kernelModelP with forceCoeff := some (mk2 "dim_basis" 2 "dim_x" 1 fun k _ => (k : ℚ) - 3) }

theorem estimated : Estimated (simModel .posGle 2 2) (mk2 "dim_basis" 2 "dim_x" 1 fun k _ => (k : ℚ) - 3) "dim_x" (kernelData 2) :=
  ⟨⟨rfl, rfl, rfl, by decide, by decide⟩, wf _, rfl, rfl, fun _ => rfl, fun h => by cases h⟩

theorem estimatedC : Estimated (simModel .constKernel 1 2) (mk2 "dim_basis" 2 "dim_x" 1 fun k _ => (k : ℚ) - 3) "dim_x" (kernelData 1) :=
  ⟨⟨rfl, rfl, rfl, by decide, by decide⟩, wf _, rfl, rfl, fun _ => rfl, fun h => by cases h⟩

theorem estimatedP : Estimated simModelP (mk2 "dim_basis" 2 "dim_x" 1 fun k _ => (k : ℚ) - 3) "dim_x" (kernelData 1) :=
  ⟨⟨rfl, rfl, rfl, by decide, by decide⟩, wf _, rfl, rfl, (fun h => by cases h), fun _ => ⟨_, rfl, rfl, rfl⟩⟩

def noVelData : KernelData ℚ 1 1 := ⟨⟨3, fun _ => Matrix.of fun _ _ => 1⟩, ⟨3, fun t => t⟩⟩

/-- The function `x` and the kernel 1 on it, without force. -/
def noVelModel : ModelState ℚ :=
  { bm := ⟨.noVelBasis, ⟨1, false, fun x _ => x 0, fun _ _ _ => 1, fun _ _ _ _ => 0, fun _ _ => 0⟩, 1, 1⟩, Lobs := "a", dt := 1
    truncInd := 3, forceCoeff := some (mk2 "dim_basis" 1 "dim_x" 1 fun _ _ => 0), kernel := some ⟨1, 1, noVelData⟩
    method := some "rect", rankProjection := false, Prange := none, gramForce := none, gramKernel := none, effMass := none }

end Ex

example := C149_simulates_partial Ex.estimated (.inl ⟨rfl, rfl⟩) (some 2)
example := C149_simulates_partial Ex.estimatedC (.inr ⟨rfl, rfl⟩) none
example := C149_simulates_partial Ex.estimatedP (.inl ⟨rfl, rfl⟩) none
example := C149_not_computed (s := Ex.kernelModel .posGle 2) (.inl rfl) .gle none 5 none (fun _ (_ : Fin 1) => 0)
example := C149_friction_fails (s := Ex.simModel .withFriction 2 4) rfl ⟨rfl, rfl, rfl, by decide, by decide⟩ (Ex.wf _) rfl (by decide)
  .gle none 5 none (fun _ (_ : Fin 1) => 0)
example := C149_hybrid_fails (s := Ex.simModel .hybrid 3 2) rfl rfl rfl rfl (by decide) (by decide) .gle none 5 none (fun _ (_ : Fin 1) => 0)

/-- **C149** is false of the class whose kernel acts on the functions of the position: the memory of the integrator acts on
`∇b · v`. Without force, from the position 1 at rest, nothing moves, although the kernel and the function do not vanish. -/
theorem C149_position_fails : ∃ s : ModelState ℚ, s.bm.cls = .noVelBasis ∧
    (∃ R, kernelEvalAt s 1 (fun _ _ => 1) = .ok R ∧ ∀ t, R t 0 0 0 = 1) ∧
    (∃ R, forceEval s none 1 (fun _ _ => 1) = .ok R ∧ R.get 0 0 = 0) ∧
    ∃ trj, simulate (d := 1) s .gle none 3 (some ⟨1, fun _ => 0, fun _ _ => 1, fun _ _ => 0⟩) (fun _ _ => 0) = .ok trj ∧
      ∀ n < 3, trj.x n 0 = 1 ∧ trj.v n 0 = 0 := by
  refine ⟨Ex.noVelModel, rfl, ?_, ?_, ?_⟩
  · obtain ⟨R, h1, h2⟩ := C108_kernel_eval (s := Ex.noVelModel) rfl rfl rfl 1 fun _ _ => (1 : ℚ)
    refine ⟨R, h1, fun t => (h2 t 0 (by decide) 0 0).trans ((Fin.sum_univ_one _).trans ?_)⟩
    simp [Spec.kernelAt, Ex.noVelModel, Ex.noVelData]
  · obtain ⟨R, h1, -, -, h4⟩ := forceEval_ok (s := Ex.noVelModel) (c := mk2 "dim_basis" 1 "dim_x" 1 fun _ _ => 0) (d := "dim_x")
      ⟨rfl, rfl, rfl, by decide, by decide⟩ (fun h => by cases h) 1 fun _ _ => (1 : ℚ)
    refine ⟨R, h1, (h4 0 0).trans ?_⟩
    simp [mk2]
  · have h : (match simulate (d := 1) Ex.noVelModel .gle none 3 (some ⟨1, fun _ => 0, fun _ _ => 1, fun _ _ => 0⟩) (fun _ _ => 0) with
        | .ok trj => (List.range 3).all fun n => decide (trj.x n 0 = 1) && decide (trj.v n 0 = 0)
        | .error _ => false) = true := by decide +kernel
    split at h
    · exact ⟨_, ‹_›, by simpa using h⟩
    · cases h

namespace TwoOscillators

open Real

/-- The trajectory `sin(t) + sin(7 t)` solves the equation, with the noise `144/5 sin(7 t / 5)`. -/
theorem gle (S : ℝ) : Spec.NoisyGle S (Spec.gleForceAt model F) (Spec.memoryAt model) k (fun t _ => 144 / 5 * sin (7 / 5 * t))
    (fun t _ => W 1 1 t) (fun t _ => U 1 7 t) := by
  constructor
  · intro t _ i
    exact ((W_deriv 1 1 t).congr_deriv (by norm_num)).hasDerivWithinAt
  · intro t _ i
    have h1 := U_deriv 1 7 t
    refine (h1.congr_deriv ?_).hasDerivWithinAt
    have e1 : Spec.gleForceAt model F (fun _ => W 1 1 t) i = -25 * W 1 1 t := by
      obtain rfl : i = ⟨0, by decide⟩ := Subsingleton.elim (α := Fin 1) i _
      have a1 : Spec.entry F 0 0 = -25 := by
        rw [Spec.entry, dif_pos ⟨by decide, by decide⟩]
        rfl
      simp only [Spec.gleForceAt]
      refine (Finset.sum_range_one _).trans ?_
      rw [a1]
      simp [model, basis, point]
      ring
    have e2 : ∀ s, Matrix.vecMul (Spec.memoryAt model (fun _ => W 1 1 (t - s)) (fun _ => U 1 7 (t - s))) (k s) i =
        576 / 25 * (cos (1 * (t - s)) * cos (7 / 5 * s)) + 4032 / 25 * (cos (7 * (t - s)) * cos (7 / 5 * s)) := fun s => by
      have a1 : ∀ q, Spec.memoryAt model (fun _ => W 1 1 (t - s)) (fun _ => U 1 7 (t - s)) q = U 1 7 (t - s) := fun q => by
        simp only [Spec.memoryAt]
        refine (Fin.sum_univ_one _).trans ?_
        simp [Spec.kernelAt, model, basis]
      have a2 : ∀ q l, k s q l = kt s := fun _ _ => rfl
      simp only [Matrix.vecMul, dotProduct, a1, a2]
      rw [Finset.sum_const, show (univ : Finset (Fin (Spec.nCorr model))).card = 1 from rfl, one_smul]
      simp only [U, kt, one_mul]
      ring
    simp only [e1, e2]
    rw [intervalIntegral.integral_add (Continuous.intervalIntegrable (by fun_prop) _ _)
      (Continuous.intervalIntegrable (by fun_prop) _ _), intervalIntegral.integral_const_mul, intervalIntegral.integral_const_mul,
      integral_cos_cos _ _ _ (by norm_num), integral_cos_cos _ _ _ (by norm_num)]
    simp only [W, one_mul]
    ring

theorem smooth : Spec.SmoothBasis model where
  basis q _ := by
    have : (fun y : Fin model.dimObs → ℝ => model.basis.basis (point y) q) = fun y => y ⟨0, by decide⟩ := by
      funext y
      simp [model, basis, point]
    rw [this]
    exact contDiff_apply ℝ ℝ _
  kernel q _ i _ := contDiff_const

theorem noise_lip {S : ℝ} : Spec.Lip S (Spec.rowMat fun (t : ℝ) (_ : Fin model.dimObs) => 144 / 5 * sin (7 / 5 * t)) := by
  refine ⟨1008 / 25, fun s _ t _ _ _ => ?_⟩
  have h : ∀ t, HasDerivAt (fun t : ℝ => 144 / 5 * sin (7 / 5 * t)) (1008 / 25 * cos (7 / 5 * t)) t := fun t =>
    ((((hasDerivAt_id t).const_mul (7 / 5)).sin).const_mul (144 / 5)).congr_deriv (by simp only [id]; ring)
  have := Convex.norm_image_sub_le_of_norm_hasDerivWithin_le (s := Set.univ) (C := 1008 / 25)
    (fun x _ => (h x).hasDerivWithinAt) (fun x _ => by
      rw [norm_eq_abs, abs_mul]
      exact (mul_le_of_le_one_right (abs_nonneg _) (abs_cos_le_one _)).trans (by norm_num [abs_of_pos])) convex_univ (Set.mem_univ t) (Set.mem_univ s)
  rw [norm_eq_abs, norm_eq_abs] at this
  exact this

theorem lip_half {b x : ℕ} {f : ℝ → Matrix (Fin b) (Fin x) ℝ} (h : Spec.Lip 1 f) : Spec.Lip (1 / 2) f := by
  obtain ⟨L, hL⟩ := h
  exact ⟨L, fun s hs t ht => hL s ⟨hs.1, hs.2.trans (by norm_num)⟩ t ⟨ht.1, ht.2.trans (by norm_num)⟩⟩

/-- The model estimated from the four trajectories with the time step `1/(N-1)`, simulated with the noise of the third one,
gives the third one up to `C dt`. -/
theorem simulated : ∃ C δ : ℝ, 0 < δ ∧ ∀ N extra : ℕ, 2 ≤ N → 1 / ((N - 1 : ℕ) : ℝ) ≤ δ →
    ∃ s1 s2 s3, computeMeanForce env (state (1 / ((N - 1 : ℕ) : ℝ)) N extra) = (s1, none) ∧
      computeCorrs env "direct" false true none s1 = (s2, none) ∧
      computeKernelStep "second_kind_rect" (fun _ _ => none) s2 = (s3, none) ∧
      ∃ trj, simulate (d := 1) s3.model .gle none N (some ⟨1, fun _ => 0, fun _ _ => 0, fun _ _ => 8⟩)
          (fun n _ => 144 / 5 * sin (7 / 5 * (n * (1 / ((N - 1 : ℕ) : ℝ))))) = .ok trj ∧
        |trj.x (N - 1) ⟨0, by decide⟩ - (sin 1 + sin 7)| ≤ C * (1 / ((N - 1 : ℕ) : ℝ)) := by
  obtain ⟨C, δ, hδ, H⟩ := C150_second_kind_rect (cls := .gle) (.inl ⟨rfl, rfl⟩) rfl (fun h => by cases h) le_rfl smooth gram_det force cross_le
    corr_det (lip_of (fun t => W_deriv (1 / 2) (343 / 2) t) (U_le _ _)) (lip_of kt_deriv kt1_le) secondKind (gle 1)
    (lip_of kt_deriv kt1_le) noise_lip
  refine ⟨C, δ, hδ, fun N extra hN hδN => ?_⟩
  have hN0 : (0 : ℝ) < ((N - 1 : ℕ) : ℝ) := by exact_mod_cast (by omega : 0 < N - 1)
  have h1 : ((N - 1 : ℕ) : ℝ) * (1 / ((N - 1 : ℕ) : ℝ)) = 1 := by field_simp
  obtain ⟨s1, s2, s3, a1, a2, a3, trj, a4, a5⟩ := H env "direct" false none "dim_x" (state (1 / ((N - 1 : ℕ) : ℝ)) N extra) N
    ⟨1, fun _ => 0, fun _ _ => 0, fun _ _ => 8⟩ (fun n _ => 144 / 5 * sin (7 / 5 * (n * (1 / ((N - 1 : ℕ) : ℝ))))) 0
    (setup _ extra (by omega)) (near _ extra (by omega)) (by change 0 < 1 / ((N - 1 : ℕ) : ℝ); positivity) hδN le_rfl hδ.le hN h1.le h1.ge
    ⟨h1.le, le_rfl, by change 1 ≤ N; omega, fun t ht => by
      obtain rfl : t = 0 := by simpa using ht
      simp [W, U]
      norm_num, fun n _ i => by simp [state]⟩
  refine ⟨s1, s2, s3, a1, a2, a3, trj, a4, ?_⟩
  have := (a5 (N - 1) (by omega) ⟨0, by decide⟩).1
  rw [add_zero] at this
  change |trj.x (N - 1) _ - W 1 1 (((N - 1 : ℕ) : ℝ) * (1 / ((N - 1 : ℕ) : ℝ)))| ≤ _ at this
  rw [h1] at this
  simp only [W, one_mul, mul_one] at this
  exact this

example := C150_second_kind_trapz (cls := .gle) (.inl ⟨rfl, rfl⟩) rfl (fun h => by cases h) le_rfl smooth gram_det force cross_le
    corr_det (deriv_of (f' := U (1 / 2) (2401 / 2)) fun t => (W_deriv (1 / 2) (343 / 2) t).congr_deriv (by norm_num))
    (lip_of (U_deriv _ _) (W_le _ _)) (deriv_of kt_deriv) (lip_of kt1_deriv kt2_le) secondKind (gle 1) (lip_of kt_deriv kt1_le) noise_lip

example := C150_rect (cls := .gle) (.inl ⟨rfl, rfl⟩) rfl (fun h => by cases h) le_rfl smooth gram_det force cross_le corr_det
    (deriv_of (U_deriv _ _)) (lip_of (W_deriv _ _) (U_le _ _)) (lip_of kt_deriv kt1_le) firstKind (gle (1 / 2))
    (lip_half (lip_of kt_deriv kt1_le)) noise_lip

example := C150_trapz (cls := .gle) (.inl ⟨rfl, rfl⟩) rfl (fun h => by cases h) le_rfl smooth gram_det force cross_le corr_det
    (deriv_of (U_deriv _ _)) (deriv_of (W_deriv _ _)) (deriv_of (U_deriv _ _)) (lip_of (W_deriv _ _) (U_le _ _))
    (deriv_of kt_deriv) (deriv_of kt1_deriv) (lip_of kt2_deriv kt3_le) firstKind initial (gle (1 / 2))
    (lip_half (lip_of kt_deriv kt1_le)) noise_lip

end TwoOscillators

end Verif
