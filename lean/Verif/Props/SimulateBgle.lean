import Verif.Model.CopyBgle
import Verif.Props.Simulate
import Verif.Props.BgleConv

/-!
# Simulation of an estimated model by the scalar integrator (C175, C176)
-/

namespace Verif

open LArr Finset

set_option linter.unusedSectionVars false

namespace Spec

/-- The scalar integrator `B` holds the terms of the model in dimension one: its force is what `force_eval` returns, its kernel what `kernel_eval`
returns, at any point, and the kernel has `N` points of step `dt`. -/
structure SimulatesScalar {K : Type*} [Field K] (s : ModelState K) (N : ℕ) (B : Bgle K) : Prop where
  force : ∀ y, ∃ R, forceEval s none 1 (fun _ => point fun _ : Fin 1 => y) = .ok R ∧ R.get 0 0 = B.force y
  memory : ∀ y, ∃ R, kernelEvalAt s 1 (fun _ => point fun _ : Fin 1 => y) = .ok R ∧ ∀ t, R t 0 0 0 = B.kernel.get t
  len : B.kernel.len = N
  dt : B.dt = s.dt

end Spec

section
variable {K : Type*} [Field K]

theorem point_one {d : ℕ} (h : d = 1) (y : K) : (point fun _ : Fin 1 => y) = point fun _ : Fin d => y := by subst h; rfl

/-- What a scalar integrator is built from an estimated model without projection, of whatever class with as many coefficients as functions. -/
theorem simulateBgle_ok {s : ModelState K} {c : LArr K} {d : String} {b : ℕ} {r : KernelData K b s.bm.dimObs} (h : Estimated s c d r)
    (hF : s.bm.nForce = s.bm.basis.nOut) (h1 : s.bm.dimObs = 1) (hr : s.rankProjection = false) (trunc : Option ℕ)
    (nSteps : ℕ) (x0 : Start K) (v0 : K) (noiseLen : ℕ) (noise : ℕ → K) :
    simulateBgle s trunc nSteps x0 v0 noiseLen noise = (copied s c r trunc).scalar.integrate nSteps x0 v0 noiseLen noise := by
  have hfit : (copied s c r trunc).FitsScalar :=
    ⟨h.dims.trans h1, by change c.shape = [s.bm.basis.nOut, 1]; rw [h.force.shape, hF, h1], fun e => by
      change s.rankProjection = true at e
      rw [hr] at e
      cases e⟩
  simp only [simulateBgle, copy_ok h.force.force h.kernel, bind, Except.bind, if_pos hfit]

theorem copied_kernel {s : ModelState K} {c : LArr K} {b : ℕ} {r : KernelData K b s.bm.dimObs} (h1 : s.bm.dimObs = 1) (trunc : Option ℕ) :
    (copied s c r trunc).scalar.kernel.len = min (trunc.getD s.truncInd) r.kernel.len * b ∧
    ∀ t (k : Fin b), (copied s c r trunc).scalar.kernel.get (b * t + k) = r.kernel.get t k ⟨0, by omega⟩ := by
  have hlen : (copied s c r trunc).scalar.kernel.len = min (trunc.getD s.truncInd) r.kernel.len * (b * s.bm.dimObs) := rfl
  refine ⟨hlen.trans (congrArg (_ * ·) (show b * s.bm.dimObs = b by rw [h1, mul_one])), fun t k => ?_⟩
  have hget : ∀ j, (copied s c r trunc).scalar.kernel.get j = if h : j / s.bm.dimObs % b < b ∧ j % s.bm.dimObs < s.bm.dimObs then
      r.kernel.get (j / (b * s.bm.dimObs)) ⟨_, h.1⟩ ⟨_, h.2⟩ else 0 := fun j => rfl
  rw [hget]
  have hb : 0 < b := k.pos
  have e1 : (b * t + k) / s.bm.dimObs % b = k := by
    rw [h1, Nat.div_one, Nat.mul_add_mod, Nat.mod_eq_of_lt k.2]
  have e2 : (b * t + k) % s.bm.dimObs = 0 := by rw [h1, Nat.mod_one]
  have e3 : (b * t + k) / (b * s.bm.dimObs) = t := by
    rw [h1, mul_one, Nat.mul_add_div hb, Nat.div_eq_of_lt k.2, add_zero]
  rw [dif_pos ⟨by rw [e1]; exact k.2, by rw [e2, h1]; exact one_pos⟩]
  have f1 : ∀ h, (⟨_, h⟩ : Fin b) = k := fun h => Fin.ext e1
  have f2 : ∀ h, (⟨(b * t + k) % s.bm.dimObs, h⟩ : Fin s.bm.dimObs) = ⟨0, by omega⟩ := fun h => Fin.ext e2
  rw [f1, f2, e3]

theorem copied_force {s : ModelState K} {c : LArr K} {d : String} {b : ℕ} {r : KernelData K b s.bm.dimObs} (h : Estimated s c d r) (trunc : Option ℕ)
    (y : K) : ∃ R, forceEval s none 1 (fun _ => point fun _ : Fin 1 => y) = .ok R ∧ R.get 0 0 = (copied s c r trunc).scalar.force y := by
  obtain ⟨R, a1, -, -, a4⟩ := forceEval_ok h.force h.wf 1 (fun _ => point fun _ : Fin 1 => y)
  exact ⟨R, a1, a4 0 0⟩

/-- **C175, the part that holds.** `BGLEIntegrator` of a model in dimension one whose memory acts on one function, of gradient 1, without projection,
integrates the equation with the force of `force_eval` and the kernel of `kernel_eval`. -/
theorem C175_one_function_partial {s : ModelState K} {c : LArr K} {d : String} {b : ℕ} {r : KernelData K b s.bm.dimObs} (h : Estimated s c d r)
    (hm : s.bm.cls = .posGle ∨ s.bm.cls = .constKernel) (h1 : s.bm.dimObs = 1) (hb : b = 1)
    (hu : ∀ y, Spec.kernelAt s.bm (point fun _ : Fin 1 => y) 0 0 = 1) (hr : s.rankProjection = false) (trunc : Option ℕ) :
    ∃ B : Bgle K, Spec.SimulatesScalar s (min (trunc.getD s.truncInd) r.kernel.len) B ∧ ∀ nSteps x0 v0 noiseLen noise,
      simulateBgle s trunc nSteps x0 v0 noiseLen noise = B.integrate nSteps x0 v0 noiseLen noise := by
  have hF : s.bm.nForce = s.bm.basis.nOut := by unfold BasisModel.nForce; rcases hm with e | e <;> rw [e]
  obtain ⟨l1, l2⟩ := copied_kernel (c := c) (r := r) h1 trunc
  refine ⟨(copied s c r trunc).scalar, ⟨copied_force h trunc, fun y => ?_, ?_, rfl⟩, simulateBgle_ok h hF h1 hr trunc⟩
  · have hnK : Spec.nKernelAt s.bm = Spec.nCorr s.bm := by
      unfold Spec.nKernelAt Spec.nCorr
      rcases hm with e | e <;> rw [e]
      exact h.dims.symm
    have hc0 : Spec.constRows s.bm = 0 := by
      unfold Spec.constRows
      rcases hm with e | e <;> simp [e]
    obtain ⟨R, a1, a2⟩ := C108_kernel_eval h.kernel hr (by rw [hc0, hnK]; exact h.plain hr) 1 (fun _ => point fun _ : Fin 1 => y)
    refine ⟨R, a1, fun t => ?_⟩
    rw [a2 t 0 (by omega) 0 0]
    have e1 : Spec.nKernelAt s.bm = 1 := hnK.trans ((h.plain hr).trans hb)
    have e3 := l2 t ⟨0, by omega⟩
    rw [show b * t + ((⟨0, by omega⟩ : Fin b) : ℕ) = t by simp [hb]] at e3
    rw [Finset.sum_eq_single_of_mem (⟨0, by omega⟩ : Fin (Spec.nKernelAt s.bm)) (mem_univ _)
      fun q _ hq => absurd (Fin.ext (by have := q.2; simp only; omega)) hq, hu y, mul_one, e3]
    exact congrArg (r.kernel.get t · _) (Fin.ext (by simp [hc0]))
  · exact l1.trans ((congrArg (_ * ·) hb).trans (mul_one _))

/-- **C175, the part that holds**, for a constant kernel. -/
theorem C175_constant_partial {s : ModelState K} {c : LArr K} {d : String} {b : ℕ} {r : KernelData K b s.bm.dimObs} (h : Estimated s c d r)
    (hm : s.bm.cls = .constKernel) (h1 : s.bm.dimObs = 1) (hr : s.rankProjection = false) (trunc : Option ℕ) :
    ∃ B : Bgle K, Spec.SimulatesScalar s (min (trunc.getD s.truncInd) r.kernel.len) B ∧ ∀ nSteps x0 v0 noiseLen noise,
      simulateBgle s trunc nSteps x0 v0 noiseLen noise = B.integrate nSteps x0 v0 noiseLen noise := by
  refine C175_one_function_partial h (.inr hm) h1 ?_ (fun y => ?_) hr trunc
  · have := h.plain hr
    unfold Spec.nCorr at this
    rw [hm] at this
    exact this.symm.trans (h.dims.trans h1)
  · unfold Spec.kernelAt
    simp [hm]

/-- **C175** Of a model in dimension one whose memory has `b` functions, `BGLEIntegrator` takes the coefficients one after the other for the values of
its kernel at `b` times as many times, of the same step. -/
theorem C175_gradients {s : ModelState K} {c : LArr K} {d : String} {b : ℕ} {r : KernelData K b s.bm.dimObs} (h : Estimated s c d r)
    (hm : s.bm.cls = .posGle) (h1 : s.bm.dimObs = 1) (hr : s.rankProjection = false) (trunc : Option ℕ) :
    ∃ B : Bgle K, (∀ y, ∃ R, forceEval s none 1 (fun _ => point fun _ : Fin 1 => y) = .ok R ∧ R.get 0 0 = B.force y) ∧ B.dt = s.dt ∧
      B.kernel.len = min (trunc.getD s.truncInd) r.kernel.len * b ∧ (∀ t (k : Fin b), B.kernel.get (b * t + k) = r.kernel.get t k ⟨0, by omega⟩) ∧
      ∀ nSteps x0 v0 noiseLen noise, simulateBgle s trunc nSteps x0 v0 noiseLen noise = B.integrate nSteps x0 v0 noiseLen noise := by
  have hF : s.bm.nForce = s.bm.basis.nOut := by unfold BasisModel.nForce; rw [hm]
  obtain ⟨l1, l2⟩ := copied_kernel (c := c) (r := r) h1 trunc
  exact ⟨(copied s c r trunc).scalar, copied_force h trunc, rfl, l1, l2, simulateBgle_ok h hF h1 hr trunc⟩

/-- **C175** `BGLEIntegrator` raises `ValueError` of a model of positions of other dimension than one, of one with friction, and of one with a projection
from several functions. -/
theorem C175_raises {s : ModelState K} {c : LArr K} {d : String} {b x : ℕ} {r : KernelData K b x} (hc : HasForce s c d) (hw : s.bm.WF)
    (hk : s.kernel = some ⟨b, x, r⟩) (h : s.bm.dimx ≠ 1 ∨ (s.bm.cls = .withFriction ∧ 1 ≤ s.bm.nDeriv) ∨
      (s.rankProjection = true ∧ ∃ P n, s.Prange = some P ∧ P.shape = [b, n] ∧ n ≠ 1)) (trunc : Option ℕ)
    (nSteps : ℕ) (x0 : Start K) (v0 : K) (noiseLen : ℕ) (noise : ℕ → K) :
    simulateBgle s trunc nSteps x0 v0 noiseLen noise = .error .value := by
  have hn : ¬ (copied s c r trunc).FitsScalar := by
    rintro ⟨h1, h2, h3⟩
    rcases h with h | ⟨hf, hd⟩ | ⟨hp, P, n, hP, hs, hn⟩
    · exact h h1
    · rw [show (copied s c r trunc).forceCoeff = c from rfl, hc.shape, nForce_wf hw, if_pos hf] at h2
      have h1 := (List.cons.inj h2).1
      change s.bm.basis.nOut + s.bm.nDeriv = s.bm.basis.nOut at h1
      omega
    · have h4 : (s.Prange.map fun P => P.shape.drop 1) = some [1] := h3 hp
      rw [hP, Option.map_some, hs] at h4
      exact hn (by simpa using h4)
  simp only [simulateBgle, copy_ok hc.force hk, bind, Except.bind, if_neg hn]

end

/-! ### Estimate, then simulate with the scalar integrator -/

open Spec (Averages NearAverages Estimates)

namespace Spec

/-- The force with coefficients `F`, in dimension one. -/
noncomputable def scalarForce (m : BasisModel ℝ) (F : Mat ℝ m.nForce m.dimObs) (y : ℝ) : ℝ :=
  ∑ q ∈ range m.basis.nOut, m.basis.basis (point fun _ : Fin 1 => y) q * entry F q 0

/-- A model in dimension one with continuously differentiable functions, whose memory acts on one function, of gradient 1. -/
structure ScalarModel (m : BasisModel ℝ) : Prop where
  cls : m.cls = .posGle ∨ m.cls = .constKernel
  nCorr : nCorr m = 1
  unit : ∀ y, kernelAt m (point fun _ : Fin 1 => y) 0 0 = 1
  dimx : m.dimx = 1
  dimObs : m.dimObs = 1
  wf : m.WF
  smooth : ∀ q < m.basis.nOut, ContDiff ℝ 1 fun y : ℝ => m.basis.basis (point fun _ : Fin 1 => y) q

/-- What is asked of the simulation: as many steps as the solution has, a start and values of the noise within `ε`. -/
structure LaunchScalar (S dt ε : ℝ) (ξ x v : ℝ → ℝ) (nSteps : ℕ) (x0 v0 : ℝ) (noise : ℕ → ℝ) : Prop where
  time : (nSteps - 1 : ℕ) * dt ≤ S
  one : 1 ≤ nSteps
  pos : |x0 - x 0| ≤ ε
  vel : |v0 - v 0| ≤ ε
  noise : ∀ n < nSteps, |noise n - ξ (n * dt)| ≤ ε

/-- The simulation of the model `s` succeeds, and its rows are within `e` of `x` and `v`. -/
def CloseScalar (s : ModelState ℝ) (dt e : ℝ) (x v : ℝ → ℝ) (nSteps : ℕ) (x0 v0 : ℝ) (noise : ℕ → ℝ) : Prop :=
  ∃ trj, simulateBgle s none nSteps (.numpy x0) v0 nSteps noise = .ok trj ∧ ∀ j < nSteps,
    |trj.x j - x (j * dt)| ≤ e ∧ |trj.v j - v (j * dt)| ≤ e

end Spec

section
variable {m : BasisModel ℝ} {F : Mat ℝ m.nForce m.dimObs}

theorem Spec.ScalarModel.force (h : Spec.ScalarModel m) : ContDiff ℝ 1 (Spec.scalarForce m F) := by
  unfold Spec.scalarForce
  exact ContDiff.sum fun q hq => (h.smooth q (mem_range.1 hq)).mul contDiff_const

theorem scalar_basis_bound {T : ℝ} (h : Spec.ScalarModel m) {x : ℝ → ℝ} (hx : ContinuousOn x (Set.Icc 0 T)) :
    ∃ B : ℝ, 0 ≤ B ∧ ∀ t ∈ Set.Icc 0 T, ∀ y, |y - x t| ≤ 1 → ∑ q ∈ range m.basis.nOut, |m.basis.basis (point fun _ : Fin 1 => y) q| ≤ B := by
  obtain ⟨R, hR⟩ := isCompact_Icc.exists_bound_of_continuousOn hx
  have hc : Continuous fun y : ℝ => ∑ q ∈ range m.basis.nOut, |m.basis.basis (point fun _ : Fin 1 => y) q| :=
    continuous_finsetSum _ fun q hq => (h.smooth q (mem_range.1 hq)).continuous.abs
  obtain ⟨B, hB⟩ := (isCompact_closedBall (0 : ℝ) (|R| + 1)).exists_bound_of_continuousOn hc.continuousOn
  refine ⟨|B|, abs_nonneg _, fun t ht y hy => ?_⟩
  have hin : y ∈ Metric.closedBall (0 : ℝ) (|R| + 1) := by
    rw [mem_closedBall_zero_iff]
    have h1 : |x t| ≤ R := hR t ht
    have h2 := abs_add_le (y - x t) (x t)
    rw [sub_add_cancel] at h2
    have := le_abs_self R
    rw [Real.norm_eq_abs]
    linarith
  have := hB y hin
  rw [Real.norm_eq_abs] at this
  exact (le_abs_self _).trans (this.trans (le_abs_self B))

/-- A model that has been estimated up to `e` simulates the equation up to a multiple of `dt + e`. -/
theorem simulateBgle_near (hm : Spec.ScalarModel m) {T : ℝ} {k : ℝ → Mat ℝ (Spec.nCorr m) m.dimObs} {κ ξ x v : ℝ → ℝ}
    (hκ : ∀ t i j, k t i j = κ t) (hg : Spec.ScalarGle T (Spec.scalarForce m F) κ ξ x v) (hk : Spec.ScalarLip T κ) (hξ : Spec.ScalarLip T ξ) :
    ∃ C δ : ℝ, 0 < C ∧ 0 < δ ∧ ∀ (s : ModelState ℝ) (c : LArr ℝ) (d : String) (N nSteps : ℕ) (x0 v0 : ℝ)
      (noise : ℕ → ℝ) (e : ℝ), s.bm = m → HasForce s c d → s.rankProjection = false →
      Spec.Estimates m F k N s.dt e e s → 0 < s.dt → s.dt ≤ δ → 0 ≤ e → e ≤ δ → 2 ≤ N → N ≤ s.truncInd →
      T ≤ (N - 1 : ℕ) * s.dt → Spec.LaunchScalar T s.dt e ξ x v nSteps x0 v0 noise →
      Spec.CloseScalar s s.dt (C * (s.dt + e)) x v nSteps x0 v0 noise := by
  obtain ⟨B, hB0, hB⟩ := scalar_basis_bound hm (T := T) (x := x) fun t ht => (hg.pos t ht).continuousWithinAt
  obtain ⟨C, δ, hδ, H⟩ := C173_integrate hg hm.force hk hξ
  refine ⟨(|C| + 1) * (B + 1), δ / (B + 1), by positivity, by positivity, ?_⟩
  intro s c d N nSteps x0 v0 noise e hbm hf hp hest hdt hdtδ he heδ hN hNt hcov hl
  subst hbm
  obtain ⟨r, r1, r2, -, r4⟩ := hest.kernel
  have hE : Estimated s c d r := ⟨hf, hm.wf, r1, hm.dimx.trans hm.dimObs.symm, fun _ => rfl, fun h => by rw [hp] at h; cases h⟩
  have hnF : s.bm.nForce = s.bm.basis.nOut := by unfold BasisModel.nForce; rcases hm.cls with e | e <;> rw [e]
  obtain ⟨I, hI⟩ : ∃ I, I = (copied s c r none).scalar := ⟨_, rfl⟩
  have hdtI : I.dt = s.dt := by rw [hI]; rfl
  obtain ⟨l1, l2⟩ := copied_kernel (c := c) (r := r) hm.dimObs none
  rw [← hI] at l1 l2
  have hlen : N ≤ I.kernel.len := by
    rw [l1]
    refine (le_min (by simpa using hNt) r2).trans (Nat.le_mul_of_pos_right _ ?_)
    rw [hm.nCorr]
    exact one_pos
  have le1 : e ≤ (B + 1) * e := by nlinarith
  have hδ1 : δ / (B + 1) ≤ δ := div_le_self hδ.le (by linarith)
  have hnear : NearScalar T ((B + 1) * e) (Spec.scalarForce s.bm F) κ x I := by
    refine ⟨fun t ht y hy => ?_, hN.trans hlen, fun j hj hjT => ?_, Or.inl (hcov.trans ?_)⟩
    · obtain ⟨R, h1, h2⟩ := copied_force hE none y
      obtain ⟨R', h3, -, -, h4⟩ := hest.force 1 fun _ => point fun _ : Fin 1 => y
      obtain rfl : R = R' := Except.ok.inj (h1.symm.trans h3)
      rw [hI, ← h2]
      refine (h4 0 0 (by rw [hm.dimObs]; exact one_pos)).trans ?_
      have := mul_le_mul_of_nonneg_left (hB t ht y hy) he
      nlinarith
    · rw [hdtI] at hjT ⊢
      have hjN : j < N := by
        have h1 : (j : ℝ) * s.dt ≤ (N - 1 : ℕ) * s.dt := hjT.trans hcov
        have h2 : (j : ℝ) ≤ (N - 1 : ℕ) := le_of_mul_le_mul_right h1 hdt
        have : j ≤ N - 1 := by exact_mod_cast h2
        omega
      have e1 := l2 j ⟨0, by rw [hm.nCorr]; exact one_pos⟩
      rw [show Spec.nCorr s.bm * j + ((⟨0, by rw [hm.nCorr]; exact one_pos⟩ : Fin (Spec.nCorr s.bm)) : ℕ) = j by simp [hm.nCorr]] at e1
      rw [e1, ← hκ (j * s.dt) ⟨0, by rw [hm.nCorr]; exact one_pos⟩ ⟨0, by rw [hm.dimObs]; exact one_pos⟩]
      exact ((r4 j hjN).2 _ _).trans le1
    · rw [hdtI]
      refine mul_le_mul_of_nonneg_right ?_ hdt.le
      exact_mod_cast (by omega : N - 1 ≤ I.kernel.len - 1)
  obtain ⟨trj, h1, -, h2⟩ := H I nSteps x0 v0 noise ((B + 1) * e) (by rw [hdtI]; exact hdt) (by rw [hdtI]; exact hdtδ.trans hδ1)
    (by positivity) (by rw [le_div_iff₀' (by positivity)] at heδ; exact heδ) hl.one (by rw [hdtI]; exact hl.time) hnear
    (hl.pos.trans le1) (hl.vel.trans le1) (by rw [hdtI]; exact fun n hn => (hl.noise n hn).trans le1)
  refine ⟨trj, (simulateBgle_ok hE hnF hm.dimObs hp none ..).trans (by rw [← hI]; exact h1), fun n hn => ?_⟩
  rw [hdtI] at h2
  have bound : C * (s.dt + (B + 1) * e) ≤ (|C| + 1) * (B + 1) * (s.dt + e) := by
    have a1 : C * (s.dt + (B + 1) * e) ≤ (|C| + 1) * (s.dt + (B + 1) * e) :=
      mul_le_mul_of_nonneg_right ((le_abs_self C).trans (by linarith)) (by positivity)
    have a2 : s.dt + (B + 1) * e ≤ (B + 1) * (s.dt + e) := by nlinarith
    rw [mul_assoc]
    exact a1.trans (mul_le_mul_of_nonneg_left a2 (by positivity))
  exact ⟨((h2 n hn).2.1).trans bound, ((h2 n hn).2.2).trans bound⟩

section
variable {μ : Averages m.nForce (Spec.nCorr m) m.dimObs} {T MW S : ℝ} {k : ℝ → Mat ℝ (Spec.nCorr m) m.dimObs} {κ ξ x v : ℝ → ℝ}

/-- The three steps and the simulation. -/
theorem chain_scalar (hm : Spec.ScalarModel m) (hκ : ∀ t i j, k t i j = κ t) (hg : Spec.ScalarGle S (Spec.scalarForce m F) κ ξ x v)
    (hkS : Spec.ScalarLip S κ) (hξ : Spec.ScalarLip S ξ) (C : ℝ) :
    ∃ C' δ : ℝ, 0 < C' ∧ 0 < δ ∧ ∀ (env : Env ℝ) (method km : String) (vectorize second : Bool) (rankTol : Option ℝ) (d : String)
      (s s1 s2 s3 : EstState ℝ) (N nSteps : ℕ) (x0 v0 : ℝ) (noise : ℕ → ℝ) (ε η : ℝ),
      Setup env method vectorize m d s → computeMeanForce env s = (s1, none) →
      computeCorrs env method vectorize second rankTol s1 = (s2, none) →
      computeKernelStep km (fun _ _ => none) s2 = (s3, none) →
      Estimates m F k N s.model.dt (C * ε) (C * η) s3.model → 0 < s.model.dt → s.model.dt ≤ δ → 0 ≤ ε → ε ≤ η → η ≤ δ →
      2 ≤ N → N ≤ s.model.truncInd → S ≤ (N - 1 : ℕ) * s.model.dt →
      Spec.LaunchScalar S s.model.dt ε ξ x v nSteps x0 v0 noise →
      Spec.CloseScalar s3.model s.model.dt (C' * (s.model.dt + η)) x v nSteps x0 v0 noise := by
  obtain ⟨C0, δ, hC0, hδ, H⟩ := simulateBgle_near hm hκ hg hkS hξ
  refine ⟨C0 * (|C| + 1), δ / (|C| + 1), by positivity, by positivity, ?_⟩
  intro env method km vectorize second rankTol d s s1 s2 s3 N nSteps x0 v0 noise ε η hs h1 h2 h3 hest hdt hdtδ hε hεη hηδ hN hNt hcov hl
  obtain ⟨c, e1, e2, e3, e4, e5⟩ := estimation_frame hs h1 h2 h3
  have hη : 0 ≤ η := hε.trans hεη
  have hCp : 0 ≤ |C| := abs_nonneg C
  obtain ⟨e, he⟩ : ∃ e : ℝ, e = (|C| + 1) * η := ⟨_, rfl⟩
  have b1 : C * ε ≤ e := by
    rw [he]
    have a1 := mul_le_mul_of_nonneg_right (le_abs_self C) hε
    have a2 := mul_le_mul_of_nonneg_left hεη hCp
    nlinarith
  have b2 : C * η ≤ e := by
    rw [he]
    have a1 := mul_le_mul_of_nonneg_right (le_abs_self C) hη
    nlinarith
  have b3 : ε ≤ e := by rw [he]; nlinarith [mul_nonneg hCp hη]
  have b4 : δ / (|C| + 1) ≤ δ := div_le_self hδ.le (by linarith)
  have b5 : e ≤ δ := by
    rw [le_div_iff₀' (by positivity)] at hηδ
    rw [he]; exact hηδ
  obtain ⟨trj, t1, t2⟩ := H s3.model c d N nSteps x0 v0 noise e e1 e2 e3 (by rw [e4]; exact Spec.Estimates.mono hest b1 b2) (by rw [e4]; exact hdt)
    (by rw [e4]; exact hdtδ.trans b4) (hε.trans b3) b5 hN (by rw [e5]; exact hNt) (by rw [e4]; exact hcov)
    (by
      rw [e4]
      exact ⟨hl.time, hl.one, hl.pos.trans b3, hl.vel.trans b3, fun n hn => (hl.noise n hn).trans b3⟩)
  rw [e4] at t2
  have bound : C0 * (s.model.dt + e) ≤ C0 * (|C| + 1) * (s.model.dt + η) := by
    rw [mul_assoc]
    refine mul_le_mul_of_nonneg_left ?_ hC0.le
    rw [he]
    nlinarith [mul_nonneg hCp hdt.le]
  exact ⟨trj, t1, fun n hn => ⟨((t2 n hn).1).trans bound, ((t2 n hn).2).trans bound⟩⟩

/-- **C176**, rectangle rule of the second kind: a model in dimension one with a constant kernel, estimated from data whose averages are within `ε` of
those of the process, and then simulated by `BGLEIntegrator` with a start and a noise within `ε` of those of a trajectory of the process,
gives this trajectory up to `C (dt + ε)`. -/
theorem C176_second_kind_rect (hm : Spec.ScalarModel m) (hG : μ.gram.det ≠ 0) (hF : μ.gram * F = μ.proj)
    (hW : ∀ t ∈ Set.Icc 0 T, ∀ i j, |μ.cross t i j| ≤ MW ∧ |μ.dcross t i j| ≤ MW) (hB0 : (μ.corr 0).det ≠ 0)
    (hB : Spec.Lip T μ.dcorr) (hk : Spec.Lip T k) (heq : Spec.SecondKind T (μ.corr 0) μ.dcorr (μ.dresidual F) k)
    (hκ : ∀ t i j, k t i j = κ t) (hg : Spec.ScalarGle S (Spec.scalarForce m F) κ ξ x v) (hkS : Spec.ScalarLip S κ) (hξ : Spec.ScalarLip S ξ) :
    ∃ C δ : ℝ, 0 < δ ∧ ∀ (env : Env ℝ) (method : String) (vectorize : Bool) (rankTol : Option ℝ) (d : String)
      (s : EstState ℝ) (nSteps : ℕ) (x0 v0 : ℝ) (noise : ℕ → ℝ) (ε : ℝ),
      Setup env method vectorize m d s → NearAverages m s.model.Lobs μ s.xvas s.model.truncInd s.model.dt ε →
      0 < s.model.dt → s.model.dt ≤ δ → 0 ≤ ε → ε ≤ δ → 2 ≤ s.model.truncInd →
      ((s.model.truncInd - 1 : ℕ) : ℝ) * s.model.dt ≤ T → S ≤ ((s.model.truncInd - 1 : ℕ) : ℝ) * s.model.dt →
      Spec.LaunchScalar S s.model.dt ε ξ x v nSteps x0 v0 noise →
      ∃ s1 s2 s3, computeMeanForce env s = (s1, none) ∧ computeCorrs env method vectorize true rankTol s1 = (s2, none) ∧
        computeKernelStep "second_kind_rect" (fun _ _ => none) s2 = (s3, none) ∧
        Spec.CloseScalar s3.model s.model.dt (C * (s.model.dt + ε)) x v nSteps x0 v0 noise := by
  have hh : m.cls ≠ .hybrid := by rcases hm.cls with e | e <;> simp [e]
  obtain ⟨C1, δ1, hδ1, H1⟩ := C142_second_kind_rect hG hF hW hm.wf hm.dimx.ge hh hB0 hB hk heq
  obtain ⟨C2, δ2, hC2, hδ2, H2⟩ := chain_scalar hm hκ hg hkS hξ C1
  refine ⟨C2 * 2, min δ1 (δ2 / 2), by positivity, ?_⟩
  intro env method vectorize rankTol d s nSteps x0 v0 noise ε hs hn hdt hdtδ hε hεδ hN hT hcov hl
  obtain ⟨s1, s2, s3, h1, h2, h3, hest⟩ := H1 env method vectorize rankTol d s ε hs hn hdt (hdtδ.trans (min_le_left _ _)) hε
    (hεδ.trans (min_le_left _ _)) hT
  have l1 := hdtδ.trans (min_le_right _ _)
  have l2 := hεδ.trans (min_le_right _ _)
  obtain ⟨trj, t1, t2⟩ := H2 env method _ vectorize true rankTol d s s1 s2 s3 _ nSteps x0 v0 noise ε _ hs h1 h2 h3 hest hdt (by linarith) hε
    (by linarith) (by linarith) hN le_rfl hcov hl
  refine ⟨s1, s2, s3, h1, h2, h3, trj, t1, fun n hn => ?_⟩
  have bound : C2 * (s.model.dt + (s.model.dt + ε)) ≤ C2 * 2 * (s.model.dt + ε) := by nlinarith [mul_nonneg hC2.le hε]
  exact ⟨((t2 n hn).1).trans bound, ((t2 n hn).2).trans bound⟩

/-- **C176**, trapezoidal rule of the second kind. -/
theorem C176_second_kind_trapz (hm : Spec.ScalarModel m) (hG : μ.gram.det ≠ 0) (hF : μ.gram * F = μ.proj)
    (hW : ∀ t ∈ Set.Icc 0 T, ∀ i j, |μ.cross t i j| ≤ MW ∧ |μ.dcross t i j| ≤ MW) (hB0 : (μ.corr 0).det ≠ 0)
    {B' : ℝ → Mat ℝ (Spec.nCorr m) (Spec.nCorr m)} {k' : ℝ → Mat ℝ (Spec.nCorr m) m.dimObs}
    (hB : Spec.DerivOn T μ.dcorr B') (hB' : Spec.Lip T B') (hk : Spec.DerivOn T k k') (hk' : Spec.Lip T k')
    (heq : Spec.SecondKind T (μ.corr 0) μ.dcorr (μ.dresidual F) k)
    (hκ : ∀ t i j, k t i j = κ t) (hg : Spec.ScalarGle S (Spec.scalarForce m F) κ ξ x v) (hkS : Spec.ScalarLip S κ) (hξ : Spec.ScalarLip S ξ) :
    ∃ C δ : ℝ, 0 < δ ∧ ∀ (env : Env ℝ) (method : String) (vectorize : Bool) (rankTol : Option ℝ) (d : String)
      (s : EstState ℝ) (nSteps : ℕ) (x0 v0 : ℝ) (noise : ℕ → ℝ) (ε : ℝ),
      Setup env method vectorize m d s → NearAverages m s.model.Lobs μ s.xvas s.model.truncInd s.model.dt ε →
      0 < s.model.dt → s.model.dt ≤ δ → 0 ≤ ε → ε ≤ δ → 2 ≤ s.model.truncInd →
      ((s.model.truncInd - 1 : ℕ) : ℝ) * s.model.dt ≤ T → S ≤ ((s.model.truncInd - 1 : ℕ) : ℝ) * s.model.dt →
      Spec.LaunchScalar S s.model.dt ε ξ x v nSteps x0 v0 noise →
      ∃ s1 s2 s3, computeMeanForce env s = (s1, none) ∧ computeCorrs env method vectorize true rankTol s1 = (s2, none) ∧
        computeKernelStep "second_kind_trapz" (fun _ _ => none) s2 = (s3, none) ∧
        Spec.CloseScalar s3.model s.model.dt (C * (s.model.dt + ε)) x v nSteps x0 v0 noise := by
  have hh : m.cls ≠ .hybrid := by rcases hm.cls with e | e <;> simp [e]
  obtain ⟨C1, δ1, hδ1, H1⟩ := C142_second_kind_trapz hG hF hW hm.wf hm.dimx.ge hh hB0 hB hB' hk hk' heq
  obtain ⟨C2, δ2, hC2, hδ2, H2⟩ := chain_scalar hm hκ hg hkS hξ C1
  refine ⟨C2 * 2, min 1 (min δ1 (δ2 / 2)), by positivity, ?_⟩
  intro env method vectorize rankTol d s nSteps x0 v0 noise ε hs hn hdt hdtδ hε hεδ hN hT hcov hl
  obtain ⟨s1, s2, s3, h1, h2, h3, hest⟩ := H1 env method vectorize rankTol d s ε hs hn hdt
    (hdtδ.trans ((min_le_right _ _).trans (min_le_left _ _))) hε (hεδ.trans ((min_le_right _ _).trans (min_le_left _ _))) hT
  have l0 := hdtδ.trans (min_le_left _ _)
  have l1 := hdtδ.trans ((min_le_right _ _).trans (min_le_right _ _))
  have l2 := hεδ.trans ((min_le_right _ _).trans (min_le_right _ _))
  have sq : s.model.dt ^ 2 ≤ s.model.dt := by nlinarith
  have sq0 : 0 ≤ s.model.dt ^ 2 := by positivity
  obtain ⟨trj, t1, t2⟩ := H2 env method _ vectorize true rankTol d s s1 s2 s3 _ nSteps x0 v0 noise ε _ hs h1 h2 h3 hest hdt (by linarith) hε
    (by linarith) (by linarith) hN le_rfl hcov hl
  refine ⟨s1, s2, s3, h1, h2, h3, trj, t1, fun n hn => ?_⟩
  have bound : C2 * (s.model.dt + (s.model.dt ^ 2 + ε)) ≤ C2 * 2 * (s.model.dt + ε) := by
    rw [mul_assoc]
    exact mul_le_mul_of_nonneg_left (by linarith) hC2.le
  exact ⟨((t2 n hn).1).trans bound, ((t2 n hn).2).trans bound⟩

/-- **C176**, rectangle rule of the first kind, which divides the errors of the averages by `dt`. -/
theorem C176_rect (hm : Spec.ScalarModel m) (hG : μ.gram.det ≠ 0) (hF : μ.gram * F = μ.proj)
    (hW : ∀ t ∈ Set.Icc 0 T, ∀ i j, |μ.cross t i j| ≤ MW ∧ |μ.dcross t i j| ≤ MW) (hB0 : (μ.corr 0).det ≠ 0)
    {B' : ℝ → Mat ℝ (Spec.nCorr m) (Spec.nCorr m)} (hB : Spec.DerivOn T μ.corr B') (hB' : Spec.Lip T B') (hk : Spec.Lip T k)
    (heq : Spec.FirstKind T μ.corr (μ.residual F) k)
    (hκ : ∀ t i j, k t i j = κ t) (hg : Spec.ScalarGle S (Spec.scalarForce m F) κ ξ x v) (hkS : Spec.ScalarLip S κ) (hξ : Spec.ScalarLip S ξ) :
    ∃ C δ : ℝ, 0 < δ ∧ ∀ (env : Env ℝ) (method km : String) (vectorize : Bool) (rankTol : Option ℝ) (d : String)
      (s : EstState ℝ) (nSteps : ℕ) (x0 v0 : ℝ) (noise : ℕ → ℝ) (ε : ℝ),
      km ∈ ["rect", "rectangular"] →
      Setup env method vectorize m d s → NearAverages m s.model.Lobs μ s.xvas s.model.truncInd s.model.dt ε →
      0 < s.model.dt → s.model.dt ≤ δ → 0 ≤ ε → ε ≤ δ * s.model.dt → 3 ≤ s.model.truncInd →
      ((s.model.truncInd - 1 : ℕ) : ℝ) * s.model.dt ≤ T → S ≤ ((s.model.truncInd - 2 : ℕ) : ℝ) * s.model.dt →
      Spec.LaunchScalar S s.model.dt ε ξ x v nSteps x0 v0 noise →
      ∃ s1 s2 s3, computeMeanForce env s = (s1, none) ∧ computeCorrs env method vectorize true rankTol s1 = (s2, none) ∧
        computeKernelStep km (fun _ _ => none) s2 = (s3, none) ∧
        Spec.CloseScalar s3.model s.model.dt (C * (s.model.dt + ε / s.model.dt)) x v nSteps x0 v0 noise := by
  obtain ⟨C1, δ1, hδ1, H1⟩ := C142_rect hG hF hW hm.wf hm.dimx.ge hB0 hB hB' hk heq
  obtain ⟨C2, δ2, hC2, hδ2, H2⟩ := chain_scalar hm hκ hg hkS hξ C1
  refine ⟨C2 * 2, min 1 (min δ1 (δ2 / 2)), by positivity, ?_⟩
  intro env method km vectorize rankTol d s nSteps x0 v0 noise ε hkm hs hn hdt hdtδ hε hεδ hN hT hcov hl
  have l0 := hdtδ.trans (min_le_left _ _)
  have l1 := hdtδ.trans ((min_le_right _ _).trans (min_le_right _ _))
  have l2 : ε / s.model.dt ≤ min 1 (min δ1 (δ2 / 2)) := (div_le_iff₀ hdt).2 hεδ
  have l3 := l2.trans ((min_le_right _ _).trans (min_le_right _ _))
  obtain ⟨s1, s2, s3, h1, h2, h3, hest⟩ := H1 env method km vectorize rankTol d s ε hkm hs hn hdt
    (hdtδ.trans ((min_le_right _ _).trans (min_le_left _ _))) hε
    (hεδ.trans (mul_le_mul_of_nonneg_right ((min_le_right _ _).trans (min_le_left _ _)) hdt.le)) (by omega) hT
  have q0 : 0 ≤ ε / s.model.dt := by positivity
  have q1 : ε ≤ ε / s.model.dt := (le_div_iff₀ hdt).2 (by nlinarith)
  obtain ⟨trj, t1, t2⟩ := H2 env method _ vectorize true rankTol d s s1 s2 s3 _ nSteps x0 v0 noise ε _ hs h1 h2 h3 hest hdt (by linarith) hε
    (by linarith) (by linarith) (by omega) (by omega) (by rw [Nat.sub_sub]; exact hcov) hl
  refine ⟨s1, s2, s3, h1, h2, h3, trj, t1, fun n hn => ?_⟩
  have bound : C2 * (s.model.dt + (s.model.dt + ε / s.model.dt)) ≤ C2 * 2 * (s.model.dt + ε / s.model.dt) := by
    rw [mul_assoc]
    exact mul_le_mul_of_nonneg_left (by linarith) hC2.le
  exact ⟨((t2 n hn).1).trans bound, ((t2 n hn).2).trans bound⟩

/-- **C176**, trapezoidal rule of the first kind, which divides the errors of the averages by `dt²`. -/
theorem C176_trapz (hm : Spec.ScalarModel m) (hG : μ.gram.det ≠ 0) (hF : μ.gram * F = μ.proj)
    (hW : ∀ t ∈ Set.Icc 0 T, ∀ i j, |μ.cross t i j| ≤ MW ∧ |μ.dcross t i j| ≤ MW) (hB0 : (μ.corr 0).det ≠ 0)
    {B1 B2 B3 : ℝ → Mat ℝ (Spec.nCorr m) (Spec.nCorr m)} {k1 k2 : ℝ → Mat ℝ (Spec.nCorr m) m.dimObs}
    (hB1 : Spec.DerivOn T μ.corr B1) (hB2 : Spec.DerivOn T B1 B2) (hB3 : Spec.DerivOn T B2 B3) (hLB : Spec.Lip T B3)
    (hk1 : Spec.DerivOn T k k1) (hk2 : Spec.DerivOn T k1 k2) (hLk : Spec.Lip T k2)
    (heq : Spec.FirstKind T μ.corr (μ.residual F) k) (h0 : μ.dresidual F 0 = μ.corr 0 * k 0)
    (hκ : ∀ t i j, k t i j = κ t) (hg : Spec.ScalarGle S (Spec.scalarForce m F) κ ξ x v) (hkS : Spec.ScalarLip S κ) (hξ : Spec.ScalarLip S ξ) :
    ∃ C δ : ℝ, 0 < δ ∧ ∀ (env : Env ℝ) (method : String) (vectorize : Bool) (rankTol : Option ℝ) (d : String)
      (s : EstState ℝ) (nSteps : ℕ) (x0 v0 : ℝ) (noise : ℕ → ℝ) (ε : ℝ),
      Setup env method vectorize m d s → NearAverages m s.model.Lobs μ s.xvas s.model.truncInd s.model.dt ε →
      0 < s.model.dt → s.model.dt ≤ δ → 0 ≤ ε → ε ≤ δ * s.model.dt ^ 2 → 3 ≤ s.model.truncInd →
      ((s.model.truncInd - 1 : ℕ) : ℝ) * s.model.dt ≤ T → S ≤ ((s.model.truncInd - 2 : ℕ) : ℝ) * s.model.dt →
      Spec.LaunchScalar S s.model.dt ε ξ x v nSteps x0 v0 noise →
      ∃ s1 s2 s3, computeMeanForce env s = (s1, none) ∧ computeCorrs env method vectorize true rankTol s1 = (s2, none) ∧
        computeKernelStep "trapz" (fun _ _ => none) s2 = (s3, none) ∧
        Spec.CloseScalar s3.model s.model.dt (C * (s.model.dt + ε / s.model.dt ^ 2)) x v nSteps x0 v0 noise := by
  have hh : m.cls ≠ .hybrid := by rcases hm.cls with e | e <;> simp [e]
  obtain ⟨C1, δ1, hδ1, H1⟩ := C142_trapz hG hF hW hm.wf hm.dimx.ge hh hB0 hB1 hB2 hB3 hLB hk1 hk2 hLk heq h0
  obtain ⟨C2, δ2, hC2, hδ2, H2⟩ := chain_scalar hm hκ hg hkS hξ C1
  refine ⟨C2 * 2, min 1 (min δ1 (δ2 / 2)), by positivity, ?_⟩
  intro env method vectorize rankTol d s nSteps x0 v0 noise ε hs hn hdt hdtδ hε hεδ hN hT hcov hl
  have l0 := hdtδ.trans (min_le_left _ _)
  have l1 := hdtδ.trans ((min_le_right _ _).trans (min_le_right _ _))
  have sqp : 0 < s.model.dt ^ 2 := by positivity
  have l2 : ε / s.model.dt ^ 2 ≤ min 1 (min δ1 (δ2 / 2)) := (div_le_iff₀ sqp).2 hεδ
  have l3 := l2.trans ((min_le_right _ _).trans (min_le_right _ _))
  obtain ⟨s1, s2, s3, h1, h2, h3, hest⟩ := H1 env method vectorize rankTol d s ε hs hn hdt
    (hdtδ.trans ((min_le_right _ _).trans (min_le_left _ _))) hε
    (hεδ.trans (mul_le_mul_of_nonneg_right ((min_le_right _ _).trans (min_le_left _ _)) sqp.le)) (by omega) hT
  have sq : s.model.dt ^ 2 ≤ s.model.dt := by nlinarith
  have q0 : 0 ≤ ε / s.model.dt ^ 2 := by positivity
  have q1 : ε ≤ ε / s.model.dt ^ 2 := (le_div_iff₀ sqp).2 (by nlinarith)
  obtain ⟨trj, t1, t2⟩ := H2 env method _ vectorize true rankTol d s s1 s2 s3 _ nSteps x0 v0 noise ε _ hs h1 h2 h3 hest hdt (by linarith) hε
    (by linarith) (by linarith) (by omega) (by omega) (by rw [Nat.sub_sub]; exact hcov) hl
  refine ⟨s1, s2, s3, h1, h2, h3, trj, t1, fun n hn => ?_⟩
  have bound : C2 * (s.model.dt + (s.model.dt ^ 2 + ε / s.model.dt ^ 2)) ≤ C2 * 2 * (s.model.dt + ε / s.model.dt ^ 2) := by
    rw [mul_assoc]
    exact mul_le_mul_of_nonneg_left (by linarith) hC2.le
  exact ⟨((t2 n hn).1).trans bound, ((t2 n hn).2).trans bound⟩

end

end

namespace Ex

/-- The functions `x` and `x^2 / 2`, with the force `x`; the kernel is 1 on the gradient of the first one and 0 on that of the second one. -/
def scalarData : KernelData ℚ 2 1 := ⟨⟨3, fun _ => Matrix.of fun k _ => if k = 0 then 1 else 0⟩, ⟨3, fun t => t⟩⟩

def scalarModel : ModelState ℚ :=
  { bm := ⟨.posGle, ⟨2, false, fun x k => if k = 0 then x 0 else x 0 ^ 2 / 2, fun x k _ => if k = 0 then 1 else x 0, fun _ _ _ _ => 0, fun _ _ => 0⟩, 1, 1⟩
    Lobs := "a", dt := 1, truncInd := 3, forceCoeff := some (mk2 "dim_basis" 2 "dim_x" 1 fun k _ => if k = 0 then 1 else 0)
    kernel := some ⟨2, 1, scalarData⟩, method := some "rect", rankProjection := false, Prange := none, gramForce := none, gramKernel := none
    effMass := none }

theorem scalarEstimated : Estimated scalarModel (mk2 "dim_basis" 2 "dim_x" 1 fun k _ => if k = 0 then 1 else 0) "dim_x" scalarData :=
  ⟨⟨rfl, rfl, rfl, by decide, by decide⟩, (fun h => by cases h), rfl, rfl, fun _ => rfl, fun h => by cases h⟩

end Ex

/-- **C175 does not hold** of a model with memory of gradients: the kernel that `kernel_eval` finds is 1 at all points and times, but
`BGLEIntegrator` uses 1, 0, 1, 0, 1, 0. It does not raise, and from rest its frames are not those of `Integrator_gle`. -/
theorem C175_gradients_fails : ∃ s : ModelState ℚ, s.bm.cls = .posGle ∧
    (∀ y, ∃ R, kernelEvalAt s 1 (fun _ => point fun _ : Fin 1 => y) = .ok R ∧ ∀ t, R t 0 0 0 = 1) ∧
    ∃ trj trj', simulate (d := 1) s .gle none 3 (some ⟨1, fun _ => 0, fun _ _ => 1, fun _ _ => 0⟩) (fun _ _ => 0) = .ok trj ∧
      simulateBgle s none 3 (.numpy 1) 0 3 (fun _ => 0) = .ok trj' ∧ trj'.v 2 ≠ trj.v 2 0 := by
  refine ⟨Ex.scalarModel, rfl, fun y => ?_, ?_⟩
  · obtain ⟨R, h1, h2⟩ := C108_kernel_eval (s := Ex.scalarModel) rfl rfl rfl 1 fun _ => point fun _ : Fin 1 => y
    refine ⟨R, h1, fun t => (h2 t 0 (by decide) 0 0).trans ((Fin.sum_univ_two _).trans ?_)⟩
    simp [Spec.kernelAt, Ex.scalarModel, Ex.scalarData, Spec.constRows]
  · have h : (match simulate (d := 1) Ex.scalarModel .gle none 3 (some ⟨1, fun _ => 0, fun _ _ => 1, fun _ _ => 0⟩) (fun _ _ => 0),
        simulateBgle Ex.scalarModel none 3 (.numpy 1) 0 3 (fun _ => 0) with
        | .ok trj, .ok trj' => decide (trj'.v 2 ≠ trj.v 2 0)
        | _, _ => false) = true := by decide +kernel
    split at h
    · exact ⟨_, _, ‹_›, ‹_›, by simpa using h⟩
    · cases h

example := C175_raises (s := Ex.simModel .withFriction 2 4) ⟨rfl, rfl, rfl, by decide, by decide⟩ (Ex.wf _) rfl (.inr (.inl ⟨rfl, by decide⟩))
  none 5 (.numpy 0) 0 5 fun _ => 0
example := C175_constant_partial Ex.estimatedC rfl rfl rfl none
example := C175_gradients Ex.scalarEstimated rfl rfl rfl (some 2)

namespace TwoOscillators

open Real

theorem scalarModel : Spec.ScalarModel model where
  cls := .inl rfl
  nCorr := rfl
  unit _ := rfl
  dimx := rfl
  dimObs := rfl
  wf h := by cases h
  smooth q _ := by
    have : (fun y : ℝ => model.basis.basis (point fun _ : Fin 1 => y) q) = fun y => y := by
      funext y
      simp [model, basis, point]
    rw [this]
    exact contDiff_id

/-- The trajectory `sin(t) + sin(7 t)` solves the equation, with the noise `144/5 sin(7 t / 5)`. -/
theorem scalarGle (S : ℝ) : Spec.ScalarGle S (Spec.scalarForce model F) kt (fun t => 144 / 5 * sin (7 / 5 * t)) (W 1 1) (U 1 7) := by
  constructor
  · intro t _
    exact ((W_deriv 1 1 t).congr_deriv (by norm_num)).hasDerivWithinAt
  · intro t _
    refine ((U_deriv 1 7 t).congr_deriv ?_).hasDerivWithinAt
    have e1 : Spec.scalarForce model F (W 1 1 t) = -25 * W 1 1 t := by
      have a1 : Spec.entry F 0 0 = -25 := by
        rw [Spec.entry, dif_pos ⟨by decide, by decide⟩]
        rfl
      simp only [Spec.scalarForce]
      refine (Finset.sum_range_one _).trans ?_
      rw [a1]
      simp [model, basis, point]
      ring
    have e2 : ∀ s, kt s * U 1 7 (t - s) = 576 / 25 * (cos (1 * (t - s)) * cos (7 / 5 * s)) + 4032 / 25 * (cos (7 * (t - s)) * cos (7 / 5 * s)) :=
      fun s => by
        simp only [U, kt, one_mul]
        ring
    simp only [e1, e2]
    rw [intervalIntegral.integral_add (Continuous.intervalIntegrable (by fun_prop) _ _)
      (Continuous.intervalIntegrable (by fun_prop) _ _), intervalIntegral.integral_const_mul, intervalIntegral.integral_const_mul,
      integral_cos_cos _ _ _ (by norm_num), integral_cos_cos _ _ _ (by norm_num)]
    simp only [W, one_mul]
    ring

theorem scalarLip_of {f f' : ℝ → ℝ} {L T : ℝ} (h : ∀ t, HasDerivAt f (f' t) t) (hL : ∀ t, |f' t| ≤ L) : Spec.ScalarLip T f := by
  refine ⟨L, fun s _ t _ => ?_⟩
  have := Convex.norm_image_sub_le_of_norm_hasDerivWithin_le (f := f) (f' := f') (s := Set.univ) (C := L)
    (fun x _ => (h x).hasDerivWithinAt) (fun x _ => hL x) convex_univ (Set.mem_univ t) (Set.mem_univ s)
  rw [norm_eq_abs, norm_eq_abs] at this
  exact this

theorem scalarNoise_lip {T : ℝ} : Spec.ScalarLip T fun t => 144 / 5 * sin (7 / 5 * t) :=
  scalarLip_of (f' := fun t => 1008 / 25 * cos (7 / 5 * t)) (L := 1008 / 25)
    (fun t => ((((hasDerivAt_id t).const_mul (7 / 5)).sin).const_mul (144 / 5)).congr_deriv (by simp only [id]; ring))
    fun t => by
      rw [abs_mul]
      exact (mul_le_of_le_one_right (abs_nonneg _) (abs_cos_le_one _)).trans (by norm_num [abs_of_pos])

/-- The model estimated from the four trajectories with the time step `1/(N-1)`, simulated by `BGLEIntegrator` from the start of the third one with its
noise, gives the third one up to `C dt`. -/
theorem simulatedScalar : ∃ C δ : ℝ, 0 < δ ∧ ∀ N extra : ℕ, 2 ≤ N → 1 / ((N - 1 : ℕ) : ℝ) ≤ δ →
    ∃ s1 s2 s3, computeMeanForce env (state (1 / ((N - 1 : ℕ) : ℝ)) N extra) = (s1, none) ∧
      computeCorrs env "direct" false true none s1 = (s2, none) ∧
      computeKernelStep "second_kind_rect" (fun _ _ => none) s2 = (s3, none) ∧
      ∃ trj, simulateBgle s3.model none N (.numpy 0) 8 N (fun n => 144 / 5 * sin (7 / 5 * (n * (1 / ((N - 1 : ℕ) : ℝ))))) = .ok trj ∧
        |trj.x (N - 1) - (sin 1 + sin 7)| ≤ C * (1 / ((N - 1 : ℕ) : ℝ)) := by
  obtain ⟨C, δ, hδ, H⟩ := C176_second_kind_rect scalarModel gram_det force cross_le
    corr_det (lip_of (fun t => W_deriv (1 / 2) (343 / 2) t) (U_le _ _)) (lip_of kt_deriv kt1_le) secondKind (fun _ _ _ => rfl) (scalarGle 1)
    (scalarLip_of kt_deriv kt1_le) scalarNoise_lip
  refine ⟨C, δ, hδ, fun N extra hN hδN => ?_⟩
  have hN0 : (0 : ℝ) < ((N - 1 : ℕ) : ℝ) := by exact_mod_cast (by omega : 0 < N - 1)
  have h1 : ((N - 1 : ℕ) : ℝ) * (1 / ((N - 1 : ℕ) : ℝ)) = 1 := by field_simp
  obtain ⟨s1, s2, s3, a1, a2, a3, trj, a4, a5⟩ := H env "direct" false none "dim_x" (state (1 / ((N - 1 : ℕ) : ℝ)) N extra) N
    0 8 (fun n => 144 / 5 * sin (7 / 5 * (n * (1 / ((N - 1 : ℕ) : ℝ))))) 0
    (setup _ extra (by omega)) (near _ extra (by omega)) (by change 0 < 1 / ((N - 1 : ℕ) : ℝ); positivity) hδN le_rfl hδ.le hN h1.le h1.ge
    ⟨h1.le, by omega, by simp [W], by simp [U]; norm_num, fun n _ => by simp [state]⟩
  refine ⟨s1, s2, s3, a1, a2, a3, trj, a4, ?_⟩
  have := (a5 (N - 1) (by omega)).1
  rw [add_zero] at this
  change |trj.x (N - 1) - W 1 1 (((N - 1 : ℕ) : ℝ) * (1 / ((N - 1 : ℕ) : ℝ)))| ≤ _ at this
  rw [h1] at this
  simp only [W, one_mul, mul_one] at this
  exact this

example := C176_second_kind_trapz scalarModel gram_det force cross_le
    corr_det (deriv_of (f' := U (1 / 2) (2401 / 2)) fun t => (W_deriv (1 / 2) (343 / 2) t).congr_deriv (by norm_num))
    (lip_of (U_deriv _ _) (W_le _ _)) (deriv_of kt_deriv) (lip_of kt1_deriv kt2_le) secondKind (fun _ _ _ => rfl) (scalarGle 1)
    (scalarLip_of kt_deriv kt1_le) scalarNoise_lip

example := C176_rect scalarModel gram_det force cross_le corr_det
    (deriv_of (U_deriv _ _)) (lip_of (W_deriv _ _) (U_le _ _)) (lip_of kt_deriv kt1_le) firstKind (fun _ _ _ => rfl) (scalarGle (1 / 2))
    (scalarLip_of kt_deriv kt1_le) scalarNoise_lip

example := C176_trapz scalarModel gram_det force cross_le corr_det
    (deriv_of (U_deriv _ _)) (deriv_of (W_deriv _ _)) (deriv_of (U_deriv _ _)) (lip_of (W_deriv _ _) (U_le _ _))
    (deriv_of kt_deriv) (deriv_of kt1_deriv) (lip_of kt2_deriv kt3_le) firstKind initial (fun _ _ _ => rfl) (scalarGle (1 / 2))
    (scalarLip_of kt_deriv kt1_le) scalarNoise_lip

end TwoOscillators

end Verif
