import Verif.Props.EstNoise

/-!
# Simulations and noises of a model estimated from independent trajectories, almost surely (C153)
-/

namespace Verif

open LArr Finset MeasureTheory Filter

universe u v

open Spec (Averages NearAverages Estimates)

section
variable {m : BasisModel ℝ} {F : Mat ℝ m.nForce m.dimObs} {μ : Averages m.nForce (Spec.nCorr m) m.dimObs} {T MW S : ℝ}
  {k k' : ℝ → Mat ℝ (Spec.nCorr m) m.dimObs} {ξ x v obs : ℝ → Fin m.dimObs → ℝ} {g : ℝ → Fin m.nForce → ℝ}
  {e e' : ℝ → Fin (Spec.nCorr m) → ℝ} {M : ℝ} {cls : IntegratorClass}

theorem sq_bound {C dt : ℝ} (h0 : 0 < dt) (h1 : dt ≤ 1) : C * dt ^ 2 ≤ |C| * dt :=
  (mul_le_mul_of_nonneg_right (le_abs_self C) (sq_nonneg _)).trans (mul_le_mul_of_nonneg_left (by nlinarith) (abs_nonneg _))

/-- The simulation of a model whose force is known up to `η` and whose kernel up to `C1 dt + η`. -/
theorem sim_of_estimates (hm : Spec.Meant m.cls cls) (hd : m.dimx = m.dimObs) (hw : m.WF) (hb : Spec.SmoothBasis m)
    (hg : Spec.NoisyGle S (Spec.gleForceAt m F) (Spec.memoryAt m) k ξ x v) (hkS : Spec.Lip S k) (hξ : Spec.Lip S (Spec.rowMat ξ)) {C1 : ℝ}
    (hC1 : 0 ≤ C1) :
    ∃ C δ : ℝ, 0 < δ ∧ ∀ (env : Env ℝ) (method km : String) (vectorize second : Bool) (rankTol : Option ℝ) (d : String)
      (s s1 s2 s3 : EstState ℝ) (N : ℕ) (η : ℝ), Setup env method vectorize m d s → computeMeanForce env s = (s1, none) →
      computeCorrs env method vectorize second rankTol s1 = (s2, none) →
      computeKernelStep km (fun _ _ => none) s2 = (s3, none) →
      Estimates m F k N s.model.dt η (C1 * s.model.dt + η) s3.model → 0 < s.model.dt → s.model.dt ≤ δ → 0 < η → η ≤ δ →
      2 ≤ N → N ≤ s.model.truncInd → S ≤ (N - 1 : ℕ) * s.model.dt →
      ∀ nSteps D noise, Spec.Launch S s.model.dt η ξ x v nSteps D noise →
        Spec.Close s3.model cls s.model.dt (C * (s.model.dt + η)) x v nSteps D noise := by
  obtain ⟨C2, δ, hδ, H⟩ := chain hm hd hw hb hg hkS hξ 1
  refine ⟨|C2| * (C1 + 1), δ / (C1 + 1), by positivity, ?_⟩
  intro env method km vectorize second rankTol d s s1 s2 s3 N η hs h1 h2 h3 hest hdt hdtδ hη hηδ hN hNt hcov nSteps D noise hl
  have q1 : 0 ≤ C1 * s.model.dt := mul_nonneg hC1 hdt.le
  have l1 := (le_div_iff₀' (by positivity)).1 hdtδ
  have l2 := (le_div_iff₀' (by positivity)).1 hηδ
  have hsum : C1 * s.model.dt + η ≤ δ := by
    have a1 := mul_le_mul_of_nonneg_left hdtδ hC1
    have a2 : (C1 + 1) * (δ / (C1 + 1)) = δ := by field_simp
    nlinarith
  obtain ⟨trj, t1, t2⟩ := H env method km vectorize second rankTol d s s1 s2 s3 N nSteps D noise η (C1 * s.model.dt + η) hs h1 h2 h3
    (by simpa only [one_mul] using hest) hdt (hdtδ.trans (div_le_self hδ.le (by linarith))) hη.le (by linarith) hsum hN hNt hcov hl
  have bound : C2 * (s.model.dt + (C1 * s.model.dt + η)) ≤ |C2| * (C1 + 1) * (s.model.dt + η) := by
    have a1 : C2 * (s.model.dt + (C1 * s.model.dt + η)) ≤ |C2| * (s.model.dt + (C1 * s.model.dt + η)) :=
      mul_le_mul_of_nonneg_right (le_abs_self C2) (by linarith)
    have a2 : s.model.dt + (C1 * s.model.dt + η) ≤ (C1 + 1) * (s.model.dt + η) := by nlinarith [mul_nonneg hC1 hη.le]
    rw [mul_assoc]
    exact a1.trans (mul_le_mul_of_nonneg_left a2 (abs_nonneg _))
  exact ⟨trj, t1, fun n hn i => ⟨((t2 n hn i).1).trans bound, ((t2 n hn i).2).trans bound⟩⟩

/-- The noise computed with a model whose force is known up to `η` and whose kernel up to `C1 dt ^ o + η`. -/
theorem noise_of_estimates {P : Option String → Prop} {o : ℕ} (H : NoiseNear m F k S obs ξ g e P o) {C1 : ℝ} (hC1 : 0 ≤ C1) :
    ∃ C : ℝ, 0 ≤ C ∧ ∀ (env : Env ℝ) (method km : String) (vectorize second : Bool) (rankTol : Option ℝ) (d : String)
      (s s1 s2 s3 : EstState ℝ) (N : ℕ) (η : ℝ), P (some km) →
      Setup env method vectorize m d s → computeMeanForce env s = (s1, none) →
      computeCorrs env method vectorize second rankTol s1 = (s2, none) →
      computeKernelStep km (fun _ _ => none) s2 = (s3, none) →
      Estimates m F k N s.model.dt η (C1 * s.model.dt ^ o + η) s3.model → (m.dimObs = 1 ∨ d ≠ "dim_x") → 0 < s.model.dt → 0 < η →
      2 ≤ N → N ≤ s.model.truncInd → S ≤ (N - 1 : ℕ) * s.model.dt →
      ∀ xva, Spec.Sampled m s.model.Lobs S s.model.dt obs g e xva →
        Spec.FindsNoise s3.model s.model.Lobs d S s.model.dt (C * s.model.dt ^ o + C * η) ξ xva := by
  obtain ⟨C2, hC2, H⟩ := noise_chain H 1
  refine ⟨C2 * (C1 + 1), by positivity, ?_⟩
  intro env method km vectorize second rankTol d s s1 s2 s3 N η hP hs h1 h2 h3 hest hdim hdt hη hN hNt hcov xva hx
  have q0 : 0 ≤ s.model.dt ^ o := by positivity
  have q1 : 0 ≤ C1 * s.model.dt ^ o := mul_nonneg hC1 q0
  obtain ⟨r, r1, r2, r3⟩ := H env method km vectorize second rankTol d s s1 s2 s3 N xva η (C1 * s.model.dt ^ o + η) hP hs h1 h2 h3
    (by simpa only [one_mul] using hest) hdim hdt hη.le (by linarith) hN hNt hcov hx
  refine ⟨r, r1, r2, fun i hi hiS l => (r3 i hi hiS l).trans ?_⟩
  have a2 : s.model.dt ^ o + (C1 * s.model.dt ^ o + η) ≤ (C1 + 1) * (s.model.dt ^ o + η) := by nlinarith [mul_nonneg hC1 hη.le]
  have := mul_le_mul_of_nonneg_left a2 hC2
  nlinarith

/-- **C153**, rectangle rule of the second kind: when the number of trajectories drawn independently is large enough, all simulations of the
estimated model that start within `η` of a trajectory of the process, with a noise within `η` of its noise, are within
`C (dt + η)` of this trajectory; almost surely, for all `η > 0`. -/
theorem C153_simulate_second_kind_rect (hw : m.WF) (hx1 : 1 ≤ m.dimx) (hG : μ.gram.det ≠ 0) (hF : μ.gram * F = μ.proj)
    (hW : ∀ t ∈ Set.Icc 0 T, ∀ i j, |μ.cross t i j| ≤ MW ∧ |μ.dcross t i j| ≤ MW) (hB0 : (μ.corr 0).det ≠ 0)
    (hB : Spec.Lip T μ.dcorr) (hk : Spec.Lip T k) (heq : Spec.SecondKind T (μ.corr 0) μ.dcorr (μ.dresidual F) k)
    (hm : Spec.Meant m.cls cls) (hd : m.dimx = m.dimObs) (hb : Spec.SmoothBasis m)
    (hg : Spec.NoisyGle S (Spec.gleForceAt m F) (Spec.memoryAt m) k ξ x v) (hkS : Spec.Lip S k) (hξ : Spec.Lip S (Spec.rowMat ξ)) :
    ∃ C δ : ℝ, 0 < δ ∧ ∀ (E : Type u) (Ω : Type v) [MeasurableSpace E] [MeasurableSpace Ω] (ν : Measure E) (P : Measure Ω)
      (X : ℕ → Ω → E) (traj : E → Xva ℝ) (n : ℕ) (env : Env ℝ) (method : String) (vectorize : Bool) (rankTol : Option ℝ)
      (d : String) (s : EstState ℝ), Spec.Draws ν P X → Spec.Stationary m s.model.Lobs μ ν traj n s.model.truncInd s.model.dt →
      (∀ e, Setup env method vectorize m d { s with xvas := [traj e] }) →
      0 < s.model.dt → s.model.dt ≤ δ → 2 ≤ s.model.truncInd → ((s.model.truncInd - 1 : ℕ) : ℝ) * s.model.dt ≤ T →
      S ≤ ((s.model.truncInd - 1 : ℕ) : ℝ) * s.model.dt → 
      ∀ᵐ ω ∂P, ∀ η > 0, η ≤ δ → ∀ᶠ M in atTop, ∃ s1 s2 s3,
        computeMeanForce env { s with xvas := draws traj X M ω } = (s1, none) ∧
        computeCorrs env method vectorize true rankTol s1 = (s2, none) ∧
        computeKernelStep "second_kind_rect" (fun _ _ => none) s2 = (s3, none) ∧
        ∀ nSteps D noise, Spec.Launch S s.model.dt η ξ x v nSteps D noise →
          Spec.Close s3.model cls s.model.dt (C * (s.model.dt + η)) x v nSteps D noise := by
  have hh : m.cls ≠ .hybrid := by rcases hm with ⟨e, -⟩ | ⟨e, -⟩ <;> simp [e]
  obtain ⟨C1, δ1, hδ1, H1⟩ := C143_second_kind_rect hG hF hW hw hx1 hh hB0 hB hk heq
  obtain ⟨C2, δ2, hδ2, H2⟩ := sim_of_estimates hm hd hw hb hg hkS hξ (abs_nonneg C1)
  refine ⟨C2, min 1 (min δ1 δ2), by positivity, ?_⟩
  intro E Ω _ _ ν P X traj n env method vectorize rankTol d s hX hs hset hdt hdtδ hN hT hcov
  filter_upwards [H1 E Ω ν P X traj n env method vectorize rankTol d s hX hs hset hdt (hdtδ.trans ((min_le_right _ _).trans (min_le_left _ _))) hT] with ω hω η hη hηδ
  filter_upwards [hω η hη, eventually_ge_atTop 1] with M hM1 h1
  obtain ⟨s1, s2, s3, r1, r2, r3, r4⟩ := hM1
  exact ⟨s1, s2, s3, r1, r2, r3, H2 env method _ vectorize true rankTol d { s with xvas := draws traj X M ω } s1 s2 s3 _ η
    (setup_draws hset X h1 ω) r1 r2 r3 (r4.mono le_rfl (add_le_add (mul_le_mul_of_nonneg_right (le_abs_self C1) hdt.le) le_rfl)) hdt
    (hdtδ.trans ((min_le_right _ _).trans (min_le_right _ _))) hη (hηδ.trans ((min_le_right _ _).trans (min_le_right _ _)))
    hN le_rfl hcov⟩

/-- **C153**, trapezoidal rule of the second kind: when the number of trajectories drawn independently is large enough, all simulations of the
estimated model that start within `η` of a trajectory of the process, with a noise within `η` of its noise, are within
`C (dt + η)` of this trajectory; almost surely, for all `η > 0`. -/
theorem C153_simulate_second_kind_trapz (hw : m.WF) (hx1 : 1 ≤ m.dimx) (hG : μ.gram.det ≠ 0) (hF : μ.gram * F = μ.proj)
    (hW : ∀ t ∈ Set.Icc 0 T, ∀ i j, |μ.cross t i j| ≤ MW ∧ |μ.dcross t i j| ≤ MW) (hB0 : (μ.corr 0).det ≠ 0)
    {B' : ℝ → Mat ℝ (Spec.nCorr m) (Spec.nCorr m)} {kT : ℝ → Mat ℝ (Spec.nCorr m) m.dimObs}
    (hB : Spec.DerivOn T μ.dcorr B') (hB' : Spec.Lip T B') (hk : Spec.DerivOn T k kT) (hk' : Spec.Lip T kT)
    (heq : Spec.SecondKind T (μ.corr 0) μ.dcorr (μ.dresidual F) k)
    (hm : Spec.Meant m.cls cls) (hd : m.dimx = m.dimObs) (hb : Spec.SmoothBasis m)
    (hg : Spec.NoisyGle S (Spec.gleForceAt m F) (Spec.memoryAt m) k ξ x v) (hkS : Spec.Lip S k) (hξ : Spec.Lip S (Spec.rowMat ξ)) :
    ∃ C δ : ℝ, 0 < δ ∧ ∀ (E : Type u) (Ω : Type v) [MeasurableSpace E] [MeasurableSpace Ω] (ν : Measure E) (P : Measure Ω)
      (X : ℕ → Ω → E) (traj : E → Xva ℝ) (n : ℕ) (env : Env ℝ) (method : String) (vectorize : Bool) (rankTol : Option ℝ)
      (d : String) (s : EstState ℝ), Spec.Draws ν P X → Spec.Stationary m s.model.Lobs μ ν traj n s.model.truncInd s.model.dt →
      (∀ e, Setup env method vectorize m d { s with xvas := [traj e] }) →
      0 < s.model.dt → s.model.dt ≤ δ → 2 ≤ s.model.truncInd → ((s.model.truncInd - 1 : ℕ) : ℝ) * s.model.dt ≤ T →
      S ≤ ((s.model.truncInd - 1 : ℕ) : ℝ) * s.model.dt → 
      ∀ᵐ ω ∂P, ∀ η > 0, η ≤ δ → ∀ᶠ M in atTop, ∃ s1 s2 s3,
        computeMeanForce env { s with xvas := draws traj X M ω } = (s1, none) ∧
        computeCorrs env method vectorize true rankTol s1 = (s2, none) ∧
        computeKernelStep "second_kind_trapz" (fun _ _ => none) s2 = (s3, none) ∧
        ∀ nSteps D noise, Spec.Launch S s.model.dt η ξ x v nSteps D noise →
          Spec.Close s3.model cls s.model.dt (C * (s.model.dt + η)) x v nSteps D noise := by
  have hh : m.cls ≠ .hybrid := by rcases hm with ⟨e, -⟩ | ⟨e, -⟩ <;> simp [e]
  obtain ⟨C1, δ1, hδ1, H1⟩ := C143_second_kind_trapz hG hF hW hw hx1 hh hB0 hB hB' hk hk' heq
  obtain ⟨C2, δ2, hδ2, H2⟩ := sim_of_estimates hm hd hw hb hg hkS hξ (abs_nonneg C1)
  refine ⟨C2, min 1 (min δ1 δ2), by positivity, ?_⟩
  intro E Ω _ _ ν P X traj n env method vectorize rankTol d s hX hs hset hdt hdtδ hN hT hcov
  filter_upwards [H1 E Ω ν P X traj n env method vectorize rankTol d s hX hs hset hdt (hdtδ.trans ((min_le_right _ _).trans (min_le_left _ _))) hT] with ω hω η hη hηδ
  filter_upwards [hω η hη, eventually_ge_atTop 1] with M hM1 h1
  obtain ⟨s1, s2, s3, r1, r2, r3, r4⟩ := hM1
  exact ⟨s1, s2, s3, r1, r2, r3, H2 env method _ vectorize true rankTol d { s with xvas := draws traj X M ω } s1 s2 s3 _ η
    (setup_draws hset X h1 ω) r1 r2 r3 (r4.mono le_rfl (add_le_add (sq_bound hdt (hdtδ.trans (min_le_left _ _))) le_rfl)) hdt
    (hdtδ.trans ((min_le_right _ _).trans (min_le_right _ _))) hη (hηδ.trans ((min_le_right _ _).trans (min_le_right _ _)))
    hN le_rfl hcov⟩

/-- **C153**, rectangle rule of the first kind: when the number of trajectories drawn independently is large enough, all simulations of the
estimated model that start within `η` of a trajectory of the process, with a noise within `η` of its noise, are within
`C (dt + η)` of this trajectory; almost surely, for all `η > 0`. -/
theorem C153_simulate_rect (hw : m.WF) (hx1 : 1 ≤ m.dimx) (hG : μ.gram.det ≠ 0) (hF : μ.gram * F = μ.proj)
    (hW : ∀ t ∈ Set.Icc 0 T, ∀ i j, |μ.cross t i j| ≤ MW ∧ |μ.dcross t i j| ≤ MW) (hB0 : (μ.corr 0).det ≠ 0)
    {B' : ℝ → Mat ℝ (Spec.nCorr m) (Spec.nCorr m)} (hB : Spec.DerivOn T μ.corr B') (hB' : Spec.Lip T B') (hk : Spec.Lip T k)
    (heq : Spec.FirstKind T μ.corr (μ.residual F) k)
    (hm : Spec.Meant m.cls cls) (hd : m.dimx = m.dimObs) (hb : Spec.SmoothBasis m)
    (hg : Spec.NoisyGle S (Spec.gleForceAt m F) (Spec.memoryAt m) k ξ x v) (hkS : Spec.Lip S k) (hξ : Spec.Lip S (Spec.rowMat ξ)) :
    ∃ C δ : ℝ, 0 < δ ∧ ∀ (E : Type u) (Ω : Type v) [MeasurableSpace E] [MeasurableSpace Ω] (ν : Measure E) (P : Measure Ω)
      (X : ℕ → Ω → E) (traj : E → Xva ℝ) (n : ℕ) (env : Env ℝ) (method km : String) (vectorize : Bool) (rankTol : Option ℝ)
      (d : String) (s : EstState ℝ), Spec.Draws ν P X → Spec.Stationary m s.model.Lobs μ ν traj n s.model.truncInd s.model.dt →
      km ∈ ["rect", "rectangular"] → (∀ e, Setup env method vectorize m d { s with xvas := [traj e] }) →
      0 < s.model.dt → s.model.dt ≤ δ → 3 ≤ s.model.truncInd → ((s.model.truncInd - 1 : ℕ) : ℝ) * s.model.dt ≤ T →
      S ≤ ((s.model.truncInd - 2 : ℕ) : ℝ) * s.model.dt → 
      ∀ᵐ ω ∂P, ∀ η > 0, η ≤ δ → ∀ᶠ M in atTop, ∃ s1 s2 s3,
        computeMeanForce env { s with xvas := draws traj X M ω } = (s1, none) ∧
        computeCorrs env method vectorize true rankTol s1 = (s2, none) ∧
        computeKernelStep km (fun _ _ => none) s2 = (s3, none) ∧
        ∀ nSteps D noise, Spec.Launch S s.model.dt η ξ x v nSteps D noise →
          Spec.Close s3.model cls s.model.dt (C * (s.model.dt + η)) x v nSteps D noise := by
  obtain ⟨C1, δ1, hδ1, H1⟩ := C143_rect hG hF hW hw hx1 hB0 hB hB' hk heq
  obtain ⟨C2, δ2, hδ2, H2⟩ := sim_of_estimates hm hd hw hb hg hkS hξ (abs_nonneg C1)
  refine ⟨C2, min 1 (min δ1 δ2), by positivity, ?_⟩
  intro E Ω _ _ ν P X traj n env method km vectorize rankTol d s hX hs hkm hset hdt hdtδ hN hT hcov
  filter_upwards [H1 E Ω ν P X traj n env method km vectorize rankTol d s hX hs hkm hset hdt (hdtδ.trans ((min_le_right _ _).trans (min_le_left _ _))) (by omega) hT] with ω hω η hη hηδ
  filter_upwards [hω η hη, eventually_ge_atTop 1] with M hM1 h1
  obtain ⟨s1, s2, s3, r1, r2, r3, r4⟩ := hM1
  exact ⟨s1, s2, s3, r1, r2, r3, H2 env method _ vectorize true rankTol d { s with xvas := draws traj X M ω } s1 s2 s3 _ η
    (setup_draws hset X h1 ω) r1 r2 r3 (r4.mono le_rfl (add_le_add (mul_le_mul_of_nonneg_right (le_abs_self C1) hdt.le) le_rfl)) hdt
    (hdtδ.trans ((min_le_right _ _).trans (min_le_right _ _))) hη (hηδ.trans ((min_le_right _ _).trans (min_le_right _ _)))
    (show 2 ≤ s.model.truncInd - 1 by omega) (Nat.sub_le _ _) (by rw [Nat.sub_sub]; exact hcov)⟩

/-- **C153**, trapezoidal rule of the first kind: when the number of trajectories drawn independently is large enough, all simulations of the
estimated model that start within `η` of a trajectory of the process, with a noise within `η` of its noise, are within
`C (dt + η)` of this trajectory; almost surely, for all `η > 0`. -/
theorem C153_simulate_trapz (hw : m.WF) (hx1 : 1 ≤ m.dimx) (hG : μ.gram.det ≠ 0) (hF : μ.gram * F = μ.proj)
    (hW : ∀ t ∈ Set.Icc 0 T, ∀ i j, |μ.cross t i j| ≤ MW ∧ |μ.dcross t i j| ≤ MW) (hB0 : (μ.corr 0).det ≠ 0)
    {B1 B2 B3 : ℝ → Mat ℝ (Spec.nCorr m) (Spec.nCorr m)} {k1 k2 : ℝ → Mat ℝ (Spec.nCorr m) m.dimObs}
    (hB1 : Spec.DerivOn T μ.corr B1) (hB2 : Spec.DerivOn T B1 B2) (hB3 : Spec.DerivOn T B2 B3) (hLB : Spec.Lip T B3)
    (hk1 : Spec.DerivOn T k k1) (hk2 : Spec.DerivOn T k1 k2) (hLk : Spec.Lip T k2)
    (heq : Spec.FirstKind T μ.corr (μ.residual F) k) (h0 : μ.dresidual F 0 = μ.corr 0 * k 0)
    (hm : Spec.Meant m.cls cls) (hd : m.dimx = m.dimObs) (hb : Spec.SmoothBasis m)
    (hg : Spec.NoisyGle S (Spec.gleForceAt m F) (Spec.memoryAt m) k ξ x v) (hkS : Spec.Lip S k) (hξ : Spec.Lip S (Spec.rowMat ξ)) :
    ∃ C δ : ℝ, 0 < δ ∧ ∀ (E : Type u) (Ω : Type v) [MeasurableSpace E] [MeasurableSpace Ω] (ν : Measure E) (P : Measure Ω)
      (X : ℕ → Ω → E) (traj : E → Xva ℝ) (n : ℕ) (env : Env ℝ) (method : String) (vectorize : Bool) (rankTol : Option ℝ)
      (d : String) (s : EstState ℝ), Spec.Draws ν P X → Spec.Stationary m s.model.Lobs μ ν traj n s.model.truncInd s.model.dt →
      (∀ e, Setup env method vectorize m d { s with xvas := [traj e] }) →
      0 < s.model.dt → s.model.dt ≤ δ → 3 ≤ s.model.truncInd → ((s.model.truncInd - 1 : ℕ) : ℝ) * s.model.dt ≤ T →
      S ≤ ((s.model.truncInd - 2 : ℕ) : ℝ) * s.model.dt → 
      ∀ᵐ ω ∂P, ∀ η > 0, η ≤ δ → ∀ᶠ M in atTop, ∃ s1 s2 s3,
        computeMeanForce env { s with xvas := draws traj X M ω } = (s1, none) ∧
        computeCorrs env method vectorize true rankTol s1 = (s2, none) ∧
        computeKernelStep "trapz" (fun _ _ => none) s2 = (s3, none) ∧
        ∀ nSteps D noise, Spec.Launch S s.model.dt η ξ x v nSteps D noise →
          Spec.Close s3.model cls s.model.dt (C * (s.model.dt + η)) x v nSteps D noise := by
  have hh : m.cls ≠ .hybrid := by rcases hm with ⟨e, -⟩ | ⟨e, -⟩ <;> simp [e]
  obtain ⟨C1, δ1, hδ1, H1⟩ := C143_trapz hG hF hW hw hx1 hh hB0 hB1 hB2 hB3 hLB hk1 hk2 hLk heq h0
  obtain ⟨C2, δ2, hδ2, H2⟩ := sim_of_estimates hm hd hw hb hg hkS hξ (abs_nonneg C1)
  refine ⟨C2, min 1 (min δ1 δ2), by positivity, ?_⟩
  intro E Ω _ _ ν P X traj n env method vectorize rankTol d s hX hs hset hdt hdtδ hN hT hcov
  filter_upwards [H1 E Ω ν P X traj n env method vectorize rankTol d s hX hs hset hdt (hdtδ.trans ((min_le_right _ _).trans (min_le_left _ _))) (by omega) hT] with ω hω η hη hηδ
  filter_upwards [hω η hη, eventually_ge_atTop 1] with M hM1 h1
  obtain ⟨s1, s2, s3, r1, r2, r3, r4⟩ := hM1
  exact ⟨s1, s2, s3, r1, r2, r3, H2 env method _ vectorize true rankTol d { s with xvas := draws traj X M ω } s1 s2 s3 _ η
    (setup_draws hset X h1 ω) r1 r2 r3 (r4.mono le_rfl (add_le_add (sq_bound hdt (hdtδ.trans (min_le_left _ _))) le_rfl)) hdt
    (hdtδ.trans ((min_le_right _ _).trans (min_le_right _ _))) hη (hηδ.trans ((min_le_right _ _).trans (min_le_right _ _)))
    (show 2 ≤ s.model.truncInd - 1 by omega) (Nat.sub_le _ _) (by rw [Nat.sub_sub]; exact hcov)⟩

/-- **C153**, rectangle rule of the second kind: when the number of trajectories drawn independently is large enough, the noise that the estimated
model finds in a trajectory of the process is that of the process up to `C dt + C η`; almost surely, for all `η > 0`. -/
theorem C153_noise_second_kind_rect (hw : m.WF) (hx1 : 1 ≤ m.dimx) (hh : m.cls ≠ .hybrid) (hG : μ.gram.det ≠ 0) (hF : μ.gram * F = μ.proj)
    (hW : ∀ t ∈ Set.Icc 0 T, ∀ i j, |μ.cross t i j| ≤ MW ∧ |μ.dcross t i j| ≤ MW) (hB0 : (μ.corr 0).det ≠ 0)
    (hB : Spec.Lip T μ.dcorr) (hk : Spec.Lip T k) (heq : Spec.SecondKind T (μ.corr 0) μ.dcorr (μ.dresidual F) k)
    (hfr : m.cls ≠ .withFriction) (hM0 : 0 ≤ M) (hM : ∀ t ∈ Set.Icc 0 S, ∀ p, |g t p| ≤ M)
    (hd : Spec.Driven S obs (fun t l => ∑ p, g t p * F p l) e k ξ) (he : Spec.Lip S (Spec.rowMat e)) (hkS : Spec.Lip S k) :
    ∃ C δ : ℝ, 0 < δ ∧ ∀ (E : Type u) (Ω : Type v) [MeasurableSpace E] [MeasurableSpace Ω] (ν : Measure E) (P : Measure Ω)
      (X : ℕ → Ω → E) (traj : E → Xva ℝ) (n : ℕ) (env : Env ℝ) (method : String) (vectorize : Bool) (rankTol : Option ℝ)
      (d : String) (s : EstState ℝ), Spec.Draws ν P X → Spec.Stationary m s.model.Lobs μ ν traj n s.model.truncInd s.model.dt →
      (∀ e, Setup env method vectorize m d { s with xvas := [traj e] }) →
      0 < s.model.dt → s.model.dt ≤ δ → 2 ≤ s.model.truncInd → ((s.model.truncInd - 1 : ℕ) : ℝ) * s.model.dt ≤ T →
      S ≤ ((s.model.truncInd - 1 : ℕ) : ℝ) * s.model.dt → (m.dimObs = 1 ∨ d ≠ "dim_x") → 
      ∀ᵐ ω ∂P, ∀ η > 0, ∀ᶠ M in atTop, ∃ s1 s2 s3,
        computeMeanForce env { s with xvas := draws traj X M ω } = (s1, none) ∧
        computeCorrs env method vectorize true rankTol s1 = (s2, none) ∧
        computeKernelStep "second_kind_rect" (fun _ _ => none) s2 = (s3, none) ∧
        ∀ xva, Spec.Sampled m s.model.Lobs S s.model.dt obs g e xva →
          Spec.FindsNoise s3.model s.model.Lobs d S s.model.dt (C * s.model.dt + C * η) ξ xva := by
  obtain ⟨C1, δ1, hδ1, H1⟩ := C143_second_kind_rect hG hF hW hw hx1 hh hB0 hB hk heq
  obtain ⟨C2, hC2, H2⟩ := noise_of_estimates (by unfold NoiseNear; simpa only [pow_one] using noise_near_rect hw hfr hM0 hM hd he hkS : NoiseNear m F k S obs ξ g e isRectMethod 1) (abs_nonneg C1)
  refine ⟨C2, δ1, hδ1, ?_⟩
  intro E Ω _ _ ν P X traj n env method vectorize rankTol d s hX hs hset hdt hdtδ hN hT hcov hdim
  filter_upwards [H1 E Ω ν P X traj n env method vectorize rankTol d s hX hs hset hdt hdtδ hT] with ω hω η hη
  filter_upwards [hω η hη, eventually_ge_atTop 1] with M hM1 h1
  obtain ⟨s1, s2, s3, r1, r2, r3, r4⟩ := hM1
  refine ⟨s1, s2, s3, r1, r2, r3, fun xva hxva => ?_⟩
  have := H2 env method _ vectorize true rankTol d { s with xvas := draws traj X M ω } s1 s2 s3 _ η (by decide)
    (setup_draws hset X h1 ω) r1 r2 r3 (by simpa only [pow_one] using r4.mono le_rfl (add_le_add (mul_le_mul_of_nonneg_right (le_abs_self C1) hdt.le) le_rfl)) hdim hdt hη
    hN le_rfl hcov xva hxva
  simpa only [pow_one] using this

/-- **C153**, trapezoidal rule of the second kind: when the number of trajectories drawn independently is large enough, the noise that the estimated
model finds in a trajectory of the process is that of the process up to `C dt² + C η`; almost surely, for all `η > 0`. -/
theorem C153_noise_second_kind_trapz (hw : m.WF) (hx1 : 1 ≤ m.dimx) (hh : m.cls ≠ .hybrid) (hG : μ.gram.det ≠ 0) (hF : μ.gram * F = μ.proj)
    (hW : ∀ t ∈ Set.Icc 0 T, ∀ i j, |μ.cross t i j| ≤ MW ∧ |μ.dcross t i j| ≤ MW) (hB0 : (μ.corr 0).det ≠ 0)
    {B' : ℝ → Mat ℝ (Spec.nCorr m) (Spec.nCorr m)} {kT : ℝ → Mat ℝ (Spec.nCorr m) m.dimObs}
    (hB : Spec.DerivOn T μ.dcorr B') (hB' : Spec.Lip T B') (hk : Spec.DerivOn T k kT) (hk' : Spec.Lip T kT)
    (heq : Spec.SecondKind T (μ.corr 0) μ.dcorr (μ.dresidual F) k)
    (hfr : m.cls ≠ .withFriction) (hM0 : 0 ≤ M) (hM : ∀ t ∈ Set.Icc 0 S, ∀ p, |g t p| ≤ M)
    (hd : Spec.Driven S obs (fun t l => ∑ p, g t p * F p l) e k ξ) (he : Spec.DerivOn S (Spec.rowMat e) (Spec.rowMat e'))
    (he' : Spec.Lip S (Spec.rowMat e')) (hkS : Spec.DerivOn S k k') (hkS' : Spec.Lip S k') :
    ∃ C δ : ℝ, 0 < δ ∧ ∀ (E : Type u) (Ω : Type v) [MeasurableSpace E] [MeasurableSpace Ω] (ν : Measure E) (P : Measure Ω)
      (X : ℕ → Ω → E) (traj : E → Xva ℝ) (n : ℕ) (env : Env ℝ) (method : String) (vectorize : Bool) (rankTol : Option ℝ)
      (d : String) (s : EstState ℝ), Spec.Draws ν P X → Spec.Stationary m s.model.Lobs μ ν traj n s.model.truncInd s.model.dt →
      (∀ e, Setup env method vectorize m d { s with xvas := [traj e] }) →
      0 < s.model.dt → s.model.dt ≤ δ → 2 ≤ s.model.truncInd → ((s.model.truncInd - 1 : ℕ) : ℝ) * s.model.dt ≤ T →
      S ≤ ((s.model.truncInd - 1 : ℕ) : ℝ) * s.model.dt → (m.dimObs = 1 ∨ d ≠ "dim_x") → 
      ∀ᵐ ω ∂P, ∀ η > 0, ∀ᶠ M in atTop, ∃ s1 s2 s3,
        computeMeanForce env { s with xvas := draws traj X M ω } = (s1, none) ∧
        computeCorrs env method vectorize true rankTol s1 = (s2, none) ∧
        computeKernelStep "second_kind_trapz" (fun _ _ => none) s2 = (s3, none) ∧
        ∀ xva, Spec.Sampled m s.model.Lobs S s.model.dt obs g e xva →
          Spec.FindsNoise s3.model s.model.Lobs d S s.model.dt (C * s.model.dt ^ 2 + C * η) ξ xva := by
  obtain ⟨C1, δ1, hδ1, H1⟩ := C143_second_kind_trapz hG hF hW hw hx1 hh hB0 hB hB' hk hk' heq
  obtain ⟨C2, hC2, H2⟩ := noise_of_estimates (noise_near_trapz hw hfr hM0 hM hd he he' hkS hkS' : NoiseNear m F k S obs ξ g e isTrapzMethod 2) (abs_nonneg C1)
  refine ⟨C2, δ1, hδ1, ?_⟩
  intro E Ω _ _ ν P X traj n env method vectorize rankTol d s hX hs hset hdt hdtδ hN hT hcov hdim
  filter_upwards [H1 E Ω ν P X traj n env method vectorize rankTol d s hX hs hset hdt hdtδ hT] with ω hω η hη
  filter_upwards [hω η hη, eventually_ge_atTop 1] with M hM1 h1
  obtain ⟨s1, s2, s3, r1, r2, r3, r4⟩ := hM1
  exact ⟨s1, s2, s3, r1, r2, r3, H2 env method _ vectorize true rankTol d { s with xvas := draws traj X M ω } s1 s2 s3 _ η (by decide)
    (setup_draws hset X h1 ω) r1 r2 r3 (r4.mono le_rfl (add_le_add (mul_le_mul_of_nonneg_right (le_abs_self C1) (sq_nonneg _)) le_rfl)) hdim hdt hη
    hN le_rfl hcov⟩

/-- **C153**, rectangle rule of the first kind: when the number of trajectories drawn independently is large enough, the noise that the estimated
model finds in a trajectory of the process is that of the process up to `C dt + C η`; almost surely, for all `η > 0`. -/
theorem C153_noise_rect (hw : m.WF) (hx1 : 1 ≤ m.dimx) (hG : μ.gram.det ≠ 0) (hF : μ.gram * F = μ.proj)
    (hW : ∀ t ∈ Set.Icc 0 T, ∀ i j, |μ.cross t i j| ≤ MW ∧ |μ.dcross t i j| ≤ MW) (hB0 : (μ.corr 0).det ≠ 0)
    {B' : ℝ → Mat ℝ (Spec.nCorr m) (Spec.nCorr m)} (hB : Spec.DerivOn T μ.corr B') (hB' : Spec.Lip T B') (hk : Spec.Lip T k)
    (heq : Spec.FirstKind T μ.corr (μ.residual F) k)
    (hfr : m.cls ≠ .withFriction) (hM0 : 0 ≤ M) (hM : ∀ t ∈ Set.Icc 0 S, ∀ p, |g t p| ≤ M)
    (hd : Spec.Driven S obs (fun t l => ∑ p, g t p * F p l) e k ξ) (he : Spec.Lip S (Spec.rowMat e)) (hkS : Spec.Lip S k) :
    ∃ C δ : ℝ, 0 < δ ∧ ∀ (E : Type u) (Ω : Type v) [MeasurableSpace E] [MeasurableSpace Ω] (ν : Measure E) (P : Measure Ω)
      (X : ℕ → Ω → E) (traj : E → Xva ℝ) (n : ℕ) (env : Env ℝ) (method km : String) (vectorize : Bool) (rankTol : Option ℝ)
      (d : String) (s : EstState ℝ), Spec.Draws ν P X → Spec.Stationary m s.model.Lobs μ ν traj n s.model.truncInd s.model.dt →
      km ∈ ["rect", "rectangular"] → (∀ e, Setup env method vectorize m d { s with xvas := [traj e] }) →
      0 < s.model.dt → s.model.dt ≤ δ → 3 ≤ s.model.truncInd → ((s.model.truncInd - 1 : ℕ) : ℝ) * s.model.dt ≤ T →
      S ≤ ((s.model.truncInd - 2 : ℕ) : ℝ) * s.model.dt → (m.dimObs = 1 ∨ d ≠ "dim_x") → 
      ∀ᵐ ω ∂P, ∀ η > 0, ∀ᶠ M in atTop, ∃ s1 s2 s3,
        computeMeanForce env { s with xvas := draws traj X M ω } = (s1, none) ∧
        computeCorrs env method vectorize true rankTol s1 = (s2, none) ∧
        computeKernelStep km (fun _ _ => none) s2 = (s3, none) ∧
        ∀ xva, Spec.Sampled m s.model.Lobs S s.model.dt obs g e xva →
          Spec.FindsNoise s3.model s.model.Lobs d S s.model.dt (C * s.model.dt + C * η) ξ xva := by
  obtain ⟨C1, δ1, hδ1, H1⟩ := C143_rect hG hF hW hw hx1 hB0 hB hB' hk heq
  obtain ⟨C2, hC2, H2⟩ := noise_of_estimates (by unfold NoiseNear; simpa only [pow_one] using noise_near_rect hw hfr hM0 hM hd he hkS : NoiseNear m F k S obs ξ g e isRectMethod 1) (abs_nonneg C1)
  refine ⟨C2, δ1, hδ1, ?_⟩
  intro E Ω _ _ ν P X traj n env method km vectorize rankTol d s hX hs hkm hset hdt hdtδ hN hT hcov hdim
  filter_upwards [H1 E Ω ν P X traj n env method km vectorize rankTol d s hX hs hkm hset hdt hdtδ (by omega) hT] with ω hω η hη
  filter_upwards [hω η hη, eventually_ge_atTop 1] with M hM1 h1
  obtain ⟨s1, s2, s3, r1, r2, r3, r4⟩ := hM1
  refine ⟨s1, s2, s3, r1, r2, r3, fun xva hxva => ?_⟩
  have := H2 env method _ vectorize true rankTol d { s with xvas := draws traj X M ω } s1 s2 s3 _ η (by simp only [List.mem_cons, List.not_mem_nil, or_false] at hkm; rcases hkm with rfl | rfl <;> decide)
    (setup_draws hset X h1 ω) r1 r2 r3 (by simpa only [pow_one] using r4.mono le_rfl (add_le_add (mul_le_mul_of_nonneg_right (le_abs_self C1) hdt.le) le_rfl)) hdim hdt hη
    (show 2 ≤ s.model.truncInd - 1 by omega) (Nat.sub_le _ _) (by rw [Nat.sub_sub]; exact hcov) xva hxva
  simpa only [pow_one] using this

/-- **C153**, trapezoidal rule of the first kind: when the number of trajectories drawn independently is large enough, the noise that the estimated
model finds in a trajectory of the process is that of the process up to `C dt² + C η`; almost surely, for all `η > 0`. -/
theorem C153_noise_trapz (hw : m.WF) (hx1 : 1 ≤ m.dimx) (hh : m.cls ≠ .hybrid) (hG : μ.gram.det ≠ 0) (hF : μ.gram * F = μ.proj)
    (hW : ∀ t ∈ Set.Icc 0 T, ∀ i j, |μ.cross t i j| ≤ MW ∧ |μ.dcross t i j| ≤ MW) (hB0 : (μ.corr 0).det ≠ 0)
    {B1 B2 B3 : ℝ → Mat ℝ (Spec.nCorr m) (Spec.nCorr m)} {k1 k2 : ℝ → Mat ℝ (Spec.nCorr m) m.dimObs}
    (hB1 : Spec.DerivOn T μ.corr B1) (hB2 : Spec.DerivOn T B1 B2) (hB3 : Spec.DerivOn T B2 B3) (hLB : Spec.Lip T B3)
    (hk1 : Spec.DerivOn T k k1) (hk2 : Spec.DerivOn T k1 k2) (hLk : Spec.Lip T k2)
    (heq : Spec.FirstKind T μ.corr (μ.residual F) k) (h0 : μ.dresidual F 0 = μ.corr 0 * k 0)
    (hfr : m.cls ≠ .withFriction) (hM0 : 0 ≤ M) (hM : ∀ t ∈ Set.Icc 0 S, ∀ p, |g t p| ≤ M)
    (hd : Spec.Driven S obs (fun t l => ∑ p, g t p * F p l) e k ξ) (he : Spec.DerivOn S (Spec.rowMat e) (Spec.rowMat e'))
    (he' : Spec.Lip S (Spec.rowMat e')) (hkS : Spec.DerivOn S k k') (hkS' : Spec.Lip S k') :
    ∃ C δ : ℝ, 0 < δ ∧ ∀ (E : Type u) (Ω : Type v) [MeasurableSpace E] [MeasurableSpace Ω] (ν : Measure E) (P : Measure Ω)
      (X : ℕ → Ω → E) (traj : E → Xva ℝ) (n : ℕ) (env : Env ℝ) (method : String) (vectorize : Bool) (rankTol : Option ℝ)
      (d : String) (s : EstState ℝ), Spec.Draws ν P X → Spec.Stationary m s.model.Lobs μ ν traj n s.model.truncInd s.model.dt →
      (∀ e, Setup env method vectorize m d { s with xvas := [traj e] }) →
      0 < s.model.dt → s.model.dt ≤ δ → 3 ≤ s.model.truncInd → ((s.model.truncInd - 1 : ℕ) : ℝ) * s.model.dt ≤ T →
      S ≤ ((s.model.truncInd - 2 : ℕ) : ℝ) * s.model.dt → (m.dimObs = 1 ∨ d ≠ "dim_x") → 
      ∀ᵐ ω ∂P, ∀ η > 0, ∀ᶠ M in atTop, ∃ s1 s2 s3,
        computeMeanForce env { s with xvas := draws traj X M ω } = (s1, none) ∧
        computeCorrs env method vectorize true rankTol s1 = (s2, none) ∧
        computeKernelStep "trapz" (fun _ _ => none) s2 = (s3, none) ∧
        ∀ xva, Spec.Sampled m s.model.Lobs S s.model.dt obs g e xva →
          Spec.FindsNoise s3.model s.model.Lobs d S s.model.dt (C * s.model.dt ^ 2 + C * η) ξ xva := by
  obtain ⟨C1, δ1, hδ1, H1⟩ := C143_trapz hG hF hW hw hx1 hh hB0 hB1 hB2 hB3 hLB hk1 hk2 hLk heq h0
  obtain ⟨C2, hC2, H2⟩ := noise_of_estimates (noise_near_trapz hw hfr hM0 hM hd he he' hkS hkS' : NoiseNear m F k S obs ξ g e isTrapzMethod 2) (abs_nonneg C1)
  refine ⟨C2, δ1, hδ1, ?_⟩
  intro E Ω _ _ ν P X traj n env method vectorize rankTol d s hX hs hset hdt hdtδ hN hT hcov hdim
  filter_upwards [H1 E Ω ν P X traj n env method vectorize rankTol d s hX hs hset hdt hdtδ (by omega) hT] with ω hω η hη
  filter_upwards [hω η hη, eventually_ge_atTop 1] with M hM1 h1
  obtain ⟨s1, s2, s3, r1, r2, r3, r4⟩ := hM1
  exact ⟨s1, s2, s3, r1, r2, r3, H2 env method _ vectorize true rankTol d { s with xvas := draws traj X M ω } s1 s2 s3 _ η (by decide)
    (setup_draws hset X h1 ω) r1 r2 r3 (r4.mono le_rfl (add_le_add (mul_le_mul_of_nonneg_right (le_abs_self C1) (sq_nonneg _)) le_rfl)) hdim hdt hη
    (show 2 ≤ s.model.truncInd - 1 by omega) (Nat.sub_le _ _) (by rw [Nat.sub_sub]; exact hcov)⟩

end

/-! ### The two oscillators of `Consistent` -/

namespace TwoOscillators

example := C153_simulate_second_kind_rect.{0, 0} (cls := .gle) (fun h => by cases h) le_rfl gram_det force cross_le corr_det
  (lip_of (fun t => W_deriv (1 / 2) (343 / 2) t) (U_le _ _)) (lip_of kt_deriv kt1_le) secondKind (.inl ⟨rfl, rfl⟩) rfl smooth (gle 1)
  (lip_of kt_deriv kt1_le) noise_lip

example := C153_simulate_second_kind_trapz.{0, 0} (cls := .gle) (fun h => by cases h) le_rfl gram_det force cross_le corr_det
  (deriv_of (f' := U (1 / 2) (2401 / 2)) fun t => (W_deriv (1 / 2) (343 / 2) t).congr_deriv (by norm_num))
  (lip_of (U_deriv _ _) (W_le _ _)) (deriv_of kt_deriv) (lip_of kt1_deriv kt2_le) secondKind (.inl ⟨rfl, rfl⟩) rfl smooth (gle 1)
  (lip_of kt_deriv kt1_le) noise_lip

example := C153_simulate_rect.{0, 0} (cls := .gle) (S := 1 / 2) (fun h => by cases h) le_rfl gram_det force cross_le corr_det
  (deriv_of (U_deriv _ _)) (lip_of (W_deriv _ _) (U_le _ _)) (lip_of kt_deriv kt1_le) firstKind (.inl ⟨rfl, rfl⟩) rfl smooth (gle _)
  (lip_half (lip_of kt_deriv kt1_le)) noise_lip

example := C153_simulate_trapz.{0, 0} (cls := .gle) (S := 1 / 2) (fun h => by cases h) le_rfl gram_det force cross_le corr_det
  (deriv_of (U_deriv _ _)) (deriv_of (W_deriv _ _)) (deriv_of (U_deriv _ _)) (lip_of (W_deriv _ _) (U_le _ _))
  (deriv_of kt_deriv) (deriv_of kt1_deriv) (lip_of kt2_deriv kt3_le) firstKind initial (.inl ⟨rfl, rfl⟩) rfl smooth (gle _)
  (lip_half (lip_of kt_deriv kt1_le)) noise_lip

example := C153_noise_second_kind_rect.{0, 0} (S := 1) (fun h => by cases h) le_rfl (by decide) gram_det force cross_le corr_det
  (lip_of (fun t => W_deriv (1 / 2) (343 / 2) t) (U_le _ _)) (lip_of kt_deriv kt1_le) secondKind (by decide)
  (by norm_num : (0 : ℝ) ≤ 2) (fun t _ _ => (W_le 1 1 t).trans (by norm_num)) (driven 1) memory_lip (lip_of kt_deriv kt1_le)

example := C153_noise_second_kind_trapz.{0, 0} (S := 1) (fun h => by cases h) le_rfl (by decide) gram_det force cross_le corr_det
  (deriv_of (f' := U (1 / 2) (2401 / 2)) fun t => (W_deriv (1 / 2) (343 / 2) t).congr_deriv (by norm_num))
  (lip_of (U_deriv _ _) (W_le _ _)) (deriv_of kt_deriv) (lip_of kt1_deriv kt2_le) secondKind (by decide)
  (by norm_num : (0 : ℝ) ≤ 2) (fun t _ _ => (W_le 1 1 t).trans (by norm_num)) (driven 1) memory_deriv memory_deriv_lip
  (deriv_of kt_deriv) (lip_of kt1_deriv kt2_le)

example := C153_noise_rect.{0, 0} (S := 1 / 2) (fun h => by cases h) le_rfl gram_det force cross_le corr_det
  (deriv_of (U_deriv _ _)) (lip_of (W_deriv _ _) (U_le _ _)) (lip_of kt_deriv kt1_le) firstKind (by decide)
  (by norm_num : (0 : ℝ) ≤ 2) (fun t _ _ => (W_le 1 1 t).trans (by norm_num)) (driven (1 / 2)) memory_lip
  (lip_half (lip_of kt_deriv kt1_le))

example := C153_noise_trapz.{0, 0} (S := 1 / 2) (fun h => by cases h) le_rfl (by decide) gram_det force cross_le corr_det
  (deriv_of (U_deriv _ _)) (deriv_of (W_deriv _ _)) (deriv_of (U_deriv _ _)) (lip_of (W_deriv _ _) (U_le _ _))
  (deriv_of kt_deriv) (deriv_of kt1_deriv) (lip_of kt2_deriv kt3_le) firstKind initial (by decide)
  (by norm_num : (0 : ℝ) ≤ 2) (fun t _ _ => (W_le 1 1 t).trans (by norm_num)) (driven (1 / 2)) memory_deriv memory_deriv_lip
  (deriv_half (deriv_of kt_deriv)) (lip_half (lip_of kt1_deriv kt2_le))

/-- The rule applied to draws of the two oscillators, with `N` points on `[0, 1]`. -/
theorem simulate_draws : ∃ C δ : ℝ, 0 < δ ∧ ∀ (Ω : Type) [MeasurableSpace Ω] (P : Measure Ω) (X : ℕ → Ω → Draw), Spec.Draws law P X →
    ∀ (dt : ℝ) (N extra : ℕ), 0 < dt → dt ≤ δ → 2 ≤ N → ((N - 1 : ℕ) : ℝ) * dt = 1 →
    ∀ᵐ ω ∂P, ∀ η > 0, η ≤ δ → ∀ᶠ M in atTop, ∃ s1 s2 s3,
      computeMeanForce env { state dt N extra with xvas := draws (traj dt (N + extra)) X M ω } = (s1, none) ∧
      computeCorrs env "direct" false true none s1 = (s2, none) ∧
      computeKernelStep "second_kind_rect" (fun _ _ => none) s2 = (s3, none) ∧
      ∀ nSteps (D : InitData ℝ 1) noise, Spec.Launch 1 dt η (fun t _ => 144 / 5 * Real.sin (7 / 5 * t)) (fun t _ => W 1 1 t) (fun t _ => U 1 7 t)
          nSteps D noise → Spec.Close s3.model .gle dt (C * (dt + η)) (fun t _ => W 1 1 t) (fun t _ => U 1 7 t) nSteps D noise := by
  obtain ⟨C, δ, hδ, H⟩ := C153_simulate_second_kind_rect.{0, 0} (cls := .gle) (fun h => by cases h) le_rfl gram_det force cross_le
    corr_det (lip_of (fun t => W_deriv (1 / 2) (343 / 2) t) (U_le _ _)) (lip_of kt_deriv kt1_le) secondKind (.inl ⟨rfl, rfl⟩) rfl
    smooth (gle 1) (lip_of kt_deriv kt1_le) noise_lip
  refine ⟨C, δ, hδ, fun Ω _ P X hX dt N extra h1 h2 h3 h4 => ?_⟩
  exact H Draw Ω law P X (traj dt (N + extra)) (N + extra) env "direct" false none "dim_x" (state dt N extra) hX
    (stationary dt _ N) (setup_draw dt extra (by omega)) h1 h2 h3 h4.le h4.ge

end TwoOscillators

end Verif
