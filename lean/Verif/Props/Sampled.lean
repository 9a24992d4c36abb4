import Verif.Props.Consistent
import Mathlib.Probability.StrongLaw
import Mathlib.Probability.HasLawExists
import Mathlib.Probability.Distributions.Uniform
import Mathlib.Probability.ProbabilityMassFunction.Integrals

/-!
# Estimation from independent trajectories: almost sure convergence (C143)
-/

namespace Verif

open LArr Finset MeasureTheory ProbabilityTheory Filter
open Spec (Averages NearAverages Estimates)

universe u v

set_option linter.unusedSectionVars false

namespace Spec

/-- `h` is integrable and its expectation is `c`. -/
def HasMean {E : Type u} [MeasurableSpace E] (ν : Measure E) (h : E → ℝ) (c : ℝ) : Prop := Integrable h ν ∧ ∫ e, h e ∂ν = c

/-- The law `ν` of a trajectory `traj` of `n` frames is stationary and its averages are `μ`: the expectation of the product of
two functions, one of them at a lag of less than `N` frames, does not depend on the frame. -/
structure Stationary {E : Type u} [MeasurableSpace E] (m : BasisModel ℝ) (L : String) (μ : Averages m.nForce (nCorr m) m.dimObs)
    (ν : Measure E) (traj : E → Xva ℝ) (n N : ℕ) (dt : ℝ) : Prop where
  frames : ∀ e, (traj e).n = n
  gram : ∀ (i j : Fin m.nForce), ∀ t < n, HasMean ν (fun e => forceFeature m (traj e) t i * forceFeature m (traj e) t j) (μ.gram i j)
  proj : ∀ (i : Fin m.nForce) (j : Fin m.dimObs), ∀ t < n, HasMean ν (fun e => forceFeature m (traj e) t i * (traj e).data L t j) (μ.proj i j)
  corr : ∀ (i j : Fin (nCorr m)), ∀ k < N, ∀ t, t + k < n →
    HasMean ν (fun e => corrFeature m (traj e) t i * corrFeature m (traj e) (t + k) j) (μ.corr (k * dt) i j)
  obs : ∀ (i : Fin (nCorr m)) (j : Fin m.dimObs), ∀ k < N, ∀ t, t + k < n →
    HasMean ν (fun e => corrFeature m (traj e) t i * (traj e).data L (t + k) j) (μ.obs (k * dt) i j)
  cross : ∀ (i : Fin (nCorr m)) (j : Fin m.nForce), ∀ k < N, ∀ t, t + k < n →
    HasMean ν (fun e => corrFeature m (traj e) t i * forceFeature m (traj e) (t + k) j) (μ.cross (k * dt) i j)
  dcorr : ∀ (i j : Fin (nCorr m)), ∀ k < N, ∀ t, t + k < n →
    HasMean ν (fun e => corrFeatureDot m (traj e) t i * corrFeature m (traj e) (t + k) j) (μ.dcorr (k * dt) i j)
  dobs : ∀ (i : Fin (nCorr m)) (j : Fin m.dimObs), ∀ k < N, ∀ t, t + k < n →
    HasMean ν (fun e => corrFeatureDot m (traj e) t i * (traj e).data L (t + k) j) (μ.dobs (k * dt) i j)
  dcross : ∀ (i : Fin (nCorr m)) (j : Fin m.nForce), ∀ k < N, ∀ t, t + k < n →
    HasMean ν (fun e => corrFeatureDot m (traj e) t i * forceFeature m (traj e) (t + k) j) (μ.dcross (k * dt) i j)

/-- `X 0`, `X 1`, ... are independent draws from `ν`. -/
structure Draws {E : Type u} {Ω : Type v} [MeasurableSpace E] [MeasurableSpace Ω] (ν : Measure E) (P : Measure Ω) (X : ℕ → Ω → E) : Prop where
  law : ∀ i, HasLaw (X i) ν P
  indep : iIndepFun X P

end Spec

section
variable {E : Type u} {Ω : Type v} [MeasurableSpace E] [MeasurableSpace Ω] {ν : Measure E} {P : Measure Ω} {X : ℕ → Ω → E}

/-- The law of large numbers. -/
theorem draws_mean (hX : Spec.Draws ν P X) {h : E → ℝ} {c : ℝ} (hh : Spec.HasMean ν h c) :
    ∀ᵐ ω ∂P, Tendsto (fun M : ℕ => (∑ i ∈ range M, h (X i ω)) / M) atTop (nhds c) := by
  have hm : ∀ i, AEMeasurable h (P.map (X i)) := fun i => by
    rw [(hX.law i).map_eq]
    exact hh.1.aemeasurable
  have hid : ∀ i, IdentDistrib (X i) (X 0) P P := fun i =>
    ⟨(hX.law i).aemeasurable, (hX.law 0).aemeasurable, by rw [(hX.law i).map_eq, (hX.law 0).map_eq]⟩
  have key := strong_law_ae_real (μ := P) (fun i ω => h (X i ω)) ?_ ?_ ?_
  · have e : ∫ ω, h (X 0 ω) ∂P = c := by
      rw [← hh.2, ← (hX.law 0).map_eq, integral_map (hX.law 0).aemeasurable]
      rw [(hX.law 0).map_eq]
      exact hh.1.1
    rwa [e] at key
  · have := hh.1
    rw [← (hX.law 0).map_eq] at this
    exact this.comp_aemeasurable (hX.law 0).aemeasurable
  · intro i j hij
    exact (hX.indep.indepFun hij).comp₀ (hX.law i).aemeasurable (hX.law j).aemeasurable (hm i) (hm j)
  · intro i
    exact (hid i).comp_of_aemeasurable (hm i)

theorem mean_sum {ι : Type*} (s : Finset ι) {f : ι → E → ℝ} {c : ℝ} (h : ∀ t ∈ s, Spec.HasMean ν (f t) c) :
    Spec.HasMean ν (fun e => ∑ t ∈ s, f t e) (s.card * c) := by
  refine ⟨integrable_finsetSum _ fun t ht => (h t ht).1, ?_⟩
  rw [integral_finsetSum _ fun t ht => (h t ht).1, sum_congr rfl fun t ht => (h t ht).2, sum_const, nsmul_eq_mul]

/-- The first `M` trajectories. -/
def draws (traj : E → Xva ℝ) (X : ℕ → Ω → E) (M : ℕ) (ω : Ω) : List (Xva ℝ) := (List.range M).map fun i => traj (X i ω)

theorem nat_sum_range (n M : ℕ) : ((List.range M).map fun _ => n).sum = M * n := by
  rw [List.map_const', List.sum_replicate, List.length_range, smul_eq_mul]

theorem draws_corr {traj : E → Xva ℝ} {n : ℕ} (hf : ∀ e, (traj e).n = n) (f g : Xva ℝ → ℕ → ℝ) {k : ℕ} (hk : k < n) (M : ℕ) (ω : Ω) :
    Spec.meanCorr (draws traj X M ω) f g k =
      (∑ i ∈ range M, (∑ t ∈ range (n - k), f (traj (X i ω)) t * g (traj (X i ω)) (t + k)) / ((n - k : ℕ) : ℝ)) / M := by
  have hn : (n : ℝ) ≠ 0 := by
    have : 0 < n := by omega
    positivity
  simp only [Spec.meanCorr, Spec.weightedMean, draws, List.map_map, Function.comp_def, hf, Spec.corr]
  rw [list_sum_range, nat_sum_range, ← mul_sum, Nat.cast_mul, mul_comm (M : ℝ), mul_div_mul_left _ _ hn]

theorem draws_pooled {traj : E → Xva ℝ} {n : ℕ} (hf : ∀ e, (traj e).n = n) (f : Xva ℝ → ℕ → ℝ) (hn : 0 < n) (M : ℕ) (ω : Ω) :
    Spec.pooledMean ((draws traj X M ω).map fun xva => (xva.n, f xva)) =
      (∑ i ∈ range M, (∑ t ∈ range n, f (traj (X i ω)) t) / (n : ℝ)) / M := by
  have hn : (n : ℝ) ≠ 0 := by positivity
  simp only [Spec.pooledMean, Spec.pooledSum, draws, List.map_map, Function.comp_def, hf]
  rw [list_sum_range, nat_sum_range, ← sum_div, Nat.cast_mul, div_div, mul_comm (M : ℝ)]

theorem ae_corr (hX : Spec.Draws ν P X) {traj : E → Xva ℝ} {n : ℕ} (hf : ∀ e, (traj e).n = n) {f g : Xva ℝ → ℕ → ℝ} {k : ℕ}
    (hk : k < n) {c : ℝ} (h : ∀ t, t + k < n → Spec.HasMean ν (fun e => f (traj e) t * g (traj e) (t + k)) c) :
    ∀ᵐ ω ∂P, ∀ ε > 0, ∀ᶠ M in atTop, |Spec.meanCorr (draws traj X M ω) f g k - c| ≤ ε := by
  have hn : ((n - k : ℕ) : ℝ) ≠ 0 := by
    have : 0 < n - k := by omega
    positivity
  have hs := mean_sum (range (n - k)) fun t ht => h t (by have := mem_range.1 ht; omega)
  rw [card_range] at hs
  have hd : Spec.HasMean ν (fun e => (∑ t ∈ range (n - k), f (traj e) t * g (traj e) (t + k)) / ((n - k : ℕ) : ℝ)) c :=
    ⟨hs.1.div_const _, by rw [integral_div, hs.2, mul_div_cancel_left₀ _ hn]⟩
  filter_upwards [draws_mean hX hd] with ω hω ε hε
  filter_upwards [Metric.tendsto_nhds.1 hω ε hε] with M hM
  rw [draws_corr hf f g hk]
  rw [Real.dist_eq] at hM
  exact hM.le

theorem ae_pooled (hX : Spec.Draws ν P X) {traj : E → Xva ℝ} {n : ℕ} (hf : ∀ e, (traj e).n = n) {f : Xva ℝ → ℕ → ℝ}
    (hn0 : 0 < n) {c : ℝ} (h : ∀ t < n, Spec.HasMean ν (fun e => f (traj e) t) c) :
    ∀ᵐ ω ∂P, ∀ ε > 0, ∀ᶠ M in atTop, |Spec.pooledMean ((draws traj X M ω).map fun xva => (xva.n, f xva)) - c| ≤ ε := by
  have hn : (n : ℝ) ≠ 0 := by positivity
  have hs := mean_sum (range n) fun t ht => h t (mem_range.1 ht)
  rw [card_range] at hs
  have hd : Spec.HasMean ν (fun e => (∑ t ∈ range n, f (traj e) t) / (n : ℝ)) c :=
    ⟨hs.1.div_const _, by rw [integral_div, hs.2, mul_div_cancel_left₀ _ hn]⟩
  filter_upwards [draws_mean hX hd] with ω hω ε hε
  filter_upwards [Metric.tendsto_nhds.1 hω ε hε] with M hM
  rw [draws_pooled hf f hn0]
  rw [Real.dist_eq] at hM
  exact hM.le

theorem ae_entries {a b : ℕ} {p : Fin a → Fin b → ℕ → Ω → ℝ → Prop}
    (h : ∀ i j, ∀ᵐ ω ∂P, ∀ ε > 0, ∀ᶠ M in atTop, p i j M ω ε) :
    ∀ᵐ ω ∂P, ∀ ε > 0, ∀ᶠ M in atTop, ∀ i j, p i j M ω ε := by
  have := ae_all_iff.2 fun i => ae_all_iff.2 (h i)
  filter_upwards [this] with ω hω ε hε
  exact eventually_all.2 fun i => eventually_all.2 fun j => hω i j ε hε

theorem ae_lags {a b N : ℕ} {p : ℕ → Fin a → Fin b → ℕ → Ω → ℝ → Prop}
    (h : ∀ k < N, ∀ i j, ∀ᵐ ω ∂P, ∀ ε > 0, ∀ᶠ M in atTop, p k i j M ω ε) :
    ∀ᵐ ω ∂P, ∀ ε > 0, ∀ᶠ M in atTop, ∀ k < N, ∀ i j, p k i j M ω ε := by
  have := ae_all_iff.2 fun k : Fin N => ae_entries (h k k.2)
  filter_upwards [this] with ω hω ε hε
  filter_upwards [eventually_all.2 fun k => hω k ε hε] with M hM k hk
  exact hM ⟨k, hk⟩

/-- Almost surely the averages over the trajectories come close to those of the process. -/
theorem draws_near (hX : Spec.Draws ν P X) {m : BasisModel ℝ} {L : String} {μ : Averages m.nForce (Spec.nCorr m) m.dimObs}
    {traj : E → Xva ℝ} {n N : ℕ} {dt : ℝ} (hs : Spec.Stationary m L μ ν traj n N dt) (hN : N ≤ n) (hn : 0 < n) :
    ∀ᵐ ω ∂P, ∀ ε > 0, ∀ᶠ M in atTop, NearAverages m L μ (draws traj X M ω) N dt ε := by
  have a1 := ae_entries fun (i j : Fin m.nForce) => ae_pooled hX hs.frames
    (f := fun xva t => Spec.forceFeature m xva t i * Spec.forceFeature m xva t j) hn (hs.gram i j)
  have a2 := ae_entries fun (i : Fin m.nForce) (j : Fin m.dimObs) => ae_pooled hX hs.frames
    (f := fun xva t => Spec.forceFeature m xva t i * xva.data L t j) hn (hs.proj i j)
  have a3 := ae_lags fun k (hk : k < N) (i j : Fin (Spec.nCorr m)) => ae_corr hX hs.frames
    (f := fun xva t => Spec.corrFeature m xva t i) (g := fun xva t => Spec.corrFeature m xva t j) (hk.trans_le hN) (hs.corr i j k hk)
  have a4 := ae_lags fun k (hk : k < N) (i : Fin (Spec.nCorr m)) (j : Fin m.dimObs) => ae_corr hX hs.frames
    (f := fun xva t => Spec.corrFeature m xva t i) (g := fun xva t => xva.data L t j) (hk.trans_le hN) (hs.obs i j k hk)
  have a5 := ae_lags fun k (hk : k < N) (i : Fin (Spec.nCorr m)) (j : Fin m.nForce) => ae_corr hX hs.frames
    (f := fun xva t => Spec.corrFeature m xva t i) (g := fun xva t => Spec.forceFeature m xva t j) (hk.trans_le hN) (hs.cross i j k hk)
  have a6 := ae_lags fun k (hk : k < N) (i j : Fin (Spec.nCorr m)) => ae_corr hX hs.frames
    (f := fun xva t => Spec.corrFeatureDot m xva t i) (g := fun xva t => Spec.corrFeature m xva t j) (hk.trans_le hN) (hs.dcorr i j k hk)
  have a7 := ae_lags fun k (hk : k < N) (i : Fin (Spec.nCorr m)) (j : Fin m.dimObs) => ae_corr hX hs.frames
    (f := fun xva t => Spec.corrFeatureDot m xva t i) (g := fun xva t => xva.data L t j) (hk.trans_le hN) (hs.dobs i j k hk)
  have a8 := ae_lags fun k (hk : k < N) (i : Fin (Spec.nCorr m)) (j : Fin m.nForce) => ae_corr hX hs.frames
    (f := fun xva t => Spec.corrFeatureDot m xva t i) (g := fun xva t => Spec.forceFeature m xva t j) (hk.trans_le hN) (hs.dcross i j k hk)
  filter_upwards [a1, a2, a3, a4, a5, a6, a7, a8] with ω b1 b2 b3 b4 b5 b6 b7 b8 ε hε
  filter_upwards [b1 ε hε, b2 ε hε, b3 ε hε, b4 ε hε, b5 ε hε, b6 ε hε, b7 ε hε, b8 ε hε] with M c1 c2 c3 c4 c5 c6 c7 c8
  exact ⟨c1, c2, c3, c4, c5, c6, c7, c8⟩

end

theorem Spec.Estimates.mono {m : BasisModel ℝ} {F : Mat ℝ m.nForce m.dimObs} {k : ℝ → Mat ℝ (Spec.nCorr m) m.dimObs} {N : ℕ}
    {dt eF eK eF' eK' : ℝ} {s : ModelState ℝ} (h : Estimates m F k N dt eF eK s) (hF : eF ≤ eF') (hK : eK ≤ eK') :
    Estimates m F k N dt eF' eK' s where
  force := fun n pts => by
    obtain ⟨R, h1, h2, h3, h4⟩ := h.force n pts
    exact ⟨R, h1, h2, h3, fun i l hl => (h4 i l hl).trans (mul_le_mul_of_nonneg_right hF (sum_nonneg fun _ _ => abs_nonneg _))⟩
  kernel := by
    obtain ⟨r, h1, h2, h3, h4⟩ := h.kernel
    exact ⟨r, h1, h2, h3, fun n hn => ⟨(h4 n hn).1, fun i j => ((h4 n hn).2 i j).trans hK⟩⟩
  eval := fun c1 c2 n pts => by
    obtain ⟨R, h1, h2⟩ := h.eval c1 c2 n pts
    exact ⟨R, h1, fun t ht l hl i d => (h2 t ht l hl i d).trans (mul_le_mul_of_nonneg_right hK (sum_nonneg fun _ _ => abs_nonneg _))⟩

/-- When each trajectory alone is accepted, all together are. -/
theorem setup_draws {E : Type u} {Ω : Type v} {env : Env ℝ} {method : String} {vectorize : Bool} {m : BasisModel ℝ} {d : String}
    {s : EstState ℝ} {traj : E → Xva ℝ} (h : ∀ e, Setup env method vectorize m d { s with xvas := [traj e] }) (X : ℕ → Ω → E)
    {M : ℕ} (hM : 1 ≤ M) (ω : Ω) : Setup env method vectorize m d { s with xvas := draws traj X M ω } := by
  have hmem : ∀ y ∈ draws traj X M ω, ∃ e, y = traj e := by
    intro y hy
    obtain ⟨i, -, rfl⟩ := List.mem_map.1 hy
    exact ⟨_, rfl⟩
  have h0 := h (X 0 ω)
  refine ⟨h0.loop, h0.fn, h0.bm, h0.wf, h0.noProj, ⟨h0.obs.1, h0.obs.2.1, ?_⟩, h0.dim, ?_, h0.npos, h0.xpos, h0.tpos, ?_, ?_⟩
  · intro y hy
    obtain ⟨e, rfl⟩ := hmem y hy
    exact (h e).obs.2.2 _ List.mem_cons_self
  · intro y hy
    obtain ⟨e, rfl⟩ := hmem y hy
    exact (h e).dimx _ List.mem_cons_self
  · intro y hy
    obtain ⟨e, rfl⟩ := hmem y hy
    exact (h e).tle _ List.mem_cons_self
  · intro h
    have := congrArg List.length h
    simp only [draws, List.length_map, List.length_range, List.length_nil] at this
    omega

/-- The choice of `ε`. -/
theorem exists_eps (C : ℝ) {δ g η : ℝ} (hδ : 0 < δ) (hg : 0 < g) (hη : 0 < η) :
    ∃ ε > 0, ε ≤ δ * g ∧ C * ε ≤ η ∧ C * (ε / g) ≤ η := by
  obtain ⟨C', hC', hC⟩ : ∃ C' : ℝ, 0 < C' ∧ C ≤ C' := ⟨|C| + 1, by positivity, (le_abs_self C).trans (by linarith)⟩
  refine ⟨min (δ * g) (min (η / C') (η * g / C')), by positivity, min_le_left _ _, ?_, ?_⟩
  · have : min (δ * g) (min (η / C') (η * g / C')) ≤ η / C' := (min_le_right _ _).trans (min_le_left _ _)
    calc _ ≤ C' * min (δ * g) (min (η / C') (η * g / C')) := mul_le_mul_of_nonneg_right hC (by positivity)
      _ ≤ C' * (η / C') := mul_le_mul_of_nonneg_left this hC'.le
      _ = η := by field_simp
  · have : min (δ * g) (min (η / C') (η * g / C')) ≤ η * g / C' := (min_le_right _ _).trans (min_le_right _ _)
    calc _ ≤ C' * (min (δ * g) (min (η / C') (η * g / C')) / g) := mul_le_mul_of_nonneg_right hC (by positivity)
      _ ≤ C' * (η * g / C' / g) := by gcongr
      _ = η := by field_simp

section
variable {m : BasisModel ℝ} {μ : Averages m.nForce (Spec.nCorr m) m.dimObs} {F : Mat ℝ m.nForce m.dimObs} {T MW : ℝ}

/-- **C143**, rectangle rule of the first kind: from trajectories drawn independently from a stationary process, almost surely,
when their number is large enough the three steps of the estimation succeed, the force is the projection of the observable
up to `η`, and the kernel is that of the process up to `C dt + η`, for all `η > 0`. -/
theorem C143_rect (hG : μ.gram.det ≠ 0) (hF : μ.gram * F = μ.proj)
    (hW : ∀ t ∈ Set.Icc 0 T, ∀ i j, |μ.cross t i j| ≤ MW ∧ |μ.dcross t i j| ≤ MW) (hm : m.WF) (hx1 : 1 ≤ m.dimx)
    (hB0 : (μ.corr 0).det ≠ 0) {B' : ℝ → Mat ℝ (Spec.nCorr m) (Spec.nCorr m)} {k : ℝ → Mat ℝ (Spec.nCorr m) m.dimObs}
    (hB : Spec.DerivOn T μ.corr B') (hB' : Spec.Lip T B') (hk : Spec.Lip T k)
    (heq : Spec.FirstKind T μ.corr (μ.residual F) k) :
    ∃ C δ : ℝ, 0 < δ ∧ ∀ (E : Type u) (Ω : Type v) [MeasurableSpace E] [MeasurableSpace Ω] (ν : Measure E) (P : Measure Ω)
      (X : ℕ → Ω → E) (traj : E → Xva ℝ) (n : ℕ) (env : Env ℝ) (method km : String) (vectorize : Bool) (rankTol : Option ℝ)
      (d : String) (s : EstState ℝ), Spec.Draws ν P X → Spec.Stationary m s.model.Lobs μ ν traj n s.model.truncInd s.model.dt →
      km ∈ ["rect", "rectangular"] → (∀ e, Setup env method vectorize m d { s with xvas := [traj e] }) →
      0 < s.model.dt → s.model.dt ≤ δ → 2 ≤ s.model.truncInd → ((s.model.truncInd - 1 : ℕ) : ℝ) * s.model.dt ≤ T →
      ∀ᵐ ω ∂P, ∀ η > 0, ∀ᶠ M in atTop, ∃ s1 s2 s3, computeMeanForce env { s with xvas := draws traj X M ω } = (s1, none) ∧
        computeCorrs env method vectorize true rankTol s1 = (s2, none) ∧
        computeKernelStep km (fun _ _ => none) s2 = (s3, none) ∧
        Estimates m F k (s.model.truncInd - 1) s.model.dt η (C * s.model.dt + η) s3.model := by
  obtain ⟨C, δ, hδ, H⟩ := C142_rect hG hF hW hm hx1 hB0 hB hB' hk heq
  refine ⟨C, δ, hδ, ?_⟩
  intro E Ω _ _ ν P X traj n env method km vectorize rankTol d s hX hs hkm hset hdt hdtδ h2 hT
  have hn : ∀ ω : Ω, s.model.truncInd ≤ n ∧ 0 < n := fun ω => by
    have h1 := (hset (X 0 ω)).tle _ List.mem_cons_self
    rw [hs.frames] at h1
    have := (hset (X 0 ω)).tpos
    exact ⟨h1, by change 1 ≤ s.model.truncInd at this; change s.model.truncInd ≤ n at h1; omega⟩
  rcases isEmpty_or_nonempty Ω with hΩ | ⟨⟨ω0⟩⟩
  · exact Eventually.of_forall fun ω => hΩ.elim ω
  filter_upwards [draws_near hX hs (hn ω0).1 (hn ω0).2] with ω hω η hη
  obtain ⟨ε, hε, e1, e2, e3⟩ := exists_eps C hδ hdt hη
  filter_upwards [hω ε hε, eventually_ge_atTop 1] with M hM h1
  obtain ⟨s1, s2, s3, r1, r2, r3, r4⟩ := H env method km vectorize rankTol d { s with xvas := draws traj X M ω } ε hkm
    (setup_draws hset X h1 ω) hM hdt hdtδ hε.le e1 h2 hT
  exact ⟨s1, s2, s3, r1, r2, r3, r4.mono e2 (by rw [mul_add]; exact add_le_add le_rfl e3)⟩

/-- **C143**, rectangle rule of the second kind: from trajectories drawn independently from a stationary process, almost surely,
when their number is large enough the three steps of the estimation succeed, the force is the projection of the observable
up to `η`, and the kernel is that of the process up to `C dt + η`, for all `η > 0`. -/
theorem C143_second_kind_rect (hG : μ.gram.det ≠ 0) (hF : μ.gram * F = μ.proj)
    (hW : ∀ t ∈ Set.Icc 0 T, ∀ i j, |μ.cross t i j| ≤ MW ∧ |μ.dcross t i j| ≤ MW) (hm : m.WF) (hx1 : 1 ≤ m.dimx)
    (hh : m.cls ≠ .hybrid) (hB0 : (μ.corr 0).det ≠ 0) {k : ℝ → Mat ℝ (Spec.nCorr m) m.dimObs}
    (hB : Spec.Lip T μ.dcorr) (hk : Spec.Lip T k) (heq : Spec.SecondKind T (μ.corr 0) μ.dcorr (μ.dresidual F) k) :
    ∃ C δ : ℝ, 0 < δ ∧ ∀ (E : Type u) (Ω : Type v) [MeasurableSpace E] [MeasurableSpace Ω] (ν : Measure E) (P : Measure Ω)
      (X : ℕ → Ω → E) (traj : E → Xva ℝ) (n : ℕ) (env : Env ℝ) (method : String) (vectorize : Bool) (rankTol : Option ℝ)
      (d : String) (s : EstState ℝ), Spec.Draws ν P X → Spec.Stationary m s.model.Lobs μ ν traj n s.model.truncInd s.model.dt →
      (∀ e, Setup env method vectorize m d { s with xvas := [traj e] }) →
      0 < s.model.dt → s.model.dt ≤ δ → ((s.model.truncInd - 1 : ℕ) : ℝ) * s.model.dt ≤ T →
      ∀ᵐ ω ∂P, ∀ η > 0, ∀ᶠ M in atTop, ∃ s1 s2 s3, computeMeanForce env { s with xvas := draws traj X M ω } = (s1, none) ∧
        computeCorrs env method vectorize true rankTol s1 = (s2, none) ∧
        computeKernelStep "second_kind_rect" (fun _ _ => none) s2 = (s3, none) ∧
        Estimates m F k s.model.truncInd s.model.dt η (C * s.model.dt + η) s3.model := by
  obtain ⟨C, δ, hδ, H⟩ := C142_second_kind_rect hG hF hW hm hx1 hh hB0 hB hk heq
  refine ⟨C, δ, hδ, ?_⟩
  intro E Ω _ _ ν P X traj n env method vectorize rankTol d s hX hs hset hdt hdtδ hT
  have hn : ∀ ω : Ω, s.model.truncInd ≤ n ∧ 0 < n := fun ω => by
    have h1 := (hset (X 0 ω)).tle _ List.mem_cons_self
    rw [hs.frames] at h1
    have := (hset (X 0 ω)).tpos
    exact ⟨h1, by change 1 ≤ s.model.truncInd at this; change s.model.truncInd ≤ n at h1; omega⟩
  rcases isEmpty_or_nonempty Ω with hΩ | ⟨⟨ω0⟩⟩
  · exact Eventually.of_forall fun ω => hΩ.elim ω
  filter_upwards [draws_near hX hs (hn ω0).1 (hn ω0).2] with ω hω η hη
  obtain ⟨ε, hε, e1, e2, e3⟩ := exists_eps C hδ one_pos hη
  filter_upwards [hω ε hε, eventually_ge_atTop 1] with M hM h1
  obtain ⟨s1, s2, s3, r1, r2, r3, r4⟩ := H env method vectorize rankTol d { s with xvas := draws traj X M ω } ε
    (setup_draws hset X h1 ω) hM hdt hdtδ hε.le (by rwa [mul_one] at e1) hT
  exact ⟨s1, s2, s3, r1, r2, r3, r4.mono e2 (by rw [mul_add]; exact add_le_add le_rfl e2)⟩

/-- **C143**, trapezoidal rule of the second kind: from trajectories drawn independently from a stationary process, almost surely,
when their number is large enough the three steps of the estimation succeed, the force is the projection of the observable
up to `η`, and the kernel is that of the process up to `C dt² + η`, for all `η > 0`. -/
theorem C143_second_kind_trapz (hG : μ.gram.det ≠ 0) (hF : μ.gram * F = μ.proj)
    (hW : ∀ t ∈ Set.Icc 0 T, ∀ i j, |μ.cross t i j| ≤ MW ∧ |μ.dcross t i j| ≤ MW) (hm : m.WF) (hx1 : 1 ≤ m.dimx)
    (hh : m.cls ≠ .hybrid) (hB0 : (μ.corr 0).det ≠ 0) {B' : ℝ → Mat ℝ (Spec.nCorr m) (Spec.nCorr m)}
    {k k' : ℝ → Mat ℝ (Spec.nCorr m) m.dimObs}
    (hB : Spec.DerivOn T μ.dcorr B') (hB' : Spec.Lip T B')
    (hk : Spec.DerivOn T k k') (hk' : Spec.Lip T k') (heq : Spec.SecondKind T (μ.corr 0) μ.dcorr (μ.dresidual F) k) :
    ∃ C δ : ℝ, 0 < δ ∧ ∀ (E : Type u) (Ω : Type v) [MeasurableSpace E] [MeasurableSpace Ω] (ν : Measure E) (P : Measure Ω)
      (X : ℕ → Ω → E) (traj : E → Xva ℝ) (n : ℕ) (env : Env ℝ) (method : String) (vectorize : Bool) (rankTol : Option ℝ)
      (d : String) (s : EstState ℝ), Spec.Draws ν P X → Spec.Stationary m s.model.Lobs μ ν traj n s.model.truncInd s.model.dt →
      (∀ e, Setup env method vectorize m d { s with xvas := [traj e] }) →
      0 < s.model.dt → s.model.dt ≤ δ → ((s.model.truncInd - 1 : ℕ) : ℝ) * s.model.dt ≤ T →
      ∀ᵐ ω ∂P, ∀ η > 0, ∀ᶠ M in atTop, ∃ s1 s2 s3, computeMeanForce env { s with xvas := draws traj X M ω } = (s1, none) ∧
        computeCorrs env method vectorize true rankTol s1 = (s2, none) ∧
        computeKernelStep "second_kind_trapz" (fun _ _ => none) s2 = (s3, none) ∧
        Estimates m F k s.model.truncInd s.model.dt η (C * s.model.dt ^ 2 + η) s3.model := by
  obtain ⟨C, δ, hδ, H⟩ := C142_second_kind_trapz hG hF hW hm hx1 hh hB0 hB hB' hk hk' heq
  refine ⟨C, δ, hδ, ?_⟩
  intro E Ω _ _ ν P X traj n env method vectorize rankTol d s hX hs hset hdt hdtδ hT
  have hn : ∀ ω : Ω, s.model.truncInd ≤ n ∧ 0 < n := fun ω => by
    have h1 := (hset (X 0 ω)).tle _ List.mem_cons_self
    rw [hs.frames] at h1
    have := (hset (X 0 ω)).tpos
    exact ⟨h1, by change 1 ≤ s.model.truncInd at this; change s.model.truncInd ≤ n at h1; omega⟩
  rcases isEmpty_or_nonempty Ω with hΩ | ⟨⟨ω0⟩⟩
  · exact Eventually.of_forall fun ω => hΩ.elim ω
  filter_upwards [draws_near hX hs (hn ω0).1 (hn ω0).2] with ω hω η hη
  obtain ⟨ε, hε, e1, e2, e3⟩ := exists_eps C hδ one_pos hη
  filter_upwards [hω ε hε, eventually_ge_atTop 1] with M hM h1
  obtain ⟨s1, s2, s3, r1, r2, r3, r4⟩ := H env method vectorize rankTol d { s with xvas := draws traj X M ω } ε
    (setup_draws hset X h1 ω) hM hdt hdtδ hε.le (by rwa [mul_one] at e1) hT
  exact ⟨s1, s2, s3, r1, r2, r3, r4.mono e2 (by rw [mul_add]; exact add_le_add le_rfl e2)⟩

/-- **C143**, trapezoidal rule of the first kind: from trajectories drawn independently from a stationary process, almost surely,
when their number is large enough the three steps of the estimation succeed, the force is the projection of the observable
up to `η`, and the kernel is that of the process up to `C dt² + η`, for all `η > 0`. -/
theorem C143_trapz (hG : μ.gram.det ≠ 0) (hF : μ.gram * F = μ.proj)
    (hW : ∀ t ∈ Set.Icc 0 T, ∀ i j, |μ.cross t i j| ≤ MW ∧ |μ.dcross t i j| ≤ MW) (hm : m.WF) (hx1 : 1 ≤ m.dimx)
    (hh : m.cls ≠ .hybrid) (hB0 : (μ.corr 0).det ≠ 0) {B1 B2 B3 : ℝ → Mat ℝ (Spec.nCorr m) (Spec.nCorr m)}
    {k k1 k2 : ℝ → Mat ℝ (Spec.nCorr m) m.dimObs}
    (hB1 : Spec.DerivOn T μ.corr B1) (hB2 : Spec.DerivOn T B1 B2) (hB3 : Spec.DerivOn T B2 B3) (hLB : Spec.Lip T B3)
    (hk1 : Spec.DerivOn T k k1) (hk2 : Spec.DerivOn T k1 k2) (hLk : Spec.Lip T k2)
    (heq : Spec.FirstKind T μ.corr (μ.residual F) k) (h0 : μ.dresidual F 0 = μ.corr 0 * k 0) :
    ∃ C δ : ℝ, 0 < δ ∧ ∀ (E : Type u) (Ω : Type v) [MeasurableSpace E] [MeasurableSpace Ω] (ν : Measure E) (P : Measure Ω)
      (X : ℕ → Ω → E) (traj : E → Xva ℝ) (n : ℕ) (env : Env ℝ) (method : String) (vectorize : Bool) (rankTol : Option ℝ)
      (d : String) (s : EstState ℝ), Spec.Draws ν P X → Spec.Stationary m s.model.Lobs μ ν traj n s.model.truncInd s.model.dt →
      (∀ e, Setup env method vectorize m d { s with xvas := [traj e] }) →
      0 < s.model.dt → s.model.dt ≤ δ → 2 ≤ s.model.truncInd → ((s.model.truncInd - 1 : ℕ) : ℝ) * s.model.dt ≤ T →
      ∀ᵐ ω ∂P, ∀ η > 0, ∀ᶠ M in atTop, ∃ s1 s2 s3, computeMeanForce env { s with xvas := draws traj X M ω } = (s1, none) ∧
        computeCorrs env method vectorize true rankTol s1 = (s2, none) ∧
        computeKernelStep "trapz" (fun _ _ => none) s2 = (s3, none) ∧
        Estimates m F k (s.model.truncInd - 1) s.model.dt η (C * s.model.dt ^ 2 + η) s3.model := by
  obtain ⟨C, δ, hδ, H⟩ := C142_trapz hG hF hW hm hx1 hh hB0 hB1 hB2 hB3 hLB hk1 hk2 hLk heq h0
  refine ⟨C, δ, hδ, ?_⟩
  intro E Ω _ _ ν P X traj n env method vectorize rankTol d s hX hs hset hdt hdtδ h2 hT
  have hn : ∀ ω : Ω, s.model.truncInd ≤ n ∧ 0 < n := fun ω => by
    have h1 := (hset (X 0 ω)).tle _ List.mem_cons_self
    rw [hs.frames] at h1
    have := (hset (X 0 ω)).tpos
    exact ⟨h1, by change 1 ≤ s.model.truncInd at this; change s.model.truncInd ≤ n at h1; omega⟩
  rcases isEmpty_or_nonempty Ω with hΩ | ⟨⟨ω0⟩⟩
  · exact Eventually.of_forall fun ω => hΩ.elim ω
  filter_upwards [draws_near hX hs (hn ω0).1 (hn ω0).2] with ω hω η hη
  obtain ⟨ε, hε, e1, e2, e3⟩ := exists_eps C hδ (pow_pos hdt 2) hη
  filter_upwards [hω ε hε, eventually_ge_atTop 1] with M hM h1
  obtain ⟨s1, s2, s3, r1, r2, r3, r4⟩ := H env method vectorize rankTol d { s with xvas := draws traj X M ω } ε
    (setup_draws hset X h1 ω) hM hdt hdtδ hε.le e1 h2 hT
  exact ⟨s1, s2, s3, r1, r2, r3, r4.mono e2 (by rw [mul_add]; exact add_le_add le_rfl e3)⟩

end

/-! The process with two oscillators of `Consistent`, whose trajectories are drawn independently among four. -/

namespace TwoOscillators

/-- A number out of four. -/
abbrev Draw := Bool × Bool

noncomputable def law : Measure Draw := (PMF.uniformOfFintype Draw).toMeasure

instance : IsProbabilityMeasure law := by unfold law; infer_instance

noncomputable def traj (dt : ℝ) (n : ℕ) (e : Draw) : Xva ℝ := xva dt n e.1 (if e.2 then 1 else -1)

theorem mean_of {h : Draw → ℝ} {c : ℝ} (hc : h (true, true) + h (true, false) + h (false, true) + h (false, false) = 4 * c) :
    Spec.HasMean law h c := by
  refine ⟨.of_finite, ?_⟩
  unfold law
  rw [PMF.integral_eq_sum, Fintype.sum_prod_type]
  simp only [Fintype.sum_bool, PMF.uniformOfFintype_apply, Fintype.card_prod, Fintype.card_bool, smul_eq_mul]
  norm_num
  linarith

theorem stationary (dt : ℝ) (n N : ℕ) : Spec.Stationary model "a" μ law (traj dt n) n N dt where
  frames := fun _ => rfl
  gram := fun i j t _ => mean_of (avg_gram dt n t i j)
  proj := fun i j t _ => mean_of (avg_proj dt n t i j)
  corr := fun i j k _ t _ => mean_of (avg_corr dt n t k i j)
  obs := fun i j k _ t _ => mean_of (avg_obs dt n t k i j)
  cross := fun i j k _ t _ => mean_of (avg_cross dt n t k i j)
  dcorr := fun i j k _ t _ => mean_of (avg_dcorr dt n t k i j)
  dobs := fun i j k _ t _ => mean_of (avg_dobs dt n t k i j)
  dcross := fun i j k _ t _ => mean_of (avg_dcross dt n t k i j)

theorem setup_draw (dt : ℝ) {N : ℕ} (extra : ℕ) (hN : 1 ≤ N) (e : Draw) :
    Setup env "direct" false model "dim_x" { state dt N extra with xvas := [traj dt (N + extra) e] } where
  loop := .inl rfl
  fn := isCorrFn
  bm := rfl
  wf := fun h => by cases h
  noProj := rfl
  obs := ⟨by decide, by decide, fun y hy => by
    obtain rfl := List.mem_singleton.1 hy
    exact ⟨rfl, rfl⟩⟩
  dim := by decide
  dimx := fun y hy => by
    obtain rfl := List.mem_singleton.1 hy
    rfl
  npos := by decide
  xpos := by decide
  tpos := hN
  tle := fun y hy => by
    obtain rfl := List.mem_singleton.1 hy
    exact Nat.le_add_right N extra
  ne := by simp

/-- Draws exist. -/
theorem draws_exist : ∃ (Ω : Type) (_ : MeasurableSpace Ω) (P : Measure Ω) (X : ℕ → Ω → Draw), IsProbabilityMeasure P ∧ Spec.Draws law P X := by
  obtain ⟨Ω, i, P, X, -, h1, h2, h3⟩ := exists_iid ℕ law
  exact ⟨Ω, i, P, X, h3, ⟨h1, h2⟩⟩

theorem consistent : ∃ C δ : ℝ, 0 < δ ∧ ∀ (Ω : Type) [MeasurableSpace Ω] (P : Measure Ω) (X : ℕ → Ω → Draw), Spec.Draws law P X →
    ∀ (dt : ℝ) (N extra : ℕ), 0 < dt → dt ≤ δ → 1 ≤ N → ((N - 1 : ℕ) : ℝ) * dt ≤ 1 →
    ∀ᵐ ω ∂P, ∀ η > 0, ∀ᶠ M in atTop, ∃ s1 s2 s3,
      computeMeanForce env { state dt N extra with xvas := draws (traj dt (N + extra)) X M ω } = (s1, none) ∧
      computeCorrs env "direct" false true none s1 = (s2, none) ∧
      computeKernelStep "second_kind_trapz" (fun _ _ => none) s2 = (s3, none) ∧
      Estimates model F k N dt η (C * dt ^ 2 + η) s3.model := by
  obtain ⟨C, δ, hδ, H⟩ := C143_second_kind_trapz gram_det force cross_le (fun h => by cases h) le_rfl (by decide) corr_det
    (deriv_of (f' := U (1 / 2) (2401 / 2)) fun t => (W_deriv (1 / 2) (343 / 2) t).congr_deriv (by norm_num))
    (lip_of (U_deriv _ _) (W_le _ _)) (deriv_of kt_deriv) (lip_of kt1_deriv kt2_le) secondKind
  refine ⟨C, δ, hδ, fun Ω _ P X hX dt N extra h1 h2 h3 h4 => ?_⟩
  exact H Draw Ω law P X (traj dt (N + extra)) (N + extra) env "direct" false none "dim_x" (state dt N extra) hX
    (stationary dt _ N) (setup_draw dt extra h3) h1 h2 h4

example := C143_second_kind_rect.{0, 0} gram_det force cross_le (fun h => by cases h) le_rfl (by decide) corr_det
    (lip_of (fun t => W_deriv (1 / 2) (343 / 2) t) (U_le _ _)) (lip_of kt_deriv kt1_le) secondKind

example := C143_rect.{0, 0} gram_det force cross_le (fun h => by cases h) le_rfl corr_det
    (deriv_of (U_deriv _ _)) (lip_of (W_deriv _ _) (U_le _ _)) (lip_of kt_deriv kt1_le) firstKind

example := C143_trapz.{0, 0} gram_det force cross_le (fun h => by cases h) le_rfl (by decide) corr_det
    (deriv_of (U_deriv _ _)) (deriv_of (W_deriv _ _)) (deriv_of (U_deriv _ _)) (lip_of (W_deriv _ _) (U_le _ _))
    (deriv_of kt_deriv) (deriv_of kt1_deriv) (lip_of kt2_deriv kt3_le) firstKind initial

end TwoOscillators

end Verif
