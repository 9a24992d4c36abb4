import Verif.Props.PooledNoise
import Verif.Props.Generator2
import Verif.Props.Sampled

/-!
# Correlations with the noise and predicted correlations from independent trajectories, almost surely (C167)
-/

namespace Verif

open LArr Finset MeasureTheory Filter

universe u v

open Spec (Averages NearAverages Estimates)

set_option linter.unusedSectionVars false

/-- The law `ν` of a trajectory `traj` of `n` frames and a left observable `left`: bounds, and the expectations of the products of the left
observable with `obs - F f` and with the functions of the memory, which do not depend on the frame. -/
structure Spec.StationaryPool {E : Type u} [MeasurableSpace E] (m : BasisModel ℝ) (L : String) (F : Mat ℝ m.nForce m.dimObs) {o : ℕ}
    (W : ℝ → Mat ℝ o m.dimObs) (P : ℝ → Mat ℝ o (Spec.nCorr m)) (S M dt : ℝ) (ν : Measure E) (traj : E → Xva ℝ)
    (left : E → LeftOp ℝ m.dimObs o) (n : ℕ) : Prop where
  frames : ∀ e, (traj e).n = n
  two : 2 ≤ n
  dimx : ∀ e, (traj e).dimx = m.dimx
  step : ∀ e, (traj e).time 1 - (traj e).time 0 = dt
  bound : ∀ e, ∀ t < n, (∀ i, |(left e).values (Spec.residualAlong m L F (traj e)) t i| ≤ M) ∧
    (∀ l, |Spec.residualAlong m L F (traj e) t l| ≤ M) ∧ (∀ q : Fin (Spec.nCorr m), |Spec.corrFeature m (traj e) t q| ≤ M) ∧
    ∀ p : Fin m.nForce, |Spec.forceFeature m (traj e) t p| ≤ M
  noise : ∀ k : ℕ, k * dt ≤ S → ∀ i l t, t + k < n →
    Spec.HasMean ν (fun e => (left e).values (Spec.residualAlong m L F (traj e)) t i * Spec.residualAlong m L F (traj e) (t + k) l) (W (k * dt) i l)
  funs : ∀ k : ℕ, k * dt ≤ S → ∀ i (a : Fin (Spec.nCorr m)) t, t + k < n →
    Spec.HasMean ν (fun e => (left e).values (Spec.residualAlong m L F (traj e)) t i * Spec.corrFeature m (traj e) (t + k) a) (P (k * dt) i a)

section
variable {E : Type u} {Ω : Type v} [MeasurableSpace E] [MeasurableSpace Ω] {ν : Measure E} {Pr : Measure Ω} {X : ℕ → Ω → E}

/-- The first `M` trajectories, each with its left observable. -/
def drawPairs {x o : ℕ} (traj : E → Xva ℝ) (left : E → LeftOp ℝ x o) (X : ℕ → Ω → E) (M : ℕ) (ω : Ω) : List (Xva ℝ × LeftOp ℝ x o) :=
  (List.range M).map fun i => (traj (X i ω), left (X i ω))

theorem ae_window (hX : Spec.Draws ν Pr X) {x o q : ℕ} {traj : E → Xva ℝ} {left : E → LeftOp ℝ x o} {n : ℕ} (hf : ∀ e, (traj e).n = n)
    {f : E → ℕ → Fin o → ℝ} {g : E → ℕ → Fin q → ℝ} {f' : Xva ℝ × LeftOp ℝ x o → ℕ → Fin o → ℝ} {g' : Xva ℝ × LeftOp ℝ x o → ℕ → Fin q → ℝ}
    (hf' : ∀ e, f' (traj e, left e) = f e) (hg' : ∀ e, g' (traj e, left e) = g e) {k : ℕ} (hk : k < n) {i : Fin o} {l : Fin q} {c : ℝ}
    (h : ∀ t < n - k, Spec.HasMean ν (fun e => f e t i * g e t l) c) :
    ∀ᵐ ω ∂Pr, ∀ ε > 0, ∀ᶠ M in atTop,
      |Spec.weightedMean ((drawPairs traj left X M ω).map fun e => (e.1.n, Spec.lagAverage e.1.n k (f' e) (g' e) i l)) - c| ≤ ε := by
  have hn : ((n - k : ℕ) : ℝ) ≠ 0 := by
    have : 0 < n - k := by omega
    positivity
  have hn0 : (n : ℝ) ≠ 0 := by
    have : 0 < n := by omega
    positivity
  have hs := mean_sum (range (n - k)) fun t ht => h t (mem_range.1 ht)
  rw [card_range] at hs
  have hd : Spec.HasMean ν (fun e => (∑ t ∈ range (n - k), f e t i * g e t l) / ((n - k : ℕ) : ℝ)) c :=
    ⟨hs.1.div_const _, by rw [integral_div, hs.2, mul_div_cancel_left₀ _ hn]⟩
  filter_upwards [draws_mean hX hd] with ω hω ε hε
  filter_upwards [Metric.tendsto_nhds.1 hω ε hε] with M hM
  rw [Real.dist_eq] at hM
  refine le_of_eq_of_le (congrArg (fun z => |z - c|) ?_) hM.le
  simp only [Spec.weightedMean, drawPairs, List.map_map, Function.comp_def, hf, Spec.lagAverage, hf', hg']
  rw [list_sum_range, nat_sum_range, ← mul_sum, Nat.cast_mul, mul_comm (M : ℝ), mul_div_mul_left _ _ hn0]

/-- Almost surely the averages over the trajectories come close to those of the process. -/
theorem draws_typical (hX : Spec.Draws ν Pr X) {m : BasisModel ℝ} {L : String} {F : Mat ℝ m.nForce m.dimObs} {o : ℕ}
    {W : ℝ → Mat ℝ o m.dimObs} {P : ℝ → Mat ℝ o (Spec.nCorr m)} {S M dt : ℝ} {traj : E → Xva ℝ}
    {left : E → LeftOp ℝ m.dimObs o} {n : ℕ} (hdt : 0 < dt) (hs : Spec.StationaryPool m L F W P S M dt ν traj left n) :
    ∀ᵐ ω ∂Pr, ∀ ε > 0, ∀ᶠ R in atTop, Spec.TypicalPool m L F W P S M dt ε (drawPairs traj left X R ω) := by
  have a1 := ae_lags (N := n) (P := Pr) (p := fun k i l R ω ε => k * dt ≤ S →
      |Spec.weightedMean ((drawPairs traj left X R ω).map fun e => (e.1.n, Spec.lagAverage e.1.n k
        (e.2.values (Spec.residualAlong m L F e.1)) (fun t => Spec.residualAlong m L F e.1 (t + k)) i l)) - W (k * dt) i l| ≤ ε)
    fun k hk i l => by
      by_cases hkS : k * dt ≤ S
      · filter_upwards [ae_window hX hs.frames (left := left) (f := fun e => (left e).values (Spec.residualAlong m L F (traj e)))
          (g := fun e t => Spec.residualAlong m L F (traj e) (t + k)) (f' := fun e => e.2.values (Spec.residualAlong m L F e.1))
          (g' := fun e t => Spec.residualAlong m L F e.1 (t + k)) (fun _ => rfl) (fun _ => rfl) hk
          fun t ht => hs.noise k hkS i l t (by omega)] with ω hω ε hε
        filter_upwards [hω ε hε] with R hR _
        exact hR
      · exact Eventually.of_forall fun ω ε _ => Eventually.of_forall fun R h => absurd h hkS
  have a2 := ae_lags (N := n) (P := Pr) (p := fun k i a R ω ε => k * dt ≤ S → ∀ j ≤ k,
      |Spec.weightedMean ((drawPairs traj left X R ω).map fun e => (e.1.n, Spec.lagAverage e.1.n k
        (e.2.values (Spec.residualAlong m L F e.1)) (fun t (q : Fin (Spec.nCorr m)) => Spec.corrFeature m e.1 (t + j) q) i a)) -
          P (j * dt) i a| ≤ ε)
    fun k hk i a => by
      by_cases hkS : k * dt ≤ S
      · have := ae_all_iff.2 fun j : Fin (k + 1) => ae_window hX hs.frames (left := left)
          (f := fun e => (left e).values (Spec.residualAlong m L F (traj e)))
          (g := fun e t (q : Fin (Spec.nCorr m)) => Spec.corrFeature m (traj e) (t + j) q)
          (f' := fun e => e.2.values (Spec.residualAlong m L F e.1))
          (g' := fun e t (q : Fin (Spec.nCorr m)) => Spec.corrFeature m e.1 (t + j) q) (fun _ => rfl) (fun _ => rfl) hk
          (i := i) (l := a) (c := P ((j : ℕ) * dt) i a)
          fun t ht => hs.funs j (le_trans (by gcongr; have := j.2; omega) hkS) i a t (by have := j.2; omega)
        filter_upwards [this] with ω hω ε hε
        filter_upwards [eventually_all.2 fun j => hω j ε hε] with R hR _ j hj
        exact hR ⟨j, by omega⟩
      · exact Eventually.of_forall fun ω ε _ => Eventually.of_forall fun R h => absurd h hkS
  filter_upwards [a1, a2] with ω b1 b2 ε hε
  filter_upwards [b1 ε hε, b2 ε hε, eventually_ge_atTop 1] with R c1 c2 h1
  have hmem : ∀ y ∈ drawPairs traj left X R ω, ∃ e, y = (traj e, left e) := by
    intro y hy
    obtain ⟨i, -, rfl⟩ := List.mem_map.1 hy
    exact ⟨_, rfl⟩
  have hex : (traj (X 0 ω), left (X 0 ω)) ∈ drawPairs traj left X R ω := List.mem_map.2 ⟨0, by rw [List.mem_range]; omega, rfl⟩
  have hlt : ∀ k, (∀ e ∈ drawPairs traj left X R ω, k < e.1.n) → k < n := fun k h => by
    have := h _ hex
    rwa [hs.frames] at this
  refine ⟨List.ne_nil_of_mem hex, fun y hy => ?_, fun y hy => ?_, fun y hy => ?_, fun y hy t ht => ?_,
    fun k hk hkS i l => c1 k (hlt k hk) i l hkS, fun k hk hkS j hj i a => c2 k (hlt k hk) i a hkS j hj⟩
  · obtain ⟨e, rfl⟩ := hmem y hy
    exact hs.dimx e
  · obtain ⟨e, rfl⟩ := hmem y hy
    rw [hs.frames]
    exact hs.two
  · obtain ⟨e, rfl⟩ := hmem y hy
    exact hs.step e
  · obtain ⟨e, rfl⟩ := hmem y hy
    rw [hs.frames] at ht
    exact hs.bound e t ht

end

theorem Spec.FindsPool.mono {s : ModelState ℝ} {L d : String} {S dt B B' : ℝ} {x o : ℕ} {R : ℝ → Mat ℝ o x} {N : ℕ}
    {data : List (Xva ℝ × LeftOp ℝ x o)} (h : Spec.FindsPool s L d S dt B R N data) (hB : B ≤ B') : Spec.FindsPool s L d S dt B' R N data := by
  obtain ⟨r, r1, r2, r3, r4, r5⟩ := h
  exact ⟨r, r1, r2, r3, r4, fun n hn hx hS i l => (r5 n hn hx hS i l).trans hB⟩

section
variable {m : BasisModel ℝ} {μ : Averages m.nForce (Spec.nCorr m) m.dimObs} {F : Mat ℝ m.nForce m.dimObs} {T MW S B : ℝ} {o : ℕ}
  {k k' : ℝ → Mat ℝ (Spec.nCorr m) m.dimObs} {W R : ℝ → Mat ℝ o m.dimObs} {P P' : ℝ → Mat ℝ o (Spec.nCorr m)}

/-- **C167**, rectangle rule of the second kind: the model is estimated from trajectories drawn independently from a stationary process, and
`compute_projected_corrs` is called with the same trajectories. Almost surely, when their number is large enough, the correlations with
the noise are `W(t) + ∫_0^t P(t-s) k(s) ds` up to `C dt + η`, for all `η > 0`. -/
theorem C167_second_kind_rect (hw : m.WF) (hx1 : 1 ≤ m.dimx) (hfr : m.cls ≠ .withFriction)
    (hG : μ.gram.det ≠ 0) (hF : μ.gram * F = μ.proj)
    (hW : ∀ t ∈ Set.Icc 0 T, ∀ i j, |μ.cross t i j| ≤ MW ∧ |μ.dcross t i j| ≤ MW) (hB0 : (μ.corr 0).det ≠ 0)
    (hB : Spec.Lip T μ.dcorr) (hk : Spec.Lip T k) (heq : Spec.SecondKind T (μ.corr 0) μ.dcorr (μ.dresidual F) k)
    (hh : m.cls ≠ .hybrid)
    (hM0 : 0 ≤ B) (hR : Spec.NoiseCorrelation S W P k R) (hP : Spec.Lip S P) (hkS : Spec.Lip S k) :
    ∃ C δ : ℝ, 0 < δ ∧ ∀ (E : Type u) (Ω : Type v) [MeasurableSpace E] [MeasurableSpace Ω] (ν : Measure E) (Pr : Measure Ω)
      (X : ℕ → Ω → E) (traj : E → Xva ℝ) (left : E → LeftOp ℝ m.dimObs o) (n : ℕ) (env : Env ℝ) (method : String) (vectorize : Bool)
      (rankTol : Option ℝ) (d : String) (s : EstState ℝ), Spec.Draws ν Pr X →
      Spec.Stationary m s.model.Lobs μ ν traj n s.model.truncInd s.model.dt →
      Spec.StationaryPool m s.model.Lobs F W P S B s.model.dt ν traj left n →
      (∀ e, Setup env method vectorize m d { s with xvas := [traj e] }) →
      0 < s.model.dt → s.model.dt ≤ δ → 2 ≤ s.model.truncInd → ((s.model.truncInd - 1 : ℕ) : ℝ) * s.model.dt ≤ T →
      S ≤ ((s.model.truncInd - 1 : ℕ) : ℝ) * s.model.dt →
      ∀ᵐ ω ∂Pr, ∀ η > 0, ∀ᶠ M in atTop, ∃ s1 s2 s3, computeMeanForce env { s with xvas := draws traj X M ω } = (s1, none) ∧
        computeCorrs env method vectorize true rankTol s1 = (s2, none) ∧
        computeKernelStep "second_kind_rect" (fun _ _ => none) s2 = (s3, none) ∧
        Spec.FindsPool s3.model s.model.Lobs d S s.model.dt (C * s.model.dt + η) R (s.model.truncInd - 1) (drawPairs traj left X M ω) := by
  obtain ⟨C, δ, hδ, H⟩ := C166_second_kind_rect hw hx1 hfr hG hF hW hB0 hB hk heq hh hM0 hR hP hkS
  refine ⟨C, δ, hδ, ?_⟩
  intro E Ω _ _ ν Pr X traj left n env method vectorize rankTol d s hX hs hsp hset hdt hdtδ h2 hT hcov
  have hn : ∀ ω : Ω, s.model.truncInd ≤ n ∧ 0 < n := fun ω => by
    have h1 := (hset (X 0 ω)).tle _ List.mem_cons_self
    rw [hs.frames] at h1
    have := (hset (X 0 ω)).tpos
    exact ⟨h1, by change 1 ≤ s.model.truncInd at this; change s.model.truncInd ≤ n at h1; omega⟩
  rcases isEmpty_or_nonempty Ω with hΩ | ⟨⟨ω0⟩⟩
  · exact Eventually.of_forall fun ω => hΩ.elim ω
  filter_upwards [draws_near hX hs (hn ω0).1 (hn ω0).2, draws_typical hX hdt hsp] with ω hω hω' η hη
  obtain ⟨ε, hε, e1, e2, e3⟩ := exists_eps C hδ one_pos hη
  filter_upwards [hω ε hε, hω' ε hε, eventually_ge_atTop 1] with M hM hM' h1
  obtain ⟨s1, s2, s3, r1, r2, r3, r4⟩ := H env method vectorize rankTol d { s with xvas := draws traj X M ω }
    (drawPairs traj left X M ω) ε (setup_draws hset X h1 ω) hM hdt hdtδ hε.le (by rwa [mul_one] at e1) h2 hT hcov hM'
  exact ⟨s1, s2, s3, r1, r2, r3, r4.mono (by rw [mul_add]; exact add_le_add le_rfl e2)⟩

/-- **C167**, trapezoidal rule of the second kind: `C dt² + η`. -/
theorem C167_second_kind_trapz (hw : m.WF) (hx1 : 1 ≤ m.dimx) (hfr : m.cls ≠ .withFriction)
    (hG : μ.gram.det ≠ 0) (hF : μ.gram * F = μ.proj)
    (hW : ∀ t ∈ Set.Icc 0 T, ∀ i j, |μ.cross t i j| ≤ MW ∧ |μ.dcross t i j| ≤ MW) (hB0 : (μ.corr 0).det ≠ 0)
    {B' : ℝ → Mat ℝ (Spec.nCorr m) (Spec.nCorr m)} {kT : ℝ → Mat ℝ (Spec.nCorr m) m.dimObs}
    (hB : Spec.DerivOn T μ.dcorr B') (hB' : Spec.Lip T B') (hk : Spec.DerivOn T k kT) (hk' : Spec.Lip T kT)
    (heq : Spec.SecondKind T (μ.corr 0) μ.dcorr (μ.dresidual F) k)
    (hh : m.cls ≠ .hybrid)
    (hM0 : 0 ≤ B) (hR : Spec.NoiseCorrelation S W P k R) (hP : Spec.DerivOn S P P') (hP' : Spec.Lip S P')
    (hkS : Spec.DerivOn S k k') (hkS' : Spec.Lip S k') :
    ∃ C δ : ℝ, 0 < δ ∧ ∀ (E : Type u) (Ω : Type v) [MeasurableSpace E] [MeasurableSpace Ω] (ν : Measure E) (Pr : Measure Ω)
      (X : ℕ → Ω → E) (traj : E → Xva ℝ) (left : E → LeftOp ℝ m.dimObs o) (n : ℕ) (env : Env ℝ) (method : String) (vectorize : Bool)
      (rankTol : Option ℝ) (d : String) (s : EstState ℝ), Spec.Draws ν Pr X →
      Spec.Stationary m s.model.Lobs μ ν traj n s.model.truncInd s.model.dt →
      Spec.StationaryPool m s.model.Lobs F W P S B s.model.dt ν traj left n →
      (∀ e, Setup env method vectorize m d { s with xvas := [traj e] }) →
      0 < s.model.dt → s.model.dt ≤ δ → 2 ≤ s.model.truncInd → ((s.model.truncInd - 1 : ℕ) : ℝ) * s.model.dt ≤ T →
      S ≤ ((s.model.truncInd - 1 : ℕ) : ℝ) * s.model.dt →
      ∀ᵐ ω ∂Pr, ∀ η > 0, ∀ᶠ M in atTop, ∃ s1 s2 s3, computeMeanForce env { s with xvas := draws traj X M ω } = (s1, none) ∧
        computeCorrs env method vectorize true rankTol s1 = (s2, none) ∧
        computeKernelStep "second_kind_trapz" (fun _ _ => none) s2 = (s3, none) ∧
        Spec.FindsPool s3.model s.model.Lobs d S s.model.dt (C * s.model.dt ^ 2 + η) R (s.model.truncInd - 1) (drawPairs traj left X M ω) := by
  obtain ⟨C, δ, hδ, H⟩ := C166_second_kind_trapz hw hx1 hfr hG hF hW hB0 hB hB' hk hk' heq hh hM0 hR hP hP' hkS hkS'
  refine ⟨C, δ, hδ, ?_⟩
  intro E Ω _ _ ν Pr X traj left n env method vectorize rankTol d s hX hs hsp hset hdt hdtδ h2 hT hcov
  have hn : ∀ ω : Ω, s.model.truncInd ≤ n ∧ 0 < n := fun ω => by
    have h1 := (hset (X 0 ω)).tle _ List.mem_cons_self
    rw [hs.frames] at h1
    have := (hset (X 0 ω)).tpos
    exact ⟨h1, by change 1 ≤ s.model.truncInd at this; change s.model.truncInd ≤ n at h1; omega⟩
  rcases isEmpty_or_nonempty Ω with hΩ | ⟨⟨ω0⟩⟩
  · exact Eventually.of_forall fun ω => hΩ.elim ω
  filter_upwards [draws_near hX hs (hn ω0).1 (hn ω0).2, draws_typical hX hdt hsp] with ω hω hω' η hη
  obtain ⟨ε, hε, e1, e2, e3⟩ := exists_eps C hδ one_pos hη
  filter_upwards [hω ε hε, hω' ε hε, eventually_ge_atTop 1] with M hM hM' h1
  obtain ⟨s1, s2, s3, r1, r2, r3, r4⟩ := H env method vectorize rankTol d { s with xvas := draws traj X M ω }
    (drawPairs traj left X M ω) ε (setup_draws hset X h1 ω) hM hdt hdtδ hε.le (by rwa [mul_one] at e1) h2 hT hcov hM'
  exact ⟨s1, s2, s3, r1, r2, r3, r4.mono (by rw [mul_add]; exact add_le_add le_rfl e2)⟩

/-- **C167**, rectangle rule of the first kind: `C dt + η`. -/
theorem C167_rect (hw : m.WF) (hx1 : 1 ≤ m.dimx) (hfr : m.cls ≠ .withFriction)
    (hG : μ.gram.det ≠ 0) (hF : μ.gram * F = μ.proj)
    (hW : ∀ t ∈ Set.Icc 0 T, ∀ i j, |μ.cross t i j| ≤ MW ∧ |μ.dcross t i j| ≤ MW) (hB0 : (μ.corr 0).det ≠ 0)
    {B' : ℝ → Mat ℝ (Spec.nCorr m) (Spec.nCorr m)} (hB : Spec.DerivOn T μ.corr B') (hB' : Spec.Lip T B') (hk : Spec.Lip T k)
    (heq : Spec.FirstKind T μ.corr (μ.residual F) k)
    (hM0 : 0 ≤ B) (hR : Spec.NoiseCorrelation S W P k R) (hP : Spec.Lip S P) (hkS : Spec.Lip S k) :
    ∃ C δ : ℝ, 0 < δ ∧ ∀ (E : Type u) (Ω : Type v) [MeasurableSpace E] [MeasurableSpace Ω] (ν : Measure E) (Pr : Measure Ω)
      (X : ℕ → Ω → E) (traj : E → Xva ℝ) (left : E → LeftOp ℝ m.dimObs o) (n : ℕ) (env : Env ℝ) (method km : String) (vectorize : Bool)
      (rankTol : Option ℝ) (d : String) (s : EstState ℝ), km ∈ ["rect", "rectangular"] → Spec.Draws ν Pr X →
      Spec.Stationary m s.model.Lobs μ ν traj n s.model.truncInd s.model.dt →
      Spec.StationaryPool m s.model.Lobs F W P S B s.model.dt ν traj left n →
      (∀ e, Setup env method vectorize m d { s with xvas := [traj e] }) →
      0 < s.model.dt → s.model.dt ≤ δ → 3 ≤ s.model.truncInd → ((s.model.truncInd - 1 : ℕ) : ℝ) * s.model.dt ≤ T →
      S ≤ ((s.model.truncInd - 2 : ℕ) : ℝ) * s.model.dt →
      ∀ᵐ ω ∂Pr, ∀ η > 0, ∀ᶠ M in atTop, ∃ s1 s2 s3, computeMeanForce env { s with xvas := draws traj X M ω } = (s1, none) ∧
        computeCorrs env method vectorize true rankTol s1 = (s2, none) ∧
        computeKernelStep km (fun _ _ => none) s2 = (s3, none) ∧
        Spec.FindsPool s3.model s.model.Lobs d S s.model.dt (C * s.model.dt + η) R (s.model.truncInd - 2) (drawPairs traj left X M ω) := by
  obtain ⟨C, δ, hδ, H⟩ := C166_rect hw hx1 hfr hG hF hW hB0 hB hB' hk heq hM0 hR hP hkS
  refine ⟨C, δ, hδ, ?_⟩
  intro E Ω _ _ ν Pr X traj left n env method km vectorize rankTol d s hkm hX hs hsp hset hdt hdtδ h2 hT hcov
  have hn : ∀ ω : Ω, s.model.truncInd ≤ n ∧ 0 < n := fun ω => by
    have h1 := (hset (X 0 ω)).tle _ List.mem_cons_self
    rw [hs.frames] at h1
    have := (hset (X 0 ω)).tpos
    exact ⟨h1, by change 1 ≤ s.model.truncInd at this; change s.model.truncInd ≤ n at h1; omega⟩
  rcases isEmpty_or_nonempty Ω with hΩ | ⟨⟨ω0⟩⟩
  · exact Eventually.of_forall fun ω => hΩ.elim ω
  filter_upwards [draws_near hX hs (hn ω0).1 (hn ω0).2, draws_typical hX hdt hsp] with ω hω hω' η hη
  obtain ⟨ε, hε, e1, e2, e3⟩ := exists_eps C hδ (by positivity : 0 < s.model.dt) hη
  filter_upwards [hω ε hε, hω' ε hε, eventually_ge_atTop 1] with M hM hM' h1
  obtain ⟨s1, s2, s3, r1, r2, r3, r4⟩ := H env method km vectorize rankTol d { s with xvas := draws traj X M ω }
    (drawPairs traj left X M ω) ε hkm (setup_draws hset X h1 ω) hM hdt hdtδ hε.le e1 h2 hT hcov hM'
  exact ⟨s1, s2, s3, r1, r2, r3, r4.mono (by rw [mul_add]; exact add_le_add le_rfl e3)⟩

/-- **C167**, trapezoidal rule of the first kind: `C dt² + η`. -/
theorem C167_trapz (hw : m.WF) (hx1 : 1 ≤ m.dimx) (hfr : m.cls ≠ .withFriction)
    (hG : μ.gram.det ≠ 0) (hF : μ.gram * F = μ.proj)
    (hW : ∀ t ∈ Set.Icc 0 T, ∀ i j, |μ.cross t i j| ≤ MW ∧ |μ.dcross t i j| ≤ MW) (hB0 : (μ.corr 0).det ≠ 0)
    {B1 B2 B3 : ℝ → Mat ℝ (Spec.nCorr m) (Spec.nCorr m)} {k1 k2 : ℝ → Mat ℝ (Spec.nCorr m) m.dimObs}
    (hB1 : Spec.DerivOn T μ.corr B1) (hB2 : Spec.DerivOn T B1 B2) (hB3 : Spec.DerivOn T B2 B3) (hLB : Spec.Lip T B3)
    (hk1 : Spec.DerivOn T k k1) (hk2 : Spec.DerivOn T k1 k2) (hLk : Spec.Lip T k2)
    (heq : Spec.FirstKind T μ.corr (μ.residual F) k) (h0 : μ.dresidual F 0 = μ.corr 0 * k 0)
    (hh : m.cls ≠ .hybrid)
    (hM0 : 0 ≤ B) (hR : Spec.NoiseCorrelation S W P k R) (hP : Spec.DerivOn S P P') (hP' : Spec.Lip S P')
    (hkS : Spec.DerivOn S k k') (hkS' : Spec.Lip S k') :
    ∃ C δ : ℝ, 0 < δ ∧ ∀ (E : Type u) (Ω : Type v) [MeasurableSpace E] [MeasurableSpace Ω] (ν : Measure E) (Pr : Measure Ω)
      (X : ℕ → Ω → E) (traj : E → Xva ℝ) (left : E → LeftOp ℝ m.dimObs o) (n : ℕ) (env : Env ℝ) (method : String) (vectorize : Bool)
      (rankTol : Option ℝ) (d : String) (s : EstState ℝ), Spec.Draws ν Pr X →
      Spec.Stationary m s.model.Lobs μ ν traj n s.model.truncInd s.model.dt →
      Spec.StationaryPool m s.model.Lobs F W P S B s.model.dt ν traj left n →
      (∀ e, Setup env method vectorize m d { s with xvas := [traj e] }) →
      0 < s.model.dt → s.model.dt ≤ δ → 3 ≤ s.model.truncInd → ((s.model.truncInd - 1 : ℕ) : ℝ) * s.model.dt ≤ T →
      S ≤ ((s.model.truncInd - 2 : ℕ) : ℝ) * s.model.dt →
      ∀ᵐ ω ∂Pr, ∀ η > 0, ∀ᶠ M in atTop, ∃ s1 s2 s3, computeMeanForce env { s with xvas := draws traj X M ω } = (s1, none) ∧
        computeCorrs env method vectorize true rankTol s1 = (s2, none) ∧
        computeKernelStep "trapz" (fun _ _ => none) s2 = (s3, none) ∧
        Spec.FindsPool s3.model s.model.Lobs d S s.model.dt (C * s.model.dt ^ 2 + η) R (s.model.truncInd - 2) (drawPairs traj left X M ω) := by
  obtain ⟨C, δ, hδ, H⟩ := C166_trapz hw hx1 hfr hG hF hW hB0 hB1 hB2 hB3 hLB hk1 hk2 hLk heq h0 hh hM0 hR hP hP' hkS hkS'
  refine ⟨C, δ, hδ, ?_⟩
  intro E Ω _ _ ν Pr X traj left n env method vectorize rankTol d s hX hs hsp hset hdt hdtδ h2 hT hcov
  have hn : ∀ ω : Ω, s.model.truncInd ≤ n ∧ 0 < n := fun ω => by
    have h1 := (hset (X 0 ω)).tle _ List.mem_cons_self
    rw [hs.frames] at h1
    have := (hset (X 0 ω)).tpos
    exact ⟨h1, by change 1 ≤ s.model.truncInd at this; change s.model.truncInd ≤ n at h1; omega⟩
  rcases isEmpty_or_nonempty Ω with hΩ | ⟨⟨ω0⟩⟩
  · exact Eventually.of_forall fun ω => hΩ.elim ω
  filter_upwards [draws_near hX hs (hn ω0).1 (hn ω0).2, draws_typical hX hdt hsp] with ω hω hω' η hη
  obtain ⟨ε, hε, e1, e2, e3⟩ := exists_eps C hδ (by positivity : 0 < s.model.dt ^ 2) hη
  filter_upwards [hω ε hε, hω' ε hε, eventually_ge_atTop 1] with M hM hM' h1
  obtain ⟨s1, s2, s3, r1, r2, r3, r4⟩ := H env method vectorize rankTol d { s with xvas := draws traj X M ω }
    (drawPairs traj left X M ω) ε (setup_draws hset X h1 ω) hM hdt hdtδ hε.le e1 h2 hT hcov hM'
  exact ⟨s1, s2, s3, r1, r2, r3, r4.mono (by rw [mul_add]; exact add_le_add le_rfl e3)⟩

end

/-- The law `ν` of a trajectory `traj` of `n` frames is stationary with correlations `C` of the functions of `β`: the expectations of the
products of the functions and of their derivatives at lags of less than `N` frames. -/
structure Spec.StationaryBasis {E : Type u} [MeasurableSpace E] (β : PointBasis ℝ) (C C' C'' : ℝ → Mat ℝ β.nOut β.nOut) (ν : Measure E)
    (traj : E → Xva ℝ) (n N : ℕ) (dt : ℝ) : Prop where
  frames : ∀ e, (traj e).n = n
  gram : ∀ (i j : Fin β.nOut), ∀ t < n, Spec.HasMean ν (fun e => Spec.along β (traj e) t i * Spec.along β (traj e) t j) (C 0 i j)
  proj : ∀ (i j : Fin β.nOut), ∀ t < n, Spec.HasMean ν (fun e => Spec.along β (traj e) t i * Spec.alongDot β (traj e) t j) (C' 0 i j)
  corr : ∀ (i j : Fin β.nOut), ∀ k < N, ∀ t, t + k < n →
    Spec.HasMean ν (fun e => Spec.along β (traj e) t i * Spec.along β (traj e) (t + k) j) (C (k * dt) i j)
  dot : ∀ (i j : Fin β.nOut), ∀ k < N, ∀ t, t + k < n →
    Spec.HasMean ν (fun e => Spec.along β (traj e) t i * Spec.alongDot β (traj e) (t + k) j) (C' (k * dt) i j)
  dot' : ∀ (i j : Fin β.nOut), ∀ k < N, ∀ t, t + k < n →
    Spec.HasMean ν (fun e => Spec.alongDot β (traj e) t i * Spec.along β (traj e) (t + k) j) (-C' (k * dt) i j)
  ddot : ∀ (i j : Fin β.nOut), ∀ k < N, ∀ t, t + k < n →
    Spec.HasMean ν (fun e => Spec.alongDot β (traj e) t i * Spec.alongDot β (traj e) (t + k) j) (-C'' (k * dt) i j)

section
variable {E : Type u} {Ω : Type v} [MeasurableSpace E] [MeasurableSpace Ω] {ν : Measure E} {Pr : Measure Ω} {X : ℕ → Ω → E}
  {β : PointBasis ℝ} {C C' C'' : ℝ → Mat ℝ β.nOut β.nOut}

theorem draws_generator (hX : Spec.Draws ν Pr X) {traj : E → Xva ℝ} {n N : ℕ} {dt : ℝ} (hs : Spec.StationaryBasis β C C' C'' ν traj n N dt)
    (hN : N ≤ n) (hn : 0 < n) : ∀ᵐ ω ∂Pr, ∀ ε > 0, ∀ᶠ M in atTop, Spec.NearGenerator β C C' C'' (draws traj X M ω) N dt ε := by
  have a1 := ae_entries fun (i j : Fin β.nOut) => ae_pooled hX hs.frames
    (f := fun xva t => Spec.along β xva t i * Spec.along β xva t j) hn (hs.gram i j)
  have a2 := ae_entries fun (i j : Fin β.nOut) => ae_pooled hX hs.frames
    (f := fun xva t => Spec.along β xva t i * Spec.alongDot β xva t j) hn (hs.proj i j)
  have a3 := ae_lags fun k (hk : k < N) (i j : Fin β.nOut) => ae_corr hX hs.frames
    (f := fun xva t => Spec.along β xva t i) (g := fun xva t => Spec.along β xva t j) (hk.trans_le hN) (hs.corr i j k hk)
  have a4 := ae_lags fun k (hk : k < N) (i j : Fin β.nOut) => ae_corr hX hs.frames
    (f := fun xva t => Spec.along β xva t i) (g := fun xva t => Spec.alongDot β xva t j) (hk.trans_le hN) (hs.dot i j k hk)
  have a5 := ae_lags fun k (hk : k < N) (i j : Fin β.nOut) => ae_corr hX hs.frames
    (f := fun xva t => Spec.alongDot β xva t i) (g := fun xva t => Spec.along β xva t j) (hk.trans_le hN) (hs.dot' i j k hk)
  have a6 := ae_lags fun k (hk : k < N) (i j : Fin β.nOut) => ae_corr hX hs.frames
    (f := fun xva t => Spec.alongDot β xva t i) (g := fun xva t => Spec.alongDot β xva t j) (hk.trans_le hN) (hs.ddot i j k hk)
  filter_upwards [a1, a2, a3, a4, a5, a6] with ω b1 b2 b3 b4 b5 b6 ε hε
  filter_upwards [b1 ε hε, b2 ε hε, b3 ε hε, b4 ε hε, b5 ε hε, b6 ε hε] with M c1 c2 c3 c4 c5 c6
  exact ⟨c1, c2, c3, c4, fun k hk i j => by rw [← sub_neg_eq_add]; exact c5 k hk i j,
    fun k hk i j => by rw [← sub_neg_eq_add]; exact c6 k hk i j⟩

end

section
variable {β : PointBasis ℝ} {C C' C'' : ℝ → Mat ℝ β.nOut β.nOut} {F : Mat ℝ β.nOut β.nOut} {k : ℝ → Mat ℝ β.nOut β.nOut} {T : ℝ} {dx : ℕ}

/-- **C167**, correlations predicted by a generator estimated from trajectories drawn independently from a stationary process: almost surely,
when the number of trajectories is large enough, what `evolve_volterra` gives from initial values within `η` of `C(0)` is within
`K (dt + η)` of the correlations `C` of the process, for all `η > 0`. -/
theorem C167_correlations (hT : 0 < T) (hk : Spec.Lip T k) (hC0 : (C 0).det ≠ 0) (hE : Spec.Evolution T F k C)
    (hC : Spec.DerivOn T C C') (hC' : Spec.DerivOn T C' C'') :
    ∃ K δ : ℝ, 0 < δ ∧ ∀ (E : Type u) (Ω : Type v) [MeasurableSpace E] [MeasurableSpace Ω] (ν : Measure E) (Pr : Measure Ω)
      (X : ℕ → Ω → E) (traj : E → Xva ℝ) (n : ℕ) (env : Env ℝ) (method : String) (vectorize : Bool) (rankTol : Option ℝ)
      (s : EstState ℝ) (name : String), Spec.Draws ν Pr X →
      Spec.StationaryBasis β C C' C'' ν traj n s.model.truncInd s.model.dt →
      IsLoop env.loop → IsCorrFn (env.corrFn method vectorize) → s.model.bm.cls = .overdamped → s.model.bm.basis = β → s.model.bm.dimx = dx →
      s.model.bm.WF → (∀ e, (traj e).dimx = s.model.bm.dimx) → 1 ≤ β.nOut → 1 ≤ s.model.truncInd → s.model.truncInd ≤ n →
      name ∉ ["x", "v", "a"] → 0 < s.model.dt → s.model.dt ≤ δ → ((s.model.truncInd - 1 : ℕ) : ℝ) * s.model.dt ≤ T →
      ∀ᵐ ω ∂Pr, ∀ η > 0, η ≤ δ → ∀ᶠ M in atTop, ∃ s0 s1 s2 s3, toGfpe none name { s with xvas := draws traj X M ω } = (s0, none) ∧
        computeMeanForce env s0 = (s1, none) ∧ computeCorrs env method vectorize true rankTol s1 = (s2, none) ∧
        computeKernelStep "second_kind_rect" (fun _ _ => none) s2 = (s3, none) ∧
        ∀ (garbage : ℕ → (ℕ → Mat ℝ β.nOut β.nOut) → Mat ℝ β.nOut β.nOut) (em : String) (G0 : Mat ℝ β.nOut β.nOut) (N : ℕ),
          em ∈ ["rect", "trapz"] → (∀ i j, |G0 i j - C 0 i j| ≤ η) → 1 ≤ N → N ≤ s.model.truncInd →
          ∃ r, evolveModel garbage s3.model G0 N em none = .ok r ∧ ∀ t < N, r.1 t = t * s.model.dt ∧
            ∀ i j, |r.2 t i j - C (t * s.model.dt) i j| ≤ K * (s.model.dt + η) := by
  obtain ⟨K, δ, hδ, H⟩ := C163_correlations (dx := dx) hT hk hC0 hE hC hC'
  refine ⟨|K| * 2, δ, hδ, ?_⟩
  intro E Ω _ _ ν Pr X traj n env method vectorize rankTol s name hX hs hl hfn hc hb hd hwf hx h1 ht hle hname hdt hdtδ hT'
  filter_upwards [draws_generator hX hs hle (by omega)] with ω hω η hη hηδ
  filter_upwards [hω η hη, eventually_ge_atTop 1] with M hM hM1
  have hmem : ∀ y ∈ draws traj X M ω, ∃ e, y = traj e := by
    intro y hy
    obtain ⟨i, -, rfl⟩ := List.mem_map.1 hy
    exact ⟨_, rfl⟩
  obtain ⟨s0, s1, s2, s3, e0, e1, e2, e3, G⟩ := H env method vectorize rankTol { s with xvas := draws traj X M ω } name η hl hfn hc hb hwf
    (by
      intro h
      have := congrArg List.length h
      simp only [draws, List.length_map, List.length_range, List.length_nil] at this
      omega)
    (fun y hy => by
      obtain ⟨e, rfl⟩ := hmem y hy
      exact hx e) h1 ht
    (fun y hy => by
      obtain ⟨e, rfl⟩ := hmem y hy
      rw [hs.frames]
      exact hle) hname hM hd hdt hdtδ hη.le hηδ hT'
  refine ⟨s0, s1, s2, s3, e0, e1, e2, e3, fun garbage em G0 N hem hG0 hN hNt => ?_⟩
  obtain ⟨r, hr, hval⟩ := G garbage em G0 N η hem hη.le hηδ hG0 hN hNt
  refine ⟨r, hr, fun t ht => ⟨(hval t ht).1, fun i j => ((hval t ht).2 i j).trans ?_⟩⟩
  change K * (s.model.dt + η + η) ≤ _
  have := mul_le_mul_of_nonneg_right (le_abs_self K) (by positivity : 0 ≤ s.model.dt + η + η)
  nlinarith [mul_nonneg (abs_nonneg K) hdt.le]

end

namespace TwoOscillators

theorem abs_sign (e : Draw) : |(if e.2 then 1 else -1 : ℝ)| = 1 := by
  split_ifs <;> norm_num

theorem stationaryPool (dt S : ℝ) {n : ℕ} (hn : 2 ≤ n) :
    Spec.StationaryPool model "a" F (μ.dresidual F) μ.dcorr S 100 dt law (traj dt n) (fun e => accelOf (traj dt n e)) n where
  frames := fun _ => rfl
  two := hn
  dimx := fun _ => rfl
  step := fun e => by simp [traj, xva]
  bound := fun e t _ => bounded_all dt n e.1 (abs_sign e) t
  noise := fun τ _ i l t _ => mean_of (avg_residual dt n t τ i l)
  funs := fun τ _ i a t _ => mean_of (avg_dcorr dt n t τ i a)

/-- The correlation of the acceleration with the noise, from draws among the four trajectories. -/
theorem fluctuation_draws : ∃ C δ : ℝ, 0 < δ ∧ ∀ (Ω : Type) [MeasurableSpace Ω] (Pr : Measure Ω) (X : ℕ → Ω → Draw), Spec.Draws law Pr X →
    ∀ (dt : ℝ) (N extra : ℕ), 0 < dt → dt ≤ δ → 2 ≤ N → ((N - 1 : ℕ) : ℝ) * dt ≤ 1 → 1 / 2 ≤ ((N - 1 : ℕ) : ℝ) * dt →
    ∀ᵐ ω ∂Pr, ∀ η > 0, ∀ᶠ M in atTop, ∃ s1 s2 s3,
      computeMeanForce env { state dt N extra with xvas := draws (traj dt (N + extra)) X M ω } = (s1, none) ∧
      computeCorrs env "direct" false true none s1 = (s2, none) ∧
      computeKernelStep "second_kind_rect" (fun _ _ => none) s2 = (s3, none) ∧
      Spec.FindsPool s3.model "a" "dim_x" (1 / 2) dt (C * dt + η) (fun t => μ.corr 0 * k t) (N - 1)
        (drawPairs (traj dt (N + extra)) (fun e => accelOf (traj dt (N + extra) e)) X M ω) := by
  obtain ⟨C, δ, hδ, H⟩ := C167_second_kind_rect.{0, 0} (B := 100) (fun h => by cases h) le_rfl (by decide) gram_det force cross_le corr_det
    (lip_of (fun t => W_deriv (1 / 2) (343 / 2) t) (U_le _ _)) (lip_of kt_deriv kt1_le) secondKind (by decide) (by norm_num) dissipation_half
    (lip_half (lip_of (fun t => W_deriv (1 / 2) (343 / 2) t) (U_le _ _))) (lip_half (lip_of kt_deriv kt1_le))
  refine ⟨C, δ, hδ, fun Ω _ Pr X hX dt N extra h1 h2 h3 h4 h5 => ?_⟩
  exact H Draw Ω law Pr X (traj dt (N + extra)) _ (N + extra) env "direct" false none "dim_x" (state dt N extra) hX
    (stationary dt _ N) (stationaryPool dt _ (by omega)) (setup_draw dt extra (by omega)) h1 h2 h3 h4 h5

example := C167_second_kind_trapz.{0, 0} (B := 100) (fun h => by cases h) le_rfl (by decide) gram_det force cross_le corr_det
    (deriv_of (f' := U (1 / 2) (2401 / 2)) fun t => (W_deriv (1 / 2) (343 / 2) t).congr_deriv (by norm_num))
    (lip_of (U_deriv _ _) (W_le _ _)) (deriv_of kt_deriv) (lip_of kt1_deriv kt2_le) secondKind (by decide)
    (by norm_num) dissipation_half
    (deriv_half (deriv_of (f' := U (1 / 2) (2401 / 2)) fun t => (W_deriv (1 / 2) (343 / 2) t).congr_deriv (by norm_num)))
    (lip_half (lip_of (U_deriv _ _) (W_le _ _))) (deriv_half (deriv_of kt_deriv)) (lip_half (lip_of kt1_deriv kt2_le))

example := C167_rect.{0, 0} (B := 100) (fun h => by cases h) le_rfl (by decide) gram_det force cross_le corr_det
    (deriv_of (U_deriv _ _)) (lip_of (W_deriv _ _) (U_le _ _)) (lip_of kt_deriv kt1_le) firstKind
    (by norm_num) dissipation_half (lip_half (lip_of (fun t => W_deriv (1 / 2) (343 / 2) t) (U_le _ _)))
    (lip_half (lip_of kt_deriv kt1_le))

example := C167_trapz.{0, 0} (B := 100) (fun h => by cases h) le_rfl (by decide) gram_det force cross_le corr_det
    (deriv_of (U_deriv _ _)) (deriv_of (W_deriv _ _)) (deriv_of (U_deriv _ _)) (lip_of (W_deriv _ _) (U_le _ _))
    (deriv_of kt_deriv) (deriv_of kt1_deriv) (lip_of kt2_deriv kt3_le) firstKind initial (by decide)
    (by norm_num) dissipation_half
    (deriv_half (deriv_of (f' := U (1 / 2) (2401 / 2)) fun t => (W_deriv (1 / 2) (343 / 2) t).congr_deriv (by norm_num)))
    (lip_half (lip_of (U_deriv _ _) (W_le _ _))) (deriv_half (deriv_of kt_deriv)) (lip_half (lip_of kt1_deriv kt2_le))

open Real in
theorem stationaryBasis (dt : ℝ) (n N : ℕ) : Spec.StationaryBasis basis Cx Cx1 Cx2 law (traj dt n) n N dt where
  frames := fun _ => rfl
  gram := fun i j t _ => mean_of (by
    change _ = 4 * U (1 / 2) (1 / 2) 0
    simp only [traj, along_x, if_true, Bool.false_eq_true, if_false]
    simp only [U, W, mul_zero, cos_zero]
    linear_combination 2 * sin_sq_add_cos_sq (t * dt) + 2 * sin_sq_add_cos_sq (7 * (t * dt)))
  proj := fun i j t _ => mean_of (by
    change _ = 4 * W (-1 / 2) (-7 / 2) 0
    simp only [traj, along_x, alongDot_x, if_true, Bool.false_eq_true, if_false]
    simp only [U, W, mul_zero, sin_zero]
    ring)
  corr := fun i j k _ t _ => mean_of (by
    change _ = 4 * U (1 / 2) (1 / 2) (k * dt)
    simp only [traj, along_x, if_true, Bool.false_eq_true, if_false]
    obtain ⟨e1, e2, e3, e4⟩ := shift t k dt
    simp only [U, W, e1, e2, e3, e4]
    linear_combination 2 * cos (k * dt) * sin_sq_add_cos_sq (t * dt) + 2 * cos (7 * (k * dt)) * sin_sq_add_cos_sq (7 * (t * dt)))
  dot := fun i j k _ t _ => mean_of (by
    change _ = 4 * W (-1 / 2) (-7 / 2) (k * dt)
    simp only [traj, along_x, alongDot_x, if_true, Bool.false_eq_true, if_false]
    obtain ⟨e1, e2, e3, e4⟩ := shift t k dt
    simp only [U, W, e1, e2, e3, e4]
    linear_combination -2 * sin (k * dt) * sin_sq_add_cos_sq (t * dt) - 14 * sin (7 * (k * dt)) * sin_sq_add_cos_sq (7 * (t * dt)))
  dot' := fun i j k _ t _ => mean_of (by
    change _ = 4 * -W (-1 / 2) (-7 / 2) (k * dt)
    simp only [traj, along_x, alongDot_x, if_true, Bool.false_eq_true, if_false]
    obtain ⟨e1, e2, e3, e4⟩ := shift t k dt
    simp only [U, W, e1, e2, e3, e4]
    linear_combination 2 * sin (k * dt) * sin_sq_add_cos_sq (t * dt) + 14 * sin (7 * (k * dt)) * sin_sq_add_cos_sq (7 * (t * dt)))
  ddot := fun i j k _ t _ => mean_of (by
    change _ = 4 * -U (-1 / 2) (-49 / 2) (k * dt)
    simp only [traj, alongDot_x, if_true, Bool.false_eq_true, if_false]
    obtain ⟨e1, e2, e3, e4⟩ := shift t k dt
    simp only [U, W, e1, e2, e3, e4]
    linear_combination 2 * cos (k * dt) * sin_sq_add_cos_sq (t * dt) + 98 * cos (7 * (k * dt)) * sin_sq_add_cos_sq (7 * (t * dt)))

/-- The hypotheses are met by draws among the four trajectories. -/
example : ∃ K δ : ℝ, 0 < δ ∧ ∀ (Ω : Type) [MeasurableSpace Ω] (Pr : Measure Ω) (X : ℕ → Ω → Draw), Spec.Draws law Pr X →
    ∀ (dt : ℝ) (N extra : ℕ), 0 < dt → dt ≤ δ → 1 ≤ N → ((N - 1 : ℕ) : ℝ) * dt ≤ 1 →
    ∀ᵐ ω ∂Pr, ∀ η > 0, η ≤ δ → ∀ᶠ M in atTop, ∃ s0 s1 s2 s3,
      toGfpe none "dE" { stateX dt N extra with xvas := draws (traj dt (N + extra)) X M ω } = (s0, none) ∧
      computeMeanForce env s0 = (s1, none) ∧ computeCorrs env "direct" false true none s1 = (s2, none) ∧
      computeKernelStep "second_kind_rect" (fun _ _ => none) s2 = (s3, none) ∧
      ∀ (garbage : ℕ → (ℕ → Mat ℝ basis.nOut basis.nOut) → Mat ℝ basis.nOut basis.nOut) (em : String) (G0 : Mat ℝ basis.nOut basis.nOut) (N' : ℕ),
        em ∈ ["rect", "trapz"] → (∀ i j, |G0 i j - Cx 0 i j| ≤ η) → 1 ≤ N' → N' ≤ N →
        ∃ r, evolveModel garbage s3.model G0 N' em none = .ok r ∧ ∀ t < N', r.1 t = t * dt ∧
          ∀ i j, |r.2 t i j - Cx (t * dt) i j| ≤ K * (dt + η) := by
  obtain ⟨K, δ, hδ, H⟩ := C167_correlations.{0, 0} (dx := 1) one_pos (lip_of kx_deriv kx1_le) Cx_det evolution_x Cx_deriv Cx1_deriv
  refine ⟨K, δ, hδ, fun Ω _ Pr X hX dt N extra h1 h2 h3 h4 => ?_⟩
  exact H Draw Ω law Pr X (traj dt (N + extra)) (N + extra) env "direct" false none (stateX dt N extra) "dE" hX (stationaryBasis dt _ N)
    (.inl rfl) isCorrFn rfl rfl rfl (fun h => by cases h) (fun _ => rfl) le_rfl h3 (Nat.le_add_right N extra) (by decide) h1 h2 h4

end TwoOscillators

end Verif
