import Verif.Props.TrueNoise
import Verif.Props.NoiseOrtho
import Verif.Props.Simulate

/-!
# The noise of a model estimated from data (C151)
-/

namespace Verif

open LArr Finset
open Spec (Averages NearAverages Estimates)

set_option linter.unusedSectionVars false

/-- A trajectory sampled with the step `dt` on `[0, S]`: the observable `obs`, the functions of the force `g` and the functions
of the memory `e`, along the trajectory. -/
structure Spec.Sampled (m : BasisModel ℝ) (L : String) (S dt : ℝ) (obs : ℝ → Fin m.dimObs → ℝ) (g : ℝ → Fin m.nForce → ℝ)
    (e : ℝ → Fin (Spec.nCorr m) → ℝ) (xva : Xva ℝ) : Prop where
  dimx : xva.dimx = m.dimx
  two : 2 ≤ xva.n
  step : xva.time 1 - xva.time 0 = dt
  reach : S ≤ (xva.n - 1 : ℕ) * dt
  obs : ∀ i : ℕ, i * dt ≤ S → ∀ l : Fin m.dimObs, xva.data L i l = obs (i * dt) l
  force : ∀ i : ℕ, i * dt ≤ S → ∀ p : Fin m.nForce, Spec.forceFeature m xva i p = g (i * dt) p
  memory : ∀ i : ℕ, i * dt ≤ S → ∀ q : Fin (Spec.nCorr m), Spec.corrFeature m xva i q = e (i * dt) q

theorem xvaTraj_features {K : Type*} [Field K] {m : BasisModel K} (hw : m.WF) {xva : Xva K} (hd : xva.dimx = m.dimx) (L d : String) (x : ℕ) :
    (∀ t < xva.n, ∀ p : Fin m.nForce, (xvaTraj m L d x xva).Eforce t p = Spec.forceFeature m xva t p) ∧
    ∀ t < xva.n, ∀ q : Fin (Spec.nCorr m), (xvaTraj m L d x xva).E t q = Spec.corrFeature m xva t q := by
  obtain ⟨Ef, E, D, e, i1, i2, -⟩ := corrsVector_is m hw xva hd
  refine ⟨fun t ht p => ?_, fun t ht q => ?_⟩
  · simp only [xvaTraj, e]
    rw [i1.2.2 [t, p] (by simp [InRange, ht, p.2])]
    rfl
  · simp only [xvaTraj, e]
    rw [i2.2.2 [t, q] (by simp [InRange, ht, q.2])]
    rfl

/-- `compute_noise` succeeds. -/
theorem computeNoise_succeeds {K : Type*} [Field K] {bf b x : ℕ} {m : NoiseModel K bf b x} {c : Mat K bf x} {k : KernelData K b x}
    (hc : m.forceCoeff = some c) (hk : m.kernel = some k) {xva : Traj K bf b x} (hn : 2 ≤ xva.len) {trunc : Option ℕ}
    (hu : 0 < usedPoints m k trunc) (hm : isRectMethod m.method ∨ isTrapzMethod m.method) :
    ∃ r, computeNoise m xva trunc 0 none = .ok r ∧ r.len = xva.len := by
  have h0 : ¬ xva.len = 0 := by omega
  have h1 : ¬ (xva.isel 0 none).len < 2 := by simp [Traj.isel]; omega
  have hu' : ¬ min (trunc.getD m.truncInd) k.kernel.len = 0 := by unfold usedPoints at hu; omega
  have key : ∃ r, computeNoise m xva trunc 0 none = .ok r := by
    unfold computeNoise
    simp only [hc, hk, bind, Except.bind, pure, Except.pure, if_neg h0, if_neg h1, if_neg hu']
    by_cases hr : isRectMethod m.method
    · simp only [if_pos hr]
      exact ⟨_, rfl⟩
    · simp only [if_neg hr, if_pos (hm.resolve_left hr)]
      exact ⟨_, rfl⟩
  obtain ⟨r, hr⟩ := key
  obtain ⟨_, _, -, -, -, -, hl, -⟩ := computeNoise_ok hr
  exact ⟨r, hr, by rw [hl]; simp [Traj.isel]⟩

/-- The data of `compute_noise` with an estimated model. -/
theorem noise_data {s : ModelState ℝ} (hw : s.bm.WF) (hfr : s.bm.cls ≠ .withFriction) {F : Mat ℝ s.bm.nForce s.bm.dimObs}
    {k : ℝ → Mat ℝ (Spec.nCorr s.bm) s.bm.dimObs} {S M : ℝ} {obs : ℝ → Fin s.bm.dimObs → ℝ} {g : ℝ → Fin s.bm.nForce → ℝ}
    {e : ℝ → Fin (Spec.nCorr s.bm) → ℝ} (hM0 : 0 ≤ M) (hM : ∀ t ∈ Set.Icc 0 S, ∀ p, |g t p| ≤ M) {c : LArr ℝ}
    {d L : String} {N : ℕ} {xva : Xva ℝ} {η : ℝ} (hc : HasForce s c d) (hest : Estimates s.bm F k N s.dt η η s) (hη : 0 ≤ η)
    (hdt : 0 < s.dt) (hxva : Spec.Sampled s.bm L S s.dt obs g e xva) (hN : 2 ≤ N) (hcov : S ≤ (N - 1 : ℕ) * s.dt) :
    ∃ r : KernelData ℝ (Spec.nCorr s.bm) s.bm.dimObs, (noiseModelOf s s.bm.dimObs).kernel = some r ∧ N ≤ r.kernel.len ∧ ∀ u,
      NoiseData S S s.dt ((s.bm.basis.nOut * M + 1) * η) obs (fun t l => ∑ p, g t p * F p l) e k (noiseModelOf s s.bm.dimObs) r
        (xvaTraj s.bm L d s.bm.dimObs xva) 0 u := by
  obtain ⟨r, r1, r2, -, r4⟩ := hest.kernel
  have hk : (noiseModelOf s s.bm.dimObs).kernel = some r := by simp [noiseModelOf, r1]
  obtain ⟨f1, f2⟩ := xvaTraj_features hw hxva.dimx L d s.bm.dimObs
  have lt : ∀ {n i : ℕ}, 1 ≤ n → S ≤ (n - 1 : ℕ) * s.dt → (i : ℝ) * s.dt ≤ S → i < n := fun {n i} h1 hS hi => by
    have h2 : (i : ℝ) ≤ (n - 1 : ℕ) := le_of_mul_le_mul_right (hi.trans hS) hdt
    have : i ≤ n - 1 := by exact_mod_cast h2
    omega
  have hx : ∀ {i : ℕ}, (i : ℝ) * s.dt ≤ S → i < xva.n := lt (by have := hxva.two; omega) hxva.reach
  have hnF : s.bm.nForce = s.bm.basis.nOut := by rw [nForce_wf hw, if_neg hfr]
  refine ⟨r, hk, r2, fun u => ⟨hxva.step, fun i hi l => ?_, fun i hi a => ?_, ⟨_, by simp only [noiseModelOf, hc.force, Option.map_some]; rfl, fun i hi l => ?_⟩, hk, fun j _ hj a l => ?_⟩⟩
  · rw [zero_add, ← hxva.obs i hi l]
    exact var_get _ _ _ _
  · rw [zero_add, f2 i (hx hi), hxva.memory i hi]
  · rw [zero_add]
    obtain ⟨R, h1, -, -, h4⟩ := forceEval_ok hc hw 1 fun _ => xva.data "x" i
    obtain ⟨R', h5, -, -, h6⟩ := hest.force 1 fun _ => xva.data "x" i
    obtain rfl : R = R' := Except.ok.inj (h1.symm.trans h5)
    have h7 := h6 0 l l.2
    rw [h4 0 l] at h7
    have feat : ∀ p : Fin s.bm.nForce, s.bm.basis.basis (xva.data "x" i) p = g (i * s.dt) p := fun p => by
      rw [← hxva.force i hi p, Spec.forceFeature, if_neg (fun h => hfr h.1)]
    have e1 : ∀ A : Fin s.bm.nForce → ℝ, ∀ B : ℕ → ℝ, (∀ p : Fin s.bm.nForce, B p = A p) → ∑ q ∈ range s.bm.basis.nOut, B q = ∑ p, A p :=
      fun A B h => by
        rw [← hnF, Finset.sum_range]
        exact sum_congr rfl fun p _ => h p
    rw [e1 (fun p => g (i * s.dt) p * c.get [p.1, l.1]) _ fun p => by rw [feat],
      e1 (fun p => g (i * s.dt) p * F p l) _ fun p => by rw [feat, Spec.entry, dif_pos ⟨p.2, l.2⟩],
      e1 (fun p => |g (i * s.dt) p|) _ fun p => by rw [feat]] at h7
    have e2 : ∑ p, (xvaTraj s.bm L d s.bm.dimObs xva).Eforce i p * c.get [p.1, l.1] = ∑ p, g (i * s.dt) p * c.get [p.1, l.1] :=
      sum_congr rfl fun p _ => by rw [f1 i (hx hi), hxva.force i hi]
    refine (le_of_eq (congrArg (fun z => |z - _|) e2)).trans (h7.trans ?_)
    have e3 : ∑ p, |g (i * s.dt) p| ≤ s.bm.basis.nOut * M := by
      refine (sum_le_card_nsmul _ _ M fun p _ => hM _ ⟨by positivity, hi⟩ p).trans ?_
      rw [card_univ, Fintype.card_fin, nsmul_eq_mul, hnF]
    nlinarith
  · refine ((r4 j (lt (by omega) hcov hj)).2 a l).trans ?_
    have : 0 ≤ s.bm.basis.nOut * M * η := by positivity
    linarith

section
variable {m : BasisModel ℝ} {F : Mat ℝ m.nForce m.dimObs} {k k' : ℝ → Mat ℝ (Spec.nCorr m) m.dimObs} {S M : ℝ}
  {obs ξ : ℝ → Fin m.dimObs → ℝ} {g : ℝ → Fin m.nForce → ℝ} {e e' : ℝ → Fin (Spec.nCorr m) → ℝ}

/-- The noise that the model `s` computes along the trajectory is within `B` of `ξ`, on `[0, S]`. -/
def Spec.FindsNoise (s : ModelState ℝ) (L d : String) (S dt B : ℝ) {x : ℕ} (ξ : ℝ → Fin x → ℝ) (xva : Xva ℝ) : Prop :=
  ∃ r, computeNoise (noiseModelOf s x) (xvaTraj s.bm L d x xva) none 0 none = .ok r ∧ r.len = xva.n ∧
    ∀ i < xva.n, i * dt ≤ S → ∀ l, |r.noise i l - ξ (i * dt) l| ≤ B

theorem noise_near_rect (hw : m.WF) (hfr : m.cls ≠ .withFriction) (hM0 : 0 ≤ M) (hM : ∀ t ∈ Set.Icc 0 S, ∀ p, |g t p| ≤ M)
    (hd : Spec.Driven S obs (fun t l => ∑ p, g t p * F p l) e k ξ) (he : Spec.Lip S (Spec.rowMat e)) (hk : Spec.Lip S k) :
    ∃ C : ℝ, 0 ≤ C ∧ ∀ (s : ModelState ℝ) (c : LArr ℝ) (d L : String) (N : ℕ) (xva : Xva ℝ) (η : ℝ), s.bm = m → HasForce s c d →
      Estimates m F k N s.dt η η s → isRectMethod s.method → (m.dimObs = 1 ∨ d ≠ "dim_x") → 0 < s.dt → 0 ≤ η →
      2 ≤ N → N ≤ s.truncInd → S ≤ (N - 1 : ℕ) * s.dt → Spec.Sampled m L S s.dt obs g e xva →
      Spec.FindsNoise s L d S s.dt (C * (s.dt + η)) ξ xva := by
  obtain ⟨C, hC⟩ := C146_noise_rect hd he hk
  refine ⟨|C| * (m.basis.nOut * M + 1), by positivity, ?_⟩
  intro s c d L N xva η hbm hc hest hm hdim hdt hη hN hNt hcov hx
  subst hbm
  obtain ⟨r, hr, hrN, D⟩ := noise_data hw hfr hM0 hM hc hest hη hdt hx hN hcov
  have hu : N ≤ usedPoints (noiseModelOf s s.bm.dimObs) r none := le_min hNt hrN
  obtain ⟨R, hR, hlen⟩ := computeNoise_succeeds (m := noiseModelOf s s.bm.dimObs) (xva := xvaTraj s.bm L d s.bm.dimObs xva) (trunc := none)
    (by simp only [noiseModelOf, hc.force, Option.map_some]; rfl) hr hx.two (by omega) (.inl hm)
  refine ⟨R, hR, hlen, fun i hi hiS l => (hC _ _ r _ none 0 none s.dt _ R hm hdim hdt (by positivity) (D _)
    (.inl (hcov.trans ?_)) hR i (by rw [hlen]; exact hi) hiS l).trans ?_⟩
  · gcongr
  · have h1 : 0 ≤ s.bm.basis.nOut * M := by positivity
    have h2 : s.dt + (s.bm.basis.nOut * M + 1) * η ≤ (s.bm.basis.nOut * M + 1) * (s.dt + η) := by nlinarith
    calc C * (s.dt + (s.bm.basis.nOut * M + 1) * η) ≤ |C| * (s.dt + (s.bm.basis.nOut * M + 1) * η) := by gcongr; exact le_abs_self C
      _ ≤ |C| * ((s.bm.basis.nOut * M + 1) * (s.dt + η)) := by gcongr
      _ = _ := by ring

theorem noise_near_trapz (hw : m.WF) (hfr : m.cls ≠ .withFriction) (hM0 : 0 ≤ M) (hM : ∀ t ∈ Set.Icc 0 S, ∀ p, |g t p| ≤ M)
    (hd : Spec.Driven S obs (fun t l => ∑ p, g t p * F p l) e k ξ) (he : Spec.DerivOn S (Spec.rowMat e) (Spec.rowMat e'))
    (he' : Spec.Lip S (Spec.rowMat e')) (hk : Spec.DerivOn S k k') (hk' : Spec.Lip S k') :
    ∃ C : ℝ, 0 ≤ C ∧ ∀ (s : ModelState ℝ) (c : LArr ℝ) (d L : String) (N : ℕ) (xva : Xva ℝ) (η : ℝ), s.bm = m → HasForce s c d →
      Estimates m F k N s.dt η η s → isTrapzMethod s.method → (m.dimObs = 1 ∨ d ≠ "dim_x") → 0 < s.dt → 0 ≤ η →
      2 ≤ N → N ≤ s.truncInd → S ≤ (N - 1 : ℕ) * s.dt → Spec.Sampled m L S s.dt obs g e xva →
      Spec.FindsNoise s L d S s.dt (C * (s.dt ^ 2 + η)) ξ xva := by
  obtain ⟨C, hC⟩ := C146_noise_trapz hd he he' hk hk'
  refine ⟨|C| * (m.basis.nOut * M + 1), by positivity, ?_⟩
  intro s c d L N xva η hbm hc hest hm hdim hdt hη hN hNt hcov hx
  subst hbm
  obtain ⟨r, hr, hrN, D⟩ := noise_data hw hfr hM0 hM hc hest hη hdt hx hN hcov
  have hu : N ≤ usedPoints (noiseModelOf s s.bm.dimObs) r none := le_min hNt hrN
  obtain ⟨R, hR, hlen⟩ := computeNoise_succeeds (m := noiseModelOf s s.bm.dimObs) (xva := xvaTraj s.bm L d s.bm.dimObs xva) (trunc := none)
    (by simp only [noiseModelOf, hc.force, Option.map_some]; rfl) hr hx.two (by omega) (.inr hm)
  refine ⟨R, hR, hlen, fun i hi hiS l => (hC _ _ r _ none 0 none s.dt _ R hm hdim hdt (by positivity) (D _)
    (.inl (hcov.trans ?_)) hR i (by rw [hlen]; exact hi) hiS l).trans ?_⟩
  · gcongr
  · have h1 : 0 ≤ s.bm.basis.nOut * M := by positivity
    have h0 : 0 ≤ s.dt ^ 2 := by positivity
    have h2 : s.dt ^ 2 + (s.bm.basis.nOut * M + 1) * η ≤ (s.bm.basis.nOut * M + 1) * (s.dt ^ 2 + η) := by nlinarith
    calc C * (s.dt ^ 2 + (s.bm.basis.nOut * M + 1) * η) ≤ |C| * (s.dt ^ 2 + (s.bm.basis.nOut * M + 1) * η) := by gcongr; exact le_abs_self C
      _ ≤ |C| * ((s.bm.basis.nOut * M + 1) * (s.dt ^ 2 + η)) := by gcongr
      _ = _ := by ring

/-! ### Estimate, then compute the noise -/

/-- What the two previous lemmas give. -/
def NoiseNear (m : BasisModel ℝ) (F : Mat ℝ m.nForce m.dimObs) (k : ℝ → Mat ℝ (Spec.nCorr m) m.dimObs) (S : ℝ)
    (obs ξ : ℝ → Fin m.dimObs → ℝ) (g : ℝ → Fin m.nForce → ℝ) (e : ℝ → Fin (Spec.nCorr m) → ℝ) (P : Option String → Prop)
    (o : ℕ) : Prop :=
  ∃ C : ℝ, 0 ≤ C ∧ ∀ (s : ModelState ℝ) (c : LArr ℝ) (d L : String) (N : ℕ) (xva : Xva ℝ) (η : ℝ), s.bm = m → HasForce s c d →
    Estimates m F k N s.dt η η s → P s.method → (m.dimObs = 1 ∨ d ≠ "dim_x") → 0 < s.dt → 0 ≤ η →
    2 ≤ N → N ≤ s.truncInd → S ≤ (N - 1 : ℕ) * s.dt → Spec.Sampled m L S s.dt obs g e xva →
    Spec.FindsNoise s L d S s.dt (C * (s.dt ^ o + η)) ξ xva

theorem noise_chain {P : Option String → Prop} {o : ℕ} (H : NoiseNear m F k S obs ξ g e P o) (C : ℝ) :
    ∃ C' : ℝ, 0 ≤ C' ∧ ∀ (env : Env ℝ) (method km : String) (vectorize second : Bool) (rankTol : Option ℝ) (d : String)
      (s s1 s2 s3 : EstState ℝ) (N : ℕ) (xva : Xva ℝ) (ε η : ℝ), P (some km) →
      Setup env method vectorize m d s → computeMeanForce env s = (s1, none) →
      computeCorrs env method vectorize second rankTol s1 = (s2, none) →
      computeKernelStep km (fun _ _ => none) s2 = (s3, none) →
      Estimates m F k N s.model.dt (C * ε) (C * η) s3.model → (m.dimObs = 1 ∨ d ≠ "dim_x") → 0 < s.model.dt → 0 ≤ ε → ε ≤ η →
      2 ≤ N → N ≤ s.model.truncInd → S ≤ (N - 1 : ℕ) * s.model.dt → Spec.Sampled m s.model.Lobs S s.model.dt obs g e xva →
      Spec.FindsNoise s3.model s.model.Lobs d S s.model.dt (C' * (s.model.dt ^ o + η)) ξ xva := by
  obtain ⟨C0, hC0, H⟩ := H
  refine ⟨C0 * (|C| + 1), by positivity, ?_⟩
  intro env method km vectorize second rankTol d s s1 s2 s3 N xva ε η hP hs h1 h2 h3 hest hdim hdt hε hεη hN hNt hcov hx
  obtain ⟨c, e1, e2, -, e4, e5⟩ := estimation_frame hs h1 h2 h3
  have hmeth : s3.model.method = some km := by
    obtain ⟨_, _, -, rfl, -⟩ := C42_method_recorded h3
    rfl
  have hη : 0 ≤ η := hε.trans hεη
  have hCp : 0 ≤ |C| := abs_nonneg C
  obtain ⟨z, hz⟩ : ∃ z : ℝ, z = (|C| + 1) * η := ⟨_, rfl⟩
  have b1 : C * ε ≤ z := by
    rw [hz]
    have a1 := mul_le_mul_of_nonneg_right (le_abs_self C) hε
    have a2 := mul_le_mul_of_nonneg_left hεη hCp
    nlinarith
  have b2 : C * η ≤ z := by
    rw [hz]
    have a1 := mul_le_mul_of_nonneg_right (le_abs_self C) hη
    nlinarith
  obtain ⟨r, r1, r2, r3⟩ := H s3.model c d s.model.Lobs N xva z e1 e2 (by rw [e4]; exact Spec.Estimates.mono hest b1 b2)
    (by rw [hmeth]; exact hP) hdim (by rw [e4]; exact hdt) (by rw [hz]; positivity) hN (by rw [e5]; exact hNt) (by rw [e4]; exact hcov)
    (by rw [e4]; exact hx)
  rw [e4] at r3
  refine ⟨r, r1, r2, fun i hi hiS l => (r3 i hi hiS l).trans ?_⟩
  rw [mul_assoc]
  refine mul_le_mul_of_nonneg_left ?_ hC0
  have h0 : 0 ≤ s.model.dt ^ o := by positivity
  rw [hz]
  nlinarith [mul_nonneg hCp h0]

variable {μ : Averages m.nForce (Spec.nCorr m) m.dimObs} {T MW : ℝ}

/-- A part of the bounds below. -/
theorem twice_bound {C a ε : ℝ} (hC : 0 ≤ C) (hε : 0 ≤ ε) : C * (a + (a + ε)) ≤ C * 2 * (a + ε) := by
  nlinarith [mul_nonneg hC hε]

/-- **C151**, rectangle rule of the second kind: with a model estimated from data whose averages are within `ε` of those of the
process, `compute_noise` finds the noise of a trajectory of the process up to `C (dt + ε)`. -/
theorem C151_second_kind_rect (hw : m.WF) (hx1 : 1 ≤ m.dimx) (hfr : m.cls ≠ .withFriction)
    (hG : μ.gram.det ≠ 0) (hF : μ.gram * F = μ.proj)
    (hW : ∀ t ∈ Set.Icc 0 T, ∀ i j, |μ.cross t i j| ≤ MW ∧ |μ.dcross t i j| ≤ MW) (hB0 : (μ.corr 0).det ≠ 0)
    (hB : Spec.Lip T μ.dcorr) (hk : Spec.Lip T k) (heq : Spec.SecondKind T (μ.corr 0) μ.dcorr (μ.dresidual F) k)
    (hh : m.cls ≠ .hybrid)
    (hM0 : 0 ≤ M) (hM : ∀ t ∈ Set.Icc 0 S, ∀ p, |g t p| ≤ M) (hd : Spec.Driven S obs (fun t l => ∑ p, g t p * F p l) e k ξ)
    (he : Spec.Lip S (Spec.rowMat e)) (hkS : Spec.Lip S k) :
    ∃ C δ : ℝ, 0 < δ ∧ ∀ (env : Env ℝ) (method : String) (vectorize : Bool) (rankTol : Option ℝ) (d : String)
      (s : EstState ℝ) (xva : Xva ℝ) (ε : ℝ),
      Setup env method vectorize m d s → NearAverages m s.model.Lobs μ s.xvas s.model.truncInd s.model.dt ε →
      0 < s.model.dt → s.model.dt ≤ δ → 0 ≤ ε → ε ≤ δ → 2 ≤ s.model.truncInd →
      ((s.model.truncInd - 1 : ℕ) : ℝ) * s.model.dt ≤ T → S ≤ ((s.model.truncInd - 1 : ℕ) : ℝ) * s.model.dt →
      (m.dimObs = 1 ∨ d ≠ "dim_x") → Spec.Sampled m s.model.Lobs S s.model.dt obs g e xva →
      ∃ s1 s2 s3, computeMeanForce env s = (s1, none) ∧ computeCorrs env method vectorize true rankTol s1 = (s2, none) ∧
        computeKernelStep "second_kind_rect" (fun _ _ => none) s2 = (s3, none) ∧
        Spec.FindsNoise s3.model s.model.Lobs d S s.model.dt (C * (s.model.dt + ε)) ξ xva := by
  obtain ⟨C1, δ1, hδ1, H1⟩ := C142_second_kind_rect hG hF hW hw hx1 hh hB0 hB hk heq
  obtain ⟨C2, hC2, H2⟩ := noise_chain (by unfold NoiseNear; simpa only [pow_one] using noise_near_rect hw hfr hM0 hM hd he hkS : NoiseNear m F k S obs ξ g e isRectMethod 1) C1
  refine ⟨C2 * 2, δ1, hδ1, ?_⟩
  intro env method vectorize rankTol d s xva ε hs hn hdt hdtδ hε hεδ hN hT hcov hdim hx
  obtain ⟨s1, s2, s3, h1, h2, h3, hest⟩ := H1 env method vectorize rankTol d s ε hs hn hdt hdtδ hε hεδ hT
  have q0 : 0 ≤ s.model.dt := by positivity
  obtain ⟨r, r1, r2, r3⟩ := H2 env method _ vectorize true rankTol d s s1 s2 s3 _ xva ε _ (by decide) hs h1 h2 h3 hest hdim hdt hε
    (by linarith) hN le_rfl hcov hx
  refine ⟨s1, s2, s3, h1, h2, h3, r, r1, r2, fun i hi hiS l => (r3 i hi hiS l).trans ?_⟩
  rw [pow_one]
  exact twice_bound hC2 hε

/-- **C151**, trapezoidal rule of the second kind: `C (dt² + ε)`. -/
theorem C151_second_kind_trapz (hw : m.WF) (hx1 : 1 ≤ m.dimx) (hfr : m.cls ≠ .withFriction)
    (hG : μ.gram.det ≠ 0) (hF : μ.gram * F = μ.proj)
    (hW : ∀ t ∈ Set.Icc 0 T, ∀ i j, |μ.cross t i j| ≤ MW ∧ |μ.dcross t i j| ≤ MW) (hB0 : (μ.corr 0).det ≠ 0)
    {B' : ℝ → Mat ℝ (Spec.nCorr m) (Spec.nCorr m)} {kT : ℝ → Mat ℝ (Spec.nCorr m) m.dimObs}
    (hB : Spec.DerivOn T μ.dcorr B') (hB' : Spec.Lip T B') (hk : Spec.DerivOn T k kT) (hk' : Spec.Lip T kT)
    (heq : Spec.SecondKind T (μ.corr 0) μ.dcorr (μ.dresidual F) k)
    (hh : m.cls ≠ .hybrid)
    (hM0 : 0 ≤ M) (hM : ∀ t ∈ Set.Icc 0 S, ∀ p, |g t p| ≤ M) (hd : Spec.Driven S obs (fun t l => ∑ p, g t p * F p l) e k ξ)
    (he : Spec.DerivOn S (Spec.rowMat e) (Spec.rowMat e')) (he' : Spec.Lip S (Spec.rowMat e')) (hkS : Spec.DerivOn S k k')
    (hkS' : Spec.Lip S k') :
    ∃ C δ : ℝ, 0 < δ ∧ ∀ (env : Env ℝ) (method : String) (vectorize : Bool) (rankTol : Option ℝ) (d : String)
      (s : EstState ℝ) (xva : Xva ℝ) (ε : ℝ),
      Setup env method vectorize m d s → NearAverages m s.model.Lobs μ s.xvas s.model.truncInd s.model.dt ε →
      0 < s.model.dt → s.model.dt ≤ δ → 0 ≤ ε → ε ≤ δ → 2 ≤ s.model.truncInd →
      ((s.model.truncInd - 1 : ℕ) : ℝ) * s.model.dt ≤ T → S ≤ ((s.model.truncInd - 1 : ℕ) : ℝ) * s.model.dt →
      (m.dimObs = 1 ∨ d ≠ "dim_x") → Spec.Sampled m s.model.Lobs S s.model.dt obs g e xva →
      ∃ s1 s2 s3, computeMeanForce env s = (s1, none) ∧ computeCorrs env method vectorize true rankTol s1 = (s2, none) ∧
        computeKernelStep "second_kind_trapz" (fun _ _ => none) s2 = (s3, none) ∧
        Spec.FindsNoise s3.model s.model.Lobs d S s.model.dt (C * (s.model.dt ^ 2 + ε)) ξ xva := by
  obtain ⟨C1, δ1, hδ1, H1⟩ := C142_second_kind_trapz hG hF hW hw hx1 hh hB0 hB hB' hk hk' heq
  obtain ⟨C2, hC2, H2⟩ := noise_chain (noise_near_trapz hw hfr hM0 hM hd he he' hkS hkS' : NoiseNear m F k S obs ξ g e isTrapzMethod 2) C1
  refine ⟨C2 * 2, δ1, hδ1, ?_⟩
  intro env method vectorize rankTol d s xva ε hs hn hdt hdtδ hε hεδ hN hT hcov hdim hx
  obtain ⟨s1, s2, s3, h1, h2, h3, hest⟩ := H1 env method vectorize rankTol d s ε hs hn hdt hdtδ hε hεδ hT
  have q0 : 0 ≤ s.model.dt ^ 2 := by positivity
  obtain ⟨r, r1, r2, r3⟩ := H2 env method _ vectorize true rankTol d s s1 s2 s3 _ xva ε _ (by decide) hs h1 h2 h3 hest hdim hdt hε
    (by linarith) hN le_rfl hcov hx
  refine ⟨s1, s2, s3, h1, h2, h3, r, r1, r2, fun i hi hiS l => (r3 i hi hiS l).trans ?_⟩
  exact twice_bound hC2 hε

/-- **C151**, rectangle rule of the first kind, which divides the errors of the averages by `dt`. -/
theorem C151_rect (hw : m.WF) (hx1 : 1 ≤ m.dimx) (hfr : m.cls ≠ .withFriction)
    (hG : μ.gram.det ≠ 0) (hF : μ.gram * F = μ.proj)
    (hW : ∀ t ∈ Set.Icc 0 T, ∀ i j, |μ.cross t i j| ≤ MW ∧ |μ.dcross t i j| ≤ MW) (hB0 : (μ.corr 0).det ≠ 0)
    {B' : ℝ → Mat ℝ (Spec.nCorr m) (Spec.nCorr m)} (hB : Spec.DerivOn T μ.corr B') (hB' : Spec.Lip T B') (hk : Spec.Lip T k)
    (heq : Spec.FirstKind T μ.corr (μ.residual F) k)
    (hM0 : 0 ≤ M) (hM : ∀ t ∈ Set.Icc 0 S, ∀ p, |g t p| ≤ M) (hd : Spec.Driven S obs (fun t l => ∑ p, g t p * F p l) e k ξ)
    (he : Spec.Lip S (Spec.rowMat e)) (hkS : Spec.Lip S k) :
    ∃ C δ : ℝ, 0 < δ ∧ ∀ (env : Env ℝ) (method km : String) (vectorize : Bool) (rankTol : Option ℝ) (d : String)
      (s : EstState ℝ) (xva : Xva ℝ) (ε : ℝ), km ∈ ["rect", "rectangular"] →
      Setup env method vectorize m d s → NearAverages m s.model.Lobs μ s.xvas s.model.truncInd s.model.dt ε →
      0 < s.model.dt → s.model.dt ≤ δ → 0 ≤ ε → ε ≤ δ * s.model.dt → 3 ≤ s.model.truncInd →
      ((s.model.truncInd - 1 : ℕ) : ℝ) * s.model.dt ≤ T → S ≤ ((s.model.truncInd - 2 : ℕ) : ℝ) * s.model.dt →
      (m.dimObs = 1 ∨ d ≠ "dim_x") → Spec.Sampled m s.model.Lobs S s.model.dt obs g e xva →
      ∃ s1 s2 s3, computeMeanForce env s = (s1, none) ∧ computeCorrs env method vectorize true rankTol s1 = (s2, none) ∧
        computeKernelStep km (fun _ _ => none) s2 = (s3, none) ∧
        Spec.FindsNoise s3.model s.model.Lobs d S s.model.dt (C * (s.model.dt + ε / s.model.dt)) ξ xva := by
  obtain ⟨C1, δ1, hδ1, H1⟩ := C142_rect hG hF hW hw hx1 hB0 hB hB' hk heq
  obtain ⟨C2, hC2, H2⟩ := noise_chain (by unfold NoiseNear; simpa only [pow_one] using noise_near_rect hw hfr hM0 hM hd he hkS : NoiseNear m F k S obs ξ g e isRectMethod 1) C1
  refine ⟨C2 * 2, min 1 δ1, by positivity, ?_⟩
  intro env method km vectorize rankTol d s xva ε hkm hs hn hdt hdtδ hε hεδ hN hT hcov hdim hx
  have l0 := hdtδ.trans (min_le_left _ _)
  have sqp : 0 < s.model.dt := by positivity
  obtain ⟨s1, s2, s3, h1, h2, h3, hest⟩ := H1 env method km vectorize rankTol d s ε hkm hs hn hdt
    (hdtδ.trans (min_le_right _ _)) hε (hεδ.trans (mul_le_mul_of_nonneg_right (min_le_right _ _) sqp.le)) (by omega) hT
  have q0 : 0 ≤ s.model.dt := sqp.le
  have q2 : 0 ≤ ε / s.model.dt := by positivity
  have q1 : ε ≤ ε / s.model.dt := (le_div_iff₀ sqp).2 (mul_le_of_le_one_right hε (by nlinarith))
  obtain ⟨r, r1, r2, r3⟩ := H2 env method _ vectorize true rankTol d s s1 s2 s3 _ xva ε _ (by
      left
      simp only [List.mem_cons, List.not_mem_nil, or_false] at hkm
      rcases hkm with rfl | rfl <;> simp) hs h1 h2 h3 hest hdim hdt hε
    (by linarith) (by omega) (by omega) (by rw [Nat.sub_sub]; exact hcov) hx
  refine ⟨s1, s2, s3, h1, h2, h3, r, r1, r2, fun i hi hiS l => (r3 i hi hiS l).trans ?_⟩
  rw [pow_one]
  exact twice_bound hC2 q2

/-- **C151**, trapezoidal rule of the first kind, which divides the errors of the averages by `dt²`. -/
theorem C151_trapz (hw : m.WF) (hx1 : 1 ≤ m.dimx) (hfr : m.cls ≠ .withFriction)
    (hG : μ.gram.det ≠ 0) (hF : μ.gram * F = μ.proj)
    (hW : ∀ t ∈ Set.Icc 0 T, ∀ i j, |μ.cross t i j| ≤ MW ∧ |μ.dcross t i j| ≤ MW) (hB0 : (μ.corr 0).det ≠ 0)
    {B1 B2 B3 : ℝ → Mat ℝ (Spec.nCorr m) (Spec.nCorr m)} {k1 k2 : ℝ → Mat ℝ (Spec.nCorr m) m.dimObs}
    (hB1 : Spec.DerivOn T μ.corr B1) (hB2 : Spec.DerivOn T B1 B2) (hB3 : Spec.DerivOn T B2 B3) (hLB : Spec.Lip T B3)
    (hk1 : Spec.DerivOn T k k1) (hk2 : Spec.DerivOn T k1 k2) (hLk : Spec.Lip T k2)
    (heq : Spec.FirstKind T μ.corr (μ.residual F) k) (h0 : μ.dresidual F 0 = μ.corr 0 * k 0)
    (hh : m.cls ≠ .hybrid)
    (hM0 : 0 ≤ M) (hM : ∀ t ∈ Set.Icc 0 S, ∀ p, |g t p| ≤ M) (hd : Spec.Driven S obs (fun t l => ∑ p, g t p * F p l) e k ξ)
    (he : Spec.DerivOn S (Spec.rowMat e) (Spec.rowMat e')) (he' : Spec.Lip S (Spec.rowMat e')) (hkS : Spec.DerivOn S k k')
    (hkS' : Spec.Lip S k') :
    ∃ C δ : ℝ, 0 < δ ∧ ∀ (env : Env ℝ) (method : String) (vectorize : Bool) (rankTol : Option ℝ) (d : String)
      (s : EstState ℝ) (xva : Xva ℝ) (ε : ℝ),
      Setup env method vectorize m d s → NearAverages m s.model.Lobs μ s.xvas s.model.truncInd s.model.dt ε →
      0 < s.model.dt → s.model.dt ≤ δ → 0 ≤ ε → ε ≤ δ * s.model.dt ^ 2 → 3 ≤ s.model.truncInd →
      ((s.model.truncInd - 1 : ℕ) : ℝ) * s.model.dt ≤ T → S ≤ ((s.model.truncInd - 2 : ℕ) : ℝ) * s.model.dt →
      (m.dimObs = 1 ∨ d ≠ "dim_x") → Spec.Sampled m s.model.Lobs S s.model.dt obs g e xva →
      ∃ s1 s2 s3, computeMeanForce env s = (s1, none) ∧ computeCorrs env method vectorize true rankTol s1 = (s2, none) ∧
        computeKernelStep "trapz" (fun _ _ => none) s2 = (s3, none) ∧
        Spec.FindsNoise s3.model s.model.Lobs d S s.model.dt (C * (s.model.dt ^ 2 + ε / s.model.dt ^ 2)) ξ xva := by
  obtain ⟨C1, δ1, hδ1, H1⟩ := C142_trapz hG hF hW hw hx1 hh hB0 hB1 hB2 hB3 hLB hk1 hk2 hLk heq h0
  obtain ⟨C2, hC2, H2⟩ := noise_chain (noise_near_trapz hw hfr hM0 hM hd he he' hkS hkS' : NoiseNear m F k S obs ξ g e isTrapzMethod 2) C1
  refine ⟨C2 * 2, min 1 δ1, by positivity, ?_⟩
  intro env method vectorize rankTol d s xva ε hs hn hdt hdtδ hε hεδ hN hT hcov hdim hx
  have l0 := hdtδ.trans (min_le_left _ _)
  have sqp : 0 < s.model.dt ^ 2 := by positivity
  obtain ⟨s1, s2, s3, h1, h2, h3, hest⟩ := H1 env method vectorize rankTol d s ε hs hn hdt
    (hdtδ.trans (min_le_right _ _)) hε (hεδ.trans (mul_le_mul_of_nonneg_right (min_le_right _ _) sqp.le)) (by omega) hT
  have q0 : 0 ≤ s.model.dt ^ 2 := sqp.le
  have q2 : 0 ≤ ε / s.model.dt ^ 2 := by positivity
  have q1 : ε ≤ ε / s.model.dt ^ 2 := (le_div_iff₀ sqp).2 (mul_le_of_le_one_right hε (by nlinarith))
  obtain ⟨r, r1, r2, r3⟩ := H2 env method _ vectorize true rankTol d s s1 s2 s3 _ xva ε _ (by decide) hs h1 h2 h3 hest hdim hdt hε
    (by linarith) (by omega) (by omega) (by rw [Nat.sub_sub]; exact hcov) hx
  refine ⟨s1, s2, s3, h1, h2, h3, r, r1, r2, fun i hi hiS l => (r3 i hi hiS l).trans ?_⟩
  exact twice_bound hC2 q2

end

namespace TwoOscillators

open Real

/-- The trajectory `sin(t) + sin(7 t)` among the data has the noise `144/5 sin(7 t / 5)`. -/
theorem driven (S : ℝ) : Spec.Driven S (fun t (_ : Fin model.dimObs) => W (-1) (-49) t) (fun t l => ∑ p, W 1 1 t * F p l)
    (fun t (_ : Fin (Spec.nCorr model)) => U 1 7 t) k (fun t _ => 144 / 5 * sin (7 / 5 * t)) := by
  intro t _ l
  have e1 : ∑ p, W 1 1 t * F p l = -25 * W 1 1 t := by
    refine (Fin.sum_univ_one (fun p : Fin model.nForce => W 1 1 t * F p l)).trans ?_
    change W 1 1 t * (-25) = _
    ring
  have e2 : ∀ s, (∑ a : Fin (Spec.nCorr model), U 1 7 (t - s) * k s a l) =
      576 / 25 * (cos (1 * (t - s)) * cos (7 / 5 * s)) + 4032 / 25 * (cos (7 * (t - s)) * cos (7 / 5 * s)) := fun s => by
    refine (Fin.sum_univ_one (fun a : Fin (Spec.nCorr model) => U 1 7 (t - s) * k s a l)).trans ?_
    change U 1 7 (t - s) * kt s = _
    simp only [U, kt, one_mul]
    ring
  simp only [e1, Spec.memoryInt, e2]
  rw [intervalIntegral.integral_add (Continuous.intervalIntegrable (by fun_prop) _ _)
    (Continuous.intervalIntegrable (by fun_prop) _ _), intervalIntegral.integral_const_mul, intervalIntegral.integral_const_mul,
    integral_cos_cos _ _ _ (by norm_num), integral_cos_cos _ _ _ (by norm_num)]
  simp only [W, one_mul]
  ring

theorem sampled {dt S : ℝ} {n : ℕ} (hn : 2 ≤ n) (hS : S ≤ (n - 1 : ℕ) * dt) :
    Spec.Sampled model "a" S dt (fun t _ => W (-1) (-49) t) (fun t _ => W 1 1 t) (fun t _ => U 1 7 t) (xva dt n false 1) where
  dimx := rfl
  two := hn
  step := by simp [xva]
  reach := hS
  obs i _ l := by rw [data_a]; norm_num
  force i _ p := by rw [feature_x]; simp
  memory i _ q := by rw [feature_v]; norm_num

theorem memory_lip {S : ℝ} : Spec.Lip S (Spec.rowMat fun t (_ : Fin (Spec.nCorr model)) => U 1 7 t) := by
  refine ⟨50, fun s _ t _ _ _ => ?_⟩
  have := Convex.norm_image_sub_le_of_norm_hasDerivWithin_le (s := Set.univ) (C := 50)
    (fun x _ => (U_deriv 1 7 x).hasDerivWithinAt) (fun x _ => by
      rw [norm_eq_abs]
      exact (W_le _ _ x).trans (by norm_num)) convex_univ (Set.mem_univ t) (Set.mem_univ s)
  rw [norm_eq_abs, norm_eq_abs] at this
  exact this

/-- The noise found along the third trajectory, with the model estimated from the four trajectories. -/
theorem noise_found : ∃ C δ : ℝ, 0 < δ ∧ ∀ N extra : ℕ, 2 ≤ N → 1 / ((N - 1 : ℕ) : ℝ) ≤ δ →
    ∃ s1 s2 s3, computeMeanForce env (state (1 / ((N - 1 : ℕ) : ℝ)) N extra) = (s1, none) ∧
      computeCorrs env "direct" false true none s1 = (s2, none) ∧
      computeKernelStep "second_kind_rect" (fun _ _ => none) s2 = (s3, none) ∧
      Spec.FindsNoise s3.model "a" "dim_x" 1 (1 / ((N - 1 : ℕ) : ℝ)) (C * (1 / ((N - 1 : ℕ) : ℝ) + 0))
        (fun t (_ : Fin model.dimObs) => 144 / 5 * sin (7 / 5 * t)) (xva (1 / ((N - 1 : ℕ) : ℝ)) (N + extra) false 1) := by
  obtain ⟨C, δ, hδ, H⟩ := C151_second_kind_rect (fun h => by cases h) le_rfl (by decide) gram_det force cross_le corr_det
    (lip_of (fun t => W_deriv (1 / 2) (343 / 2) t) (U_le _ _)) (lip_of kt_deriv kt1_le) secondKind (by decide)
    (by norm_num : (0 : ℝ) ≤ 2) (fun t _ _ => (W_le 1 1 t).trans (by norm_num)) (driven 1) memory_lip (lip_of kt_deriv kt1_le)
  refine ⟨C, δ, hδ, fun N extra hN hδN => ?_⟩
  have hN0 : (0 : ℝ) < ((N - 1 : ℕ) : ℝ) := by exact_mod_cast (by omega : 0 < N - 1)
  have h1 : ((N - 1 : ℕ) : ℝ) * (1 / ((N - 1 : ℕ) : ℝ)) = 1 := by field_simp
  refine H env "direct" false none "dim_x" (state (1 / ((N - 1 : ℕ) : ℝ)) N extra) _ 0
    (setup _ extra (by omega)) (near _ extra (by omega)) (by change 0 < 1 / ((N - 1 : ℕ) : ℝ); positivity) hδN le_rfl hδ.le hN h1.le h1.ge
    (.inl rfl) (sampled (by omega) (h1.ge.trans ?_))
  refine mul_le_mul_of_nonneg_right ?_ (by positivity)
  exact_mod_cast (by omega : N - 1 ≤ N + extra - 1)

theorem memory_deriv {S : ℝ} : Spec.DerivOn S (Spec.rowMat fun t (_ : Fin (Spec.nCorr model)) => U 1 7 t)
    (Spec.rowMat fun t (_ : Fin (Spec.nCorr model)) => W (-1) (-49) t) :=
  fun t _ _ _ => ((U_deriv 1 7 t).congr_deriv (by norm_num [Spec.rowMat])).hasDerivWithinAt

theorem memory_deriv_lip {S : ℝ} : Spec.Lip S (Spec.rowMat fun t (_ : Fin (Spec.nCorr model)) => W (-1) (-49) t) := by
  refine ⟨400, fun s _ t _ _ _ => ?_⟩
  have := Convex.norm_image_sub_le_of_norm_hasDerivWithin_le (s := Set.univ) (C := 400)
    (fun x _ => (W_deriv (-1) (-49) x).hasDerivWithinAt) (fun x _ => by
      rw [norm_eq_abs]
      exact (U_le _ _ x).trans (by norm_num)) convex_univ (Set.mem_univ t) (Set.mem_univ s)
  rw [norm_eq_abs, norm_eq_abs] at this
  exact this

example := C151_second_kind_trapz (fun h => by cases h) le_rfl (by decide) gram_det force cross_le corr_det
    (deriv_of (f' := U (1 / 2) (2401 / 2)) fun t => (W_deriv (1 / 2) (343 / 2) t).congr_deriv (by norm_num))
    (lip_of (U_deriv _ _) (W_le _ _)) (deriv_of kt_deriv) (lip_of kt1_deriv kt2_le) secondKind (by decide)
    (by norm_num : (0 : ℝ) ≤ 2) (fun t _ _ => (W_le 1 1 t).trans (by norm_num)) (driven 1) memory_deriv memory_deriv_lip
    (deriv_of kt_deriv) (lip_of kt1_deriv kt2_le)

example := C151_rect (fun h => by cases h) le_rfl (by decide) gram_det force cross_le corr_det
    (deriv_of (U_deriv _ _)) (lip_of (W_deriv _ _) (U_le _ _)) (lip_of kt_deriv kt1_le) firstKind
    (by norm_num : (0 : ℝ) ≤ 2) (fun t _ _ => (W_le 1 1 t).trans (by norm_num)) (driven (1 / 2)) memory_lip
    (lip_half (lip_of kt_deriv kt1_le))

theorem deriv_half {b x : ℕ} {P P' : ℝ → Mat ℝ b x} (h : Spec.DerivOn 1 P P') : Spec.DerivOn (1 / 2) P P' :=
  fun t ht i j => (h t ⟨ht.1, ht.2.trans (by norm_num)⟩ i j).mono (Set.Icc_subset_Icc le_rfl (by norm_num))

example := C151_trapz (fun h => by cases h) le_rfl (by decide) gram_det force cross_le corr_det
    (deriv_of (U_deriv _ _)) (deriv_of (W_deriv _ _)) (deriv_of (U_deriv _ _)) (lip_of (W_deriv _ _) (U_le _ _))
    (deriv_of kt_deriv) (deriv_of kt1_deriv) (lip_of kt2_deriv kt3_le) firstKind initial (by decide)
    (by norm_num : (0 : ℝ) ≤ 2) (fun t _ _ => (W_le 1 1 t).trans (by norm_num)) (driven (1 / 2)) memory_deriv memory_deriv_lip
    (deriv_half (deriv_of kt_deriv)) (lip_half (lip_of kt1_deriv kt2_le))

end TwoOscillators

end Verif
