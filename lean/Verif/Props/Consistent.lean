import Verif.Props.ProjectedBasis
import Verif.Props.NoiseOrtho
import Verif.Props.ConvergeTrapz
import Verif.Props.Pmf

/-!
# The whole estimation converges to the force and the kernel of the process (C142)
-/

namespace Verif

set_option linter.unusedSectionVars false

open LArr Finset
open scoped Matrix.Norms.Operator

namespace Spec

/-- Averages over a stationary process, of products of the functions of the mean force `f` (`p` of them), of the functions
whose correlations are computed `φ` (`b` of them), of their time derivatives `φ'`, and of the observable (`x` components). -/
structure Averages (p b x : ℕ) where
  /-- `⟨f_i f_j⟩` -/
  gram : Mat ℝ p p
  /-- `⟨f_i obs_j⟩` -/
  proj : Mat ℝ p x
  /-- `⟨φ_i(0) φ_j(t)⟩` -/
  corr : ℝ → Mat ℝ b b
  /-- `⟨φ_i(0) obs_j(t)⟩` -/
  obs : ℝ → Mat ℝ b x
  /-- `⟨φ_i(0) f_j(t)⟩` -/
  cross : ℝ → Mat ℝ b p
  /-- `⟨φ'_i(0) φ_j(t)⟩` -/
  dcorr : ℝ → Mat ℝ b b
  /-- `⟨φ'_i(0) obs_j(t)⟩` -/
  dobs : ℝ → Mat ℝ b x
  /-- `⟨φ'_i(0) f_j(t)⟩` -/
  dcross : ℝ → Mat ℝ b p

/-- `⟨φ(0) (obs - F f)(t)⟩`. -/
def Averages.residual {p b x : ℕ} (μ : Averages p b x) (F : Mat ℝ p x) (t : ℝ) : Mat ℝ b x := μ.obs t - μ.cross t * F

/-- `⟨φ'(0) (obs - F f)(t)⟩`. -/
def Averages.dresidual {p b x : ℕ} (μ : Averages p b x) (F : Mat ℝ p x) (t : ℝ) : Mat ℝ b x := μ.dobs t - μ.dcross t * F

/-- The averages over the frames of the trajectories, at the first `N` lags, are those of the process up to `ε`. -/
structure NearAverages (m : BasisModel ℝ) (L : String) (μ : Averages m.nForce (nCorr m) m.dimObs) (xvas : List (Xva ℝ))
    (N : ℕ) (dt ε : ℝ) : Prop where
  gram : ∀ i j : Fin m.nForce, |pooledMean (xvas.map fun xva => (xva.n, fun t => forceFeature m xva t i * forceFeature m xva t j)) -
    μ.gram i j| ≤ ε
  proj : ∀ (i : Fin m.nForce) (j : Fin m.dimObs), |pooledMean (xvas.map fun xva => (xva.n, fun t => forceFeature m xva t i * xva.data L t j)) - μ.proj i j| ≤ ε
  corr : ∀ n < N, ∀ (i j : Fin (nCorr m)), |meanCorr xvas (fun xva t => corrFeature m xva t i) (fun xva t => corrFeature m xva t j) n -
    μ.corr (n * dt) i j| ≤ ε
  obs : ∀ n < N, ∀ (i : Fin (nCorr m)) (j : Fin m.dimObs), |meanCorr xvas (fun xva t => corrFeature m xva t i) (fun xva t => xva.data L t j) n -
    μ.obs (n * dt) i j| ≤ ε
  cross : ∀ n < N, ∀ (i : Fin (nCorr m)) (j : Fin m.nForce), |meanCorr xvas (fun xva t => corrFeature m xva t i) (fun xva t => forceFeature m xva t j) n -
    μ.cross (n * dt) i j| ≤ ε
  dcorr : ∀ n < N, ∀ (i j : Fin (nCorr m)), |meanCorr xvas (fun xva t => corrFeatureDot m xva t i) (fun xva t => corrFeature m xva t j) n -
    μ.dcorr (n * dt) i j| ≤ ε
  dobs : ∀ n < N, ∀ (i : Fin (nCorr m)) (j : Fin m.dimObs), |meanCorr xvas (fun xva t => corrFeatureDot m xva t i) (fun xva t => xva.data L t j) n -
    μ.dobs (n * dt) i j| ≤ ε
  dcross : ∀ n < N, ∀ (i : Fin (nCorr m)) (j : Fin m.nForce), |meanCorr xvas (fun xva t => corrFeatureDot m xva t i) (fun xva t => forceFeature m xva t j) n -
    μ.dcross (n * dt) i j| ≤ ε

/-- The entry `k`, `l` of a matrix, zero outside. -/
def entry {p x : ℕ} (F : Mat ℝ p x) (k l : ℕ) : ℝ := if h : k < p ∧ l < x then F ⟨k, h.1⟩ ⟨l, h.2⟩ else 0

/-- The force and the kernel that a model evaluates are given by the coefficients `F` and by `k`, up to `eF` and `eK`, for the
first `N` times. -/
structure Estimates (m : BasisModel ℝ) (F : Mat ℝ m.nForce m.dimObs) (k : ℝ → Mat ℝ (nCorr m) m.dimObs) (N : ℕ) (dt eF eK : ℝ)
    (s : ModelState ℝ) : Prop where
  force : ∀ n pts, ∃ R, forceEval s none n pts = .ok R ∧ R.rows = n ∧ R.cols = m.dimObs ∧ ∀ i, ∀ l < m.dimObs,
    |R.get i l - ∑ q ∈ range m.basis.nOut, m.basis.basis (pts i) q * entry F q l| ≤
      eF * ∑ q ∈ range m.basis.nOut, |m.basis.basis (pts i) q|
  kernel : ∃ r, s.kernel = some ⟨nCorr m, m.dimObs, r⟩ ∧ N ≤ r.kernel.len ∧ r.time.len = r.kernel.len ∧ ∀ n < N,
    r.time.get n = n * dt ∧ ∀ i j, |r.kernel.get n i j - k (n * dt) i j| ≤ eK
  eval : (m.cls = .hybrid → m.dimx = 1) → (m.cls = .constKernel → m.dimObs = m.dimx) → ∀ n pts, ∃ R,
    kernelEvalAt s n pts = .ok R ∧ ∀ t < N, ∀ l < m.dimObs, ∀ i d,
      |R t l i d - ∑ q ∈ range (nKernelAt m), entry (k (t * dt)) (q + constRows m) l * kernelAt m (pts i) q d| ≤
        eK * ∑ q ∈ range (nKernelAt m), |kernelAt m (pts i) q d|

end Spec

open Spec (Averages NearAverages Estimates)

/-- Trajectories and settings the three steps of an estimation without projection accept. -/
structure Setup {K : Type*} [Field K] [LinearOrder K] (env : Env K) (method : String) (vectorize : Bool) (m : BasisModel K)
    (d : String) (s : EstState K) : Prop where
  loop : IsLoop env.loop
  fn : IsCorrFn (env.corrFn method vectorize)
  bm : s.model.bm = m
  wf : m.WF
  noProj : s.model.rankProjection = false
  obs : SameObs s.xvas s.model.Lobs d m.dimObs
  dim : d ≠ "time_trunc" ∧ d ≠ "dim_basis_old"
  dimx : ∀ xva ∈ s.xvas, xva.dimx = m.dimx
  npos : 1 ≤ Spec.nCorr m
  xpos : 1 ≤ m.dimObs
  tpos : 1 ≤ s.model.truncInd
  tle : ∀ xva ∈ s.xvas, s.model.truncInd ≤ xva.n
  ne : s.xvas ≠ []

/-- The solution of linear equations that are known up to `ε`. -/
theorem solve_near {p x : ℕ} {G : Mat ℝ p p} (hG : G.det ≠ 0) {A F : Mat ℝ p x} (hF : G * F = A) :
    ∃ C δ : ℝ, 0 ≤ C ∧ 0 < δ ∧ ∀ (G' : Mat ℝ p p) (A' : Mat ℝ p x) (ε : ℝ), 0 ≤ ε → ε ≤ δ → (∀ i j, |G' i j - G i j| ≤ ε) →
      (∀ i j, |A' i j - A i j| ≤ ε) → G'.det ≠ 0 ∧ ∀ c : Mat ℝ p x, G' * c = A' → ∀ i j, |c i j - F i j| ≤ C * ε := by
  obtain ⟨M, -, hM⟩ := det_inv hG
  have hMn : 0 ≤ ‖M‖ := norm_nonneg M
  obtain ⟨δ, hδ0, hδ1⟩ : ∃ δ : ℝ, 0 < δ ∧ δ * (2 * (‖M‖ * p + 1)) = 1 := ⟨1 / (2 * (‖M‖ * p + 1)), by positivity, by field_simp⟩
  refine ⟨2 * ‖M‖ * (x + p * ‖F‖), δ, by positivity, hδ0, fun G' A' ε hε hεδ hG' hA' => ?_⟩
  have nG : ‖G' - G‖ ≤ p * ε := norm_le_of_entries (A := G' - G) hε hG'
  have nA : ‖A' - A‖ ≤ x * ε := norm_le_of_entries (A := A' - A) hε hA'
  have hsmall : ‖M‖ * (p * ε) ≤ 1 / 2 := by
    have : ‖M‖ * p * ε ≤ ‖M‖ * p * δ := by gcongr
    nlinarith
  refine ⟨det_ne_zero_of_close hM (lt_of_le_of_lt (mul_le_mul_of_nonneg_left nG hMn) (by linarith)), fun c hc i j => ?_⟩
  have e : c - F = M * ((A' - A) - (G' - G) * F) - M * ((G' - G) * (c - F)) := by
    have h1 : (A' - A) - (G' - G) * F - (G' - G) * (c - F) = G * (c - F) := by
      rw [← hc, ← hF]
      simp only [Matrix.mul_sub, Matrix.sub_mul]
      abel
    rw [← Matrix.mul_sub, h1, ← Matrix.mul_assoc, hM, Matrix.one_mul]
  have n1 : ‖c - F‖ ≤ ‖M‖ * (x * ε + p * ε * ‖F‖) + ‖M‖ * (p * ε * ‖c - F‖) := by
    have h1 : ‖M * ((A' - A) - (G' - G) * F)‖ ≤ ‖M‖ * (x * ε + p * ε * ‖F‖) := by
      refine (Matrix.linfty_opNorm_mul _ _).trans (mul_le_mul_of_nonneg_left ((norm_sub_le _ _).trans (add_le_add nA ?_)) hMn)
      exact (Matrix.linfty_opNorm_mul _ _).trans (mul_le_mul_of_nonneg_right nG (norm_nonneg _))
    have h2 : ‖M * ((G' - G) * (c - F))‖ ≤ ‖M‖ * (p * ε * ‖c - F‖) := by
      refine (Matrix.linfty_opNorm_mul _ _).trans (mul_le_mul_of_nonneg_left ?_ hMn)
      exact (Matrix.linfty_opNorm_mul _ _).trans (mul_le_mul_of_nonneg_right nG (norm_nonneg _))
    calc ‖c - F‖ = ‖M * ((A' - A) - (G' - G) * F) - M * ((G' - G) * (c - F))‖ := by rw [← e]
      _ ≤ _ := (norm_sub_le _ _).trans (add_le_add h1 h2)
  refine (entry_le_norm (c - F) i j).trans ?_
  have h3 : ‖M‖ * (p * ε * ‖c - F‖) ≤ 1 / 2 * ‖c - F‖ := by
    rw [← mul_assoc]
    exact mul_le_mul_of_nonneg_right hsmall (norm_nonneg _)
  linarith

theorem meanCorr_sub_right (xvas : List (Xva ℝ)) (f g h : Xva ℝ → ℕ → ℝ) (n : ℕ) :
    Spec.meanCorr xvas f (fun xva t => g xva t - h xva t) n = Spec.meanCorr xvas f g n - Spec.meanCorr xvas f h n := by
  have e := meanCorr_mix_right xvas 2 (fun l => if l = 0 then 1 else -1) f (fun l => if l = 0 then g else h) n
  simp only [sum_range_succ, sum_range_zero, zero_add, if_true, one_ne_zero, if_false, one_mul, neg_one_mul, ← sub_eq_add_neg] at e
  exact e

/-- The correlation with the rest of the observable, when coefficients and correlations are known up to `ε`. -/
theorem residual_near {p b x : ℕ} {V V' : Mat ℝ b x} {W W' : Mat ℝ b p} {F c : Mat ℝ p x} {ε C MW : ℝ} (hε : 0 ≤ ε) (hε1 : ε ≤ 1)
    (hV : ∀ i j, |V' i j - V i j| ≤ ε) (hW : ∀ i j, |W' i j - W i j| ≤ ε) (hMW : ∀ i j, |W i j| ≤ MW)
    (hc : ∀ i j, |c i j - F i j| ≤ C * ε) (i : Fin b) (j : Fin x) :
    |(V' - W' * c) i j - (V - W * F) i j| ≤ (1 + p * (‖F‖ + C + |MW| * C)) * ε := by
  have e : (V' - W' * c) i j - (V - W * F) i j = (V' i j - V i j) -
      ∑ k, ((W' i k - W i k) * F k j + (W' i k - W i k) * (c k j - F k j) + W i k * (c k j - F k j)) := by
    rw [Matrix.sub_apply, Matrix.sub_apply, Matrix.mul_apply, Matrix.mul_apply]
    have : ∑ k, ((W' i k - W i k) * F k j + (W' i k - W i k) * (c k j - F k j) + W i k * (c k j - F k j)) =
        ∑ k, W' i k * c k j - ∑ k, W i k * F k j := by
      rw [← sum_sub_distrib]
      exact sum_congr rfl fun k _ => by ring
    rw [this]
    ring
  rw [e]
  refine (abs_sub _ _).trans ?_
  have h1 : |∑ k, ((W' i k - W i k) * F k j + (W' i k - W i k) * (c k j - F k j) + W i k * (c k j - F k j))| ≤
      ∑ _k : Fin p, (‖F‖ + C + |MW| * C) * ε := by
    refine (abs_sum_le_sum_abs _ _).trans (sum_le_sum fun k _ => ?_)
    have a1 : |(W' i k - W i k) * F k j| ≤ ε * ‖F‖ := by
      rw [abs_mul]
      exact mul_le_mul (hW i k) (entry_le_norm F k j) (abs_nonneg _) hε
    have a2 : |(W' i k - W i k) * (c k j - F k j)| ≤ 1 * (C * ε) := by
      rw [abs_mul]
      exact mul_le_mul ((hW i k).trans hε1) (hc k j) (abs_nonneg _) zero_le_one
    have a3 : |W i k * (c k j - F k j)| ≤ |MW| * (C * ε) := by
      rw [abs_mul]
      exact mul_le_mul ((hMW i k).trans (le_abs_self _)) (hc k j) (abs_nonneg _) (abs_nonneg _)
    have := abs_add_three ((W' i k - W i k) * F k j) ((W' i k - W i k) * (c k j - F k j)) (W i k * (c k j - F k j))
    nlinarith
  rw [sum_const, card_univ, Fintype.card_fin, nsmul_eq_mul] at h1
  have := hV i j
  linarith

section
variable {m : BasisModel ℝ} {μ : Averages m.nForce (Spec.nCorr m) m.dimObs} {F : Mat ℝ m.nForce m.dimObs} {T MW : ℝ}

set_option maxHeartbeats 1000000 in
/-- The first two steps: the coefficients and the correlations are known up to a multiple of `ε`. -/
theorem estimate_near (hG : μ.gram.det ≠ 0) (hF : μ.gram * F = μ.proj)
    (hW : ∀ t ∈ Set.Icc 0 T, ∀ i j, |μ.cross t i j| ≤ MW ∧ |μ.dcross t i j| ≤ MW) :
    ∃ C δ : ℝ, 0 < C ∧ 0 < δ ∧ ∀ (env : Env ℝ) (method : String) (vectorize : Bool) (rankTol : Option ℝ) (d : String)
      (s : EstState ℝ) (ε : ℝ), Setup env method vectorize m d s →
      NearAverages m s.model.Lobs μ s.xvas s.model.truncInd s.model.dt ε → 0 ≤ ε → ε ≤ δ → 0 ≤ s.model.dt →
      ((s.model.truncInd - 1 : ℕ) : ℝ) * s.model.dt ≤ T →
      ∃ s1 c Cc, computeMeanForce env s = (s1, none) ∧
        computeCorrs env method vectorize true rankTol s1 = ({ s1 with corrs := some Cc }, none) ∧
        CorrReady env method vectorize s1 d m.dimObs c ∧ HasForce s1.model c d ∧ s1.model.bm = m ∧
        s1.model.dt = s.model.dt ∧ s1.model.truncInd = s.model.truncInd ∧ s1.model.rankProjection = false ∧
        (∀ (k : Fin m.nForce) (l : Fin m.dimObs), |c.get [k, l] - F k l| ≤ C * ε) ∧
        (Cc.bkbk.shape[0]?).getD 0 = Spec.nCorr m ∧ (Cc.bkdx.shape[1]?).getD 0 = m.dimObs ∧
        (Cc.toCorrs (Spec.nCorr m) m.dimObs).N = s.model.truncInd ∧
        NearFirst (Cc.toCorrs (Spec.nCorr m) m.dimObs) s.model.dt (C * ε) μ.corr (μ.residual F) ∧
        (m.cls ≠ .hybrid → NearSecond (Cc.toCorrs (Spec.nCorr m) m.dimObs) s.model.dt (C * ε) (μ.corr 0) μ.dcorr (μ.dresidual F)) := by
  obtain ⟨C, δ, hC, hδ, H⟩ := solve_near hG hF
  obtain ⟨C', hC'⟩ : ∃ C' : ℝ, C' = C + (1 + m.nForce * (‖F‖ + C + |MW| * C)) := ⟨_, rfl⟩
  have p0 : 0 ≤ (m.nForce : ℝ) * (‖F‖ + C + |MW| * C) := by positivity
  refine ⟨C', min δ 1, by rw [hC']; linarith, lt_min hδ one_pos, ?_⟩
  intro env method vectorize rankTol d s ε hs hn hε hεδ hdt hT
  have hε1 : ε ≤ 1 := hεδ.trans (min_le_right _ _)
  obtain ⟨rfl, hs⟩ : s.model.bm = m ∧ Setup env method vectorize m d s := ⟨hs.bm, hs⟩
  obtain ⟨hdet, hsol⟩ := H (Matrix.of fun i j => Spec.pooledMean (s.xvas.map fun xva => (xva.n, fun t =>
      Spec.forceFeature s.model.bm xva t i * Spec.forceFeature s.model.bm xva t j)))
    (Matrix.of fun i j => Spec.pooledMean (s.xvas.map fun xva => (xva.n, fun t =>
      Spec.forceFeature s.model.bm xva t i * xva.data s.model.Lobs t j))) ε hε (hεδ.trans (min_le_left _ _)) hn.gram hn.proj
  have hpos : ∀ xva ∈ s.xvas, 1 ≤ xva.n := fun xva hx => hs.tpos.trans (hs.tle xva hx)
  obtain ⟨s1, h1⟩ := C38_defined hs.loop hs.wf hs.obs hs.ne hpos hdet
  obtain ⟨c, hc, c1, c2, -, key⟩ := computeMeanForce_ok hs.loop hs.wf hs.obs hs.ne hpos h1
  obtain ⟨e1, e2, e3, e4, e5, e6, e7⟩ := computeMeanForce_frame h1
  have r : CorrReady env method vectorize s1 d s.model.bm.dimObs c :=
    ⟨hs.loop, hs.fn, by rw [e2]; exact hs.wf, by rw [e1, e3]; exact hs.obs, hs.dim, by rw [e1, e2]; exact hs.dimx, hc, c1,
    by rw [e2]; exact c2, by rw [e2]; exact hs.npos, hs.xpos, by rw [e5]; exact hs.tpos, by rw [e1, e5]; exact hs.tle,
    by rw [e1]; exact hs.ne⟩
  have hp : s1.model.rankProjection = false := by rw [e6]; exact hs.noProj
  obtain ⟨Cc, hCc, b1, b2, hN, D1, D2, hD1, hD2, hent⟩ := computeCorrs_true (rankTol := rankTol) r hp (by rw [e2])
  have hforce : ∀ (k : Fin s.model.bm.nForce) (l : Fin s.model.bm.dimObs), |c.get [k.1, l.1] - F k l| ≤ C * ε := by
    refine hsol (Matrix.of fun k l => c.get [k.1, l.1]) ?_
    ext i j
    rw [Matrix.mul_apply]
    simp only [Matrix.of_apply, pooledMean_eq]
    rw [← key i i.2 j j.2, sum_div, Finset.sum_range]
    exact sum_congr rfl fun k _ => by ring
  have lag : ∀ n < s.model.truncInd, (n : ℝ) * s.model.dt ∈ Set.Icc 0 T := fun n hn => by
    refine ⟨by positivity, le_trans (mul_le_mul_of_nonneg_right ?_ hdt) hT⟩
    exact_mod_cast (by omega : n ≤ s.model.truncInd - 1)
  have split : ∀ (f : Xva ℝ → ℕ → ℝ) (n : ℕ) (j : Fin s.model.bm.dimObs), Spec.meanCorr s.xvas f
      (fun xva t => Spec.ortho s.model.bm s.model.Lobs (fun k j => c.get [k, j]) xva t j) n =
      Spec.meanCorr s.xvas f (fun xva t => xva.data s.model.Lobs t j) n - ∑ k : Fin s.model.bm.nForce,
        Spec.meanCorr s.xvas f (fun xva t => Spec.forceFeature s.model.bm xva t k) n * c.get [k.1, j.1] := by
    intro f n j
    unfold Spec.ortho
    rw [meanCorr_sub_right, ← Finset.sum_range fun k =>
      Spec.meanCorr s.xvas f (fun xva t => Spec.forceFeature s.model.bm xva t k) n * c.get [k, j.1]]
    congr 1
    rw [sum_congr rfl fun k _ => mul_comm _ _,
      ← meanCorr_mix_right s.xvas _ (fun k => c.get [k, j.1]) f (fun k xva t => Spec.forceFeature s.model.bm xva t k)]
    simp only [mul_comm]
  have hle1 : ε ≤ C' * ε := by rw [hC']; nlinarith
  have hle2 : (1 + s.model.bm.nForce * (‖F‖ + C + |MW| * C)) * ε ≤ C' * ε := by rw [hC']; nlinarith
  refine ⟨s1, c, Cc, h1, hCc, r, ⟨hc, c1, by rw [e2]; exact c2, r.obs.1, r.obs.2.1⟩, e2, e4, e5, hp, fun k l => ?_, b1, b2,
    by rw [hN, e5], ⟨fun n hn' i j => ?_, fun n hn' i j => ?_⟩, fun hcls => ⟨fun i j => ?_, ⟨D2, hD2, fun n hn' i j => ?_⟩,
    ⟨D1, hD1, fun n hn' i j => ?_⟩⟩⟩
  · refine (hforce k l).trans ?_
    rw [hC']
    nlinarith
  · rw [hN] at hn'
    rw [(hent n hn' i j ⟨0, hs.xpos⟩).1, e1, e2]
    rw [e5] at hn'
    exact (hn.corr n hn' i j).trans hle1
  · rw [hN] at hn'
    rw [(hent n hn' i i j).2.1, e1, e2, e3, split]
    rw [e5] at hn'
    refine le_trans ?_ hle2
    exact residual_near (V' := Matrix.of fun i j => Spec.meanCorr s.xvas (fun xva t => Spec.corrFeature s.model.bm xva t i)
        (fun xva t => xva.data s.model.Lobs t j) n)
      (W' := Matrix.of fun i j => Spec.meanCorr s.xvas (fun xva t => Spec.corrFeature s.model.bm xva t i)
        (fun xva t => Spec.forceFeature s.model.bm xva t j) n) (c := Matrix.of fun k l => c.get [k.1, l.1])
      hε hε1 (hn.obs n hn') (hn.cross n hn') (fun i j => (hW _ (lag n hn') i j).1) hforce i j
  · rw [(hent 0 r.tpos i j ⟨0, hs.xpos⟩).1, e1, e2]
    have := hn.corr 0 hs.tpos i j
    rw [Nat.cast_zero, zero_mul] at this
    exact this.trans hle1
  · have hdot : ∀ xva t k, codeDot s.model.bm xva t k = Spec.corrFeatureDot s.model.bm xva t k := fun xva t k => by
      unfold codeDot
      split
      · exact absurd ‹_› hcls
      · rfl
    rw [hN] at hn'
    rw [(hent n hn' i j ⟨0, hs.xpos⟩).2.2.2, e1, e2]
    rw [e5] at hn'
    simp only [hdot]
    exact (hn.dcorr n hn' i j).trans hle1
  · have hdot : ∀ xva t k, codeDot s.model.bm xva t k = Spec.corrFeatureDot s.model.bm xva t k := fun xva t k => by
      unfold codeDot
      split
      · exact absurd ‹_› hcls
      · rfl
    rw [hN] at hn'
    rw [(hent n hn' i i j).2.2.1, e1, e2, e3, split]
    rw [e5] at hn'
    refine le_trans ?_ hle2
    simp only [hdot]
    exact residual_near (V' := Matrix.of fun i j => Spec.meanCorr s.xvas (fun xva t => Spec.corrFeatureDot s.model.bm xva t i)
        (fun xva t => xva.data s.model.Lobs t j) n)
      (W' := Matrix.of fun i j => Spec.meanCorr s.xvas (fun xva t => Spec.corrFeatureDot s.model.bm xva t i)
        (fun xva t => Spec.forceFeature s.model.bm xva t j) n) (c := Matrix.of fun k l => c.get [k.1, l.1])
      hε hε1 (hn.dobs n hn') (hn.dcross n hn') (fun i j => (hW _ (lag n hn') i j).2) hforce i j

/-- The third step, and the evaluation. -/
theorem estimate_done {env : Env ℝ} {method : String} {vectorize : Bool} {rankTol : Option ℝ} {d : String} {s1 : EstState ℝ}
    {c : LArr ℝ} {Cc : CorrsL ℝ} (hm : m.WF) (hx1 : 1 ≤ m.dimx)
    (hCc : computeCorrs env method vectorize true rankTol s1 = ({ s1 with corrs := some Cc }, none))
    (r : CorrReady env method vectorize s1 d m.dimObs c) (hf : HasForce s1.model c d) (hbm : s1.model.bm = m)
    (hp : s1.model.rankProjection = false) {eF eK : ℝ}
    (hc : ∀ (k : Fin m.nForce) (l : Fin m.dimObs), |c.get [k, l] - F k l| ≤ eF)
    (b1 : (Cc.bkbk.shape[0]?).getD 0 = Spec.nCorr m) (b2 : (Cc.bkdx.shape[1]?).getD 0 = m.dimObs) {km : String}
    {ker : KernelData ℝ (Spec.nCorr m) m.dimObs}
    (hker : computeKernel (some (Cc.toCorrs (Spec.nCorr m) m.dimObs)) s1.model.truncInd s1.model.dt km none = .ok ker)
    {N : ℕ} {dt : ℝ} {k : ℝ → Mat ℝ (Spec.nCorr m) m.dimObs} (hN : N ≤ ker.kernel.len) (ht : ker.time.len = ker.kernel.len)
    (hk : ∀ n < N, ker.time.get n = n * dt ∧ ∀ i j, |ker.kernel.get n i j - k (n * dt) i j| ≤ eK) :
    ∃ s3, computeKernelStep km (fun _ _ => none) { s1 with corrs := some Cc } = (s3, none) ∧
      Estimates m F k N dt eF eK s3.model := by
  subst hbm
  have step := computeKernelStep_ok (s := { s1 with corrs := some Cc }) rfl b1 b2 (by have := r.tpos; dsimp only; omega)
    (km := km) (k0 := fun _ _ => none) hker
  refine ⟨_, step, ⟨fun n pts => ?_, ⟨ker, rfl, hN, ht, hk⟩, fun c1 c2 n pts => ?_⟩⟩
  · obtain ⟨R, h1, h2, h3, h4⟩ := forceEval_ok (s := { s1.model with method := some km, kernel := some ⟨_, _, ker⟩ })
      ⟨hf.force, hf.dims, hf.shape, hf.axis⟩ hm n pts
    refine ⟨R, h1, h2, h3, fun i l hl => ?_⟩
    rw [h4]
    dsimp only
    rw [← sum_sub_distrib, mul_sum]
    refine (abs_sum_le_sum_abs _ _).trans (sum_le_sum fun q hq => ?_)
    have hq : q < s1.model.bm.nForce := by
      have := mem_range.1 hq
      rw [nForce_wf hm]
      split_ifs <;> omega
    rw [← mul_sub, abs_mul, mul_comm]
    refine mul_le_mul_of_nonneg_right ?_ (abs_nonneg _)
    rw [Spec.entry, dif_pos ⟨hq, hl⟩]
    exact hc ⟨q, hq⟩ ⟨l, hl⟩
  · obtain ⟨ker', R, hk', hR, hval⟩ := (C108_after_estimation_partial r hp hx1 hCc step n pts).1 ⟨c1, c2⟩
    refine ⟨R, hR, fun t hNt l hl i j => ?_⟩
    rw [hval t l hl i j]
    obtain rfl : ker = ker' := by
      have := Option.some.inj hk'
      simpa using this
    rw [← sum_sub_distrib, mul_sum]
    refine (abs_sum_le_sum_abs _ _).trans (sum_le_sum fun q _ => ?_)
    rw [← sub_mul, abs_mul]
    refine mul_le_mul_of_nonneg_right ?_ (abs_nonneg _)
    unfold Spec.entry
    have h0 : 0 ≤ eK := (abs_nonneg _).trans ((hk t hNt).2 ⟨0, r.npos⟩ ⟨0, r.xpos⟩)
    by_cases hq : q + Spec.constRows s1.model.bm < Spec.nCorr s1.model.bm
    · rw [dif_pos hq, dif_pos ⟨hq, hl⟩]
      exact (hk t hNt).2 _ _
    · rw [dif_neg hq, dif_neg (by tauto), sub_zero, abs_zero]
      exact h0

theorem merge_eF {C C1 ε : ℝ} (hC : 0 ≤ C) (hε : 0 ≤ ε) : C * ε ≤ (C + |C1| * (1 + C)) * ε :=
  mul_le_mul_of_nonneg_right (le_add_of_nonneg_right (by positivity)) hε

theorem merge_bound {C C1 g e : ℝ} (hC : 0 ≤ C) (he : 0 ≤ e) (hg : 0 ≤ g) :
    C1 * (g + C * e) ≤ (C + |C1| * (1 + C)) * (g + e) := by
  have a1 : C1 * (g + C * e) ≤ |C1| * (g + C * e) := mul_le_mul_of_nonneg_right (le_abs_self _) (by positivity)
  have a2 : g + C * e ≤ (1 + C) * (g + e) := by nlinarith [mul_nonneg hC hg]
  have a3 := mul_le_mul_of_nonneg_left a2 (abs_nonneg C1)
  have a4 : 0 ≤ C * (g + e) := by positivity
  nlinarith

/-- **C142**, rectangle rule of the first kind: when the averages over the trajectories are those of a stationary process up to
`ε`, and the residual of the observable obeys the Volterra equation with the kernel `k`, the three steps of the estimation
succeed, the force that is evaluated is the projection of the observable up to `C ε`, and the kernel is `k` up to
`C (dt + ε / dt)`. -/
theorem C142_rect (hG : μ.gram.det ≠ 0) (hF : μ.gram * F = μ.proj)
    (hW : ∀ t ∈ Set.Icc 0 T, ∀ i j, |μ.cross t i j| ≤ MW ∧ |μ.dcross t i j| ≤ MW) (hm : m.WF) (hx1 : 1 ≤ m.dimx)
    (hB0 : (μ.corr 0).det ≠ 0) {B' : ℝ → Mat ℝ (Spec.nCorr m) (Spec.nCorr m)} {k : ℝ → Mat ℝ (Spec.nCorr m) m.dimObs}
    (hB : Spec.DerivOn T μ.corr B') (hB' : Spec.Lip T B') (hk : Spec.Lip T k)
    (heq : Spec.FirstKind T μ.corr (μ.residual F) k) :
    ∃ C δ : ℝ, 0 < δ ∧ ∀ (env : Env ℝ) (method km : String) (vectorize : Bool) (rankTol : Option ℝ) (d : String)
      (s : EstState ℝ) (ε : ℝ), km ∈ ["rect", "rectangular"] → Setup env method vectorize m d s →
      NearAverages m s.model.Lobs μ s.xvas s.model.truncInd s.model.dt ε → 0 < s.model.dt → s.model.dt ≤ δ → 0 ≤ ε →
      ε ≤ δ * s.model.dt → 2 ≤ s.model.truncInd → ((s.model.truncInd - 1 : ℕ) : ℝ) * s.model.dt ≤ T →
      ∃ s1 s2 s3, computeMeanForce env s = (s1, none) ∧ computeCorrs env method vectorize true rankTol s1 = (s2, none) ∧
        computeKernelStep km (fun _ _ => none) s2 = (s3, none) ∧
        Estimates m F k (s.model.truncInd - 1) s.model.dt (C * ε) (C * (s.model.dt + ε / s.model.dt)) s3.model := by
  obtain ⟨C, δ, hC, hδ, H⟩ := estimate_near hG hF hW
  obtain ⟨C1, δ1, hδ1, H1⟩ := C126_rect_converges hB0 hB hB' hk heq
  refine ⟨C + |C1| * (1 + C), min 1 (min δ (min δ1 (δ1 / C))), by positivity, ?_⟩
  intro env method km vectorize rankTol d s ε hkm hs hn hdt hdtδ hε hεδ h2 hT
  have l1 : s.model.dt ≤ 1 := hdtδ.trans (min_le_left _ _)
  have l2 : s.model.dt ≤ δ1 := hdtδ.trans ((min_le_right _ _).trans ((min_le_right _ _).trans (min_le_left _ _)))
  have l3 : ε ≤ δ := by
    refine hεδ.trans ((mul_le_mul_of_nonneg_left l1 (by positivity)).trans ?_)
    rw [mul_one]
    exact (min_le_right _ _).trans (min_le_left _ _)
  have l4 : C * ε ≤ δ1 * s.model.dt := by
    have : ε ≤ δ1 / C * s.model.dt := hεδ.trans (mul_le_mul_of_nonneg_right
      ((min_le_right _ _).trans ((min_le_right _ _).trans (min_le_right _ _))) hdt.le)
    calc C * ε ≤ C * (δ1 / C * s.model.dt) := mul_le_mul_of_nonneg_left this hC.le
      _ = δ1 * s.model.dt := by field_simp
  obtain ⟨s1, c, Cc, h1, hCc, r, hf, hbm, hdt1, htr, hp, hc, b1, b2, hN, near, -⟩ :=
    H env method vectorize rankTol d s ε hs hn hε l3 hdt.le hT
  obtain ⟨ker, hker, k1, k2, -, k4⟩ := H1 _ s.model.dt (C * ε) km none hkm hdt l2 (by positivity) l4 (by rw [hN]; exact h2)
    (by rw [hN]; exact hT) near
  rw [hN] at hker k1 k2 k4
  have e1 : 0 ≤ ε / s.model.dt := by positivity
  have bound : C1 * (s.model.dt + C * ε / s.model.dt) ≤ (C + |C1| * (1 + C)) * (s.model.dt + ε / s.model.dt) := by
    rw [mul_div_assoc]
    exact merge_bound hC.le e1 hdt.le
  obtain ⟨s3, h3, hest⟩ := estimate_done hm hx1 hCc r hf hbm hp (fun k l => (hc k l).trans (merge_eF hC.le hε)) b1 b2
    (by rw [htr, hdt1]; exact hker) (by omega) (by omega) fun n hn => ⟨(k4 n hn).1, fun i j => ((k4 n hn).2 i j).trans bound⟩
  exact ⟨s1, _, s3, h1, hCc, h3, hest⟩

/-- **C142**, rectangle rule of the second kind: the error of the kernel is at most `C (dt + ε)`. -/
theorem C142_second_kind_rect (hG : μ.gram.det ≠ 0) (hF : μ.gram * F = μ.proj)
    (hW : ∀ t ∈ Set.Icc 0 T, ∀ i j, |μ.cross t i j| ≤ MW ∧ |μ.dcross t i j| ≤ MW) (hm : m.WF) (hx1 : 1 ≤ m.dimx)
    (hh : m.cls ≠ .hybrid) (hB0 : (μ.corr 0).det ≠ 0) {k : ℝ → Mat ℝ (Spec.nCorr m) m.dimObs}
    (hB : Spec.Lip T μ.dcorr) (hk : Spec.Lip T k) (heq : Spec.SecondKind T (μ.corr 0) μ.dcorr (μ.dresidual F) k) :
    ∃ C δ : ℝ, 0 < δ ∧ ∀ (env : Env ℝ) (method : String) (vectorize : Bool) (rankTol : Option ℝ) (d : String)
      (s : EstState ℝ) (ε : ℝ), Setup env method vectorize m d s →
      NearAverages m s.model.Lobs μ s.xvas s.model.truncInd s.model.dt ε → 0 < s.model.dt → s.model.dt ≤ δ → 0 ≤ ε →
      ε ≤ δ → ((s.model.truncInd - 1 : ℕ) : ℝ) * s.model.dt ≤ T →
      ∃ s1 s2 s3, computeMeanForce env s = (s1, none) ∧ computeCorrs env method vectorize true rankTol s1 = (s2, none) ∧
        computeKernelStep "second_kind_rect" (fun _ _ => none) s2 = (s3, none) ∧
        Estimates m F k s.model.truncInd s.model.dt (C * ε) (C * (s.model.dt + ε)) s3.model := by
  obtain ⟨C, δ, hC, hδ, H⟩ := estimate_near hG hF hW
  obtain ⟨C1, δ1, hδ1, H1⟩ := C124_second_kind_rect_converges hB0 hB hk heq
  refine ⟨C + |C1| * (1 + C), min δ (min δ1 (δ1 / C)), by positivity, ?_⟩
  intro env method vectorize rankTol d s ε hs hn hdt hdtδ hε hεδ hT
  have l4 : C * ε ≤ δ1 := by
    have : ε ≤ δ1 / C := hεδ.trans ((min_le_right _ _).trans (min_le_right _ _))
    rwa [le_div_iff₀' hC] at this
  obtain ⟨s1, c, Cc, h1, hCc, r, hf, hbm, hdt1, htr, hp, hc, b1, b2, hN, -, near⟩ :=
    H env method vectorize rankTol d s ε hs hn hε (hεδ.trans (min_le_left _ _)) hdt.le hT
  obtain ⟨ker, hker, k1, k2, k4⟩ := H1 _ s.model.dt (C * ε) hdt (hdtδ.trans ((min_le_right _ _).trans (min_le_left _ _)))
    (by positivity) l4 (by rw [hN]; exact hs.tpos) (by rw [hN]; exact hT) (near hh)
  rw [hN] at hker k1 k2 k4
  have bound := merge_bound (C1 := C1) hC.le hε hdt.le
  obtain ⟨s3, h3, hest⟩ := estimate_done hm hx1 hCc r hf hbm hp (fun k l => (hc k l).trans (merge_eF hC.le hε)) b1 b2
    (by rw [htr, hdt1]; exact hker) (by omega) (by omega) fun n hn => ⟨(k4 n hn).1, fun i j => ((k4 n hn).2 i j).trans bound⟩
  exact ⟨s1, _, s3, h1, hCc, h3, hest⟩

/-- **C142**, trapezoidal rule of the second kind: the error of the kernel is at most `C (dt² + ε)`. -/
theorem C142_second_kind_trapz (hG : μ.gram.det ≠ 0) (hF : μ.gram * F = μ.proj)
    (hW : ∀ t ∈ Set.Icc 0 T, ∀ i j, |μ.cross t i j| ≤ MW ∧ |μ.dcross t i j| ≤ MW) (hm : m.WF) (hx1 : 1 ≤ m.dimx)
    (hh : m.cls ≠ .hybrid) (hB0 : (μ.corr 0).det ≠ 0) {B' : ℝ → Mat ℝ (Spec.nCorr m) (Spec.nCorr m)}
    {k k' : ℝ → Mat ℝ (Spec.nCorr m) m.dimObs} (hB : Spec.DerivOn T μ.dcorr B') (hB' : Spec.Lip T B')
    (hk : Spec.DerivOn T k k') (hk' : Spec.Lip T k') (heq : Spec.SecondKind T (μ.corr 0) μ.dcorr (μ.dresidual F) k) :
    ∃ C δ : ℝ, 0 < δ ∧ ∀ (env : Env ℝ) (method : String) (vectorize : Bool) (rankTol : Option ℝ) (d : String)
      (s : EstState ℝ) (ε : ℝ), Setup env method vectorize m d s →
      NearAverages m s.model.Lobs μ s.xvas s.model.truncInd s.model.dt ε → 0 < s.model.dt → s.model.dt ≤ δ → 0 ≤ ε →
      ε ≤ δ → ((s.model.truncInd - 1 : ℕ) : ℝ) * s.model.dt ≤ T →
      ∃ s1 s2 s3, computeMeanForce env s = (s1, none) ∧ computeCorrs env method vectorize true rankTol s1 = (s2, none) ∧
        computeKernelStep "second_kind_trapz" (fun _ _ => none) s2 = (s3, none) ∧
        Estimates m F k s.model.truncInd s.model.dt (C * ε) (C * (s.model.dt ^ 2 + ε)) s3.model := by
  obtain ⟨C, δ, hC, hδ, H⟩ := estimate_near hG hF hW
  obtain ⟨C1, δ1, hδ1, H1⟩ := C125_second_kind_trapz_converges hB0 hB hB' hk hk' heq
  refine ⟨C + |C1| * (1 + C), min δ (min δ1 (δ1 / C)), by positivity, ?_⟩
  intro env method vectorize rankTol d s ε hs hn hdt hdtδ hε hεδ hT
  have l4 : C * ε ≤ δ1 := by
    have : ε ≤ δ1 / C := hεδ.trans ((min_le_right _ _).trans (min_le_right _ _))
    rwa [le_div_iff₀' hC] at this
  obtain ⟨s1, c, Cc, h1, hCc, r, hf, hbm, hdt1, htr, hp, hc, b1, b2, hN, -, near⟩ :=
    H env method vectorize rankTol d s ε hs hn hε (hεδ.trans (min_le_left _ _)) hdt.le hT
  obtain ⟨ker, hker, k1, k2, k4⟩ := H1 _ s.model.dt (C * ε) hdt (hdtδ.trans ((min_le_right _ _).trans (min_le_left _ _)))
    (by positivity) l4 (by rw [hN]; exact hs.tpos) (by rw [hN]; exact hT) (near hh)
  rw [hN] at hker k1 k2 k4
  have bound := merge_bound (C1 := C1) hC.le hε (sq_nonneg s.model.dt)
  obtain ⟨s3, h3, hest⟩ := estimate_done hm hx1 hCc r hf hbm hp (fun k l => (hc k l).trans (merge_eF hC.le hε)) b1 b2
    (by rw [htr, hdt1]; exact hker) (by omega) (by omega) fun n hn => ⟨(k4 n hn).1, fun i j => ((k4 n hn).2 i j).trans bound⟩
  exact ⟨s1, _, s3, h1, hCc, h3, hest⟩

/-- **C142**, trapezoidal rule of the first kind: the error of the kernel is at most `C (dt² + ε / dt²)`. -/
theorem C142_trapz (hG : μ.gram.det ≠ 0) (hF : μ.gram * F = μ.proj)
    (hW : ∀ t ∈ Set.Icc 0 T, ∀ i j, |μ.cross t i j| ≤ MW ∧ |μ.dcross t i j| ≤ MW) (hm : m.WF) (hx1 : 1 ≤ m.dimx)
    (hh : m.cls ≠ .hybrid) (hB0 : (μ.corr 0).det ≠ 0) {B1 B2 B3 : ℝ → Mat ℝ (Spec.nCorr m) (Spec.nCorr m)}
    {k k1 k2 : ℝ → Mat ℝ (Spec.nCorr m) m.dimObs}
    (hB1 : Spec.DerivOn T μ.corr B1) (hB2 : Spec.DerivOn T B1 B2) (hB3 : Spec.DerivOn T B2 B3) (hLB : Spec.Lip T B3)
    (hk1 : Spec.DerivOn T k k1) (hk2 : Spec.DerivOn T k1 k2) (hLk : Spec.Lip T k2)
    (heq : Spec.FirstKind T μ.corr (μ.residual F) k) (h0 : μ.dresidual F 0 = μ.corr 0 * k 0) :
    ∃ C δ : ℝ, 0 < δ ∧ ∀ (env : Env ℝ) (method : String) (vectorize : Bool) (rankTol : Option ℝ) (d : String)
      (s : EstState ℝ) (ε : ℝ), Setup env method vectorize m d s →
      NearAverages m s.model.Lobs μ s.xvas s.model.truncInd s.model.dt ε → 0 < s.model.dt → s.model.dt ≤ δ → 0 ≤ ε →
      ε ≤ δ * s.model.dt ^ 2 → 2 ≤ s.model.truncInd → ((s.model.truncInd - 1 : ℕ) : ℝ) * s.model.dt ≤ T →
      ∃ s1 s2 s3, computeMeanForce env s = (s1, none) ∧ computeCorrs env method vectorize true rankTol s1 = (s2, none) ∧
        computeKernelStep "trapz" (fun _ _ => none) s2 = (s3, none) ∧
        Estimates m F k (s.model.truncInd - 1) s.model.dt (C * ε) (C * (s.model.dt ^ 2 + ε / s.model.dt ^ 2)) s3.model := by
  obtain ⟨C, δ, hC, hδ, H⟩ := estimate_near hG hF hW
  obtain ⟨C1, δ1, hδ1, H1⟩ := C127_trapz_converges hB0 hB1 hB2 hB3 hLB hk1 hk2 hLk heq
  refine ⟨C + |C1| * (1 + 2 * C), min 1 (min δ (min δ1 (1 / C))), by positivity, ?_⟩
  intro env method vectorize rankTol d s ε hs hn hdt hdtδ hε hεδ h2 hT
  have l1 : s.model.dt ≤ 1 := hdtδ.trans (min_le_left _ _)
  have l1' : s.model.dt ^ 2 ≤ 1 := pow_le_one₀ hdt.le l1
  have l2 : s.model.dt ≤ δ1 := hdtδ.trans ((min_le_right _ _).trans ((min_le_right _ _).trans (min_le_left _ _)))
  have l3 : ε ≤ δ := by
    refine hεδ.trans ((mul_le_mul_of_nonneg_left l1' (by positivity)).trans ?_)
    rw [mul_one]
    exact (min_le_right _ _).trans (min_le_left _ _)
  have l4 : C * ε ≤ s.model.dt ^ 2 := by
    have : ε ≤ 1 / C * s.model.dt ^ 2 := hεδ.trans (mul_le_mul_of_nonneg_right
      ((min_le_right _ _).trans ((min_le_right _ _).trans (min_le_right _ _))) (sq_nonneg _))
    calc C * ε ≤ C * (1 / C * s.model.dt ^ 2) := mul_le_mul_of_nonneg_left this hC.le
      _ = s.model.dt ^ 2 := by field_simp
  obtain ⟨s1, c, Cc, h1, hCc, r, hf, hbm, hdt1, htr, hp, hc, b1, b2, hN, near, near2⟩ :=
    H env method vectorize rankTol d s ε hs hn hε l3 hdt.le hT
  obtain ⟨-, -, ⟨D1, hD1, nD1⟩⟩ := near2 hh
  obtain ⟨ker, hker, k1, k2, k4⟩ := H1 _ s.model.dt (C * ε) (C * ε) none hdt l2 (by positivity) l4 (by positivity)
    (by rw [hN]; exact h2) (by rw [hN]; exact hT) near (.inr ⟨rfl, D1, hD1, fun i j => by
      have := nD1 0 (by rw [hN]; exact hs.tpos) i j
      rwa [Nat.cast_zero, zero_mul, h0] at this⟩)
  rw [hN] at hker k1 k2 k4
  have e1 : 0 ≤ ε / s.model.dt ^ 2 := by positivity
  have e2 : ε ≤ ε / s.model.dt ^ 2 := by
    rw [le_div_iff₀ (by positivity)]
    exact mul_le_of_le_one_right hε l1'
  have bound : C1 * (s.model.dt ^ 2 + C * ε + C * ε / s.model.dt ^ 2) ≤
      (C + |C1| * (1 + 2 * C)) * (s.model.dt ^ 2 + ε / s.model.dt ^ 2) := by
    have a1 : C1 * (s.model.dt ^ 2 + C * ε + C * ε / s.model.dt ^ 2) ≤ |C1| * (s.model.dt ^ 2 + 2 * C * (ε / s.model.dt ^ 2)) := by
      refine mul_le_mul (le_abs_self _) ?_ (by positivity) (abs_nonneg _)
      rw [mul_div_assoc]
      have := mul_le_mul_of_nonneg_left e2 hC.le
      linarith
    have a2 : s.model.dt ^ 2 + 2 * C * (ε / s.model.dt ^ 2) ≤ (1 + 2 * C) * (s.model.dt ^ 2 + ε / s.model.dt ^ 2) := by
      have : 0 ≤ C * s.model.dt ^ 2 := by positivity
      nlinarith
    have a3 := mul_le_mul_of_nonneg_left a2 (abs_nonneg C1)
    have a4 : 0 ≤ C * (s.model.dt ^ 2 + ε / s.model.dt ^ 2) := by positivity
    nlinarith
  have eF : C * ε ≤ (C + |C1| * (1 + 2 * C)) * ε :=
    mul_le_mul_of_nonneg_right (le_add_of_nonneg_right (by positivity)) hε
  obtain ⟨s3, h3, hest⟩ := estimate_done hm hx1 hCc r hf hbm hp (fun k l => (hc k l).trans eF) b1 b2
    (by rw [htr, hdt1]; exact hker) (by omega) (by omega) fun n hn => ⟨(k4 n hn).1, fun i j => ((k4 n hn).2 i j).trans bound⟩
  exact ⟨s1, _, s3, h1, hCc, h3, hest⟩

end

/-! A process for which all is known: `x(t) = cos(t + θ) + cos(7 t + θ')` with independent uniform phases. The force is
`-25 x` and the kernel `576/25 cos(7 t / 5)`. Four trajectories have the averages of the process, exactly. -/

namespace TwoOscillators

open Real

def cm (b x : ℕ) (c : ℝ) : Mat ℝ b x := Matrix.of fun _ _ => c

noncomputable def U (p q t : ℝ) : ℝ := p * cos t + q * cos (7 * t)
noncomputable def W (p q t : ℝ) : ℝ := p * sin t + q * sin (7 * t)

theorem U_deriv (p q t : ℝ) : HasDerivAt (U p q) (W (-p) (-7 * q) t) t := by
  have h1 := (hasDerivAt_cos t).const_mul p
  have h2 := (((hasDerivAt_id t).const_mul 7).cos).const_mul q
  exact (h1.add h2).congr_deriv (by simp only [W, id]; ring)

theorem W_deriv (p q t : ℝ) : HasDerivAt (W p q) (U p (7 * q) t) t := by
  have h1 := (hasDerivAt_sin t).const_mul p
  have h2 := (((hasDerivAt_id t).const_mul 7).sin).const_mul q
  exact (h1.add h2).congr_deriv (by simp only [U, id]; ring)

theorem U_le (p q t : ℝ) : |U p q t| ≤ |p| + |q| := by
  refine (abs_add_le _ _).trans (add_le_add ?_ ?_) <;> rw [abs_mul] <;>
    exact mul_le_of_le_one_right (abs_nonneg _) (abs_cos_le_one _)

theorem W_le (p q t : ℝ) : |W p q t| ≤ |p| + |q| := by
  refine (abs_add_le _ _).trans (add_le_add ?_ ?_) <;> rw [abs_mul] <;>
    exact mul_le_of_le_one_right (abs_nonneg _) (abs_sin_le_one _)

theorem lip_of {b x : ℕ} {f f' : ℝ → ℝ} {L : ℝ} (h : ∀ t, HasDerivAt f (f' t) t) (hL : ∀ t, |f' t| ≤ L) :
    Spec.Lip 1 fun t => cm b x (f t) := by
  refine ⟨L, fun s _ t _ _ _ => ?_⟩
  have := Convex.norm_image_sub_le_of_norm_hasDerivWithin_le (f := f) (f' := f') (s := Set.univ) (C := L)
    (fun x _ => (h x).hasDerivWithinAt) (fun x _ => hL x) convex_univ (Set.mem_univ t) (Set.mem_univ s)
  rw [norm_eq_abs, norm_eq_abs] at this
  exact this

theorem deriv_of {b x : ℕ} {f f' : ℝ → ℝ} (h : ∀ t, HasDerivAt f (f' t) t) :
    Spec.DerivOn 1 (fun t => cm b x (f t)) (fun t => cm b x (f' t)) :=
  fun t _ _ _ => (h t).hasDerivWithinAt

theorem integral_cos_cos (ω Ω t : ℝ) (h : ω ^ 2 - Ω ^ 2 ≠ 0) :
    ∫ s in (0 : ℝ)..t, cos (ω * (t - s)) * cos (Ω * s) = (ω * sin (ω * t) - Ω * sin (Ω * t)) / (ω ^ 2 - Ω ^ 2) := by
  have key : ∀ s, HasDerivAt (fun s => (-ω * (sin (ω * (t - s)) * cos (Ω * s)) - Ω * (cos (ω * (t - s)) * sin (Ω * s))) /
      (ω ^ 2 - Ω ^ 2)) (cos (ω * (t - s)) * cos (Ω * s)) s := by
    intro s
    have e1 : HasDerivAt (fun s => ω * (t - s)) (ω * (-1)) s := ((hasDerivAt_id s).const_sub t).const_mul ω
    have e2 : HasDerivAt (fun s => Ω * s) (Ω * 1) s := (hasDerivAt_id s).const_mul Ω
    refine (((((e1.sin).mul e2.cos).const_mul (-ω)).sub (((e1.cos).mul e2.sin).const_mul Ω)).div_const (ω ^ 2 - Ω ^ 2)).congr_deriv ?_
    rw [div_eq_iff h]
    ring
  rw [intervalIntegral.integral_eq_sub_of_hasDerivAt (fun s _ => key s)
    (Continuous.intervalIntegrable (by fun_prop) _ _)]
  simp
  ring

theorem integral_sin_cos (ω Ω t : ℝ) (h : ω ^ 2 - Ω ^ 2 ≠ 0) :
    ∫ s in (0 : ℝ)..t, sin (ω * (t - s)) * cos (Ω * s) = ω * (cos (Ω * t) - cos (ω * t)) / (ω ^ 2 - Ω ^ 2) := by
  have key : ∀ s, HasDerivAt (fun s => (ω * (cos (ω * (t - s)) * cos (Ω * s)) - Ω * (sin (ω * (t - s)) * sin (Ω * s))) /
      (ω ^ 2 - Ω ^ 2)) (sin (ω * (t - s)) * cos (Ω * s)) s := by
    intro s
    have e1 : HasDerivAt (fun s => ω * (t - s)) (ω * (-1)) s := ((hasDerivAt_id s).const_sub t).const_mul ω
    have e2 : HasDerivAt (fun s => Ω * s) (Ω * 1) s := (hasDerivAt_id s).const_mul Ω
    refine (((((e1.cos).mul e2.cos).const_mul ω).sub (((e1.sin).mul e2.sin).const_mul Ω)).div_const (ω ^ 2 - Ω ^ 2)).congr_deriv ?_
    rw [div_eq_iff h]
    ring
  rw [intervalIntegral.integral_eq_sub_of_hasDerivAt (fun s _ => key s)
    (Continuous.intervalIntegrable (by fun_prop) _ _)]
  simp
  ring

/-- The basis is the function `x`. -/
noncomputable def basis : PointBasis ℝ := ⟨1, false, fun x _ => x 0, fun _ _ _ => 1, fun _ _ _ _ => 0, fun x _ => x 0 ^ 2 / 2⟩

noncomputable def model : BasisModel ℝ := ⟨.posGle, basis, 1, 1⟩

/-- The averages over the phases. -/
noncomputable def μ : Averages model.nForce (Spec.nCorr model) model.dimObs where
  gram := cm _ _ 1
  proj := cm _ _ (-25)
  corr := fun t => cm _ _ (U (1 / 2) (49 / 2) t)
  obs := fun t => cm _ _ (W (-1 / 2) (-343 / 2) t)
  cross := fun t => cm _ _ (W (1 / 2) (7 / 2) t)
  dcorr := fun t => cm _ _ (W (1 / 2) (343 / 2) t)
  dobs := fun t => cm _ _ (U (1 / 2) (2401 / 2) t)
  dcross := fun t => cm _ _ (U (-1 / 2) (-49 / 2) t)

noncomputable def F : Mat ℝ model.nForce model.dimObs := cm _ _ (-25)

noncomputable def kt (t : ℝ) : ℝ := 576 / 25 * cos (7 / 5 * t)
noncomputable def kt1 (t : ℝ) : ℝ := -(4032 / 125) * sin (7 / 5 * t)
noncomputable def kt2 (t : ℝ) : ℝ := -(28224 / 625) * cos (7 / 5 * t)
noncomputable def kt3 (t : ℝ) : ℝ := 197568 / 3125 * sin (7 / 5 * t)

noncomputable def k : ℝ → Mat ℝ (Spec.nCorr model) model.dimObs := fun t => cm _ _ (kt t)

theorem kt_deriv (t : ℝ) : HasDerivAt kt (kt1 t) t := by
  exact ((((hasDerivAt_id t).const_mul (7 / 5)).cos).const_mul (576 / 25)).congr_deriv (by simp only [kt1, id]; ring)

theorem kt1_deriv (t : ℝ) : HasDerivAt kt1 (kt2 t) t := by
  exact ((((hasDerivAt_id t).const_mul (7 / 5)).sin).const_mul (-(4032 / 125))).congr_deriv (by simp only [kt2, id]; ring)

theorem kt2_deriv (t : ℝ) : HasDerivAt kt2 (kt3 t) t := by
  exact ((((hasDerivAt_id t).const_mul (7 / 5)).cos).const_mul (-(28224 / 625))).congr_deriv (by simp only [kt3, id]; ring)

theorem kt1_le (t : ℝ) : |kt1 t| ≤ 33 := by
  unfold kt1
  rw [abs_mul]
  exact (mul_le_of_le_one_right (abs_nonneg _) (abs_sin_le_one _)).trans (by norm_num [abs_le])

theorem kt2_le (t : ℝ) : |kt2 t| ≤ 46 := by
  unfold kt2
  rw [abs_mul]
  exact (mul_le_of_le_one_right (abs_nonneg _) (abs_cos_le_one _)).trans (by norm_num [abs_le])

theorem kt3_le (t : ℝ) : |kt3 t| ≤ 64 := by
  unfold kt3
  rw [abs_mul]
  exact (mul_le_of_le_one_right (abs_nonneg _) (abs_sin_le_one _)).trans (by norm_num [abs_le])

theorem mul_cm {a b c : ℕ} (hb : b = 1) (f g : ℝ) (i : Fin a) (j : Fin c) : (cm a b f * cm b c g) i j = f * g := by
  subst hb
  simp [cm, Matrix.mul_apply]

theorem residual_eq (t : ℝ) (i : Fin (Spec.nCorr model)) (j : Fin model.dimObs) : μ.residual F t i j = W 12 (-84) t := by
  refine (congrArg (W (-1 / 2) (-343 / 2) t - ·) (mul_cm (rfl : model.nForce = 1) _ _ i j)).trans ?_
  simp only [W]
  ring

theorem dresidual_eq (t : ℝ) (i : Fin (Spec.nCorr model)) (j : Fin model.dimObs) : μ.dresidual F t i j = U (-12) 588 t := by
  refine (congrArg (U (1 / 2) (2401 / 2) t - ·) (mul_cm (rfl : model.nForce = 1) _ _ i j)).trans ?_
  simp only [U]
  ring

theorem firstKind : Spec.FirstKind 1 μ.corr (μ.residual F) k := by
  intro t _ i j
  rw [residual_eq]
  have h : ∀ s, (μ.corr (t - s) * k s) i j =
      288 / 25 * (cos (1 * (t - s)) * cos (7 / 5 * s)) + 14112 / 25 * (cos (7 * (t - s)) * cos (7 / 5 * s)) := by
    intro s
    refine (mul_cm (rfl : Spec.nCorr model = 1) _ _ i j).trans ?_
    simp only [U, kt, one_mul]
    ring
  simp only [h]
  rw [intervalIntegral.integral_add (Continuous.intervalIntegrable (by fun_prop) _ _)
    (Continuous.intervalIntegrable (by fun_prop) _ _), intervalIntegral.integral_const_mul, intervalIntegral.integral_const_mul,
    integral_cos_cos _ _ _ (by norm_num), integral_cos_cos _ _ _ (by norm_num)]
  simp only [W, one_mul]
  ring

theorem secondKind : Spec.SecondKind 1 (μ.corr 0) μ.dcorr (μ.dresidual F) k := by
  intro t _ i j
  rw [dresidual_eq]
  have h : ∀ s, (μ.dcorr (t - s) * k s) i j =
      288 / 25 * (sin (1 * (t - s)) * cos (7 / 5 * s)) + 98784 / 25 * (sin (7 * (t - s)) * cos (7 / 5 * s)) := by
    intro s
    refine (mul_cm (rfl : Spec.nCorr model = 1) _ _ i j).trans ?_
    simp only [W, kt, one_mul]
    ring
  simp only [h]
  rw [intervalIntegral.integral_add (Continuous.intervalIntegrable (by fun_prop) _ _)
    (Continuous.intervalIntegrable (by fun_prop) _ _), intervalIntegral.integral_const_mul, intervalIntegral.integral_const_mul,
    integral_sin_cos _ _ _ (by norm_num), integral_sin_cos _ _ _ (by norm_num)]
  refine (mul_cm (rfl : Spec.nCorr model = 1) _ _ i j).trans ?_
  simp only [U, kt, one_mul, mul_zero, cos_zero]
  ring

theorem initial : μ.dresidual F 0 = μ.corr 0 * k 0 := by
  ext i j
  rw [dresidual_eq]
  refine Eq.trans ?_ (mul_cm (rfl : Spec.nCorr model = 1) _ _ i j).symm
  simp only [U, kt, mul_zero, cos_zero]
  norm_num

/-- A trajectory of `n` frames: `cos(t) + σ cos(7 t)`, or `sin(t) + σ sin(7 t)`. -/
noncomputable def xva (dt : ℝ) (n : ℕ) (c : Bool) (σ : ℝ) : Xva ℝ :=
  ⟨n, 1, fun i => i * dt, fun name i _ =>
    if name = "x" then (if c then U 1 σ (i * dt) else W 1 σ (i * dt))
    else if name = "v" then (if c then W (-1) (-7 * σ) (i * dt) else U 1 (7 * σ) (i * dt))
    else (if c then U (-1) (-49 * σ) (i * dt) else W (-1) (-49 * σ) (i * dt)), id, fun _ => 1⟩

noncomputable def xvas (dt : ℝ) (n : ℕ) : List (Xva ℝ) := [xva dt n true 1, xva dt n true (-1), xva dt n false 1, xva dt n false (-1)]

noncomputable def env : Env ℝ := ⟨fun _ _ => (1, fun _ => 0), 0, loopSerial, fun _ _ _ _ N a b t => correlationDirectND N a b t⟩

/-- `n` frames, of which `n - extra` are the lags. -/
noncomputable def state (dt : ℝ) (N extra : ℕ) : EstState ℝ where
  model := ⟨model, "a", dt, N, none, none, none, false, none, none, none, none, none⟩
  xvas := xvas dt (N + extra)
  corrs := none
  saveall := false

theorem corr_of (dt : ℝ) (n : ℕ) {f g : Xva ℝ → ℕ → ℝ} {τ : ℕ} {c : ℝ} (hτ : τ < n)
    (h : ∀ t, f (xva dt n true 1) t * g (xva dt n true 1) (t + τ) + f (xva dt n true (-1)) t * g (xva dt n true (-1)) (t + τ) +
      f (xva dt n false 1) t * g (xva dt n false 1) (t + τ) + f (xva dt n false (-1)) t * g (xva dt n false (-1)) (t + τ) = 4 * c) :
    |Spec.meanCorr (xvas dt n) f g τ - c| ≤ 0 := by
  have hn : ((n - τ : ℕ) : ℝ) ≠ 0 := by
    have : 0 < n - τ := by omega
    positivity
  have hn' : (n : ℝ) ≠ 0 := by
    have : 0 < n := by omega
    positivity
  have hs := Finset.sum_congr (rfl : Finset.range (n - τ) = Finset.range (n - τ)) fun t _ => h t
  rw [sum_add_distrib, sum_add_distrib, sum_add_distrib, sum_const, card_range, nsmul_eq_mul] at hs
  have e : Spec.meanCorr (xvas dt n) f g τ = c := by
    simp only [Spec.meanCorr, Spec.weightedMean, Spec.corr, xvas, List.map_cons, List.map_nil, List.sum_cons, List.sum_nil]
    have hx : ∀ c σ, (xva dt n c σ).n = n := fun _ _ => rfl
    simp only [hx]
    push_cast
    rw [add_zero, add_zero, ← mul_add, ← mul_add, ← mul_add, ← add_div, ← add_div, ← add_div, ← add_assoc, ← add_assoc, hs]
    field_simp
    ring
  rw [e, sub_self, abs_zero]

theorem pooled_of (dt : ℝ) {n : ℕ} (hn : 0 < n) {f : Xva ℝ → ℕ → ℝ} {c : ℝ}
    (h : ∀ t, f (xva dt n true 1) t + f (xva dt n true (-1)) t + f (xva dt n false 1) t + f (xva dt n false (-1)) t = 4 * c) :
    |Spec.pooledMean ((xvas dt n).map fun xva => (xva.n, f xva)) - c| ≤ 0 := by
  have hn' : (n : ℝ) ≠ 0 := by positivity
  have hs := Finset.sum_congr (rfl : Finset.range n = Finset.range n) fun t _ => h t
  rw [sum_add_distrib, sum_add_distrib, sum_add_distrib, sum_const, card_range, nsmul_eq_mul] at hs
  have e : Spec.pooledMean ((xvas dt n).map fun xva => (xva.n, f xva)) = c := by
    simp only [Spec.pooledMean, Spec.pooledSum, xvas, List.map_cons, List.map_nil, List.sum_cons, List.sum_nil]
    have hx : ∀ c σ, (xva dt n c σ).n = n := fun _ _ => rfl
    simp only [hx]
    push_cast
    rw [add_zero, add_zero, ← add_assoc, ← add_assoc, hs]
    field_simp
    ring
  rw [e, sub_self, abs_zero]

theorem feature_x (dt : ℝ) (n : ℕ) (c : Bool) (σ : ℝ) (t i : ℕ) :
    Spec.forceFeature model (xva dt n c σ) t i = if c then U 1 σ (t * dt) else W 1 σ (t * dt) := by
  unfold Spec.forceFeature
  rw [if_neg (fun h => by cases h.1)]
  rfl

theorem feature_v (dt : ℝ) (n : ℕ) (c : Bool) (σ : ℝ) (t i : ℕ) :
    Spec.corrFeature model (xva dt n c σ) t i = if c then W (-1) (-7 * σ) (t * dt) else U 1 (7 * σ) (t * dt) := by
  simp [Spec.corrFeature, model, basis, xva]

theorem feature_a (dt : ℝ) (n : ℕ) (c : Bool) (σ : ℝ) (t i : ℕ) :
    Spec.corrFeatureDot model (xva dt n c σ) t i = if c then U (-1) (-49 * σ) (t * dt) else W (-1) (-49 * σ) (t * dt) := by
  simp [Spec.corrFeatureDot, model, basis, xva]

theorem data_a (dt : ℝ) (n : ℕ) (c : Bool) (σ : ℝ) (t i : ℕ) :
    (xva dt n c σ).data "a" t i = if c then U (-1) (-49 * σ) (t * dt) else W (-1) (-49 * σ) (t * dt) := rfl

theorem shift (t n : ℕ) (dt : ℝ) :
    cos ((t + n : ℕ) * dt) = cos (t * dt) * cos (n * dt) - sin (t * dt) * sin (n * dt) ∧
    sin ((t + n : ℕ) * dt) = sin (t * dt) * cos (n * dt) + cos (t * dt) * sin (n * dt) ∧
    cos (7 * ((t + n : ℕ) * dt)) = cos (7 * (t * dt)) * cos (7 * (n * dt)) - sin (7 * (t * dt)) * sin (7 * (n * dt)) ∧
    sin (7 * ((t + n : ℕ) * dt)) = sin (7 * (t * dt)) * cos (7 * (n * dt)) + cos (7 * (t * dt)) * sin (7 * (n * dt)) := by
  rw [← cos_add, ← sin_add, ← cos_add, ← sin_add]
  push_cast
  refine ⟨?_, ?_, ?_, ?_⟩ <;> congr 1 <;> ring

theorem avg_gram (dt : ℝ) (l t i j : ℕ) :
    Spec.forceFeature model (xva dt l true 1) t i * Spec.forceFeature model (xva dt l true 1) t j +
    Spec.forceFeature model (xva dt l true (-1)) t i * Spec.forceFeature model (xva dt l true (-1)) t j +
    Spec.forceFeature model (xva dt l false 1) t i * Spec.forceFeature model (xva dt l false 1) t j +
    Spec.forceFeature model (xva dt l false (-1)) t i * Spec.forceFeature model (xva dt l false (-1)) t j = 4 * (1 : ℝ) := by
  simp only [feature_x, U, W, if_true, Bool.false_eq_true, if_false]
  linear_combination 2 * sin_sq_add_cos_sq (t * dt) + 2 * sin_sq_add_cos_sq (7 * (t * dt))

theorem avg_proj (dt : ℝ) (l t i j : ℕ) :
    Spec.forceFeature model (xva dt l true 1) t i * ((xva dt l true 1)).data "a" t j +
    Spec.forceFeature model (xva dt l true (-1)) t i * ((xva dt l true (-1))).data "a" t j +
    Spec.forceFeature model (xva dt l false 1) t i * ((xva dt l false 1)).data "a" t j +
    Spec.forceFeature model (xva dt l false (-1)) t i * ((xva dt l false (-1))).data "a" t j = 4 * (-25 : ℝ) := by
  simp only [feature_x, data_a, U, W, if_true, Bool.false_eq_true, if_false]
  linear_combination -2 * sin_sq_add_cos_sq (t * dt) - 98 * sin_sq_add_cos_sq (7 * (t * dt))

theorem avg_corr (dt : ℝ) (l t n i j : ℕ) :
    Spec.corrFeature model (xva dt l true 1) t i * Spec.corrFeature model (xva dt l true 1) (t + n) j +
    Spec.corrFeature model (xva dt l true (-1)) t i * Spec.corrFeature model (xva dt l true (-1)) (t + n) j +
    Spec.corrFeature model (xva dt l false 1) t i * Spec.corrFeature model (xva dt l false 1) (t + n) j +
    Spec.corrFeature model (xva dt l false (-1)) t i * Spec.corrFeature model (xva dt l false (-1)) (t + n) j = 4 * U (1 / 2) (49 / 2) (n * dt) := by
  simp only [feature_v, if_true, Bool.false_eq_true, if_false]
  obtain ⟨e1, e2, e3, e4⟩ := shift t n dt
  simp only [U, W, e1, e2, e3, e4]
  linear_combination 2 * cos (n * dt) * sin_sq_add_cos_sq (t * dt) + 98 * cos (7 * (n * dt)) * sin_sq_add_cos_sq (7 * (t * dt))

theorem avg_obs (dt : ℝ) (l t n i j : ℕ) :
    Spec.corrFeature model (xva dt l true 1) t i * ((xva dt l true 1)).data "a" (t + n) j +
    Spec.corrFeature model (xva dt l true (-1)) t i * ((xva dt l true (-1))).data "a" (t + n) j +
    Spec.corrFeature model (xva dt l false 1) t i * ((xva dt l false 1)).data "a" (t + n) j +
    Spec.corrFeature model (xva dt l false (-1)) t i * ((xva dt l false (-1))).data "a" (t + n) j = 4 * W (-1 / 2) (-343 / 2) (n * dt) := by
  simp only [feature_v, data_a, if_true, Bool.false_eq_true, if_false]
  obtain ⟨e1, e2, e3, e4⟩ := shift t n dt
  simp only [U, W, e1, e2, e3, e4]
  linear_combination -2 * sin (n * dt) * sin_sq_add_cos_sq (t * dt) - 686 * sin (7 * (n * dt)) * sin_sq_add_cos_sq (7 * (t * dt))

theorem avg_cross (dt : ℝ) (l t n i j : ℕ) :
    Spec.corrFeature model (xva dt l true 1) t i * Spec.forceFeature model (xva dt l true 1) (t + n) j +
    Spec.corrFeature model (xva dt l true (-1)) t i * Spec.forceFeature model (xva dt l true (-1)) (t + n) j +
    Spec.corrFeature model (xva dt l false 1) t i * Spec.forceFeature model (xva dt l false 1) (t + n) j +
    Spec.corrFeature model (xva dt l false (-1)) t i * Spec.forceFeature model (xva dt l false (-1)) (t + n) j = 4 * W (1 / 2) (7 / 2) (n * dt) := by
  simp only [feature_v, feature_x, if_true, Bool.false_eq_true, if_false]
  obtain ⟨e1, e2, e3, e4⟩ := shift t n dt
  simp only [U, W, e1, e2, e3, e4]
  linear_combination 2 * sin (n * dt) * sin_sq_add_cos_sq (t * dt) + 14 * sin (7 * (n * dt)) * sin_sq_add_cos_sq (7 * (t * dt))

theorem avg_dcorr (dt : ℝ) (l t n i j : ℕ) :
    Spec.corrFeatureDot model (xva dt l true 1) t i * Spec.corrFeature model (xva dt l true 1) (t + n) j +
    Spec.corrFeatureDot model (xva dt l true (-1)) t i * Spec.corrFeature model (xva dt l true (-1)) (t + n) j +
    Spec.corrFeatureDot model (xva dt l false 1) t i * Spec.corrFeature model (xva dt l false 1) (t + n) j +
    Spec.corrFeatureDot model (xva dt l false (-1)) t i * Spec.corrFeature model (xva dt l false (-1)) (t + n) j = 4 * W (1 / 2) (343 / 2) (n * dt) := by
  simp only [feature_v, feature_a, if_true, Bool.false_eq_true, if_false]
  obtain ⟨e1, e2, e3, e4⟩ := shift t n dt
  simp only [U, W, e1, e2, e3, e4]
  linear_combination 2 * sin (n * dt) * sin_sq_add_cos_sq (t * dt) + 686 * sin (7 * (n * dt)) * sin_sq_add_cos_sq (7 * (t * dt))

theorem avg_dobs (dt : ℝ) (l t n i j : ℕ) :
    Spec.corrFeatureDot model (xva dt l true 1) t i * ((xva dt l true 1)).data "a" (t + n) j +
    Spec.corrFeatureDot model (xva dt l true (-1)) t i * ((xva dt l true (-1))).data "a" (t + n) j +
    Spec.corrFeatureDot model (xva dt l false 1) t i * ((xva dt l false 1)).data "a" (t + n) j +
    Spec.corrFeatureDot model (xva dt l false (-1)) t i * ((xva dt l false (-1))).data "a" (t + n) j = 4 * U (1 / 2) (2401 / 2) (n * dt) := by
  simp only [feature_a, data_a, if_true, Bool.false_eq_true, if_false]
  obtain ⟨e1, e2, e3, e4⟩ := shift t n dt
  simp only [U, W, e1, e2, e3, e4]
  linear_combination 2 * cos (n * dt) * sin_sq_add_cos_sq (t * dt) + 4802 * cos (7 * (n * dt)) * sin_sq_add_cos_sq (7 * (t * dt))

theorem avg_dcross (dt : ℝ) (l t n i j : ℕ) :
    Spec.corrFeatureDot model (xva dt l true 1) t i * Spec.forceFeature model (xva dt l true 1) (t + n) j +
    Spec.corrFeatureDot model (xva dt l true (-1)) t i * Spec.forceFeature model (xva dt l true (-1)) (t + n) j +
    Spec.corrFeatureDot model (xva dt l false 1) t i * Spec.forceFeature model (xva dt l false 1) (t + n) j +
    Spec.corrFeatureDot model (xva dt l false (-1)) t i * Spec.forceFeature model (xva dt l false (-1)) (t + n) j = 4 * U (-1 / 2) (-49 / 2) (n * dt) := by
  simp only [feature_a, feature_x, if_true, Bool.false_eq_true, if_false]
  obtain ⟨e1, e2, e3, e4⟩ := shift t n dt
  simp only [U, W, e1, e2, e3, e4]
  linear_combination -2 * cos (n * dt) * sin_sq_add_cos_sq (t * dt) - 98 * cos (7 * (n * dt)) * sin_sq_add_cos_sq (7 * (t * dt))

/-- The averages over the trajectories are those of the process. -/
theorem near (dt : ℝ) {N : ℕ} (extra : ℕ) (hN : 1 ≤ N) : NearAverages model "a" μ (xvas dt (N + extra)) N dt 0 where
  gram := fun i j => pooled_of dt (by omega) fun t => avg_gram dt _ t i j
  proj := fun i j => pooled_of dt (by omega) fun t => avg_proj dt _ t i j
  corr := fun n _ i j => corr_of dt _ (by omega) fun t => avg_corr dt _ t n i j
  obs := fun n _ i j => corr_of dt _ (by omega) fun t => avg_obs dt _ t n i j
  cross := fun n _ i j => corr_of dt _ (by omega) fun t => avg_cross dt _ t n i j
  dcorr := fun n _ i j => corr_of dt _ (by omega) fun t => avg_dcorr dt _ t n i j
  dobs := fun n _ i j => corr_of dt _ (by omega) fun t => avg_dobs dt _ t n i j
  dcross := fun n _ i j => corr_of dt _ (by omega) fun t => avg_dcross dt _ t n i j

theorem isCorrFn : IsCorrFn (env.corrFn "direct" false) := by
  intro p q N a b trunc _ _ hN ht
  have : ∃ r, correlationDirectND N a b (some trunc) = .ok r := by
    unfold correlationDirectND
    rw [if_neg (by simp only [lenTrunc]; omega)]
    exact ⟨_, rfl⟩
  obtain ⟨r, hr⟩ := this
  exact ⟨r, hr, (directND_spec hr).1, (directND_spec hr).2⟩

theorem mem_xvas {dt : ℝ} {n : ℕ} {y : Xva ℝ} (h : y ∈ xvas dt n) : ∃ c σ, y = xva dt n c σ := by
  simp only [xvas, List.mem_cons, List.not_mem_nil, or_false] at h
  rcases h with rfl | rfl | rfl | rfl <;> exact ⟨_, _, rfl⟩

theorem setup (dt : ℝ) {N : ℕ} (extra : ℕ) (hN : 1 ≤ N) : Setup env "direct" false model "dim_x" (state dt N extra) where
  loop := .inl rfl
  fn := isCorrFn
  bm := rfl
  wf := fun h => by cases h
  noProj := rfl
  obs := ⟨by decide, by decide, fun y hy => by
    obtain ⟨c, σ, rfl⟩ := mem_xvas hy
    exact ⟨rfl, rfl⟩⟩
  dim := by decide
  dimx := fun y hy => by
    obtain ⟨c, σ, rfl⟩ := mem_xvas hy
    rfl
  npos := by decide
  xpos := by decide
  tpos := hN
  tle := fun y hy => by
    obtain ⟨c, σ, rfl⟩ := mem_xvas hy
    exact Nat.le_add_right N extra
  ne := by simp [state, xvas]

theorem det_cm {a : ℕ} (ha : a = 1) (f : ℝ) : (cm a a f).det = f := by
  subst ha
  simp [cm]

theorem gram_det : μ.gram.det ≠ 0 := by
  have := det_cm (rfl : model.nForce = 1) 1
  exact this.trans_ne one_ne_zero

theorem corr_det : (μ.corr 0).det ≠ 0 := by
  refine (det_cm (rfl : Spec.nCorr model = 1) (U (1 / 2) (49 / 2) 0)).trans_ne ?_
  simp only [U, mul_zero, cos_zero]
  norm_num

theorem force : μ.gram * F = μ.proj := by
  ext i j
  exact (mul_cm (rfl : model.nForce = 1) _ _ i j).trans (one_mul _)

theorem cross_le : ∀ t ∈ Set.Icc (0 : ℝ) 1, ∀ i j, |μ.cross t i j| ≤ 25 ∧ |μ.dcross t i j| ≤ 25 := fun t _ _ _ =>
  ⟨(W_le (1 / 2) (7 / 2) t).trans (by norm_num [abs_of_pos]), (U_le (-1 / 2) (-49 / 2) t).trans (by norm_num [abs_of_neg])⟩

/-- The kernel estimated from these trajectories with the trapezoidal rule of the second kind converges to
`576/25 cos(7 t / 5)`, and the force is `-25 x` exactly. -/
theorem converges : ∃ C δ : ℝ, 0 < δ ∧ ∀ (dt : ℝ) (N extra : ℕ), 0 < dt → dt ≤ δ → 1 ≤ N → ((N - 1 : ℕ) : ℝ) * dt ≤ 1 →
    ∃ s1 s2 s3, computeMeanForce env (state dt N extra) = (s1, none) ∧ computeCorrs env "direct" false true none s1 = (s2, none) ∧
      computeKernelStep "second_kind_trapz" (fun _ _ => none) s2 = (s3, none) ∧
      Estimates model F k N dt 0 (C * dt ^ 2) s3.model := by
  obtain ⟨C, δ, hδ, H⟩ := C142_second_kind_trapz gram_det force cross_le (fun h => by cases h) le_rfl (by decide) corr_det
    (deriv_of (f' := U (1 / 2) (2401 / 2)) fun t => (W_deriv (1 / 2) (343 / 2) t).congr_deriv (by norm_num))
    (lip_of (U_deriv _ _) (W_le _ _)) (deriv_of kt_deriv) (lip_of kt1_deriv kt2_le) secondKind
  refine ⟨C, δ, hδ, fun dt N extra h1 h2 h3 h4 => ?_⟩
  have := H env "direct" false none "dim_x" (state dt N extra) 0 (setup dt extra h3) (near dt extra h3) h1 h2 le_rfl hδ.le h4
  rwa [mul_zero, add_zero] at this

example := C142_second_kind_rect gram_det force cross_le (fun h => by cases h) le_rfl (by decide) corr_det
    (lip_of (fun t => W_deriv (1 / 2) (343 / 2) t) (U_le _ _)) (lip_of kt_deriv kt1_le) secondKind

example := C142_rect gram_det force cross_le (fun h => by cases h) le_rfl corr_det
    (deriv_of (U_deriv _ _)) (lip_of (W_deriv _ _) (U_le _ _)) (lip_of kt_deriv kt1_le) firstKind

example := C142_trapz gram_det force cross_le (fun h => by cases h) le_rfl (by decide) corr_det
    (deriv_of (U_deriv _ _)) (deriv_of (W_deriv _ _)) (deriv_of (U_deriv _ _)) (lip_of (W_deriv _ _) (U_le _ _))
    (deriv_of kt_deriv) (deriv_of kt1_deriv) (lip_of kt2_deriv kt3_le) firstKind initial

end TwoOscillators

end Verif
