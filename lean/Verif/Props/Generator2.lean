import Verif.Props.Generator
import Verif.Props.Simulate

/-!
# `evolve_volterra` of a model (C164), kernels of several methods (C165), examples of C163
-/

namespace Verif
set_option linter.unusedSectionVars false
open LArr Finset
open scoped Matrix.Norms.Operator

/-! ### C164: what `evolve_volterra` requires -/

section
variable {K : Type*} [Field K] [DecidableEq K] [LinearOrder K] {b : ℕ} {garbage : ℕ → (ℕ → Mat K b b) → Mat K b b} {s : ModelState K}
  {G0 : Mat K b b} {T : ℕ} {em : String} {trunc : Option ℤ}

/-- **C164**: when `evolve_volterra` returns, the model is of the class `Pos_gle_overdamped`, coefficients of the force and kernel are
square with the size of `G0`, and the values are those of the integro-differential equation with these coefficients. -/
theorem C164_success {r : (ℕ → K) × (ℕ → Mat K b b)} (h : evolveModel garbage s G0 T em trunc = .ok r) :
    s.bm.cls = .overdamped ∧ ∃ c ker, s.forceCoeff = some c ∧ c.shape[0]? = some b ∧ c.shape[1]? = some b ∧
      s.kernel = some ⟨b, b, ker⟩ ∧
      evolveVolterra garbage ⟨Matrix.of fun i j => c.get [i.1, j.1], ker.kernel.len, ker.kernel.get, s.dt⟩ G0 T em trunc = .ok r := by
  unfold evolveModel at h
  split_ifs at h with h1
  rw [not_not] at h1
  refine ⟨h1, ?_⟩
  cases hf : s.forceCoeff with
  | none => rw [hf] at h; cases h
  | some c =>
    rw [hf] at h
    dsimp only at h
    by_cases h2 : c.shape[0]? = c.shape[1]?
    swap
    · rw [if_pos h2] at h; cases h
    rw [if_neg (not_not.mpr h2)] at h
    cases hk : s.kernel with
    | none => rw [hk] at h; cases h
    | some k =>
      obtain ⟨p, x, ker⟩ := k
      rw [hk] at h
      dsimp only at h
      split_ifs at h with h3 h4
      obtain ⟨rfl, rfl⟩ := h3
      rw [not_not] at h4
      exact ⟨c, ker, rfl, h4, by rw [← h2, h4], rfl, h⟩

/-- **C164**, the other classes: `NotImplementedError`. -/
theorem C164_class (h : s.bm.cls ≠ .overdamped) : evolveModel garbage s G0 T em trunc = .error .notImplemented := by
  unfold evolveModel
  rw [if_pos h]

/-- **C164**, before `compute_mean_force`: `AttributeError`. -/
theorem C164_no_force (h : s.bm.cls = .overdamped) (hf : s.forceCoeff = none) :
    evolveModel garbage s G0 T em trunc = .error .attribute := by
  unfold evolveModel
  rw [if_neg (by simp [h]), hf]

/-- **C164**, before `compute_kernel`: `AttributeError`, if the number of components of the observable is the number of functions. -/
theorem C164_no_kernel (h : s.bm.cls = .overdamped) {c : LArr K} {d : String} (hf : HasForce s c d) (ho : s.bm.dimObs = s.bm.basis.nOut)
    (hk : s.kernel = none) : evolveModel garbage s G0 T em trunc = .error .attribute := by
  have hs := hf.shape
  have hn : s.bm.nForce = s.bm.basis.nOut := by unfold BasisModel.nForce; rw [h]
  rw [hn, ho] at hs
  unfold evolveModel
  rw [if_neg (by simp [h]), hf.force]
  dsimp only
  rw [hs, hk, if_neg (by simp)]

/-- **C164**, square coefficients, or a kernel, of another size than `G0`: `ValueError`. -/
theorem C164_size (h : s.bm.cls = .overdamped) {c : LArr K} (hf : s.forceCoeff = some c) (hs : c.shape[0]? = c.shape[1]?) {p x : ℕ}
    {ker : KernelData K p x} (hk : s.kernel = some ⟨p, x, ker⟩) (hb : c.shape[0]? ≠ some b ∨ p ≠ b ∨ x ≠ b)
    (_hm : em ∈ ["rect", "trapz", "trapz_stab"]) : evolveModel garbage s G0 T em trunc = .error .value := by
  unfold evolveModel
  rw [if_neg (by simp [h]), hf]
  dsimp only
  rw [if_neg (not_not.mpr hs), hk]
  dsimp only
  split_ifs with h1 h2
  · rfl
  · rw [not_not] at h2
    rcases hb with hb | hb | hb
    · exact absurd h2 hb
    · exact absurd h1.1 hb
    · exact absurd h1.2 hb
  · rfl

/-- **C164**, an observable that does not have one component per function: `ValueError`, estimated or not. -/
theorem C164_not_square (h : s.bm.cls = .overdamped) {c : LArr K} {d : String} (hf : HasForce s c d)
    (ho : s.bm.dimObs ≠ s.bm.basis.nOut) : evolveModel garbage s G0 T em trunc = .error .value := by
  have hs := hf.shape
  have hn : s.bm.nForce = s.bm.basis.nOut := by unfold BasisModel.nForce; rw [h]
  rw [hn] at hs
  unfold evolveModel
  rw [if_neg (by simp [h]), hf.force]
  dsimp only
  rw [hs, if_pos (by simpa using fun e => ho e.symm)]

/-- **C164**, `G0` of another size: `ValueError`. -/
theorem C164_initial (h : s.bm.cls = .overdamped) {c : LArr K} {d : String} (hf : HasForce s c d) {p x : ℕ} {ker : KernelData K p x}
    (hk : s.kernel = some ⟨p, x, ker⟩) (hb : x ≠ b) : evolveModel garbage s G0 T em trunc = .error .value := by
  unfold evolveModel
  rw [if_neg (by simp [h]), hf.force]
  dsimp only
  rw [hk]
  dsimp only
  split_ifs with h1 h2
  · rfl
  · exact absurd h2.2 hb
  · exact absurd h2.2 hb
  · rfl

end

namespace Ex

/-- The function `x` of an overdamped model, with an observable of `n` components, force -1 and kernel 1. -/
def gfpModel (n : ℕ) : ModelState ℚ :=
  { noVelModel with
    bm := ⟨.overdamped, noVelModel.bm.basis, 1, n⟩, Lobs := "dE", dt := 1 / 2
    forceCoeff := some (mk2 "dim_basis" 1 "dim_dE" n fun _ _ => -1) }

theorem gfpForce (n : ℕ) : HasForce (gfpModel n) (mk2 "dim_basis" 1 "dim_dE" n fun _ _ => -1) "dim_dE" :=
  ⟨rfl, rfl, rfl, by decide, by decide⟩

end Ex

example : ∃ r, evolveModel (fun _ _ => 0) (Ex.gfpModel 1) !![1] 2 "rect" none = .ok r ∧
    (Ex.gfpModel 1).bm.cls = .overdamped := by
  have h : (evolveModel (fun _ _ => 0) (Ex.gfpModel 1) !![1] 2 "rect" none).isOk = true := by decide +kernel
  cases hr : evolveModel (fun _ _ => 0) (Ex.gfpModel 1) !![1] 2 "rect" none with
  | error e => rw [hr] at h; cases h
  | ok r => exact ⟨r, rfl, (C164_success hr).1⟩

example : evolveModel (fun _ _ => 0) Ex.noVelModel !![1] 2 "rect" none = .error .notImplemented := C164_class (by decide)
example : evolveModel (fun _ _ => 0) { Ex.gfpModel 1 with forceCoeff := none } !![1] 2 "rect" none = .error .attribute :=
  C164_no_force rfl rfl
example : evolveModel (fun _ _ => 0) { Ex.gfpModel 1 with kernel := none } !![1] 2 "rect" none = .error .attribute :=
  C164_no_kernel (s := { Ex.gfpModel 1 with kernel := none }) rfl ⟨rfl, rfl, rfl, by decide, by decide⟩ rfl rfl
example : evolveModel (fun _ _ => 0) (Ex.gfpModel 2) !![1] 2 "rect" none = .error .value :=
  C164_not_square rfl (Ex.gfpForce 2) (by decide)
example : evolveModel (fun _ _ => 0) (Ex.gfpModel 1) !![1, 2; 3, 4] 2 "rect" none = .error .value :=
  C164_initial rfl (Ex.gfpForce 1) rfl (by decide)
example : evolveModel (fun _ _ => 0) { Ex.gfpModel 1 with forceCoeff := some (mk2 "dim_basis" 2 "dim_dE" 2 fun _ _ => -1) } !![1] 2 "rect" none =
    .error .value := C164_size rfl rfl rfl rfl (.inl (by decide)) (by decide)

/-! ### C165: the methods find the same kernel -/

/-- **C165**: the equations of the first and of the second kind have the same solutions, when the data of the second are the derivatives
of the data of the first. -/
theorem C165_same_equation {b x : ℕ} {T : ℝ} (hT : 0 < T) {B B' : ℝ → Mat ℝ b b} {D D' k : ℝ → Mat ℝ b x} (hB : Spec.DerivOn T B B')
    (hB' : Spec.Lip T B') (hk : Spec.Lip T k) (hD : Spec.DerivOn T D D') (h0 : D 0 = 0) :
    Spec.FirstKind T B D k ↔ Spec.SecondKind T (B 0) (fun t => -B' t) (fun t => -D' t) k :=
  ⟨secondKind_of_firstKind hT hB hB' hk hD, firstKind_of_secondKind hT hB hB' hk hD h0⟩

section
variable {m : BasisModel ℝ} {μ : Spec.Averages m.nForce (Spec.nCorr m) m.dimObs} {F : Mat ℝ m.nForce m.dimObs} {T MW : ℝ}

/-- **C165**: for a stationary process, for which `⟨φ'(0) φ(t)⟩` and `⟨φ'(0) r(t)⟩`, `r` the residual of the observable, are minus the
derivatives of `⟨φ(0) φ(t)⟩` and `⟨φ(0) r(t)⟩`, the kernels of the rectangle rules of the first and of the second kind differ by at
most `C (dt + ε / dt)`. -/
theorem C165_methods_agree (hT : 0 < T) (hG : μ.gram.det ≠ 0) (hF : μ.gram * F = μ.proj)
    (hW : ∀ t ∈ Set.Icc 0 T, ∀ i j, |μ.cross t i j| ≤ MW ∧ |μ.dcross t i j| ≤ MW) (hm : m.WF) (hx1 : 1 ≤ m.dimx)
    (hh : m.cls ≠ .hybrid) (hB0 : (μ.corr 0).det ≠ 0) {k : ℝ → Mat ℝ (Spec.nCorr m) m.dimObs} (hk : Spec.Lip T k)
    (hB : Spec.DerivOn T μ.corr fun t => -μ.dcorr t) (hL : Spec.Lip T μ.dcorr)
    (hD : Spec.DerivOn T (μ.residual F) fun t => -μ.dresidual F t) (heq : Spec.FirstKind T μ.corr (μ.residual F) k) :
    ∃ C δ : ℝ, 0 < δ ∧ ∀ (env : Env ℝ) (method km : String) (vectorize : Bool) (rankTol : Option ℝ) (d : String)
      (s : EstState ℝ) (ε : ℝ), km ∈ ["rect", "rectangular"] → Setup env method vectorize m d s →
      Spec.NearAverages m s.model.Lobs μ s.xvas s.model.truncInd s.model.dt ε → 0 < s.model.dt → s.model.dt ≤ δ → 0 ≤ ε →
      ε ≤ δ * s.model.dt → 2 ≤ s.model.truncInd → ((s.model.truncInd - 1 : ℕ) : ℝ) * s.model.dt ≤ T →
      ∃ s1 s2 s3 s3' r r', computeMeanForce env s = (s1, none) ∧ computeCorrs env method vectorize true rankTol s1 = (s2, none) ∧
        computeKernelStep km (fun _ _ => none) s2 = (s3, none) ∧
        computeKernelStep "second_kind_rect" (fun _ _ => none) s2 = (s3', none) ∧
        s3.model.kernel = some ⟨Spec.nCorr m, m.dimObs, r⟩ ∧ s3'.model.kernel = some ⟨Spec.nCorr m, m.dimObs, r'⟩ ∧
        s.model.truncInd - 1 ≤ r.kernel.len ∧ s.model.truncInd ≤ r'.kernel.len ∧ ∀ n < s.model.truncInd - 1,
          r.time.get n = r'.time.get n ∧ ∀ i j, |r.kernel.get n i j - r'.kernel.get n i j| ≤ C * (s.model.dt + ε / s.model.dt) := by
  have hL' : Spec.Lip T fun t => -μ.dcorr t := by
    obtain ⟨L, hL⟩ := hL
    refine ⟨L, fun s hs t ht i j => ?_⟩
    have := hL s hs t ht i j
    rw [← abs_neg] at this
    refine le_of_eq_of_le (congrArg abs ?_) this
    change -μ.dcorr s i j - -μ.dcorr t i j = _
    ring
  have heq2 : Spec.SecondKind T (μ.corr 0) μ.dcorr (μ.dresidual F) k := by
    have := secondKind_of_firstKind hT hB hL' hk hD heq
    simpa only [neg_neg] using this
  obtain ⟨C1, δ1, hδ1, H1⟩ := C142_rect hG hF hW hm hx1 hB0 hB hL' hk heq
  obtain ⟨C2, δ2, hδ2, H2⟩ := C142_second_kind_rect hG hF hW hm hx1 hh hB0 hL hk heq2
  refine ⟨C1 + |C2|, min 1 (min δ1 δ2), by positivity, ?_⟩
  intro env method km vectorize rankTol d s ε hkm hs hn hdt hdtδ hε hεδ h2 hT'
  have l1 : s.model.dt ≤ 1 := hdtδ.trans (min_le_left _ _)
  have l2 : ε ≤ ε / s.model.dt := by
    rw [le_div_iff₀ hdt]
    exact mul_le_of_le_one_right hε l1
  have l3 : ε / s.model.dt ≤ min 1 (min δ1 δ2) := by rwa [div_le_iff₀ hdt]
  obtain ⟨s1, s2, s3, e1, e2, e3, est⟩ := H1 env method km vectorize rankTol d s ε hkm hs hn hdt
    (hdtδ.trans ((min_le_right _ _).trans (min_le_left _ _))) hε
    (hεδ.trans (mul_le_mul_of_nonneg_right ((min_le_right _ _).trans (min_le_left _ _)) hdt.le)) h2 hT'
  obtain ⟨t1, t2, s3', f1, f2, f3, est'⟩ := H2 env method vectorize rankTol d s ε hs hn hdt
    (hdtδ.trans ((min_le_right _ _).trans (min_le_right _ _))) hε
    ((l2.trans l3).trans ((min_le_right _ _).trans (min_le_right _ _))) hT'
  obtain rfl : s1 = t1 := congrArg Prod.fst (e1.symm.trans f1)
  obtain rfl : s2 = t2 := congrArg Prod.fst (e2.symm.trans f2)
  obtain ⟨r, k1, k2, -, k4⟩ := est.kernel
  obtain ⟨r', k1', k2', -, k4'⟩ := est'.kernel
  refine ⟨s1, s2, s3, s3', r, r', e1, e2, e3, f3, k1, k1', k2, k2', fun n hn' => ⟨?_, fun i j => ?_⟩⟩
  · rw [(k4 n hn').1, (k4' n (by omega)).1]
  · have a1 := (k4 n hn').2 i j
    have a2 := (k4' n (by omega)).2 i j
    have a3 : C2 * (s.model.dt + ε) ≤ |C2| * (s.model.dt + ε / s.model.dt) :=
      (mul_le_mul_of_nonneg_right (le_abs_self C2) (by positivity)).trans (mul_le_mul_of_nonneg_left (by linarith) (abs_nonneg _))
    have a4 := abs_sub_le (r.kernel.get n i j) (k (n * s.model.dt) i j) (r'.kernel.get n i j)
    rw [abs_sub_comm (k (n * s.model.dt) i j)] at a4
    linarith

end

/-! ### Examples -/

namespace TwoOscillators

open Real

theorem residual_deriv : Spec.DerivOn 1 (μ.residual F) fun t => -μ.dresidual F t := by
  intro t _ i j
  have h1 : (fun s => μ.residual F s i j) = W 12 (-84) := by
    funext s
    exact residual_eq s i j
  have h2 : (-μ.dresidual F t) i j = -U (-12) 588 t := by
    rw [Matrix.neg_apply, dresidual_eq]
  refine HasDerivAt.hasDerivWithinAt ?_
  rw [h1]
  refine (W_deriv 12 (-84) t).congr_deriv (Eq.trans ?_ h2.symm)
  simp only [U]
  ring

theorem corr_deriv : Spec.DerivOn 1 μ.corr fun t => -μ.dcorr t := by
  intro t _ i j
  refine HasDerivAt.hasDerivWithinAt ((U_deriv (1 / 2) (49 / 2) t).congr_deriv ?_)
  change _ = -W (1 / 2) (343 / 2) t
  simp only [W]
  ring

example := C165_methods_agree one_pos gram_det force cross_le (fun h => by cases h) le_rfl (by decide) corr_det
  (lip_of kt_deriv kt1_le) corr_deriv (lip_of (fun t => W_deriv (1 / 2) (343 / 2) t) (U_le _ _)) residual_deriv firstKind

example := C165_same_equation one_pos corr_deriv (D := μ.residual F) (k := k)
  (by
    obtain ⟨L, hL⟩ := lip_of (b := Spec.nCorr model) (x := Spec.nCorr model) (fun t => W_deriv (-1 / 2) (-343 / 2) t) (U_le _ _)
    refine ⟨L, fun s hs t ht i j => le_of_eq_of_le (congrArg abs ?_) (hL s hs t ht i j)⟩
    change -W (1 / 2) (343 / 2) s - -W (1 / 2) (343 / 2) t = W (-1 / 2) (-343 / 2) s - W (-1 / 2) (-343 / 2) t
    simp only [W]
    ring)
  (lip_of kt_deriv kt1_le) residual_deriv
  (by
    ext i j
    rw [residual_eq]
    simp [W])

/-- The correlations of the position, and their derivatives. -/
noncomputable def Cx : ℝ → Mat ℝ basis.nOut basis.nOut := fun t => cm _ _ (U (1 / 2) (1 / 2) t)
noncomputable def Cx1 : ℝ → Mat ℝ basis.nOut basis.nOut := fun t => cm _ _ (W (-1 / 2) (-7 / 2) t)
noncomputable def Cx2 : ℝ → Mat ℝ basis.nOut basis.nOut := fun t => cm _ _ (U (-1 / 2) (-49 / 2) t)

noncomputable def kx (t : ℝ) : ℝ := 49 / 25 * cos (0 * t) + 576 / 25 * cos (5 * t)
noncomputable def kx1 (t : ℝ) : ℝ := -(576 / 5) * sin (5 * t)

theorem kx_deriv (t : ℝ) : HasDerivAt kx (kx1 t) t := by
  have h1 := ((((hasDerivAt_id t).const_mul (0 : ℝ)).cos).const_mul (49 / 25 : ℝ))
  have h2 := ((((hasDerivAt_id t).const_mul (5 : ℝ)).cos).const_mul (576 / 25 : ℝ))
  exact (h1.add h2).congr_deriv (by simp only [kx1, id]; ring)

theorem kx1_le (t : ℝ) : |kx1 t| ≤ 116 := by
  unfold kx1
  rw [abs_mul]
  exact (mul_le_of_le_one_right (abs_nonneg _) (abs_sin_le_one _)).trans (by norm_num [abs_le])

theorem Cx_deriv : Spec.DerivOn 1 Cx Cx1 :=
  deriv_of fun t => (U_deriv (1 / 2) (1 / 2) t).congr_deriv (by norm_num)

theorem Cx1_deriv : Spec.DerivOn 1 Cx1 Cx2 :=
  deriv_of fun t => (W_deriv (-1 / 2) (-7 / 2) t).congr_deriv (by norm_num)

/-- The correlations of the position obey the equation with the memory `49/25 + 576/25 cos(5 t)` and without force. -/
theorem evolution_x : Spec.Evolution 1 0 (fun t => cm _ _ (kx t)) Cx := by
  intro t ht i j
  refine (Cx_deriv t ht i j).congr_deriv ?_
  have h : ∀ s, (Cx (t - s) * (cm _ _ (kx s) : Mat ℝ basis.nOut basis.nOut) : Mat ℝ basis.nOut basis.nOut) i j =
      (49 / 50 * (cos (1 * (t - s)) * cos (0 * s)) + 288 / 25 * (cos (1 * (t - s)) * cos (5 * s))) +
      (49 / 50 * (cos (7 * (t - s)) * cos (0 * s)) + 288 / 25 * (cos (7 * (t - s)) * cos (5 * s))) := by
    intro s
    refine (mul_cm (rfl : basis.nOut = 1) _ _ i j).trans ?_
    simp only [U, kx, one_mul]
    ring
  simp only [h]
  rw [Matrix.mul_zero, Matrix.zero_apply, zero_sub,
    intervalIntegral.integral_add (Continuous.intervalIntegrable (by fun_prop) _ _) (Continuous.intervalIntegrable (by fun_prop) _ _),
    intervalIntegral.integral_add (Continuous.intervalIntegrable (by fun_prop) _ _) (Continuous.intervalIntegrable (by fun_prop) _ _),
    intervalIntegral.integral_add (Continuous.intervalIntegrable (by fun_prop) _ _) (Continuous.intervalIntegrable (by fun_prop) _ _)]
  simp only [intervalIntegral.integral_const_mul]
  rw [integral_cos_cos _ _ _ (by norm_num), integral_cos_cos _ _ _ (by norm_num), integral_cos_cos _ _ _ (by norm_num),
    integral_cos_cos _ _ _ (by norm_num)]
  change W (-1 / 2) (-7 / 2) t = _
  simp only [W, one_mul, zero_mul]
  ring

theorem Cx_det : (Cx 0).det ≠ 0 := by
  refine (det_cm (rfl : basis.nOut = 1) (U (1 / 2) (1 / 2) 0)).trans_ne ?_
  simp only [U, mul_zero, cos_zero]
  norm_num

/-- The estimator of an overdamped model. -/
noncomputable def stateX (dt : ℝ) (N extra : ℕ) : EstState ℝ :=
  { state dt N extra with model := { (state dt N extra).model with bm := ⟨.overdamped, basis, 1, 3⟩ } }

theorem along_x (dt : ℝ) (n : ℕ) (c : Bool) (σ : ℝ) (t i : ℕ) :
    Spec.along basis (xva dt n c σ) t i = if c then U 1 σ (t * dt) else W 1 σ (t * dt) := rfl

theorem alongDot_x (dt : ℝ) (n : ℕ) (c : Bool) (σ : ℝ) (t i : ℕ) :
    Spec.alongDot basis (xva dt n c σ) t i = if c then W (-1) (-7 * σ) (t * dt) else U 1 (7 * σ) (t * dt) := by
  simp [Spec.alongDot, basis, xva]

theorem nearGenerator (dt : ℝ) {N : ℕ} (extra : ℕ) (hN : 1 ≤ N) : Spec.NearGenerator basis Cx Cx1 Cx2 (xvas dt (N + extra)) N dt 0 where
  gram := fun i j => pooled_of dt (by omega) fun t => by
    change _ = 4 * U (1 / 2) (1 / 2) 0
    simp only [along_x, U, W, if_true, Bool.false_eq_true, if_false, mul_zero, cos_zero]
    linear_combination 2 * sin_sq_add_cos_sq (t * dt) + 2 * sin_sq_add_cos_sq (7 * (t * dt))
  proj := fun i j => pooled_of dt (by omega) fun t => by
    change _ = 4 * W (-1 / 2) (-7 / 2) 0
    simp only [along_x, alongDot_x, U, W, if_true, Bool.false_eq_true, if_false, mul_zero, sin_zero]
    ring
  corr := fun n _ i j => corr_of dt _ (by omega) fun t => by
    change _ = 4 * U (1 / 2) (1 / 2) (n * dt)
    simp only [along_x, if_true, Bool.false_eq_true, if_false]
    obtain ⟨e1, e2, e3, e4⟩ := shift t n dt
    simp only [U, W, e1, e2, e3, e4]
    linear_combination 2 * cos (n * dt) * sin_sq_add_cos_sq (t * dt) + 2 * cos (7 * (n * dt)) * sin_sq_add_cos_sq (7 * (t * dt))
  dot := fun n _ i j => corr_of dt _ (by omega) fun t => by
    change _ = 4 * W (-1 / 2) (-7 / 2) (n * dt)
    simp only [along_x, alongDot_x, if_true, Bool.false_eq_true, if_false]
    obtain ⟨e1, e2, e3, e4⟩ := shift t n dt
    simp only [U, W, e1, e2, e3, e4]
    linear_combination -2 * sin (n * dt) * sin_sq_add_cos_sq (t * dt) - 14 * sin (7 * (n * dt)) * sin_sq_add_cos_sq (7 * (t * dt))
  dot' := fun n _ i j => by
    rw [← sub_neg_eq_add]
    refine corr_of dt _ (by omega) fun t => ?_
    change _ = 4 * -W (-1 / 2) (-7 / 2) (n * dt)
    simp only [along_x, alongDot_x, if_true, Bool.false_eq_true, if_false]
    obtain ⟨e1, e2, e3, e4⟩ := shift t n dt
    simp only [U, W, e1, e2, e3, e4]
    linear_combination 2 * sin (n * dt) * sin_sq_add_cos_sq (t * dt) + 14 * sin (7 * (n * dt)) * sin_sq_add_cos_sq (7 * (t * dt))
  ddot := fun n _ i j => by
    rw [← sub_neg_eq_add]
    refine corr_of dt _ (by omega) fun t => ?_
    change _ = 4 * -U (-1 / 2) (-49 / 2) (n * dt)
    simp only [alongDot_x, if_true, Bool.false_eq_true, if_false]
    obtain ⟨e1, e2, e3, e4⟩ := shift t n dt
    simp only [U, W, e1, e2, e3, e4]
    linear_combination 2 * cos (n * dt) * sin_sq_add_cos_sq (t * dt) + 98 * cos (7 * (n * dt)) * sin_sq_add_cos_sq (7 * (t * dt))

/-- The correlations of the position of the two oscillators, predicted from the trajectories. -/
theorem predicted : ∃ K δ : ℝ, 0 < δ ∧ ∀ (dt : ℝ) (N extra : ℕ), 0 < dt → dt ≤ δ → 1 ≤ N → ((N - 1 : ℕ) : ℝ) * dt ≤ 1 →
    ∃ s0 s1 s2 s3, toGfpe none "dE" (stateX dt N extra) = (s0, none) ∧ computeMeanForce env s0 = (s1, none) ∧
      computeCorrs env "direct" false true none s1 = (s2, none) ∧
      computeKernelStep "second_kind_rect" (fun _ _ => none) s2 = (s3, none) ∧
      ∃ r, evolveModel (b := basis.nOut) (fun _ _ => 0) s3.model (cm _ _ 1) N "trapz" none = .ok r ∧
        ∀ t < N, ∀ i j, |r.2 t i j - (cos (t * dt) + cos (7 * (t * dt))) / 2| ≤ K * dt := by
  obtain ⟨K, δ, hδ, H⟩ := C163_correlations (dx := 1) one_pos (lip_of kx_deriv kx1_le) Cx_det evolution_x Cx_deriv Cx1_deriv
  refine ⟨K, δ, hδ, fun dt N extra h1 h2 h3 h4 => ?_⟩
  obtain ⟨s0, s1, s2, s3, e0, e1, e2, e3, G⟩ := H env "direct" false none (stateX dt N extra) "dE" 0 (.inl rfl) isCorrFn rfl rfl
    (fun h => by cases h) (by simp [stateX, state, xvas]) (fun y hy => by
      obtain ⟨c, σ, rfl⟩ := mem_xvas (dt := dt) (n := N + extra) hy
      rfl) le_rfl h3 (fun y hy => by
      obtain ⟨c, σ, rfl⟩ := mem_xvas (dt := dt) (n := N + extra) hy
      exact Nat.le_add_right N extra) (by decide) (nearGenerator dt extra h3) rfl h1 h2 le_rfl hδ.le h4
  obtain ⟨r, hr, hval⟩ := G (fun _ _ => 0) "trapz" (cm _ _ 1) N 0 (by simp) le_rfl hδ.le (fun i j => by
    change |1 - U (1 / 2) (1 / 2) 0| ≤ 0
    simp only [U, mul_zero, cos_zero]
    norm_num) h3 le_rfl
  refine ⟨s0, s1, s2, s3, e0, e1, e2, e3, r, hr, fun t ht i j => ?_⟩
  have := (hval t ht).2 i j
  rw [add_zero, add_zero] at this
  refine le_of_eq_of_le (congrArg abs ?_) this
  change _ = r.2 t i j - U (1 / 2) (1 / 2) (t * dt)
  simp only [U]
  ring

example := C163_rect (β := basis) (dx := 1) (C'' := Cx2) one_pos (lip_of kx_deriv kx1_le) Cx_det evolution_x Cx_deriv
  (evolution_mul evolution_x (lip_of kx_deriv kx1_le) (cm _ _ 2))

example (dt : ℝ) {N : ℕ} (hN : 1 ≤ N) (extra : ℕ) := C163_to_gfpe (env := env) (method := "direct") (vectorize := false) (.inl rfl) isCorrFn
  (s := stateX dt N extra) (dx := 1) rfl rfl rfl (fun h => by cases h) (by simp [stateX, state, xvas])
  (fun y hy => by
    obtain ⟨c, σ, rfl⟩ := mem_xvas (dt := dt) (n := N + extra) hy
    rfl) le_rfl hN (fun y hy => by
    obtain ⟨c, σ, rfl⟩ := mem_xvas (dt := dt) (n := N + extra) hy
    exact Nat.le_add_right N extra) (name := "dE") (by decide) (nearGenerator dt extra hN)

end TwoOscillators

end Verif
