import Verif.Lemmas.ConvDeriv
import Verif.Model.EvolveModel
import Verif.Props.Consistent
import Verif.Props.ConvergeIde
import Verif.Props.EvalMore2

/-!
# Estimate the generator and evolve it (C163)
-/

namespace Verif

set_option linter.unusedSectionVars false

open LArr Finset
open scoped Matrix.Norms.Operator

namespace Spec

/-- The averages of a stationary process, for `p` functions `φ` with correlations `C(t) = ⟨φ(0) φ(t)⟩`, when the observable is the time
derivative of `φ`. By stationarity `⟨φ'(0) φ(t)⟩ = -C'(t)` and `⟨φ'(0) φ'(t)⟩ = -C''(t)`. -/
def stationaryAverages {p : ℕ} (C C' C'' : ℝ → Mat ℝ p p) : Averages p p p where
  gram := C 0
  proj := C' 0
  corr := C
  obs := C'
  cross := C
  dcorr := fun t => -C' t
  dobs := fun t => -C'' t
  dcross := fun t => -C' t

/-- The number of kernel points that `trunc_ind` leaves of `n`. -/
def usedPoints (n : ℕ) (trunc : Option ℤ) : ℕ :=
  match trunc with
  | none => n
  | some t => if t ≤ 0 then n else min t.toNat n

/-- The value of a function at a frame, and its time derivative by the chain rule. -/
def along (β : PointBasis ℝ) (xva : Xva ℝ) (t i : ℕ) : ℝ := β.basis (xva.data "x" t) i

def alongDot (β : PointBasis ℝ) (xva : Xva ℝ) (t i : ℕ) : ℝ :=
  ∑ d ∈ range xva.dimx, β.deriv (xva.data "x" t) i d * xva.data "v" t d

/-- The averages over the trajectories of products of the functions and of their derivatives, at the first `N` lags, are those of a
stationary process with correlations `C` up to `ε`. -/
structure NearGenerator (β : PointBasis ℝ) (C C' C'' : ℝ → Mat ℝ β.nOut β.nOut) (xvas : List (Xva ℝ)) (N : ℕ) (dt ε : ℝ) : Prop where
  gram : ∀ i j : Fin β.nOut, |pooledMean (xvas.map fun xva => (xva.n, fun t => along β xva t i * along β xva t j)) - C 0 i j| ≤ ε
  proj : ∀ i j : Fin β.nOut, |pooledMean (xvas.map fun xva => (xva.n, fun t => along β xva t i * alongDot β xva t j)) - C' 0 i j| ≤ ε
  corr : ∀ n < N, ∀ i j : Fin β.nOut, |meanCorr xvas (fun xva t => along β xva t i) (fun xva t => along β xva t j) n -
    C (n * dt) i j| ≤ ε
  dot : ∀ n < N, ∀ i j : Fin β.nOut, |meanCorr xvas (fun xva t => along β xva t i) (fun xva t => alongDot β xva t j) n -
    C' (n * dt) i j| ≤ ε
  dot' : ∀ n < N, ∀ i j : Fin β.nOut, |meanCorr xvas (fun xva t => alongDot β xva t i) (fun xva t => along β xva t j) n +
    C' (n * dt) i j| ≤ ε
  ddot : ∀ n < N, ∀ i j : Fin β.nOut, |meanCorr xvas (fun xva t => alongDot β xva t i) (fun xva t => alongDot β xva t j) n +
    C'' (n * dt) i j| ≤ ε

end Spec

/-! ### The equation of the second kind is the derivative of the equation of the first kind -/

section
variable {b x : ℕ} {T : ℝ}

/-- The derivative within an interval is unique. -/
theorem deriv_unique (hT : 0 < T) {f : ℝ → ℝ} {t d d' : ℝ} (ht : t ∈ Set.Icc 0 T) (h : HasDerivWithinAt f d (Set.Icc 0 T) t)
    (h' : HasDerivWithinAt f d' (Set.Icc 0 T) t) : d = d' :=
  (uniqueDiffOn_Icc hT t ht).eq_deriv (Set.Icc 0 T) h h'

/-- If the kernel solves the equation of the first kind, it solves the equation of the second kind with the derivatives. -/
theorem secondKind_of_firstKind (hT : 0 < T) {B B' : ℝ → Mat ℝ b b} {D D' k : ℝ → Mat ℝ b x} (hB : Spec.DerivOn T B B')
    (hB' : Spec.Lip T B') (hk : Spec.Lip T k) (hD : Spec.DerivOn T D D') (h : Spec.FirstKind T B D k) :
    Spec.SecondKind T (B 0) (fun t => -B' t) (fun t => -D' t) k := by
  intro t ht i j
  have h1 := convAt_deriv hB hB' hk t ht i j
  have h2 : HasDerivWithinAt (fun s => convAt B k s i j) (-D' t i j) (Set.Icc 0 T) t :=
    (hD t ht i j).neg.congr (fun s hs => h s hs i j) (h t ht i j)
  have h3 := deriv_unique hT ht h1 h2
  beta_reduce at h3 ⊢
  rw [Matrix.add_apply] at h3
  have h4 : ∫ s in (0 : ℝ)..t, (-B' (t - s) * k s) i j = -convAt B' k t i j := by
    simp only [convAt, Matrix.of_apply]
    rw [← intervalIntegral.integral_neg]
    refine intervalIntegral.integral_congr fun s _ => ?_
    simp only [Matrix.neg_mul, Matrix.neg_apply]
  rw [h4, Matrix.neg_apply]
  linarith

/-- The converse, if `D(0) = 0`. -/
theorem firstKind_of_secondKind (hT : 0 < T) {B B' : ℝ → Mat ℝ b b} {D D' k : ℝ → Mat ℝ b x} (hB : Spec.DerivOn T B B')
    (hB' : Spec.Lip T B') (hk : Spec.Lip T k) (hD : Spec.DerivOn T D D') (h0 : D 0 = 0)
    (h : Spec.SecondKind T (B 0) (fun t => -B' t) (fun t => -D' t) k) : Spec.FirstKind T B D k := by
  intro t ht i j
  have hd : ∀ u ∈ Set.Icc 0 T, HasDerivWithinAt (fun s => convAt B k s i j + D s i j) 0 (Set.Icc 0 T) u := by
    intro u hu
    refine ((convAt_deriv hB hB' hk u hu i j).add (hD u hu i j)).congr_deriv ?_
    have h4 : ∫ s in (0 : ℝ)..u, (-B' (u - s) * k s) i j = -convAt B' k u i j := by
      simp only [convAt, Matrix.of_apply]
      rw [← intervalIntegral.integral_neg]
      refine intervalIntegral.integral_congr fun s _ => ?_
      simp only [Matrix.neg_mul, Matrix.neg_apply]
    have h5 := h u hu i j
    beta_reduce at h5 ⊢
    rw [h4, Matrix.neg_apply] at h5
    rw [Matrix.add_apply]
    linarith
  have := Convex.norm_image_sub_le_of_norm_hasDerivWithin_le (C := 0) hd (fun u hu => by simp) (convex_Icc _ _)
    ⟨le_rfl, hT.le⟩ ht
  rw [zero_mul, norm_le_zero_iff, h0] at this
  have e0 : convAt B k 0 i j = 0 := by simp [convAt]
  rw [e0, Matrix.zero_apply, add_zero, sub_zero] at this
  have e : ∫ s in (0 : ℝ)..t, (B (t - s) * k s) i j = convAt B k t i j := rfl
  rw [e]
  linarith

end

/-! ### What the evolution equation says about the correlations -/

section
variable {p : ℕ} {T : ℝ} {F : Mat ℝ p p} {k C C' C'' : ℝ → Mat ℝ p p}

theorem evolution_deriv_eq (hT : 0 < T) (hE : Spec.Evolution T F k C) (hC : Spec.DerivOn T C C') {t : ℝ} (ht : t ∈ Set.Icc 0 T) :
    C' t = evolDeriv F k C t := by
  ext i j
  exact deriv_unique hT ht (hC t ht i j) (evolution_derivOn hE t ht i j)

theorem evolution_lip' (hT : 0 < T) (hE : Spec.Evolution T F k C) (hk : Spec.Lip T k) (hC : Spec.DerivOn T C C') : Spec.Lip T C' := by
  obtain ⟨L, hL⟩ := (evolution_lip hE hk).2
  refine ⟨L, fun s hs t ht i j => ?_⟩
  rw [evolution_deriv_eq hT hE hC hs, evolution_deriv_eq hT hE hC ht]
  exact hL s hs t ht i j

theorem evolution_force (hT : 0 < T) (hE : Spec.Evolution T F k C) (hC : Spec.DerivOn T C C') : C 0 * F = C' 0 := by
  rw [evolution_deriv_eq hT hE hC ⟨le_rfl, hT.le⟩, evolDeriv]
  have : convAt C k 0 = 0 := by
    ext i j
    simp [convAt]
  rw [this, sub_zero]

theorem evolution_firstKind (hT : 0 < T) (hE : Spec.Evolution T F k C) (hC : Spec.DerivOn T C C') :
    Spec.FirstKind T C ((Spec.stationaryAverages C C' C'').residual F) k := by
  intro t ht i j
  have e : (Spec.stationaryAverages C C' C'').residual F t = -convAt C k t := by
    change C' t - C t * F = _
    rw [evolution_deriv_eq hT hE hC ht, evolDeriv]
    abel
  rw [e, Matrix.neg_apply, neg_neg]
  rfl

theorem evolution_secondKind (hT : 0 < T) (hE : Spec.Evolution T F k C) (hk : Spec.Lip T k) (hC : Spec.DerivOn T C C')
    (hC' : Spec.DerivOn T C' C'') :
    Spec.SecondKind T (C 0) (fun t => -C' t) ((Spec.stationaryAverages C C' C'').dresidual F) k := by
  have h := secondKind_of_firstKind (D := (Spec.stationaryAverages C C' C'').residual F) (D' := fun t => C'' t - C' t * F) hT hC
    (evolution_lip' hT hE hk hC) hk (fun t ht i j => by
      have h1 : HasDerivWithinAt (fun s => ∑ l, C s i l * F l j) (∑ l, C' t i l * F l j) (Set.Icc 0 T) t :=
        HasDerivWithinAt.fun_sum fun l _ => (hC t ht i l).mul_const (F l j)
      exact ((hC' t ht i j).sub h1)) (evolution_firstKind hT hE hC)
  have e : (Spec.stationaryAverages C C' C'').dresidual F = fun t => -(C'' t - C' t * F) := by
    ext1 t
    change -C'' t - -C' t * F = _
    rw [Matrix.neg_mul]
    abel
  rw [e]
  exact h

/-- Linear combinations of solutions of the evolution equation are solutions. -/
theorem evolution_mul (hE : Spec.Evolution T F k C) (hk : Spec.Lip T k) (A : Mat ℝ p p) : Spec.Evolution T F k fun t => A * C t := by
  intro t ht i j
  have h1 : HasDerivWithinAt (fun s => ∑ l, A i l * C s l j) (∑ l, A i l * evolDeriv F k C t l j) (Set.Icc 0 T) t :=
    HasDerivWithinAt.fun_sum fun l _ => (evolution_derivOn hE t ht l j).const_mul (A i l)
  refine h1.congr_deriv ?_
  obtain ⟨LA, hLA0, hLA⟩ := lip_norm (evolution_lip hE hk).1
  obtain ⟨MA, hMA0, hMA⟩ := lip_bound (evolution_lip hE hk).1
  obtain ⟨LB, hLB0, hLB⟩ := lip_norm hk
  obtain ⟨MB, hMB0, hMB⟩ := lip_bound hk
  have int : ∀ l, IntervalIntegrable (fun s => A i l * (C (t - s) * k s) l j) MeasureTheory.volume 0 t := fun l =>
    (((contOn_of_lip (conv_lip ht.2 hLA0 hLA hMA hLB hMB l j)).mono (by rw [Set.uIcc_of_le ht.1])).intervalIntegrable).const_mul _
  have h2 : ∫ s in (0 : ℝ)..t, (A * C (t - s) * k s) i j = ∑ l, A i l * convAt C k t l j := by
    have : ∀ s, (A * C (t - s) * k s) i j = ∑ l, A i l * (C (t - s) * k s) l j := fun s => by
      rw [Matrix.mul_assoc, Matrix.mul_apply]
    simp only [this]
    rw [intervalIntegral.integral_finsetSum fun l _ => int l]
    exact sum_congr rfl fun l _ => intervalIntegral.integral_const_mul _ _
  rw [h2, Matrix.mul_assoc, Matrix.mul_apply, ← sum_sub_distrib]
  refine sum_congr rfl fun l _ => ?_
  rw [evolDeriv, Matrix.sub_apply]
  ring

end

/-! ### C163 -/

/-- The model that `to_gfpe` makes of a model of the class `Pos_gle_overdamped`: the observable has as many components as there are
basis functions. -/
def generatorModel (β : PointBasis ℝ) (dx : ℕ) : BasisModel ℝ := ⟨.overdamped, β, dx, β.nOut⟩

section
variable {β : PointBasis ℝ} {dx : ℕ} {T : ℝ} {F : Mat ℝ β.nOut β.nOut} {k C C' C'' E : ℝ → Mat ℝ β.nOut β.nOut}

/-- `evolve_volterra` of a model that has the coefficients of the process up to `ε`. -/
theorem evolve_estimated (hk : Spec.Lip T k) (hE : Spec.Evolution T F k E) :
    ∃ K δ : ℝ, 0 < δ ∧ ∀ (s : ModelState ℝ) (c : LArr ℝ) (d : String) (ker : KernelData ℝ β.nOut β.nOut) (ε : ℝ),
      s.bm = generatorModel β dx → HasForce s c d → s.kernel = some ⟨β.nOut, β.nOut, ker⟩ → 0 < s.dt → s.dt ≤ δ → 0 ≤ ε → ε ≤ δ →
      (∀ i j : Fin β.nOut, |c.get [i.1, j.1] - F i j| ≤ ε) → 1 ≤ ker.kernel.len →
      ∀ (garbage : ℕ → (ℕ → Mat ℝ β.nOut β.nOut) → Mat ℝ β.nOut β.nOut) (em : String) (G0 : Mat ℝ β.nOut β.nOut) (N : ℕ)
        (trunc : Option ℤ), em ∈ ["rect", "trapz"] → (∀ i j, |G0 i j - E 0 i j| ≤ ε) → 1 ≤ N → ((N - 1 : ℕ) : ℝ) * s.dt ≤ T →
        (∀ t ≤ ((N - 1 : ℕ) : ℝ) * s.dt, ((Spec.usedPoints ker.kernel.len trunc - 1 : ℕ) : ℝ) * s.dt < t → k t = 0) →
        (∀ n < Spec.usedPoints ker.kernel.len trunc, n < N → ∀ i j, |ker.kernel.get n i j - k (n * s.dt) i j| ≤ ε) →
        ∃ r, evolveModel garbage s G0 N em trunc = .ok r ∧
          ∀ t < N, r.1 t = t * s.dt ∧ ∀ i j, |r.2 t i j - E (t * s.dt) i j| ≤ K * (s.dt + ε) := by
  obtain ⟨K1, δ1, hδ1, H1⟩ := C130_evolve_rect_converges hk hE
  obtain ⟨K2, δ2, hδ2, H2⟩ := C131_evolve_trapz_partial hk hE
  refine ⟨max K1 K2, min δ1 δ2, lt_min hδ1 hδ2, ?_⟩
  intro s c d ker ε hbm hf hker hdt hdtδ hε hεδ hc hlen garbage em G0 N trunc hem hG0 hN hNT hz hkn
  obtain ⟨m, hm⟩ : ∃ m : IdeModel ℝ β.nOut, m = ⟨c.toMatrix β.nOut β.nOut, ker.kernel.len, ker.kernel.get, s.dt⟩ := ⟨_, rfl⟩
  have ht : m.trunc trunc = Spec.usedPoints ker.kernel.len trunc := by rw [hm]; rfl
  have hmd : m.dt = s.dt := by rw [hm]
  have h1 : 1 ≤ m.trunc trunc := by
    rw [ht]
    unfold Spec.usedPoints
    split
    · exact hlen
    · split_ifs <;> omega
  have near : NearEvolution m (m.trunc trunc) N G0 ε F k (E 0) := by
    refine ⟨fun i j => ?_, fun n hn hnN i j => ?_, hG0⟩
    · rw [hm]; exact hc i j
    · rw [ht] at hn
      rw [hmd]
      have := hkn n hn hnN i j
      rw [hm]
      exact this
  have e : evolveModel garbage s G0 N em trunc = evolveVolterra garbage m G0 N em trunc := by
    have hs := hf.shape
    rw [hbm] at hs
    unfold evolveModel
    rw [if_neg (by rw [hbm]; simp [generatorModel]), hf.force]
    dsimp only
    rw [hs, hker]
    dsimp only
    rw [if_neg (by simp [generatorModel, BasisModel.nForce]), dif_pos ⟨rfl, rfl⟩,
      if_neg (by simp [generatorModel, BasisModel.nForce]), hm]
    rfl
  rw [e, ← hmd]
  have fin : ∀ K', K' ≤ max K1 K2 → K' * (m.dt + ε) ≤ max K1 K2 * (m.dt + ε) := fun K' h =>
    mul_le_mul_of_nonneg_right h (by rw [hmd]; positivity)
  rcases List.mem_cons.1 hem with rfl | hem
  · obtain ⟨r, hr, h⟩ := H1 garbage m G0 N trunc ε (by rwa [hmd]) (by rw [hmd]; exact hdtδ.trans (min_le_left _ _)) hε
      (hεδ.trans (min_le_left _ _)) hN (by rwa [hmd]) h1 (by rw [ht, hmd]; exact hz) near
    exact ⟨r, hr, fun t htN => ⟨(h t htN).1, fun i j => ((h t htN).2 i j).trans (fin _ (le_max_left _ _))⟩⟩
  · obtain rfl := List.mem_singleton.1 hem
    obtain ⟨r, hr, h⟩ := H2 garbage m G0 N trunc ε (by rwa [hmd]) (by rw [hmd]; exact hdtδ.trans (min_le_right _ _)) hε
      (hεδ.trans (min_le_right _ _)) hN (by rwa [hmd]) h1 (by rw [ht, hmd]; exact hz) near
    exact ⟨r, hr, fun t htN => ⟨(h t htN).1, fun i j => ((h t htN).2 i j).trans (fin _ (le_max_right _ _))⟩⟩

/-- The third step, and the evolution. -/
theorem generator_done (hk : Spec.Lip T k) (hE : Spec.Evolution T F k E) :
    ∃ K δ : ℝ, 0 ≤ K ∧ 0 < δ ∧ ∀ (s1 : EstState ℝ) (c : LArr ℝ) (Cc : CorrsL ℝ) (d km : String) (ker : KernelData ℝ β.nOut β.nOut)
      (M : ℕ) (eF eK : ℝ), HasForce s1.model c d → s1.model.bm = generatorModel β dx → 1 ≤ s1.model.truncInd →
      (∀ i j : Fin β.nOut, |c.get [i.1, j.1] - F i j| ≤ eF) → (Cc.bkbk.shape[0]?).getD 0 = β.nOut → (Cc.bkdx.shape[1]?).getD 0 = β.nOut →
      computeKernel (some (Cc.toCorrs β.nOut β.nOut)) s1.model.truncInd s1.model.dt km none = .ok ker →
      ker.kernel.len = s1.model.truncInd → (∀ n < M, ∀ i j, |ker.kernel.get n i j - k (n * s1.model.dt) i j| ≤ eK) →
      0 < s1.model.dt → s1.model.dt ≤ δ → 0 ≤ eF → eF ≤ δ → 0 ≤ eK → eK ≤ δ →
      ∃ s3, computeKernelStep km (fun _ _ => none) { s1 with corrs := some Cc } = (s3, none) ∧
        ∀ (garbage : ℕ → (ℕ → Mat ℝ β.nOut β.nOut) → Mat ℝ β.nOut β.nOut) (em : String) (G0 : Mat ℝ β.nOut β.nOut) (N : ℕ)
          (trunc : Option ℤ) (η : ℝ), em ∈ ["rect", "trapz"] → 0 ≤ η → η ≤ δ → (∀ i j, |G0 i j - E 0 i j| ≤ η) → 1 ≤ N →
          ((N - 1 : ℕ) : ℝ) * s1.model.dt ≤ T → (N ≤ M ∨ Spec.usedPoints s1.model.truncInd trunc ≤ M) →
          (∀ t ≤ ((N - 1 : ℕ) : ℝ) * s1.model.dt,
            ((Spec.usedPoints s1.model.truncInd trunc - 1 : ℕ) : ℝ) * s1.model.dt < t → k t = 0) →
          ∃ r, evolveModel garbage s3.model G0 N em trunc = .ok r ∧
            ∀ t < N, r.1 t = t * s1.model.dt ∧ ∀ i j, |r.2 t i j - E (t * s1.model.dt) i j| ≤ K * (s1.model.dt + (eF + eK + η)) := by
  obtain ⟨K, δ, hδ, H⟩ := evolve_estimated (dx := dx) hk hE
  refine ⟨|K|, δ / 3, abs_nonneg K, by positivity, ?_⟩
  intro s1 c Cc d km ker M eF eK hf hbm htr hc b1 b2 hker hlen hkn hdt hdtδ hF0 hF hK0 hK
  have step := computeKernelStep_ok (s := { s1 with corrs := some Cc }) rfl b1 b2 (by dsimp only; omega)
    (km := km) (k0 := fun _ _ => none) hker
  refine ⟨_, step, ?_⟩
  intro garbage em G0 N trunc η hem hη0 hη hG0 hN hNT hM hz
  obtain ⟨r, hr, h⟩ := H { s1.model with method := some km, kernel := some ⟨_, _, ker⟩ } c d ker (eF + eK + η) hbm
    ⟨hf.force, hf.dims, hf.shape, hf.axis⟩ rfl hdt (by linarith) (by linarith) (by linarith)
    (fun i j => (hc i j).trans (by linarith)) (by omega) garbage em G0 N trunc hem (fun i j => (hG0 i j).trans (by linarith)) hN hNT
    (by rw [hlen]; exact hz) (fun n hn hnN i j => (hkn n (by rw [hlen] at hn; omega) i j).trans (by linarith))
  exact ⟨r, hr, fun t ht => ⟨(h t ht).1, fun i j => ((h t ht).2 i j).trans
    (mul_le_mul_of_nonneg_right (le_abs_self K) (by dsimp only; linarith))⟩⟩

theorem cross_bound (hT : 0 < T) (hE : Spec.Evolution T F k C) (hk : Spec.Lip T k) (hC : Spec.DerivOn T C C') :
    ∃ M, ∀ t ∈ Set.Icc 0 T, ∀ i j, |(Spec.stationaryAverages C C' C'').cross t i j| ≤ M ∧
      |(Spec.stationaryAverages C C' C'').dcross t i j| ≤ M := by
  obtain ⟨M1, -, h1⟩ := lip_bound (evolution_lip hE hk).1
  obtain ⟨M2, -, h2⟩ := lip_bound (evolution_lip' hT hE hk hC)
  refine ⟨max M1 M2, fun t ht i j => ⟨((entry_le_norm _ i j).trans (h1 t ht)).trans (le_max_left _ _), ?_⟩⟩
  change |-C' t i j| ≤ _
  rw [abs_neg]
  exact ((entry_le_norm _ i j).trans (h2 t ht)).trans (le_max_right _ _)

/-- **C163**, kernel from the rectangle rule of the first kind. Functions of a stationary process have correlations `C` that obey
`C'(t) = C(t) F - ∫_0^t C(t-s) k(s) ds`, and the averages over the trajectories are those of the process up to `ε`, the observable
being the time derivative of the functions. After the estimation `evolve_volterra`, from an initial value known up to `η`, returns the
solution `E` of the equation of the process up to `K (dt + ε / dt + η)`. -/
theorem C163_rect (hT : 0 < T) (hk : Spec.Lip T k) (hC0 : (C 0).det ≠ 0) (hE : Spec.Evolution T F k C) (hC : Spec.DerivOn T C C')
    (hE' : Spec.Evolution T F k E) :
    ∃ K δ : ℝ, 0 < δ ∧ ∀ (env : Env ℝ) (method km : String) (vectorize : Bool) (rankTol : Option ℝ) (d : String)
      (s : EstState ℝ) (ε : ℝ), km ∈ ["rect", "rectangular"] → Setup env method vectorize (generatorModel β dx) d s →
      Spec.NearAverages (generatorModel β dx) s.model.Lobs (Spec.stationaryAverages C C' C'') s.xvas s.model.truncInd s.model.dt ε →
      0 < s.model.dt → s.model.dt ≤ δ → 0 ≤ ε → ε ≤ δ * s.model.dt → 2 ≤ s.model.truncInd →
      ((s.model.truncInd - 1 : ℕ) : ℝ) * s.model.dt ≤ T →
      ∃ s1 s2 s3, computeMeanForce env s = (s1, none) ∧ computeCorrs env method vectorize true rankTol s1 = (s2, none) ∧
        computeKernelStep km (fun _ _ => none) s2 = (s3, none) ∧
        ∀ (garbage : ℕ → (ℕ → Mat ℝ β.nOut β.nOut) → Mat ℝ β.nOut β.nOut) (em : String) (G0 : Mat ℝ β.nOut β.nOut) (N : ℕ)
          (trunc : Option ℤ) (η : ℝ), em ∈ ["rect", "trapz"] → 0 ≤ η → η ≤ δ → (∀ i j, |G0 i j - E 0 i j| ≤ η) → 1 ≤ N →
          ((N - 1 : ℕ) : ℝ) * s.model.dt ≤ T → (N < s.model.truncInd ∨ Spec.usedPoints s.model.truncInd trunc < s.model.truncInd) →
          (∀ t ≤ ((N - 1 : ℕ) : ℝ) * s.model.dt,
            ((Spec.usedPoints s.model.truncInd trunc - 1 : ℕ) : ℝ) * s.model.dt < t → k t = 0) →
          ∃ r, evolveModel garbage s3.model G0 N em trunc = .ok r ∧ ∀ t < N, r.1 t = t * s.model.dt ∧
            ∀ i j, |r.2 t i j - E (t * s.model.dt) i j| ≤ K * (s.model.dt + ε / s.model.dt + η) := by
  obtain ⟨MW, hW⟩ := cross_bound (C'' := C'') hT hE hk hC
  obtain ⟨K0, δ0, hK0, hδ0, H0⟩ := estimate_near (m := generatorModel β dx) (μ := Spec.stationaryAverages C C' C'') hC0
    (evolution_force hT hE hC) hW
  obtain ⟨K1, δ1, hδ1, H1⟩ := C126_rect_converges hC0 hC (evolution_lip' hT hE hk hC) hk (evolution_firstKind (C'' := C'') hT hE hC)
  obtain ⟨K2, δ2, hK2, hδ2, H2⟩ := generator_done (dx := dx) hk hE'
  obtain ⟨K3, hK3⟩ : ∃ K3 : ℝ, K3 = |K1| * (1 + K0) := ⟨_, rfl⟩
  have hK3n : 0 ≤ K3 := by rw [hK3]; positivity
  refine ⟨K2 * (1 + K0 + K3), min 1 (min δ0 (min δ1 (min (δ1 / K0) (min δ2 (min (δ2 / K0) (δ2 / (2 * (K3 + 1)))))))), by positivity, ?_⟩
  intro env method km vectorize rankTol d s ε hkm hs hn hdt hdtδ hε hεδ h2 hT'
  obtain ⟨δ, hδ⟩ : ∃ δ : ℝ, δ = min 1 (min δ0 (min δ1 (min (δ1 / K0) (min δ2 (min (δ2 / K0) (δ2 / (2 * (K3 + 1)))))))) := ⟨_, rfl⟩
  rw [← hδ] at hdtδ hεδ ⊢
  have q1 : δ ≤ 1 := by rw [hδ]; exact min_le_left _ _
  have q2 : δ ≤ δ0 := by rw [hδ]; exact (min_le_right _ _).trans (min_le_left _ _)
  have q3 : δ ≤ δ1 := by rw [hδ]; exact (min_le_right _ _).trans ((min_le_right _ _).trans (min_le_left _ _))
  have q4 : δ ≤ δ1 / K0 := by
    rw [hδ]; exact (min_le_right _ _).trans ((min_le_right _ _).trans ((min_le_right _ _).trans (min_le_left _ _)))
  have q5 : δ ≤ δ2 := by
    rw [hδ]
    exact (min_le_right _ _).trans ((min_le_right _ _).trans ((min_le_right _ _).trans ((min_le_right _ _).trans (min_le_left _ _))))
  have q6 : δ ≤ δ2 / K0 := by
    rw [hδ]
    exact (min_le_right _ _).trans ((min_le_right _ _).trans ((min_le_right _ _).trans ((min_le_right _ _).trans
      ((min_le_right _ _).trans (min_le_left _ _)))))
  have q7 : δ ≤ δ2 / (2 * (K3 + 1)) := by
    rw [hδ]
    exact (min_le_right _ _).trans ((min_le_right _ _).trans ((min_le_right _ _).trans ((min_le_right _ _).trans
      ((min_le_right _ _).trans (min_le_right _ _)))))
  have hδ0' : 0 ≤ δ := hdt.le.trans hdtδ
  have l1 : s.model.dt ≤ 1 := hdtδ.trans q1
  have l0 : ε ≤ δ := hεδ.trans (mul_le_of_le_one_right hδ0' l1)
  have l4 : K0 * ε ≤ δ1 * s.model.dt := by
    calc K0 * ε ≤ K0 * (δ1 / K0 * s.model.dt) :=
          mul_le_mul_of_nonneg_left (hεδ.trans (mul_le_mul_of_nonneg_right q4 hdt.le)) hK0.le
      _ = δ1 * s.model.dt := by field_simp
  obtain ⟨s1, c, Cc, h1, hCc, r, hf, hbm, hdt1, htr, hp, hc, b1, b2, hN, near, -⟩ :=
    H0 env method vectorize rankTol d s ε hs hn hε (l0.trans q2) hdt.le hT'
  obtain ⟨ker, hker, k1, k2, -, k4⟩ := H1 _ s.model.dt (K0 * ε) km none hkm hdt (hdtδ.trans q3) (by positivity) l4
    (by rw [hN]; exact h2) (by rw [hN]; exact hT') near
  rw [hN] at hker k1 k2 k4
  have e1 : 0 ≤ ε / s.model.dt := by positivity
  have e2 : ε / s.model.dt ≤ δ := by rwa [div_le_iff₀ hdt]
  have e3 : ε ≤ ε / s.model.dt := by
    rw [le_div_iff₀ hdt]
    exact mul_le_of_le_one_right hε l1
  have bound : K1 * (s.model.dt + K0 * ε / s.model.dt) ≤ K3 * (s.model.dt + ε / s.model.dt) := by
    rw [hK3, mul_div_assoc]
    refine (mul_le_mul_of_nonneg_right (le_abs_self K1) (by positivity)).trans ?_
    rw [mul_assoc]
    refine mul_le_mul_of_nonneg_left ?_ (abs_nonneg _)
    nlinarith [mul_nonneg hK0.le hdt.le]
  have p7 : δ * (2 * (K3 + 1)) ≤ δ2 := by rwa [le_div_iff₀ (by positivity)] at q7
  have p6 : K0 * δ ≤ δ2 := by rwa [le_div_iff₀' hK0] at q6
  obtain ⟨s3, h3, H3⟩ := H2 s1 c Cc d km ker (s.model.truncInd - 1) (K0 * ε) (K3 * (s.model.dt + ε / s.model.dt)) hf hbm
    (by omega) hc b1 b2 (by rw [htr, hdt1]; exact hker) (by rw [htr]; exact k1)
    (fun n hn' i j => by rw [hdt1]; exact ((k4 n hn').2 i j).trans bound) (by rwa [hdt1]) (by rw [hdt1]; exact hdtδ.trans q5)
    (by positivity) ((mul_le_mul_of_nonneg_left l0 hK0.le).trans p6) (by positivity) (by nlinarith)
  refine ⟨s1, _, s3, h1, hCc, h3, ?_⟩
  intro garbage em G0 N trunc η hem hη0 hη hG0 hN1 hNT hM hz
  rw [hdt1, htr] at H3
  obtain ⟨R, hR, hval⟩ := H3 garbage em G0 N trunc η hem hη0 (hη.trans q5) hG0 hN1 hNT (by omega) hz
  refine ⟨R, hR, fun t ht => ⟨(hval t ht).1, fun i j => ((hval t ht).2 i j).trans ?_⟩⟩
  rw [mul_assoc]
  refine mul_le_mul_of_nonneg_left ?_ hK2
  have := mul_nonneg hK0.le hdt.le
  have := mul_nonneg hK0.le hη0
  have := mul_nonneg hK3n hη0
  have := mul_le_mul_of_nonneg_left e3 hK0.le
  nlinarith

/-- **C163**, kernel from the rectangle rule of the second kind: the error is at most `K (dt + ε + η)`. -/
theorem C163_second_kind_rect (hT : 0 < T) (hk : Spec.Lip T k) (hC0 : (C 0).det ≠ 0) (hE : Spec.Evolution T F k C)
    (hC : Spec.DerivOn T C C') (hC' : Spec.DerivOn T C' C'') (hE' : Spec.Evolution T F k E) :
    ∃ K δ : ℝ, 0 < δ ∧ ∀ (env : Env ℝ) (method : String) (vectorize : Bool) (rankTol : Option ℝ) (d : String)
      (s : EstState ℝ) (ε : ℝ), Setup env method vectorize (generatorModel β dx) d s →
      Spec.NearAverages (generatorModel β dx) s.model.Lobs (Spec.stationaryAverages C C' C'') s.xvas s.model.truncInd s.model.dt ε →
      0 < s.model.dt → s.model.dt ≤ δ → 0 ≤ ε → ε ≤ δ → ((s.model.truncInd - 1 : ℕ) : ℝ) * s.model.dt ≤ T →
      ∃ s1 s2 s3, computeMeanForce env s = (s1, none) ∧ computeCorrs env method vectorize true rankTol s1 = (s2, none) ∧
        computeKernelStep "second_kind_rect" (fun _ _ => none) s2 = (s3, none) ∧
        ∀ (garbage : ℕ → (ℕ → Mat ℝ β.nOut β.nOut) → Mat ℝ β.nOut β.nOut) (em : String) (G0 : Mat ℝ β.nOut β.nOut) (N : ℕ)
          (trunc : Option ℤ) (η : ℝ), em ∈ ["rect", "trapz"] → 0 ≤ η → η ≤ δ → (∀ i j, |G0 i j - E 0 i j| ≤ η) → 1 ≤ N →
          ((N - 1 : ℕ) : ℝ) * s.model.dt ≤ T →
          (∀ t ≤ ((N - 1 : ℕ) : ℝ) * s.model.dt,
            ((Spec.usedPoints s.model.truncInd trunc - 1 : ℕ) : ℝ) * s.model.dt < t → k t = 0) →
          ∃ r, evolveModel garbage s3.model G0 N em trunc = .ok r ∧ ∀ t < N, r.1 t = t * s.model.dt ∧
            ∀ i j, |r.2 t i j - E (t * s.model.dt) i j| ≤ K * (s.model.dt + ε + η) := by
  obtain ⟨MW, hW⟩ := cross_bound (C'' := C'') hT hE hk hC
  obtain ⟨K0, δ0, hK0, hδ0, H0⟩ := estimate_near (m := generatorModel β dx) (μ := Spec.stationaryAverages C C' C'') hC0
    (evolution_force hT hE hC) hW
  have hlip : Spec.Lip T fun t => -C' t := by
    obtain ⟨L, hL⟩ := evolution_lip' hT hE hk hC
    refine ⟨L, fun s hs t ht i j => ?_⟩
    have := hL s hs t ht i j
    rw [← abs_neg] at this
    refine le_of_eq_of_le (congrArg abs ?_) this
    change -C' s i j - -C' t i j = _
    ring
  obtain ⟨K1, δ1, hδ1, H1⟩ := C124_second_kind_rect_converges hC0 hlip hk (evolution_secondKind hT hE hk hC hC')
  obtain ⟨K2, δ2, hK2, hδ2, H2⟩ := generator_done (dx := dx) hk hE'
  obtain ⟨K3, hK3⟩ : ∃ K3 : ℝ, K3 = |K1| * (1 + K0) := ⟨_, rfl⟩
  have hK3n : 0 ≤ K3 := by rw [hK3]; positivity
  refine ⟨K2 * (1 + K0 + K3), min δ0 (min δ1 (min (δ1 / K0) (min δ2 (min (δ2 / K0) (δ2 / (2 * (K3 + 1))))))), by positivity, ?_⟩
  intro env method vectorize rankTol d s ε hs hn hdt hdtδ hε hεδ hT'
  obtain ⟨δ, hδ⟩ : ∃ δ : ℝ, δ = min δ0 (min δ1 (min (δ1 / K0) (min δ2 (min (δ2 / K0) (δ2 / (2 * (K3 + 1))))))) := ⟨_, rfl⟩
  rw [← hδ] at hdtδ hεδ ⊢
  have q2 : δ ≤ δ0 := by rw [hδ]; exact min_le_left _ _
  have q3 : δ ≤ δ1 := by rw [hδ]; exact (min_le_right _ _).trans (min_le_left _ _)
  have q4 : δ ≤ δ1 / K0 := by rw [hδ]; exact (min_le_right _ _).trans ((min_le_right _ _).trans (min_le_left _ _))
  have q5 : δ ≤ δ2 := by
    rw [hδ]; exact (min_le_right _ _).trans ((min_le_right _ _).trans ((min_le_right _ _).trans (min_le_left _ _)))
  have q6 : δ ≤ δ2 / K0 := by
    rw [hδ]
    exact (min_le_right _ _).trans ((min_le_right _ _).trans ((min_le_right _ _).trans ((min_le_right _ _).trans (min_le_left _ _))))
  have q7 : δ ≤ δ2 / (2 * (K3 + 1)) := by
    rw [hδ]
    exact (min_le_right _ _).trans ((min_le_right _ _).trans ((min_le_right _ _).trans ((min_le_right _ _).trans (min_le_right _ _))))
  obtain ⟨s1, c, Cc, h1, hCc, r, hf, hbm, hdt1, htr, hp, hc, b1, b2, hN, -, near⟩ :=
    H0 env method vectorize rankTol d s ε hs hn hε (hεδ.trans q2) hdt.le hT'
  obtain ⟨ker, hker, k1, k2, k4⟩ := H1 _ s.model.dt (K0 * ε) hdt (hdtδ.trans q3) (by positivity)
    (by rw [le_div_iff₀' hK0] at q4; exact (mul_le_mul_of_nonneg_left hεδ hK0.le).trans q4)
    (by rw [hN]; exact hs.tpos) (by rw [hN]; exact hT') (near (by simp [generatorModel]))
  rw [hN] at hker k1 k2 k4
  have bound : K1 * (s.model.dt + K0 * ε) ≤ K3 * (s.model.dt + ε) := by
    rw [hK3]
    refine (mul_le_mul_of_nonneg_right (le_abs_self K1) (by positivity)).trans ?_
    rw [mul_assoc]
    refine mul_le_mul_of_nonneg_left ?_ (abs_nonneg _)
    nlinarith [mul_nonneg hK0.le hdt.le]
  have p7 : δ * (2 * (K3 + 1)) ≤ δ2 := by rwa [le_div_iff₀ (by positivity)] at q7
  have p6 : K0 * δ ≤ δ2 := by rwa [le_div_iff₀' hK0] at q6
  have htp := hs.tpos
  obtain ⟨s3, h3, H3⟩ := H2 s1 c Cc d _ ker s.model.truncInd (K0 * ε) (K3 * (s.model.dt + ε)) hf hbm
    (by omega) hc b1 b2 (by rw [htr, hdt1]; exact hker) (by rw [htr]; exact k1)
    (fun n hn' i j => by rw [hdt1]; exact ((k4 n hn').2 i j).trans bound) (by rwa [hdt1]) (by rw [hdt1]; exact hdtδ.trans q5)
    (by positivity) ((mul_le_mul_of_nonneg_left hεδ hK0.le).trans p6) (by positivity) (by nlinarith)
  refine ⟨s1, _, s3, h1, hCc, h3, ?_⟩
  intro garbage em G0 N trunc η hem hη0 hη hG0 hN1 hNT hz
  rw [hdt1, htr] at H3
  obtain ⟨R, hR, hval⟩ := H3 garbage em G0 N trunc η hem hη0 (hη.trans q5) hG0 hN1 hNT
    (.inr (by unfold Spec.usedPoints; split <;> [exact le_rfl; split_ifs <;> omega])) hz
  refine ⟨R, hR, fun t ht => ⟨(hval t ht).1, fun i j => ((hval t ht).2 i j).trans ?_⟩⟩
  rw [mul_assoc]
  refine mul_le_mul_of_nonneg_left ?_ hK2
  have := mul_nonneg hK0.le hdt.le
  have := mul_nonneg hK0.le hη0
  have := mul_nonneg hK3n hη0
  nlinarith

/-! ### ... starting with `to_gfpe` -/

theorem meanCorr_forall₂ {xvas ys : List (Xva ℝ)} {R : Xva ℝ → Xva ℝ → Prop} (h : List.Forall₂ R xvas ys) {f g f' g' : Xva ℝ → ℕ → ℝ}
    (hn : ∀ a y, R a y → y.n = a.n) (hf : ∀ a y, R a y → ∀ t < a.n, f' y t = f a t) (hg : ∀ a y, R a y → ∀ t < a.n, g' y t = g a t)
    (n : ℕ) : Spec.meanCorr ys f' g' n = Spec.meanCorr xvas f g n := by
  unfold Spec.meanCorr
  congr 1
  refine (forall₂_map_congr h fun a y hr => ?_).symm
  rw [hn a y hr]
  refine Prod.ext rfl ?_
  unfold Spec.corr
  refine congrArg (· / _) (sum_congr rfl fun t ht => ?_)
  have ht := mem_range.1 ht
  rw [hf a y hr t (by omega), hg a y hr (t + n) (by omega)]

theorem pooledMean_forall₂ {xvas ys : List (Xva ℝ)} {R : Xva ℝ → Xva ℝ → Prop} (h : List.Forall₂ R xvas ys) {f f' : Xva ℝ → ℕ → ℝ}
    (hn : ∀ a y, R a y → y.n = a.n) (hf : ∀ a y, R a y → ∀ t < a.n, f' y t = f a t) :
    Spec.pooledMean (ys.map fun y => (y.n, f' y)) = Spec.pooledMean (xvas.map fun y => (y.n, f y)) := by
  unfold Spec.pooledMean Spec.pooledSum
  simp only [List.map_map]
  have e1 : (xvas.map ((fun s : ℕ × (ℕ → ℝ) => ∑ t ∈ range s.1, s.2 t) ∘ fun y => (y.n, f y))) =
      ys.map ((fun s : ℕ × (ℕ → ℝ) => ∑ t ∈ range s.1, s.2 t) ∘ fun y => (y.n, f' y)) :=
    forall₂_map_congr h fun a y hr => by
      simp only [Function.comp]
      rw [hn a y hr]
      exact sum_congr rfl fun t ht => (hf a y hr t (mem_range.1 ht)).symm
  have e2 : (xvas.map ((fun s : ℕ × (ℕ → ℝ) => s.1) ∘ fun y => (y.n, f y))) =
      ys.map ((fun s : ℕ × (ℕ → ℝ) => s.1) ∘ fun y => (y.n, f' y)) :=
    forall₂_map_congr h fun a y hr => (hn a y hr).symm
  rw [e1, e2]

/-- **C163**, `to_gfpe`: the estimator it leaves meets the hypotheses of `C163_rect` and `C163_second_kind_rect`, when the averages
over the trajectories, of products of basis functions and of their time derivatives, are those of the process up to `ε`. The model may
have had another observable before. -/
theorem C163_to_gfpe {env : Env ℝ} {method : String} {vectorize : Bool} (hl : IsLoop env.loop)
    (hfn : IsCorrFn (env.corrFn method vectorize)) {s : EstState ℝ} (hc : s.model.bm.cls = .overdamped) (hb : s.model.bm.basis = β)
    (hd : s.model.bm.dimx = dx) (hwf : s.model.bm.WF) (hne : s.xvas ≠ []) (hx : ∀ xva ∈ s.xvas, xva.dimx = dx) (h1 : 1 ≤ β.nOut)
    (ht : 1 ≤ s.model.truncInd) (hle : ∀ xva ∈ s.xvas, s.model.truncInd ≤ xva.n) {name : String} (hname : name ∉ ["x", "v", "a"]) {ε : ℝ}
    (hn : Spec.NearGenerator β C C' C'' s.xvas s.model.truncInd s.model.dt ε) :
    ∃ s', toGfpe none name s = (s', none) ∧ Setup env method vectorize (generatorModel β dx) "dim_dE" s' ∧
      s'.model.truncInd = s.model.truncInd ∧ s'.model.dt = s.model.dt ∧
      Spec.NearAverages (generatorModel β dx) s'.model.Lobs (Spec.stationaryAverages C C' C'') s'.xvas s'.model.truncInd s'.model.dt ε := by
  have hbm : s.model.bm = ⟨.overdamped, β, dx, s.model.bm.dimObs⟩ := by
    rw [← hc, ← hb, ← hd]
  obtain ⟨ys, e, hy⟩ := C112_to_gfpe hwf hne (by rw [hd]; exact hx) name
  have hN : Spec.nCorr s.model.bm = β.nOut := by rw [hbm]; rfl
  have hcd : codeDot s.model.bm = Spec.alongDot β := by
    funext xva t i
    rw [hbm]
    rfl
  rw [hN, hcd] at hy
  have hv : ∀ nm ∈ ["x", "v", "a"], nm ≠ name := by
    rintro nm h rfl
    exact hname h
  have gn : ∀ a y, WithObs name β.nOut (Spec.alongDot β) a y → y.n = a.n := fun a y h => h.n
  have gf : ∀ a y, WithObs name β.nOut (Spec.alongDot β) a y → ∀ t i, Spec.forceFeature (generatorModel β dx) y t i = Spec.along β a t i := by
    intro a y h t i
    unfold Spec.forceFeature Spec.along
    rw [if_neg (by simp [generatorModel]), (h.other "x" (hv _ (by decide))).1]
    rfl
  have gc : ∀ a y, WithObs name β.nOut (Spec.alongDot β) a y → ∀ t i, Spec.corrFeature (generatorModel β dx) y t i = Spec.along β a t i := by
    intro a y h t i
    simp only [Spec.corrFeature, generatorModel, Spec.along]
    rw [(h.other "x" (hv _ (by decide))).1]
  have gd : ∀ a y, WithObs name β.nOut (Spec.alongDot β) a y → ∀ t i,
      Spec.corrFeatureDot (generatorModel β dx) y t i = Spec.alongDot β a t i := by
    intro a y h t i
    simp only [Spec.corrFeatureDot, generatorModel, Spec.alongDot]
    rw [(h.other "x" (hv _ (by decide))).1, (h.other "v" (hv _ (by decide))).1, h.dimx]
  have go : ∀ a y, WithObs name β.nOut (Spec.alongDot β) a y → ∀ t < a.n, ∀ i : Fin β.nOut, y.data name t i = Spec.alongDot β a t i :=
    fun a y h t ht i => h.data t ht i i.2
  refine ⟨_, e, ⟨hl, hfn, ?_, ?_, rfl, ⟨by decide, by decide, fun y h => ?_⟩, by decide, fun y h => ?_, h1, h1, ht, fun y h => ?_, ?_⟩,
    rfl, rfl, ?_⟩
  · dsimp only
    rw [hN, hbm]
    rfl
  · rw [BasisModel.WF, hb, hd] at hwf
    exact hwf
  · obtain ⟨a, -, hr⟩ := forall₂_mem_right hy y h
    unfold Xva.var
    dsimp only
    rw [if_neg hname]
    simp [mk2, hr.dims, hr.size, generatorModel]
  · obtain ⟨a, ha, hr⟩ := forall₂_mem_right hy y h
    rw [hr.dimx]
    exact hx a ha
  · obtain ⟨a, ha, hr⟩ := forall₂_mem_right hy y h
    rw [hr.n]
    exact hle a ha
  · rintro rfl
    cases hy' : s.xvas with
    | nil => exact hne hy'
    | cons a l => rw [hy'] at hy; cases hy
  · refine ⟨fun i j => ?_, fun i j => ?_, fun n hn' i j => ?_, fun n hn' i j => ?_, fun n hn' i j => ?_, fun n hn' i j => ?_,
      fun n hn' i j => ?_, fun n hn' i j => ?_⟩
    · refine le_of_eq_of_le (congrArg (fun v => |v - _|) ?_) (hn.gram i j)
      exact pooledMean_forall₂ hy gn fun a y hr t _ => by rw [gf a y hr, gf a y hr]
    · refine le_of_eq_of_le (congrArg (fun v => |v - _|) ?_) (hn.proj i j)
      exact pooledMean_forall₂ hy gn fun a y hr t ht => congrArg₂ (· * ·) (gf a y hr t i) (go a y hr t ht j)
    · refine le_of_eq_of_le (congrArg (fun v => |v - _|) ?_) (hn.corr n hn' i j)
      exact meanCorr_forall₂ hy gn (fun a y hr t _ => gc a y hr t i) (fun a y hr t _ => gc a y hr t j) n
    · refine le_of_eq_of_le (congrArg (fun v => |v - _|) ?_) (hn.dot n hn' i j)
      exact meanCorr_forall₂ hy gn (fun a y hr t _ => gc a y hr t i) (fun a y hr t ht => go a y hr t ht j) n
    · refine le_of_eq_of_le (congrArg (fun v => |v - _|) ?_) (hn.corr n hn' i j)
      exact meanCorr_forall₂ hy gn (fun a y hr t _ => gc a y hr t i) (fun a y hr t _ => gf a y hr t j) n
    · refine le_of_eq_of_le ?_ (hn.dot' n hn' i j)
      rw [← sub_neg_eq_add]
      refine congrArg (fun v => |v - _|) ?_
      exact meanCorr_forall₂ hy gn (fun a y hr t _ => gd a y hr t i) (fun a y hr t _ => gc a y hr t j) n
    · refine le_of_eq_of_le ?_ (hn.ddot n hn' i j)
      rw [← sub_neg_eq_add]
      refine congrArg (fun v => |v - _|) ?_
      exact meanCorr_forall₂ hy gn (fun a y hr t _ => gd a y hr t i) (fun a y hr t ht => go a y hr t ht j) n
    · refine le_of_eq_of_le ?_ (hn.dot' n hn' i j)
      rw [← sub_neg_eq_add]
      refine congrArg (fun v => |v - _|) ?_
      exact meanCorr_forall₂ hy gn (fun a y hr t _ => gd a y hr t i) (fun a y hr t _ => gf a y hr t j) n

/-- **C163**, the whole: from trajectories of a stationary process, `to_gfpe`, the estimation with the rectangle rule of the second kind
and `evolve_volterra` from `C(0)` predict the correlations `C(n dt)` of the process, up to `K (dt + ε + η)`. -/
theorem C163_correlations (hT : 0 < T) (hk : Spec.Lip T k) (hC0 : (C 0).det ≠ 0) (hE : Spec.Evolution T F k C)
    (hC : Spec.DerivOn T C C') (hC' : Spec.DerivOn T C' C'') :
    ∃ K δ : ℝ, 0 < δ ∧ ∀ (env : Env ℝ) (method : String) (vectorize : Bool) (rankTol : Option ℝ) (s : EstState ℝ) (name : String)
      (ε : ℝ), IsLoop env.loop → IsCorrFn (env.corrFn method vectorize) → s.model.bm.cls = .overdamped → s.model.bm.basis = β →
      s.model.bm.WF → s.xvas ≠ [] → (∀ xva ∈ s.xvas, xva.dimx = s.model.bm.dimx) → 1 ≤ β.nOut → 1 ≤ s.model.truncInd →
      (∀ xva ∈ s.xvas, s.model.truncInd ≤ xva.n) → name ∉ ["x", "v", "a"] →
      Spec.NearGenerator β C C' C'' s.xvas s.model.truncInd s.model.dt ε →
      s.model.bm.dimx = dx → 0 < s.model.dt → s.model.dt ≤ δ → 0 ≤ ε → ε ≤ δ → ((s.model.truncInd - 1 : ℕ) : ℝ) * s.model.dt ≤ T →
      ∃ s0 s1 s2 s3, toGfpe none name s = (s0, none) ∧ computeMeanForce env s0 = (s1, none) ∧
        computeCorrs env method vectorize true rankTol s1 = (s2, none) ∧
        computeKernelStep "second_kind_rect" (fun _ _ => none) s2 = (s3, none) ∧
        ∀ (garbage : ℕ → (ℕ → Mat ℝ β.nOut β.nOut) → Mat ℝ β.nOut β.nOut) (em : String) (G0 : Mat ℝ β.nOut β.nOut) (N : ℕ) (η : ℝ),
          em ∈ ["rect", "trapz"] → 0 ≤ η → η ≤ δ → (∀ i j, |G0 i j - C 0 i j| ≤ η) → 1 ≤ N → N ≤ s.model.truncInd →
          ∃ r, evolveModel garbage s3.model G0 N em none = .ok r ∧ ∀ t < N, r.1 t = t * s.model.dt ∧
            ∀ i j, |r.2 t i j - C (t * s.model.dt) i j| ≤ K * (s.model.dt + ε + η) := by
  obtain ⟨K, δ, hδ, H⟩ := C163_second_kind_rect (dx := dx) hT hk hC0 hE hC hC' hE
  refine ⟨K, δ, hδ, ?_⟩
  intro env method vectorize rankTol s name ε hl hfn hc hb hwf hne hx h1 ht hle hname hn hd hdt hdtδ hε hεδ hT'
  obtain ⟨s0, e0, hs, e1, e2, near⟩ := C163_to_gfpe hl hfn hc hb hd hwf hne (by rw [← hd]; exact hx) h1 ht hle hname hn
  obtain ⟨s1, s2, s3, g1, g2, g3, G⟩ := H env method vectorize rankTol "dim_dE" s0 ε hs near (by rwa [e2]) (by rwa [e2]) hε hεδ
    (by rwa [e1, e2])
  refine ⟨s0, s1, s2, s3, e0, g1, g2, g3, ?_⟩
  rw [e1, e2] at G
  intro garbage em G0 N η hem hη0 hη hG0 hN hNt
  have hle : ((N - 1 : ℕ) : ℝ) * s.model.dt ≤ ((s.model.truncInd - 1 : ℕ) : ℝ) * s.model.dt := by
    refine mul_le_mul_of_nonneg_right ?_ hdt.le
    exact_mod_cast (by omega : N - 1 ≤ s.model.truncInd - 1)
  exact G garbage em G0 N none η hem hη0 hη hG0 hN (hle.trans hT') fun t h1 h2 => absurd (h2.trans_le (h1.trans hle)) (lt_irrefl _)

end

end Verif
