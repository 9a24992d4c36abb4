import Verif.Props.PmfNear
import Verif.Props.FeLimit
import Mathlib.Analysis.Calculus.MeanValue
import Mathlib.MeasureTheory.Integral.IntervalIntegral.FundThmCalculus

/-!
# The two free energies agree (C172)
-/

namespace Verif

open Finset MeasureTheory ProbabilityTheory Filter
open Spec (Statics FindsPotential edgeAt share)

universe u v

set_option linter.unusedSectionVars false

namespace Spec

/-- The distribution of the positions in `[lo, hi]` is proportional to `exp (-Φ)`, where `Φ` has the derivative `Φ'`, of size at most `L`. -/
structure Boltzmann {E : Type u} [MeasurableSpace E] (ν : Measure E) (traj : E → Xva ℝ) (n : ℕ) (lo hi : ℝ) (Φ Φ' : ℝ → ℝ) (L Z : ℝ) : Prop where
  pos : 0 < Z
  share : ∀ a b, lo ≤ a → a ≤ b → b ≤ hi → share ν traj n 1 a b = (∫ y in a..b, Real.exp (-Φ y)) / Z
  deriv : ∀ y ∈ Set.Icc lo hi, HasDerivAt Φ (Φ' y) y
  bound : ∀ y ∈ Set.Icc lo hi, |Φ' y| ≤ L

/-- The coefficients `F` and the mass `W` are those of the force `-Φ'`: on `[lo, hi]` the antiderivatives of the basis are antiderivatives,
and the force times the mass is `-Φ'`. -/
structure Conservative (m : BasisModel ℝ) (F W : ℕ → ℕ → ℝ) (lo hi : ℝ) (Φ' : ℝ → ℝ) : Prop where
  anti : ∀ k < m.basis.nOut, ∀ y ∈ Set.Icc lo hi, HasDerivAt (fun z => m.basis.antiderivative (fun _ => z) k) (m.basis.basis (fun _ => y) k) y
  force : ∀ y ∈ Set.Icc lo hi, (∑ k ∈ range m.basis.nOut, m.basis.basis (fun _ => y) k * F k 0) *
    (if m.cls = .overdamped then 1 else W 0 0) = -Φ' y

end Spec

section
variable {E : Type u} {Ω : Type v} [MeasurableSpace E] [MeasurableSpace Ω] {ν : Measure E} {P : Measure Ω} {X : ℕ → Ω → E}
  {traj : E → Xva ℝ} {n b : ℕ} {lo hi : ℝ} {Φ Φ' : ℝ → ℝ} {L Z : ℝ}

theorem lipschitz_of (hB : Spec.Boltzmann ν traj n lo hi Φ Φ' L Z) {y z : ℝ} (hy : y ∈ Set.Icc lo hi) (hz : z ∈ Set.Icc lo hi) :
    |Φ z - Φ y| ≤ L * |z - y| := by
  have := (convex_Icc lo hi).norm_image_sub_le_of_norm_hasDerivWithin_le (f := Φ) (f' := Φ') (C := L)
    (fun w hw => (hB.deriv w hw).hasDerivWithinAt) (fun w hw => by rw [Real.norm_eq_abs]; exact hB.bound w hw) hy hz
  simpa only [Real.norm_eq_abs] using this

/-- The potential of the process is `Φ` up to a constant. -/
theorem potential_const {m : BasisModel ℝ} (ho : m.dimObs = 1) {F W : ℕ → ℕ → ℝ} (hB : Spec.Boltzmann ν traj n lo hi Φ Φ' L Z)
    (hc : Spec.Conservative m F W lo hi Φ') {y z : ℝ} (hy : y ∈ Set.Icc lo hi) (hz : z ∈ Set.Icc lo hi) :
    Spec.potential m F W 1 (fun _ => z) 0 - Spec.potential m F W 1 (fun _ => y) 0 = Φ z - Φ y := by
  have e : (fun y => Spec.potential m F W 1 (fun _ => y) 0) = fun y =>
      -((∑ k ∈ range m.basis.nOut, m.basis.antiderivative (fun _ => y) k * F k 0) * (if m.cls = .overdamped then 1 else W 0 0)) := by
    funext y
    simp only [Spec.potential, ho, Finset.sum_range_one, if_true, div_one]
  have hd : ∀ w ∈ Set.Icc lo hi, HasDerivAt (fun y => Spec.potential m F W 1 (fun _ => y) 0 - Φ y) 0 w := by
    intro w hw
    have h1 : HasDerivAt (fun y => ∑ k ∈ range m.basis.nOut, m.basis.antiderivative (fun _ => y) k * F k 0)
        (∑ k ∈ range m.basis.nOut, m.basis.basis (fun _ => w) k * F k 0) w :=
      HasDerivAt.fun_sum fun k hk => (hc.anti k (mem_range.1 hk) w hw).mul_const _
    have h2 : HasDerivAt (fun y => Spec.potential m F W 1 (fun _ => y) 0) (Φ' w) w := by
      rw [e]
      refine (h1.mul_const _).neg.congr_deriv ?_
      rw [hc.force w hw, neg_neg]
    refine (h2.sub (hB.deriv w hw)).congr_deriv (sub_self _)
  have := (convex_Icc lo hi).norm_image_sub_le_of_norm_hasDerivWithin_le (f' := fun _ => (0 : ℝ)) (C := 0)
    (fun w hw => (hd w hw).hasDerivWithinAt) (fun w hw => by simp) hy hz
  rw [zero_mul, Real.norm_eq_abs, abs_nonpos_iff] at this
  linarith

/-- The probability of a small interval. -/
theorem log_share (hB : Spec.Boltzmann ν traj n lo hi Φ Φ' L Z) {c w : ℝ} (hw : 0 < w) (h1 : lo ≤ c - w / 2) (h2 : c + w / 2 ≤ hi) :
    0 < share ν traj n 1 (c - w / 2) (c + w / 2) ∧
      |-Real.log (share ν traj n 1 (c - w / 2) (c + w / 2)) - (Φ c + Real.log Z - Real.log w)| ≤ L * w / 2 := by
  have hc : c ∈ Set.Icc lo hi := ⟨by linarith, by linarith⟩
  have hL : 0 ≤ L := (abs_nonneg _).trans (hB.bound c hc)
  have hcont : ContinuousOn (fun y => Real.exp (-Φ y)) (Set.uIcc (c - w / 2) (c + w / 2)) := by
    rw [Set.uIcc_of_le (by linarith)]
    intro y hy
    have : ContinuousAt Φ y := (hB.deriv y ⟨h1.trans hy.1, hy.2.trans h2⟩).continuousAt
    exact (this.neg.rexp).continuousWithinAt
  have near : ∀ y ∈ Set.Icc (c - w / 2) (c + w / 2), |Φ y - Φ c| ≤ L * w / 2 := by
    intro y hy
    have hyc : |y - c| ≤ w / 2 := abs_le.2 ⟨by linarith [hy.1], by linarith [hy.2]⟩
    have := lipschitz_of hB hc (z := y) ⟨h1.trans hy.1, hy.2.trans h2⟩
    nlinarith
  have lower : w * Real.exp (-Φ c - L * w / 2) ≤ ∫ y in (c - w / 2)..(c + w / 2), Real.exp (-Φ y) := by
    have := intervalIntegral.integral_mono_on (f := fun _ => Real.exp (-Φ c - L * w / 2)) (g := fun y => Real.exp (-Φ y)) (μ := volume)
      (a := c - w / 2) (b := c + w / 2) (by linarith) intervalIntegrable_const hcont.intervalIntegrable fun y hy => by
        refine Real.exp_le_exp.2 ?_
        have := (abs_le.1 (near y hy)).2
        linarith
    rw [intervalIntegral.integral_const, smul_eq_mul] at this
    refine le_trans (le_of_eq ?_) this
    ring
  have upper : ∫ y in (c - w / 2)..(c + w / 2), Real.exp (-Φ y) ≤ w * Real.exp (-Φ c + L * w / 2) := by
    have := intervalIntegral.integral_mono_on (g := fun _ => Real.exp (-Φ c + L * w / 2)) (f := fun y => Real.exp (-Φ y)) (μ := volume)
      (a := c - w / 2) (b := c + w / 2) (by linarith) hcont.intervalIntegrable intervalIntegrable_const fun y hy => by
        refine Real.exp_le_exp.2 ?_
        have := (abs_le.1 (near y hy)).1
        linarith
    rw [intervalIntegral.integral_const, smul_eq_mul] at this
    refine this.trans (le_of_eq ?_)
    ring
  obtain ⟨I, hI⟩ : ∃ I, I = ∫ y in (c - w / 2)..(c + w / 2), Real.exp (-Φ y) := ⟨_, rfl⟩
  rw [← hI] at lower upper
  have hI0 : 0 < I := lt_of_lt_of_le (by positivity) lower
  have l1 := Real.log_le_log (by positivity) lower
  have l2 := Real.log_le_log hI0 upper
  rw [Real.log_mul hw.ne' (Real.exp_ne_zero _), Real.log_exp] at l1 l2
  rw [hB.share _ _ h1 (by linarith) h2, ← hI]
  refine ⟨div_pos hI0 hB.pos, ?_⟩
  rw [Real.log_div hI0.ne' hB.pos.ne', abs_le]
  constructor <;> linarith

/-- Two functions with minimum zero whose differences are near are near. -/
theorem near_of_differences {f g : ℕ → ℝ} {e : ℝ} (hf : ∀ i < b, 0 ≤ f i) (hf0 : ∃ i < b, f i = 0) (hg : ∀ i < b, 0 ≤ g i)
    (hg0 : ∃ i < b, g i = 0) (h : ∀ i < b, ∀ j < b, |(f i - f j) - (g i - g j)| ≤ e) {i : ℕ} (hi : i < b) : |f i - g i| ≤ e := by
  obtain ⟨j, hj, hj0⟩ := hf0
  obtain ⟨k, hk, hk0⟩ := hg0
  have h1 := (abs_le.1 (h i hi j hj)).2
  have h2 := (abs_le.1 (h i hi k hk)).1
  have h3 := hg j hj
  have h4 := hf k hk
  rw [abs_le]
  constructor <;> linarith

/-- **C172** The two free energies agree. Let the positions of a process be distributed as `exp (-Φ)` in `[lo, hi]`, and let its mean force be
that of `Φ`, in the span of the basis. Almost surely, when there are enough trajectories, the free energy that `compute_1d_fe` returns for `b`
bins is, at all the centres that it returns, that of `pmf_eval` (with `set_zero` and `kT = 1`) of the model estimated from the same trajectories,
up to the greatest slope of `Φ` times the width of the bins, and `η`. -/
theorem C172_free_energies_agree [IsProbabilityMeasure ν] (auto : List ℝ → List ℝ) {spl : List ℝ → List ℝ → Except Err (List ℝ)} (kT : ℝ)
    (hspl : ∀ xs ys, xs.length = b → ys.length = b → xs.Pairwise (· < ·) → ∃ z, spl xs ys = .ok z)
    (hb : 1 ≤ b) (hlh : lo < hi) (hX : Spec.Draws ν P X) (h : Spec.Spread ν traj n 1 b lo hi)
    (hv : ∀ t < n, ∀ k < 1, Integrable (fun e => (traj e).data "v" t k ^ 2) ν)
    (ha : ∀ t < n, ∀ k < 1, Integrable (fun e => (traj e).data "a" t k) ν)
    {m : BasisModel ℝ} (hm : m.WF) (ho : m.dimObs = 1) (hx : m.dimx = 1) {G A S F W : ℕ → ℕ → ℝ} (hst : Statics m G A S F W)
    {env : Env ℝ} {d : String} {s : EstState ℝ} (hs : Spec.StationaryStatics m s.model.Lobs G A S ν traj n)
    (hset : ∀ e, StaticSetup env m d { s with xvas := [traj e] })
    (hB : Spec.Boltzmann ν traj n lo hi Φ Φ' L Z) (hc : Spec.Conservative m F W lo hi Φ') :
    ∀ᵐ ω ∂P, ∀ η > 0, ∀ᶠ M in atTop, ∃ s1 s2 r q, computeMeanForce env { s with xvas := draws traj X M ω } = (s1, none) ∧
      computeEffectiveMass env s1 = (s2, none) ∧
      compute1dFe auto spl (.int (b + 1)) kT (draws traj X M ω) = .ok r ∧ r.x.length = b ∧ r.fe.length = b ∧
      pmfEval s2.model none 1 true b (fun i _ => r.x.getD i 0) = .ok q ∧
      ∀ i < b, |q.get i 0 - r.fe.getD i 0| ≤ L * ((hi - lo) / b) + η := by
  have hb0 : (0 : ℝ) < b := by positivity
  obtain ⟨w, hw⟩ : ∃ w, w = (hi - lo) / b := ⟨_, rfl⟩
  have hw0 : 0 < w := by rw [hw]; exact div_pos (by linarith) hb0
  have hwb : b * w = hi - lo := by rw [hw]; field_simp
  obtain ⟨cen, hcen⟩ : ∃ cen : ℕ → ℝ, cen = fun i => (edgeAt lo hi b i + edgeAt lo hi b (i + 1)) / 2 := ⟨_, rfl⟩
  have e1 : ∀ i, edgeAt lo hi b i = cen i - w / 2 := fun i => by rw [hcen]; simp only [edgeAt, ← hw]; push_cast; ring
  have e2 : ∀ i, edgeAt lo hi b (i + 1) = cen i + w / 2 := fun i => by rw [hcen]; simp only [edgeAt, ← hw]; push_cast; ring
  have in1 : ∀ i < b, lo ≤ cen i - w / 2 := fun i hi' => by
    rw [← e1, edgeAt, ← hw]
    have : (0 : ℝ) ≤ i * w := by positivity
    linarith
  have in2 : ∀ i < b, cen i + w / 2 ≤ hi := fun i hi' => by
    rw [← e2, edgeAt, ← hw]
    have : ((i + 1 : ℕ) : ℝ) * w ≤ b * w := mul_le_mul_of_nonneg_right (by exact_mod_cast hi') hw0.le
    linarith
  have hfull : ∀ i < b, 0 < share ν traj n 1 (edgeAt lo hi b i) (edgeAt lo hi b (i + 1)) := fun i hi' => by
    rw [e1, e2]
    exact (log_share hB hw0 (in1 i hi') (in2 i hi')).1
  obtain ⟨B, hB1, hB2⟩ := exists_greatest (fun i => share ν traj n 1 (edgeAt lo hi b i) (edgeAt lo hi b (i + 1))) b hb
  have hBpos : 0 < B := by
    obtain ⟨i, hi', rfl⟩ := hB1
    exact hfull i hi'
  -- the antiderivatives are bounded
  have hanti : ∃ T, 0 ≤ T ∧ ∀ y ∈ Set.Icc lo hi, ∑ k ∈ range m.basis.nOut, |m.basis.antiderivative (fun _ => y) k| ≤ T := by
    have hcont : ContinuousOn (fun y => ∑ k ∈ range m.basis.nOut, |m.basis.antiderivative (fun _ => y) k|) (Set.Icc lo hi) :=
      continuousOn_finsetSum _ fun k hk => ContinuousOn.abs fun y hy => (hc.anti k (mem_range.1 hk) y hy).continuousAt.continuousWithinAt
    obtain ⟨T, hT⟩ := isCompact_Icc.exists_bound_of_continuousOn hcont
    refine ⟨max T 0, le_max_right _ _, fun y hy => ?_⟩
    have := hT y hy
    rw [Real.norm_eq_abs] at this
    exact (le_abs_self _).trans (this.trans (le_max_left _ _))
  obtain ⟨T, hT0, hT⟩ := hanti
  have hL : 0 ≤ L := (abs_nonneg _).trans (hB.bound lo ⟨le_rfl, hlh.le⟩)
  filter_upwards [C171_free_energy auto kT hspl hb hlh hX h hv ha hfull hB1 hB2,
    C170_draws hm (by rw [ho, hx]) (by omega) hst hX (by obtain ⟨t, ht, -⟩ := h.low 1 one_pos; omega) hs hset] with ω a1 a2 η hη
  obtain ⟨ε, hε, hε1, hε2⟩ : ∃ ε > 0, ε ≤ w / 2 ∧ 2 * (T * ε) + 2 * (L * ε) + 2 * ε ≤ η := by
    refine ⟨min (w / 2) (η / (2 * (T + L + 1))), by positivity, min_le_left _ _, ?_⟩
    have h0 : 0 < 2 * (T + L + 1) := by positivity
    have : min (w / 2) (η / (2 * (T + L + 1))) * (2 * (T + L + 1)) ≤ η :=
      (mul_le_mul_of_nonneg_right (min_le_right _ _) h0.le).trans_eq (by field_simp)
    linarith
  filter_upwards [a1 ε hε, a2 ε hε] with M ⟨r, hr, nr⟩ ⟨s1, s2, np⟩
  obtain ⟨q0, q1, p0, p1, p2, p3, p4, p5, p6⟩ := np.pmf 1 one_ne_zero b hb (fun i _ => r.x.getD i 0)
  refine ⟨s1, s2, r, q1, np.run1, np.run2, hr, nr.len.1, nr.len.2.1, p1, fun i hi' => ?_⟩
  have hxin : ∀ i < b, |r.x.getD i 0 - cen i| ≤ ε ∧ r.x.getD i 0 ∈ Set.Icc lo hi := fun i hi' => by
    have := nr.centre i hi'
    rw [hcen]
    refine ⟨this, ?_⟩
    have h1 := in1 i hi'
    have h2 := in2 i hi'
    rw [hcen] at h1 h2
    dsimp only at h1 h2
    rw [abs_le] at this
    exact ⟨by linarith, by linarith⟩
  rw [ho] at p3 p4 p5 p6
  refine near_of_differences (f := fun i => q1.get i 0) (g := fun i => r.fe.getD i 0) (b := b) (fun i hi' => p5 i hi' 0 one_pos) ?_ (fun i hi' => ?_) ?_
    (fun i hi' j hj' => ?_) hi'
  · obtain ⟨i, hi', l, hl, h0⟩ := p6
    obtain rfl : l = 0 := by omega
    exact ⟨i, hi', h0⟩
  · refine nr.least.1 _ ?_
    have hl : i < r.fe.length := by rw [nr.len.2.1]; exact hi'
    rw [List.getD_eq_getElem?_getD, List.getElem?_eq_getElem hl, Option.getD_some]
    exact List.getElem_mem _
  · obtain ⟨i, hi', h0⟩ := List.getElem_of_mem nr.least.2
    exact ⟨i, by rw [← nr.len.2.1]; exact hi', by rw [List.getD_eq_getElem?_getD, List.getElem?_eq_getElem hi', Option.getD_some, h0]⟩
  · rw [p4 i hi' 0 one_pos j hj' 0 one_pos]
    have pot : ∀ i < b, |q0.get i 0 - Spec.potential m F W 1 (fun _ => r.x.getD i 0) 0| ≤ T * ε := fun i hi' => by
      refine (p3 i hi' 0 one_pos).trans ?_
      rw [abs_one, div_one, mul_comm]
      exact mul_le_mul_of_nonneg_right (hT _ (hxin i hi').2) hε.le
    have slope : ∀ i < b, |Φ (r.x.getD i 0) - Φ (cen i)| ≤ L * ε := fun i hi' =>
      (lipschitz_of hB ⟨by linarith [in1 i hi'], by linarith [in2 i hi']⟩ (hxin i hi').2).trans (mul_le_mul_of_nonneg_left (hxin i hi').1 hL)
    have fe : ∀ i < b, |r.fe.getD i 0 - (Φ (cen i) + Real.log Z - Real.log w + Real.log B)| ≤ L * w / 2 + ε := fun i hi' => by
      have h1 := nr.fe i hi'
      have h2 := (log_share hB hw0 (in1 i hi') (in2 i hi')).2
      rw [Real.log_div (hfull i hi').ne' hBpos.ne', e1, e2] at h1
      rw [abs_le] at h1 h2 ⊢
      constructor <;> linarith
    have const := potential_const ho hB hc (hxin j hj').2 (hxin i hi').2
    have A1 := abs_le.1 (pot i hi')
    have A2 := abs_le.1 (pot j hj')
    have A3 := abs_le.1 (slope i hi')
    have A4 := abs_le.1 (slope j hj')
    have A5 := abs_le.1 (fe i hi')
    have A6 := abs_le.1 (fe j hj')
    rw [← hw, abs_le]
    constructor <;> linarith

end

/-! A particle between `1` and `2` with the density `2 x / 3`, velocity one and the acceleration `1 / x`. -/

namespace Ramp

open Uniform2 (law law_ne law_pos)

noncomputable def place (u : ℝ) (t : ℕ) : ℝ := √(1 + 3 * if t = 0 then u else 1 - u)

noncomputable def traj (u : ℝ) : Xva ℝ :=
  ⟨2, 1, fun t => t, fun name t _ => if name = "x" then place u t else if name = "v" then 1 else 1 / place u t, id, fun _ => 1⟩

noncomputable def model : BasisModel ℝ :=
  ⟨.posGle, ⟨1, false, fun x _ => 1 / x 0, fun x _ _ => -1 / x 0 ^ 2, fun x _ _ _ => 2 / x 0 ^ 3, fun x _ => Real.log (x 0)⟩, 1, 1⟩

noncomputable def state : EstState ℝ := ⟨⟨model, "a", 1, 1, none, none, none, false, none, none, none, none, none⟩, [], none, false⟩

noncomputable def gram : ℝ := ∫ u, 1 / place u 0 * (1 / place u 0) ∂law

theorem pos (u : ℝ) (t k : ℕ) : (Spec.pointAt (traj u) t k).1 = place u t := by simp [Spec.pointAt, traj]

theorem place_le {u : ℝ} {t : ℕ} (hu : u ∈ Set.Icc (0 : ℝ) 1) : 1 ≤ place u t ∧ place u t ≤ 2 := by
  have h : (0 : ℝ) ≤ (if t = 0 then u else 1 - u) ∧ (if t = 0 then u else 1 - u) ≤ 1 := by
    split_ifs
    · exact hu
    · constructor <;> linarith [hu.1, hu.2]
  constructor
  · exact Real.le_sqrt_of_sq_le (by linarith [h.1])
  · exact Real.sqrt_le_iff.2 ⟨by norm_num, by linarith [h.2]⟩

theorem spread (m : ℕ) : Spec.Spread law traj 2 1 m 1 2 where
  frames := fun _ => rfl
  dim := fun _ => rfl
  meas := fun t _ k _ => by
    simp only [pos, place]
    split_ifs <;> fun_prop
  range := fun t _ k _ => by
    filter_upwards [ae_restrict_mem measurableSet_Icc] with u hu
    rw [pos]
    exact place_le hu
  low := fun δ hδ => ⟨0, by norm_num, 0, by norm_num, by
    simp only [pos, place, if_true]
    refine law_pos (a := 0) (b := min 1 (δ / 2)) (by positivity) le_rfl (min_le_left _ _) fun u hu => ?_
    have := hu.2.le.trans (min_le_right _ _)
    exact Real.sqrt_le_iff.2 ⟨by linarith, by nlinarith⟩⟩
  high := fun δ hδ => ⟨1, by norm_num, 0, by norm_num, by
    simp only [pos, place, one_ne_zero, if_false]
    refine law_pos (a := 0) (b := min 1 (δ / 2)) (by positivity) le_rfl (min_le_left _ _) fun u hu => ?_
    have h1 := hu.2.trans_le (min_le_right _ _)
    have h2 := hu.2.trans_le (min_le_left _ _)
    have h3 := hu.1
    change 2 - δ < √(1 + 3 * (1 - u))
    have h4 : √(1 + 3 * (1 - u)) ≤ 2 := Real.sqrt_le_iff.2 ⟨by norm_num, by linarith⟩
    have h5 : √(1 + 3 * (1 - u)) * √(1 + 3 * (1 - u)) = 1 + 3 * (1 - u) := Real.mul_self_sqrt (by linarith)
    nlinarith [Real.sqrt_nonneg (1 + 3 * (1 - u))]⟩
  edges := fun i _ t _ k _ => by
    obtain ⟨c, hc⟩ : ∃ c, c = Spec.edgeAt 1 2 m i := ⟨_, rfl⟩
    filter_upwards [law_ne ((c ^ 2 - 1) / 3), law_ne (1 - (c ^ 2 - 1) / 3), ae_restrict_mem measurableSet_Icc] with u h1 h2 hu
    rw [pos, ← hc]
    intro h
    have h0 : (0 : ℝ) ≤ 1 + 3 * if t = 0 then u else 1 - u := by split_ifs <;> linarith [hu.1, hu.2]
    have := Real.sq_sqrt h0
    rw [← place, h] at this
    split_ifs at this
    · exact h1 (by linarith)
    · exact h2 (by linarith)
  moves := by
    filter_upwards [law_ne (1 / 2), ae_restrict_mem measurableSet_Icc] with u hne hu
    rcases lt_or_gt_of_ne hne with h | h
    · refine ⟨0, by norm_num, 0, by norm_num, 1, by norm_num, 0, by norm_num, ?_⟩
      simp only [pos, place, if_true, one_ne_zero, if_false]
      exact Real.sqrt_lt_sqrt (by linarith [hu.1]) (by linarith)
    · refine ⟨1, by norm_num, 0, by norm_num, 0, by norm_num, 0, by norm_num, ?_⟩
      simp only [pos, place, if_true, one_ne_zero, if_false]
      exact Real.sqrt_lt_sqrt (by linarith [hu.2]) (by linarith)

theorem inv_continuous (t : ℕ) : ContinuousOn (fun u => 1 / place u t * (1 / place u t)) (Set.Icc 0 1) := by
  have hp : ContinuousOn (fun u => place u t) (Set.Icc 0 1) := by
    unfold place
    split_ifs <;> fun_prop
  have : ContinuousOn (fun u => 1 / place u t) (Set.Icc 0 1) :=
    continuousOn_const.div hp fun u hu => by linarith [(place_le (t := t) hu).1]
  exact this.mul this

theorem law_integral (f : ℝ → ℝ) : ∫ u, f u ∂law = ∫ u in (0 : ℝ)..1, f u := by
  rw [intervalIntegral.integral_of_le zero_le_one, law, integral_Icc_eq_integral_Ioc]

theorem inv_mean (t : ℕ) : Spec.HasMean law (fun u => 1 / place u t * (1 / place u t)) gram := by
  refine ⟨(inv_continuous t).integrableOn_Icc, ?_⟩
  rcases Nat.eq_zero_or_pos t with rfl | ht
  · rfl
  · rw [gram, law_integral, law_integral]
    have := intervalIntegral.integral_comp_sub_left (a := 0) (b := 1) (fun u => 1 / place u 0 * (1 / place u 0)) 1
    rw [sub_self, sub_zero] at this
    rw [← this]
    refine intervalIntegral.integral_congr fun u _ => ?_
    simp only [place, if_true, if_neg (by omega : ¬t = 0)]

theorem gram_pos : 0 < gram := by
  have h : ∫ _u, (1 / 4 : ℝ) ∂law ≤ gram := by
    refine integral_mono_ae (integrable_const _) (inv_mean 0).1 ?_
    filter_upwards [ae_restrict_mem measurableSet_Icc] with u hu
    obtain ⟨h1, h2⟩ := place_le (t := 0) hu
    have : 1 / 2 ≤ 1 / place u 0 := one_div_le_one_div_of_le (by linarith) h2
    nlinarith
  rw [integral_const, probReal_univ, one_smul] at h
  linarith

theorem statics : Statics model (fun _ _ => gram) (fun _ _ => gram) (fun _ _ => 1) (fun _ _ => 1) (fun _ _ => 1) where
  det := (TwoOscillators.det_cm (rfl : model.nForce = 1) gram).trans_ne gram_pos.ne'
  force := fun i _ j _ => by
    have : model.nForce = 1 := rfl
    rw [this, Finset.sum_range_one, mul_one]
  mass := fun i hi j hj => by
    have h : model.dimx = 1 := rfl
    rw [h] at hi hj
    rw [h, Finset.sum_range_one, if_pos (by omega), mul_one]

theorem stationaryStatics : Spec.StationaryStatics model "a" (fun _ _ => gram) (fun _ _ => gram) (fun _ _ => 1) law traj 2 where
  frames := fun _ => rfl
  gram := fun _ _ _ _ t _ => inv_mean t
  proj := fun _ _ _ _ t _ => inv_mean t
  square := fun _ _ _ _ _ _ => ⟨by simp [traj], by simp [traj]⟩

theorem staticSetup (e : ℝ) : StaticSetup TwoOscillators.env model "dim_x" { state with xvas := [traj e] } where
  loop := .inl rfl
  bm := rfl
  obs := ⟨by decide, by decide, fun y hy => by
    obtain rfl := List.mem_singleton.1 hy
    exact ⟨rfl, rfl⟩⟩
  dimx := fun y hy => by
    obtain rfl := List.mem_singleton.1 hy
    rfl
  pos := fun y hy => by
    obtain rfl := List.mem_singleton.1 hy
    exact one_le_two
  ne := by simp

theorem boltzmann : Spec.Boltzmann law traj 2 1 2 (fun y => -Real.log y) (fun y => -(1 / y)) 1 (3 / 2) where
  pos := by norm_num
  share := fun a b ha hab hb => by
    have e1 : share law traj 2 1 a b = share law Uniform2.traj 2 1 ((a ^ 2 - 1) / 3) ((b ^ 2 - 1) / 3) := by
      unfold share Spec.amount
      refine congrArg (· / _) (Finset.sum_congr rfl fun t _ => Finset.sum_congr rfl fun k _ => integral_congr_ae (ae_of_all _ fun u => ?_))
      refine if_congr ?_ rfl rfl
      rw [pos, Uniform2.pos, place, Real.lt_sqrt (by linarith), Real.sqrt_le_left (by linarith)]
      constructor <;> rintro ⟨h1, h2⟩ <;> constructor <;> linarith
    rw [e1, Uniform2.share_eq (by nlinarith) (by nlinarith) (by nlinarith)]
    have e2 : ∫ y in a..b, Real.exp (-(-Real.log y)) = ∫ y in a..b, y :=
      intervalIntegral.integral_congr fun y hy => by
        rw [Set.uIcc_of_le hab] at hy
        rw [neg_neg, Real.exp_log (by linarith [hy.1])]
    rw [e2, integral_id]
    ring
  deriv := fun y hy => ((Real.hasDerivAt_log (by linarith [hy.1])).neg).congr_deriv (by rw [one_div])
  bound := fun y hy => by
    rw [abs_neg, abs_of_pos (by have := hy.1; positivity)]
    exact (div_le_one (by linarith [hy.1])).2 hy.1

theorem conservative : Spec.Conservative model (fun _ _ => 1) (fun _ _ => 1) 1 2 (fun y => -(1 / y)) where
  anti := fun k _ y hy => (Real.hasDerivAt_log (by linarith [hy.1])).congr_deriv (one_div y).symm
  force := fun y _ => by
    have h1 : model.basis.nOut = 1 := rfl
    rw [h1, Finset.sum_range_one, ite_self, neg_neg, mul_one, mul_one]
    rfl

/-- Both free energies of this process converge to `-log x` up to a constant and the width of the bins. -/
theorem agree (Ω : Type) [MeasurableSpace Ω] (P : Measure Ω) (X : ℕ → Ω → ℝ) (hX : Spec.Draws law P X) {b : ℕ} (hb : 1 ≤ b) (kT : ℝ) :
    ∀ᵐ ω ∂P, ∀ η > 0, ∀ᶠ M in atTop, ∃ s1 s2 r q, computeMeanForce TwoOscillators.env { state with xvas := draws traj X M ω } = (s1, none) ∧
      computeEffectiveMass TwoOscillators.env s1 = (s2, none) ∧
      compute1dFe id chord (.int (b + 1)) kT (draws traj X M ω) = .ok r ∧ r.x.length = b ∧ r.fe.length = b ∧
      pmfEval s2.model none 1 true b (fun i _ => r.x.getD i 0) = .ok q ∧
      ∀ i < b, |q.get i 0 - r.fe.getD i 0| ≤ 1 * ((2 - 1) / b) + η :=
  C172_free_energies_agree.{0, 0} id (spl := chord) kT (fun _ _ _ _ _ => ⟨_, rfl⟩) hb one_lt_two hX (spread b)
    (fun _ _ _ _ => by simp [traj])
    (fun t _ k _ => by
      have hp : ContinuousOn (fun u => place u t) (Set.Icc 0 1) := by
        unfold place
        split_ifs <;> fun_prop
      exact (continuousOn_const.div hp fun u hu => by linarith [(place_le (t := t) hu).1] : ContinuousOn (fun u => 1 / place u t) (Set.Icc 0 1)).integrableOn_Icc)
    (fun h => by cases h) rfl rfl statics (s := state) stationaryStatics staticSetup boltzmann conservative

end Ramp

end Verif
