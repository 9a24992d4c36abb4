import Verif.Props.Sampled
import Verif.Props.EstimatorMore
import Verif.Props.Pmf

/-!
# Convergence of the effective mass and of the potential of mean force (C170)
-/

namespace Verif

open LArr Finset MeasureTheory ProbabilityTheory Filter

universe u v

namespace Spec

/-- The averages over the data used by `compute_mean_force` and `compute_effective_mass` are within `ε` of those of the
process: `G` for the products of the functions of the force, `A` for their products with the observable, `S` for the
products of the velocities. -/
structure NearStatics (m : BasisModel ℝ) (L : String) (G A S : ℕ → ℕ → ℝ) (xvas : List (Xva ℝ)) (ε : ℝ) : Prop where
  gram : ∀ i < m.nForce, ∀ j < m.nForce,
    |pooledMean (xvas.map fun xva => (xva.n, fun t => forceFeature m xva t i * forceFeature m xva t j)) - G i j| ≤ ε
  proj : ∀ i < m.nForce, ∀ j < m.dimObs,
    |pooledMean (xvas.map fun xva => (xva.n, fun t => forceFeature m xva t i * xva.data L t j)) - A i j| ≤ ε
  square : ∀ i < m.dimx, ∀ j < m.dimx,
    |pooledMean (xvas.map fun xva => (xva.n, fun t => xva.data "v" t i * xva.data "v" t j)) - S i j| ≤ ε

/-- `F` are the coefficients of the projection of the observable on the functions of the force and `W` is the inverse of
the average of the products of the velocities. -/
structure Statics (m : BasisModel ℝ) (G A S F W : ℕ → ℕ → ℝ) : Prop where
  det : (Matrix.of fun i j : Fin m.nForce => G i j).det ≠ 0
  force : ∀ i < m.nForce, ∀ j < m.dimObs, ∑ k ∈ range m.nForce, G i k * F k j = A i j
  mass : ∀ i < m.dimx, ∀ j < m.dimx, ∑ k ∈ range m.dimx, S i k * W k j = if i = j then 1 else 0

/-- The potential of mean force at a point: the antiderivative of the force, multiplied by the effective mass (except for
the overdamped class), over `kT`. -/
noncomputable def potential (m : BasisModel ℝ) (F W : ℕ → ℕ → ℝ) (kT : ℝ) (pt : ℕ → ℝ) (l : ℕ) : ℝ :=
  -(∑ a ∈ range m.dimObs, (∑ k ∈ range m.basis.nOut, m.basis.antiderivative pt k * F k a) *
    (if m.cls = .overdamped then (if a = l then 1 else 0) else W a l)) / kT

/-- The three steps that do not use the memory give the effective mass and the potential up to `e`. -/
structure FindsPotential (env : Env ℝ) (s : EstState ℝ) (m : BasisModel ℝ) (F W : ℕ → ℕ → ℝ) (e : ℝ) (s1 s2 : EstState ℝ) :
    Prop where
  run1 : computeMeanForce env s = (s1, none)
  run2 : computeEffectiveMass env s1 = (s2, none)
  mass : ∃ M, s2.model.effMass = some M ∧ M.shape = [m.dimx, m.dimx] ∧
    ∀ i < m.dimx, ∀ j < m.dimx, |M.get [i, j] - W i j| ≤ e
  pmf : ∀ kT ≠ 0, ∀ n ≥ 1, ∀ pts, ∃ r0 r1, pmfEval s2.model none kT false n pts = .ok r0 ∧
    pmfEval s2.model none kT true n pts = .ok r1 ∧ (∀ r ∈ [r0, r1], r.rows = n ∧ r.cols = m.dimObs) ∧
    (∀ i < n, ∀ l < m.dimObs, |r0.get i l - potential m F W kT (pts i) l| ≤
      e * (∑ k ∈ range m.basis.nOut, |m.basis.antiderivative (pts i) k|) / |kT|) ∧
    (∀ i < n, ∀ l < m.dimObs, ∀ i' < n, ∀ l' < m.dimObs, r1.get i l - r1.get i' l' = r0.get i l - r0.get i' l') ∧
    (∀ i < n, ∀ l < m.dimObs, 0 ≤ r1.get i l) ∧ ∃ i < n, ∃ l < m.dimObs, r1.get i l = 0

end Spec

open Spec (NearStatics Statics FindsPotential)

/-- What the data must satisfy. -/
structure StaticSetup (env : Env ℝ) (m : BasisModel ℝ) (d : String) (s : EstState ℝ) : Prop where
  loop : IsLoop env.loop
  bm : s.model.bm = m
  obs : SameObs s.xvas s.model.Lobs d m.dimObs
  dimx : ∀ xva ∈ s.xvas, xva.dimx = m.dimx
  pos : ∀ xva ∈ s.xvas, 1 ≤ xva.n
  ne : s.xvas ≠ []

theorem nOut_le_nForce {m : BasisModel ℝ} (hm : m.WF) : m.basis.nOut ≤ m.nForce := by
  unfold BasisModel.nForce
  split
  · rename_i h
    split_ifs with h'
    · have := hm h'
      omega
    · omega
  · exact le_rfl

theorem exists_max2 (a b : ℕ) (F : ℕ → ℕ → ℝ) : ∃ B, 0 ≤ B ∧ ∀ i < a, ∀ j < b, |F i j| ≤ B := by
  refine ⟨∑ i ∈ range a, ∑ j ∈ range b, |F i j|, sum_nonneg fun _ _ => sum_nonneg fun _ _ => abs_nonneg _, fun i hi j hj => ?_⟩
  exact (single_le_sum (f := fun j => |F i j|) (fun _ _ => abs_nonneg _) (mem_range.2 hj)).trans
    (single_le_sum (f := fun i => ∑ j ∈ range b, |F i j|) (fun _ _ => sum_nonneg fun _ _ => abs_nonneg _) (mem_range.2 hi))

/-- The potential with coefficients and a mass that are known up to `ε`. -/
theorem potential_near {n x : ℕ} {A : ℕ → ℝ} {F F' W W' : ℕ → ℕ → ℝ} {C D B V ε kT : ℝ} (hC : 0 ≤ C) (hD : 0 ≤ D) (hB : 0 ≤ B)
    (hε : 0 ≤ ε) (hε1 : ε ≤ 1) (hF : ∀ k < n, ∀ a < x, |F' k a - F k a| ≤ C * ε)
    (hW : ∀ a < x, ∀ l < x, |W' a l - W a l| ≤ D * ε) (hB' : ∀ k < n, ∀ a < x, |F k a| ≤ B)
    (hV : ∀ a < x, ∀ l < x, |W a l| ≤ V) {l : ℕ} (hl : l < x) :
    |-(∑ a ∈ range x, (∑ k ∈ range n, A k * F' k a) * W' a l) / kT - -(∑ a ∈ range x, (∑ k ∈ range n, A k * F k a) * W a l) / kT| ≤
      x * (C * (V + D) + B * D) * ε * (∑ k ∈ range n, |A k|) / |kT| := by
  rw [← sub_div, abs_div]
  refine div_le_div_of_nonneg_right ?_ (abs_nonneg _)
  rw [neg_sub_neg, ← sum_sub_distrib]
  obtain ⟨T, hT⟩ : ∃ T, T = ∑ k ∈ range n, |A k| := ⟨_, rfl⟩
  have hT0 : 0 ≤ T := hT ▸ sum_nonneg fun _ _ => abs_nonneg _
  have term : ∀ a ∈ range x, |(∑ k ∈ range n, A k * F k a) * W a l - (∑ k ∈ range n, A k * F' k a) * W' a l| ≤
      (C * (V + D) + B * D) * ε * T := by
    intro a ha
    have ha := mem_range.1 ha
    have e : (∑ k ∈ range n, A k * F k a) * W a l - (∑ k ∈ range n, A k * F' k a) * W' a l =
        -((∑ k ∈ range n, A k * (F' k a - F k a)) * W' a l) - (∑ k ∈ range n, A k * F k a) * (W' a l - W a l) := by
      simp only [mul_sub, sum_sub_distrib]
      ring
    have b1 : |∑ k ∈ range n, A k * (F' k a - F k a)| ≤ T * (C * ε) := by
      refine (abs_sum_le_sum_abs _ _).trans ?_
      rw [hT, sum_mul]
      exact sum_le_sum fun k hk => by rw [abs_mul]; exact mul_le_mul_of_nonneg_left (hF k (mem_range.1 hk) a ha) (abs_nonneg _)
    have b2 : |∑ k ∈ range n, A k * F k a| ≤ T * B := by
      refine (abs_sum_le_sum_abs _ _).trans ?_
      rw [hT, sum_mul]
      exact sum_le_sum fun k hk => by rw [abs_mul]; exact mul_le_mul_of_nonneg_left (hB' k (mem_range.1 hk) a ha) (abs_nonneg _)
    have b3 : |W' a l| ≤ V + D := by
      have h1 := hW a ha l hl
      have h2 := hV a ha l hl
      have h3 : |W' a l| ≤ |W' a l - W a l| + |W a l| := by
        simpa using abs_add_le (W' a l - W a l) (W a l)
      nlinarith
    rw [e]
    refine (abs_sub _ _).trans ?_
    rw [abs_neg, abs_mul, abs_mul]
    have c1 := mul_le_mul b1 b3 (abs_nonneg _) (by positivity)
    have c2 := mul_le_mul b2 (hW a ha l hl) (abs_nonneg _) (by positivity)
    nlinarith
  refine (abs_sum_le_sum_abs _ _).trans ((sum_le_sum term).trans (le_of_eq ?_))
  rw [sum_const, card_range, nsmul_eq_mul, ← hT]
  ring

/-- **C170** The effective mass and the potential of mean force depend continuously on the averages: there is a constant `C`
such that, when the averages over the data are within `ε` of those of the process, `compute_mean_force` and
`compute_effective_mass` succeed, the effective mass is within `C ε` of the inverse of the average of the products of the
velocities of the process, and `pmf_eval` without `set_zero` is within `C ε` times the size of the antiderivatives over `kT`
of the potential of the process; with `set_zero` the same differences between points, with minimum zero. -/
theorem C170_near {m : BasisModel ℝ} (hm : m.WF) (hx : m.dimObs = m.dimx) (hpos : 1 ≤ m.dimx) {G A S F W : ℕ → ℕ → ℝ}
    (h : Statics m G A S F W) : ∃ C δ : ℝ, 0 < δ ∧ ∀ (env : Env ℝ) (d : String) (s : EstState ℝ) (ε : ℝ),
      StaticSetup env m d s → NearStatics m s.model.Lobs G A S s.xvas ε → 0 ≤ ε → ε ≤ δ →
      ∃ s1 s2, FindsPotential env s m F W (C * ε) s1 s2 := by
  obtain ⟨C, δ, hC, hδ, H⟩ := solve_near h.det (A := Matrix.of fun i (j : Fin m.dimObs) => A i j)
    (F := Matrix.of fun i j => F i j) (by
      ext i j
      rw [Matrix.mul_apply]
      simp only [Matrix.of_apply]
      rw [← h.force i i.2 j j.2, Finset.sum_range])
  have hmass : (Matrix.of fun i j : Fin m.dimx => S i j) * (Matrix.of fun i j : Fin m.dimx => W i j) = 1 := by
    ext i j
    rw [Matrix.mul_apply, Matrix.one_apply]
    simp only [Matrix.of_apply]
    rw [← Finset.sum_range fun k => S i k * W k j, h.mass i i.2 j j.2]
    simp only [Fin.ext_iff]
  have hdS : (Matrix.of fun i j : Fin m.dimx => S i j).det ≠ 0 := by
    intro h0
    have := congrArg Matrix.det hmass
    rw [Matrix.det_mul, h0, Matrix.det_one, zero_mul] at this
    exact zero_ne_one this
  obtain ⟨D, δ', hD, hδ', H'⟩ := solve_near hdS hmass
  obtain ⟨B, hB, hB'⟩ := exists_max2 m.nForce m.dimObs F
  obtain ⟨V, hV, hV'⟩ := exists_max2 m.dimObs m.dimObs fun a l =>
    if m.cls = .overdamped then (if a = l then 1 else 0) else W a l
  obtain ⟨K, hK⟩ : ∃ K, K = D + m.dimObs * (C * (V + D) + B * D) := ⟨_, rfl⟩
  have hKD : D ≤ K := by rw [hK]; exact le_add_of_nonneg_right (by positivity)
  have hKP : m.dimObs * (C * (V + D) + B * D) ≤ K := by rw [hK]; exact le_add_of_nonneg_left hD
  refine ⟨K, min 1 (min δ δ'), by positivity, fun env d s ε hs hn hε hεδ => ?_⟩
  have hε1 : ε ≤ 1 := hεδ.trans (min_le_left _ _)
  obtain ⟨rfl, hs⟩ : s.model.bm = m ∧ StaticSetup env m d s := ⟨hs.bm, hs⟩
  obtain ⟨hdet, hsol⟩ := H (Matrix.of fun i j => Spec.pooledMean (s.xvas.map fun xva => (xva.n, fun t =>
      Spec.forceFeature s.model.bm xva t i * Spec.forceFeature s.model.bm xva t j)))
    (Matrix.of fun i j => Spec.pooledMean (s.xvas.map fun xva => (xva.n, fun t =>
      Spec.forceFeature s.model.bm xva t i * xva.data s.model.Lobs t j))) ε hε
    (hεδ.trans ((min_le_right _ _).trans (min_le_left _ _))) (fun i j => hn.gram i i.2 j j.2) (fun i j => hn.proj i i.2 j j.2)
  obtain ⟨s1, h1⟩ := C38_defined hs.loop hm hs.obs hs.ne hs.pos hdet
  obtain ⟨c, hc, c1, c2, -, key⟩ := computeMeanForce_ok hs.loop hm hs.obs hs.ne hs.pos h1
  obtain ⟨e1, e2, e3, e4, e5, e6, e7⟩ := computeMeanForce_frame h1
  have hforce : ∀ (k : Fin s.model.bm.nForce) (l : Fin s.model.bm.dimObs), |c.get [k.1, l.1] - F k l| ≤ C * ε := by
    refine hsol (Matrix.of fun k l => c.get [k.1, l.1]) ?_
    ext i j
    rw [Matrix.mul_apply]
    simp only [Matrix.of_apply, pooledMean_eq]
    rw [← key i i.2 j j.2, sum_div, Finset.sum_range]
    exact sum_congr rfl fun k _ => by ring
  obtain ⟨hV1, hV2⟩ := H' (Matrix.of fun i j : Fin s.model.bm.dimx => Spec.pooledMean (s.xvas.map fun xva => (xva.n, fun t =>
      xva.data "v" t (i : ℕ) * xva.data "v" t (j : ℕ)))) 1 ε hε (hεδ.trans ((min_le_right _ _).trans (min_le_right _ _)))
    (fun i j => by exact hn.square i i.2 j j.2) (fun i j => by simpa using hε)
  obtain ⟨M, m1, m2, m3, m4, m5⟩ := (C106_effective_mass hs.loop (s := s1) (x := s.model.bm.dimx) (by rw [e1]; exact hs.dimx)
    (by rw [e1]; exact hs.ne) (by rw [e1]; exact hs.pos)).1 (by rw [e1]; exact hV1)
  have hM : ∀ i < s.model.bm.dimx, ∀ j < s.model.bm.dimx, |M.get [i, j] - W i j| ≤ D * ε := fun i hi j hj =>
    hV2 (M.toMatrix _ _) (by rw [e1] at m5; exact m5) ⟨i, hi⟩ ⟨j, hj⟩
  refine ⟨s1, _, h1, m1, ⟨M, rfl, m3, fun i hi j hj => (hM i hi j hj).trans (mul_le_mul_of_nonneg_right hKD hε)⟩,
    fun kT hkT n hn1 pts => ?_⟩
  have hF : HasForce { s1.model with effMass := some M } c d := ⟨hc, c1, by rw [e2]; exact c2, hs.obs.1, hs.obs.2.1⟩
  obtain ⟨r, p1, p2, p3, p4⟩ := pmfRaw_ok hF (by rw [e2]; exact hm) (by rw [e2]; exact hx)
    (fun M' h => by cases h; rw [e2]; exact m3) kT n pts
  replace p3 : r.cols = s.model.bm.dimObs := by rw [p3, e2]
  obtain ⟨q, q1, ⟨i0, hi0, j0, hj0, q2⟩, q3⟩ := minE_ok r (by omega) (by omega)
  refine ⟨{ r with get := fun i l => r.get i l - (if false then 1 else 0) * q },
    { r with get := fun i l => r.get i l - (if true then 1 else 0) * q }, ?_, ?_, ?_, fun i hi l hl => ?_,
    fun i hi l hl i' hi' l' hl' => ?_, fun i hi l hl => ?_, i0, by omega, j0, by omega, ?_⟩
  · simp only [pmfEval, p1, q1, Bind.bind, Except.bind, pure, Except.pure]
  · simp only [pmfEval, p1, q1, Bind.bind, Except.bind, pure, Except.pure]
  · simp [p2, p3]
  · simp only [Bool.false_eq_true, if_false, zero_mul, sub_zero]
    rw [p4 i l (by rw [e2]; exact hl)]
    have hle := nOut_le_nForce hm
    have := potential_near (n := s.model.bm.basis.nOut) (x := s.model.bm.dimObs) (A := s.model.bm.basis.antiderivative (pts i))
      (F := F) (F' := fun k a => c.get [k, a])
      (W := fun a l => if s.model.bm.cls = .overdamped then (if a = l then 1 else 0) else W a l)
      (W' := Spec.massEntry { s1.model with effMass := some M }) (kT := kT) hC hD hB hε hε1
      (fun k hk a ha => hforce ⟨k, by omega⟩ ⟨a, ha⟩) (fun a ha l hl => by
        unfold Spec.massEntry
        rw [e2]
        by_cases ho : s.model.bm.cls = .overdamped
        · rw [if_pos ho, if_pos ho, sub_self, abs_zero]
          positivity
        · rw [if_neg ho, if_neg ho]
          exact hM a (by omega) l (by omega)) (fun k hk a ha => hB' k (by omega) a ha) hV' hl
    rw [e2]
    refine this.trans (div_le_div_of_nonneg_right ?_ (abs_nonneg _))
    exact mul_le_mul_of_nonneg_right (mul_le_mul_of_nonneg_right hKP hε) (sum_nonneg fun _ _ => abs_nonneg _)
  · simp only [if_true, Bool.false_eq_true, if_false, one_mul]
    ring
  · simp only [if_true, one_mul, sub_nonneg]
    exact q3 i (by omega) l (by omega)
  · simp only [if_true, one_mul, q2, sub_self]

/-- **C170** In one dimension the derivative of the potential of the process is minus its force, times the mass of the
process, over `kT`. -/
theorem C170_potential {m : BasisModel ℝ} (ho : m.dimObs = 1) (hA : Spec.IsAntiderivative m.basis) (F W : ℕ → ℕ → ℝ) (kT x : ℝ) :
    HasDerivAt (fun y => Spec.potential m F W kT (fun _ => y) 0)
      (-(∑ k ∈ range m.basis.nOut, m.basis.basis (fun _ => x) k * F k 0) * (if m.cls = .overdamped then 1 else W 0 0) / kT) x := by
  have h1 : HasDerivAt (fun y => ∑ k ∈ range m.basis.nOut, m.basis.antiderivative (fun _ => y) k * F k 0)
      (∑ k ∈ range m.basis.nOut, m.basis.basis (fun _ => x) k * F k 0) x :=
    HasDerivAt.fun_sum fun k hk => (hA k (mem_range.1 hk) x).mul_const _
  have e : (fun y => Spec.potential m F W kT (fun _ => y) 0) = fun y =>
      -((∑ k ∈ range m.basis.nOut, m.basis.antiderivative (fun _ => y) k * F k 0) * (if m.cls = .overdamped then 1 else W 0 0)) / kT := by
    funext y
    simp only [Spec.potential, ho, Finset.sum_range_one, if_true]
  rw [e]
  refine ((h1.mul_const _).neg.div_const kT).congr_deriv ?_
  ring

/-- The averages over the trajectories of the process do not depend on time. -/
structure Spec.StationaryStatics {E : Type u} [MeasurableSpace E] (m : BasisModel ℝ) (L : String) (G A S : ℕ → ℕ → ℝ) (ν : Measure E)
    (traj : E → Xva ℝ) (n : ℕ) : Prop where
  frames : ∀ e, (traj e).n = n
  gram : ∀ i < m.nForce, ∀ j < m.nForce, ∀ t < n,
    HasMean ν (fun e => forceFeature m (traj e) t i * forceFeature m (traj e) t j) (G i j)
  proj : ∀ i < m.nForce, ∀ j < m.dimObs, ∀ t < n, HasMean ν (fun e => forceFeature m (traj e) t i * (traj e).data L t j) (A i j)
  square : ∀ i < m.dimx, ∀ j < m.dimx, ∀ t < n, HasMean ν (fun e => (traj e).data "v" t i * (traj e).data "v" t j) (S i j)

theorem Spec.FindsPotential.mono {env : Env ℝ} {s s1 s2 : EstState ℝ} {m : BasisModel ℝ} {F W : ℕ → ℕ → ℝ} {e e' : ℝ}
    (h : FindsPotential env s m F W e s1 s2) (he : e ≤ e') : FindsPotential env s m F W e' s1 s2 where
  run1 := h.run1
  run2 := h.run2
  mass := by
    obtain ⟨M, h1, h2, h3⟩ := h.mass
    exact ⟨M, h1, h2, fun i hi j hj => (h3 i hi j hj).trans he⟩
  pmf := fun kT hkT n hn pts => by
    obtain ⟨r0, r1, h1, h2, h3, h4, h5⟩ := h.pmf kT hkT n hn pts
    exact ⟨r0, r1, h1, h2, h3, fun i hi l hl => (h4 i hi l hl).trans (div_le_div_of_nonneg_right
      (mul_le_mul_of_nonneg_right he (sum_nonneg fun _ _ => abs_nonneg _)) (abs_nonneg _)), h5⟩

/-- **C170** From trajectories drawn independently from a stationary process, almost surely the effective mass converges to
the inverse of the average of the products of the velocities, and the values of `pmf_eval` to the potential of the process. -/
theorem C170_draws {m : BasisModel ℝ} (hm : m.WF) (hx : m.dimObs = m.dimx) (hpos : 1 ≤ m.dimx) {G A S F W : ℕ → ℕ → ℝ}
    (h : Statics m G A S F W) {E : Type u} {Ω : Type v} [MeasurableSpace E] [MeasurableSpace Ω] {ν : Measure E} {P : Measure Ω}
    {X : ℕ → Ω → E} (hX : Spec.Draws ν P X) {traj : E → Xva ℝ} {n : ℕ} (hn : 1 ≤ n) {env : Env ℝ} {d : String} {s : EstState ℝ}
    (hs : Spec.StationaryStatics m s.model.Lobs G A S ν traj n)
    (hset : ∀ e, StaticSetup env m d { s with xvas := [traj e] }) :
    ∀ᵐ ω ∂P, ∀ η > 0, ∀ᶠ M in atTop, ∃ s1 s2, FindsPotential env { s with xvas := draws traj X M ω } m F W η s1 s2 := by
  obtain ⟨C, δ, hδ, H⟩ := C170_near hm hx hpos h
  have a1 := ae_entries fun (i j : Fin m.nForce) => ae_pooled hX hs.frames
    (f := fun xva t => Spec.forceFeature m xva t i * Spec.forceFeature m xva t j) hn (hs.gram i i.2 j j.2)
  have a2 := ae_entries fun (i : Fin m.nForce) (j : Fin m.dimObs) => ae_pooled hX hs.frames
    (f := fun xva t => Spec.forceFeature m xva t i * xva.data s.model.Lobs t j) hn (hs.proj i i.2 j j.2)
  have a3 := ae_entries fun (i j : Fin m.dimx) => ae_pooled hX hs.frames
    (f := fun xva t => xva.data "v" t i * xva.data "v" t j) hn (hs.square i i.2 j j.2)
  filter_upwards [a1, a2, a3] with ω b1 b2 b3 η hη
  obtain ⟨ε, hε, e1, e2, -⟩ := exists_eps C hδ zero_lt_one hη
  filter_upwards [b1 ε hε, b2 ε hε, b3 ε hε, eventually_ge_atTop 1] with M c1 c2 c3 hM
  have hmem : ∀ y ∈ draws traj X M ω, ∃ e, y = traj e := by
    intro y hy
    obtain ⟨i, -, rfl⟩ := List.mem_map.1 hy
    exact ⟨_, rfl⟩
  have h0 := hset (X 0 ω)
  obtain ⟨s1, s2, hr⟩ := H env d { s with xvas := draws traj X M ω } ε
    { loop := h0.loop, bm := h0.bm
      obs := ⟨h0.obs.1, h0.obs.2.1, fun y hy => by
        obtain ⟨e, rfl⟩ := hmem y hy
        exact (hset e).obs.2.2 _ List.mem_cons_self⟩
      dimx := fun y hy => by
        obtain ⟨e, rfl⟩ := hmem y hy
        exact (hset e).dimx _ List.mem_cons_self
      pos := fun y hy => by
        obtain ⟨e, rfl⟩ := hmem y hy
        exact (hset e).pos _ List.mem_cons_self
      ne := fun h => by
        have := congrArg List.length h
        simp only [draws, List.length_map, List.length_range, List.length_nil] at this
        omega }
    ⟨fun i hi j hj => c1 ⟨i, hi⟩ ⟨j, hj⟩, fun i hi j hj => c2 ⟨i, hi⟩ ⟨j, hj⟩, fun i hi j hj => c3 ⟨i, hi⟩ ⟨j, hj⟩⟩ hε.le (by linarith)
  exact ⟨s1, s2, hr.mono e2⟩

/-! The oscillators of `Consistent`: the average of the square of the velocity is 25 and the force is `-25 x`. -/

namespace TwoOscillators

theorem statics : Statics model (fun _ _ => 1) (fun _ _ => -25) (fun _ _ => 25) (fun _ _ => -25) (fun _ _ => 1 / 25) where
  det := gram_det
  force := fun i _ j _ => by
    have : model.nForce = 1 := rfl
    rw [this, Finset.sum_range_one]
    norm_num
  mass := fun i hi j hj => by
    have h : model.dimx = 1 := rfl
    rw [h] at hi hj
    rw [h, Finset.sum_range_one, if_pos (by omega)]
    norm_num

theorem stationaryStatics (dt : ℝ) (n : ℕ) :
    Spec.StationaryStatics model "a" (fun _ _ => 1) (fun _ _ => -25) (fun _ _ => 25) law (traj dt n) n where
  frames := fun _ => rfl
  gram := fun i _ j _ t _ => mean_of (avg_gram dt n t i j)
  proj := fun i _ j _ t _ => mean_of (avg_proj dt n t i j)
  square := fun i _ j _ t _ => mean_of (by
    have h := avg_corr dt n t 0 i j
    have h0 : U (1 / 2) (49 / 2) ((0 : ℕ) * dt) = 25 := by simp [U]; norm_num
    rw [h0] at h
    have e : ∀ c σ i, Spec.corrFeature model (xva dt n c σ) t i = (xva dt n c σ).data "v" t i := by
      intro c σ i
      rw [feature_v]
      simp [xva]
    simp only [e, add_zero] at h
    exact h)

theorem staticSetup (dt : ℝ) {n : ℕ} (hn : 1 ≤ n) (e : Draw) :
    StaticSetup env model "dim_x" { state dt 1 0 with xvas := [traj dt n e] } where
  loop := .inl rfl
  bm := rfl
  obs := ⟨by decide, by decide, fun y hy => by
    obtain rfl := List.mem_singleton.1 hy
    exact ⟨rfl, rfl⟩⟩
  dimx := fun y hy => by
    obtain rfl := List.mem_singleton.1 hy
    rfl
  pos := fun y hy => by
    obtain rfl := List.mem_singleton.1 hy
    exact hn
  ne := by simp

/-- The potential of this process is `x² / 2` over `kT`. -/
theorem potential_eq (kT : ℝ) (pt : ℕ → ℝ) : Spec.potential model (fun _ _ => -25) (fun _ _ => 1 / 25) kT pt 0 = pt 0 ^ 2 / 2 / kT := by
  have h1 : model.dimObs = 1 := rfl
  have h2 : model.basis.nOut = 1 := rfl
  have h3 : model.cls ≠ .overdamped := by decide
  rw [Spec.potential, h1, h2, Finset.sum_range_one, Finset.sum_range_one, if_neg h3]
  change -(pt 0 ^ 2 / 2 * -25 * (1 / 25)) / kT = _
  ring

theorem potential_converges (Ω : Type) [MeasurableSpace Ω] (P : Measure Ω) (X : ℕ → Ω → Draw) (hX : Spec.Draws law P X) (dt : ℝ)
    {n : ℕ} (hn : 1 ≤ n) : ∀ᵐ ω ∂P, ∀ η > 0, ∀ᶠ M in atTop, ∃ s1 s2,
      FindsPotential env { state dt 1 0 with xvas := draws (traj dt n) X M ω } model (fun _ _ => -25) (fun _ _ => 1 / 25) η s1 s2 :=
  C170_draws (fun h => by cases h) rfl le_rfl statics hX hn (stationaryStatics dt n) (staticSetup dt hn)

example := C170_near (fun h => by cases h) rfl le_rfl statics
example := C170_potential (m := model) rfl (fun k _ x => by
  refine (((hasDerivAt_id x).pow 2).div_const 2).congr_deriv ?_
  simp [basis, model])

end TwoOscillators

end Verif
