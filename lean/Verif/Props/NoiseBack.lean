import Verif.Lemmas.SimBounds
import Verif.Props.EstNoise
import Verif.Props.Simulate
import Verif.Props.Trajectory

/-!
# `compute_noise` of a simulated trajectory returns the noise of the simulation (C158)
-/

namespace Verif

open Finset

section
variable {bf b x : ℕ}

/-- The memory force of `compute_noise` along rows `1, 2, ...` of a history, and the memory force of the simulation. -/
theorem noise_memory_near {m : NoiseModel ℝ bf b x} {xva : Traj ℝ bf b x} {trunc : Option ℕ} {r : NoiseOut ℝ x} {k : KernelData ℝ b x}
    (hm : isRectMethod m.method ∨ isTrapzMethod m.method) (hk : m.kernel = some k) (h : computeNoise m xva trunc 0 none = .ok r)
    {dt M : ℝ} (hdt : 0 ≤ dt) (ht : xva.time 1 - xva.time 0 = dt) (hu : 2 ≤ usedPoints m k trunc) (hM : 0 ≤ M)
    (hκ : ∀ j < usedPoints m k trunc, ∀ a l, |k.kernel.get j a l| ≤ M) {H : ℕ → Fin b → ℝ} {i : ℕ} (hi : i < r.len)
    (hE : ∀ t ≤ i, xva.E t = H (t + 1)) (hH : ∀ t ≤ i + 1, ‖H t‖ ≤ M) :
    ‖r.memory i + Spec.memory dt (usedPoints m k trunc) k.kernel.get H (i + 1)‖ ≤ dt * (b * M * M) := by
  obtain ⟨N, hN⟩ : ∃ N, usedPoints m k trunc = N + 1 := ⟨usedPoints m k trunc - 1, by omega⟩
  obtain ⟨T, hT⟩ : ∃ T : ℕ → Fin x → ℝ, T = fun j => Matrix.vecMul (H (i + 1 - j)) (k.kernel.get j) := ⟨_, rfl⟩
  have hTn : ∀ j ≤ N, ‖T j‖ ≤ b * M * M := fun j hj => by
    rw [hT]
    refine (norm_vecMul_le hM (hκ j (by omega))).trans ?_
    have := hH (i + 1 - j) (by omega)
    gcongr
  have hB : 0 ≤ b * M * M := by positivity
  have hTE : ∀ j ≤ i, (fun l => ∑ a, xva.E (0 + (i - j)) a * k.kernel.get j a l) = T j := fun j hj => by
    rw [hT, zero_add, hE _ (by omega), show i - j + 1 = i + 1 - j by omega]
    rfl
  have hmem : Spec.memory dt (usedPoints m k trunc) k.kernel.get H (i + 1) = Spec.trapzRule dt T (min (i + 1) N) := by
    rw [hT, Spec.memory, hN, Nat.add_sub_cancel]
  have half : ∀ (u w : Fin x → ℝ), ‖u‖ ≤ b * M * M → ‖w‖ ≤ b * M * M → ‖(dt / 2) • (u + w)‖ ≤ dt * (b * M * M) := by
    intro u w h1 h2
    rw [norm_smul, Real.norm_eq_abs, abs_of_nonneg (by linarith : 0 ≤ dt / 2)]
    have := (norm_add_le u w).trans (add_le_add h1 h2)
    calc dt / 2 * ‖u + w‖ ≤ dt / 2 * (b * M * M + b * M * M) := by gcongr
      _ = dt * (b * M * M) := by ring
  have half' : ∀ (u w : Fin x → ℝ), ‖u‖ ≤ b * M * M → ‖w‖ ≤ b * M * M → ‖(dt / 2) • (u - w)‖ ≤ dt * (b * M * M) := by
    intro u w h1 h2
    rw [sub_eq_add_neg]
    exact half u (-w) h1 (by rwa [norm_neg])
  have hneg : ∀ u : Fin x → ℝ, ‖-u‖ ≤ dt * (b * M * M) → ‖u‖ ≤ dt * (b * M * M) := fun u hu => by rwa [norm_neg] at hu
  rw [hmem]
  -- row zero
  rcases Nat.eq_zero_or_pos i with rfl | hi1
  · have h0 : r.memory 0 = 0 := by
      rcases hm with c | c
      · exact (C17_memory_rect c hk h).1
      · exact (C18_memory_trapz_partial c hk h).1
    rw [h0, zero_add, show min (0 + 1) N = 1 by omega]
    have : Spec.trapzRule dt T 1 = (dt / 2) • (T 0 + T 1) := by simp [Spec.trapzRule]
    rw [this]
    exact half _ _ (hTn 0 (by omega)) (hTn 1 (by omega))
  rcases hm with c | c
  · -- rectangles
    have e : r.memory i = -∑ j ∈ range (min (i + 1) (N + 1)), dt • T j := by
      funext l
      rw [(C17_memory_rect c hk h).2 i hi1 hi l, hN, Pi.neg_apply, Finset.sum_apply]
      congr 1
      refine sum_congr rfl fun j hj => ?_
      have hj := mem_range.1 hj
      rw [Pi.smul_apply, smul_eq_mul, ← hTE j (by omega), zero_add, ht]
    rw [e, trapzRule_eq _ _ (by omega)]
    rcases Nat.lt_or_ge N (i + 1) with g | g
    · rw [show min (i + 1) (N + 1) = N + 1 by omega, show min (i + 1) N = N by omega, sum_range_succ,
        ← sum_range_add_sum_Ico _ (show 1 ≤ N by omega), sum_range_one]
      refine hneg _ (le_trans (le_of_eq ?_) (half (T 0) (T N) (hTn 0 (by omega)) (hTn N le_rfl)))
      congr 1
      module
    · rw [show min (i + 1) (N + 1) = i + 1 by omega, show min (i + 1) N = i + 1 by omega,
        ← sum_range_add_sum_Ico _ (show 1 ≤ i + 1 by omega), sum_range_one]
      refine hneg _ (le_trans (le_of_eq ?_) (half' (T 0) (T (i + 1)) (hTn 0 (by omega)) (hTn _ (by omega))))
      congr 1
      module
  · rcases Nat.lt_or_ge N i with g | g
    · rw [C18_memory_trapz_late c hk h i N hi hN g, zero_add, ht, show min (i + 1) N = N by omega]
      have e1 : Spec.trapzRule dt (fun s l => ∑ a, xva.E (0 + (i - s)) a * k.kernel.get s a l) N = Spec.trapzRule dt T N := by
        unfold Spec.trapzRule
        refine sum_congr rfl fun j hj => ?_
        have hj := mem_range.1 hj
        exact congrArg _ (congrArg₂ _ (hTE j (by omega)) (hTE (j + 1) (by omega)))
      have e2 := hTE N (by omega)
      rw [e1, e2, neg_add_rev, add_assoc, neg_add_cancel, add_zero, norm_neg, norm_smul, Real.norm_eq_abs, abs_of_nonneg hdt]
      have := hTn N le_rfl
      gcongr
    · have e0 := (C18_memory_trapz_partial c hk h).2 i hi1 hi (by omega)
      rw [zero_add, ht] at e0
      have e1 : Spec.trapzRule dt (fun s l => ∑ a, xva.E (0 + (i - s)) a * k.kernel.get s a l) i = Spec.trapzRule dt T i := by
        unfold Spec.trapzRule
        refine sum_congr rfl fun j hj => ?_
        have hj := mem_range.1 hj
        exact congrArg _ (congrArg₂ _ (hTE j (by omega)) (hTE (j + 1) (by omega)))
      rw [e0, e1]
      rcases Nat.lt_or_ge i N with g' | g'
      · rw [show min (i + 1) N = i + 1 by omega]
        have : Spec.trapzRule dt T (i + 1) = Spec.trapzRule dt T i + (dt / 2) • (T i + T (i + 1)) := by
          rw [Spec.trapzRule, sum_range_succ, ← Spec.trapzRule]
        rw [this, neg_add_cancel_left]
        exact half _ _ (hTn i (by omega)) (hTn _ (by omega))
      · rw [show min (i + 1) N = i by omega, neg_add_cancel, norm_zero]
        positivity

end

/-- The dataset that `run` returns (gle_integrate.py:300). -/
def Trj.toDataset {K : Type*} {d : ℕ} (trj : Trj K d) (dt : K) : Dataset K :=
  ⟨trj.n, trj.time, [("x", ⟨d, fun i k => if h : k < d then some (trj.x i ⟨k, h⟩) else none⟩),
    ("v", ⟨d, fun i k => if h : k < d then some (trj.v i ⟨k, h⟩) else none⟩)], some dt⟩

/-- A dataset without missing values, as the models read it. -/
def Dataset.toXva {K : Type*} [Zero K] (ds : Dataset K) : Xva K where
  n := ds.n
  dimx := ((ds.vars.lookup "x").map (·.dim)).getD 0
  time := ds.time
  data := fun name i k => match ds.vars.lookup name with
    | none => 0
    | some v => if k < v.dim then (v.get i k).getD 0 else 0
  extraDim := fun _ => "dim_x"
  extraSize := fun name => ((ds.vars.lookup name).map (·.dim)).getD 0

theorem toXva_has {K : Type*} [Zero K] {ds : Dataset K} {name : String} {d : ℕ} {X : ℕ → ℕ → K} (h : ds.Has name d X) {i : ℕ}
    (hi : i < ds.n) (k : ℕ) : ds.toXva.data name i k = if k < d then X i k else 0 := by
  obtain ⟨v, h1, h2, h3⟩ := h
  simp only [Dataset.toXva, h1, h2]
  split_ifs with c
  · rw [h3 i hi k c]; rfl
  · rfl

theorem trj_has {K : Type*} {d : ℕ} [Field K] (trj : Trj K d) (dt : K) :
    (trj.toDataset dt).Has "x" d (fun i => point (trj.x i)) ∧ (trj.toDataset dt).Has "v" d (fun i => point (trj.v i)) := by
  refine ⟨⟨_, rfl, rfl, fun i _ k hk => ?_⟩, ⟨_, rfl, rfl, fun i _ k hk => ?_⟩⟩ <;>
  · simp [point, hk]

namespace Spec

/-- The force with coefficients `F` grows at most linearly and the functions of the kernel are bounded. -/
structure LinearGrowth (m : BasisModel ℝ) (F : Mat ℝ m.nForce m.dimObs) (a : ℝ) : Prop where
  force : ∀ y, ‖gleForceAt m F y‖ ≤ a * (1 + ‖y‖)
  kernel : ∀ (y : Fin m.dimObs → ℝ), ∀ k < nCorr m, ∀ i < m.dimObs, |kernelAt m (point y) k i| ≤ a

end Spec

theorem memoryAt_le {m : BasisModel ℝ} {F : Mat ℝ m.nForce m.dimObs} {a : ℝ} (ha : 0 ≤ a) (h : Spec.LinearGrowth m F a)
    (y w : Fin m.dimObs → ℝ) : ‖Spec.memoryAt m y w‖ ≤ m.dimObs * a * ‖w‖ := by
  refine (pi_norm_le_iff_of_nonneg (by positivity)).2 fun k => ?_
  unfold Spec.memoryAt
  refine (norm_sum_le _ _).trans ((Finset.sum_le_card_nsmul _ _ (a * ‖w‖) fun i _ => ?_).trans (by simp [mul_assoc]))
  rw [norm_mul]
  exact mul_le_mul (h.kernel y k k.2 i i.2) (norm_le_pi_norm w i) (norm_nonneg _) ha

/-- Force and functions of the memory are bounded and Lipschitz on balls. -/
theorem smooth_bounds {m : BasisModel ℝ} (hb : Spec.SmoothBasis m) (F : Mat ℝ m.nForce m.dimObs) (R : ℝ) :
    ∃ M L : ℝ, 0 ≤ M ∧ 0 ≤ L ∧ (∀ y, ‖y‖ ≤ R → ‖Spec.gleForceAt m F y‖ ≤ M) ∧
      (∀ y z, ‖y‖ ≤ R → ‖z‖ ≤ R → ‖Spec.gleForceAt m F y - Spec.gleForceAt m F z‖ ≤ L * ‖y - z‖) ∧
      (∀ y w, ‖y‖ ≤ R → ‖w‖ ≤ R → ‖Spec.memoryAt m y w‖ ≤ M) ∧
      ∀ y w z u, ‖y‖ ≤ R → ‖w‖ ≤ R → ‖z‖ ≤ R → ‖u‖ ≤ R →
        ‖Spec.memoryAt m y w - Spec.memoryAt m z u‖ ≤ L * ‖(y, w) - (z, u)‖ := by
  have c1 : IsCompact (Metric.closedBall (0 : Fin m.dimObs → ℝ) R) := isCompact_closedBall _ _
  have c2 : IsCompact (Metric.closedBall (0 : (Fin m.dimObs → ℝ) × (Fin m.dimObs → ℝ)) R) := isCompact_closedBall _ _
  obtain ⟨L1, h1⟩ := (hb.force (F := F)).contDiffOn.exists_lipschitzOnWith one_ne_zero (convex_closedBall _ _) c1
  obtain ⟨L2, h2⟩ := hb.memory.contDiffOn.exists_lipschitzOnWith one_ne_zero (convex_closedBall _ _) c2
  obtain ⟨M1, h3⟩ := c1.exists_bound_of_continuousOn (hb.force (F := F)).continuous.continuousOn
  obtain ⟨M2, h4⟩ := c2.exists_bound_of_continuousOn hb.memory.continuous.continuousOn
  have mem1 : ∀ y : Fin m.dimObs → ℝ, ‖y‖ ≤ R → y ∈ Metric.closedBall (0 : Fin m.dimObs → ℝ) R := fun y hy => by simpa using hy
  have mem2 : ∀ y w : Fin m.dimObs → ℝ, ‖y‖ ≤ R → ‖w‖ ≤ R →
      (y, w) ∈ Metric.closedBall (0 : (Fin m.dimObs → ℝ) × (Fin m.dimObs → ℝ)) R := fun y w hy hw => by
    rw [mem_closedBall_zero_iff]
    exact max_le hy hw
  refine ⟨max 0 (max M1 M2), max (L1 : ℝ) L2, le_max_left _ _, le_max_of_le_left L1.2, fun y hy => ?_, fun y z hy hz => ?_,
    fun y w hy hw => ?_, fun y w z u hy hw hz hu => ?_⟩
  · exact (h3 y (mem1 y hy)).trans (le_max_of_le_right (le_max_left _ _))
  · have := h1.dist_le_mul y (mem1 y hy) z (mem1 z hz)
    rw [dist_eq_norm, dist_eq_norm] at this
    exact this.trans (mul_le_mul_of_nonneg_right (le_max_left _ _) (norm_nonneg _))
  · exact (h4 _ (mem2 y w hy hw)).trans (le_max_of_le_right (le_max_right _ _))
  · have := h2.dist_le_mul (y, w) (mem2 y w hy hw) (z, u) (mem2 z u hz hu)
    rw [dist_eq_norm, dist_eq_norm] at this
    exact this.trans (mul_le_mul_of_nonneg_right (le_max_right _ _) (norm_nonneg _))

set_option maxHeartbeats 2000000 in
/-- The noise of a simulation, for one model and one run. -/
theorem noise_back_core {s : ModelState ℝ} {c : LArr ℝ} {d obsDim : String} {r : KernelData ℝ (Spec.nCorr s.bm) s.bm.dimObs}
    (hE : Estimated s c d r) {cls : IntegratorClass} (hm : Spec.Meant s.bm.cls cls) (hd1 : 0 < s.bm.dimObs)
    (hp : s.rankProjection = false) {F : Mat ℝ s.bm.nForce s.bm.dimObs}
    (hF : ∀ (p : Fin s.bm.nForce) (l : Fin s.bm.dimObs), c.get [p.1, l.1] = F p l) {trunc : Option ℕ} {len : ℕ}
    (hlen : len = min (trunc.getD s.truncInd) r.kernel.len) (h2 : 2 ≤ len)
    (hmeth : isRectMethod s.method ∨ isTrapzMethod s.method) (hdim : s.bm.dimObs = 1 ∨ obsDim ≠ "dim_x") (hdt : 0 < s.dt)
    {nSteps : ℕ} (hn : 4 ≤ nSteps) {D : InitData ℝ s.bm.dimObs} (hD : D.n = 1) (hD0 : D.time 0 = 0) (noise : ℕ → Fin s.bm.dimObs → ℝ) :
    ∃ trj, simulate s cls trunc nSteps (some D) noise = .ok trj ∧ trj.x 0 = D.x 0 ∧ trj.v 0 = D.v 0 ∧
      (∃ A : ℕ → Fin s.bm.dimObs → ℝ,
        (∀ n, 1 ≤ n → A n = Spec.memory s.dt len r.kernel.get (fun t => Spec.memoryAt s.bm (trj.x t) (trj.v t)) n) ∧
        A 0 = (s.dt / 2) • Matrix.vecMul (Spec.memoryAt s.bm (trj.x 0) (trj.v 0)) (r.kernel.get 0) ∧
        ∀ n, n + 1 < nSteps → (trj.x (n + 1), trj.v (n + 1)) = Spec.rk4 s.dt (fun c (y : (Fin s.bm.dimObs → ℝ) × (Fin s.bm.dimObs → ℝ)) =>
          (y.2, Spec.gleForceAt s.bm F y.1 + noise (n + 1) - ((1 - c) • A n + c • Spec.memory s.dt len r.kernel.get
          (Function.update (fun t => Spec.memoryAt s.bm (trj.x t) (trj.v t)) (n + 1) (Spec.memoryAt s.bm y.1 y.2)) (n + 1)))) (trj.x n, trj.v n)) ∧
      ∃ ds res, computeAFromVel (trj.toDataset s.dt) = .ok ds ∧
        computeNoise (noiseModelOf s s.bm.dimObs) (xvaTraj s.bm "a" obsDim s.bm.dimObs ds.toXva) trunc 0 none = .ok res ∧
        res.len = nSteps - 2 ∧ ∀ R M L S, 0 ≤ R → 0 ≤ M → 0 ≤ L → s.dt * slopeBound (Spec.nCorr s.bm) R M S ≤ 1 →
          Spec.Bounded R M L S s.dt (Spec.gleForceAt s.bm F) (Spec.memoryAt s.bm) len r.kernel.get nSteps trj.x trj.v noise →
          ∀ i < nSteps - 2, ‖res.noise i - (1 / 2 : ℝ) • (noise (i + 1) + noise (i + 2))‖ ≤ 3 * slopeVar (Spec.nCorr s.bm) R M L S * s.dt := by
  obtain ⟨nB, nD, I, sim, hker, hvec, hrun⟩ := simulate_integrator hE hm trunc
  have hIlen : I.kernel.len = len := sim.len.trans hlen.symm
  have hIdt : I.dt = s.dt := sim.dt
  obtain ⟨trj, h⟩ := I.run_ok (nSteps := nSteps) (x0 := some D) noise (by rw [hIlen]; exact h2) (by simp [hD]) (by simp [hD]; omega)
    (by
      rintro D' ⟨⟩ t ht
      obtain rfl : t = 0 := by omega
      rw [hD0]; simp)
  have hini := ((C67_initial h).2.1 D rfl).2 0 (by omega)
  have hN := (I.run_spec h).1
  have htime := (I.run_spec h).2.1
  -- the terms of the integrator
  have eF : ∀ y, Matrix.vecMul (I.basis y) I.forceCoeff = Spec.gleForceAt s.bm F y := fun y => by
    obtain ⟨R, h1, h2⟩ := sim.force y
    obtain ⟨R', h3, -, -, h4⟩ := forceEval_ok hE.force hE.wf 1 (fun _ => point y)
    obtain rfl : R = R' := Except.ok.inj (h1.symm.trans h3)
    funext l
    rw [← h2 l, h4]
    unfold Spec.gleForceAt
    refine sum_congr rfl fun q hq => ?_
    have hnF : s.bm.nForce = s.bm.basis.nOut := by
      unfold BasisModel.nForce
      rcases hm with ⟨e, -⟩ | ⟨e, -⟩ <;> rw [e]
    have hq : q < s.bm.nForce := by rw [hnF]; exact mem_range.1 hq
    rw [Spec.entry, dif_pos ⟨hq, l.2⟩, ← hF]
  have eE : ∀ y w, I.proj.mulVec (I.vec y w) = Spec.memoryAt s.bm y w := fun y w => funext fun k => hvec hp y w k
  have eK : I.kernel.get = r.kernel.get := funext fun j => Matrix.ext fun k l => hker j k l
  have eH : history I trj = fun t => Spec.memoryAt s.bm (trj.x t) (trj.v t) := funext fun t => eE _ _
  obtain ⟨H, hH⟩ : ∃ H, H = fun t => Spec.memoryAt s.bm (trj.x t) (trj.v t) := ⟨_, rfl⟩
  obtain ⟨A, hA⟩ : ∃ A : ℕ → Fin s.bm.dimObs → ℝ, A = fun n => if n = 0 then (s.dt / 2) • Matrix.vecMul (H 0) (r.kernel.get 0)
    else Spec.memory s.dt len r.kernel.get H n := ⟨_, rfl⟩
  have hA1 : ∀ n, 1 ≤ n → A n = Spec.memory s.dt len r.kernel.get H n := fun n hn => by
    rw [hA]; exact if_neg (by omega)
  have hA0 : A 0 = (s.dt / 2) • Matrix.vecMul (H 0) (r.kernel.get 0) := by rw [hA]; exact if_pos rfl
  have step : ∀ n, n + 1 < nSteps → (trj.x (n + 1), trj.v (n + 1)) =
      Spec.rk4 s.dt (fun c (y : (Fin s.bm.dimObs → ℝ) × (Fin s.bm.dimObs → ℝ)) =>
        (y.2, Spec.gleForceAt s.bm F y.1 + noise (n + 1) - ((1 - c) • A n + c • Spec.memory s.dt len r.kernel.get
        (Function.update H (n + 1) (Spec.memoryAt s.bm y.1 y.2)) (n + 1)))) (trj.x n, trj.v n) := by
    intro n hn
    rcases Nat.eq_zero_or_pos n with rfl | c
    · have := C66_first_step h (by simp [initLen, hD]) hn
      rw [hIdt, hIlen, eK, eH, ← hH] at this
      simp only [eF, eE] at this
      rw [hA0]
      exact this
    · have := C66_memory_partial h (n := n + 1) (by simp [initLen, hD]) hn (by omega)
      rw [hIdt, hIlen, eK, eH, ← hH] at this
      simp only [eF, eE, Nat.add_sub_cancel] at this
      rw [hA1 n c]
      exact this
  rw [← hrun] at h
  refine ⟨trj, h, hini.1, hini.2, ⟨A, by rw [← hH]; exact hA1, by rw [hA0, hH], by rw [← hH]; exact step⟩, ?_⟩
  -- the accelerations
  obtain ⟨hx, hv⟩ := trj_has trj s.dt
  obtain ⟨ds, hds, hint, dx, dv, da⟩ := computeAFromVel_spec (trj.toDataset s.dt) s.dt s.bm.dimObs _ _ hd1 rfl hx hv
  have hdn : ds.n = nSteps - 2 := by rw [hint.1]; change trj.n - 2 = _; rw [hN]
  have hdimx : ds.toXva.dimx = s.bm.dimx := by
    obtain ⟨v, h1, h2, -⟩ := dx
    simp [Dataset.toXva, h1, h2, hE.dims]
  obtain ⟨f1, f2⟩ := xvaTraj_features hE.wf hdimx "a" obsDim s.bm.dimObs
  have hk : (noiseModelOf s s.bm.dimObs).kernel = some r := by simp [noiseModelOf, hE.kernel]
  have hc : (noiseModelOf s s.bm.dimObs).forceCoeff =
      some (Matrix.of fun (k : Fin s.bm.nForce) (l : Fin s.bm.dimObs) => c.get [k.1, l.1]) := by
    simp [noiseModelOf, hE.force.force]
  have hu : usedPoints (noiseModelOf s s.bm.dimObs) r trunc = len := hlen.symm
  obtain ⟨res, hres, hrl⟩ := computeNoise_succeeds hc hk (xva := xvaTraj s.bm "a" obsDim s.bm.dimObs ds.toXva) (trunc := trunc)
    (by change 2 ≤ ds.n; omega) (by omega) hmeth
  have hrl : res.len = nSteps - 2 := hrl.trans hdn
  refine ⟨ds, res, hds, hres, hrl, fun R M L S hR hM hL hsmall hB i hi => ?_⟩
  have posx : ∀ t < ds.n, ds.toXva.data "x" t = point (trj.x (t + 1)) := fun t ht => funext fun k => by
    rw [toXva_has dx ht]
    split_ifs with g
    · rfl
    · simp [point, g]
  have posv : ∀ t < ds.n, ds.toXva.data "v" t = point (trj.v (t + 1)) := fun t ht => funext fun k => by
    rw [toXva_has dv ht]
    split_ifs with g
    · rfl
    · simp [point, g]
  have hEt : ∀ t < ds.n, (xvaTraj s.bm "a" obsDim s.bm.dimObs ds.toXva).E t = H (t + 1) := by
    intro t ht
    funext q
    rw [f2 t ht q, hH]
    unfold Spec.corrFeature Spec.memoryAt Spec.kernelAt
    rw [posx t ht, posv t ht, hdimx]
    rcases hm with ⟨e, -⟩ | ⟨e, -⟩
    · simp only [e]
      rw [hE.dims, Finset.sum_range]
      exact sum_congr rfl fun i _ => by rw [point_fin]
    · simp only [e]
      have hq : q.1 < s.bm.dimObs := by
        have hn : Spec.nCorr s.bm = s.bm.dimx := by unfold Spec.nCorr; rw [e]
        have := q.2
        have := hE.dims
        omega
      obtain ⟨q', hq'⟩ : ∃ q' : Fin s.bm.dimObs, q'.1 = q.1 := ⟨⟨q.1, hq⟩, rfl⟩
      rw [← hq', point_fin]
      simp only [ite_mul, one_mul, zero_mul, ← Fin.ext_iff, Finset.sum_ite_eq, mem_univ, if_true]
  have ht01 : (xvaTraj s.bm "a" obsDim s.bm.dimObs ds.toXva).time 1 - (xvaTraj s.bm "a" obsDim s.bm.dimObs ds.toXva).time 0 = s.dt := by
    change ds.time 1 - ds.time 0 = s.dt
    rw [hint.2.2 1 (by omega), hint.2.2 0 (by omega)]
    change trj.time 2 - trj.time 1 = _
    rw [htime, htime, hIdt]
    push_cast
    ring
  have hHb : ∀ t < nSteps, ‖H t‖ ≤ M := fun t ht => by
    rw [hH]
    exact hB.memory _ _ ((hB.hx t ht).trans (by linarith)) ((hB.hv t ht).trans (by linarith))
  have mem := noise_memory_near (H := H) (i := i) hmeth hk hres hdt.le ht01 (by omega) hM (by rw [hu]; exact hB.kernel) (by omega)
    (fun t ht => hEt t (by omega)) fun t ht => hHb t (by omega)
  rw [hu] at mem
  have acc := central_difference hB hR hM hL hdt hsmall h2 (A := A) (by rw [← hH]; exact hA1) (by rw [hA0, hH]) (by rw [← hH]; exact step)
    (n := i) (by omega)
  rw [← hH] at acc
  obtain ⟨k1, k2, k3⟩ := C19_decomposition_partial hc hdim hres
  have hobs : (xvaTraj s.bm "a" obsDim s.bm.dimObs ds.toXva).obs i = (1 / (2 * s.dt)) • (trj.v (i + 2) - trj.v i) := by
    funext l
    have e1 : (xvaTraj s.bm "a" obsDim s.bm.dimObs ds.toXva).obs i l = ds.toXva.data "a" i l := var_get ds.toXva "a" i l
    rw [e1, toXva_has da (by omega), if_pos l.2, point_fin, point_fin]
    simp only [Pi.smul_apply, Pi.sub_apply, smul_eq_mul]
    ring
  have hfor : res.force i = Spec.gleForceAt s.bm F (trj.x (i + 1)) := by
    funext l
    rw [k3 i l, zero_add]
    unfold Spec.gleForceAt
    have hnF : s.bm.nForce = s.bm.basis.nOut := by
      unfold BasisModel.nForce
      rcases hm with ⟨e, -⟩ | ⟨e, -⟩ <;> rw [e]
    have hfr : s.bm.cls ≠ .withFriction := by
      rcases hm with ⟨e, -⟩ | ⟨e, -⟩ <;> rw [e] <;> decide
    rw [← hnF, Finset.sum_range]
    refine sum_congr rfl fun q _ => ?_
    rw [f1 i (by change i < ds.n; omega) q, Spec.forceFeature, if_neg (fun h => hfr h.1), posx i (by omega), Spec.entry, dif_pos ⟨q.2, l.2⟩, ← hF]
    rfl
  have k1 := k1 i
  rw [zero_add, hobs, hfor] at k1
  have e : res.noise i - (1 / 2 : ℝ) • (noise (i + 1) + noise (i + 2)) =
      ((1 / (2 * s.dt)) • (trj.v (i + 2) - trj.v i) - (Spec.gleForceAt s.bm F (trj.x (i + 1)) - Spec.memory s.dt len r.kernel.get H (i + 1) +
        (1 / 2 : ℝ) • (noise (i + 1) + noise (i + 2)))) - (res.memory i + Spec.memory s.dt len r.kernel.get H (i + 1)) := by
    rw [k1]
    module
  rw [e]
  refine (norm_sub_le _ _).trans ((add_le_add acc mem).trans ?_)
  have hS : 0 ≤ S := le_trans (by positivity) hB.time
  have hV : (Spec.nCorr s.bm : ℝ) * M * M ≤ slopeVar (Spec.nCorr s.bm) R M L S := by
    unfold slopeVar slopeBound
    have q : 0 ≤ (Spec.nCorr s.bm : ℝ) * M * M := by positivity
    have q1 : 0 ≤ M + 2 * R + 1 + S * ((Spec.nCorr s.bm : ℝ) * M * M) := by positivity
    have q2 : 0 ≤ S * ((Spec.nCorr s.bm : ℝ) * M * (L * (M + 2 * R + 1 + S * ((Spec.nCorr s.bm : ℝ) * M * M)))) := by positivity
    nlinarith [mul_nonneg hL q1]
  nlinarith

set_option maxHeartbeats 1000000 in
/-- **C158.** Simulate a model with any noise that is bounded, compute the accelerations with `compute_a_from_vel`, and then the noise
with `compute_noise` of the same model: at row `i` this is the mean of the values of the noise used for the steps into and out of the
frame, up to `O(dt)`, with a constant that depends on bounds only. -/
theorem C158_noise_back {m : BasisModel ℝ} {cls : IntegratorClass} (hm : Spec.Meant m.cls cls) (hd : m.dimx = m.dimObs) (hd1 : 0 < m.dimObs)
    (hw : m.WF) (hb : Spec.SmoothBasis m) {F : Mat ℝ m.nForce m.dimObs} {a : ℝ} (ha : 0 ≤ a) (hgrow : Spec.LinearGrowth m F a)
    {M S R0 : ℝ} (hM : 0 ≤ M) (hS : 0 ≤ S) (hR0 : 0 ≤ R0) :
    ∃ C δ : ℝ, 0 < δ ∧ ∀ (s : ModelState ℝ) (c : LArr ℝ) (d obsDim : String) (r : KernelData ℝ (Spec.nCorr s.bm) s.bm.dimObs) (trunc : Option ℕ)
      (nSteps : ℕ) (D : InitData ℝ m.dimObs) (noise : ℕ → Fin m.dimObs → ℝ), s.bm = m → HasForce s c d →
      (∀ (p : Fin m.nForce) (l : Fin m.dimObs), c.get [p.1, l.1] = F p l) → s.rankProjection = false →
      s.kernel = some ⟨Spec.nCorr s.bm, s.bm.dimObs, r⟩ → 2 ≤ min (trunc.getD s.truncInd) r.kernel.len →
      (∀ j < min (trunc.getD s.truncInd) r.kernel.len, ∀ k l, |r.kernel.get j k l| ≤ M) →
      isRectMethod s.method ∨ isTrapzMethod s.method → m.dimObs = 1 ∨ obsDim ≠ "dim_x" →
      0 < s.dt → s.dt ≤ δ → 4 ≤ nSteps → nSteps * s.dt ≤ S → D.n = 1 → D.time 0 = 0 → (∀ i, |D.x 0 i| ≤ R0 ∧ |D.v 0 i| ≤ R0) →
      (∀ n < nSteps, ∀ i, |noise n i| ≤ R0) →
      ∃ trj ds res, simulate s cls trunc nSteps (some D) noise = .ok trj ∧ computeAFromVel (trj.toDataset s.dt) = .ok ds ∧
        computeNoise (noiseModelOf s m.dimObs) (xvaTraj s.bm "a" obsDim m.dimObs ds.toXva) trunc 0 none = .ok res ∧
        res.len = nSteps - 2 ∧
        ∀ i < nSteps - 2, ∀ l, |res.noise i l - (noise (i + 1) l + noise (i + 2) l) / 2| ≤ C * s.dt := by
  obtain ⟨R, δ, hR, hδ, HB⟩ := simulation_bounded (d := m.dimObs) (b := Spec.nCorr m) (a := a) (a' := m.dimObs * a) ha (by positivity) hR0 hM hS
  obtain ⟨M1, L, hM1, hL, b1, b2, b3, b4⟩ := smooth_bounds hb F (max R R0 + 1)
  have hK : 0 < slopeBound (Spec.nCorr m) (max R R0) (max M M1) S := by
    unfold slopeBound
    have : 0 ≤ max R R0 := le_max_of_le_left hR
    have : 0 ≤ max M M1 := le_max_of_le_left hM
    positivity
  refine ⟨3 * slopeVar (Spec.nCorr m) (max R R0) (max M M1) L S, min δ (1 / slopeBound (Spec.nCorr m) (max R R0) (max M M1) S),
    lt_min hδ (by positivity), ?_⟩
  intro s c d obsDim r trunc nSteps D noise hbm hc hF hp hk hlen hκ hmeth hdim hdt hdtδ hn hNS hD hD0 hini hno
  subst hbm
  have hE : Estimated s c d r := ⟨hc, hw, hk, hd, fun _ => rfl, fun h => by rw [hp] at h; cases h⟩
  obtain ⟨trj, h1, h2, h3, ⟨A, hA1, hA0, step⟩, ds, res, h4, h5, h6, h7⟩ :=
    noise_back_core hE hm hd1 hp hF rfl hlen hmeth hdim hdt hn hD hD0 noise (obsDim := obsDim)
  refine ⟨trj, ds, res, h1, h4, h5, h6, ?_⟩
  have hnoR : ∀ n < nSteps, ‖noise n‖ ≤ R0 := fun n hn => (pi_norm_le_iff_of_nonneg hR0).2 fun i => hno n hn i
  have hb := HB _ _ s.dt _ nSteps _ trj.x trj.v noise A hgrow.force (memoryAt_le ha hgrow) hdt (hdtδ.trans (min_le_left _ _)) hNS hlen hκ
    (by rw [h2]; exact (pi_norm_le_iff_of_nonneg hR0).2 fun i => (hini i).1)
    (by rw [h3]; exact (pi_norm_le_iff_of_nonneg hR0).2 fun i => (hini i).2) hnoR hA1 hA0 step
  have hsm := hdtδ.trans (min_le_right _ _)
  rw [le_div_iff₀ hK] at hsm
  have key := h7 (max R R0) (max M M1) L S (le_max_of_le_left hR) (le_max_of_le_left hM) hL hsm
    { hx := fun t ht => (hb t ht).1.trans (le_max_left _ _)
      hv := fun t ht => (hb t ht).2.trans (le_max_left _ _)
      noise := fun t ht => (hnoR t ht).trans (le_max_right _ _)
      force := fun y hy => (b1 y hy).trans (le_max_right _ _)
      forceLip := b2
      memory := fun y w hy hw => (b3 y w hy hw).trans (le_max_right _ _)
      memoryLip := b4
      kernel := fun j hj k l => (hκ j hj k l).trans (le_max_left _ _)
      time := hNS }
  intro i hi l
  have := (norm_le_pi_norm _ l).trans (key i hi)
  refine le_trans (le_of_eq ?_) this
  rw [Real.norm_eq_abs]
  congr 1
  simp only [Pi.sub_apply, Pi.smul_apply, Pi.add_apply, smul_eq_mul]
  ring

namespace TwoOscillators

open Real

theorem growth : Spec.LinearGrowth model F 25 where
  force y := by
    have a1 : Spec.entry F 0 0 = -25 := by
      rw [Spec.entry, dif_pos ⟨by decide, by decide⟩]
      rfl
    refine (pi_norm_le_iff_of_nonneg (by positivity)).2 fun i => ?_
    obtain rfl : i = ⟨0, by decide⟩ := Subsingleton.elim (α := Fin 1) i _
    have e : Spec.gleForceAt model F y ⟨0, by decide⟩ = -25 * y ⟨0, by decide⟩ := by
      simp only [Spec.gleForceAt]
      refine (Finset.sum_range_one _).trans ?_
      rw [a1]
      simp [model, basis, point]
      ring
    rw [e, norm_mul]
    have h1 := norm_le_pi_norm y ⟨0, by decide⟩
    have h2 : ‖(-25 : ℝ)‖ = 25 := by norm_num
    rw [h2]
    linarith
  kernel y k _ i _ := by
    have : Spec.kernelAt model (point y) k i = 1 := rfl
    rw [this]
    norm_num

/-- A model with the force and the kernel of the oscillators. -/
noncomputable def simState (method : String) (N : ℕ) : ModelState ℝ where
  bm := model
  Lobs := "a"
  dt := 1 / N
  truncInd := N
  forceCoeff := some (LArr.mk2 "dim_basis" 1 "dim_x" 1 fun _ _ => -25)
  kernel := some ⟨Spec.nCorr model, model.dimObs, ⟨⟨N, fun j => k (j * (1 / N))⟩, ⟨N, fun j => j * (1 / N)⟩⟩⟩
  method := some method
  rankProjection := false
  Prange := none
  gramForce := none
  gramKernel := none
  effMass := none

/-- A noise that changes its sign at every step is not seen by `compute_noise`. -/
theorem C158_alternating (method : String) (hmeth : isRectMethod (some method) ∨ isTrapzMethod (some method)) :
    ∃ C δ : ℝ, 0 < δ ∧ ∀ N : ℕ, 4 ≤ N → 1 / (N : ℝ) ≤ δ →
    ∃ trj ds res, simulate (d := 1) (simState method N) .gle none N (some ⟨1, fun _ => 0, fun _ _ => 0, fun _ _ => 8⟩) (fun n _ => (-1) ^ n) = .ok trj ∧
      computeAFromVel (trj.toDataset (1 / N)) = .ok ds ∧
      computeNoise (noiseModelOf (simState method N) 1) (xvaTraj model "a" "dim_x" 1 ds.toXva) none 0 none = .ok res ∧
      res.len = N - 2 ∧ ∀ i < N - 2, ∀ l, |res.noise i l| ≤ C * (1 / N) := by
  obtain ⟨C, δ, hδ, H⟩ := C158_noise_back (cls := .gle) (.inl ⟨rfl, rfl⟩) rfl (by decide) (fun h => by cases h) smooth (by norm_num) growth
    (M := 576 / 25) (S := 1) (R0 := 8) (by norm_num) (by norm_num) (by norm_num)
  refine ⟨C, δ, hδ, fun N hN hNδ => ?_⟩
  have hN0 : (0 : ℝ) < N := by exact_mod_cast (by omega : 0 < N)
  obtain ⟨trj, ds, res, h1, h2, h3, h4, h5⟩ := H (simState method N) (LArr.mk2 "dim_basis" 1 "dim_x" 1 fun _ _ => -25) "dim_x" "dim_x" _ none N
    ⟨1, fun _ => 0, fun _ _ => 0, fun _ _ => 8⟩ (fun n _ => (-1) ^ n) rfl ⟨rfl, rfl, rfl, by decide⟩ (fun _ _ => rfl) rfl rfl
    (by simp [simState]; omega) (fun j _ q l => by
      change |kt (j * (1 / N))| ≤ _
      rw [kt, abs_mul, abs_of_pos (by norm_num : (0 : ℝ) < 576 / 25)]
      exact mul_le_of_le_one_right (by norm_num) (abs_cos_le_one _)) hmeth (.inl rfl)
    (by change 0 < 1 / (N : ℝ); positivity) hNδ hN (by change (N : ℝ) * (1 / N) ≤ 1; field_simp; exact le_rfl) rfl rfl
    (fun i => by norm_num) fun n _ i => by
      rw [abs_pow, abs_neg, abs_one, one_pow]
      norm_num
  refine ⟨trj, ds, res, h1, h2, h3, h4, fun i hi l => ?_⟩
  have h6 : |res.noise i l - ((-1 : ℝ) ^ (i + 1) + (-1) ^ (i + 2)) / 2| ≤ C * (1 / N) := h5 i hi l
  rw [show ((-1 : ℝ) ^ (i + 1) + (-1) ^ (i + 2)) / 2 = 0 by ring, sub_zero] at h6
  exact h6

example := C158_alternating "rect" (.inl (by decide))
example := C158_alternating "trapz" (.inr (by decide))

end TwoOscillators

end Verif
