import Verif.Props.EvalMore2
import Verif.Props.Corrs
import Verif.Props.EstimatorMore
import Verif.Props.EstimatorExamples
import Verif.Props.Volterra
import Verif.Props.BasisChange
import Verif.Props.KernelApi2

/-!
# The noise of an estimated model is not correlated with the basis, up to the ends of the trajectories (C139)
-/

namespace Verif

set_option linter.unusedSectionVars false

open LArr Finset

section
variable {K : Type*} [Field K]

/-- A trajectory as the models see it: the observable and the arrays `E_force`, `E` of `basis_vector` (models.py:173-190). -/
def xvaTraj (m : BasisModel K) (L d : String) (x : ℕ) (xva : Xva K) : Traj K m.nForce (Spec.nCorr m) x where
  len := xva.n
  time := xva.time
  obs := fun t l => (xva.var L).get [t, l]
  Eforce := fun t k => match m.corrsVector xva with
    | .ok r => r.1.get [t, k]
    | .error _ => 0
  E := fun t k => match m.corrsVector xva with
    | .ok r => r.2.1.get [t, k]
    | .error _ => 0
  obsDim := d

/-- The fields of the state that `compute_corrs_w_noise` reads (models.py:171-207), as matrices. -/
def noiseModelOf (s : ModelState K) (x : ℕ) : NoiseModel K s.bm.nForce (Spec.nCorr s.bm) x where
  forceCoeff := s.forceCoeff.map fun c => Matrix.of fun (k : Fin s.bm.nForce) (l : Fin x) => c.get [k.1, l.1]
  kernel := match s.kernel with
    | none => none
    | some ⟨b', x', k⟩ => if h : b' = Spec.nCorr s.bm ∧ x' = x then some (h.1 ▸ h.2 ▸ k) else none
  method := s.method
  truncInd := s.truncInd

/-! ### Weighted means -/

theorem wmean_add (xs : List (Xva K)) (F G : Xva K → K) :
    Spec.weightedMean (xs.map fun y => (y.n, F y + G y)) =
      Spec.weightedMean (xs.map fun y => (y.n, F y)) + Spec.weightedMean (xs.map fun y => (y.n, G y)) := by
  unfold Spec.weightedMean
  simp only [List.map_map, Function.comp_def]
  rw [← add_div, ← List.sum_map_add]
  simp only [mul_add]

theorem wmean_mul (xs : List (Xva K)) (c : K) (F : Xva K → K) :
    Spec.weightedMean (xs.map fun y => (y.n, c * F y)) = c * Spec.weightedMean (xs.map fun y => (y.n, F y)) := by
  unfold Spec.weightedMean
  simp only [List.map_map, Function.comp_def]
  rw [← mul_div_assoc, ← List.sum_map_mul_left]
  congr 3
  funext y
  ring

theorem wmean_sum {ι : Type*} (xs : List (Xva K)) (S : Finset ι) (F : ι → Xva K → K) :
    Spec.weightedMean (xs.map fun y => (y.n, ∑ i ∈ S, F i y)) = ∑ i ∈ S, Spec.weightedMean (xs.map fun y => (y.n, F i y)) := by
  classical
  induction S using Finset.induction_on with
  | empty =>
    unfold Spec.weightedMean
    simp only [sum_empty, List.map_map, Function.comp_def, mul_zero, List.map_const', List.sum_replicate, smul_zero, zero_div]
  | insert a S ha ih => simp only [sum_insert ha, wmean_add, ih]

/-- The average over the first `n - m` starting times of a correlation at the lag `m - j`. -/
def edgeAvg (n m j : ℕ) (a b : ℕ → K) : K := (∑ t ∈ range (n - m), a t * b (t + (m - j))) / ((n - m : ℕ) : K)

theorem lagAverage_split {b x o : ℕ} (n m : ℕ) (left : ℕ → Fin o → K) (f : ℕ → Fin x → K) (E : ℕ → Fin b → K)
    (ker : ℕ → Mat K b x) (dt : K) (p : Fin o) (l : Fin x) :
    Spec.lagAverage n m left (fun t => f (t + m) + Spec.rectRule dt (Spec.memIntegrand E ker (t + m)) m) p l =
      Spec.corr n (fun t => left t p) (fun t => f t l) m +
        ∑ j ∈ range m, ∑ q : Fin b, dt * ker j q l * edgeAvg n m j (fun t => left t p) (fun t => E t q) := by
  unfold Spec.lagAverage Spec.corr edgeAvg Spec.rectRule Spec.memIntegrand
  simp only [Pi.add_apply, Finset.sum_apply, Pi.smul_apply, smul_eq_mul, mul_add, sum_add_distrib, add_div]
  congr 1
  simp only [mul_div_assoc', mul_sum, ← sum_div]
  congr 1
  rw [sum_comm]
  refine sum_congr rfl fun j hj => ?_
  rw [sum_comm]
  refine sum_congr rfl fun q _ => sum_congr rfl fun t _ => ?_
  rw [show t + m - j = t + (m - j) by have := mem_range.1 hj; omega]
  ring

end

section
variable {K : Type*} [Field K] [LinearOrder K] [IsStrictOrderedRing K]

theorem wmean_abs_le {xs : List (Xva K)} {F : Xva K → K} {c : K} (hc : 0 ≤ c) (h : ∀ y ∈ xs, |F y| ≤ c) :
    |Spec.weightedMean (xs.map fun y => (y.n, F y))| ≤ c := by
  unfold Spec.weightedMean
  simp only [List.map_map, Function.comp_def]
  have key : |(xs.map fun y => (y.n : K) * F y).sum| ≤ c * ((xs.map fun y => y.n).sum : ℕ) := by
    induction xs with
    | nil => simp
    | cons y ys ih =>
      have := ih fun z hz => h z (by simp [hz])
      have h1 := h y (by simp)
      simp only [List.map_cons, List.sum_cons, Nat.cast_add, mul_add]
      refine (abs_add_le _ _).trans (add_le_add ?_ this)
      rw [abs_mul, Nat.abs_cast, mul_comm]
      exact mul_le_mul_of_nonneg_right h1 (Nat.cast_nonneg _)
  rw [abs_div, Nat.abs_cast]
  exact div_le_of_le_mul₀ (Nat.cast_nonneg _) hc key

/-- Starting times at the end of the trajectory change an average by a fraction `2 j / (n - m + j)`. -/
theorem edge_bound {n m j : ℕ} (hm : m < n) (hj : j ≤ m) {a b : ℕ → K} {A B : K} (hA : ∀ t < n, |a t| ≤ A)
    (hB : ∀ t < n, |b t| ≤ B) :
    |edgeAvg n m j a b - Spec.corr n a b (m - j)| ≤ 2 * A * B * ((j : K) / ((n - m + j : ℕ) : K)) := by
  unfold edgeAvg Spec.corr
  have hA0 : 0 ≤ A := (abs_nonneg _).trans (hA 0 (by omega))
  have hn : n - (m - j) = (n - m) + j := by omega
  have hterm : ∀ t, t < n - m + j → |a t * b (t + (m - j))| ≤ A * B := fun t ht => by
    rw [abs_mul]
    exact mul_le_mul (hA t (by omega)) (hB _ (by omega)) (abs_nonneg _) hA0
  rw [hn, sum_range_add]
  obtain ⟨S1, hS1⟩ : ∃ S, S = ∑ t ∈ range (n - m), a t * b (t + (m - j)) := ⟨_, rfl⟩
  obtain ⟨S2, hS2⟩ : ∃ S, S = ∑ t ∈ range j, a (n - m + t) * b (n - m + t + (m - j)) := ⟨_, rfl⟩
  rw [← hS1, ← hS2]
  have b1 : |S1| ≤ (n - m : ℕ) * (A * B) := by
    rw [hS1]
    refine (abs_sum_le_sum_abs _ _).trans ((sum_le_sum fun t ht => hterm t (by have := mem_range.1 ht; omega)).trans ?_)
    rw [sum_const, card_range, nsmul_eq_mul]
  have b2 : |S2| ≤ j * (A * B) := by
    rw [hS2]
    refine (abs_sum_le_sum_abs _ _).trans ((sum_le_sum fun t ht => hterm (n - m + t) (by have := mem_range.1 ht; omega)).trans ?_)
    rw [sum_const, card_range, nsmul_eq_mul]
  have p1 : (0 : K) < ((n - m : ℕ) : K) := by exact_mod_cast (by omega : 0 < n - m)
  have p2 : (0 : K) < ((n - m + j : ℕ) : K) := by exact_mod_cast (by omega : 0 < n - m + j)
  have e : S1 / ((n - m : ℕ) : K) - (S1 + S2) / ((n - m + j : ℕ) : K) =
      (S1 / ((n - m : ℕ) : K) * j - S2) / ((n - m + j : ℕ) : K) := by
    rw [Nat.cast_add] at p2 ⊢
    field_simp
    ring
  rw [e, abs_div, abs_of_pos p2, ← mul_div_assoc]
  refine div_le_div_of_nonneg_right ?_ p2.le
  refine (abs_sub _ _).trans ?_
  have b3 : |S1 / ((n - m : ℕ) : K) * j| ≤ A * B * j := by
    rw [abs_mul, abs_div, abs_of_pos p1, Nat.abs_cast]
    refine mul_le_mul_of_nonneg_right ?_ (Nat.cast_nonneg _)
    rw [div_le_iff₀ p1, mul_comm]
    exact b1
  linarith

theorem computeCorrsWNoise_rect {b x o bf : ℕ} {M : NoiseModel K bf b x} (hm : isRectMethod M.method) {c : Mat K bf x}
    (hc : M.forceCoeff = some c) {k : KernelData K b x} (hk : M.kernel = some k) {t : Traj K bf b x} (ht : 2 ≤ t.len)
    (left : LeftOp K x o) : ∃ r, computeCorrsWNoise M t left = .ok r := by
  unfold computeCorrsWNoise
  simp only [hc, hk, bind, Except.bind, pure, Except.pure, throw, throwThe, MonadExceptOf.throw, if_neg (by omega : ¬ t.len < 2),
    if_pos hm]
  exact ⟨_, rfl⟩

/-- **C139**, what is true: for the rectangle rule the correlation of the basis with the noise (`compute_projected_corrs` with
the basis as `left_op`), pooled over all trajectories, is at lag `m ≥ 1` at most `2 A² dt ∑_{j<m} j/(N-m+j) ∑_q |K_j|`, where
`A` bounds the basis functions along the trajectories and `N` is the smallest number of frames. It tends to zero when the
trajectories get longer: all that is left are the ends of the trajectories. -/
theorem C139_edges_partial {env : Env K} {method : String} {vectorize : Bool} {rankTol : Option K} {s s2 s3 : EstState K}
    {d : String} {x : ℕ} {fc : LArr K} (h : CorrReady env method vectorize s d x fc)
    (hr : s.model.rankProjection = false) (h2 : computeCorrs env method vectorize true rankTol s = (s2, none)) {km : String}
    (hkm : km ∈ ["rect", "rectangular"]) {k0 : ∀ b x : ℕ, Option (Mat K b x)} (h3 : computeKernelStep km k0 s2 = (s3, none))
    (hdt : ∀ xva ∈ s.xvas, xva.time 1 - xva.time 0 = s.model.dt) (h0 : 0 ≤ s.model.dt) {A : K}
    (hA : ∀ xva ∈ s.xvas, ∀ t < xva.n, ∀ q < Spec.nCorr s.model.bm, |Spec.corrFeature s.model.bm xva t q| ≤ A) (hn2 : ∀ xva ∈ s.xvas, 2 ≤ xva.n) :
    ∃ k r, s3.model.kernel = some ⟨Spec.nCorr s.model.bm, x, k⟩ ∧ projectedCorrs (noiseModelOf s3.model x) (s.xvas.map fun xva => (xvaTraj s3.model.bm s.model.Lobs d x xva,
        LeftOp.array (xvaTraj s3.model.bm s.model.Lobs d x xva).E)) = .ok r ∧
      r.1.len = s.model.truncInd ∧ r.2.len = s.model.truncInd ∧ (∀ n, r.1.get n = k.time.get n) ∧
      ∀ N, (∀ xva ∈ s.xvas, N ≤ xva.n) → ∀ m, 1 ≤ m → m < s.model.truncInd → m < N → ∀ p l, |r.2.get m p l| ≤
        2 * A ^ 2 * s.model.dt * ∑ j ∈ range m, ((j : K) / ((N - m + j : ℕ) : K)) * ∑ q, |k.kernel.get j q l| := by
  obtain ⟨C, hC, b1, b2, hN, D1, D2, -, -, hent⟩ := computeCorrs_true (rankTol := rankTol) h hr rfl
  rw [h2] at hC
  obtain rfl : s2 = { s with corrs := some C } := (Prod.mk.inj hC).1
  obtain ⟨C0, ⟨b, x', k⟩, hC0, hs3, hk, hb, hx⟩ := C42_method_recorded h3
  obtain rfl : C = C0 := Option.some.inj hC0
  subst hs3
  dsimp only at hk hb hx ⊢
  rw [b1] at hb
  rw [b2] at hx
  subst hb
  obtain rfl : x = x' := hx.symm
  obtain ⟨M, hM⟩ : ∃ M, M = noiseModelOf ({ s.model with method := some km, kernel := some ⟨Spec.nCorr s.model.bm, x, k⟩ } : ModelState K) x := ⟨_, rfl⟩
  have hMc : M.forceCoeff = some (Matrix.of fun (k : Fin s.model.bm.nForce) (l : Fin x) => fc.get [k.1, l.1]) := by
    rw [hM]
    simp only [noiseModelOf, h.force, Option.map_some]
  have hMk : M.kernel = some k := by rw [hM]; simp [noiseModelOf]
  have hmeth : M.method = some km := by rw [hM]; rfl
  obtain ⟨len, hsolve, -⟩ := C01_rect_solves hkm hk
  have hrect : isRectMethod M.method := by
    rw [hmeth]
    left
    simp only [List.mem_cons, List.not_mem_nil, or_false] at hkm
    rcases hkm with rfl | rfl <;> simp
  have : Nonempty (Arr K × Arr (Mat K (Spec.nCorr s.model.bm) x)) := ⟨(⟨0, fun _ => 0⟩, ⟨0, fun _ => 0⟩)⟩
  choose! F hF using fun (t : Traj K s.model.bm.nForce (Spec.nCorr s.model.bm) x × LeftOp K x (Spec.nCorr s.model.bm))
    (ht : 2 ≤ t.1.len) => computeCorrsWNoise_rect hrect hMc hMk ht t.2
  obtain ⟨r, hr', r1, r2, r3, r4⟩ := C116_projected_corrs hMk (trajs := s.xvas.map fun xva =>
      (xvaTraj s.model.bm s.model.Lobs d x xva, LeftOp.array (xvaTraj s.model.bm s.model.Lobs d x xva).E))
    (by simpa using h.ne) (F := F) (by
      intro t ht
      obtain ⟨xva, hx, rfl⟩ := List.mem_map.1 ht
      exact hF _ (hn2 xva hx))
  rw [if_pos hrect] at r1 r3
  have tlen : k.time.len = s.model.truncInd := by rw [← (C12_times hk).1, len, hN]
  refine ⟨k, r, rfl, by rw [hM] at hr'; exact hr', r1.trans tlen, r3.trans (len.trans hN), r2, fun N hNle m h1 hm hmN p l => ?_⟩
  rw [r4, List.map_map]
  -- the features along a trajectory
  have feat : ∀ xva ∈ s.xvas, (∀ t < xva.n, ∀ q : Fin (Spec.nCorr s.model.bm),
      (xvaTraj s.model.bm s.model.Lobs d x xva).E t q = Spec.corrFeature s.model.bm xva t q) ∧
      ∀ t < xva.n, ∀ l : Fin x, Spec.instantNoise (xvaTraj s.model.bm s.model.Lobs d x xva).obs
        (xvaTraj s.model.bm s.model.Lobs d x xva).Eforce (Matrix.of fun (k : Fin s.model.bm.nForce) (l : Fin x) => fc.get [k.1, l.1]) t l =
        Spec.ortho s.model.bm s.model.Lobs (fun k j => fc.get [k, j]) xva t l := by
    intro xva hx
    obtain ⟨Ef, E, D, e, i1, i2, -⟩ := corrsVector_is s.model.bm h.wf xva (h.dimx xva hx)
    refine ⟨fun t ht q => ?_, fun t ht l => ?_⟩
    · simp only [xvaTraj, e]
      rw [i2.2.2 [t, q] (by simp [InRange, ht, q.2])]
      rfl
    · unfold Spec.instantNoise Spec.ortho
      simp only [xvaTraj, e, var_get, Matrix.of_apply]
      congr 1
      rw [Finset.sum_range]
      refine sum_congr rfl fun k _ => ?_
      rw [i1.2.2 [t, k] (by simp [InRange, ht, k.2])]
      rfl
  have split : ∀ xva ∈ s.xvas, (F (xvaTraj s.model.bm s.model.Lobs d x xva,
      LeftOp.array (xvaTraj s.model.bm s.model.Lobs d x xva).E)).2.get m p l =
      (Spec.corr xva.n (fun t => Spec.corrFeature s.model.bm xva t p)
        (fun t => Spec.ortho s.model.bm s.model.Lobs (fun k j => fc.get [k, j]) xva t l) m +
        ∑ j ∈ range m, ∑ q : Fin (Spec.nCorr s.model.bm), s.model.dt * k.kernel.get j q l *
          Spec.corr xva.n (fun t => Spec.corrFeature s.model.bm xva t p) (fun t => Spec.corrFeature s.model.bm xva t q) (m - j)) +
        ∑ j ∈ range m, ∑ q : Fin (Spec.nCorr s.model.bm), s.model.dt * k.kernel.get j q l *
          (edgeAvg xva.n m j (fun t => (xvaTraj s.model.bm s.model.Lobs d x xva).E t p)
            (fun t => (xvaTraj s.model.bm s.model.Lobs d x xva).E t q) -
          Spec.corr xva.n (fun t => (xvaTraj s.model.bm s.model.Lobs d x xva).E t p)
            (fun t => (xvaTraj s.model.bm s.model.Lobs d x xva).E t q) (m - j)) := by
    intro xva hx
    have htl := h.tle xva hx
    obtain ⟨-, g2, g3⟩ := C20_rect hrect hMc hMk (hF (xvaTraj s.model.bm s.model.Lobs d x xva,
      LeftOp.array (xvaTraj s.model.bm s.model.Lobs d x xva).E) (hn2 xva hx))
    rw [g3 m (by rw [g2, len, hN]; exact hm) (lt_of_lt_of_le hm htl)]
    refine (lagAverage_split xva.n m _ _ _ _ _ p l).trans ?_
    rw [show (xvaTraj s.model.bm s.model.Lobs d x xva).time 1 - (xvaTraj s.model.bm s.model.Lobs d x xva).time 0 =
      s.model.dt from hdt xva hx, add_assoc, ← sum_add_distrib]
    obtain ⟨f1, f2⟩ := feat xva hx
    refine congrArg₂ _ (corr_congr (fun t ht => f1 t ht p) (fun t ht => f2 t ht l) m) (sum_congr rfl fun j _ => ?_)
    rw [← sum_add_distrib]
    refine sum_congr rfl fun q _ => ?_
    rw [← corr_congr (fun t ht => f1 t ht p) (fun t ht => f1 t ht q) (m - j)]
    simp only [LeftOp.values]
    ring
  have hmap : (s.xvas.map ((fun t => (t.1.len, (F t).2.get m p l)) ∘ fun xva => (xvaTraj s.model.bm s.model.Lobs d x xva,
      LeftOp.array (xvaTraj s.model.bm s.model.Lobs d x xva).E))) = s.xvas.map fun xva => (xva.n, (Spec.corr xva.n (fun t => Spec.corrFeature s.model.bm xva t p)
        (fun t => Spec.ortho s.model.bm s.model.Lobs (fun k j => fc.get [k, j]) xva t l) m +
        ∑ j ∈ range m, ∑ q : Fin (Spec.nCorr s.model.bm), s.model.dt * k.kernel.get j q l *
          Spec.corr xva.n (fun t => Spec.corrFeature s.model.bm xva t p) (fun t => Spec.corrFeature s.model.bm xva t q) (m - j)) +
        ∑ j ∈ range m, ∑ q : Fin (Spec.nCorr s.model.bm), s.model.dt * k.kernel.get j q l *
          (edgeAvg xva.n m j (fun t => (xvaTraj s.model.bm s.model.Lobs d x xva).E t p)
            (fun t => (xvaTraj s.model.bm s.model.Lobs d x xva).E t q) -
          Spec.corr xva.n (fun t => (xvaTraj s.model.bm s.model.Lobs d x xva).E t p)
            (fun t => (xvaTraj s.model.bm s.model.Lobs d x xva).E t q) (m - j))) :=
    List.map_congr_left fun xva hx => Prod.ext rfl (split xva hx)
  rw [hmap, wmean_add, wmean_add, wmean_sum]
  simp only [wmean_sum, wmean_mul]
  have hzero : Spec.meanCorr s.xvas (fun xva t => Spec.corrFeature s.model.bm xva t p)
        (fun xva t => Spec.ortho s.model.bm s.model.Lobs (fun k j => fc.get [k, j]) xva t l) m +
        ∑ j ∈ range m, ∑ q : Fin (Spec.nCorr s.model.bm), s.model.dt * k.kernel.get j q l *
          Spec.meanCorr s.xvas (fun xva t => Spec.corrFeature s.model.bm xva t p)
            (fun xva t => Spec.corrFeature s.model.bm xva t q) (m - j) = 0 := by
    have e := congrFun (congrFun (hsolve m h1 (by rw [hN]; omega)) p) l
    unfold Spec.rectRule Spec.convIntegrand at e
    rw [Matrix.sum_apply, Matrix.neg_apply, (hent m hm p p l).2.1] at e
    rw [add_comm, ← eq_neg_iff_add_eq_zero, ← e]
    refine sum_congr rfl fun j hj => ?_
    rw [Matrix.smul_apply, Matrix.mul_apply, smul_eq_mul, mul_sum]
    refine sum_congr rfl fun q _ => ?_
    rw [(hent (m - j) (by omega) p q l).1]
    ring
  unfold Spec.meanCorr at hzero
  rw [hzero, zero_add]
  refine (abs_sum_le_sum_abs _ _).trans ?_
  rw [mul_sum]
  refine sum_le_sum fun j hj => ?_
  have hj := mem_range.1 hj
  refine (abs_sum_le_sum_abs _ _).trans ?_
  rw [mul_sum, mul_sum]
  refine sum_le_sum fun q _ => ?_
  have hb : 0 < Spec.nCorr s.model.bm := h.npos
  have hfrac : (0 : K) ≤ (j : K) / ((N - m + j : ℕ) : K) := by positivity
  have hbound : |Spec.weightedMean (s.xvas.map fun xva => (xva.n,
      edgeAvg xva.n m j (fun t => (xvaTraj s.model.bm s.model.Lobs d x xva).E t p)
        (fun t => (xvaTraj s.model.bm s.model.Lobs d x xva).E t q) -
      Spec.corr xva.n (fun t => (xvaTraj s.model.bm s.model.Lobs d x xva).E t p)
        (fun t => (xvaTraj s.model.bm s.model.Lobs d x xva).E t q) (m - j)))| ≤
      2 * A ^ 2 * ((j : K) / ((N - m + j : ℕ) : K)) := by
    refine wmean_abs_le (by positivity) fun xva hx => ?_
    have hn := hNle xva hx
    refine (edge_bound (by omega) (by omega) (A := A) (B := A) (fun t ht => by rw [(feat xva hx).1 t ht p]; exact hA xva hx t ht p p.2)
      fun t ht => by rw [(feat xva hx).1 t ht q]; exact hA xva hx t ht q q.2).trans ?_
    rw [mul_assoc 2 A A, ← pow_two]
    refine mul_le_mul_of_nonneg_left ?_ (by positivity)
    refine div_le_div_of_nonneg_left (Nat.cast_nonneg _) ?_ ?_
    · exact_mod_cast (by omega : 0 < N - m + j)
    · exact_mod_cast (by omega : N - m + j ≤ xva.n - m + j)
  rw [abs_mul, abs_mul, abs_of_nonneg h0]
  calc s.model.dt * |k.kernel.get j q l| * _ ≤ s.model.dt * |k.kernel.get j q l| * (2 * A ^ 2 * ((j : K) / ((N - m + j : ℕ) : K))) :=
        mul_le_mul_of_nonneg_left hbound (by positivity)
    _ = _ := by ring

theorem features_bounded (m : BasisModel K) (xs : List (Xva K)) : ∃ A : K, ∀ xva ∈ xs, ∀ t < xva.n, ∀ q < Spec.nCorr m,
    |Spec.corrFeature m xva t q| ≤ A := by
  refine ⟨(xs.map fun xva => ∑ t ∈ range xva.n, ∑ q ∈ range (Spec.nCorr m), |Spec.corrFeature m xva t q|).sum,
    fun xva hx t ht q hq => ?_⟩
  refine le_trans ?_ (List.single_le_sum (l := xs.map fun xva => ∑ t ∈ range xva.n, ∑ q ∈ range (Spec.nCorr m),
    |Spec.corrFeature m xva t q|) ?_ _ (List.mem_map_of_mem hx))
  · exact (single_le_sum (f := fun q => |Spec.corrFeature m xva t q|) (fun _ _ => abs_nonneg _) (mem_range.2 hq)).trans
      (single_le_sum (f := fun t => ∑ q ∈ range (Spec.nCorr m), |Spec.corrFeature m xva t q|)
        (fun _ _ => sum_nonneg fun _ _ => abs_nonneg _) (mem_range.2 ht))
  · intro y hy
    obtain ⟨z, -, rfl⟩ := List.mem_map.1 hy
    exact sum_nonneg fun _ _ => sum_nonneg fun _ _ => abs_nonneg _

/-- **C139** at the first lag: no correlation at all. -/
theorem C139_first_lag_partial {env : Env K} {method : String} {vectorize : Bool} {rankTol : Option K} {s s2 s3 : EstState K}
    {d : String} {x : ℕ} {fc : LArr K} (h : CorrReady env method vectorize s d x fc)
    (hr : s.model.rankProjection = false) (h2 : computeCorrs env method vectorize true rankTol s = (s2, none)) {km : String}
    (hkm : km ∈ ["rect", "rectangular"]) {k0 : ∀ b x : ℕ, Option (Mat K b x)} (h3 : computeKernelStep km k0 s2 = (s3, none))
    (hdt : ∀ xva ∈ s.xvas, xva.time 1 - xva.time 0 = s.model.dt) (h0 : 0 ≤ s.model.dt) (ht : 2 ≤ s.model.truncInd) :
    ∃ r, projectedCorrs (noiseModelOf s3.model x) (s.xvas.map fun xva => (xvaTraj s3.model.bm s.model.Lobs d x xva,
        LeftOp.array (xvaTraj s3.model.bm s.model.Lobs d x xva).E)) = .ok r ∧ ∀ p l, r.2.get 1 p l = 0 := by
  obtain ⟨A, hA⟩ := features_bounded s.model.bm s.xvas
  obtain ⟨k, r, -, e, -, -, -, hb⟩ := C139_edges_partial h hr h2 hkm h3 hdt h0 hA fun xva hx => ht.trans (h.tle xva hx)
  refine ⟨r, e, fun p l => ?_⟩
  have := hb 2 (fun xva hx => ht.trans (h.tle xva hx)) 1 le_rfl (by omega) (by omega) p l
  rw [sum_range_one, Nat.cast_zero, zero_div, zero_mul, mul_zero] at this
  exact abs_nonpos_iff.1 this

end

/-! ### Example and counterexample -/

namespace NoiseOrthoEx

def xva : Xva ℚ := Ex.xva 5 (fun t => if t = 2 then 3 else t) (fun t => t ^ 2 + 1) (fun t => if t = 1 then 4 else 1 - t)

def state : EstState ℚ where
  model := ⟨Ex.model .noVelBasis, "a", 1, 3, none, none, none, false, none, none, none, none, none⟩
  xvas := [xva]
  corrs := none
  saveall := false

def s1 : EstState ℚ := (computeMeanForce Ex.env state).1
def s2 : EstState ℚ := (computeCorrs Ex.env "direct" false true none s1).1
def s3 : EstState ℚ := (computeKernelStep "rect" (fun _ _ => none) s2).1

theorem ok1 : computeMeanForce Ex.env state = (s1, none) := Prod.ext rfl (by decide +kernel)
theorem ok2 : computeCorrs Ex.env "direct" false true none s1 = (s2, none) := Prod.ext rfl (by decide +kernel)
theorem ok3 : computeKernelStep "rect" (fun _ _ => none) s2 = (s3, none) := Prod.ext rfl (by decide +kernel)

theorem obs : SameObs state.xvas state.model.Lobs "dim_x" 1 := by
  refine ⟨by decide, by decide, fun y hy => ?_⟩
  obtain rfl : y = xva := by simpa [state] using hy
  exact ⟨rfl, rfl⟩

theorem frames : ∀ y ∈ state.xvas, y = xva := fun y hy => by simpa [state] using hy

theorem ready : ∃ c, CorrReady Ex.env "direct" false s1 "dim_x" 1 c := by
  obtain ⟨c, hc, c1, c2, -⟩ := computeMeanForce_ok Ex.isLoop (Ex.wf _) obs (by simp [state])
    (fun y hy => by rw [frames y hy]; decide) ok1
  obtain ⟨e1, e2, e3, -, e5, -⟩ := computeMeanForce_frame ok1
  exact ⟨c, Ex.isLoop, Ex.isCorrFn, by rw [e2]; exact Ex.wf _, by rw [e1, e3]; exact obs, by decide,
    fun y hy => by rw [e1] at hy; rw [frames y hy, e2]; rfl, hc, c1, by rw [e2]; exact c2, by rw [e2]; decide, by decide,
    by rw [e5]; decide, fun y hy => by rw [e1] at hy; rw [frames y hy, e5]; decide, by rw [e1]; simp [state]⟩

/-- The basis functions `1` and `x` along the trajectory are at most four. -/
theorem bounded : ∀ y ∈ s1.xvas, ∀ t < y.n, ∀ q < Spec.nCorr s1.model.bm, |Spec.corrFeature s1.model.bm y t q| ≤ 4 := by
  obtain ⟨e1, e2, -⟩ := computeMeanForce_frame ok1
  rw [e1, e2]
  intro y hy
  rw [frames y hy]
  show ∀ t < 5, ∀ q < 2, _
  decide +kernel

example : ∃ c, CorrReady Ex.env "direct" false s1 "dim_x" 1 c := ready

example := C139_edges_partial ready.choose_spec (computeMeanForce_frame ok1).2.2.2.2.2.1 ok2 (by decide) ok3
  (fun y hy => by
    rw [(computeMeanForce_frame ok1).1] at hy
    rw [frames y hy, (computeMeanForce_frame ok1).2.2.2.1]
    decide +kernel)
  (by rw [(computeMeanForce_frame ok1).2.2.2.1]; decide +kernel) bounded fun y hy => by
    rw [(computeMeanForce_frame ok1).1] at hy
    rw [frames y hy]
    decide

/-- What the estimator returns for the correlations of the basis with the noise. -/
def result : Except Err (Arr ℚ × Arr (Mat ℚ (Spec.nCorr s3.model.bm) 1)) :=
  projectedCorrs (noiseModelOf s3.model 1) (s1.xvas.map fun xva => (xvaTraj s3.model.bm "a" "dim_x" 1 xva,
    LeftOp.array (xvaTraj s3.model.bm "a" "dim_x" 1 xva).E))

def entryAt (n p : ℕ) : Option ℚ :=
  if h : p < Spec.nCorr s3.model.bm then
    match result with
    | .ok r => some (r.2.get n ⟨p, h⟩ 0)
    | .error _ => none
  else none

theorem nonzero : ∃ r, result = .ok r ∧ ∃ p, r.2.get 2 p 0 ≠ 0 := by
  have h : entryAt 2 0 = some (170 / 1083) := by decide +kernel
  unfold entryAt at h
  split_ifs at h with hp
  split at h
  · rename_i r hr
    refine ⟨r, hr, ⟨0, hp⟩, ?_⟩
    rw [Option.some.inj h]
    norm_num
  · cases h

end NoiseOrthoEx

/-- **C139** is false as it stands: one trajectory of five frames, correlations up to lag two, basis `1`, `x`. At lag two the
noise is correlated with the function `1`. -/
theorem C139_fails : ∃ (s s2 s3 : EstState ℚ) (fc : LArr ℚ), CorrReady Ex.env "direct" false s "dim_x" 1 fc ∧
    s.model.rankProjection = false ∧ computeCorrs Ex.env "direct" false true none s = (s2, none) ∧
    computeKernelStep "rect" (fun _ _ => none) s2 = (s3, none) ∧ (∀ xva ∈ s.xvas, xva.time 1 - xva.time 0 = s.model.dt) ∧
    ∃ r, projectedCorrs (noiseModelOf s3.model 1) (s.xvas.map fun xva => (xvaTraj s3.model.bm "a" "dim_x" 1 xva,
        LeftOp.array (xvaTraj s3.model.bm "a" "dim_x" 1 xva).E)) = .ok r ∧ ∃ p, r.2.get 2 p 0 ≠ 0 :=
  ⟨NoiseOrthoEx.s1, NoiseOrthoEx.s2, NoiseOrthoEx.s3, _, NoiseOrthoEx.ready.choose_spec,
    (computeMeanForce_frame NoiseOrthoEx.ok1).2.2.2.2.2.1, NoiseOrthoEx.ok2, NoiseOrthoEx.ok3, fun y hy => by
      rw [(computeMeanForce_frame NoiseOrthoEx.ok1).1] at hy
      rw [NoiseOrthoEx.frames y hy, (computeMeanForce_frame NoiseOrthoEx.ok1).2.2.2.1]
      decide +kernel, NoiseOrthoEx.nonzero⟩

end Verif
