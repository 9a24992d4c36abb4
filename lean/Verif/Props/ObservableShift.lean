import Verif.Props.NoiseMoved

/-!
# What of the observable and of the data matters (C156)

Adding a combination of the functions of the mean force to the observable moves the force by this combination and changes neither the
kernel nor the noise. Using every trajectory several times changes nothing.
-/

namespace Verif

set_option linter.unusedSectionVars false

open LArr Finset

section
variable {K : Type*} [Field K]

/-- The combination `g` of the functions of the mean force along a trajectory. -/
def Spec.forceSum (m : BasisModel K) (g : ℕ → ℕ → K) (y : Xva K) (t j : ℕ) : K :=
  ∑ k ∈ range m.nForce, Spec.forceFeature m y t k * g k j

/-- The same trajectory; its observable `L'` is the observable `L` plus the combination `g` of the functions of the mean force. -/
structure Spec.ShiftedXva (m : BasisModel K) (L L' : String) (g : ℕ → ℕ → K) (y y' : Xva K) : Prop where
  n : y'.n = y.n
  dimx : y'.dimx = y.dimx
  x : ∀ t, y'.data "x" t = y.data "x" t
  v : ∀ t, y'.data "v" t = y.data "v" t
  a : ∀ t, y'.data "a" t = y.data "a" t
  obs : ∀ t, ∀ j < m.dimObs, y'.data L' t j = y.data L t j + Spec.forceSum m g y t j

/-- The second list contains, in any order, `r` times what corresponds to the first list. -/
def Spec.Copies {α β : Type*} (r : ℕ) (P : α → β → Prop) (xs : List α) (ys : List β) : Prop :=
  ∃ zs, List.Forall₂ P xs zs ∧ (List.replicate r zs).flatten.Perm ys

theorem copies_sum {α β M : Type*} [AddCommMonoid M] {r : ℕ} {P : α → β → Prop} {xs : List α} {ys : List β} (h : Spec.Copies r P xs ys)
    {f : α → M} {g : β → M} (hfg : ∀ x y, P x y → g y = f x) : (ys.map g).sum = r • (xs.map f).sum := by
  obtain ⟨zs, h, hp⟩ := h
  have e : zs.map g = xs.map f := by
    clear hp
    induction h with
    | nil => rfl
    | cons h _ ih => rw [List.map_cons, List.map_cons, hfg _ _ h, ih]
  rw [(hp.symm.map g).sum_eq]
  clear hp
  induction r with
  | zero => simp
  | succ r ih => rw [List.replicate_succ, List.flatten_cons, List.map_append, List.sum_append, ih, e, succ_nsmul']

section
variable [CharZero K] {r : ℕ} {P : Xva K → Xva K → Prop} {xs ys : List (Xva K)}

theorem meanCorr_copies (hr : r ≠ 0) (h : Spec.Copies r P xs ys) (hn : ∀ x y, P x y → y.n = x.n) {F F' G G' : Xva K → ℕ → K}
    (hF : ∀ x y, P x y → ∀ t, F' y t = F x t) (hG : ∀ x y, P x y → ∀ t, G' y t = G x t) (n : ℕ) :
    Spec.meanCorr ys F' G' n = Spec.meanCorr xs F G n := by
  have hr' : (r : K) ≠ 0 := by exact_mod_cast hr
  unfold Spec.meanCorr Spec.weightedMean
  rw [List.map_map, List.map_map, List.map_map, List.map_map,
    copies_sum h (f := (fun s : ℕ × K => (s.1 : K) * s.2) ∘ fun xva : Xva K => (xva.n, Spec.corr xva.n (F xva) (G xva) n)) fun x y hxy => by
      simp only [Function.comp_apply]
      rw [hn x y hxy, show F' y = F x from funext (hF x y hxy), show G' y = G x from funext (hG x y hxy)],
    copies_sum h (f := (fun s : ℕ × K => s.1) ∘ fun xva : Xva K => (xva.n, Spec.corr xva.n (F xva) (G xva) n))
      (g := (fun s : ℕ × K => s.1) ∘ fun xva : Xva K => (xva.n, Spec.corr xva.n (F' xva) (G' xva) n)) fun x y hxy => hn x y hxy]
  rw [nsmul_eq_mul, smul_eq_mul, Nat.cast_mul, mul_div_mul_left _ _ hr']

theorem pooledSum_copies (h : Spec.Copies r P xs ys) (hn : ∀ x y, P x y → y.n = x.n) {F F' : Xva K → ℕ → K}
    (hF : ∀ x y, P x y → ∀ t, F' y t = F x t) :
    Spec.pooledSum (ys.map fun y => (y.n, F' y)) = r * Spec.pooledSum (xs.map fun x => (x.n, F x)) := by
  unfold Spec.pooledSum
  rw [List.map_map, List.map_map, copies_sum h (f := (fun s : ℕ × (ℕ → K) => ∑ t ∈ range s.1, s.2 t) ∘ fun x : Xva K => (x.n, F x)) fun x y hxy => by
      simp only [Function.comp_apply]
      rw [hn x y hxy, show F' y = F x from funext (hF x y hxy)], nsmul_eq_mul]

theorem pooledMean_copies (hr : r ≠ 0) (h : Spec.Copies r P xs ys) (hn : ∀ x y, P x y → y.n = x.n) {F F' : Xva K → ℕ → K}
    (hF : ∀ x y, P x y → ∀ t, F' y t = F x t) :
    Spec.pooledMean (ys.map fun y => (y.n, F' y)) = Spec.pooledMean (xs.map fun x => (x.n, F x)) := by
  have hr' : (r : K) ≠ 0 := by exact_mod_cast hr
  rw [pooledMean_eq, pooledMean_eq, pooledSum_copies h hn hF, copies_sum h hn, smul_eq_mul, Nat.cast_mul, mul_div_mul_left _ _ hr']

theorem pooledSum_add_comb (xs : List (Xva K)) {ι : Type*} (s : Finset ι) (A : Xva K → ℕ → K) (B : ι → Xva K → ℕ → K) (c : ι → K) :
    Spec.pooledSum (xs.map fun x => (x.n, fun t => A x t + ∑ k ∈ s, B k x t * c k)) =
      Spec.pooledSum (xs.map fun x => (x.n, A x)) + ∑ k ∈ s, Spec.pooledSum (xs.map fun x => (x.n, B k x)) * c k := by
  unfold Spec.pooledSum
  simp only [List.map_map, Function.comp_def]
  induction xs with
  | nil => simp
  | cons y ys ih =>
    rw [List.map_cons, List.sum_cons, ih, sum_add_distrib, sum_comm]
    simp only [List.map_cons, List.sum_cons, add_mul, sum_add_distrib, ← sum_mul]
    ring

end

variable {m : BasisModel K} {L L' : String} {g : ℕ → ℕ → K} {y y' : Xva K}

theorem Spec.ShiftedXva.forceFeature (h : Spec.ShiftedXva m L L' g y y') (t k : ℕ) : Spec.forceFeature m y' t k = Spec.forceFeature m y t k := by
  unfold Spec.forceFeature
  rw [h.dimx, h.x, h.v]

theorem Spec.ShiftedXva.corrFeature (h : Spec.ShiftedXva m L L' g y y') (t k : ℕ) : Spec.corrFeature m y' t k = Spec.corrFeature m y t k := by
  unfold Spec.corrFeature
  rw [h.dimx, h.x, h.v]

theorem Spec.ShiftedXva.codeDot (h : Spec.ShiftedXva m L L' g y y') (t k : ℕ) : codeDot m y' t k = codeDot m y t k := by
  unfold Verif.codeDot Spec.corrFeatureDot
  simp only [h.dimx, h.x, h.v, h.a, h.n]

/-- The residual of the observable does not change. -/
theorem Spec.ShiftedXva.ortho (h : Spec.ShiftedXva m L L' g y y') {c c' : LArr K}
    (hc : ∀ k < m.nForce, ∀ j < m.dimObs, c'.get [k, j] = c.get [k, j] + g k j) (t : ℕ) {j : ℕ} (hj : j < m.dimObs) :
    Spec.ortho m L' (fun k j => c'.get [k, j]) y' t j = Spec.ortho m L (fun k j => c.get [k, j]) y t j := by
  unfold Spec.ortho
  rw [h.obs t j hj, sum_congr rfl fun k hk => by beta_reduce; rw [h.forceFeature, hc k (mem_range.1 hk) j hj, mul_add], sum_add_distrib, Spec.forceSum]
  ring

end

section
variable {K : Type*} [Field K] [LinearOrder K] {r : ℕ} {g : ℕ → ℕ → K} {d : String}

/-- The same model and settings, with `r` copies of every trajectory and an observable shifted by the combination `g` of the functions of
the mean force. -/
structure ShiftedData (r : ℕ) (g : ℕ → ℕ → K) (s s' : EstState K) : Prop where
  copies : r ≠ 0
  bm : s'.model.bm = s.model.bm
  xvas : Spec.Copies r (Spec.ShiftedXva s.model.bm s.model.Lobs s'.model.Lobs g) s.xvas s'.xvas
  dt : s'.model.dt = s.model.dt
  truncInd : s'.model.truncInd = s.model.truncInd

/-- The mean force moves by `g`. -/
theorem force_shifted [CharZero K] {env : Env K} {method : String} {vectorize : Bool} {s s' s1 : EstState K}
    (hs : Setup env method vectorize s.model.bm d s) (hs' : Setup env method vectorize s'.model.bm d s') (h : ShiftedData r g s s')
    (h1 : computeMeanForce env s = (s1, none)) :
    ∃ s1' c c', computeMeanForce env s' = (s1', none) ∧ s1.model.forceCoeff = some c ∧ s1'.model.forceCoeff = some c' ∧
      c.dims = ["dim_basis", d] ∧ c.shape = [s.model.bm.nForce, s.model.bm.dimObs] ∧
      c'.dims = ["dim_basis", d] ∧ c'.shape = [s.model.bm.nForce, s.model.bm.dimObs] ∧
      ∀ k < s.model.bm.nForce, ∀ j < s.model.bm.dimObs, c'.get [k, j] = c.get [k, j] + g k j := by
  have hpos : ∀ xva ∈ s.xvas, 1 ≤ xva.n := fun xva hx => hs.tpos.trans (hs.tle xva hx)
  have hpos' : ∀ xva ∈ s'.xvas, 1 ≤ xva.n := fun xva hx => hs'.tpos.trans (hs'.tle xva hx)
  have hr' : (r : K) ≠ 0 := by exact_mod_cast h.copies
  obtain ⟨c, hc, c1, c2, hdet, key⟩ := computeMeanForce_ok hs.loop hs.wf hs.obs hs.ne hpos h1
  have hn : ∀ x y, Spec.ShiftedXva s.model.bm s.model.Lobs s'.model.Lobs g x y → y.n = x.n := fun x y hxy => hxy.n
  have hb := h.bm
  have hm : ∀ i j : ℕ, Spec.pooledMean (s'.xvas.map fun xva => (xva.n, fun t =>
      Spec.forceFeature s'.model.bm xva t i * Spec.forceFeature s'.model.bm xva t j)) = Spec.pooledMean (s.xvas.map fun xva => (xva.n, fun t =>
      Spec.forceFeature s.model.bm xva t i * Spec.forceFeature s.model.bm xva t j)) := fun i j =>
    pooledMean_copies h.copies h.xvas hn fun x y hxy t => by rw [hb, hxy.forceFeature, hxy.forceFeature]
  have hdet' : (Matrix.of fun i j : Fin s'.model.bm.nForce => Spec.pooledMean (s'.xvas.map fun xva => (xva.n, fun t =>
        Spec.forceFeature s'.model.bm xva t i * Spec.forceFeature s'.model.bm xva t j))).det ≠ 0 := by
    simp only [hm]
    rw [hb]
    exact hdet
  obtain ⟨s1', h1'⟩ := C38_defined hs'.loop hs'.wf hs'.obs hs'.ne hpos' hdet'
  obtain ⟨c', hc', c1', c2', -, key'⟩ := computeMeanForce_ok hs'.loop hs'.wf hs'.obs hs'.ne hpos' h1'
  rw [hb] at key' c2'
  refine ⟨s1', c, c', h1', hc, hc', c1, c2, c1', c2', ?_⟩
  obtain ⟨G, hG⟩ : ∃ G : Mat K s.model.bm.nForce s.model.bm.nForce, G = Matrix.of fun i j : Fin s.model.bm.nForce =>
    Spec.pooledSum (s.xvas.map fun xva => (xva.n, fun t => Spec.forceFeature s.model.bm xva t i * Spec.forceFeature s.model.bm xva t j)) := ⟨_, rfl⟩
  have hGdet : G.det ≠ 0 := by
    obtain ⟨W, hW⟩ : ∃ W : K, W = ((s.xvas.map fun x => x.n).sum : ℕ) := ⟨_, rfl⟩
    have hW0 : W ≠ 0 := by
      obtain ⟨y, hy⟩ := List.exists_mem_of_ne_nil _ hs.ne
      have : y.n ≤ (s.xvas.map fun x => x.n).sum := List.single_le_sum (by simp) _ (List.mem_map_of_mem hy)
      have := hpos y hy
      rw [hW]
      exact_mod_cast (by omega : (s.xvas.map fun x => x.n).sum ≠ 0)
    have e : G = W • Matrix.of fun i j : Fin s.model.bm.nForce => Spec.pooledMean (s.xvas.map fun xva => (xva.n, fun t =>
        Spec.forceFeature s.model.bm xva t i * Spec.forceFeature s.model.bm xva t j)) := by
      ext i j
      rw [hG, Matrix.smul_apply, Matrix.of_apply, Matrix.of_apply, pooledMean_eq, ← hW, smul_eq_mul, mul_div_cancel₀ _ hW0]
    rw [e, Matrix.det_smul]
    exact mul_ne_zero (pow_ne_zero _ hW0) hdet
  have hsum : ∀ i < s.model.bm.nForce, ∀ j < s.model.bm.dimObs, ∑ k ∈ range s.model.bm.nForce, Spec.pooledSum (s.xvas.map fun xva =>
      (xva.n, fun t => Spec.forceFeature s.model.bm xva t i * Spec.forceFeature s.model.bm xva t k)) *
        (c'.get [k, j] - (c.get [k, j] + g k j)) = 0 := fun i hi j hj => by
    have e := key' i hi j hj
    rw [sum_congr rfl fun k _ => by rw [pooledSum_copies h.xvas hn (F := fun xva t => Spec.forceFeature s.model.bm xva t i *
        Spec.forceFeature s.model.bm xva t k) fun x y hxy t => by rw [hxy.forceFeature, hxy.forceFeature]],
      pooledSum_copies h.xvas hn (F := fun xva t => Spec.forceFeature s.model.bm xva t i * xva.data s.model.Lobs t j +
        ∑ k ∈ range s.model.bm.nForce, Spec.forceFeature s.model.bm xva t i * Spec.forceFeature s.model.bm xva t k * g k j) fun x y hxy t => by
          rw [hxy.forceFeature, hxy.obs t j hj, mul_add, Spec.forceSum, mul_sum]
          simp only [mul_assoc]] at e
    simp only [mul_assoc (r : K)] at e
    rw [← mul_sum] at e
    have e' := mul_left_cancel₀ hr' e
    rw [pooledSum_add_comb s.xvas (range s.model.bm.nForce) (fun xva t => Spec.forceFeature s.model.bm xva t i * xva.data s.model.Lobs t j)
      (fun k xva t => Spec.forceFeature s.model.bm xva t i * Spec.forceFeature s.model.bm xva t k) fun k => g k j, ← key i hi j hj,
      ← sum_add_distrib] at e'
    simp only [mul_sub, mul_add, sum_sub_distrib]
    rw [e', sub_self]
  intro k hk j hj
  have hv : G.mulVec (fun q => c'.get [(q : ℕ), j] - (c.get [(q : ℕ), j] + g q j)) = 0 := by
    funext i
    have := hsum i i.2 j hj
    rw [Finset.sum_range] at this
    rw [Matrix.mulVec, dotProduct, hG]
    exact this
  exact sub_eq_zero.1 (congrFun (Matrix.eq_zero_of_mulVec_eq_zero hGdet hv) ⟨k, hk⟩)

/-- What `compute_noise` and `compute_corrs_w_noise` of two models return along two trajectories that differ in the observable. -/
structure Spec.SameUpToForce (g : ℕ → ℕ → K) (L L' d : String) (bm : BasisModel K) (s s' : ModelState K) : Prop where
  kernel : s'.kernel = s.kernel
  force : ∀ n (pts : ℕ → ℕ → K), ∃ F F', forceEval s none n pts = .ok F ∧ forceEval s' none n pts = .ok F' ∧ F'.rows = F.rows ∧
    F'.cols = F.cols ∧ ∀ i, ∀ l < bm.dimObs, F'.get i l = F.get i l + ∑ q ∈ range bm.basis.nOut, bm.basis.basis (pts i) q * g q l
  noise : ∀ y y', Spec.ShiftedXva bm L L' g y y' → y.dimx = bm.dimx → y'.time = y.time → (bm.dimObs = 1 ∨ d ≠ "dim_x") →
    ∀ (trunc : Option ℕ) (start : ℕ) (stop : Option ℕ), ExRel (fun a b => b.len = a.len ∧ ∀ t < a.len, b.time t = a.time t ∧
        b.memory t = a.memory t ∧ b.noise t = a.noise t ∧ ∀ j : Fin bm.dimObs, b.obs t j = a.obs t j + Spec.forceSum bm g y (start + t) j ∧
          b.force t j = a.force t j + Spec.forceSum bm g y (start + t) j)
      (computeNoise (noiseModelOf s bm.dimObs) (xvaTraj s.bm L d bm.dimObs y) trunc start stop)
      (computeNoise (noiseModelOf s' bm.dimObs) (xvaTraj s'.bm L' d bm.dimObs y') trunc start stop)
  corrs : ∀ y y' : Xva K, Spec.ShiftedXva bm L L' g y y' → y.dimx = bm.dimx → y'.time = y.time → ∀ {o : ℕ} (left : LeftOp K bm.dimObs o),
    ExRel (fun a b => b.1.len = a.1.len ∧ (∀ t, b.1.get t = a.1.get t) ∧ b.2.len = a.2.len ∧ ∀ i < a.2.len, i < y.n → b.2.get i = a.2.get i)
      (computeCorrsWNoise (noiseModelOf s bm.dimObs) (xvaTraj s.bm L d bm.dimObs y) left)
      (computeCorrsWNoise (noiseModelOf s' bm.dimObs) (xvaTraj s'.bm L' d bm.dimObs y') left)

theorem shifted_link {bm : BasisModel K} {m m' : ModelState K} (e : m.bm = bm) (e' : m'.bm = bm) (hm : m'.method = m.method)
    (hT : m'.truncInd = m.truncInd) {c c' : LArr K} (hc : m.forceCoeff = some c) (hc' : m'.forceCoeff = some c')
    (hcc : ∀ k < bm.nForce, ∀ j < bm.dimObs, c'.get [k, j] = c.get [k, j] + g k j) {k : KernelData K (Spec.nCorr bm) bm.dimObs}
    (hk : m.kernel = some ⟨_, _, k⟩) (hk' : m'.kernel = some ⟨_, _, k⟩) (hw : bm.WF) {L L' : String} {y y' : Xva K}
    (hy : Spec.ShiftedXva bm L L' g y y') (hd : y.dimx = bm.dimx) (ht : y'.time = y.time) :
    NoiseLink (1 : Mat K bm.dimObs bm.dimObs) 1 (fun t j => Spec.forceSum bm g y t j) (noiseModelOf m bm.dimObs) (noiseModelOf m' bm.dimObs)
      (xvaTraj m.bm L d bm.dimObs y) (xvaTraj m'.bm L' d bm.dimObs y') := by
  subst e
  cases m'
  dsimp only at e' hm hT hc' hk'
  subst e'
  obtain ⟨a1, a2⟩ := xvaTraj_features hw hd L d m.bm.dimObs
  obtain ⟨b1, b2⟩ := xvaTraj_features hw (hy.dimx.trans hd) L' d m.bm.dimObs
  refine ⟨one_ne_zero, hm, hT, hy.n, rfl, ⟨0, fun t => by show y'.time t = _; rw [ht, one_mul, add_zero]; rfl⟩, fun t _ => ?_,
    ⟨_, _, by simp only [noiseModelOf, hc, Option.map_some]; rfl, by simp only [noiseModelOf, hc', Option.map_some]; rfl, fun t ht => ?_⟩,
    k, k, by simp [noiseModelOf, hk], by simp [noiseModelOf, hk'], rfl, rfl, fun t => (one_mul _).symm, fun t ht j => ?_⟩
  · rw [Matrix.one_mulVec]
    funext l
    show (y'.var L').get [t, l] = (y.var L).get [t, l] + _
    rw [var_get, var_get, hy.obs t l l.2]
  · rw [Matrix.one_mulVec]
    funext l
    simp only [Matrix.vecMul, dotProduct, Pi.add_apply, Matrix.of_apply]
    rw [Spec.forceSum, Finset.sum_range, ← sum_add_distrib]
    refine sum_congr rfl fun p _ => ?_
    rw [b1 t (hy.n ▸ ht), a1 t ht, hy.forceFeature, hcc p p.2 l l.2, mul_add]
  · rw [Matrix.one_mulVec, inv_one, one_smul]
    congr 1
    funext q
    rw [b2 t (hy.n ▸ ht), a2 t ht, hy.corrFeature]

set_option maxHeartbeats 1000000 in
/-- **C156.** Adding a combination of the functions of the mean force to the observable, and taking every trajectory `r` times, changes
neither the kernel nor the noise nor the correlations with the noise, and adds the combination to the force. -/
theorem C156_observable [CharZero K] {env : Env K} {method : String} {vectorize : Bool} {s s' : EstState K}
    (hs : Setup env method vectorize s.model.bm d s) (hs' : Setup env method vectorize s'.model.bm d s')
    (h : ShiftedData r g s s') {rankTol : Option K} {km : String} {s1 s2 s3 : EstState K}
    (h1 : computeMeanForce env s = (s1, none)) (h2 : computeCorrs env method vectorize true rankTol s1 = (s2, none))
    (h3 : computeKernelStep km (fun _ _ => none) s2 = (s3, none)) :
    ∃ s1' s2' s3', computeMeanForce env s' = (s1', none) ∧
      computeCorrs env method vectorize true rankTol s1' = (s2', none) ∧
      computeKernelStep km (fun _ _ => none) s2' = (s3', none) ∧
      Spec.SameUpToForce g s.model.Lobs s'.model.Lobs d s.model.bm s3.model s3'.model := by
  obtain ⟨s1', fc, fc', h1', hc, hc', c1, c2, c1', c2', hcc⟩ := force_shifted hs hs' h h1
  obtain ⟨e1, e2, e3, e4, e5, e6, e7⟩ := computeMeanForce_frame h1
  obtain ⟨f1, f2, f3, f4, f5, f6, f7⟩ := computeMeanForce_frame h1'
  have ob' := hs'.obs
  have wf' := hs'.wf
  have dx' := hs'.dimx
  have np' := hs'.npos
  rw [h.bm] at f2 ob' wf' dx' np'
  have r0 : CorrReady env method vectorize s1 d s.model.bm.dimObs fc :=
    ⟨hs.loop, hs.fn, by rw [e2]; exact hs.wf, by rw [e1, e3]; exact hs.obs, hs.dim, by rw [e1, e2]; exact hs.dimx, hc, c1,
    by rw [e2]; exact c2, by rw [e2]; exact hs.npos, hs.xpos, by rw [e5]; exact hs.tpos, by rw [e1, e5]; exact hs.tle,
    by rw [e1]; exact hs.ne⟩
  have r' : CorrReady env method vectorize s1' d s.model.bm.dimObs fc' :=
    ⟨hs.loop, hs.fn, by rw [f2]; exact wf', by rw [f1, f3]; exact ob', hs.dim, by rw [f1, f2]; exact dx', hc', c1',
    by rw [f2]; exact c2', by rw [f2]; exact np', hs.xpos, by rw [f5]; exact hs'.tpos,
    by rw [f1, f5]; exact hs'.tle, by rw [f1]; exact hs'.ne⟩
  rw [hs.noProj] at e6
  rw [h.dt] at f4
  rw [h.truncInd] at f5
  rw [hs'.noProj] at f6
  obtain ⟨n, hn⟩ : ∃ n, n = Spec.nCorr s.model.bm := ⟨_, rfl⟩
  obtain ⟨C, hC, s1a, s1b, N, D1, D2, hD1, hD2, hent⟩ := computeCorrs_true (rankTol := rankTol) r0 e6 (b := n)
    (by rw [e2, hn])
  obtain ⟨C', hC', s1a', s1b', N', D1', D2', hD1', hD2', hent'⟩ := computeCorrs_true (rankTol := rankTol) r' f6 (b := n)
    (by rw [f2, hn])
  rw [h2] at hC
  obtain rfl : s2 = { s1 with corrs := some C } := (Prod.mk.inj hC).1
  obtain ⟨C0, ⟨b, x, k⟩, hC0, hs3, hk, hb, hx⟩ := C42_method_recorded h3
  obtain rfl : C = C0 := Option.some.inj hC0
  dsimp only at hk hb hx
  rw [s1a] at hb
  rw [s1b] at hx
  subst hx hb
  have hT : s1'.model.truncInd = s1.model.truncInd := by rw [f5, e5]
  rw [hT] at N' hent'
  rw [e1, e2, e3] at hent
  rw [f1, f2, f3] at hent'
  have hlen : ∀ x y, Spec.ShiftedXva s.model.bm s.model.Lobs s'.model.Lobs g x y → y.n = x.n := fun x y hxy => hxy.n
  have hxp : 0 < s.model.bm.dimObs := hs.xpos
  have hk' : computeKernel (some (C'.toCorrs b s.model.bm.dimObs)) s1'.model.truncInd s1'.model.dt km none = .ok k := by
    rw [hT, f4, ← e4, ← hk]
    refine computeKernel_agree (N'.trans N.symm) (by rw [N', e5]; exact hs.tpos) hD1' hD1 hD2' hD2 ?_ ?_ ?_ ?_ _ _ _ _ <;> rw [N'] <;>
      intro m hm <;> ext p q
    · rw [(hent' m hm p q ⟨0, hxp⟩).1, (hent m hm p q ⟨0, hxp⟩).1]
      exact meanCorr_copies h.copies h.xvas hlen (fun x y hxy t => hxy.corrFeature t p) (fun x y hxy t => hxy.corrFeature t q) m
    · rw [(hent' m hm p p q).2.1, (hent m hm p p q).2.1]
      exact meanCorr_copies h.copies h.xvas hlen (fun x y hxy t => hxy.corrFeature t p) (fun x y hxy t => hxy.ortho hcc t q.2) m
    · rw [(hent' m hm p p q).2.2.1, (hent m hm p p q).2.2.1]
      exact meanCorr_copies h.copies h.xvas hlen (fun x y hxy t => hxy.codeDot t p) (fun x y hxy t => hxy.ortho hcc t q.2) m
    · rw [(hent' m hm p q ⟨0, hxp⟩).2.2.2, (hent m hm p q ⟨0, hxp⟩).2.2.2]
      exact meanCorr_copies h.copies h.xvas hlen (fun x y hxy t => hxy.codeDot t p) (fun x y hxy t => hxy.corrFeature t q) m
  have hT0 : s1'.model.truncInd ≠ 0 := by have := hs.tpos; rw [f5]; omega
  have hstep := computeKernelStep_ok (s := { s1' with corrs := some C' }) rfl s1a' s1b' hT0 (km := km)
    (k0 := fun _ _ => none) (k := k) hk'
  have bm3 : s3.model.bm = s.model.bm := by rw [hs3]; exact e2
  have fw : ∀ k < s.model.bm.basis.nOut, k < s.model.bm.nForce := fun k hk => by rw [nForce_wf hs.wf]; split_ifs <;> omega
  subst hn
  refine ⟨s1', _, _, h1', hC', hstep, ⟨by rw [hs3], fun n pts => ?_, fun y y' hy hd ht hdim trunc start stop => ?_,
    fun y y' hy hd ht o left => ?_⟩⟩
  · obtain ⟨F, hF, F1, F2, F3⟩ := forceEval_ok (s := s3.model) (c := fc) (d := d)
      ⟨by rw [hs3]; exact hc, c1, by rw [bm3]; exact c2, ⟨hs.obs.1, hs.obs.2.1⟩⟩ (by rw [bm3]; exact hs.wf) n pts
    obtain ⟨F', hF', F1', F2', F3'⟩ := forceEval_ok (s := { s1'.model with method := some km, kernel := some ⟨_, _, k⟩ })
      (c := fc') (d := d) ⟨hc', c1', by dsimp only; rw [f2]; exact c2', ⟨hs.obs.1, hs.obs.2.1⟩⟩
      (by dsimp only; rw [f2]; exact wf') n pts
    refine ⟨F, F', hF, hF', by rw [F1, F1'], ?_, fun i l hl => ?_⟩
    · rw [F2, F2']; dsimp only; rw [f2, bm3]
    · rw [F3', F3]
      simp only [f2, bm3]
      rw [← sum_add_distrib]
      exact sum_congr rfl fun q hq => by rw [hcc q (fw q (mem_range.1 hq)) l hl, mul_add]
  · refine ExRel.imp ((shifted_link (m := s3.model) (m' := { s1'.model with method := some km, kernel := some ⟨_, _, k⟩ }) bm3 f2 (by rw [hs3]) (by rw [hs3]; exact hT)
      (by rw [hs3]; exact hc) hc' hcc (by rw [hs3]) rfl hs.wf hy hd ht).noise hdim trunc start stop) fun a b q => ⟨q.len, fun t ht => ⟨?_, ?_, ?_, fun j => ⟨?_, ?_⟩⟩⟩
    · rw [q.time t ht, one_mul]
    · rw [q.memory t ht, Matrix.one_mulVec]
    · rw [q.noise t ht, Matrix.one_mulVec]
    · rw [q.obs t ht, Matrix.one_mulVec]; rfl
    · rw [q.force t ht, Matrix.one_mulVec]; rfl
  · refine ExRel.imp ((shifted_link (m := s3.model) (m' := { s1'.model with method := some km, kernel := some ⟨_, _, k⟩ }) bm3 f2 (by rw [hs3]) (by rw [hs3]; exact hT)
      (by rw [hs3]; exact hc) hc' hcc (by rw [hs3]) rfl hs.wf hy hd ht).corrs (B := 1) (left := left) (left' := left) ?_) fun a b q => ⟨q.lenTime, fun t => ?_, q.len, fun i hi hn => ?_⟩
    · intro f f' hf t ht
      rw [Matrix.one_mulVec]
      cases left with
      | noise e =>
        funext i
        show f' t (Fin.cast e i) = f t (Fin.cast e i)
        rw [hf t ht, Matrix.one_mulVec]
      | array a => rfl
    · rw [q.time, one_mul]
    · rw [q.corr i hi hn, Matrix.one_mul, Matrix.transpose_one, Matrix.mul_one]

end

/-! ### An example: three copies, `2 + x - 3 y` and `1 - x` added to the observable -/

namespace ShiftedEx

open CovariantEx (lin x1 v1 a1 x2 v2 a2)

def g (k j : ℕ) : ℚ := if j = 0 then (if k = 0 then 2 else if k = 1 then 1 else -3) else if k = 0 then 1 else if k = 1 then -1 else 0

/-- The observables `o` and `p`. -/
def traj (n : ℕ) (x v a : ℕ → ℕ → ℚ) : Xva ℚ where
  n := n
  dimx := 2
  time := fun k => k
  data := fun name t j => if name = "x" then x t j else if name = "v" then v t j else if name = "p" then
    a t j + ∑ k ∈ range 3, lin.basis (x t) k * g k j else a t j
  extraDim := fun _ => "dim_o"
  extraSize := fun _ => 2

def xs : List (Xva ℚ) := [traj 4 x1 v1 a1, traj 3 x2 v2 a2]
def xs' : List (Xva ℚ) := (List.replicate 3 xs).flatten

def state (cls : ModelClass) (xs : List (Xva ℚ)) (L : String) : EstState ℚ where
  model := ⟨⟨cls, lin, 2, 2⟩, L, 1, 2, none, none, none, false, none, none, none, none, none⟩
  xvas := xs
  corrs := none
  saveall := false

theorem mem {ys : List (Xva ℚ)} (h : ys = xs ∨ ys = xs') {y : Xva ℚ} (hy : y ∈ ys) : y = traj 4 x1 v1 a1 ∨ y = traj 3 x2 v2 a2 := by
  rcases h with rfl | rfl
  · simpa [xs] using hy
  · simp only [xs', List.mem_flatten, List.mem_replicate] at hy
    obtain ⟨l, ⟨-, rfl⟩, hy⟩ := hy
    simpa [xs] using hy

theorem setup {cls : ModelClass} (hc : cls = .noVelBasis ∨ cls = .constKernel) {ys : List (Xva ℚ)} (h : ys = xs ∨ ys = xs') {L : String}
    (hL : L = "o" ∨ L = "p") : Setup Ex.env "direct" false ⟨cls, lin, 2, 2⟩ "dim_o" (state cls ys L) where
  loop := Ex.isLoop
  fn := Ex.isCorrFn
  bm := rfl
  wf := fun e => by cases e
  noProj := rfl
  obs := by
    refine ⟨by decide, by decide, fun x hx => ?_⟩
    rcases mem h hx with rfl | rfl <;> rcases hL with rfl | rfl <;> exact ⟨rfl, rfl⟩
  dim := by decide
  dimx := fun x hx => by rcases mem h hx with rfl | rfl <;> rfl
  npos := by rcases hc with rfl | rfl <;> decide
  xpos := by show 1 ≤ 2; decide
  tpos := by show 1 ≤ 2; decide
  tle := fun x hx => by
    show 2 ≤ x.n
    rcases mem h hx with rfl | rfl <;> simp [traj]
  ne := by
    show ys ≠ []
    rcases h with rfl | rfl <;> simp [xs, xs']

theorem shifted_traj {cls : ModelClass} (hc : cls ≠ .withFriction) (n : ℕ) (x v a : ℕ → ℕ → ℚ) :
    Spec.ShiftedXva ⟨cls, lin, 2, 2⟩ "o" "p" g (traj n x v a) (traj n x v a) where
  n := rfl
  dimx := rfl
  x := fun _ => rfl
  v := fun _ => rfl
  a := fun _ => rfl
  obs := fun t j _ => by
    have e : (⟨cls, lin, 2, 2⟩ : BasisModel ℚ).nForce = 3 := by cases cls <;> first | rfl | exact absurd rfl hc
    unfold Spec.forceSum Spec.forceFeature
    rw [e]
    simp only [hc, false_and, if_false]
    rfl

theorem shiftedData {cls : ModelClass} (hc : cls ≠ .withFriction) : ShiftedData 3 g (state cls xs "o") (state cls xs' "p") where
  copies := by decide
  bm := rfl
  xvas := ⟨xs, .cons (shifted_traj hc _ _ _ _) (.cons (shifted_traj hc _ _ _ _) .nil), List.Perm.refl _⟩
  dt := rfl
  truncInd := rfl

theorem step1 (cls : ModelClass) (h : cls ∈ [.noVelBasis, .constKernel]) : (computeMeanForce Ex.env (state cls xs "o")).2 = none := by
  revert cls; decide +kernel
theorem step2 (cls : ModelClass) (h : cls ∈ [.noVelBasis, .constKernel]) :
    (computeCorrs Ex.env "direct" false true none (computeMeanForce Ex.env (state cls xs "o")).1).2 = none := by
  revert cls; decide +kernel
theorem step3 (cls : ModelClass) (h : cls ∈ [.noVelBasis, .constKernel]) : (computeKernelStep "second_kind_rect" (fun _ _ => none)
    (computeCorrs Ex.env "direct" false true none (computeMeanForce Ex.env (state cls xs "o")).1).1).2 = none := by
  revert cls; decide +kernel

example := C156_observable (setup (.inl rfl) (.inl rfl) (.inl rfl)) (setup (.inl rfl) (.inr rfl) (.inr rfl)) (shiftedData (by decide))
  (Prod.ext rfl (step1 .noVelBasis (by decide))) (Prod.ext rfl (step2 _ (by decide))) (Prod.ext rfl (step3 _ (by decide)))
example := C156_observable (setup (.inr rfl) (.inl rfl) (.inl rfl)) (setup (.inr rfl) (.inr rfl) (.inr rfl)) (shiftedData (by decide))
  (Prod.ext rfl (step1 .constKernel (by decide))) (Prod.ext rfl (step2 _ (by decide))) (Prod.ext rfl (step3 _ (by decide)))

end ShiftedEx

end Verif
