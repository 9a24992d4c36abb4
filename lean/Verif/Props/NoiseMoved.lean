import Verif.Props.SimulateMoved
import Verif.Props.EstNoise

/-!
# Noises in other coordinates, other units and another basis (C154)

`compute_noise` (`models.py` 138-169) and `compute_corrs_w_noise` (171-205) of two models, one estimated from the other's
trajectories seen in other coordinates, another unit of time or with another basis of the same functions.
-/

namespace Verif

set_option linter.unusedSectionVars false

open LArr Finset

section
variable {K : Type*} [Field K] {bf b bf' b' x o o' : ℕ}

/-- The results of `compute_noise` are those of another call, with the components mixed by `A` and times multiplied by `c`. -/
structure Spec.MovedNoiseOut (A : Mat K x x) (c : K) (r r' : NoiseOut K x) : Prop where
  len : r'.len = r.len
  time : ∀ t < r.len, r'.time t = c * r.time t
  obs : ∀ t < r.len, r'.obs t = A.mulVec (r.obs t)
  force : ∀ t < r.len, r'.force t = A.mulVec (r.force t)
  memory : ∀ t < r.len, r'.memory t = A.mulVec (r.memory t)
  noise : ∀ t < r.len, r'.noise t = A.mulVec (r.noise t)

/-- The same with `w` added to the observable and to the force. -/
structure Spec.ShiftedNoiseOut (A : Mat K x x) (c : K) (w : ℕ → Fin x → K) (r r' : NoiseOut K x) : Prop where
  len : r'.len = r.len
  time : ∀ t < r.len, r'.time t = c * r.time t
  obs : ∀ t < r.len, r'.obs t = A.mulVec (r.obs t) + w t
  force : ∀ t < r.len, r'.force t = A.mulVec (r.force t) + w t
  memory : ∀ t < r.len, r'.memory t = A.mulVec (r.memory t)
  noise : ∀ t < r.len, r'.noise t = A.mulVec (r.noise t)

/-- What `compute_noise` and `compute_corrs_w_noise` read, with the observable mixed by `A`, `w` added to the observable and to the force,
and times multiplied by `c`. -/
structure NoiseLink (A : Mat K x x) (c : K) (w : ℕ → Fin x → K) (m : NoiseModel K bf b x) (m' : NoiseModel K bf' b' x) (y : Traj K bf b x)
    (y' : Traj K bf' b' x) : Prop where
  unit : c ≠ 0
  method : m'.method = m.method
  truncInd : m'.truncInd = m.truncInd
  len : y'.len = y.len
  dim : y'.obsDim = y.obsDim
  time : ∃ t0, ∀ t, y'.time t = c * y.time t + t0
  obs : ∀ t < y.len, y'.obs t = A.mulVec (y.obs t) + w t
  force : ∃ f f', m.forceCoeff = some f ∧ m'.forceCoeff = some f' ∧
    ∀ t < y.len, Matrix.vecMul (y'.Eforce t) f' = A.mulVec (Matrix.vecMul (y.Eforce t) f) + w t
  kernel : ∃ k k', m.kernel = some k ∧ m'.kernel = some k' ∧ k'.kernel.len = k.kernel.len ∧ k'.time.len = k.time.len ∧
    (∀ t, k'.time.get t = c * k.time.get t) ∧
    ∀ t < y.len, ∀ j, Matrix.vecMul (y'.E t) (k'.kernel.get j) = c⁻¹ • A.mulVec (Matrix.vecMul (y.E t) (k.kernel.get j))

theorem ExRel.imp {α β : Type*} {r r' : α → β → Prop} {a : Except Err α} {b : Except Err β} (h : ExRel r a b) (h' : ∀ x y, r x y → r' x y) :
    ExRel r' a b := by
  cases a <;> cases b
  · exact h
  · exact h
  · exact h
  · exact h' _ _ h

theorem noiseForce_eq {d : String} (hd : x = 1 ∨ d ≠ "dim_x") (f : Mat K bf x) (E : ℕ → Fin bf → K) (t : ℕ) :
    noiseForce d f E t = Matrix.vecMul (E t) f := by
  funext l
  unfold noiseForce
  rcases hd with rfl | hd
  · split_ifs
    · refine sum_congr rfl fun k _ => ?_
      rw [Fin.sum_univ_one, Subsingleton.elim l 0]
    · rfl
  · simp only [hd, if_false]; rfl

theorem memoryRect_link {A : Mat K x x} {c : K} (hc : c ≠ 0) {L M : ℕ} {k : ℕ → Mat K b x} {k' : ℕ → Mat K b' x} {E : ℕ → Fin b → K}
    {E' : ℕ → Fin b' → K} (h : ∀ t ≤ L, ∀ j, Matrix.vecMul (E' t) (k' j) = c⁻¹ • A.mulVec (Matrix.vecMul (E t) (k j))) (dt : K) (t : ℕ) :
    FKernel.memoryRect L M k' E' (c * dt) t = A.mulVec (FKernel.memoryRect L M k E dt t) := by
  rw [FKernel.memoryRect_eq, FKernel.memoryRect_eq]
  dsimp only
  split_ifs with ht
  · rw [Matrix.mulVec_neg, Matrix.mulVec_sum]
    congr 1
    refine sum_congr rfl fun j _ => ?_
    rw [h _ (by omega), Matrix.mulVec_smul, smul_smul, mul_right_comm, mul_inv_cancel₀ hc, one_mul]
  · rw [Matrix.mulVec_zero]

theorem memoryTrapz_link {A : Mat K x x} {c : K} (hc : c ≠ 0) {L M : ℕ} {k : ℕ → Mat K b x} {k' : ℕ → Mat K b' x} {E : ℕ → Fin b → K}
    {E' : ℕ → Fin b' → K} (h : ∀ t ≤ L, ∀ j, Matrix.vecMul (E' t) (k' j) = c⁻¹ • A.mulVec (Matrix.vecMul (E t) (k j))) (dt : K) (t : ℕ) :
    FKernel.memoryTrapz L M k' E' (c * dt) t = A.mulVec (FKernel.memoryTrapz L M k E dt t) := by
  rw [FKernel.memoryTrapz_eq, FKernel.memoryTrapz_eq]
  dsimp only
  have e : ∀ (s : K) i j, i ≤ L → (s * (c * dt)) • Matrix.vecMul (E' i) (k' j) = A.mulVec ((s * dt) • Matrix.vecMul (E i) (k j)) := by
    intro s i j hi
    rw [h _ hi, Matrix.mulVec_smul, smul_smul]
    congr 1
    field_simp
  have e1 : ∀ i j, i ≤ L → (c * dt) • Matrix.vecMul (E' i) (k' j) = A.mulVec (dt • Matrix.vecMul (E i) (k j)) := fun i j hi => by
    simpa only [one_mul] using e 1 i j hi
  split_ifs with ht
  · rw [Matrix.mulVec_neg, Matrix.mulVec_add, Matrix.mulVec_add, Matrix.mulVec_sum, e _ _ _ ht.2, e _ _ _ (by omega)]
    congr 3
    exact sum_congr rfl fun j _ => e1 _ _ (by omega)
  · rw [Matrix.mulVec_zero]

/-- `compute_noise` on linked data. -/
theorem NoiseLink.noise {A : Mat K x x} {c : K} {w : ℕ → Fin x → K} {m : NoiseModel K bf b x} {m' : NoiseModel K bf' b' x} {y : Traj K bf b x}
    {y' : Traj K bf' b' x} (h : NoiseLink A c w m m' y y') (hd : x = 1 ∨ y.obsDim ≠ "dim_x") (trunc : Option ℕ) (start : ℕ)
    (stop : Option ℕ) :
    ExRel (Spec.ShiftedNoiseOut A c fun t => w (start + t)) (computeNoise m y trunc start stop) (computeNoise m' y' trunc start stop) := by
  obtain ⟨f, f', hf, hf', hF⟩ := h.force
  obtain ⟨k, k', hk, hk', k1, -, -, hK⟩ := h.kernel
  obtain ⟨t0, ht0⟩ := h.time
  unfold computeNoise
  rw [hf, hf', hk, hk']
  simp only [bind, Except.bind, pure, Except.pure, throw, throwThe, MonadExceptOf.throw, h.method, h.truncInd, h.len, k1, Traj.isel, h.dim]
  have edt : y'.time (start + 1) - y'.time 0 - (y'.time (start + 0) - y'.time 0) =
      c * (y.time (start + 1) - y.time 0 - (y.time (start + 0) - y.time 0)) := by rw [ht0, ht0, ht0]; ring
  have bound : ∀ t, t ≤ min (stop.getD y.len) y.len - start - 1 → ¬ min (stop.getD y.len) y.len - start < 2 → start + t < y.len := by
    intro t h1 h2; omega
  by_cases h0 : y.len = 0
  · simp [h0, ExRel]
  by_cases h2 : min (stop.getD y.len) y.len - start < 2
  · simp [h0, h2, ExRel]
  have fin : ∀ mem mem' : ℕ → Fin x → K, (∀ t, mem' t = A.mulVec (mem t)) →
      Spec.ShiftedNoiseOut A c (fun t => w (start + t))
        { len := min (stop.getD y.len) y.len - start, time := fun k => y.time (start + k) - y.time 0,
          noise := fun t => y.obs (start + t) - noiseForce y.obsDim f (fun t => y.Eforce (start + t)) t - mem t,
          obs := fun t => y.obs (start + t), force := noiseForce y.obsDim f (fun t => y.Eforce (start + t)), memory := mem }
        { len := min (stop.getD y.len) y.len - start, time := fun k => y'.time (start + k) - y'.time 0,
          noise := fun t => y'.obs (start + t) - noiseForce y.obsDim f' (fun t => y'.Eforce (start + t)) t - mem' t,
          obs := fun t => y'.obs (start + t), force := noiseForce y.obsDim f' (fun t => y'.Eforce (start + t)), memory := mem' } := by
    intro mem mem' hm
    have hF' : ∀ t, t < min (stop.getD y.len) y.len - start → noiseForce y.obsDim f' (fun t => y'.Eforce (start + t)) t =
        A.mulVec (noiseForce y.obsDim f (fun t => y.Eforce (start + t)) t) + w (start + t) := fun t ht => by
      rw [noiseForce_eq hd, noiseForce_eq hd]
      exact hF _ (by omega)
    refine ⟨rfl, fun t _ => ?_, fun t ht => h.obs _ (by dsimp only at ht; omega), hF', fun t _ => hm t, fun t ht => ?_⟩
    · dsimp only
      rw [ht0, ht0]; ring
    · dsimp only
      rw [hF' t ht, h.obs _ (by dsimp only at ht; omega), hm, Matrix.mulVec_sub, Matrix.mulVec_sub, add_sub_add_right_eq_sub]
  simp only [h0, h2, if_false, edt]
  by_cases hz : min (trunc.getD m.truncInd) k.kernel.len = 0
  · by_cases hr : isRectMethod m.method <;> by_cases ht : isTrapzMethod m.method <;> simp [hr, ht, hz, ExRel]
  · simp only [hz, if_false]
    by_cases hr : isRectMethod m.method
    · simp only [hr, if_true, ExRel]
      exact fin _ _ fun t => memoryRect_link h.unit (fun t ht j => hK _ (bound t ht h2) j) _ t
    · by_cases ht : isTrapzMethod m.method
      · simp only [hr, ht, if_true, if_false, ExRel]
        exact fin _ _ fun t => memoryTrapz_link h.unit (fun t ht j => hK _ (bound t ht h2) j) _ t
      · simp [hr, ht, ExRel]


theorem sum_cast {n n' : ℕ} (h : n' = n) (f : ℕ → K) : ∑ q : Fin n, f q = ∑ q : Fin n', f q := by subst h; rfl

theorem sum_cast' {n n' : ℕ} (h : n' = n) (f : (q : ℕ) → q < n → K) : ∑ q : Fin n', f q (h ▸ q.2) = ∑ q : Fin n, f q q.2 := by
  subst h; rfl

/-- Sums over the functions of linked models. -/
theorem vecMul_link {n n' x : ℕ} (hn : n' = n) {D Q : ℕ → ℕ → K} {z : K} {u : Fin n → K} {u' : Fin n' → K} {f f' : ℕ → K}
    (hu : ∀ p, u p = f p) (hu' : ∀ p, u' p = f' p) (hf : ∀ p < n, f' p = ∑ q ∈ range n, D p q * f q) {G : Mat K n x} {G' : Mat K n' x}
    (hG : ∀ p : Fin n, ∀ j : Fin x, ∑ q : Fin n', D q p * G' q j = z * ∑ l : Fin x, Q j l * G p l) :
    Matrix.vecMul u' G' = z • (mixMat x Q).mulVec (Matrix.vecMul u G) := by
  subst hn
  funext j
  simp only [Matrix.vecMul, dotProduct, Pi.smul_apply, Matrix.mulVec, smul_eq_mul, hu, hu', mixMat, Matrix.of_apply]
  calc ∑ p : Fin n', f' p * G' p j = ∑ p : Fin n', ∑ q : Fin n', f q * (D p q * G' p j) := by
        refine sum_congr rfl fun p _ => ?_
        rw [hf p p.2, Finset.sum_range, sum_mul]
        exact sum_congr rfl fun q _ => by ring
    _ = ∑ q : Fin n', f q * (z * ∑ l : Fin x, Q j l * G q l) := by
        rw [sum_comm]
        refine sum_congr rfl fun q _ => ?_
        rw [← mul_sum, hG]
    _ = z * ∑ l : Fin x, Q j l * ∑ q : Fin n', f q * G q l := by
        simp only [mul_sum]
        rw [sum_comm]
        exact sum_congr rfl fun _ _ => sum_congr rfl fun _ _ => by ring

/-- A trajectory and the same trajectory for the other model. -/
structure LinkedXva (F M Q : ℕ → ℕ → K) (c : K) (L : String) (bm bm' : BasisModel K) (y y' : Xva K) : Prop where
  n : y'.n = y.n
  dimx : y.dimx = bm.dimx
  dimx' : y'.dimx = bm'.dimx
  time : ∃ t0, ∀ t, y'.time t = c * y.time t + t0
  obs : ∀ t, ∀ l < bm.dimObs, y'.data L t l = ∑ q ∈ range bm.dimObs, Q l q * y.data L t q
  force : ∀ t, ∀ k < bm.nForce, Spec.forceFeature bm' y' t k = ∑ l ∈ range bm.nForce, F k l * Spec.forceFeature bm y t l
  memory : ∀ t, ∀ k < Spec.nCorr bm, Spec.corrFeature bm' y' t k = ∑ l ∈ range (Spec.nCorr bm), M k l * Spec.corrFeature bm y t l

theorem MovedCoefs.link {F M Q : ℕ → ℕ → K} {c : K} {bm bm' : BasisModel K} {d L : String} {m m' : ModelState K}
    (h : MovedCoefs F M Q c bm bm' d m m') (hc : c ≠ 0) (hw : bm.WF) (hw' : bm'.WF) (hF : bm'.nForce = bm.nForce)
    (hC : Spec.nCorr bm' = Spec.nCorr bm) {y y' : Xva K} (hy : LinkedXva F M Q c L bm bm' y y') :
    NoiseLink (mixMat bm.dimObs Q) c 0 (noiseModelOf m bm.dimObs) (noiseModelOf m' bm.dimObs) (xvaTraj m.bm L d bm.dimObs y)
      (xvaTraj m'.bm L d bm.dimObs y') := by
  obtain ⟨rfl, rfl, h1, h2, fc, fc', k, k', hf, hf', hcc, hk, hk', t1, t2, t3, t4⟩ := h
  obtain ⟨a1, a2⟩ := xvaTraj_features hw hy.dimx L d m.bm.dimObs
  obtain ⟨b1, b2⟩ := xvaTraj_features hw' hy.dimx' L d m.bm.dimObs
  refine ⟨hc, h1, h2, hy.n, rfl, hy.time, fun t _ => ?_, ⟨_, _, by simp only [noiseModelOf, hf.force, Option.map_some]; rfl,
    by simp only [noiseModelOf, hf'.force, Option.map_some]; rfl, fun t ht => ?_⟩, ?_⟩
  · rw [Pi.zero_apply, add_zero]
    funext l
    show (y'.var L).get [t, l] = _
    rw [var_get, hy.obs t l l.2, Finset.sum_range]
    simp only [Matrix.mulVec, dotProduct, mixMat, Matrix.of_apply, xvaTraj, var_get]
  · rw [Pi.zero_apply, add_zero, ← one_smul K ((mixMat m.bm.dimObs Q).mulVec _)]
    refine vecMul_link hF (a1 t ht) (b1 t (hy.n ▸ ht)) (hy.force t) fun p j => ?_
    rw [one_mul]
    have := hcc p p.2 j j.2
    rw [Finset.sum_range, Finset.sum_range] at this
    simp only [Matrix.of_apply]
    rw [← this]
    exact (sum_cast hF fun q => F q p * fc'.get [q, j]).symm
  · have e : ∀ (b : ℕ) (hb : b = Spec.nCorr m'.bm) (k' : KernelData K b m.bm.dimObs), m'.kernel = some ⟨b, m.bm.dimObs, k'⟩ →
        ∃ k'' : KernelData K (Spec.nCorr m'.bm) m.bm.dimObs, (noiseModelOf m' m.bm.dimObs).kernel = some k'' ∧
          k''.kernel.len = k'.kernel.len ∧ k''.time = k'.time ∧ ∀ (i p q : ℕ) (h1 : p < b) (h2 : p < Spec.nCorr m'.bm) (h3 : q < m.bm.dimObs),
            k''.kernel.get i ⟨p, h2⟩ ⟨q, h3⟩ = k'.kernel.get i ⟨p, h1⟩ ⟨q, h3⟩ := by
      rintro b rfl k' hk'
      exact ⟨k', by simp [noiseModelOf, hk'], rfl, rfl, fun _ _ _ _ _ _ => rfl⟩
    obtain ⟨k'', e1, e2, e3, e4⟩ := e _ hC.symm k' hk'
    refine ⟨k, k'', by simp [noiseModelOf, hk], e1, e2.trans t3, by rw [e3, t1], fun t => by rw [e3, t2], fun t ht i => ?_⟩
    refine vecMul_link hC (a2 t ht) (b2 t (hy.n ▸ ht)) (hy.memory t) fun p j => ?_
    have := congrFun (congrFun (t4 i) p) j
    rw [Matrix.smul_apply, Matrix.mul_apply, Matrix.mul_apply, smul_eq_mul] at this
    refine Eq.trans (Eq.trans ?_ this.symm) ?_
    · refine Eq.trans (sum_congr rfl fun q _ => by rw [e4 i q j (hC ▸ q.2) q.2 j.2]) ?_
      refine Eq.trans ?_ (sum_cast' hC fun q h => M q p * k'.kernel.get i ⟨q, h⟩ j)
      rfl
    · congr 1
      exact sum_congr rfl fun q _ => mul_comm _ _


/-- The results of `compute_corrs_w_noise` are those of another call, with the left operator mixed by `B`, the observable by `A`
and times multiplied by `c`. -/
structure Spec.MovedCorr (A : Mat K x x) (B : Mat K o' o) (c : K) (n : ℕ) (r : Arr K × Arr (Mat K o x)) (r' : Arr K × Arr (Mat K o' x)) :
    Prop where
  lenTime : r'.1.len = r.1.len
  time : ∀ t, r'.1.get t = c * r.1.get t
  len : r'.2.len = r.2.len
  corr : ∀ i < r.2.len, i < n → r'.2.get i = B * r.2.get i * A.transpose

theorem noiseCorr_link {A : Mat K x x} {B : Mat K o' o} {L n : ℕ} {left : ℕ → Fin o → K} {left' : ℕ → Fin o' → K} {f f' : ℕ → Fin x → K}
    (hl : ∀ t ≤ L, left' t = B.mulVec (left t)) (hf : ∀ t, t + n ≤ L → f' t = A.mulVec (f t)) :
    FKernel.noiseCorr L n left' f' = B * FKernel.noiseCorr L n left f * A.transpose := by
  ext p q
  have e : ∀ t ∈ range (L + 1 - n), left' t p * f' t q = ∑ j, ∑ i, B p i * A q j * (left t i * f t j) := fun t ht => by
    have := mem_range.1 ht
    rw [hl t (by omega), hf t (by omega)]
    simp only [Matrix.mulVec, dotProduct, sum_mul, mul_sum]
    exact sum_congr rfl fun _ _ => sum_congr rfl fun _ _ => by ring
  simp only [FKernel.noiseCorr, Matrix.of_apply, Matrix.mul_apply, Matrix.transpose_apply]
  rw [sum_congr rfl e, sum_comm, sum_div]
  refine sum_congr rfl fun j _ => ?_
  rw [sum_comm, sum_div, sum_mul]
  refine sum_congr rfl fun i _ => ?_
  rw [← mul_sum]
  ring

theorem integrand_link {A : Mat K x x} {c : K} (hc : c ≠ 0) {L : ℕ} {k : ℕ → Mat K b x} {k' : ℕ → Mat K b' x} {E : ℕ → Fin b → K}
    {E' : ℕ → Fin b' → K} (h : ∀ t ≤ L, ∀ j, Matrix.vecMul (E' t) (k' j) = c⁻¹ • A.mulVec (Matrix.vecMul (E t) (k j))) (s dt : K) {i : ℕ}
    (hi : i ≤ L) (j : ℕ) :
    (s * (c * dt)) • Spec.memIntegrand E' k' i j = A.mulVec ((s * dt) • Spec.memIntegrand E k i j) := by
  have e1 : Spec.memIntegrand E' k' i j = Matrix.vecMul (E' (i - j)) (k' j) := rfl
  have e2 : Spec.memIntegrand E k i j = Matrix.vecMul (E (i - j)) (k j) := rfl
  rw [e1, e2, h _ (by omega), Matrix.mulVec_smul, smul_smul]
  congr 1
  field_simp

/-- `compute_corrs_w_noise` on linked data. -/
theorem NoiseLink.corrs [CharZero K] {A : Mat K x x} {c : K} {w : ℕ → Fin x → K} {m : NoiseModel K bf b x} {m' : NoiseModel K bf' b' x} {y : Traj K bf b x}
    {y' : Traj K bf' b' x} (h : NoiseLink A c w m m' y y') {B : Mat K o' o} {left : LeftOp K x o} {left' : LeftOp K x o'}
    (hl : ∀ f f' : ℕ → Fin x → K, (∀ t < y.len, f' t = A.mulVec (f t)) →
      ∀ t < y.len, left'.values f' t = B.mulVec (left.values f t)) :
    ExRel (Spec.MovedCorr A B c y.len) (computeCorrsWNoise m y left) (computeCorrsWNoise m' y' left') := by
  obtain ⟨f, f', hf, hf', hF⟩ := h.force
  obtain ⟨k, k', hk, hk', k1, k2, k3, hK⟩ := h.kernel
  obtain ⟨t0, ht0⟩ := h.time
  unfold computeCorrsWNoise
  rw [hf, hf', hk, hk']
  simp only [bind, Except.bind, pure, Except.pure, throw, throwThe, MonadExceptOf.throw, h.method, h.len, k1]
  by_cases h2 : y.len < 2
  · simp [h2, ExRel]
  have edt : y'.time 1 - y'.time 0 = c * (y.time 1 - y.time 0) := by rw [ht0, ht0]; ring
  obtain ⟨g, hg⟩ : ∃ g : ℕ → Fin x → K, g = fun t l => y.obs t l - ∑ k, y.Eforce t k * f k l := ⟨_, rfl⟩
  obtain ⟨g', hg'⟩ : ∃ g' : ℕ → Fin x → K, g' = fun t l => y'.obs t l - ∑ k, y'.Eforce t k * f' k l := ⟨_, rfl⟩
  have hgg : ∀ t < y.len, g' t = A.mulVec (g t) := fun t ht => by
    have e1 : g t = y.obs t - Matrix.vecMul (y.Eforce t) f := by rw [hg]; rfl
    have e2 : g' t = y'.obs t - Matrix.vecMul (y'.Eforce t) f' := by rw [hg']; rfl
    rw [e1, e2, Matrix.mulVec_sub, hF t ht, h.obs t ht, add_sub_add_right_eq_sub]
  have hll := hl g g' hgg
  have hK' : ∀ t ≤ y.len - 1, ∀ j, Matrix.vecMul (y'.E t) (k'.kernel.get j) = c⁻¹ • A.mulVec (Matrix.vecMul (y.E t) (k.kernel.get j)) :=
    fun t ht => hK t (by omega)
  simp only [h2, if_false, edt]
  rw [← hg, ← hg']
  by_cases hr : isRectMethod m.method
  · simp only [hr, if_true, ExRel]
    refine ⟨k2, k3, rfl, fun i hi hn => ?_⟩
    dsimp only at hi ⊢
    rw [FKernel.corrsRect_spec _ _ _ _ _ (by omega), FKernel.corrsRect_spec _ _ _ _ _ (by omega)]
    refine noiseCorr_link (fun t ht => hll t (by omega)) fun t ht => ?_
    rw [hgg _ (by omega), Matrix.mulVec_add]
    congr 1
    unfold Spec.rectRule
    rw [Matrix.mulVec_sum]
    exact sum_congr rfl fun j _ => by simpa only [one_mul] using integrand_link h.unit hK' 1 _ ht j
  · by_cases ht : isTrapzMethod m.method
    · simp only [hr, ht, if_true, if_false, ExRel]
      refine ⟨by dsimp only; rw [k2], k3, rfl, fun i hi hn => ?_⟩
      dsimp only at hi ⊢
      rw [FKernel.corrsTrapz_spec _ _ _ _ _ (by omega), FKernel.corrsTrapz_spec _ _ _ _ _ (by omega)]
      refine noiseCorr_link (fun t ht => hll t (by omega)) fun t ht => ?_
      rw [hgg _ (by omega), Matrix.mulVec_add]
      congr 1
      unfold Spec.trapzRule
      have e2 : ∀ z : K, z / 2 = 1 / 2 * z := fun z => by ring
      rw [Matrix.mulVec_sum, e2 (c * (y.time 1 - y.time 0)), e2 (y.time 1 - y.time 0)]
      refine sum_congr rfl fun j _ => ?_
      rw [smul_add, smul_add, Matrix.mulVec_add, integrand_link h.unit hK' _ _ ht, integrand_link h.unit hK' _ _ ht]
    · simp [hr, ht, ExRel]

end

section
variable {K : Type*} [Field K] [LinearOrder K] {R R' Q : ℕ → ℕ → K} {c : K} {d : String}


/-- The results of `compute_noise` and of `compute_corrs_w_noise` of two models along two trajectories, for a left operator which is
the noise or an array. -/
structure Spec.SameNoise {x : ℕ} (A : Mat K x x) (c : K) (L d : String) (s s' : ModelState K) (y y' : Xva K) : Prop where
  noise : (x = 1 ∨ d ≠ "dim_x") → ∀ (trunc : Option ℕ) (start : ℕ) (stop : Option ℕ),
    ExRel (Spec.MovedNoiseOut A c) (computeNoise (noiseModelOf s x) (xvaTraj s.bm L d x y) trunc start stop)
      (computeNoise (noiseModelOf s' x) (xvaTraj s'.bm L d x y') trunc start stop)
  corr : ExRel (Spec.MovedCorr A A c y.n) (computeCorrsWNoise (noiseModelOf s x) (xvaTraj s.bm L d x y) (.noise rfl))
    (computeCorrsWNoise (noiseModelOf s' x) (xvaTraj s'.bm L d x y') (.noise rfl))
  left : ∀ {o o' : ℕ} (B : Mat K o' o) (f : ℕ → Fin o → K) (f' : ℕ → Fin o' → K), (∀ t < y.n, f' t = B.mulVec (f t)) →
    ExRel (Spec.MovedCorr A B c y.n) (computeCorrsWNoise (noiseModelOf s x) (xvaTraj s.bm L d x y) (.array f))
      (computeCorrsWNoise (noiseModelOf s' x) (xvaTraj s'.bm L d x y') (.array f'))

theorem NoiseLink.same [CharZero K] {x : ℕ} {A : Mat K x x} {L : String} {s s' : ModelState K} {y y' : Xva K}
    (h : NoiseLink A c 0 (noiseModelOf s x) (noiseModelOf s' x) (xvaTraj s.bm L d x y) (xvaTraj s'.bm L d x y')) :
    Spec.SameNoise A c L d s s' y y' :=
  ⟨fun hd trunc start stop => ExRel.imp (h.noise hd trunc start stop) fun r r' q => ⟨q.len, q.time, fun t ht => by simpa using q.obs t ht,
    fun t ht => by simpa using q.force t ht, q.memory, q.noise⟩, h.corrs fun _ _ hf => hf, fun _ _ _ hf => h.corrs fun _ _ _ => hf⟩

/-- **C154**, in other coordinates and units: the noise that the model estimated from the trajectories in other coordinates and units
finds along a trajectory in these coordinates is the noise of the model estimated from the trajectories, mixed like the observable, and
the correlations with the noise follow. -/
theorem C154_coordinates [CharZero K] {env : Env K} {method : String} {vectorize : Bool} {s s' : EstState K}
    (hs : Setup env method vectorize s.model.bm d s) (hs' : Setup env method vectorize s'.model.bm d s')
    (h : MovedData R R' Q c s s') {rankTol : Option K} {km : String} {s1 s2 s3 : EstState K}
    (h1 : computeMeanForce env s = (s1, none)) (h2 : computeCorrs env method vectorize true rankTol s1 = (s2, none))
    (h3 : computeKernelStep km (fun _ _ => none) s2 = (s3, none)) :
    ∃ s1' s2' s3', computeMeanForce env s' = (s1', none) ∧
      computeCorrs env method vectorize true rankTol s1' = (s2', none) ∧
      computeKernelStep km (fun _ _ => none) s2' = (s3', none) ∧
      ∀ y y', Spec.MovedXva s.model.Lobs s.model.bm.dimx s.model.bm.dimObs R Q c y y' → y.dimx = s.model.bm.dimx →
        y'.dimx = s.model.bm.dimx → (∃ t0, ∀ t, y'.time t = c * y.time t + t0) →
        Spec.SameNoise (mixMat s.model.bm.dimObs Q) c s.model.Lobs d s3.model s3'.model y y' := by
  obtain ⟨s1', s2', s3', a1, a2, a3, -, hM⟩ := covariant_all hs hs' h h1 h2 h3
  refine ⟨s1', s2', s3', a1, a2, a3, fun y y' hy hd hd' ht => ?_⟩
  refine (hM.link h.unit hs.wf hs'.wf h.basis.nForce h.basis.nCorr ⟨hy.n, hd, hd'.trans h.basis.dimx.symm, ht, fun t l hl => hy.obs t l hl,
    fun t k hk => ?_, fun t k hk => h.basis.corrFeature hy hd hd' t hk⟩).same
  rw [scaleMix_sum hk]
  exact h.basis.forceFeature hs.wf hy hd hd' t hk

/-- **C154**, in another basis: the noises and the correlations with the noise depend on the basis only through the space of functions
it spans. -/
theorem C154_basis [CharZero K] {T T' : ℕ → ℕ → K} {env : Env K} (hl : IsLoop env.loop) {method : String} {vectorize : Bool}
    (hf : IsCorrFn (env.corrFn method vectorize)) {s s' : EstState K} (h : SameData T T' d s s') {rankTol : Option K}
    {km : String} {s1 s2 s3 : EstState K} (h1 : computeMeanForce env s = (s1, none))
    (h2 : computeCorrs env method vectorize true rankTol s1 = (s2, none))
    (h3 : computeKernelStep km (fun _ _ => none) s2 = (s3, none)) :
    ∃ s1' s2' s3', computeMeanForce env s' = (s1', none) ∧
      computeCorrs env method vectorize true rankTol s1' = (s2', none) ∧
      computeKernelStep km (fun _ _ => none) s2' = (s3', none) ∧
      ∀ y, y.dimx = s.model.bm.dimx →
        Spec.SameNoise (x := s.model.bm.dimObs) 1 1 s.model.Lobs d s3.model s3'.model y y := by
  obtain ⟨s1', s2', s3', a1, a2, a3, -, hM⟩ := same_functions_all hl hf h h1 h2 h3
  refine ⟨s1', s2', s3', a1, a2, a3, fun y hd => ?_⟩
  have e : (mixMat s.model.bm.dimObs fun i j => if i = j then (1 : K) else 0) = 1 := by
    ext i j
    simp [mixMat, Matrix.one_apply, Fin.ext_iff]
  rw [← e]
  refine (hM.link one_ne_zero (fun e => absurd e (by rw [h.span.full]; exact Bool.false_ne_true))
    (fun e => absurd e (by rw [h.span.full']; exact Bool.false_ne_true)) h.span.nForce h.span.nCorr ⟨rfl, hd, hd.trans h.span.dimx.symm,
    ⟨0, fun t => by rw [one_mul, add_zero]⟩, fun t l hl => ?_,
    fun t k hk => h.span.forceFeature y t hk, fun t k hk => h.span.corrFeature y t hk⟩).same
  rw [Finset.sum_eq_single_of_mem l (mem_range.2 hl) fun q _ hq => by rw [if_neg (Ne.symm hq), zero_mul], if_pos rfl, one_mul]

end

namespace CovariantEx

example := C154_coordinates (setup (.inr rfl) rfl rfl (.inl rfl)) (setup (.inr rfl) rfl rfl (.inr rfl)) (movedData .constKernel)
  (Prod.ext rfl (step1 _ (by decide))) (Prod.ext rfl (step2 _ (by decide))) (Prod.ext rfl (step3 _ (by decide)))

example := C154_coordinates (setup (.inl rfl) rfl rfl (.inl rfl)) (setup (.inl rfl) rfl rfl (.inr rfl)) (movedData .noVelBasis)
  (Prod.ext rfl (step1 _ (by decide))) (Prod.ext rfl (step2 _ (by decide))) (Prod.ext rfl (step3 _ (by decide)))

end CovariantEx

namespace BasisChangeEx

example := C154_basis Ex.isLoop Ex.isCorrFn gleData (Prod.ext rfl gle1) (Prod.ext rfl gle2) (Prod.ext rfl gle3)

end BasisChangeEx

end Verif
