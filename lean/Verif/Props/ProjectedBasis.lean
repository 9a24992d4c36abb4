import Verif.Props.BasisChange
import Verif.Props.RangeProjection
import Mathlib.LinearAlgebra.Matrix.Trace

/-!
# The evaluated force and kernel with a projection on the range of the basis, or with the constant removed (C141)
-/

namespace Verif

set_option linter.unusedSectionVars false

open LArr Finset

open Spec (IsInv)

namespace Spec

section
variable {K : Type*} [CommRing K]

/-- Two bases of the same functions: the functions mix by the invertible matrix `T`, and the derivatives of each basis are
combinations (`S`, `S'`) of the derivatives of the other one, of which there may be fewer when the derivatives of the
constant functions have been removed. -/
structure SameSpace (T T' S S' : ℕ → ℕ → K) (m m' : BasisModel K) : Prop where
  cls : m'.cls = m.cls
  dimx : m'.dimx = m.dimx
  dimObs : m'.dimObs = m.dimObs
  nOut : m'.basis.nOut = m.basis.nOut
  wf : m.WF
  wf' : m'.WF
  inv : IsInv m.basis.nOut T T'
  basis : ∀ pt, ∀ k < m.basis.nOut, m'.basis.basis pt k = ∑ l ∈ range m.basis.nOut, T k l * m.basis.basis pt l
  deriv : ∀ pt, ∀ k < m'.nDeriv, ∀ d, m'.basis.deriv pt k d = ∑ l ∈ range m.nDeriv, S k l * m.basis.deriv pt l d
  deriv' : ∀ pt, ∀ k < m.nDeriv, ∀ d, m.basis.deriv pt k d = ∑ l ∈ range m'.nDeriv, S' k l * m'.basis.deriv pt l d
  hessian : ∀ pt, ∀ k < m'.nDeriv, ∀ d d', m'.basis.hessian pt k d d' =
    ∑ l ∈ range m.nDeriv, S k l * m.basis.hessian pt l d d'
  hessian' : ∀ pt, ∀ k < m.nDeriv, ∀ d d', m.basis.hessian pt k d d' =
    ∑ l ∈ range m'.nDeriv, S' k l * m'.basis.hessian pt l d d'
  /-- the classes of which the kernel can be projected, and where the functions themselves are correlated -/
  classes : m.cls = .posGle ∨ (m.cls = .withFriction ∧ m'.nDeriv = m.nDeriv ∧ IsInv m.nDeriv S S') ∨
    ((m.cls = .noVelBasis ∨ m.cls = .overdamped) ∧ S = T ∧ S' = T')

/-- The combination `w` of the functions whose correlations are computed vanishes at all frames. -/
def VanishesOnData (xvas : List (Xva K)) (m : BasisModel K) (w : ℕ → K) : Prop :=
  ∀ xva ∈ xvas, ∀ t < xva.n, ∑ k ∈ range (nCorr m), w k * corrFeature m xva t k = 0

/-- A combination of the functions that vanishes at all frames has a vanishing time derivative there. -/
def Determined (xvas : List (Xva K)) (m : BasisModel K) : Prop :=
  ∀ w, VanishesOnData xvas m w → ∀ xva ∈ xvas, ∀ t < xva.n,
    ∑ k ∈ range (nCorr m), w k * corrFeatureDot m xva t k = 0

/-- A combination of the functions that vanishes at all frames vanishes at the point `pt`. -/
def DeterminedAt (xvas : List (Xva K)) (m : BasisModel K) (pt : ℕ → K) : Prop :=
  ∀ w, VanishesOnData xvas m w → ∀ d, ∑ k ∈ range (nCorr m), w k * kernelAt m pt k d = 0

end

end Spec

open Spec (SameSpace VanishesOnData Determined DeterminedAt)

section
variable {K : Type*} [Field K]

theorem IsInv.symm {n : ℕ} {T T' : ℕ → ℕ → K} (h : IsInv n T T') : IsInv n T' T := by
  intro i hi k hk
  have e0 : mixMat n T' * mixMat n T = 1 := mul_eq_one_comm.1 (mixMat_mul h)
  have e := congrFun (congrFun e0 ⟨i, hi⟩) ⟨k, hk⟩
  rw [Matrix.mul_apply, Matrix.one_apply] at e
  simp only [Fin.mk.injEq] at e
  rw [← e, Finset.sum_range]
  rfl

variable {T T' S S' : ℕ → ℕ → K} {m m' : BasisModel K}

theorem inv_combination {n : ℕ} {f f' : ℕ → K} (h : IsInv n T T') (hf : ∀ k < n, f' k = ∑ l ∈ range n, T k l * f l) :
    ∀ k < n, f k = ∑ l ∈ range n, T' k l * f' l := by
  intro k hk
  rw [sum_congr rfl fun l hl => by rw [hf l (mem_range.1 hl), mul_sum], sum_comm]
  have e : ∀ j ∈ range n, ∑ l ∈ range n, T' k l * (T l j * f j) = (if k = j then 1 else 0) * f j := by
    intro j hj
    rw [← IsInv.symm h k hk j (mem_range.1 hj), sum_mul]
    exact sum_congr rfl fun l _ => (mul_assoc _ _ _).symm
  rw [sum_congr rfl e]
  simp [hk]

theorem Spec.SameSpace.symm (h : SameSpace T T' S S' m m') : SameSpace T' T S' S m' m where
  cls := h.cls.symm
  dimx := h.dimx.symm
  dimObs := h.dimObs.symm
  nOut := h.nOut.symm
  wf := h.wf'
  wf' := h.wf
  inv := by rw [h.nOut]; exact IsInv.symm h.inv
  basis := by
    intro pt
    rw [h.nOut]
    exact inv_combination h.inv (h.basis pt)
  deriv := h.deriv'
  deriv' := h.deriv
  hessian := h.hessian'
  hessian' := h.hessian
  classes := by
    rw [h.cls]
    rcases h.classes with e | ⟨e, e1, e2⟩ | ⟨e, e1, e2⟩
    · exact .inl e
    · exact .inr (.inl ⟨e, e1.symm, by rw [e1]; exact IsInv.symm e2⟩)
    · exact .inr (.inr ⟨e, e2, e1⟩)

theorem Spec.SameSpace.nCorr (h : SameSpace T T' S S' m m') : Spec.nCorr m = m.nDeriv := by
  unfold Spec.nCorr BasisModel.nDeriv
  rcases h.classes with e | ⟨e, -⟩ | ⟨e | e, -⟩ <;> rw [e]

theorem Spec.SameSpace.nCorr' (h : SameSpace T T' S S' m m') : Spec.nCorr m' = m'.nDeriv := h.symm.nCorr

theorem Spec.SameSpace.nKernel (h : SameSpace T T' S S' m m') : m.nKernel = m.nDeriv := by
  unfold BasisModel.nKernel BasisModel.nDeriv
  rcases h.classes with e | ⟨e, -⟩ | ⟨e | e, -⟩ <;> rw [e]

theorem Spec.SameSpace.nKernelAt (h : SameSpace T T' S S' m m') : Spec.nKernelAt m = m.nDeriv := by
  unfold Spec.nKernelAt BasisModel.nDeriv
  rcases h.classes with e | ⟨e, -⟩ | ⟨e | e, -⟩ <;> rw [e]

theorem Spec.SameSpace.constRows (h : SameSpace T T' S S' m m') : Spec.constRows m = 0 := by
  unfold Spec.constRows
  rcases h.classes with e | ⟨e, -⟩ | ⟨e | e, -⟩ <;> rw [e] <;> rfl

theorem Spec.SameSpace.codeDot (h : SameSpace T T' S S' m m') (xva : Xva K) (t k : ℕ) :
    codeDot m xva t k = Spec.corrFeatureDot m xva t k := by
  unfold Verif.codeDot
  rcases h.classes with e | ⟨e, -⟩ | ⟨e | e, -⟩ <;> simp only [e]

theorem Spec.SameSpace.corrFeature (h : SameSpace T T' S S' m m') (xva : Xva K) (t : ℕ) {k : ℕ} (hk : k < m'.nDeriv) :
    Spec.corrFeature m' xva t k = ∑ l ∈ range m.nDeriv, S k l * Spec.corrFeature m xva t l := by
  have hg : ∑ d ∈ range xva.dimx, m'.basis.deriv (xva.data "x" t) k d * xva.data "v" t d =
      ∑ l ∈ range m.nDeriv, S k l * ∑ d ∈ range xva.dimx, m.basis.deriv (xva.data "x" t) l d * xva.data "v" t d := by
    rw [sum_congr rfl fun d _ => by rw [h.deriv _ _ hk d], mix_dot]
  unfold Spec.corrFeature
  rw [h.cls]
  rcases h.classes with e | ⟨e, -⟩ | ⟨e | e, e1, -⟩ <;> simp only [e]
  · exact hg
  · exact hg
  all_goals
    have e2 : m.nDeriv = m.basis.nOut := by simp only [BasisModel.nDeriv, e]
    have e3 : m'.nDeriv = m.basis.nOut := by simp only [BasisModel.nDeriv, h.cls, e, h.nOut]
    rw [e2, e1]
    exact h.basis _ _ (e3 ▸ hk)

theorem Spec.SameSpace.corrFeatureDot (h : SameSpace T T' S S' m m') (xva : Xva K) (t : ℕ) {k : ℕ} (hk : k < m'.nDeriv) :
    Spec.corrFeatureDot m' xva t k = ∑ l ∈ range m.nDeriv, S k l * Spec.corrFeatureDot m xva t l := by
  have hg : ∀ w : ℕ → K, ∑ d ∈ range xva.dimx, m'.basis.deriv (xva.data "x" t) k d * w d =
      ∑ l ∈ range m.nDeriv, S k l * ∑ d ∈ range xva.dimx, m.basis.deriv (xva.data "x" t) l d * w d := by
    intro w
    rw [sum_congr rfl fun d _ => by rw [h.deriv _ _ hk d], mix_dot]
  have hh : ∑ d ∈ range xva.dimx, ∑ d' ∈ range xva.dimx,
      m'.basis.hessian (xva.data "x" t) k d d' * xva.data "v" t d * xva.data "v" t d' =
      ∑ l ∈ range m.nDeriv, S k l * ∑ d ∈ range xva.dimx, ∑ d' ∈ range xva.dimx,
        m.basis.hessian (xva.data "x" t) l d d' * xva.data "v" t d * xva.data "v" t d' := by
    rw [← mix_dot2]
    exact sum_congr rfl fun d _ => sum_congr rfl fun d' _ => by rw [h.hessian _ _ hk d d']
  unfold Spec.corrFeatureDot
  rw [h.cls]
  rcases h.classes with e | ⟨e, -⟩ | ⟨e | e, -⟩ <;> simp only [e]
  · rw [hg, hh, ← sum_add_distrib]
    exact sum_congr rfl fun l _ => (mul_add _ _ _).symm
  · rw [hg, hh, ← sum_add_distrib]
    exact sum_congr rfl fun l _ => (mul_add _ _ _).symm
  · exact hg _
  · exact hg _

theorem Spec.SameSpace.kernelAt (h : SameSpace T T' S S' m m') (pt : ℕ → K) (d : ℕ) {k : ℕ} (hk : k < m'.nDeriv) :
    Spec.kernelAt m' pt k d = ∑ l ∈ range m.nDeriv, S k l * Spec.kernelAt m pt l d := by
  unfold Spec.kernelAt
  rw [h.cls]
  rcases h.classes with e | ⟨e, -⟩ | ⟨e | e, e1, -⟩ <;> simp only [e]
  · exact h.deriv _ _ hk d
  · exact h.deriv _ _ hk d
  all_goals
    have e2 : m.nDeriv = m.basis.nOut := by simp only [BasisModel.nDeriv, e]
    have e3 : m'.nDeriv = m.basis.nOut := by simp only [BasisModel.nDeriv, h.cls, e, h.nOut]
    rw [e2, e1]
    exact h.basis _ _ (e3 ▸ hk)

/-- How the functions of the mean force mix. -/
def forceMix2 (m : BasisModel K) (T S : ℕ → ℕ → K) : ℕ → ℕ → K :=
  if m.cls = .withFriction then blockMix m.basis.nOut T S else T

theorem nForce_wf (hw : m.WF) : m.nForce = if m.cls = .withFriction then m.basis.nOut + m.nDeriv else m.basis.nOut := by
  unfold BasisModel.nForce BasisModel.nDeriv
  cases hc : m.cls <;> simp
  by_cases h : m.basis.constRemoved = true
  · have := hw h
    simp only [h, if_true]
    omega
  · rw [if_neg h]
    omega

theorem Spec.SameSpace.nForce (h : SameSpace T T' S S' m m') : m'.nForce = m.nForce := by
  rw [nForce_wf h.wf, nForce_wf h.wf', h.cls, h.nOut]
  split_ifs with hc
  · rcases h.classes with e | ⟨e, e1, -⟩ | ⟨e | e, -⟩
    · rw [e] at hc; cases hc
    · rw [e1]
    · rw [e] at hc; cases hc
    · rw [e] at hc; cases hc
  · rfl

theorem Spec.SameSpace.friction (h : SameSpace T T' S S' m m') (hc : m.cls = .withFriction) :
    m'.nDeriv = m.nDeriv ∧ IsInv m.nDeriv S S' := by
  rcases h.classes with e | ⟨e, e1, e2⟩ | ⟨e | e, -⟩
  · rw [e] at hc; cases hc
  · exact ⟨e1, e2⟩
  · rw [e] at hc; cases hc
  · rw [e] at hc; cases hc

theorem Spec.SameSpace.force_inv (h : SameSpace T T' S S' m m') : IsInv m.nForce (forceMix2 m T S) (forceMix2 m T' S') := by
  rw [nForce_wf h.wf]
  unfold forceMix2
  split_ifs with hc
  · exact blockMix_inv h.inv (h.friction hc).2
  · exact h.inv

theorem Spec.SameSpace.forceFeature (h : SameSpace T T' S S' m m') (xva : Xva K) (t : ℕ) {k : ℕ} (hk : k < m.nForce) :
    Spec.forceFeature m' xva t k = ∑ l ∈ range m.nForce, forceMix2 m T S k l * Spec.forceFeature m xva t l := by
  rw [nForce_wf h.wf] at hk ⊢
  unfold Spec.forceFeature forceMix2
  rw [h.cls, h.nOut]
  by_cases hc : m.cls = .withFriction
  · have e1 := (h.friction hc).1
    simp only [hc, if_true, true_and] at hk ⊢
    rw [blockMix_sum]
    by_cases h1 : k < m.basis.nOut
    · rw [if_pos h1, if_neg (by omega), h.basis _ _ h1]
      exact sum_congr rfl fun l hl => by rw [if_neg (by have := mem_range.1 hl; omega)]
    · rw [if_neg h1, if_pos (by omega), sum_congr rfl fun d _ => by rw [h.deriv _ _ (by omega) d], mix_dot]
      exact sum_congr rfl fun l _ => by rw [if_pos (by omega), Nat.add_sub_cancel_left]
  · simp only [hc, if_false, false_and] at hk ⊢
    exact h.basis _ _ hk

theorem forceMix2_left (h : SameSpace T T' S S' m m') {k : ℕ} (hk : k < m.basis.nOut) (f : ℕ → K) :
    ∑ l ∈ range m.nForce, forceMix2 m T S l k * f l = ∑ l ∈ range m.basis.nOut, T l k * f l := by
  rw [nForce_wf h.wf]
  unfold forceMix2
  split_ifs with hc
  · rw [sum_range_add, sum_congr rfl fun l hl => by rw [blockMix, if_pos (mem_range.1 hl), if_pos hk],
      sum_eq_zero (s := range m.nDeriv) (f := fun l => blockMix m.basis.nOut T S (m.basis.nOut + l) k * _)
        fun l _ => by rw [blockMix, if_neg (by omega), if_pos hk, zero_mul], add_zero]
  · rfl

end

section
variable {K : Type*} [Field K]

/-- The matrix `P` keeps the functions whose correlations are computed: they can be rebuilt from those that are kept, and
those are independent on the trajectories. -/
structure Kept (xvas : List (Xva K)) (m : BasisModel K) {b r : ℕ} (P : Matrix (Fin r) (Fin b) K) : Prop where
  rebuild : ∀ φ : Fin b → K, (∀ w, VanishesOnData xvas m w → ∑ k : Fin b, w k * φ k = 0) →
    P.transpose.mulVec (P.mulVec φ) = φ
  indep : ∀ c : Fin r → K, (∀ xva ∈ xvas, ∀ t < xva.n,
    ∑ p, c p * P.mulVec (fun k => Spec.corrFeature m xva t k) p = 0) → c = 0

/-- Without projection. -/
theorem kept_one {xvas : List (Xva K)} {m : BasisModel K} {b : ℕ} (hb : Spec.nCorr m = b)
    (h : ∀ w, VanishesOnData xvas m w → ∀ k < b, w k = 0) : Kept xvas m (1 : Matrix (Fin b) (Fin b) K) where
  rebuild := fun φ _ => by simp
  indep := fun c hc => by
    have key := h (fun k => if hk : k < b then c ⟨k, hk⟩ else 0) (fun xva hx t ht => by
      rw [← hc xva hx t ht, hb, Finset.sum_range]
      exact sum_congr rfl fun p _ => by simp)
    funext k
    simpa using key k k.2

theorem weightedMean_zero {xs : List (ℕ × K)} (h : ∀ p ∈ xs, p.2 = 0) : Spec.weightedMean xs = 0 := by
  unfold Spec.weightedMean
  rw [List.sum_eq_zero, zero_div]
  intro y hy
  obtain ⟨p, hp, rfl⟩ := List.mem_map.1 hy
  rw [h p hp, mul_zero]

/-- Correlations with something that vanishes at all frames. -/
theorem meanCorr_zero_left {xvas : List (Xva K)} {f : Xva K → ℕ → K} (h : ∀ xva ∈ xvas, ∀ t < xva.n, f xva t = 0)
    (g : Xva K → ℕ → K) (n : ℕ) : Spec.meanCorr xvas f g n = 0 := by
  unfold Spec.meanCorr
  refine weightedMean_zero fun p hp => ?_
  obtain ⟨xva, hx, rfl⟩ := List.mem_map.1 hp
  unfold Spec.corr
  dsimp only
  rw [sum_eq_zero, zero_div]
  intro t ht
  rw [h xva hx t (by have := mem_range.1 ht; omega), zero_mul]

theorem meanCorr_zero_right {xvas : List (Xva K)} {g : Xva K → ℕ → K} (h : ∀ xva ∈ xvas, ∀ t < xva.n, g xva t = 0)
    (f : Xva K → ℕ → K) (n : ℕ) : Spec.meanCorr xvas f g n = 0 := by
  unfold Spec.meanCorr
  refine weightedMean_zero fun p hp => ?_
  obtain ⟨xva, hx, rfl⟩ := List.mem_map.1 hp
  unfold Spec.corr
  dsimp only
  rw [sum_eq_zero, zero_div]
  intro t ht
  rw [h xva hx (t + n) (by have := mem_range.1 ht; omega), mul_zero]

/-- The correlations of two families of functions. -/
def corrMat (xvas : List (Xva K)) {b x : ℕ} (f g : ℕ → Xva K → ℕ → K) (n : ℕ) : Matrix (Fin b) (Fin x) K :=
  Matrix.of fun p q => Spec.meanCorr xvas (f p) (g q) n

theorem corrMat_left {xvas : List (Xva K)} {b b' x : ℕ} {f f' : ℕ → Xva K → ℕ → K} (g : ℕ → Xva K → ℕ → K) (n : ℕ)
    {S : ℕ → ℕ → K} (h : ∀ xva t, ∀ k < b', f' k xva t = ∑ l ∈ range b, S k l * f l xva t) :
    (corrMat xvas f' g n : Matrix (Fin b') (Fin x) K) =
      (Matrix.of fun (k : Fin b') (l : Fin b) => S k l) * (corrMat xvas f g n : Matrix (Fin b) (Fin x) K) := by
  ext p q
  rw [Matrix.mul_apply]
  show Spec.meanCorr xvas (f' p) (g q) n = _
  rw [show f' p = fun xva t => ∑ l ∈ range b, S p l * f l xva t from funext fun xva => funext fun t => h xva t p p.2,
    meanCorr_mix, Finset.sum_range]
  rfl

theorem corrMat_right {xvas : List (Xva K)} {b x x' : ℕ} (f : ℕ → Xva K → ℕ → K) {g g' : ℕ → Xva K → ℕ → K} (n : ℕ)
    {S : ℕ → ℕ → K} (h : ∀ xva t, ∀ k < x', g' k xva t = ∑ l ∈ range x, S k l * g l xva t) :
    (corrMat xvas f g' n : Matrix (Fin b) (Fin x') K) =
      (corrMat xvas f g n : Matrix (Fin b) (Fin x) K) * (Matrix.of fun (k : Fin x') (l : Fin x) => S k l).transpose := by
  ext p q
  rw [Matrix.mul_apply]
  show Spec.meanCorr xvas (f p) (g' q) n = _
  rw [show g' q = fun xva t => ∑ l ∈ range x, S q l * g l xva t from funext fun xva => funext fun t => h xva t q q.2,
    meanCorr_mix_right, Finset.sum_range]
  exact sum_congr rfl fun l _ => mul_comm _ _

/-- Functions determined by the correlated ones can be rebuilt, in the first place of a correlation. -/
theorem Kept.left {xvas : List (Xva K)} {m : BasisModel K} {b r : ℕ} {P : Matrix (Fin r) (Fin b) K} (h : Kept xvas m P)
    {f : ℕ → Xva K → ℕ → K} (hf : ∀ w, VanishesOnData xvas m w → ∀ xva ∈ xvas, ∀ t < xva.n,
      ∑ k ∈ range b, w k * f k xva t = 0) {x : ℕ} (g : ℕ → Xva K → ℕ → K) (n : ℕ) :
    P.transpose * (P * (corrMat xvas f g n : Matrix (Fin b) (Fin x) K)) = corrMat xvas f g n := by
  ext k q
  have key := h.rebuild (fun k => Spec.meanCorr xvas (f k) (g q) n) (fun w hw => by
    rw [← meanCorr_zero_left (hf w hw) (g q) n, meanCorr_mix, Finset.sum_range])
  have := congrFun key k
  rw [Matrix.mul_apply]
  exact this

theorem Kept.right {xvas : List (Xva K)} {m : BasisModel K} {b r : ℕ} {P : Matrix (Fin r) (Fin b) K} (h : Kept xvas m P)
    {g : ℕ → Xva K → ℕ → K} (hf : ∀ w, VanishesOnData xvas m w → ∀ xva ∈ xvas, ∀ t < xva.n,
      ∑ k ∈ range b, w k * g k xva t = 0) {x : ℕ} (f : ℕ → Xva K → ℕ → K) (n : ℕ) :
    (corrMat xvas f g n : Matrix (Fin x) (Fin b) K) * P.transpose * P = corrMat xvas f g n := by
  ext q k
  have key := h.rebuild (fun k => Spec.meanCorr xvas (f q) (g k) n) (fun w hw => by
    rw [← meanCorr_zero_right (hf w hw) (f q) n, meanCorr_mix_right, Finset.sum_range])
  have := congrFun key k
  rw [Matrix.mul_assoc, Matrix.mul_apply]
  refine Eq.trans ?_ this
  rw [Matrix.mulVec_mulVec, Matrix.mulVec, dotProduct]
  refine sum_congr rfl fun l _ => ?_
  have e : (P.transpose * P) l k = (P.transpose * P) k l := by
    have : (P.transpose * P).transpose = P.transpose * P := by rw [Matrix.transpose_mul, Matrix.transpose_transpose]
    exact (congrFun (congrFun this k) l)
  rw [e, mul_comm]
  rfl

end

section
variable {K : Type*} [Field K] [LinearOrder K] [IsStrictOrderedRing K]

theorem svd_mul {b : ℕ} {M : Mat K b b} {US : Mat K b b × (Fin b → K)} (h : IsSvdOf M US) :
    US.1.transpose * US.1 = 1 ∧ US.1 * US.1.transpose = 1 ∧ ∃ σ : Fin b → K, (∀ i, σ i ≠ 0) ∧
      US.1.transpose * M = Matrix.diagonal (fun i => σ i * US.2 i) * US.1.transpose ∧
      M * US.1 = US.1 * Matrix.diagonal (fun i => σ i * US.2 i) := by
  obtain ⟨hU, -, -, σ, hσ, hM⟩ := h
  have hU' := mul_eq_one_comm.1 hU
  refine ⟨hU', hU, σ, fun i => ?_, ?_, ?_⟩
  · rcases hσ i with e | e <;> rw [e] <;> simp
  · rw [hM, ← Matrix.mul_assoc, ← Matrix.mul_assoc, hU', Matrix.one_mul]
  · rw [hM, Matrix.mul_assoc _ _ US.1, hU', Matrix.mul_one]

theorem svd_null {b : ℕ} {M : Mat K b b} {US : Mat K b b × (Fin b → K)} (h : IsSvdOf M US) {w : Fin b → K}
    (hw : M.mulVec w = 0) {i : Fin b} (hi : US.2 i ≠ 0) : US.1.transpose.mulVec w i = 0 := by
  obtain ⟨-, -, σ, hσ, h1, -⟩ := svd_mul h
  have e : US.1.transpose.mulVec (M.mulVec w) = (Matrix.diagonal (fun i => σ i * US.2 i)).mulVec (US.1.transpose.mulVec w) := by
    rw [Matrix.mulVec_mulVec, h1, Matrix.mulVec_mulVec]
  rw [hw, Matrix.mulVec_zero] at e
  have := congrFun e i
  rw [Matrix.mulVec_diagonal] at this
  exact (mul_eq_zero.1 this.symm).resolve_left (mul_ne_zero (hσ i) hi)

theorem svd_ker {b : ℕ} {M : Mat K b b} {US : Mat K b b × (Fin b → K)} (h : IsSvdOf M US) {i : Fin b} (hi : US.2 i = 0) :
    M.mulVec (fun k => US.1 k i) = 0 := by
  obtain ⟨-, -, σ, -, -, h2⟩ := svd_mul h
  funext k
  have e := congrFun (congrFun h2 k) i
  rw [Matrix.mul_diagonal, hi, mul_zero, mul_zero] at e
  refine Eq.trans ?_ e
  rw [Matrix.mul_apply]
  rfl

/-- The correlations at lag zero. -/
def gramZero (xvas : List (Xva K)) (m : BasisModel K) (b : ℕ) : Mat K b b :=
  corrMat xvas (fun k xva t => Spec.corrFeature m xva t k) (fun k xva t => Spec.corrFeature m xva t k) 0

theorem vanish_of_ker [CharZero K] {xvas : List (Xva K)} (hn : ∀ xva ∈ xvas, 1 ≤ xva.n) {m : BasisModel K} {b : ℕ}
    (hb : Spec.nCorr m = b) {v : Fin b → K} {w : ℕ → K} (hw : ∀ k : Fin b, v k = w k)
    (h : (gramZero xvas m b).mulVec v = 0) : VanishesOnData xvas m w := by
  have e := meanCorr_zero_quad hn (fun k xva t => Spec.corrFeature m xva t k) hw
  have e' : v ⬝ᵥ (gramZero xvas m b).mulVec v = 0 := by rw [h, dotProduct_zero]
  unfold gramZero corrMat at e'
  rw [e'] at e
  intro xva hx t ht
  have hW : ((xvas.map fun x => x.n).sum : ℕ) ≠ 0 := by
    have : xva.n ≤ (xvas.map fun x => x.n).sum := List.single_le_sum (by simp) _ (List.mem_map_of_mem hx)
    have := hn xva hx
    omega
  have e0 := (div_eq_zero_iff.1 e.symm).resolve_right (by exact_mod_cast hW)
  have := (pooled_eq_zero fun _ _ => sq_nonneg _).1 e0 xva hx t ht
  rw [hb, ← pow_eq_zero_iff (two_ne_zero) |>.1 this]
  exact sum_congr rfl fun k _ => mul_comm _ _

theorem ker_of_vanish {xvas : List (Xva K)} {m : BasisModel K} {b : ℕ}
    (hb : Spec.nCorr m = b) {v : Fin b → K} {w : ℕ → K} (hw : ∀ k : Fin b, v k = w k)
    (h : VanishesOnData xvas m w) : (gramZero xvas m b).mulVec v = 0 := by
  subst hb
  funext k
  rw [Matrix.mulVec, dotProduct, Pi.zero_apply, ← meanCorr_zero_right h (fun xva t => Spec.corrFeature m xva t k) 0,
    meanCorr_mix_right _ _ _ _ (fun l xva t => Spec.corrFeature m xva t l), Finset.sum_range]
  exact sum_congr rfl fun l _ => by rw [hw, mul_comm]; rfl

/-- The projection on the range of the basis keeps the functions, when the singular values that are dropped are zero. -/
theorem kept_projection [CharZero K] {xvas : List (Xva K)} (hn : ∀ xva ∈ xvas, 1 ≤ xva.n) {m : BasisModel K} {b : ℕ}
    (hb : Spec.nCorr m = b) {svd : Svd K} {eps : K} {rankTol : Option K} {dimx : ℕ} {B0 P : LArr K}
    (hB : B0.toMatrix b b = gramZero xvas m b) (hsvd : IsSvdOf (gramZero xvas m b) (svd b (gramZero xvas m b)))
    (htol : 0 ≤ rankTolerance eps rankTol (svd b (gramZero xvas m b)).2)
    (hsep : ∀ i, (svd b (gramZero xvas m b)).2 i ≤ rankTolerance eps rankTol (svd b (gramZero xvas m b)).2 →
      (svd b (gramZero xvas m b)).2 i = 0)
    (h : setRangeProjection svd eps rankTol b dimx B0 = .ok P) {r : ℕ} (hr : P.shape = [r, b]) :
    Kept xvas m (Matrix.of fun (p : Fin r) (k : Fin b) => P.get [(p : ℕ), (k : ℕ)]) := by
  obtain ⟨US, hUS⟩ : ∃ US, US = svd b (gramZero xvas m b) := ⟨_, rfl⟩
  have hrank : r = numericalRank eps rankTol US.2 := by
    have := (C44_range_projection (by rw [hB]; exact hsvd) h).2.1
    rw [hr, hB, ← hUS] at this
    simpa using this
  have hanti : Antitone US.2 := by rw [hUS]; exact hsvd.2.2.1
  rw [← hUS] at hsvd htol hsep
  have hpos : ∀ i : Fin b, (i : ℕ) < r → US.2 i ≠ 0 := fun i hi =>
    (htol.trans_lt ((lt_rank_iff hanti i).1 (hrank ▸ hi))).ne'
  have hzero : ∀ i : Fin b, ¬ (i : ℕ) < r → US.2 i = 0 := fun i hi =>
    hsep i (not_lt.1 fun hc => hi (by rw [hrank]; exact (lt_rank_iff hanti i).2 hc))
  obtain ⟨hU', hU, -⟩ := svd_mul hsvd
  have hrb : r ≤ b := by rw [hrank]; exact rank_le _ _ _
  by_cases hlt : r < b
  · -- some directions are dropped
    have hP : ∀ (p : Fin r) (k : Fin b), P.get [(p : ℕ), (k : ℕ)] = US.1 k (Fin.castLE hrb p) := by
      intro p k
      unfold setRangeProjection at h
      simp only [hB, ← hUS] at h
      rw [if_neg (by omega), if_pos (by rw [← hrank]; exact hlt)] at h
      split_ifs at h
      simp only [Except.ok.injEq] at h
      rw [← h]
      have := p.2
      simp only [mk2, k.2, and_true]
      rw [dif_pos (by omega)]
      rfl
    refine ⟨fun φ hφ => ?_, fun c hc => ?_⟩
    · have hφ0 : ∀ i : Fin b, ¬ (i : ℕ) < r → US.1.transpose.mulVec φ i = 0 := by
        intro i hi
        have hv := vanish_of_ker hn hb (v := fun k => US.1 k i) (w := fun k => if hk : k < b then US.1 ⟨k, hk⟩ i else 0)
          (fun k => by simp) (svd_ker hsvd (hzero i hi))
        rw [← hφ _ hv, Matrix.mulVec, dotProduct]
        exact sum_congr rfl fun k _ => by simp
      have e : US.1.mulVec (US.1.transpose.mulVec φ) = φ := by
        rw [Matrix.mulVec_mulVec, hU, Matrix.one_mulVec]
      funext k
      conv_rhs => rw [← e]
      rw [Matrix.mulVec, dotProduct, Matrix.mulVec, dotProduct]
      obtain ⟨y, hy⟩ : ∃ y : ℕ → K, ∀ i : Fin b, y i = US.1 k i * US.1.transpose.mulVec φ i :=
        ⟨fun i => if hi : i < b then US.1 k ⟨i, hi⟩ * US.1.transpose.mulVec φ ⟨i, hi⟩ else 0, fun i => by simp⟩
      have e1 : ∑ i, US.1 k i * US.1.transpose.mulVec φ i = ∑ i ∈ range b, y i := by
        rw [Finset.sum_range]; exact sum_congr rfl fun i _ => (hy i).symm
      have e2 : ∑ i ∈ range b, y i = ∑ i ∈ range r, y i := by
        symm
        refine sum_subset (range_subset_range.2 hrb) fun i hi hi' => ?_
        have := hy ⟨i, mem_range.1 hi⟩
        rw [hφ0 _ (by simpa using hi'), mul_zero] at this
        exact this
      refine Eq.trans ?_ (e1.trans e2).symm
      rw [Finset.sum_range]
      refine sum_congr rfl fun p _ => ?_
      refine Eq.trans ?_ (hy (Fin.castLE hrb p)).symm
      rw [Matrix.transpose_apply, Matrix.of_apply, hP]
      congr 1
      rw [Matrix.mulVec, dotProduct, Matrix.mulVec, dotProduct]
      exact sum_congr rfl fun l _ => by rw [Matrix.of_apply, hP, Matrix.transpose_apply]
    · obtain ⟨v, hv⟩ : ∃ v : Fin b → K, v = (Matrix.of fun (p : Fin r) (k : Fin b) => P.get [(p : ℕ), (k : ℕ)]).transpose.mulVec c :=
        ⟨_, rfl⟩
      have hvan : VanishesOnData xvas m (fun k => if hk : k < b then v ⟨k, hk⟩ else 0) := by
        intro xva hx t ht
        rw [← hc xva hx t ht, hb, Finset.sum_range]
        simp only [Fin.is_lt, dif_pos, Fin.eta, hv]
        simp only [Matrix.mulVec, dotProduct, sum_mul, mul_sum, Matrix.transpose_apply]
        rw [sum_comm]
        exact sum_congr rfl fun p _ => sum_congr rfl fun k _ => by ring
      have hker := ker_of_vanish hb (v := v) (fun k => by simp) hvan
      funext p
      have := svd_null hsvd hker (hpos (Fin.castLE hrb p) p.2)
      rw [Pi.zero_apply, ← this, hv, Matrix.mulVec_mulVec, Matrix.mulVec, dotProduct]
      have e : ∀ q : Fin r, (US.1.transpose * (Matrix.of fun (p : Fin r) (k : Fin b) => P.get [(p : ℕ), (k : ℕ)]).transpose)
          (Fin.castLE hrb p) q = if p = q then 1 else 0 := by
        intro q
        have := congrFun (congrFun hU' (Fin.castLE hrb p)) (Fin.castLE hrb q)
        rw [Matrix.one_apply, Matrix.mul_apply] at this
        rw [Matrix.mul_apply]
        simp only [Matrix.transpose_apply, Matrix.of_apply, hP]
        simp only [Matrix.transpose_apply] at this
        rw [this]
        simp
      rw [sum_congr rfl fun q _ => by rw [e q]]
      simp
  · obtain rfl : r = b := le_antisymm hrb (not_lt.1 hlt)
    have hP : (Matrix.of fun (p : Fin r) (k : Fin r) => P.get [(p : ℕ), (k : ℕ)]) = 1 := by
      ext p k
      have := (C44_range_projection (by rw [hB, ← hUS]; exact hsvd) h).2.2.2.2.2.2
      simp only [hB, ← hUS, ← hrank] at this
      rw [Matrix.of_apply, this trivial p p.2 k k.2, Matrix.one_apply]
      simp [Fin.ext_iff]
    rw [hP]
    refine kept_one hb fun w hw => ?_
    have hker := ker_of_vanish hb (v := fun k => w k) (fun k => rfl) hw
    have h0 : US.1.transpose.mulVec (fun k : Fin r => w k) = 0 := by
      funext i
      exact svd_null hsvd hker (hpos i i.2)
    have e : US.1.mulVec (US.1.transpose.mulVec fun k : Fin r => w k) = fun k : Fin r => w k := by
      rw [Matrix.mulVec_mulVec, hU, Matrix.one_mulVec]
    rw [h0, Matrix.mulVec_zero] at e
    intro k hk
    exact (congrFun e ⟨k, hk⟩).symm

/-- The combinations of the correlated functions that vanish at all frames are recognised: with a projection numpy's
singular value decomposition is exact, and the singular values that are not above the tolerance are zero; without projection
there are none. -/
def Resolved (env : Env K) (rankTol : Option K) (s : EstState K) : Prop :=
  if s.model.rankProjection = true then
    let M := gramZero s.xvas s.model.bm (Spec.nCorr s.model.bm)
    IsSvdOf M (env.svd _ M) ∧ 0 ≤ rankTolerance env.eps rankTol (env.svd _ M).2 ∧
      ∀ i, (env.svd _ M).2 i ≤ rankTolerance env.eps rankTol (env.svd _ M).2 → (env.svd _ M).2 i = 0
  else ∀ w, VanishesOnData s.xvas s.model.bm w → ∀ k < Spec.nCorr s.model.bm, w k = 0

/-- Some function whose correlations are computed does not vanish at all frames. -/
def SomeFeature (xvas : List (Xva K)) (m : BasisModel K) : Prop :=
  ∃ xva ∈ xvas, ∃ t < xva.n, ∃ k < Spec.nCorr m, Spec.corrFeature m xva t k ≠ 0

/-- The projection can be computed. -/
theorem setRangeProjection_ok [CharZero K] {xvas : List (Xva K)} {m : BasisModel K} {b : ℕ}
    (hb : Spec.nCorr m = b) {svd : Svd K} {eps : K} {rankTol : Option K} {dimx : ℕ} {B0 : LArr K}
    (hB : B0.toMatrix b b = gramZero xvas m b) (hsvd : IsSvdOf (gramZero xvas m b) (svd b (gramZero xvas m b)))
    (hsep : ∀ i, (svd b (gramZero xvas m b)).2 i ≤ rankTolerance eps rankTol (svd b (gramZero xvas m b)).2 →
      (svd b (gramZero xvas m b)).2 i = 0)
    (hn : ∀ xva ∈ xvas, 1 ≤ xva.n) (hf : SomeFeature xvas m) :
    ∃ P, setRangeProjection svd eps rankTol b dimx B0 = .ok P := by
  obtain ⟨xva, hx, t, ht, k, hk, hne⟩ := hf
  have hrank : numericalRank eps rankTol (svd b (gramZero xvas m b)).2 ≠ 0 := by
    intro h0
    apply hne
    have hS : ∀ i, (svd b (gramZero xvas m b)).2 i = 0 := fun i =>
      hsep i (not_lt.1 fun hc => by have := (lt_rank_iff hsvd.2.2.1 i).2 hc; omega)
    obtain ⟨-, hU, σ, -, -, h2⟩ := svd_mul hsvd
    have hM : gramZero xvas m b = 0 := by
      have e : gramZero xvas m b * (svd b (gramZero xvas m b)).1 = 0 := by
        rw [h2, show (fun i => σ i * (svd b (gramZero xvas m b)).2 i) = 0 from funext fun i => by rw [hS i, mul_zero]; rfl,
          Matrix.diagonal_zero', Matrix.mul_zero]
      have := congrArg (fun M => M * (svd b (gramZero xvas m b)).1.transpose) e
      simpa only [Matrix.mul_assoc, hU, Matrix.mul_one, Matrix.zero_mul] using this
    have := vanish_of_ker hn hb (v := fun l : Fin b => if (l : ℕ) = k then 1 else 0) (w := fun l => if l = k then 1 else 0)
      (fun _ => rfl) (by rw [hM, Matrix.zero_mulVec]) xva hx t ht
    simpa [hk] using this
  unfold setRangeProjection
  simp only [hB]
  rw [if_neg (by omega)]
  split_ifs with h1 h2
  · exact absurd h2.2 hrank
  · exact ⟨_, rfl⟩
  · exact ⟨_, rfl⟩

/-- What `compute_corrs` leaves, with or without projection: the correlations of the functions kept by `P`, and how the
kernel is evaluated later. -/
theorem kept_corrs [CharZero K] {env : Env K} {method : String} {vectorize : Bool} {rankTol : Option K} {s : EstState K}
    {d : String} {x : ℕ} {fc : LArr K} (h : CorrReady env method vectorize s d x fc) (hres : Resolved env rankTol s)
    (hf : SomeFeature s.xvas s.model.bm) (hk : s.model.bm.nKernel = Spec.nCorr s.model.bm)
    (hat : Spec.nKernelAt s.model.bm = Spec.nCorr s.model.bm) (hz : Spec.constRows s.model.bm = 0)
    {b : ℕ} (hb : Spec.nCorr s.model.bm = b) :
    ∃ C Pr, ∃ r, ∃ P : Matrix (Fin r) (Fin b) K,
      computeCorrs env method vectorize true rankTol s =
        ({ s with model := { s.model with Prange := Pr }, corrs := some C }, none) ∧
      Kept s.xvas s.model.bm P ∧ (C.bkbk.shape[0]?).getD 0 = r ∧ (C.bkdx.shape[1]?).getD 0 = x ∧
      (C.toCorrs r x).N = s.model.truncInd ∧
      (∃ D1 D2, (C.toCorrs r x).dotbkdx = some D1 ∧ (C.toCorrs r x).dotbkbk = .arr D2 ∧
      ∀ n < s.model.truncInd,
        (C.toCorrs r x).bkbk n = P * corrMat s.xvas (fun k xva t => Spec.corrFeature s.model.bm xva t k)
          (fun k xva t => Spec.corrFeature s.model.bm xva t k) n * P.transpose ∧
        (C.toCorrs r x).bkdx n = P * corrMat s.xvas (fun k xva t => Spec.corrFeature s.model.bm xva t k)
          (fun j xva t => Spec.ortho s.model.bm s.model.Lobs (fun k j => fc.get [k, j]) xva t j) n ∧
        D1 n = P * corrMat s.xvas (fun k xva t => codeDot s.model.bm xva t k)
          (fun j xva t => Spec.ortho s.model.bm s.model.Lobs (fun k j => fc.get [k, j]) xva t j) n ∧
        D2 n = P * corrMat s.xvas (fun k xva t => codeDot s.model.bm xva t k)
          (fun k xva t => Spec.corrFeature s.model.bm xva t k) n * P.transpose) ∧
      ∀ (km : String) (k : KernelData K r x) (n : ℕ) (pts : ℕ → ℕ → K),
        ∃ R, kernelEvalAt { s.model with Prange := Pr, method := some km, kernel := some ⟨r, x, k⟩ } n pts = .ok R ∧
          ∀ t l (hl : l < x) i j, R t l i j =
            ∑ p, k.kernel.get t p ⟨l, hl⟩ * P.mulVec (fun q => Spec.kernelAt s.model.bm (pts i) q j) p := by
  subst hb
  have hn : ∀ xva ∈ s.xvas, 1 ≤ xva.n := fun xva hx => h.tpos.trans (h.tle xva hx)
  unfold Resolved at hres
  by_cases hr : s.model.rankProjection = true
  · rw [if_pos hr] at hres
    obtain ⟨h1, h2, h3⟩ := hres
    obtain ⟨A, A', B, B', e, -, ⟨b1, b2, b3⟩, -⟩ := h.loop_ok true
    have hB : (B.isel "time_trunc" 0).toMatrix (Spec.nCorr s.model.bm) (Spec.nCorr s.model.bm) =
        gramZero s.xvas s.model.bm (Spec.nCorr s.model.bm) := by
      ext k l
      simp only [toMatrix, Matrix.of_apply]
      rw [isel_trunc b1 b2, b3 k k.2 l l.2 0 h.tpos]
      rfl
    obtain ⟨P, hP⟩ := setRangeProjection_ok (dimx := s.model.bm.dimx) rfl hB h1 h3 hn hf
    have hok : computeCorrs env method vectorize true rankTol s =
        ({ s with model := { s.model with Prange := some P }, corrs := some (projectCorrs P ⟨A, A', B, some B'⟩) }, none) := by
      unfold computeCorrs
      rw [h.force]
      dsimp only
      rw [e]
      simp only [hr, if_true, not_true_eq_false, and_false, if_false, hk, hP]
    obtain ⟨c, P', r, hc, hPr, p1, p2, q1, q2, q3, q4, t1, t2, t3⟩ := C43_projected h hr hk.symm hok
    obtain rfl : P = P' := Option.some.inj hPr
    obtain ⟨D, hD, -, -, o1, o2, t4, t5⟩ := t3 rfl
    obtain rfl := Option.some.inj hc
    refine ⟨_, some P, r, Matrix.of fun (p : Fin r) (k : Fin _) => P.get [(p : ℕ), (k : ℕ)], hok,
      kept_projection hn rfl hB h1 h2 h3 hP p2, by rw [q2]; rfl, by rw [q4]; rfl, ?_, ⟨_,
      fun n => Matrix.of fun p q => D.get [(p : ℕ), (q : ℕ), n], rfl, ?_, fun n hn => ⟨?_, ?_, ?_, ?_⟩⟩, fun km k n pts => ?_⟩
    · unfold CorrsL.toCorrs
      dsimp only
      rw [q2]
      rfl
    · unfold CorrsL.toCorrs
      dsimp only
      rw [hD]
    · ext p q
      refine (t1 p p.2 q q.2 n hn).trans ?_
      rw [Matrix.mul_apply, sum_comm, Finset.sum_range]
      refine sum_congr rfl fun l _ => ?_
      rw [Matrix.mul_apply, Finset.sum_range, sum_mul]
      exact sum_congr rfl fun k _ => mul_right_comm _ _ _
    · ext p j
      refine (t2 p p.2 j j.2 n hn).trans ?_
      rw [Matrix.mul_apply, Finset.sum_range]
      rfl
    · ext p j
      refine Eq.trans (isel_obs h.obs.2.1 h.dim.1 o1 o2 _ _ _) ((t5 p p.2 j j.2 n hn).trans ?_)
      rw [Matrix.mul_apply, Finset.sum_range]
      rfl
    · ext p q
      refine (t4 p p.2 q q.2 n hn).trans ?_
      rw [Matrix.mul_apply, sum_comm, Finset.sum_range]
      refine sum_congr rfl fun l _ => ?_
      rw [Matrix.mul_apply, Finset.sum_range, sum_mul]
      exact sum_congr rfl fun k _ => mul_right_comm _ _ _
    · obtain ⟨R, hR, hR'⟩ := C108_kernel_eval_projected (s := { s.model with Prange := some P, method := some km, kernel := some ⟨r, x, k⟩ })
        (k := k) rfl hr rfl p1 (r := r) (by rw [p2, hat]) (by dsimp only; rw [hz, add_zero]) n pts
      refine ⟨R, hR, fun t l hl i j => ?_⟩
      rw [hR' t l hl i j]
      refine sum_congr rfl fun p _ => ?_
      dsimp only
      rw [hat, Finset.sum_range]
      have ez : (⟨(p : ℕ) + Spec.constRows s.model.bm, by have := p.2; omega⟩ : Fin r) = p := by
        apply Fin.ext
        simp [hz]
      rw [ez]
      rfl
  · have hr' : s.model.rankProjection = false := by simpa using hr
    rw [if_neg hr] at hres
    obtain ⟨C, hC, s1, s2, N, D1, D2, hD1, hD2, hent⟩ := computeCorrs_true (rankTol := rankTol) h hr' rfl
    refine ⟨C, s.model.Prange, _, 1, hC, kept_one rfl hres, s1, s2, N, ⟨D1, D2, hD1, hD2, fun n hn => ?_⟩, fun km k n pts => ?_⟩
    · simp only [Matrix.one_mul, Matrix.transpose_one, Matrix.mul_one]
      have hp : 0 < Spec.nCorr s.model.bm := h.npos
      have hx : 0 < x := h.xpos
      refine ⟨?_, ?_, ?_, ?_⟩
      · ext p q; exact (hent n hn p q ⟨0, hx⟩).1
      · ext p j; exact (hent n hn p p j).2.1
      · ext p j; exact (hent n hn p p j).2.2.1
      · ext p q; exact (hent n hn p q ⟨0, hx⟩).2.2.2
    · obtain ⟨R, hR, hR'⟩ := C108_kernel_eval (s := { s.model with method := some km, kernel := some ⟨_, x, k⟩ })
        (k := k) rfl hr' (by dsimp only; rw [hz, add_zero, hat]) n pts
      refine ⟨R, hR, fun t l hl i j => ?_⟩
      rw [hR' t l hl i j]
      obtain ⟨y, hy⟩ : ∃ y : ℕ → K, ∀ p : Fin (Spec.nCorr s.model.bm), y p = k.kernel.get t p ⟨l, hl⟩ :=
        ⟨fun p => if hp : p < Spec.nCorr s.model.bm then k.kernel.get t ⟨p, hp⟩ ⟨l, hl⟩ else 0, fun p => by simp⟩
      have e1 : ∑ p : Fin (Spec.nCorr s.model.bm), k.kernel.get t p ⟨l, hl⟩ *
          (1 : Matrix (Fin (Spec.nCorr s.model.bm)) (Fin (Spec.nCorr s.model.bm)) K).mulVec
            (fun q => Spec.kernelAt s.model.bm (pts i) q j) p =
          ∑ p ∈ range (Spec.nCorr s.model.bm), y p * Spec.kernelAt s.model.bm (pts i) p j := by
        rw [Finset.sum_range, Matrix.one_mulVec]
        exact sum_congr rfl fun p _ => by rw [hy]
      rw [e1]
      refine Eq.trans ?_ (congrArg (fun q => ∑ p ∈ range q, y p * Spec.kernelAt s.model.bm (pts i) p j) hat)
      dsimp only
      rw [Finset.sum_range]
      refine sum_congr rfl fun p _ => ?_
      have hp : (p : ℕ) < Spec.nCorr s.model.bm := by rw [← hat]; exact p.2
      have := hy ⟨p, hp⟩
      dsimp only at this
      rw [this]
      have ez : (⟨(p : ℕ) + Spec.constRows s.model.bm, by have := p.2; omega⟩ : Fin (Spec.nCorr s.model.bm)) = ⟨p, hp⟩ := by
        apply Fin.ext
        simp [hz]
      rw [ez]

/-- The same trajectories and settings, and two bases of the same functions. -/
structure SameTrajs (T T' S S' : ℕ → ℕ → K) (d : String) (s s' : EstState K) : Prop where
  span : SameSpace T T' S S' s.model.bm s'.model.bm
  xvas : s'.xvas = s.xvas
  Lobs : s'.model.Lobs = s.model.Lobs
  dt : s'.model.dt = s.model.dt
  truncInd : s'.model.truncInd = s.model.truncInd
  obs : SameObs s.xvas s.model.Lobs d s.model.bm.dimObs
  dim : d ≠ "time_trunc" ∧ d ≠ "dim_basis_old"
  dimx : ∀ xva ∈ s.xvas, xva.dimx = s.model.bm.dimx
  xpos : 1 ≤ s.model.bm.dimObs
  tpos : 1 ≤ s.model.truncInd
  tle : ∀ xva ∈ s.xvas, s.model.truncInd ≤ xva.n
  some : SomeFeature s.xvas s.model.bm
  /-- combinations of the correlated functions that vanish at all frames have a vanishing time derivative there -/
  dot : Determined s.xvas s.model.bm

variable {T T' S S' : ℕ → ℕ → K} {d : String}

theorem SameTrajs.some' {s s' : EstState K} (h : SameTrajs T T' S S' d s s') : SomeFeature s'.xvas s'.model.bm := by
  obtain ⟨xva, hx, t, ht, k, hk, hne⟩ := h.some
  rw [h.span.symm.corrFeature xva t (h.span.nCorr ▸ hk)] at hne
  obtain ⟨l, hl, hl'⟩ := Finset.exists_ne_zero_of_sum_ne_zero hne
  exact ⟨xva, by rw [h.xvas]; exact hx, t, ht, l, by rw [h.span.nCorr']; exact mem_range.1 hl, right_ne_zero_of_mul hl'⟩

/-- The kept functions of the two bases are related by an invertible matrix. -/
theorem kept_mix [CharZero K] {xvas : List (Xva K)} {m m' : BasisModel K} (h : SameSpace T T' S S' m m') {b b' : ℕ}
    (hb : m.nDeriv = b) (hb' : m'.nDeriv = b') {r r' : ℕ} {P : Matrix (Fin r) (Fin b) K} {P' : Matrix (Fin r') (Fin b') K}
    (hP : Kept xvas m P) (hP' : Kept xvas m' P') {Q : Matrix (Fin r') (Fin r) K} {Q' : Matrix (Fin r) (Fin r') K}
    (hQ : Q = P' * (Matrix.of fun (k : Fin b') (l : Fin b) => S k l) * P.transpose)
    (hQ' : Q' = P * (Matrix.of fun (k : Fin b) (l : Fin b') => S' k l) * P'.transpose) :
    r' = r ∧ Q * Q' = 1 ∧ Q' * Q = 1 := by
  subst hb hb'
  -- one direction
  have key : ∀ {T T' S S' : ℕ → ℕ → K} {m m' : BasisModel K}, SameSpace T T' S S' m m' → ∀ {r r' : ℕ}
      {P : Matrix (Fin r) (Fin m.nDeriv) K} {P' : Matrix (Fin r') (Fin m'.nDeriv) K}, Kept xvas m P →
      ∀ xva ∈ xvas, ∀ t < xva.n, P'.mulVec (fun k => Spec.corrFeature m' xva t k) =
        (P' * (Matrix.of fun (k : Fin m'.nDeriv) (l : Fin m.nDeriv) => S k l) * P.transpose).mulVec
          (P.mulVec fun k => Spec.corrFeature m xva t k) := by
    intro T T' S S' m m' h r r' P P' hP xva hx t ht
    have e1 := hP.rebuild (fun k => Spec.corrFeature m xva t k) (fun w hw => by
      have := hw xva hx t ht
      rw [h.nCorr, Finset.sum_range] at this
      exact this)
    rw [← Matrix.mulVec_mulVec, e1, ← Matrix.mulVec_mulVec]
    congr 1
    funext k
    rw [h.corrFeature xva t k.2, Matrix.mulVec, dotProduct, Finset.sum_range]
    rfl
  have inv : ∀ {m : BasisModel K} {b r r' : ℕ} {P : Matrix (Fin r) (Fin b) K} {Q : Matrix (Fin r') (Fin r) K}
      {Q' : Matrix (Fin r) (Fin r') K}, Kept xvas m P →
      (∀ xva ∈ xvas, ∀ t < xva.n, (Q' * Q).mulVec (P.mulVec fun k => Spec.corrFeature m xva t k) =
        P.mulVec fun k => Spec.corrFeature m xva t k) → Q' * Q = 1 := by
    intro m b r r' P Q Q' hP hq
    have : Q' * Q - 1 = 0 := by
      ext i j
      have e := hP.indep (fun j => (Q' * Q - 1 : Matrix (Fin r) (Fin r) K) i j) (fun xva hx t ht => by
        have := congrFun (hq xva hx t ht) i
        have e2 : (Q' * Q - 1).mulVec (P.mulVec fun k => Spec.corrFeature m xva t k) i = 0 := by
          rw [Matrix.sub_mulVec, Pi.sub_apply, Matrix.one_mulVec, this, sub_self]
        exact e2)
      exact congrFun e j
    exact sub_eq_zero.1 this
  have k1 := key h (P' := P') hP
  have k2 := key h.symm (P' := P) hP'
  have i1 : Q' * Q = 1 := inv hP fun xva hx t ht => by
    rw [← Matrix.mulVec_mulVec, hQ, ← k1 xva hx t ht, hQ', ← k2 xva hx t ht]
  have i2 : Q * Q' = 1 := inv hP' fun xva hx t ht => by
    rw [← Matrix.mulVec_mulVec, hQ', ← k2 xva hx t ht, hQ, ← k1 xva hx t ht]
  refine ⟨?_, i2, i1⟩
  have t1 := congrArg Matrix.trace i1
  have t2 := congrArg Matrix.trace i2
  rw [Matrix.trace_mul_comm, t2, Matrix.trace_one, Matrix.trace_one, Fintype.card_fin, Fintype.card_fin] at t1
  exact_mod_cast t1

set_option maxHeartbeats 1000000 in
/-- **C141.** Also with a projection on the range of the basis, or when the derivatives of the constants are removed from
the basis, in one of the estimations or in both: the evaluated force and kernel depend on the functions that the basis
spans, not on the basis. -/
theorem C141_same_functions [CharZero K] {env : Env K} (hl : IsLoop env.loop) {method : String} {vectorize : Bool}
    (hf : IsCorrFn (env.corrFn method vectorize)) {s s' : EstState K} (h : SameTrajs T T' S S' d s s')
    {rankTol rankTol' : Option K} (hres : Resolved env rankTol s) (hres' : Resolved env rankTol' s')
    {km : String} {s1 s2 s3 : EstState K} (h1 : computeMeanForce env s = (s1, none))
    (h2 : computeCorrs env method vectorize true rankTol s1 = (s2, none))
    (h3 : computeKernelStep km (fun _ _ => none) s2 = (s3, none)) :
    ∃ s1' s2' s3', computeMeanForce env s' = (s1', none) ∧
      computeCorrs env method vectorize true rankTol' s1' = (s2', none) ∧
      computeKernelStep km (fun _ _ => none) s2' = (s3', none) ∧
      (∀ n pts, ∃ F F', forceEval s3.model none n pts = .ok F ∧ forceEval s3'.model none n pts = .ok F' ∧
        F'.rows = F.rows ∧ F'.cols = F.cols ∧ ∀ i, ∀ l < s.model.bm.dimObs, F'.get i l = F.get i l) ∧
      (∃ b x k k', s3.model.kernel = some ⟨b, x, k⟩ ∧ s3'.model.kernel = some ⟨b, x, k'⟩ ∧ k'.time = k.time ∧
        k'.kernel.len = k.kernel.len) ∧
      ∀ n pts, ∃ R R', kernelEvalAt s3.model n pts = .ok R ∧ kernelEvalAt s3'.model n pts = .ok R' ∧
        ∀ i, DeterminedAt s.xvas s.model.bm (pts i) → ∀ t, ∀ l < s.model.bm.dimObs, ∀ j, R' t l i j = R t l i j := by
  obtain ⟨s1', c, c', h1', hc, hc', c1, c2, c1', c2', hcc⟩ := force_of_mix (d := d) hl h.span.wf h.span.wf' h.xvas h.Lobs h.obs
    (fun e => by obtain ⟨xva, hx, -⟩ := h.some; rw [e] at hx; cases hx) (fun xva hx => h.tpos.trans (h.tle xva hx)) rfl
    h.span.nForce h.span.force_inv (fun xva t _ hk => h.span.forceFeature xva t hk) h1
  obtain ⟨e1, e2, e3, e4, e5, e6, e7⟩ := computeMeanForce_frame h1
  obtain ⟨f1, f2, f3, f4, f5, f6, f7⟩ := computeMeanForce_frame h1'
  rw [h.xvas] at f1
  rw [h.Lobs] at f3
  rw [h.dt] at f4
  rw [h.truncInd] at f5
  have hne : s.xvas ≠ [] := fun e => by obtain ⟨xva, hx, -⟩ := h.some; rw [e] at hx; cases hx
  have hsome' := h.some'
  rw [h.xvas] at hsome'
  have np : 1 ≤ Spec.nCorr s.model.bm := by obtain ⟨_, -, _, -, k, hk, -⟩ := h.some; omega
  have np' : 1 ≤ Spec.nCorr s'.model.bm := by obtain ⟨_, -, _, -, k, hk, -⟩ := hsome'; omega
  have r : CorrReady env method vectorize s1 d s.model.bm.dimObs c :=
    ⟨hl, hf, by rw [e2]; exact h.span.wf, by rw [e1, e3]; exact h.obs, h.dim,
    by rw [e1, e2]; exact h.dimx, hc, c1, by rw [e2]; exact c2, by rw [e2]; exact np, h.xpos, by rw [e5]; exact h.tpos,
    by rw [e1, e5]; exact h.tle, by rw [e1]; exact hne⟩
  have r' : CorrReady env method vectorize s1' d s.model.bm.dimObs c' :=
    ⟨hl, hf, by rw [f2]; exact h.span.wf', by rw [f1, f3]; exact h.obs, h.dim,
    by rw [f1, f2, h.span.dimx]; exact h.dimx, hc', c1', by rw [f2, h.span.nForce]; exact c2',
    by rw [f2]; exact np', h.xpos, by rw [f5]; exact h.tpos, by rw [f1, f5]; exact h.tle, by rw [f1]; exact hne⟩
  obtain ⟨b, hb⟩ : ∃ b, s.model.bm.nDeriv = b := ⟨_, rfl⟩
  obtain ⟨b', hb'⟩ : ∃ b', s'.model.bm.nDeriv = b' := ⟨_, rfl⟩
  have hcb : Spec.nCorr s.model.bm = b := h.span.nCorr.trans hb
  have hcb' : Spec.nCorr s'.model.bm = b' := h.span.nCorr'.trans hb'
  obtain ⟨C, Pr, q, P, hC, hP, s1a, s1b, N, ⟨D1, D2, hD1, hD2, hent⟩, hev⟩ := kept_corrs (rankTol := rankTol) r
    (by unfold Resolved at hres ⊢; rw [e1, e2, e6]; exact hres) (by rw [e1, e2]; exact h.some)
    (by rw [e2, h.span.nKernel, h.span.nCorr]) (by rw [e2, h.span.nKernelAt, h.span.nCorr]) (by rw [e2, h.span.constRows])
    (b := b) (by rw [e2, hcb])
  obtain ⟨C', Pr', q', P', hC', hP', s1a', s1b', N', ⟨D1', D2', hD1', hD2', hent'⟩, hev'⟩ := kept_corrs (rankTol := rankTol') r'
    (by unfold Resolved at hres' ⊢; rw [f1, f2, f6]; rw [h.xvas] at hres'; exact hres') (by rw [f1, f2]; exact hsome')
    (by rw [f2, h.span.symm.nKernel, h.span.nCorr']) (by rw [f2, h.span.symm.nKernelAt, h.span.nCorr'])
    (by rw [f2, h.span.symm.constRows]) (b := b') (by rw [f2, hcb'])
  rw [e1, e2] at hP
  rw [f1, f2] at hP'
  rw [h2] at hC
  obtain rfl := (Prod.mk.inj hC).1
  obtain ⟨C0, ⟨b0, x, k⟩, hC0, hs3, hk, hb0, hx⟩ := C42_method_recorded h3
  obtain rfl : C = C0 := Option.some.inj hC0
  dsimp only at hk hb0 hx
  rw [s1a] at hb0
  rw [s1b] at hx
  subst hx hb0
  obtain ⟨Q, hQ⟩ : ∃ Q, Q = P' * (Matrix.of fun (k : Fin b') (l : Fin b) => S k l) * P.transpose := ⟨_, rfl⟩
  obtain ⟨Q', hQ'⟩ : ∃ Q', Q' = P * (Matrix.of fun (k : Fin b) (l : Fin b') => S' k l) * P'.transpose := ⟨_, rfl⟩
  obtain ⟨hq, i1, i2⟩ := kept_mix h.span hb hb' hP hP' hQ hQ'
  subst hq
  have hdot : ∀ w, VanishesOnData s.xvas s.model.bm w → ∀ xva ∈ s.xvas, ∀ t < xva.n,
      ∑ k ∈ range b, w k * codeDot s.model.bm xva t k = 0 := fun w hw xva hx t ht => by
    rw [← h.dot w hw xva hx t ht, hcb]
    exact sum_congr rfl fun k _ => by rw [h.span.codeDot]
  have hfeat : ∀ w, VanishesOnData s.xvas s.model.bm w → ∀ xva ∈ s.xvas, ∀ t < xva.n,
      ∑ k ∈ range b, w k * Spec.corrFeature s.model.bm xva t k = 0 := fun w hw xva hx t ht => by
    rw [← hcb]; exact hw xva hx t ht
  have mixF : ∀ xva t, ∀ k < b', Spec.corrFeature s'.model.bm xva t k =
      ∑ l ∈ range b, S k l * Spec.corrFeature s.model.bm xva t l := fun xva t k hk => by
    rw [← hb]; exact h.span.corrFeature xva t (hb' ▸ hk)
  have mixD : ∀ xva t, ∀ k < b', codeDot s'.model.bm xva t k =
      ∑ l ∈ range b, S k l * codeDot s.model.bm xva t l := fun xva t k hk => by
    rw [← hb, h.span.symm.codeDot, h.span.corrFeatureDot xva t (hb' ▸ hk)]
    exact sum_congr rfl fun l _ => by rw [h.span.codeDot]
  have horth : ∀ xva t, ∀ j < s.model.bm.dimObs, Spec.ortho s'.model.bm s.model.Lobs (fun k j => c'.get [k, j]) xva t j =
      Spec.ortho s.model.bm s.model.Lobs (fun k j => c.get [k, j]) xva t j := fun xva t j hj => by
    unfold Spec.ortho
    rw [h.span.nForce, sum_congr rfl fun k hk => by rw [h.span.forceFeature xva t (mem_range.1 hk)], mix_dot' _ _ _ _ _]
    congr 1
    exact sum_congr rfl fun k hk => congrArg _ (hcc k (mem_range.1 hk) j hj).symm
  have orthM : ∀ {b : ℕ} (f : ℕ → Xva K → ℕ → K) (n : ℕ),
      (corrMat s.xvas f (fun j xva t => Spec.ortho s'.model.bm s.model.Lobs (fun k j => c'.get [k, j]) xva t j) n :
        Matrix (Fin b) (Fin s.model.bm.dimObs) K) =
      corrMat s.xvas f (fun j xva t => Spec.ortho s.model.bm s.model.Lobs (fun k j => c.get [k, j]) xva t j) n := by
    intro b f n
    ext p j
    exact congrArg (fun g => Spec.meanCorr s.xvas (f p) g n) (funext fun xva => funext fun t => horth xva t j j.2)
  simp only [e1, e2, e3] at hent
  simp only [f1, f2, f3] at hent'
  have hT : s1'.model.truncInd = s1.model.truncInd := by rw [f5, e5]
  rw [hT] at N' hent'
  have hQt : Q.transpose * Q'.transpose = 1 := by rw [← Matrix.transpose_mul, i2, Matrix.transpose_one]
  obtain ⟨k', hk', t1, t2, t3⟩ := solver_mix N N' (by rw [e5]; exact h.tpos) hD1 hD1' hD2 hD2' (P := Q) (Q := Q'.transpose) hQt
    (fun n hn => by
      rw [(hent n hn).1, (hent' n hn).1, corrMat_left _ n mixF, corrMat_right _ n mixF, hQ, Matrix.transpose_mul,
        Matrix.transpose_mul, Matrix.transpose_transpose]
      have a1 := hP.left hfeat (x := b) (fun k xva t => Spec.corrFeature s.model.bm xva t k) n
      have a2 := hP.right hfeat (x := b) (fun k xva t => Spec.corrFeature s.model.bm xva t k) n
      conv_lhs => rw [← a2, ← a1]
      simp only [Matrix.mul_assoc])
    (fun n hn => by
      rw [(hent n hn).2.1, (hent' n hn).2.1, orthM, corrMat_left _ n mixF, hQ]
      have a1 := hP.left hfeat (x := s.model.bm.dimObs) (fun j xva t => Spec.ortho s.model.bm s.model.Lobs (fun k j => c.get [k, j]) xva t j) n
      conv_lhs => rw [← a1]
      simp only [Matrix.mul_assoc])
    (fun n hn => by
      rw [(hent n hn).2.2.1, (hent' n hn).2.2.1, orthM, corrMat_left _ n mixD, hQ]
      have a1 := hP.left hdot (x := s.model.bm.dimObs) (fun j xva t => Spec.ortho s.model.bm s.model.Lobs (fun k j => c.get [k, j]) xva t j) n
      conv_lhs => rw [← a1]
      simp only [Matrix.mul_assoc])
    (fun n hn => by
      rw [(hent n hn).2.2.2, (hent' n hn).2.2.2, corrMat_left _ n mixD, corrMat_right _ n mixF, hQ, Matrix.transpose_mul,
        Matrix.transpose_mul, Matrix.transpose_transpose]
      have a1 := hP.left hdot (x := b) (fun k xva t => Spec.corrFeature s.model.bm xva t k) n
      have a2 := hP.right hfeat (x := b) (fun k xva t => codeDot s.model.bm xva t k) n
      conv_lhs => rw [← a2, ← a1]
      simp only [Matrix.mul_assoc]) hk
  have hT0 : s1'.model.truncInd ≠ 0 := by have := h.tpos; rw [f5]; omega
  have hstep := computeKernelStep_ok (s := { s1' with model := { s1'.model with Prange := Pr' }, corrs := some C' }) rfl s1a' s1b' hT0
    (km := km) (k0 := fun _ _ => none) (k := k') (by dsimp only; rw [hT, f4, ← e4]; exact hk')
  have bm3 : s3.model.bm = s.model.bm := by rw [hs3]; exact e2
  refine ⟨s1', _, _, h1', hC', hstep, fun n pts => ?_, ⟨_, _, k, k', by rw [hs3], rfl, t1, t2⟩, fun n pts => ?_⟩
  · obtain ⟨F, hF, F1, F2, F3⟩ := forceEval_ok (s := s3.model) (c := c) (d := d)
      ⟨by rw [hs3]; exact hc, c1, by rw [bm3]; exact c2, ⟨h.obs.1, h.obs.2.1⟩⟩ (by rw [bm3]; exact h.span.wf) n pts
    obtain ⟨F', hF', F1', F2', F3'⟩ := forceEval_ok
      (s := { s1'.model with Prange := Pr', method := some km, kernel := some ⟨_, _, k'⟩ })
      (c := c') (d := d) ⟨hc', c1', by dsimp only; rw [f2, h.span.nForce, h.span.dimObs]; exact c2', ⟨h.obs.1, h.obs.2.1⟩⟩
      (by dsimp only; rw [f2]; exact h.span.wf') n pts
    refine ⟨F, F', hF, hF', by rw [F1, F1'], ?_, fun i l hl => ?_⟩
    · rw [F2, F2']; dsimp only; rw [f2, bm3, h.span.dimObs]
    · rw [F3, F3', bm3]
      dsimp only
      rw [f2, h.span.nOut, sum_congr rfl fun k hk => by rw [h.span.basis _ _ (mem_range.1 hk)], mix_dot']
      refine sum_congr rfl fun k hk => ?_
      have hk := mem_range.1 hk
      rw [hcc k (by rw [nForce_wf h.span.wf]; split_ifs <;> omega) l hl, forceMix2_left h.span hk]
  · obtain ⟨R, hR, R1⟩ := hev km k n pts
    obtain ⟨R', hR', R1'⟩ := hev' km k' n pts
    refine ⟨R, R', by rw [hs3]; exact hR, hR', fun i hi t l hl j => ?_⟩
    rw [R1 t l hl, R1' t l hl, e2, f2]
    have hrow : ∀ p, k.kernel.get t p ⟨l, hl⟩ = ∑ p', Q p' p * k'.kernel.get t p' ⟨l, hl⟩ := by
      intro p
      rw [t3 t, Matrix.mul_apply]
      rfl
    obtain ⟨φ, hφ⟩ : ∃ φ : Fin b → K, φ = fun q : Fin b => Spec.kernelAt s.model.bm (pts i) q j := ⟨_, rfl⟩
    have hφ' : (fun q : Fin b' => Spec.kernelAt s'.model.bm (pts i) q j) =
        (Matrix.of fun (k : Fin b') (l : Fin b) => S k l).mulVec φ := by
      funext q
      rw [h.span.kernelAt (pts i) j (by rw [hb']; exact q.2), hb, Matrix.mulVec, dotProduct, Finset.sum_range, hφ]
      rfl
    have hre : P.transpose.mulVec (P.mulVec φ) = φ := hP.rebuild φ fun w hw => by
      have := hi w hw j
      rw [hcb, Finset.sum_range] at this
      rw [hφ]
      exact this
    have hQφ : P'.mulVec ((Matrix.of fun (k : Fin b') (l : Fin b) => S k l).mulVec φ) = Q.mulVec (P.mulVec φ) := by
      rw [hQ, ← Matrix.mulVec_mulVec, hre, ← Matrix.mulVec_mulVec]
    rw [hφ', hQφ, ← hφ]
    simp only [hrow, sum_mul]
    rw [sum_comm]
    refine sum_congr rfl fun p' _ => ?_
    rw [Matrix.mulVec, dotProduct, mul_sum]
    exact sum_congr rfl fun p _ => by ring

end

/-! ### Example: `1`, `x` with the projection, and the same functions with the derivative of the constant removed -/

namespace ProjectedEx

def removed : PointBasis ℚ where
  nOut := 2
  constRemoved := true
  basis := Ex.basis.basis
  deriv := fun x k d => Ex.basis.deriv x (k + 1) d
  hessian := fun x k d d' => Ex.basis.hessian x (k + 1) d d'
  antiderivative := Ex.basis.antiderivative

def state' : EstState ℚ :=
  { Ex.state false with model := { (Ex.state false).model with bm := ⟨.posGle, removed, 1, 1⟩ } }

def S (_ l : ℕ) : ℚ := if l = 1 then 1 else 0
def S' (k _ : ℕ) : ℚ := if k = 1 then 1 else 0

theorem sameSpace : SameSpace unitMix unitMix S S' (Ex.state true).model.bm state'.model.bm where
  cls := rfl
  dimx := rfl
  dimObs := rfl
  nOut := rfl
  wf := Ex.wf _
  wf' := fun _ => by decide
  inv := unitMix_inv _
  basis := fun pt k hk => (unitMix_sum hk fun l => Ex.basis.basis pt l).symm
  deriv := by
    intro pt k hk d
    obtain rfl : k = 0 := by change k < 1 at hk; omega
    show _ = ∑ l ∈ range 2, _
    simp [S, state', removed, Ex.state, Ex.model]
  deriv' := by
    intro pt k hk d
    change k < 2 at hk
    show _ = ∑ l ∈ range 1, _
    interval_cases k <;> simp [S', state', removed, Ex.state, Ex.model, Ex.basis]
  hessian := by
    intro pt k hk d d'
    obtain rfl : k = 0 := by change k < 1 at hk; omega
    show _ = ∑ l ∈ range 2, _
    simp [S, state', removed, Ex.state, Ex.model]
  hessian' := by
    intro pt k hk d d'
    change k < 2 at hk
    show _ = ∑ l ∈ range 1, _
    interval_cases k <;> simp [S', state', removed, Ex.state, Ex.model, Ex.basis]
  classes := .inl rfl

theorem vanish {w : ℕ → ℚ} (h : VanishesOnData (Ex.state true).xvas (Ex.state true).model.bm w) : w 1 = 0 := by
  have := h _ (List.mem_cons_self) 0 (by decide)
  change ∑ k ∈ range 2, _ = (0 : ℚ) at this
  simpa [sum_range_succ, Spec.corrFeature, Ex.state, Ex.model, Ex.basis,
    Ex.xva] using this

theorem sameTrajs : SameTrajs unitMix unitMix S S' "dim_x" (Ex.state true) state' where
  span := sameSpace
  xvas := rfl
  Lobs := rfl
  dt := rfl
  truncInd := rfl
  obs := Ex.sameObs
  dim := by decide
  dimx := by
    intro x hx
    simp only [Ex.state, Ex.xvas, List.mem_cons, List.not_mem_nil, or_false] at hx
    rcases hx with rfl | rfl <;> rfl
  xpos := by decide
  tpos := by decide
  tle := by
    intro x hx
    simp only [Ex.state, Ex.xvas, List.mem_cons, List.not_mem_nil, or_false] at hx
    rcases hx with rfl | rfl <;> simp [Ex.xva, Ex.state]
  some := ⟨_, List.mem_cons_self, 0, by decide, 1, by decide, by decide +kernel⟩
  dot := by
    intro w hw xva _ t _
    show ∑ k ∈ range 2, _ = 0
    rw [sum_range_succ, sum_range_one, vanish hw]
    simp [Spec.corrFeatureDot, Ex.state, Ex.model, Ex.basis]

theorem determined (pt : ℕ → ℚ) : DeterminedAt (Ex.state true).xvas (Ex.state true).model.bm pt := by
  intro w hw d
  show ∑ k ∈ range 2, _ = 0
  rw [sum_range_succ, sum_range_one, vanish hw]
  simp [Spec.kernelAt, Ex.state, Ex.model, Ex.basis]

theorem resolved : Resolved Ex.env none (Ex.state true) := by
  unfold Resolved
  rw [if_pos (show (Ex.state true).model.rankProjection = true from rfl)]
  have hM : gramZero (Ex.state true).xvas (Ex.state true).model.bm 2 = !![0, 0; 0, 32 / 5] := by decide +kernel
  show IsSvdOf (gramZero _ _ 2) _ ∧ 0 ≤ rankTolerance _ _ (Ex.env.svd 2 (gramZero _ _ 2)).2 ∧ ∀ i : Fin 2, _
  rw [hM]
  refine ⟨⟨by decide +kernel, by decide +kernel, ?_, fun _ => 1, fun _ => .inl rfl, by decide +kernel⟩, by decide +kernel, ?_⟩
  · intro i j
    revert i j
    decide +kernel
  · show ∀ i : Fin 2, (Ex.env.svd 2 (gramZero _ _ 2)).2 i ≤ rankTolerance _ _ (Ex.env.svd 2 (gramZero _ _ 2)).2 →
      (Ex.env.svd 2 (gramZero _ _ 2)).2 i = 0
    rw [hM]
    decide +kernel

theorem resolved' : Resolved Ex.env none state' := by
  unfold Resolved
  rw [if_neg (by decide)]
  intro w h k hk
  obtain rfl : k = 0 := by change k < 1 at hk; omega
  have := h _ (List.mem_cons_self) 0 (by decide)
  change ∑ k ∈ range 1, _ = (0 : ℚ) at this
  simpa [Spec.corrFeature, state', removed, Ex.state, Ex.model, Ex.basis,
    Ex.xva] using this

theorem step1 : (computeMeanForce Ex.env (Ex.state true)).2 = none := by decide +kernel
theorem step2 : (computeCorrs Ex.env "direct" false true none (computeMeanForce Ex.env (Ex.state true)).1).2 = none := by
  decide +kernel
theorem step3 : (computeKernelStep "rectangular" (fun _ _ => none)
    (computeCorrs Ex.env "direct" false true none (computeMeanForce Ex.env (Ex.state true)).1).1).2 = none := by
  decide +kernel

example := C141_same_functions Ex.isLoop Ex.isCorrFn sameTrajs resolved resolved' (Prod.ext rfl step1) (Prod.ext rfl step2)
  (Prod.ext rfl step3)

end ProjectedEx

/-! ### Away from what the data determine, the kernel depends on the basis

Two dimensions, the functions `x`, `y`, and a movement along the direction `(3, 4)`. The second basis is `x`, `9/16 y`. -/

namespace UndeterminedEx

/-- `x` and `c y`. -/
def basis (c : ℚ) : PointBasis ℚ :=
  ⟨2, false, fun x k => if k = 0 then x 0 else c * x 1,
    fun _ k d => if k = d then (if k = 0 then 1 else c) else 0, fun _ _ _ _ => 0, fun _ _ => 0⟩

def dir (j : ℕ) : ℚ := if j = 0 then 3 else 4

def xva : Xva ℚ :=
  ⟨3, 2, fun k => k, fun name t j => if name = "x" then dir j * t ^ 2 + j else if name = "v" then dir j * (t + 1) else dir j * t ^ 3, id,
    fun _ => 2⟩

/-- Right for the two matrices of rank one that occur, with eigenvectors `(3, 4)` and `(4, 3)`. -/
def svd : Svd ℚ := fun _ B =>
  (Matrix.of fun i j =>
    let lt := B ⟨0, i.pos⟩ ⟨0, i.pos⟩ < B (Fin.rev ⟨0, i.pos⟩) (Fin.rev ⟨0, i.pos⟩)
    if (i : ℕ) = j then (if lt then 3 / 5 else 4 / 5)
    else (if lt then 4 / 5 else 3 / 5) * (if (i : ℕ) = 0 then -1 else 1), fun i => if (i : ℕ) = 0 then ∑ j, B j j else 0)

def env : Env ℚ := ⟨svd, 0, loopSerial, fun _ _ _ _ N a b t => correlationDirectND N a b t⟩

def state (c : ℚ) : EstState ℚ where
  model := ⟨⟨.posGle, basis c, 2, 2⟩, "a", 1, 2, none, none, none, true, none, none, none, none, none⟩
  xvas := [xva]
  corrs := none
  saveall := false

def T (c : ℚ) (k l : ℕ) : ℚ := if k = l then (if k = 0 then 1 else c) else 0

theorem sameSpace : SameSpace (T (9 / 16)) (T (16 / 9)) (T (9 / 16)) (T (16 / 9)) (state 1).model.bm (state (9 / 16)).model.bm where
  cls := rfl
  dimx := rfl
  dimObs := rfl
  nOut := rfl
  wf := fun h => nomatch h
  wf' := fun h => nomatch h
  inv := by
    intro i hi k hk
    change i < 2 at hi
    change k < 2 at hk
    show ∑ j ∈ range 2, _ = _
    interval_cases i <;> interval_cases k <;> simp [T]
  basis := by
    intro pt k hk
    change k < 2 at hk
    show _ = ∑ j ∈ range 2, _
    interval_cases k <;> simp [T, sum_range_succ, state, basis]
  deriv := by
    intro pt k hk d
    change k < 2 at hk
    show _ = ∑ j ∈ range 2, _
    simp only [T, sum_range_succ, sum_range_zero, state, basis]
    interval_cases k <;> rcases d with _ | _ | d <;> simp
  deriv' := by
    intro pt k hk d
    change k < 2 at hk
    show _ = ∑ j ∈ range 2, _
    simp only [T, sum_range_succ, sum_range_zero, state, basis]
    interval_cases k <;> rcases d with _ | _ | d <;> simp
  hessian := by
    intro pt k hk d d'
    simp [state, basis]
  hessian' := by
    intro pt k hk d d'
    simp [state, basis]
  classes := .inl rfl

theorem sameTrajs : SameTrajs (T (9 / 16)) (T (16 / 9)) (T (9 / 16)) (T (16 / 9)) "dim_x" (state 1) (state (9 / 16)) where
  span := sameSpace
  xvas := rfl
  Lobs := rfl
  dt := rfl
  truncInd := rfl
  obs := by
    refine ⟨by decide, by decide, fun x hx => ?_⟩
    simp only [state, List.mem_cons, List.not_mem_nil, or_false] at hx
    subst hx
    exact ⟨rfl, rfl⟩
  dim := by decide
  dimx := by
    intro x hx
    simp only [state, List.mem_cons, List.not_mem_nil, or_false] at hx
    subst hx
    rfl
  xpos := by decide
  tpos := by decide
  tle := by
    intro x hx
    simp only [state, List.mem_cons, List.not_mem_nil, or_false] at hx
    subst hx
    simp [xva, state]
  some := ⟨_, List.mem_cons_self, 0, by decide, 1, by decide, by decide +kernel⟩
  dot := by
    intro w hw x hx t ht
    have := hw _ (List.mem_cons_self) 0 (by decide)
    simp only [state, List.mem_cons, List.not_mem_nil, or_false] at hx
    subst hx
    change ∑ k ∈ range 2, _ = (0 : ℚ) at this
    show ∑ k ∈ range 2, _ = (0 : ℚ)
    simp [sum_range_succ, Spec.corrFeature, state, basis, xva, dir] at this
    simp [sum_range_succ, Spec.corrFeatureDot, state, basis, xva, dir]
    linear_combination (t : ℚ) ^ 3 * this

theorem resolved (c : ℚ) (hc : c = 1 ∨ c = 9 / 16) : Resolved env none (state c) := by
  unfold Resolved
  rw [if_pos (show (state c).model.rankProjection = true from rfl)]
  show IsSvdOf (gramZero _ _ 2) _ ∧ 0 ≤ rankTolerance _ _ (env.svd 2 (gramZero _ _ 2)).2 ∧
    ∀ i : Fin 2, (env.svd 2 (gramZero _ _ 2)).2 i ≤ rankTolerance _ _ (env.svd 2 (gramZero _ _ 2)).2 →
      (env.svd 2 (gramZero _ _ 2)).2 i = 0
  rcases hc with rfl | rfl
  · refine ⟨⟨by decide +kernel, by decide +kernel, ?_, fun _ => 1, fun _ => .inl rfl, by decide +kernel⟩, by decide +kernel,
      by decide +kernel⟩
    unfold Antitone
    decide +kernel
  · refine ⟨⟨by decide +kernel, by decide +kernel, ?_, fun _ => 1, fun _ => .inl rfl, by decide +kernel⟩, by decide +kernel,
      by decide +kernel⟩
    unfold Antitone
    decide +kernel

def all (c : ℚ) : EstState ℚ :=
  (computeKernelStep "rectangular" (fun _ _ => none)
    (computeCorrs env "direct" false true none (computeMeanForce env (state c)).1).1).1

def value (c : ℚ) : Option ℚ :=
  match kernelEvalAt (all c).model 1 (fun _ _ => 0) with
  | .ok R => some (R 0 0 0 0)
  | .error _ => none

theorem values : value 1 ≠ none ∧ value (9 / 16) ≠ none ∧ value 1 ≠ value (9 / 16) := by decide +kernel

end UndeterminedEx

open UndeterminedEx in
/-- Without `DeterminedAt`, the conclusion of `C141_same_functions` on the kernel does not follow from the other conditions. -/
theorem C141_undetermined_fails : ∃ (env : Env ℚ) (s s' s1 s2 s3 s1' s2' s3' : EstState ℚ) (T T' : ℕ → ℕ → ℚ)
    (R R' : ℕ → ℕ → ℕ → ℕ → ℚ), IsLoop env.loop ∧ IsCorrFn (env.corrFn "direct" false) ∧ SameTrajs T T' T T' "dim_x" s s' ∧
    Resolved env none s ∧ Resolved env none s' ∧ computeMeanForce env s = (s1, none) ∧
    computeCorrs env "direct" false true none s1 = (s2, none) ∧
    computeKernelStep "rectangular" (fun _ _ => none) s2 = (s3, none) ∧ computeMeanForce env s' = (s1', none) ∧
    computeCorrs env "direct" false true none s1' = (s2', none) ∧
    computeKernelStep "rectangular" (fun _ _ => none) s2' = (s3', none) ∧
    kernelEvalAt s3.model 1 (fun _ _ => 0) = .ok R ∧ kernelEvalAt s3'.model 1 (fun _ _ => 0) = .ok R' ∧
    R' 0 0 0 0 ≠ R 0 0 0 0 := by
  obtain ⟨v, v', hne⟩ := values
  unfold value at v v' hne
  rcases e : kernelEvalAt (all 1).model 1 (fun _ _ => 0) with _ | R
  · rw [e] at v; exact absurd rfl v
  rcases e' : kernelEvalAt (all (9 / 16)).model 1 (fun _ _ => 0) with _ | R'
  · rw [e'] at v'; exact absurd rfl v'
  rw [e, e'] at hne
  exact ⟨UndeterminedEx.env, state 1, state (9 / 16), _, _, _, _, _, _, _, _, R, R', .inl rfl, Ex.isCorrFn, sameTrajs, resolved 1 (.inl rfl),
    resolved _ (.inr rfl), Prod.ext rfl (by decide +kernel), Prod.ext rfl (by decide +kernel), Prod.ext rfl (by decide +kernel),
    Prod.ext rfl (by decide +kernel), Prod.ext rfl (by decide +kernel), Prod.ext rfl (by decide +kernel), e, e',
    fun h => hne (congrArg some h.symm)⟩

end Verif
