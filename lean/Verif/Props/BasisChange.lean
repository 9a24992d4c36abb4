import Verif.Lemmas.Agree
import Verif.Props.KernelApi
import Verif.Props.Pmf
import Verif.Props.EvalMore2
import Verif.Props.EstimatorExamples

/-!
# Independence of the choice of basis functions, from the trajectories to the evaluated force and kernel (C138)
-/

namespace Verif

set_option linter.unusedSectionVars false

open LArr Finset

namespace Spec

variable {K : Type*} [CommRing K]

/-- `T'` is the inverse of the matrix `T` of size `n`. -/
def IsInv (n : ℕ) (T T' : ℕ → ℕ → K) : Prop :=
  ∀ i < n, ∀ k < n, ∑ l ∈ range n, T i l * T' l k = if i = k then 1 else 0

/-- The functions of the basis of `m'` are the combinations `T` of those of `m`, with an invertible `T`, and so are their
derivatives; everything else is the same. No function is removed from the derivatives. -/
structure SameSpan (T T' : ℕ → ℕ → K) (m m' : BasisModel K) : Prop where
  cls : m'.cls = m.cls
  dimx : m'.dimx = m.dimx
  dimObs : m'.dimObs = m.dimObs
  nOut : m'.basis.nOut = m.basis.nOut
  full : m.basis.constRemoved = false
  full' : m'.basis.constRemoved = false
  inv : IsInv m.basis.nOut T T'
  basis : ∀ pt, ∀ k < m.basis.nOut, m'.basis.basis pt k = ∑ l ∈ range m.basis.nOut, T k l * m.basis.basis pt l
  deriv : ∀ pt, ∀ k < m.basis.nOut, ∀ d, m'.basis.deriv pt k d = ∑ l ∈ range m.basis.nOut, T k l * m.basis.deriv pt l d
  hessian : ∀ pt, ∀ k < m.basis.nOut, ∀ d d', m'.basis.hessian pt k d d' =
    ∑ l ∈ range m.basis.nOut, T k l * m.basis.hessian pt l d d'

end Spec

open Spec (IsInv SameSpan)

section
variable {K : Type*} [CommRing K]

/-- The matrix of two blocks, the first of size `a`. -/
def blockMix (a : ℕ) (S T : ℕ → ℕ → K) (k l : ℕ) : K :=
  if k < a then (if l < a then S k l else 0) else if l < a then 0 else T (k - a) (l - a)

theorem blockMix_sum (a c : ℕ) (S T : ℕ → ℕ → K) (k : ℕ) (f : ℕ → K) :
    ∑ l ∈ range (a + c), blockMix a S T k l * f l =
      if k < a then ∑ l ∈ range a, S k l * f l else ∑ l ∈ range c, T (k - a) l * f (a + l) := by
  rw [sum_range_add]
  by_cases hk : k < a
  · have e : ∑ l ∈ range c, blockMix a S T k (a + l) * f (a + l) = 0 :=
      sum_eq_zero fun l _ => by rw [blockMix, if_pos hk, if_neg (by omega), zero_mul]
    rw [if_pos hk, e, add_zero]
    exact sum_congr rfl fun l hl => by rw [blockMix, if_pos hk, if_pos (mem_range.1 hl)]
  · have e : ∑ l ∈ range a, blockMix a S T k l * f l = 0 :=
      sum_eq_zero fun l hl => by rw [blockMix, if_neg hk, if_pos (mem_range.1 hl), zero_mul]
    rw [if_neg hk, e, zero_add]
    exact sum_congr rfl fun l _ => by rw [blockMix, if_neg hk, if_neg (by omega), Nat.add_sub_cancel_left]

theorem blockMix_inv {a c : ℕ} {S S' T T' : ℕ → ℕ → K} (h : IsInv a S S') (h' : IsInv c T T') :
    IsInv (a + c) (blockMix a S T) (blockMix a S' T') := by
  intro i hi k hk
  rw [blockMix_sum]
  by_cases h1 : i < a
  · rw [if_pos h1]
    by_cases h2 : k < a
    · rw [← h i h1 k h2]
      exact sum_congr rfl fun l hl => by rw [blockMix, if_pos (mem_range.1 hl), if_pos h2]
    · rw [if_neg (by omega)]
      exact sum_eq_zero fun l hl => by rw [blockMix, if_pos (mem_range.1 hl), if_neg h2, mul_zero]
  · rw [if_neg h1]
    by_cases h2 : k < a
    · rw [if_neg (by omega)]
      exact sum_eq_zero fun l hl => by rw [blockMix, if_neg (by omega), if_pos h2, mul_zero]
    · have := h' (i - a) (by omega) (k - a) (by omega)
      rw [show (if i = k then (1 : K) else 0) = if i - a = k - a then 1 else 0 by
        by_cases e : i = k
        · rw [if_pos e, if_pos (by rw [e])]
        · rw [if_neg e, if_neg (by omega)], ← this]
      exact sum_congr rfl fun l hl => by
        rw [blockMix, if_neg (by omega), if_neg h2, Nat.add_sub_cancel_left]

/-- The identity matrix. -/
def unitMix (k l : ℕ) : K := if k = l then 1 else 0

theorem unitMix_sum {a k : ℕ} (hk : k < a) (f : ℕ → K) : ∑ l ∈ range a, unitMix k l * f l = f k := by
  rw [sum_eq_single k]
  · simp [unitMix]
  · intro l _ h
    rw [unitMix, if_neg h.symm, zero_mul]
  · intro h
    exact absurd (mem_range.2 hk) h

theorem unitMix_inv (a : ℕ) : IsInv a (unitMix (K := K)) unitMix := fun _ hi k _ => unitMix_sum hi fun l => unitMix l k

/-- How the functions of the mean force mix. -/
def forceMix (m : BasisModel K) (T : ℕ → ℕ → K) : ℕ → ℕ → K :=
  if m.cls = .withFriction then blockMix m.basis.nOut T T else T

/-- How the functions mix whose correlations are computed. -/
def corrMix (m : BasisModel K) (T : ℕ → ℕ → K) : ℕ → ℕ → K :=
  match m.cls with
  | .hybrid => blockMix m.dimx unitMix T
  | .constKernel => unitMix
  | _ => T

variable {T T' : ℕ → ℕ → K} {m m' : BasisModel K}

theorem Spec.SameSpan.nForce (h : SameSpan T T' m m') : m'.nForce = m.nForce := by
  unfold BasisModel.nForce
  rw [h.cls, h.full, h.full', h.nOut, h.dimx]

theorem Spec.SameSpan.nCorr (h : SameSpan T T' m m') : Spec.nCorr m' = Spec.nCorr m := by
  unfold Spec.nCorr
  rw [h.cls, h.full, h.full', h.nOut, h.dimx]

theorem Spec.SameSpan.nKernelAt (h : SameSpan T T' m m') : Spec.nKernelAt m' = Spec.nKernelAt m := by
  unfold Spec.nKernelAt
  rw [h.cls, h.full, h.full', h.nOut, h.dimx, h.dimObs]

theorem Spec.SameSpan.nForce_eq (h : SameSpan T T' m m') :
    m.nForce = if m.cls = .withFriction then m.basis.nOut + m.basis.nOut else m.basis.nOut := by
  unfold BasisModel.nForce
  cases m.cls <;> simp [h.full, two_mul]

theorem Spec.SameSpan.nCorr_eq (h : SameSpan T T' m m') :
    Spec.nCorr m = match m.cls with
      | .hybrid => m.dimx + m.basis.nOut
      | .constKernel => m.dimx
      | _ => m.basis.nOut := by
  unfold Spec.nCorr
  cases m.cls <;> simp [h.full]

theorem Spec.SameSpan.force_inv (h : SameSpan T T' m m') : IsInv m.nForce (forceMix m T) (forceMix m T') := by
  rw [h.nForce_eq]
  unfold forceMix
  split_ifs
  · exact blockMix_inv h.inv h.inv
  · exact h.inv

theorem Spec.SameSpan.corr_inv (h : SameSpan T T' m m') : IsInv (Spec.nCorr m) (corrMix m T) (corrMix m T') := by
  rw [h.nCorr_eq]
  unfold corrMix
  cases m.cls
  · exact h.inv
  · exact h.inv
  · exact h.inv
  · exact unitMix_inv _
  · exact blockMix_inv (unitMix_inv _) h.inv
  · exact h.inv

theorem mix_dot (n d : ℕ) (c : ℕ → K) (D : ℕ → ℕ → K) (v : ℕ → K) :
    ∑ j ∈ range d, (∑ l ∈ range n, c l * D l j) * v j = ∑ l ∈ range n, c l * ∑ j ∈ range d, D l j * v j := by
  simp only [sum_mul, mul_sum]
  rw [sum_comm]
  exact sum_congr rfl fun _ _ => sum_congr rfl fun _ _ => mul_assoc _ _ _

theorem mix_dot' (n d : ℕ) (D : ℕ → ℕ → K) (f : ℕ → K) (v : ℕ → K) :
    ∑ j ∈ range d, (∑ l ∈ range n, D j l * f l) * v j = ∑ l ∈ range n, f l * ∑ j ∈ range d, D j l * v j := by
  simp only [sum_mul, mul_sum]
  rw [sum_comm]
  exact sum_congr rfl fun _ _ => sum_congr rfl fun _ _ => by ring

theorem mix_dot2 (n d e : ℕ) (c : ℕ → K) (D : ℕ → ℕ → ℕ → K) (v w : ℕ → K) :
    ∑ j ∈ range d, ∑ i ∈ range e, (∑ l ∈ range n, c l * D l j i) * v j * w i =
      ∑ l ∈ range n, c l * ∑ j ∈ range d, ∑ i ∈ range e, D l j i * v j * w i := by
  rw [sum_congr rfl fun j _ => show ∑ i ∈ range e, (∑ l ∈ range n, c l * D l j i) * v j * w i =
    ∑ l ∈ range n, c l * ∑ i ∈ range e, D l j i * v j * w i by
      rw [← mix_dot n e c (fun l i => D l j i * v j) w]
      exact sum_congr rfl fun i _ => by rw [sum_mul, sum_congr rfl fun l _ => mul_assoc _ _ _], sum_comm]
  exact sum_congr rfl fun l _ => by rw [mul_sum]

theorem Spec.SameSpan.forceFeature (h : SameSpan T T' m m') (xva : Xva K) (t : ℕ) {k : ℕ} (hk : k < m.nForce) :
    Spec.forceFeature m' xva t k = ∑ l ∈ range m.nForce, forceMix m T k l * Spec.forceFeature m xva t l := by
  rw [h.nForce_eq] at hk ⊢
  unfold Spec.forceFeature forceMix
  rw [h.cls, h.nOut]
  by_cases hc : m.cls = .withFriction
  · simp only [hc, if_true, true_and] at hk ⊢
    rw [blockMix_sum]
    by_cases h1 : k < m.basis.nOut
    · rw [if_pos h1, if_neg (by omega), h.basis _ _ h1]
      exact sum_congr rfl fun l hl => by rw [if_neg (by have := mem_range.1 hl; omega)]
    · rw [if_neg h1, if_pos (by omega), sum_congr rfl fun d _ => by rw [h.deriv _ _ (by omega) d], mix_dot]
      exact sum_congr rfl fun l _ => by rw [if_pos (by omega), Nat.add_sub_cancel_left]
  · simp only [hc, if_false, false_and] at hk ⊢
    exact h.basis _ _ hk

theorem Spec.SameSpan.corrFeature (h : SameSpan T T' m m') (xva : Xva K) (t : ℕ) {k : ℕ} (hk : k < Spec.nCorr m) :
    Spec.corrFeature m' xva t k = ∑ l ∈ range (Spec.nCorr m), corrMix m T k l * Spec.corrFeature m xva t l := by
  rw [h.nCorr_eq] at hk ⊢
  unfold Spec.corrFeature corrMix
  rw [h.cls, h.dimx]
  have hgrad : ∀ k < m.basis.nOut, ∑ d ∈ range xva.dimx, m'.basis.deriv (xva.data "x" t) k d * xva.data "v" t d =
      ∑ l ∈ range m.basis.nOut, T k l * ∑ d ∈ range xva.dimx, m.basis.deriv (xva.data "x" t) l d * xva.data "v" t d := by
    intro k hk
    rw [sum_congr rfl fun d _ => by rw [h.deriv _ _ hk d], mix_dot]
  cases hc : m.cls <;> simp only [hc] at hk ⊢
  · exact hgrad k hk
  · exact hgrad k hk
  · exact h.basis _ _ hk
  · rw [unitMix_sum hk]
  · rw [blockMix_sum]
    by_cases h1 : k < m.dimx
    · rw [if_pos h1, if_pos h1, unitMix_sum h1, if_pos h1]
    · rw [if_neg h1, if_neg h1, h.basis _ _ (by omega)]
      exact sum_congr rfl fun l _ => by rw [if_neg (by omega), Nat.add_sub_cancel_left]
  · exact h.basis _ _ hk

theorem Spec.SameSpan.codeDot (h : SameSpan T T' m m') (xva : Xva K) (t : ℕ) {k : ℕ} (hk : k < Spec.nCorr m) :
    codeDot m' xva t k = ∑ l ∈ range (Spec.nCorr m), corrMix m T k l * codeDot m xva t l := by
  rw [h.nCorr_eq] at hk ⊢
  unfold Verif.codeDot Spec.corrFeatureDot corrMix
  rw [h.cls, h.dimx]
  have hgrad : ∀ (w : ℕ → K) (t : ℕ), ∀ k < m.basis.nOut, ∑ d ∈ range xva.dimx, m'.basis.deriv (xva.data "x" t) k d * w d =
      ∑ l ∈ range m.basis.nOut, T k l * ∑ d ∈ range xva.dimx, m.basis.deriv (xva.data "x" t) l d * w d := by
    intro w t k hk
    rw [sum_congr rfl fun d _ => by rw [h.deriv _ _ hk d], mix_dot]
  have hhess : ∀ k < m.basis.nOut, ∑ d ∈ range xva.dimx, ∑ d' ∈ range xva.dimx,
      m'.basis.hessian (xva.data "x" t) k d d' * xva.data "v" t d * xva.data "v" t d' =
      ∑ l ∈ range m.basis.nOut, T k l * ∑ d ∈ range xva.dimx, ∑ d' ∈ range xva.dimx,
        m.basis.hessian (xva.data "x" t) l d d' * xva.data "v" t d * xva.data "v" t d' := by
    intro k hk
    rw [← mix_dot2]
    exact sum_congr rfl fun d _ => sum_congr rfl fun d' _ => by rw [h.hessian _ _ hk d d']
  cases hc : m.cls <;> simp only [hc] at hk ⊢
  · rw [hgrad _ _ _ hk, hhess _ hk, ← sum_add_distrib]
    exact sum_congr rfl fun l _ => (mul_add _ _ _).symm
  · rw [hgrad _ _ _ hk, hhess _ hk, ← sum_add_distrib]
    exact sum_congr rfl fun l _ => (mul_add _ _ _).symm
  · exact hgrad _ _ _ hk
  · rw [unitMix_sum hk]
  · rw [blockMix_sum]
    by_cases h1 : k < m.dimx
    · rw [if_pos h1, if_pos h1, unitMix_sum h1, if_pos h1]
    · rw [if_neg h1, if_neg h1, sum_congr rfl fun t _ => hgrad (xva.data "v" t) t _ (by omega), sum_comm]
      refine sum_congr rfl fun l _ => ?_
      rw [if_neg (by omega), Nat.add_sub_cancel_left, mul_sum]
  · exact hgrad _ _ _ hk

/-- The rows of the kernel that multiply functions of the position mix like these functions. -/
theorem Spec.SameSpan.kernelAt (h : SameSpan T T' m m') (hc : m.cls = .hybrid → m.dimx = 1) (pt : ℕ → K) (d : ℕ) {k : ℕ} (hk : k < Spec.nKernelAt m) :
    Spec.kernelAt m' pt k d = ∑ l ∈ range (Spec.nKernelAt m),
      corrMix m T (k + Spec.constRows m) (l + Spec.constRows m) * Spec.kernelAt m pt l d := by
  unfold Spec.kernelAt corrMix Spec.constRows
  unfold Spec.nKernelAt at hk ⊢
  rw [h.cls]
  cases hcl : m.cls <;> simp only [hcl, h.full, reduceCtorEq, if_false, if_true, add_zero, Bool.false_eq_true, Nat.sub_zero] at hk ⊢
  · exact h.deriv _ _ hk d
  · exact h.deriv _ _ hk d
  · exact h.basis _ _ hk
  · rw [unitMix_sum hk]
  · rw [h.basis _ _ hk, hc hcl]
    exact sum_congr rfl fun l _ => by rw [blockMix, if_neg (by omega), if_neg (by omega)]; simp
  · exact h.basis _ _ hk

theorem Spec.SameSpan.corrMix_zero (hc : m.cls = .hybrid → m.dimx = 1) {k l : ℕ} (hk : k < Spec.constRows m) :
    corrMix m T k (l + Spec.constRows m) = 0 := by
  unfold Spec.constRows at hk ⊢
  unfold corrMix
  split_ifs at hk ⊢ with h
  · rw [h]
    dsimp only
    rw [blockMix, if_pos (by rw [hc h]; omega), if_neg (by rw [hc h]; omega)]
  · omega

end

section
variable {K : Type*} [Field K]

theorem corr_mix (N p : ℕ) (c : ℕ → K) (f : ℕ → ℕ → K) (g : ℕ → K) (n : ℕ) :
    Spec.corr N (fun t => ∑ l ∈ range p, c l * f l t) g n = ∑ l ∈ range p, c l * Spec.corr N (f l) g n := by
  unfold Spec.corr
  rw [mix_dot p (N - n) c (fun l t => f l t) fun t => g (t + n), sum_div]
  exact sum_congr rfl fun l _ => mul_div_assoc _ _ _

theorem corr_mix_right (N p : ℕ) (c : ℕ → K) (f : ℕ → K) (g : ℕ → ℕ → K) (n : ℕ) :
    Spec.corr N f (fun t => ∑ l ∈ range p, c l * g l t) n = ∑ l ∈ range p, c l * Spec.corr N f (g l) n := by
  unfold Spec.corr
  rw [sum_congr rfl fun t _ => mul_comm _ _, mix_dot p (N - n) c (fun l t => g l (t + n)) f, sum_div]
  refine sum_congr rfl fun l _ => ?_
  rw [mul_div_assoc, sum_congr rfl fun t _ => mul_comm _ _]

theorem weightedMean_mix (xvas : List (Xva K)) (p : ℕ) (c : ℕ → K) (F : ℕ → Xva K → K) :
    Spec.weightedMean (xvas.map fun xva => (xva.n, ∑ l ∈ range p, c l * F l xva)) =
      ∑ l ∈ range p, c l * Spec.weightedMean (xvas.map fun xva => (xva.n, F l xva)) := by
  unfold Spec.weightedMean
  simp only [List.map_map, Function.comp_def]
  have key : ∀ xs : List (Xva K), (xs.map fun xva => (xva.n : K) * ∑ l ∈ range p, c l * F l xva).sum =
      ∑ l ∈ range p, c l * (xs.map fun xva => (xva.n : K) * F l xva).sum := by
    intro xs
    induction xs with
    | nil => simp
    | cons y ys ih =>
      simp only [List.map_cons, List.sum_cons, mul_add, sum_add_distrib]
      rw [ih, mul_sum]
      congr 1
      exact sum_congr rfl fun l _ => by ring
  rw [key, sum_div]
  exact sum_congr rfl fun l _ => mul_div_assoc _ _ _

theorem meanCorr_mix (xvas : List (Xva K)) (p : ℕ) (c : ℕ → K) (f : ℕ → Xva K → ℕ → K) (g : Xva K → ℕ → K) (n : ℕ) :
    Spec.meanCorr xvas (fun xva t => ∑ l ∈ range p, c l * f l xva t) g n =
      ∑ l ∈ range p, c l * Spec.meanCorr xvas (f l) g n := by
  unfold Spec.meanCorr
  simp only [corr_mix]
  exact weightedMean_mix xvas p c fun l xva => Spec.corr xva.n (f l xva) (g xva) n

theorem meanCorr_mix_right (xvas : List (Xva K)) (p : ℕ) (c : ℕ → K) (f : Xva K → ℕ → K) (g : ℕ → Xva K → ℕ → K) (n : ℕ) :
    Spec.meanCorr xvas f (fun xva t => ∑ l ∈ range p, c l * g l xva t) n =
      ∑ l ∈ range p, c l * Spec.meanCorr xvas f (g l) n := by
  unfold Spec.meanCorr
  simp only [corr_mix_right]
  exact weightedMean_mix xvas p c fun l xva => Spec.corr xva.n (f xva) (g l xva) n

theorem pooled_mix (xvas : List (Xva K)) (p : ℕ) (c : ℕ → K) (f : ℕ → Xva K → ℕ → K) (g : Xva K → ℕ → K) :
    Spec.pooledSum (xvas.map fun xva => (xva.n, fun t => (∑ l ∈ range p, c l * f l xva t) * g xva t)) =
      ∑ l ∈ range p, c l * Spec.pooledSum (xvas.map fun xva => (xva.n, fun t => f l xva t * g xva t)) := by
  have e : (fun xva : Xva K => (xva.n, fun t => (∑ l ∈ range p, c l * f l xva t) * g xva t)) =
      fun xva => (xva.n, fun t => ∑ l ∈ range p, f l xva t * g xva t * c l) := by
    funext xva
    congr 1
    funext t
    rw [sum_mul]
    exact sum_congr rfl fun l _ => by ring
  rw [e, pooled_fsum]
  exact sum_congr rfl fun l _ => by rw [pooled_mul, mul_comm]

theorem pooled_mix_right (xvas : List (Xva K)) (p : ℕ) (c : ℕ → K) (f : Xva K → ℕ → K) (g : ℕ → Xva K → ℕ → K) :
    Spec.pooledSum (xvas.map fun xva => (xva.n, fun t => f xva t * ∑ l ∈ range p, c l * g l xva t)) =
      ∑ l ∈ range p, c l * Spec.pooledSum (xvas.map fun xva => (xva.n, fun t => f xva t * g l xva t)) := by
  simp only [mul_comm (f _ _)]
  exact pooled_mix xvas p c g f

/-- The matrix of size `n` with the given entries. -/
def mixMat (n : ℕ) (T : ℕ → ℕ → K) : Mat K n n := Matrix.of fun i j => T i j

theorem mixMat_mul {n : ℕ} {T T' : ℕ → ℕ → K} (h : IsInv n T T') : mixMat n T * mixMat n T' = 1 := by
  ext i k
  rw [Matrix.mul_apply, Matrix.one_apply]
  have := h i i.2 k k.2
  rw [Finset.sum_range] at this
  simp only [← Fin.ext_iff] at this
  exact this

/-- Solutions of a linear system in two sets of coordinates. -/
theorem solve_mix {p x : ℕ} {F F' G G' : Mat K p p} {C C' R R' : Mat K p x} (hF : F * F' = 1)
    (hG : G' = F * G * F.transpose) (hR : R' = F * R) (h : G * C = R) (h' : G' * C' = R') (hd : G.det ≠ 0) :
    C = F.transpose * C' := by
  have hF' : F' * F = 1 := mul_eq_one_comm.1 hF
  have h1 : F * (G * (F.transpose * C')) = F * R := by
    rw [← hR, ← h', hG]
    simp only [Matrix.mul_assoc]
  have h2 : G * (F.transpose * C') = G * C := by
    rw [h]
    have := congrArg (fun M : Mat K p x => F' * M) h1
    simpa only [← Matrix.mul_assoc, hF', Matrix.one_mul] using this
  have hu : IsUnit G.det := isUnit_iff_ne_zero.2 hd
  have := congrArg (fun M : Mat K p x => G⁻¹ * M) h2
  simp only [← Matrix.mul_assoc, Matrix.nonsing_inv_mul _ hu, Matrix.one_mul] at this
  exact this.symm

end

section
variable {K : Type*} [Field K] [LinearOrder K]

/-- What `compute_mean_force` leaves unchanged. -/
theorem computeMeanForce_frame {env : Env K} {s s' : EstState K} (h : computeMeanForce env s = (s', none)) :
    s'.xvas = s.xvas ∧ s'.model.bm = s.model.bm ∧ s'.model.Lobs = s.model.Lobs ∧ s'.model.dt = s.model.dt ∧
    s'.model.truncInd = s.model.truncInd ∧ s'.model.rankProjection = s.model.rankProjection ∧ s'.saveall = s.saveall := by
  unfold computeMeanForce at h
  split at h
  · simp only [raises, Prod.mk.injEq, reduceCtorEq, and_false] at h
  · dsimp only at h
    split at h
    · simp only [raises, Prod.mk.injEq, reduceCtorEq, and_false] at h
    · simp only [Prod.mk.injEq, and_true] at h
      rw [← h]
      exact ⟨rfl, rfl, rfl, rfl, rfl, rfl, rfl⟩
  · simp only [raises, Prod.mk.injEq, reduceCtorEq, and_false] at h

/-- `compute_corrs` with the derivatives and without projection. -/
theorem computeCorrs_true {env : Env K} {method : String} {vectorize : Bool} {rankTol : Option K} {s : EstState K}
    {d : String} {x : ℕ} {fc : LArr K} (h : CorrReady env method vectorize s d x fc)
    (hr : s.model.rankProjection = false) {b : ℕ} (hb : Spec.nCorr s.model.bm = b) :
    ∃ c, computeCorrs env method vectorize true rankTol s = ({ s with corrs := some c }, none) ∧
      (c.bkbk.shape[0]?).getD 0 = b ∧ (c.bkdx.shape[1]?).getD 0 = x ∧
      (c.toCorrs b x).N = s.model.truncInd ∧
      ∃ D1 D2, (c.toCorrs b x).dotbkdx = some D1 ∧
      (c.toCorrs b x).dotbkbk = .arr D2 ∧
      ∀ n < s.model.truncInd, ∀ (p q : Fin b) (j : Fin x),
        (c.toCorrs b x).bkbk n p q =
          Spec.meanCorr s.xvas (fun xva t => Spec.corrFeature s.model.bm xva t p)
            (fun xva t => Spec.corrFeature s.model.bm xva t q) n ∧
        (c.toCorrs b x).bkdx n p j =
          Spec.meanCorr s.xvas (fun xva t => Spec.corrFeature s.model.bm xva t p)
            (fun xva t => Spec.ortho s.model.bm s.model.Lobs (fun k j => fc.get [k, j]) xva t j) n ∧
        D1 n p j = Spec.meanCorr s.xvas (fun xva t => codeDot s.model.bm xva t p)
            (fun xva t => Spec.ortho s.model.bm s.model.Lobs (fun k j => fc.get [k, j]) xva t j) n ∧
        D2 n p q = Spec.meanCorr s.xvas (fun xva t => codeDot s.model.bm xva t p)
            (fun xva t => Spec.corrFeature s.model.bm xva t q) n := by
  subst hb
  obtain ⟨c, hc, rest⟩ := C43_solver_input (rankTol := rankTol) h hr
  refine ⟨c, ?_, rest⟩
  obtain ⟨A, A', B, B', e, -⟩ := h.loop_ok true
  have key : computeCorrs env method vectorize true rankTol s = ({ s with corrs := some ⟨A, A', B, some B'⟩ }, none) := by
    unfold computeCorrs
    rw [h.force]
    dsimp only
    rw [e]
    simp only [hr, Bool.false_eq_true, if_false, not_true_eq_false, and_false, if_true]
  rw [key] at hc
  rw [key, ← hc]

/-- The same trajectories and settings, and two bases of the same functions. -/
structure SameData (T T' : ℕ → ℕ → K) (d : String) (s s' : EstState K) : Prop where
  span : SameSpan T T' s.model.bm s'.model.bm
  xvas : s'.xvas = s.xvas
  Lobs : s'.model.Lobs = s.model.Lobs
  dt : s'.model.dt = s.model.dt
  truncInd : s'.model.truncInd = s.model.truncInd
  noProj : s.model.rankProjection = false
  noProj' : s'.model.rankProjection = false
  obs : SameObs s.xvas s.model.Lobs d s.model.bm.dimObs
  dim : d ≠ "time_trunc" ∧ d ≠ "dim_basis_old"
  dimx : ∀ xva ∈ s.xvas, xva.dimx = s.model.bm.dimx
  npos : 1 ≤ Spec.nCorr s.model.bm
  xpos : 1 ≤ s.model.bm.dimObs
  tpos : 1 ≤ s.model.truncInd
  tle : ∀ xva ∈ s.xvas, s.model.truncInd ≤ xva.n
  ne : s.xvas ≠ []

variable {T T' : ℕ → ℕ → K} {d : String}

/-- Both mean forces exist, and the coefficients are related by the mixing `F` of the functions. -/
theorem force_of_mix [CharZero K] {env : Env K} (hl : IsLoop env.loop) {s s' s1 : EstState K} (wf : s.model.bm.WF)
    (wf' : s'.model.bm.WF) (hX : s'.xvas = s.xvas) (hL : s'.model.Lobs = s.model.Lobs) {x : ℕ}
    (obs : SameObs s.xvas s.model.Lobs d x) (ne : s.xvas ≠ []) (hn : ∀ xva ∈ s.xvas, 1 ≤ xva.n) {p : ℕ}
    (hp : p = s.model.bm.nForce) (hp' : s'.model.bm.nForce = p) {mix mix' : ℕ → ℕ → K} (hinv : IsInv p mix mix')
    (hfeat : ∀ xva t k, k < p → Spec.forceFeature s'.model.bm xva t k =
      ∑ l ∈ range p, mix k l * Spec.forceFeature s.model.bm xva t l)
    (h1 : computeMeanForce env s = (s1, none)) :
    ∃ s1' c c', computeMeanForce env s' = (s1', none) ∧ s1.model.forceCoeff = some c ∧ s1'.model.forceCoeff = some c' ∧
      c.dims = ["dim_basis", d] ∧ c.shape = [p, x] ∧
      c'.dims = ["dim_basis", d] ∧ c'.shape = [p, x] ∧
      ∀ k < p, ∀ j < x, c.get [k, j] = ∑ l ∈ range p, mix l k * c'.get [l, j] := by
  have hn' : ∀ xva ∈ s'.xvas, 1 ≤ xva.n := by rw [hX]; exact hn
  have hne' : s'.xvas ≠ [] := by rw [hX]; exact ne
  have obs' : SameObs s'.xvas s'.model.Lobs d x := by rw [hX, hL]; exact obs
  obtain ⟨c, hc, c1, c2, hdet, key⟩ := computeMeanForce_ok hl wf obs ne hn h1
  have hgram : ∀ i < p, ∀ j < p, Spec.pooledSum (s.xvas.map fun xva => (xva.n, fun t =>
        Spec.forceFeature s'.model.bm xva t i * Spec.forceFeature s'.model.bm xva t j)) =
      ∑ k ∈ range p, ∑ l ∈ range p, mix i k * mix j l *
        Spec.pooledSum (s.xvas.map fun xva => (xva.n, fun t =>
          Spec.forceFeature s.model.bm xva t k * Spec.forceFeature s.model.bm xva t l)) := by
    intro i hi j hj
    simp only [hfeat _ _ i hi, hfeat _ _ j hj]
    rw [pooled_mix s.xvas p _ (fun l xva t => Spec.forceFeature s.model.bm xva t l)]
    refine sum_congr rfl fun k _ => ?_
    rw [pooled_mix_right s.xvas p _ _ (fun l xva t => Spec.forceFeature s.model.bm xva t l), mul_sum]
    exact sum_congr rfl fun l _ => (mul_assoc _ _ _).symm
  have hobs : ∀ i < p, ∀ j, Spec.pooledSum (s.xvas.map fun xva => (xva.n, fun t =>
        Spec.forceFeature s'.model.bm xva t i * xva.data s.model.Lobs t j)) =
      ∑ k ∈ range p, mix i k * Spec.pooledSum (s.xvas.map fun xva => (xva.n, fun t =>
          Spec.forceFeature s.model.bm xva t k * xva.data s.model.Lobs t j)) := by
    intro i hi j
    simp only [hfeat _ _ i hi]
    rw [pooled_mix s.xvas p _ (fun l xva t => Spec.forceFeature s.model.bm xva t l)]
  rw [← hp] at hdet key c2
  obtain ⟨W, hW⟩ : ∃ W : K, W = ((s.xvas.map fun x => x.n).sum : ℕ) := ⟨_, rfl⟩
  have hW0 : W ≠ 0 := by
    obtain ⟨y, hy⟩ := List.exists_mem_of_ne_nil _ ne
    have : y.n ≤ (s.xvas.map fun x => x.n).sum := List.single_le_sum (by simp) _ (List.mem_map_of_mem hy)
    have := hn y hy
    rw [hW]
    exact_mod_cast (by omega : (s.xvas.map fun x => x.n).sum ≠ 0)
  -- the matrices
  obtain ⟨F, hF⟩ : ∃ F : Mat K p p, F = mixMat p (mix) := ⟨_, rfl⟩
  have hFF : F * mixMat p (mix') = 1 := by rw [hF]; exact mixMat_mul hinv
  obtain ⟨G, hG⟩ : ∃ G : Mat K p p, G = Matrix.of fun i j : Fin p => Spec.pooledSum (s.xvas.map fun xva => (xva.n, fun t =>
        Spec.forceFeature s.model.bm xva t i * Spec.forceFeature s.model.bm xva t j)) := ⟨_, rfl⟩
  obtain ⟨G', hG'⟩ : ∃ G' : Mat K p p, G' = Matrix.of fun i j : Fin p => Spec.pooledSum (s.xvas.map fun xva => (xva.n, fun t =>
        Spec.forceFeature s'.model.bm xva t i * Spec.forceFeature s'.model.bm xva t j)) := ⟨_, rfl⟩
  have hGG : G' = F * G * F.transpose := by
    ext i j
    rw [hG', Matrix.of_apply, hgram i i.2 j j.2, Matrix.mul_apply, Finset.sum_comm, Finset.sum_range]
    refine sum_congr rfl fun l _ => ?_
    rw [Matrix.mul_apply, Finset.sum_range, sum_mul]
    refine sum_congr rfl fun k _ => ?_
    rw [hG, hF]
    simp only [Matrix.transpose_apply, mixMat, Matrix.of_apply]
    ring
  have hGdet : G.det ≠ 0 := by
    have e : G = W • Matrix.of fun i j : Fin p => Spec.pooledMean (s.xvas.map fun xva => (xva.n, fun t =>
        Spec.forceFeature s.model.bm xva t i * Spec.forceFeature s.model.bm xva t j)) := by
      ext i j
      rw [hG, Matrix.smul_apply, Matrix.of_apply, Matrix.of_apply, pooledMean_eq, ← hW, smul_eq_mul, mul_div_cancel₀ _ hW0]
    rw [e, Matrix.det_smul]
    exact mul_ne_zero (pow_ne_zero _ hW0) hdet
  have hGdet' : G'.det ≠ 0 := by
    have : F.det ≠ 0 := by
      intro e
      have := congrArg Matrix.det hFF
      rw [Matrix.det_mul, e, zero_mul, Matrix.det_one] at this
      exact zero_ne_one this
    rw [hGG, Matrix.det_mul, Matrix.det_mul, Matrix.det_transpose]
    exact mul_ne_zero (mul_ne_zero this hGdet) this
  have hdet' : (Matrix.of fun i j : Fin s'.model.bm.nForce => Spec.pooledMean (s'.xvas.map fun xva => (xva.n, fun t =>
        Spec.forceFeature s'.model.bm xva t i * Spec.forceFeature s'.model.bm xva t j))).det ≠ 0 := by
    rw [hX]
    have key : ∀ q, q = p → (Matrix.of fun i j : Fin q => Spec.pooledMean (s.xvas.map fun xva => (xva.n, fun t =>
        Spec.forceFeature s'.model.bm xva t i * Spec.forceFeature s'.model.bm xva t j))).det ≠ 0 := by
      rintro q rfl
      have e : G' = W • Matrix.of fun i j : Fin q => Spec.pooledMean (s.xvas.map fun xva => (xva.n, fun t =>
          Spec.forceFeature s'.model.bm xva t i * Spec.forceFeature s'.model.bm xva t j)) := by
        ext i j
        rw [hG', Matrix.smul_apply, Matrix.of_apply, Matrix.of_apply, pooledMean_eq, ← hW, smul_eq_mul, mul_div_cancel₀ _ hW0]
      intro e0
      rw [e, Matrix.det_smul, e0, mul_zero] at hGdet'
      exact hGdet' rfl
    exact key _ hp'
  obtain ⟨s1', h1'⟩ := C38_defined hl wf' obs' hne' hn' hdet'
  obtain ⟨c', hc', c1', c2', -, key'⟩ := computeMeanForce_ok hl wf' obs' hne' hn' h1'
  rw [hp'] at c2' key'
  rw [hX, hL] at key'
  refine ⟨s1', c, c', h1', hc, hc', c1, c2, c1', c2', fun k hk j hj => ?_⟩
  have e := solve_mix (C := Matrix.of fun (i : Fin p) (j : Fin x) => c.get [(i : ℕ), (j : ℕ)])
    (C' := Matrix.of fun (i : Fin p) (j : Fin x) => c'.get [(i : ℕ), (j : ℕ)])
    (R := Matrix.of fun (i : Fin p) (j : Fin x) => Spec.pooledSum (s.xvas.map fun xva =>
          (xva.n, fun t => Spec.forceFeature s.model.bm xva t i * xva.data s.model.Lobs t j)))
    (R' := Matrix.of fun (i : Fin p) (j : Fin x) => Spec.pooledSum (s.xvas.map fun xva =>
          (xva.n, fun t => Spec.forceFeature s'.model.bm xva t i * xva.data s.model.Lobs t j))) hFF hGG
    (by
      ext i j
      rw [Matrix.of_apply, hobs i i.2, Matrix.mul_apply, Finset.sum_range, hF]
      rfl)
    (by
      ext i j
      rw [Matrix.of_apply, ← key i i.2 j j.2, Matrix.mul_apply, Finset.sum_range, hG]
      rfl)
    (by
      ext i j
      rw [Matrix.of_apply, ← key' i i.2 j j.2, Matrix.mul_apply, Finset.sum_range, hG']
      rfl) hGdet
  have := congrFun (congrFun e ⟨k, hk⟩) ⟨j, hj⟩
  rw [Matrix.mul_apply, hF] at this
  rw [Finset.sum_range]
  exact this

theorem SameData.force [CharZero K] {env : Env K} (hl : IsLoop env.loop) {s s' s1 : EstState K} (h : SameData T T' d s s')
    (h1 : computeMeanForce env s = (s1, none)) :
    ∃ s1' c c', computeMeanForce env s' = (s1', none) ∧ s1.model.forceCoeff = some c ∧ s1'.model.forceCoeff = some c' ∧
      c.dims = ["dim_basis", d] ∧ c.shape = [s.model.bm.nForce, s.model.bm.dimObs] ∧
      c'.dims = ["dim_basis", d] ∧ c'.shape = [s.model.bm.nForce, s.model.bm.dimObs] ∧
      ∀ k < s.model.bm.nForce, ∀ j < s.model.bm.dimObs, c.get [k, j] =
        ∑ l ∈ range s.model.bm.nForce, forceMix s.model.bm T l k * c'.get [l, j] :=
  force_of_mix hl (fun e => by rw [h.span.full] at e; cases e) (fun e => by rw [h.span.full'] at e; cases e) h.xvas h.Lobs
    h.obs h.ne (fun xva hx => h.tpos.trans (h.tle xva hx)) rfl h.span.nForce h.span.force_inv
    (fun xva t _ hk => h.span.forceFeature xva t hk) h1

theorem SameData.ready {env : Env K} {method : String} {vectorize : Bool} (hl : IsLoop env.loop)
    (hf : IsCorrFn (env.corrFn method vectorize)) {s s' s1 : EstState K} (h : SameData T T' d s s') {c : LArr K}
    (h1 : computeMeanForce env s = (s1, none)) (hc : s1.model.forceCoeff = some c) (hd : c.dims = ["dim_basis", d])
    (hs : c.shape = [s.model.bm.nForce, s.model.bm.dimObs]) :
    CorrReady env method vectorize s1 d s.model.bm.dimObs c := by
  obtain ⟨e1, e2, e3, e4, e5, e6, e7⟩ := computeMeanForce_frame h1
  exact ⟨hl, hf, fun e => absurd e (by rw [e2, h.span.full]; exact Bool.false_ne_true), by rw [e1, e3]; exact h.obs, h.dim,
    by rw [e1, e2]; exact h.dimx, hc, hd, by rw [e2]; exact hs, by rw [e2]; exact h.npos, h.xpos, by rw [e5]; exact h.tpos,
    by rw [e1, e5]; exact h.tle, by rw [e1]; exact h.ne⟩

theorem SameData.ready' {env : Env K} {method : String} {vectorize : Bool} (hl : IsLoop env.loop)
    (hf : IsCorrFn (env.corrFn method vectorize)) {s s' s1 : EstState K} (h : SameData T T' d s s') {c : LArr K}
    (h1 : computeMeanForce env s' = (s1, none)) (hc : s1.model.forceCoeff = some c) (hd : c.dims = ["dim_basis", d])
    (hs : c.shape = [s.model.bm.nForce, s.model.bm.dimObs]) :
    CorrReady env method vectorize s1 d s.model.bm.dimObs c := by
  obtain ⟨e1, e2, e3, e4, e5, e6, e7⟩ := computeMeanForce_frame h1
  rw [h.xvas] at e1
  rw [h.Lobs] at e3
  rw [h.truncInd] at e5
  exact ⟨hl, hf, fun e => absurd e (by rw [e2, h.span.full']; exact Bool.false_ne_true), by rw [e1, e3]; exact h.obs, h.dim,
    by rw [e1, e2, h.span.dimx]; exact h.dimx, hc, hd, by rw [e2, h.span.nForce]; exact hs,
    by rw [e2, h.span.nCorr]; exact h.npos, h.xpos, by rw [e5]; exact h.tpos,
    by rw [e1, e5]; exact h.tle, by rw [e1]; exact h.ne⟩

/-- The residual of the observable is the same. -/
theorem SameSpan_ortho {m m' : BasisModel K} (h : SameSpan T T' m m') {c c' : LArr K} {x : ℕ}
    (hc : ∀ k < m.nForce, ∀ j < x, c.get [k, j] = ∑ l ∈ range m.nForce, forceMix m T l k * c'.get [l, j]) (L : String)
    (xva : Xva K) (t : ℕ) {j : ℕ} (hj : j < x) :
    Spec.ortho m' L (fun k j => c'.get [k, j]) xva t j = Spec.ortho m L (fun k j => c.get [k, j]) xva t j := by
  unfold Spec.ortho
  rw [h.nForce, sum_congr rfl fun k hk => by rw [h.forceFeature xva t (mem_range.1 hk)],
    mix_dot' _ _ _ _ _]
  congr 1
  exact sum_congr rfl fun k hk => congrArg _ (hc k (mem_range.1 hk) j hj).symm

/-- The solvers on correlations that are mixed by `P`. -/
theorem solver_mix [CharZero K] {b x : ℕ} {C C' : Corrs K b x} {N : ℕ} (hN : C.N = N) (hN' : C'.N = N) (h1 : 1 ≤ N)
    {D1 D1' : ℕ → Mat K b x} {D2 D2' : ℕ → Mat K b b} (hD1 : C.dotbkdx = some D1) (hD1' : C'.dotbkdx = some D1')
    (hD2 : C.dotbkbk = .arr D2) (hD2' : C'.dotbkbk = .arr D2') {P Q : Mat K b b} (hQ : P.transpose * Q = 1)
    (a1 : ∀ n < N, C'.bkbk n = P * C.bkbk n * P.transpose) (a2 : ∀ n < N, C'.bkdx n = P * C.bkdx n)
    (a3 : ∀ n < N, D1' n = P * D1 n) (a4 : ∀ n < N, D2' n = P * D2 n * P.transpose) {n : ℕ} {dt : K} {km : String}
    {r : KernelData K b x} (h : computeKernel (some C) n dt km none = .ok r) :
    ∃ r', computeKernel (some C') n dt km none = .ok r' ∧ r'.time = r.time ∧ r'.kernel.len = r.kernel.len ∧
      ∀ i, r.kernel.get i = P.transpose * r'.kernel.get i := by
  obtain ⟨r', e, e1, e2, e3⟩ := C10_kernel_basis hQ h
  refine ⟨r', ?_, e1, e2, fun i => ?_⟩
  · rw [← e]
    subst hN
    exact computeKernel_agree (c' := C.changeBasis P) hN' (by rw [hN']; exact h1) hD1' (d' := fun n => P * D1 n)
      (by simp [Corrs.changeBasis, hD1]) hD2' (bd' := fun n => P * D2 n * P.transpose) (by simp [Corrs.changeBasis, hD2])
      (by rw [hN']; exact a1) (by rw [hN']; exact a2) (by rw [hN']; exact a3) (by rw [hN']; exact a4) _ _ _ _
  · rw [e3, ← Matrix.mul_assoc, hQ, Matrix.one_mul]

theorem computeKernelStep_ok {s : EstState K} {c : CorrsL K} (hc : s.corrs = some c) {b x : ℕ}
    (hb : (c.bkbk.shape[0]?).getD 0 = b) (hx : (c.bkdx.shape[1]?).getD 0 = x) (h0 : s.model.truncInd ≠ 0) {km : String}
    {k0 : ∀ b x : ℕ, Option (Mat K b x)} {k : KernelData K b x}
    (hk : computeKernel (some (c.toCorrs b x)) s.model.truncInd s.model.dt km (k0 b x) = .ok k) :
    computeKernelStep km k0 s = ({ s with model := { s.model with method := some km, kernel := some ⟨b, x, k⟩ } }, none) := by
  subst hb hx
  unfold computeKernelStep
  rw [hc]
  dsimp only
  rw [if_neg h0, hk]

theorem forceMix_left {m m' : BasisModel K} (h : SameSpan T T' m m') {k : ℕ} (hk : k < m.basis.nOut) (f : ℕ → K) :
    ∑ l ∈ range m.nForce, forceMix m T l k * f l = ∑ l ∈ range m.basis.nOut, T l k * f l := by
  rw [h.nForce_eq]
  unfold forceMix
  split_ifs with hc
  · rw [sum_range_add, sum_congr rfl fun l hl => by rw [blockMix, if_pos (mem_range.1 hl), if_pos hk],
      sum_eq_zero (s := range m.basis.nOut) (f := fun l => blockMix m.basis.nOut T T (m.basis.nOut + l) k * _)
        fun l _ => by rw [blockMix, if_neg (by omega), if_pos hk, zero_mul], add_zero]
  · rfl

/-- Contraction of mixed rows with mixed functions; the first `z` rows do not take part. -/
theorem contract_mix {b x w z : ℕ} (hb : w + z = b) {D : ℕ → ℕ → K} (hD : ∀ k l, k < z → D k (l + z) = 0) {M M' : Mat K b x}
    (hM : M = (mixMat b D).transpose * M') {f f' : ℕ → K} (hf : ∀ k < w, f' k = ∑ l ∈ range w, D (k + z) (l + z) * f l)
    (j : Fin x) :
    ∑ p : Fin w, M' ⟨p + z, by have := p.2; omega⟩ j * f' p = ∑ p : Fin w, M ⟨p + z, by have := p.2; omega⟩ j * f p := by
  obtain ⟨g, hg⟩ : ∃ g : ℕ → K, ∀ k (hk : k < b), g k = M' ⟨k, hk⟩ j :=
    ⟨fun k => if hk : k < b then M' ⟨k, hk⟩ j else 0, fun k hk => dif_pos hk⟩
  have hrow : ∀ p : Fin w, M ⟨p + z, by have := p.2; omega⟩ j = ∑ r ∈ range w, D (r + z) (p + z) * g (r + z) := by
    intro p
    rw [hM, Matrix.mul_apply]
    have e : ∑ r ∈ range (z + w), D r (p + z) * g r = ∑ r ∈ range w, D (r + z) (p + z) * g (r + z) := by
      rw [sum_range_add, sum_eq_zero fun r hr => by rw [hD r p (mem_range.1 hr), zero_mul], zero_add]
      exact sum_congr rfl fun r _ => by rw [add_comm z r]
    rw [← e, show z + w = b by omega, Finset.sum_range]
    exact sum_congr rfl fun r _ => by rw [hg r r.2]; rfl
  have l1 : ∑ p : Fin w, M' ⟨p + z, by have := p.2; omega⟩ j * f' p =
      ∑ p ∈ range w, (∑ l ∈ range w, D (p + z) (l + z) * f l) * g (p + z) := by
    rw [Finset.sum_range]
    exact sum_congr rfl fun p _ => by rw [← hg (p + z) (by have := p.2; omega), hf p p.2, mul_comm]
  have l2 : ∑ p : Fin w, M ⟨p + z, by have := p.2; omega⟩ j * f p =
      ∑ p ∈ range w, (∑ r ∈ range w, D (r + z) (p + z) * g (r + z)) * f p := by
    rw [Finset.sum_range]
    exact sum_congr rfl fun p _ => by rw [hrow p]
  rw [l1, l2, mix_dot' w w (fun p l => D (p + z) (l + z)) f]
  exact sum_congr rfl fun _ _ => mul_comm _ _

theorem rows_total (m : BasisModel K) (hf : m.basis.constRemoved = false) (q1 : m.cls = .hybrid → m.dimx = 1)
    (q2 : m.cls = .constKernel → m.dimObs = m.dimx) : Spec.nKernelAt m + Spec.constRows m = Spec.nCorr m := by
  unfold Spec.nKernelAt Spec.constRows Spec.nCorr
  cases hcl : m.cls <;> simp_all
  omega

/-- The coefficients of the force and of the kernel of a model, against those of another, with the functions of the force mixed by
`F`, those of the memory by `M`, the observable by `Q`, and times multiplied by `c`. -/
def MovedCoefs (F M Q : ℕ → ℕ → K) (c : K) (bm bm' : BasisModel K) (d : String) (m m' : ModelState K) : Prop :=
  m.bm = bm ∧ m'.bm = bm' ∧ m'.method = m.method ∧ m'.truncInd = m.truncInd ∧
  ∃ fc fc' k k', HasForce m fc d ∧ HasForce m' fc' d ∧
    (∀ k < bm.nForce, ∀ j < bm.dimObs, ∑ l ∈ range bm.nForce, F l k * fc'.get [l, j] = ∑ q ∈ range bm.dimObs, Q j q * fc.get [k, q]) ∧
    m.kernel = some ⟨Spec.nCorr bm, bm.dimObs, k⟩ ∧ m'.kernel = some ⟨Spec.nCorr bm, bm.dimObs, k'⟩ ∧
    k'.time.len = k.time.len ∧ (∀ t, k'.time.get t = c * k.time.get t) ∧ k'.kernel.len = k.kernel.len ∧
    ∀ i, c⁻¹ • (k.kernel.get i * (mixMat bm.dimObs Q).transpose) = (mixMat (Spec.nCorr bm) M).transpose * k'.kernel.get i

set_option maxHeartbeats 1000000 in
/-- The coefficients and the evaluations of a model estimated with another basis of the same space of functions. -/
theorem same_functions_all [CharZero K] {env : Env K} (hl : IsLoop env.loop) {method : String} {vectorize : Bool}
    (hf : IsCorrFn (env.corrFn method vectorize)) {s s' : EstState K} (h : SameData T T' d s s') {rankTol : Option K}
    {km : String} {s1 s2 s3 : EstState K} (h1 : computeMeanForce env s = (s1, none))
    (h2 : computeCorrs env method vectorize true rankTol s1 = (s2, none))
    (h3 : computeKernelStep km (fun _ _ => none) s2 = (s3, none)) :
    ∃ s1' s2' s3', computeMeanForce env s' = (s1', none) ∧
      computeCorrs env method vectorize true rankTol s1' = (s2', none) ∧
      computeKernelStep km (fun _ _ => none) s2' = (s3', none) ∧
      ((∀ n pts, ∃ F F', forceEval s3.model none n pts = .ok F ∧ forceEval s3'.model none n pts = .ok F' ∧
        F'.rows = F.rows ∧ F'.cols = F.cols ∧ ∀ i, ∀ l < s.model.bm.dimObs, F'.get i l = F.get i l) ∧
      (∃ b x k k', s3.model.kernel = some ⟨b, x, k⟩ ∧ s3'.model.kernel = some ⟨b, x, k'⟩ ∧ k'.time = k.time ∧
        k'.kernel.len = k.kernel.len) ∧
      ((s.model.bm.cls = .hybrid → s.model.bm.dimx = 1) → (s.model.bm.cls = .constKernel → s.model.bm.dimObs = s.model.bm.dimx) →
        ∀ n pts, ∃ R R', kernelEvalAt s3.model n pts = .ok R ∧ kernelEvalAt s3'.model n pts = .ok R' ∧
          ∀ t, ∀ l < s.model.bm.dimObs, ∀ i j, R' t l i j = R t l i j)) ∧
      MovedCoefs (forceMix s.model.bm T) (corrMix s.model.bm T) (fun i j => if i = j then 1 else 0) 1 s.model.bm s'.model.bm d
        s3.model s3'.model := by
  obtain ⟨s1', c, c', h1', hc, hc', c1, c2, c1', c2', hcc⟩ := h.force hl h1
  have r := h.ready hl hf h1 hc c1 c2
  have r' := h.ready' hl hf h1' hc' c1' c2'
  obtain ⟨e1, e2, e3, e4, e5, e6, e7⟩ := computeMeanForce_frame h1
  obtain ⟨f1, f2, f3, f4, f5, f6, f7⟩ := computeMeanForce_frame h1'
  rw [h.noProj] at e6
  rw [h.xvas] at f1
  rw [h.Lobs] at f3
  rw [h.dt] at f4
  rw [h.truncInd] at f5
  rw [h.noProj'] at f6
  obtain ⟨n, hn⟩ : ∃ n, n = Spec.nCorr s.model.bm := ⟨_, rfl⟩
  obtain ⟨C, hC, s1a, s1b, N, D1, D2, hD1, hD2, hent⟩ := computeCorrs_true (rankTol := rankTol) r e6 (b := n)
    (by rw [e2, hn])
  obtain ⟨C', hC', s1a', s1b', N', D1', D2', hD1', hD2', hent'⟩ := computeCorrs_true (rankTol := rankTol) r' f6 (b := n)
    (by rw [f2, h.span.nCorr, hn])
  rw [h2] at hC
  obtain rfl : s2 = { s1 with corrs := some C } := (Prod.mk.inj hC).1
  obtain ⟨C0, ⟨b, x, k⟩, hC0, hs3, hk, hb, hx⟩ := C42_method_recorded h3
  obtain rfl : C = C0 := Option.some.inj hC0
  dsimp only at hk hb hx
  rw [s1a] at hb
  rw [s1b] at hx
  subst hx hb
  have hinv := h.span.corr_inv
  rw [← hn] at hinv
  have hfeat : ∀ xva t k, k < b → Spec.corrFeature s'.model.bm xva t k =
      ∑ l ∈ range b, corrMix s.model.bm T k l * Spec.corrFeature s.model.bm xva t l := fun xva t k hk => by
    rw [hn]; exact h.span.corrFeature xva t (hn ▸ hk)
  have hdot : ∀ xva t k, k < b → codeDot s'.model.bm xva t k =
      ∑ l ∈ range b, corrMix s.model.bm T k l * codeDot s.model.bm xva t l := fun xva t k hk => by
    rw [hn]; exact h.span.codeDot xva t (hn ▸ hk)
  have horth : ∀ xva t, ∀ j < s.model.bm.dimObs, Spec.ortho s1'.model.bm s1'.model.Lobs (fun k j => c'.get [k, j]) xva t j =
      Spec.ortho s1.model.bm s1.model.Lobs (fun k j => c.get [k, j]) xva t j := fun xva t j hj => by
    rw [f2, e2, f3, e3]; exact SameSpan_ortho h.span hcc _ _ _ hj
  have hP : (mixMat b (corrMix s.model.bm T)).transpose * (mixMat b (corrMix s.model.bm T')).transpose = 1 := by
    rw [← Matrix.transpose_mul, mul_eq_one_comm.1 (mixMat_mul hinv), Matrix.transpose_one]
  have hT : s1'.model.truncInd = s1.model.truncInd := by rw [f5, e5]
  have hX : s1'.xvas = s1.xvas := by rw [f1, e1]
  rw [hT] at N' hent'
  rw [hX] at hent'
  have one : ∀ (F F' : ℕ → Xva K → ℕ → K) (g : Xva K → ℕ → K) (m : ℕ), (∀ xva t k, k < b → F' k xva t =
      ∑ l ∈ range b, corrMix s.model.bm T k l * F l xva t) → ∀ p : Fin b,
      Spec.meanCorr s1.xvas (F' p) g m = ∑ l : Fin b, mixMat b (corrMix s.model.bm T) p l * Spec.meanCorr s1.xvas (F l) g m := by
    intro F F' g m hF p
    rw [show F' p = fun xva t => ∑ l ∈ range b, corrMix s.model.bm T p l * F l xva t from
      funext fun xva => funext fun t => hF xva t p p.2, meanCorr_mix, Finset.sum_range]
    rfl
  have two : ∀ (F F' G G' : ℕ → Xva K → ℕ → K) (m : ℕ), (∀ xva t k, k < b → F' k xva t =
      ∑ l ∈ range b, corrMix s.model.bm T k l * F l xva t) → (∀ xva t k, k < b → G' k xva t =
      ∑ l ∈ range b, corrMix s.model.bm T k l * G l xva t) → ∀ p q : Fin b,
      Spec.meanCorr s1.xvas (F' p) (G' q) m = ((mixMat b (corrMix s.model.bm T)) *
        (Matrix.of fun p q : Fin b => Spec.meanCorr s1.xvas (F p) (G q) m) * (mixMat b (corrMix s.model.bm T)).transpose) p q := by
    intro F F' G G' m hF hG p q
    rw [one F F' _ m hF, Matrix.mul_assoc, Matrix.mul_apply]
    refine sum_congr rfl fun l _ => ?_
    rw [show G' q = fun xva t => ∑ l ∈ range b, corrMix s.model.bm T q l * G l xva t from
      funext fun xva => funext fun t => hG xva t q q.2, meanCorr_mix_right, Finset.sum_range, Matrix.mul_apply]
    congr 1
    exact sum_congr rfl fun l' _ => mul_comm _ _
  have hone : ∀ (F F' : ℕ → Xva K → ℕ → K) (m : ℕ), (∀ xva t k, k < b → F' k xva t =
      ∑ l ∈ range b, corrMix s.model.bm T k l * F l xva t) → ∀ (p : Fin b) (j : Fin s.model.bm.dimObs),
      Spec.meanCorr s1.xvas (F' p) (fun xva t => Spec.ortho s1'.model.bm s1'.model.Lobs (fun k j => c'.get [k, j]) xva t j) m =
        ∑ l : Fin b, mixMat b (corrMix s.model.bm T) p l * Spec.meanCorr s1.xvas (F l)
          (fun xva t => Spec.ortho s1.model.bm s1.model.Lobs (fun k j => c.get [k, j]) xva t j) m := by
    intro F F' m hF p j
    rw [show (fun xva t => Spec.ortho s1'.model.bm s1'.model.Lobs (fun k j => c'.get [k, j]) xva t j) =
      fun xva t => Spec.ortho s1.model.bm s1.model.Lobs (fun k j => c.get [k, j]) xva t j from
      funext fun xva => funext fun t => horth xva t j j.2]
    exact one F F' _ m hF p
  have hf1 : ∀ xva t k, k < b → Spec.corrFeature s1'.model.bm xva t k =
      ∑ l ∈ range b, corrMix s.model.bm T k l * Spec.corrFeature s1.model.bm xva t l := by rw [f2, e2]; exact hfeat
  have hd1 : ∀ xva t k, k < b → codeDot s1'.model.bm xva t k =
      ∑ l ∈ range b, corrMix s.model.bm T k l * codeDot s1.model.bm xva t l := by rw [f2, e2]; exact hdot
  have hxp : 0 < s.model.bm.dimObs := h.xpos
  have hbp : 0 < b := by rw [hn]; exact h.npos
  obtain ⟨k', hk', t1, t2, t3⟩ := solver_mix N N' (by rw [e5]; exact h.tpos) hD1 hD1' hD2 hD2' hP
    (fun m hm => by
      ext p q
      rw [(hent' m hm p q ⟨0, hxp⟩).1, two (fun k xva t => Spec.corrFeature s1.model.bm xva t k)
        (fun k xva t => Spec.corrFeature s1'.model.bm xva t k) (fun k xva t => Spec.corrFeature s1.model.bm xva t k)
        (fun k xva t => Spec.corrFeature s1'.model.bm xva t k) m hf1 hf1]
      exact congrFun (congrFun (congrArg (fun M => mixMat b (corrMix s.model.bm T) * M *
        (mixMat b (corrMix s.model.bm T)).transpose) (Matrix.ext fun p q => (hent m hm p q ⟨0, hxp⟩).1.symm)) p) q)
    (fun m hm => by
      ext p j
      rw [(hent' m hm p p j).2.1, hone (fun k xva t => Spec.corrFeature s1.model.bm xva t k)
        (fun k xva t => Spec.corrFeature s1'.model.bm xva t k) m hf1, Matrix.mul_apply]
      exact sum_congr rfl fun l _ => congrArg _ (hent m hm l l j).2.1.symm)
    (fun m hm => by
      ext p j
      rw [(hent' m hm p p j).2.2.1, hone (fun k xva t => codeDot s1.model.bm xva t k)
        (fun k xva t => codeDot s1'.model.bm xva t k) m hd1, Matrix.mul_apply]
      exact sum_congr rfl fun l _ => congrArg _ (hent m hm l l j).2.2.1.symm)
    (fun m hm => by
      ext p q
      rw [(hent' m hm p q ⟨0, hxp⟩).2.2.2, two (fun k xva t => codeDot s1.model.bm xva t k)
        (fun k xva t => codeDot s1'.model.bm xva t k) (fun k xva t => Spec.corrFeature s1.model.bm xva t k)
        (fun k xva t => Spec.corrFeature s1'.model.bm xva t k) m hd1 hf1]
      exact congrFun (congrFun (congrArg (fun M => mixMat b (corrMix s.model.bm T) * M *
        (mixMat b (corrMix s.model.bm T)).transpose) (Matrix.ext fun p q => (hent m hm p q ⟨0, hxp⟩).2.2.2.symm)) p) q) hk
  have hT0 : s1'.model.truncInd ≠ 0 := by have := h.tpos; rw [f5]; omega
  have hstep := computeKernelStep_ok (s := { s1' with corrs := some C' }) rfl s1a' s1b' hT0 (km := km)
    (k0 := fun _ _ => none) (k := k') (by dsimp only; rw [hT, f4, ← e4]; exact hk')
  have bm3 : s3.model.bm = s.model.bm := by rw [hs3]; exact e2
  have hf3 : HasForce s3.model c d := ⟨by rw [hs3]; exact hc, c1, by rw [bm3]; exact c2, ⟨h.obs.1, h.obs.2.1⟩⟩
  have hf3' : HasForce { s1'.model with method := some km, kernel := some ⟨_, _, k'⟩ } c' d :=
    ⟨hc', c1', by dsimp only; rw [f2, h.span.nForce, h.span.dimObs]; exact c2', ⟨h.obs.1, h.obs.2.1⟩⟩
  refine ⟨s1', _, _, h1', hC', hstep, ⟨fun n pts => ?_, ⟨_, _, k, k', by rw [hs3], rfl, t1, t2⟩, fun q1 q2 n pts => ?_⟩, bm3, f2,
    by rw [hs3], by rw [hs3]; exact hT, c, c', ?_⟩
  · obtain ⟨F, hF, F1, F2, F3⟩ := forceEval_ok (s := s3.model) (c := c) (d := d)
      ⟨by rw [hs3]; exact hc, c1, by rw [bm3]; exact c2, ⟨h.obs.1, h.obs.2.1⟩⟩ (by rw [bm3]; exact fun e => absurd e (by rw [h.span.full]; exact Bool.false_ne_true)) n pts
    obtain ⟨F', hF', F1', F2', F3'⟩ := forceEval_ok (s := { s1'.model with method := some km, kernel := some ⟨_, _, k'⟩ })
      (c := c') (d := d) ⟨hc', c1', by dsimp only; rw [f2, h.span.nForce, h.span.dimObs]; exact c2', ⟨h.obs.1, h.obs.2.1⟩⟩
      (by dsimp only; rw [f2]; exact fun e => absurd e (by rw [h.span.full']; exact Bool.false_ne_true)) n pts
    refine ⟨F, F', hF, hF', by rw [F1, F1'], ?_, fun i l hl => ?_⟩
    · rw [F2, F2']; dsimp only; rw [f2, bm3, h.span.dimObs]
    · rw [F3, F3', bm3]
      dsimp only
      rw [f2, h.span.nOut, sum_congr rfl fun k hk => by rw [h.span.basis _ _ (mem_range.1 hk)], mix_dot']
      refine sum_congr rfl fun k hk => ?_
      have hk := mem_range.1 hk
      rw [hcc k (by rw [h.span.nForce_eq]; split_ifs <;> omega) l hl, forceMix_left h.span hk]
  · have hb : Spec.nKernelAt s.model.bm + Spec.constRows s.model.bm = b := by
      rw [hn]
      exact rows_total _ h.span.full q1 q2
    have hcr : Spec.constRows s'.model.bm = Spec.constRows s.model.bm := by unfold Spec.constRows; rw [h.span.cls]
    have bm3' : ∀ {m : BasisModel K}, m = s.model.bm → Spec.nKernelAt m + Spec.constRows m = b := by rintro m rfl; exact hb
    obtain ⟨R, hR, R1⟩ := C108_kernel_eval (s := s3.model) (k := k) (by rw [hs3]) (by rw [hs3]; exact e6) (bm3' bm3) n pts
    obtain ⟨R', hR', R1'⟩ := C108_kernel_eval (s := { s1'.model with method := some km, kernel := some ⟨_, _, k'⟩ }) (k := k')
      rfl f6 (by dsimp only; rw [f2, h.span.nKernelAt, hcr]; exact hb) n pts
    refine ⟨R, R', hR, hR', fun t l hl i j => ?_⟩
    rw [R1 t l hl, R1' t l hl]
    have hK : ∀ k, k < Spec.nKernelAt s.model.bm → Spec.kernelAt s'.model.bm (pts i) k j = _ :=
      fun k hk => h.span.kernelAt q1 (pts i) j hk
    have key := contract_mix hb (D := corrMix s.model.bm T) (fun k l hk => Spec.SameSpan.corrMix_zero q1 hk) (t3 t) hK ⟨l, hl⟩
    have cast : ∀ (m : BasisModel K) (k : KernelData K b s.model.bm.dimObs) (w z : ℕ) (hw : Spec.nKernelAt m = w) (hz : Spec.constRows m = z)
        (hb : Spec.nKernelAt m + Spec.constRows m = b) (hb' : w + z = b) (f : ℕ → K),
        ∑ p : Fin (Spec.nKernelAt m), k.kernel.get t ⟨p + Spec.constRows m, by have := p.2; omega⟩ ⟨l, hl⟩ * f p =
        ∑ p : Fin w, k.kernel.get t ⟨p + z, by have := p.2; omega⟩ ⟨l, hl⟩ * f p := by
      rintro m k w z rfl rfl _ _ f
      rfl
    refine (cast s1'.model.bm k' _ _ (by rw [f2, h.span.nKernelAt]) (by rw [f2, hcr])
      (by rw [f2, h.span.nKernelAt, hcr]; exact hb) hb fun p => Spec.kernelAt s1'.model.bm (pts i) p j).trans ?_
    refine Eq.trans ?_ (cast s3.model.bm k _ _ (by rw [bm3]) (by rw [bm3]) (bm3' bm3) hb
      fun p => Spec.kernelAt s3.model.bm (pts i) p j).symm
    simp only [f2, bm3]
    exact key
  · subst hn
    refine ⟨k, k', hf3, hf3', fun k hk j hj => ?_, by rw [hs3], rfl, by rw [t1], fun t => by rw [t1, one_mul], t2, fun i => ?_⟩
    · beta_reduce
      rw [← hcc k hk j hj, Finset.sum_eq_single_of_mem j (mem_range.2 hj) fun q _ hq => by rw [if_neg (Ne.symm hq), zero_mul],
        if_pos rfl, one_mul]
    · have : (mixMat s.model.bm.dimObs fun i j => if i = j then (1 : K) else 0) = 1 := by
        ext i j
        simp [mixMat, Matrix.one_apply, Fin.ext_iff]
      rw [inv_one, one_smul, this, Matrix.transpose_one, Matrix.mul_one]
      exact t3 i

/-- **C138.** The force and the kernel that are evaluated after an estimation depend on the space of functions that the
basis spans, not on the basis: when the three steps succeed with one basis, they succeed with the other one, with the same
times and length of the kernel, and `force_eval` and `kernel_eval` return the same values at all points. -/
theorem C138_same_functions [CharZero K] {env : Env K} (hl : IsLoop env.loop) {method : String} {vectorize : Bool}
    (hf : IsCorrFn (env.corrFn method vectorize)) {s s' : EstState K} (h : SameData T T' d s s') {rankTol : Option K}
    {km : String} {s1 s2 s3 : EstState K} (h1 : computeMeanForce env s = (s1, none))
    (h2 : computeCorrs env method vectorize true rankTol s1 = (s2, none))
    (h3 : computeKernelStep km (fun _ _ => none) s2 = (s3, none)) :
    ∃ s1' s2' s3', computeMeanForce env s' = (s1', none) ∧
      computeCorrs env method vectorize true rankTol s1' = (s2', none) ∧
      computeKernelStep km (fun _ _ => none) s2' = (s3', none) ∧
      (∀ n pts, ∃ F F', forceEval s3.model none n pts = .ok F ∧ forceEval s3'.model none n pts = .ok F' ∧
        F'.rows = F.rows ∧ F'.cols = F.cols ∧ ∀ i, ∀ l < s.model.bm.dimObs, F'.get i l = F.get i l) ∧
      (∃ b x k k', s3.model.kernel = some ⟨b, x, k⟩ ∧ s3'.model.kernel = some ⟨b, x, k'⟩ ∧ k'.time = k.time ∧
        k'.kernel.len = k.kernel.len) ∧
      ((s.model.bm.cls = .hybrid → s.model.bm.dimx = 1) → (s.model.bm.cls = .constKernel → s.model.bm.dimObs = s.model.bm.dimx) →
        ∀ n pts, ∃ R R', kernelEvalAt s3.model n pts = .ok R ∧ kernelEvalAt s3'.model n pts = .ok R' ∧
          ∀ t, ∀ l < s.model.bm.dimObs, ∀ i j, R' t l i j = R t l i j) := by
  obtain ⟨s1', s2', s3', a, b, c, d, -⟩ := same_functions_all hl hf h h1 h2 h3
  exact ⟨s1', s2', s3', a, b, c, d⟩

end

/-! ### Example: `1`, `x` and `1 + x`, `2 x` -/

namespace BasisChangeEx

def T (i j : ℕ) : ℚ := if i ≤ j then (if i = 0 then 1 else 2) else 0
def T' (i j : ℕ) : ℚ := if i ≤ j then (if j = 0 then 1 else if i = 0 then -1 / 2 else 1 / 2) else 0

def basis' : PointBasis ℚ where
  nOut := 2
  constRemoved := false
  basis := fun x k => ∑ l ∈ range 2, T k l * Ex.basis.basis x l
  deriv := fun x k d => ∑ l ∈ range 2, T k l * Ex.basis.deriv x l d
  hessian := fun x k d d' => ∑ l ∈ range 2, T k l * Ex.basis.hessian x l d d'
  antiderivative := Ex.basis.antiderivative

def state (b : PointBasis ℚ) : EstState ℚ :=
  { Ex.state false with model := { (Ex.state false).model with bm := ⟨.hybrid, b, 1, 1⟩ } }

theorem inv : IsInv 2 T T' := by
  show ∀ i < 2, ∀ k < 2, _
  decide +kernel

theorem sameData : SameData T T' "dim_x" (state Ex.basis) (state basis') where
  span := ⟨rfl, rfl, rfl, rfl, rfl, rfl, inv, fun _ _ _ => rfl, fun _ _ _ _ => rfl, fun _ _ _ _ _ => rfl⟩
  xvas := rfl
  Lobs := rfl
  dt := rfl
  truncInd := rfl
  noProj := rfl
  noProj' := rfl
  obs := Ex.sameObs
  dim := by decide
  dimx := by
    intro x hx
    simp only [state, Ex.state, Ex.xvas, List.mem_cons, List.not_mem_nil, or_false] at hx
    rcases hx with rfl | rfl <;> rfl
  npos := by decide
  xpos := by decide
  tpos := by decide
  tle := by
    intro x hx
    simp only [state, Ex.state, Ex.xvas, List.mem_cons, List.not_mem_nil, or_false] at hx
    rcases hx with rfl | rfl <;> simp [Ex.xva, state, Ex.state]
  ne := Ex.nonempty

theorem step1 : (computeMeanForce Ex.env (state Ex.basis)).2 = none := by decide +kernel
theorem step2 : (computeCorrs Ex.env "direct" false true none (computeMeanForce Ex.env (state Ex.basis)).1).2 = none := by
  decide +kernel
theorem step3 : (computeKernelStep "second_kind_rect" (fun _ _ => none)
    (computeCorrs Ex.env "direct" false true none (computeMeanForce Ex.env (state Ex.basis)).1).1).2 = none := by
  decide +kernel

example := C138_same_functions Ex.isLoop Ex.isCorrFn sameData (Prod.ext rfl step1) (Prod.ext rfl step2) (Prod.ext rfl step3)

/-- The coefficients do change. -/
example : ((computeMeanForce Ex.env (state Ex.basis)).1.model.forceCoeff.map fun c => c.get [1, 0]) ≠
    ((computeMeanForce Ex.env (state basis')).1.model.forceCoeff.map fun c => c.get [1, 0]) := by decide +kernel

end BasisChangeEx

end Verif
