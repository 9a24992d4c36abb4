import Verif.Props.Consistent
import Verif.Props.Units
import Verif.Lemmas.RightMul

/-!
# Change of coordinates and of units, from the trajectories to the evaluated force and kernel (C144)
-/

namespace Verif

set_option linter.unusedSectionVars false

open LArr Finset

namespace Spec

variable {K : Type*} [Field K]

/-- `y = R x`, for vectors of size `n`. -/
def Moved (n : ℕ) (R : ℕ → ℕ → K) (x y : ℕ → K) : Prop := ∀ i < n, y i = ∑ j ∈ range n, R i j * x j

/-- The same trajectory in the coordinates `R x` and with times multiplied by `c`. The components of the observable `L` are mixed
by `Q`. -/
structure MovedXva (L : String) (nx no : ℕ) (R Q : ℕ → ℕ → K) (c : K) (y y' : Xva K) : Prop where
  n : y'.n = y.n
  x : ∀ t, Moved nx R (y.data "x" t) (y'.data "x" t)
  v : ∀ t, Moved nx (fun i j => R i j / c) (y.data "v" t) (y'.data "v" t)
  a : ∀ t, Moved nx (fun i j => R i j / c ^ 2) (y.data "a" t) (y'.data "a" t)
  obs : ∀ t, Moved no Q (y.data L t) (y'.data L t)

/-- The members of the second list, in some order, correspond to those of the first list. -/
def Linked {α β : Type*} (P : α → β → Prop) (xs : List α) (ys : List β) : Prop := ∃ zs, List.Forall₂ P xs zs ∧ zs.Perm ys

/-- The basis of `m'` consists of the functions of `m` in the coordinates `R x`, where `R'` is the inverse of `R`; the derivatives
follow the chain rule. -/
structure MovedBasis (R R' : ℕ → ℕ → K) (m m' : BasisModel K) : Prop where
  cls : m'.cls = m.cls
  dimx : m'.dimx = m.dimx
  dimObs : m'.dimObs = m.dimObs
  nOut : m'.basis.nOut = m.basis.nOut
  constRemoved : m'.basis.constRemoved = m.basis.constRemoved
  inv : IsInv m.dimx R R'
  basis : ∀ x y, Moved m.dimx R x y → ∀ k < m.basis.nOut, m'.basis.basis y k = m.basis.basis x k
  deriv : ∀ x y, Moved m.dimx R x y → ∀ k < m.basis.nOut, ∀ j < m.dimx,
    m'.basis.deriv y k j = ∑ i ∈ range m.dimx, m.basis.deriv x k i * R' i j
  hessian : ∀ x y, Moved m.dimx R x y → ∀ k < m.basis.nOut, ∀ j < m.dimx, ∀ j' < m.dimx,
    m'.basis.hessian y k j j' = ∑ i ∈ range m.dimx, ∑ i' ∈ range m.dimx, m.basis.hessian x k i i' * R' i j * R' i' j'

/-- The kernel of these classes multiplies the velocity, in the others it does not. -/
def kernelOfVelocity : ModelClass → Bool
  | .posGle | .withFriction | .constKernel => true
  | .noVelBasis | .hybrid | .overdamped => false

/-- `m'` evaluates the force and the kernel that `m` evaluates, in the coordinates `R x` and with times multiplied by `c`. -/
structure Covariant (R R' Q : ℕ → ℕ → K) (c : K) (bm : BasisModel K) (m m' : ModelState K) : Prop where
  force : ∀ n (pts pts' : ℕ → ℕ → K), (∀ i, Moved bm.dimx R (pts i) (pts' i)) → ∃ F F', forceEval m none n pts = .ok F ∧
    forceEval m' none n pts' = .ok F' ∧ F'.rows = F.rows ∧ F'.cols = F.cols ∧
    ∀ i, ∀ l < bm.dimObs, F'.get i l = ∑ q ∈ range bm.dimObs, Q l q * F.get i q
  kernel : ∃ b x k k', m.kernel = some ⟨b, x, k⟩ ∧ m'.kernel = some ⟨b, x, k'⟩ ∧ k'.time.len = k.time.len ∧
    (∀ t, k'.time.get t = c * k.time.get t) ∧ k'.kernel.len = k.kernel.len
  eval : (bm.cls = .hybrid → bm.dimx = 1) → (bm.cls = .constKernel → bm.dimObs = bm.dimx) →
    ∀ n (pts pts' : ℕ → ℕ → K), (∀ i, Moved bm.dimx R (pts i) (pts' i)) → ∃ G G', kernelEvalAt m n pts = .ok G ∧
      kernelEvalAt m' n pts' = .ok G' ∧ ∀ t, ∀ l < bm.dimObs, ∀ i, ∀ d < bm.dimx, G' t l i d =
        if kernelOfVelocity bm.cls then ∑ q ∈ range bm.dimObs, Q l q * ∑ e ∈ range bm.dimx, G t q i e * R' e d
        else (∑ q ∈ range bm.dimObs, Q l q * G t q i d) / c

end Spec

open Spec (IsInv Moved MovedXva MovedBasis Covariant Linked SameSpan)

section
variable {α β γ : Type*}

theorem map_link {P : α → β → Prop} {xs : List α} {ys : List β} (h : Linked P xs ys) {f : α → γ} {g : β → γ}
    (hfg : ∀ x y, P x y → g y = f x) : (ys.map g).Perm (xs.map f) := by
  obtain ⟨zs, h, hp⟩ := h
  refine (hp.symm.map g).trans (List.Perm.of_eq ?_)
  clear hp
  induction h with
  | nil => rfl
  | cons h _ ih => rw [List.map_cons, List.map_cons, hfg _ _ h, ih]

end

section
variable {K : Type*} [Field K]

/-- The diagonal matrix. -/
def scaleMix (f : ℕ → K) (k l : ℕ) : K := if k = l then f k else 0

theorem scaleMix_sum {a k : ℕ} (hk : k < a) (f g : ℕ → K) : ∑ l ∈ range a, scaleMix f k l * g l = f k * g k := by
  rw [sum_eq_single k]
  · rw [scaleMix, if_pos rfl]
  · intro l _ h
    rw [scaleMix, if_neg h.symm, zero_mul]
  · intro h
    exact absurd (mem_range.2 hk) h

theorem scaleMix_left {a k : ℕ} (hk : k < a) (f g : ℕ → K) : ∑ l ∈ range a, scaleMix f l k * g l = f k * g k := by
  rw [sum_eq_single k]
  · rw [scaleMix, if_pos rfl]
  · intro l _ h
    rw [scaleMix, if_neg h, zero_mul]
  · intro h
    exact absurd (mem_range.2 hk) h

theorem scaleMix_inv (a : ℕ) {f : ℕ → K} (hf : ∀ k, f k ≠ 0) : IsInv a (scaleMix f) (scaleMix fun k => (f k)⁻¹) := fun i hi k _ => by
  rw [scaleMix_sum hi, scaleMix]
  split_ifs with h
  · rw [mul_inv_cancel₀ (hf i)]
  · rw [mul_zero]

theorem IsInv_scale {a : ℕ} {R R' : ℕ → ℕ → K} (h : IsInv a R R') {c : K} (hc : c ≠ 0) :
    IsInv a (fun i j => R i j / c) fun i j => R' i j * c := fun i hi k hk => by
  rw [← h i hi k hk]
  exact sum_congr rfl fun l _ => by field_simp

theorem IsInv_symm {a : ℕ} {R R' : ℕ → ℕ → K} (h : IsInv a R R') : IsInv a R' R := fun i hi k hk => by
  have e1 : mixMat a R' * mixMat a R = 1 := mul_eq_one_comm.1 (mixMat_mul h)
  have e := congrFun (congrFun e1 ⟨i, hi⟩) ⟨k, hk⟩
  rw [Matrix.mul_apply, Matrix.one_apply] at e
  rw [Finset.sum_range]
  simp only [Fin.mk.injEq] at e
  exact e

/-- Gradient times velocity does not depend on the coordinates. -/
theorem grad_moved {a : ℕ} {R R' : ℕ → ℕ → K} (h : IsInv a R R') {c : K} {g g' v v' : ℕ → K}
    (hg : ∀ j < a, g' j = ∑ i ∈ range a, g i * R' i j) (hv : Moved a (fun i j => R i j / c) v v') :
    ∑ d ∈ range a, g' d * v' d = c⁻¹ * ∑ d ∈ range a, g d * v d := by
  have e : ∀ i < a, ∑ d ∈ range a, R' i d * v' d = c⁻¹ * v i := fun i hi => by
    rw [sum_congr rfl fun d hd => by rw [hv d (mem_range.1 hd), mul_sum], sum_comm]
    have : ∀ j ∈ range a, ∑ d ∈ range a, R' i d * (R d j / c * v j) = (if i = j then 1 else 0) * (c⁻¹ * v j) := fun j hj => by
      rw [← IsInv_symm h i hi j (mem_range.1 hj), sum_mul]
      exact sum_congr rfl fun d _ => by rw [div_eq_mul_inv]; ring
    rw [sum_congr rfl this]
    simp [hi]
  rw [sum_congr rfl fun d hd => by rw [hg d (mem_range.1 hd), sum_mul], sum_comm, mul_sum]
  refine sum_congr rfl fun i hi => ?_
  rw [sum_congr rfl fun d _ => mul_assoc (g i) (R' i d) (v' d), ← mul_sum, e i (mem_range.1 hi)]
  ring

theorem hess_moved {a : ℕ} {R R' : ℕ → ℕ → K} (h : IsInv a R R') {c : K} {g g' : ℕ → ℕ → K} {v v' : ℕ → K}
    (hg : ∀ j < a, ∀ j' < a, g' j j' = ∑ i ∈ range a, ∑ i' ∈ range a, g i i' * R' i j * R' i' j')
    (hv : Moved a (fun i j => R i j / c) v v') :
    ∑ d ∈ range a, ∑ d' ∈ range a, g' d d' * v' d * v' d' = (c ^ 2)⁻¹ * ∑ d ∈ range a, ∑ d' ∈ range a, g d d' * v d * v d' := by
  have s1 : ∀ d < a, ∑ d' ∈ range a, g' d d' * v' d' = c⁻¹ * ∑ d' ∈ range a, (∑ i ∈ range a, g i d' * R' i d) * v d' :=
    fun d hd => grad_moved h (g := fun i' => ∑ i ∈ range a, g i i' * R' i d) (fun j' hj' => by
      rw [hg d hd j' hj', sum_comm]
      exact sum_congr rfl fun i' _ => by rw [sum_mul]) hv
  have s2 := grad_moved h (g := fun i => ∑ d' ∈ range a, g i d' * v d')
    (g' := fun j => ∑ d' ∈ range a, (∑ i ∈ range a, g i d' * R' i j) * v d') (fun j _ => by
      simp only [sum_mul]
      rw [sum_comm]
      exact sum_congr rfl fun i _ => sum_congr rfl fun d' _ => by ring) hv
  calc ∑ d ∈ range a, ∑ d' ∈ range a, g' d d' * v' d * v' d'
      = ∑ d ∈ range a, (c⁻¹ * ∑ d' ∈ range a, (∑ i ∈ range a, g i d' * R' i d) * v d') * v' d :=
        sum_congr rfl fun d hd => by
          rw [← s1 d (mem_range.1 hd), sum_mul]
          exact sum_congr rfl fun d' _ => by ring
    _ = c⁻¹ * (c⁻¹ * ∑ d ∈ range a, (∑ d' ∈ range a, g d d' * v d') * v d) := by
        rw [← s2, mul_sum]
        exact sum_congr rfl fun d _ => by ring
    _ = _ := by
        rw [← mul_assoc, ← mul_inv, ← pow_two]
        congr 1
        exact sum_congr rfl fun d _ => by
          rw [sum_mul]
          exact sum_congr rfl fun d' _ => by ring

/-- How the functions of the mean force are scaled. -/
def forceScale (m : BasisModel K) (c : K) (k : ℕ) : K := if m.cls = .withFriction ∧ m.basis.nOut ≤ k then c⁻¹ else 1

/-- How the functions are mixed whose correlations are computed. -/
def corrMove (m : BasisModel K) (R : ℕ → ℕ → K) (c : K) : ℕ → ℕ → K :=
  match m.cls with
  | .posGle | .withFriction => scaleMix fun _ => c⁻¹
  | .noVelBasis | .overdamped => unitMix
  | .constKernel => fun i j => R i j / c
  | .hybrid => blockMix m.dimx (fun i j => R i j / c) unitMix

def corrMove' (m : BasisModel K) (R' : ℕ → ℕ → K) (c : K) : ℕ → ℕ → K :=
  match m.cls with
  | .posGle | .withFriction => scaleMix fun _ => c⁻¹⁻¹
  | .noVelBasis | .overdamped => unitMix
  | .constKernel => fun i j => R' i j * c
  | .hybrid => blockMix m.dimx (fun i j => R' i j * c) unitMix

variable {R R' Q : ℕ → ℕ → K} {c : K} {m m' : BasisModel K} {L : String} {y y' : Xva K}

theorem forceScale_ne (hc : c ≠ 0) (k : ℕ) : forceScale m c k ≠ 0 := by
  unfold forceScale
  split_ifs
  · exact inv_ne_zero hc
  · exact one_ne_zero

theorem corrMove_inv (h : IsInv m.dimx R R') (hc : c ≠ 0) : IsInv (Spec.nCorr m) (corrMove m R c) (corrMove' m R' c) := by
  unfold corrMove corrMove' Spec.nCorr
  cases m.cls
  · exact scaleMix_inv _ fun _ => inv_ne_zero hc
  · exact scaleMix_inv _ fun _ => inv_ne_zero hc
  · exact unitMix_inv _
  · exact IsInv_scale h hc
  · exact blockMix_inv (IsInv_scale h hc) (unitMix_inv _)
  · exact unitMix_inv _

theorem Spec.MovedBasis.nForce (h : MovedBasis R R' m m') : m'.nForce = m.nForce := by
  unfold BasisModel.nForce
  rw [h.cls, h.nOut, h.dimx, h.constRemoved]

theorem Spec.MovedBasis.nCorr (h : MovedBasis R R' m m') : Spec.nCorr m' = Spec.nCorr m := by
  unfold Spec.nCorr
  rw [h.cls, h.nOut, h.dimx, h.constRemoved]

theorem Spec.MovedBasis.nKernelAt (h : MovedBasis R R' m m') : Spec.nKernelAt m' = Spec.nKernelAt m := by
  unfold Spec.nKernelAt
  rw [h.cls, h.nOut, h.dimx, h.constRemoved, h.dimObs]

theorem Spec.MovedBasis.grad (h : MovedBasis R R' m m') (hy : MovedXva L m.dimx m.dimObs R Q c y y') (t : ℕ) {k : ℕ}
    (hk : k < m.basis.nOut) :
    ∑ d ∈ range m.dimx, m'.basis.deriv (y'.data "x" t) k d * y'.data "v" t d =
      c⁻¹ * ∑ d ∈ range m.dimx, m.basis.deriv (y.data "x" t) k d * y.data "v" t d :=
  grad_moved h.inv (h.deriv _ _ (hy.x t) k hk) (hy.v t)

theorem Spec.MovedBasis.forceFeature (h : MovedBasis R R' m m') (hm : m.WF) (hy : MovedXva L m.dimx m.dimObs R Q c y y')
    (hd : y.dimx = m.dimx) (hd' : y'.dimx = m.dimx) (t : ℕ) {k : ℕ} (hk : k < m.nForce) :
    Spec.forceFeature m' y' t k = forceScale m c k * Spec.forceFeature m y t k := by
  unfold Spec.forceFeature forceScale
  rw [h.cls, h.nOut, hd, hd']
  rw [nForce_wf hm] at hk
  split_ifs with h1
  · refine h.grad hy t ?_
    rw [if_pos h1.1] at hk
    have : m.nDeriv ≤ m.basis.nOut := by unfold BasisModel.nDeriv; cases m.cls <;> simp
    omega
  · rw [one_mul]
    refine h.basis _ _ (hy.x t) k ?_
    split_ifs at hk with h2
    · by_contra h3
      exact h1 ⟨h2, by omega⟩
    · exact hk

theorem Spec.MovedBasis.corrFeature (h : MovedBasis R R' m m') (hy : MovedXva L m.dimx m.dimObs R Q c y y')
    (hd : y.dimx = m.dimx) (hd' : y'.dimx = m.dimx) (t : ℕ) {k : ℕ} (hk : k < Spec.nCorr m) :
    Spec.corrFeature m' y' t k = ∑ l ∈ range (Spec.nCorr m), corrMove m R c k l * Spec.corrFeature m y t l := by
  unfold Spec.corrFeature corrMove
  unfold Spec.nCorr at hk ⊢
  rw [h.cls, h.dimx, hd, hd']
  cases hc : m.cls <;> simp only [hc] at hk ⊢
  · rw [scaleMix_sum hk]; exact h.grad hy t (by omega)
  · rw [scaleMix_sum hk]; exact h.grad hy t (by omega)
  · rw [unitMix_sum hk]; exact h.basis _ _ (hy.x t) k hk
  · exact hy.v t k hk
  · rw [blockMix_sum]
    split_ifs with h1
    · rw [hy.v t k h1]
      exact sum_congr rfl fun l hl => by rw [if_pos (mem_range.1 hl)]
    · rw [unitMix_sum (by omega), if_neg (by omega), Nat.add_sub_cancel_left]
      exact h.basis _ _ (hy.x t) _ (by omega)
  · rw [unitMix_sum hk]; exact h.basis _ _ (hy.x t) k hk

theorem Spec.MovedBasis.codeDot (h : MovedBasis R R' m m') (hy : MovedXva L m.dimx m.dimObs R Q c y y')
    (hd : y.dimx = m.dimx) (hd' : y'.dimx = m.dimx) (t : ℕ) {k : ℕ} (hk : k < Spec.nCorr m) :
    codeDot m' y' t k = ∑ l ∈ range (Spec.nCorr m), c⁻¹ * corrMove m R c k l * codeDot m y t l := by
  have hacc : ∀ k < m.basis.nOut, ∑ d ∈ range m.dimx, m'.basis.deriv (y'.data "x" t) k d * y'.data "a" t d =
      (c ^ 2)⁻¹ * ∑ d ∈ range m.dimx, m.basis.deriv (y.data "x" t) k d * y.data "a" t d := fun k hk =>
    grad_moved h.inv (h.deriv _ _ (hy.x t) k hk) (hy.a t)
  have hhess : ∀ k < m.basis.nOut, _ := fun k hk => hess_moved h.inv (h.hessian _ _ (hy.x t) k hk) (hy.v t)
  have hcc : (c ^ 2)⁻¹ = c⁻¹ * c⁻¹ := by rw [pow_two, mul_inv]
  rw [sum_congr rfl fun l _ => mul_assoc c⁻¹ (corrMove m R c k l) (Verif.codeDot m y t l), ← mul_sum]
  unfold Verif.codeDot Spec.corrFeatureDot corrMove
  unfold Spec.nCorr at hk ⊢
  rw [h.cls, h.dimx, hd, hd', hy.n]
  cases hc : m.cls <;> simp only [hc] at hk ⊢
  · rw [scaleMix_sum hk, hacc _ (by omega), hhess _ (by omega), hcc]; ring
  · rw [scaleMix_sum hk, hacc _ (by omega), hhess _ (by omega), hcc]; ring
  · rw [unitMix_sum hk]; exact h.grad hy t hk
  · rw [hy.a t k hk, mul_sum]
    exact sum_congr rfl fun l _ => by dsimp only; rw [div_eq_mul_inv, div_eq_mul_inv, hcc]; ring
  · rw [blockMix_sum]
    split_ifs with h1
    · rw [hy.a t k h1, mul_sum]
      exact sum_congr rfl fun l hl => by rw [if_pos (mem_range.1 hl)]; dsimp only; rw [div_eq_mul_inv, div_eq_mul_inv, hcc]; ring
    · rw [unitMix_sum (by omega), if_neg (by omega), Nat.add_sub_cancel_left, mul_sum]
      exact sum_congr rfl fun t _ => h.grad hy t (by omega)
  · rw [unitMix_sum hk]; exact h.grad hy t hk

/-- The function that the rows of the kernel multiply. -/
def kernelMoved (m : BasisModel K) (R' : ℕ → ℕ → K) (c : K) (pt : ℕ → K) (d k : ℕ) : K :=
  if Spec.kernelOfVelocity m.cls then c * ∑ e ∈ range m.dimx, Spec.kernelAt m pt k e * R' e d else Spec.kernelAt m pt k d

theorem Spec.MovedBasis.kernelAt (h : MovedBasis R R' m m') (hc0 : c ≠ 0) (q1 : m.cls = .hybrid → m.dimx = 1)
    (q2 : m.cls = .constKernel → m.dimObs = m.dimx) {pt pt' : ℕ → K} (hp : Moved m.dimx R pt pt') {d : ℕ} (hd : d < m.dimx) {k : ℕ}
    (hk : k < Spec.nKernelAt m) : Spec.kernelAt m' pt' k d = ∑ l ∈ range (Spec.nKernelAt m),
      corrMove m R c (k + Spec.constRows m) (l + Spec.constRows m) * kernelMoved m R' c pt d l := by
  unfold Spec.kernelAt corrMove Spec.constRows kernelMoved Spec.kernelAt
  unfold Spec.nKernelAt at hk ⊢
  rw [h.cls]
  cases hcl : m.cls <;>
    simp only [hcl, reduceCtorEq, if_false, if_true, add_zero, Spec.kernelOfVelocity, Bool.false_eq_true] at hk ⊢
  · rw [scaleMix_sum hk, h.deriv _ _ hp k (by omega) d hd, inv_mul_cancel_left₀ hc0]
  · rw [scaleMix_sum hk, h.deriv _ _ hp k (by omega) d hd, inv_mul_cancel_left₀ hc0]
  · rw [unitMix_sum hk]; exact h.basis _ _ hp k hk
  · rw [q2 hcl] at hk ⊢
    rw [← h.inv k hk d hd]
    refine sum_congr rfl fun l hl => ?_
    have : ∑ e ∈ range m.dimx, (if l = e then (1 : K) else 0) * R' e d = R' l d := unitMix_sum (mem_range.1 hl) fun e => R' e d
    rw [this, ← mul_assoc, div_mul_cancel₀ _ hc0]
  · rw [sum_congr rfl fun l _ => show blockMix m.dimx (fun i j => R i j / c) unitMix (k + 1) (l + 1) * m.basis.basis pt l =
        unitMix k l * m.basis.basis pt l by rw [q1 hcl, blockMix, if_neg (by omega), if_neg (by omega)]; rfl, unitMix_sum hk]
    exact h.basis _ _ hp k hk
  · rw [unitMix_sum hk]; exact h.basis _ _ hp k hk

theorem corrMove_zero (hc : m.cls = .hybrid → m.dimx = 1) {k l : ℕ} (hk : k < Spec.constRows m) :
    corrMove m R c k (l + Spec.constRows m) = 0 := by
  unfold Spec.constRows at hk ⊢
  unfold corrMove
  split_ifs at hk ⊢ with h
  · rw [h]
    dsimp only
    rw [blockMix, if_pos (by rw [hc h]; omega), if_neg (by rw [hc h]; omega)]
  · omega

theorem rows_all (m : BasisModel K) (q1 : m.cls = .hybrid → m.dimx = 1) (q2 : m.cls = .constKernel → m.dimObs = m.dimx) :
    Spec.nKernelAt m + Spec.constRows m = Spec.nCorr m := by
  unfold Spec.nKernelAt Spec.constRows Spec.nCorr
  cases hcl : m.cls <;> simp_all
  omega

/-! ### Sums over linked trajectories -/

theorem weightedMean_perm {l l' : List (ℕ × K)} (h : l.Perm l') : Spec.weightedMean l = Spec.weightedMean l' := by
  unfold Spec.weightedMean
  rw [(h.map _).sum_eq, (h.map _).sum_eq]

theorem pooledSum_perm {l l' : List (ℕ × (ℕ → K))} (h : l.Perm l') : Spec.pooledSum l = Spec.pooledSum l' := by
  unfold Spec.pooledSum
  exact (h.map _).sum_eq

section
variable {P : Xva K → Xva K → Prop} {xs ys : List (Xva K)} {a b : ℕ} {S T : ℕ → ℕ → K} {F F' G G' : ℕ → Xva K → ℕ → K}

theorem meanCorr_link (h : Linked P xs ys) (hn : ∀ x y, P x y → y.n = x.n)
    (hF : ∀ x y, P x y → ∀ t, ∀ k < a, F' k y t = ∑ l ∈ range a, S k l * F l x t)
    (hG : ∀ x y, P x y → ∀ t, ∀ k < b, G' k y t = ∑ l ∈ range b, T k l * G l x t) (n : ℕ) (i : Fin a) (j : Fin b) :
    Spec.meanCorr ys (F' i) (G' j) n = (mixMat a S * (Matrix.of fun (i : Fin a) (j : Fin b) => Spec.meanCorr xs (F i) (G j) n) *
      (mixMat b T).transpose) i j := by
  have e : Spec.meanCorr ys (F' i) (G' j) n = Spec.meanCorr xs (fun x t => ∑ l ∈ range a, S i l * F l x t)
      (fun x t => ∑ l ∈ range b, T j l * G l x t) n := by
    unfold Spec.meanCorr
    refine weightedMean_perm (map_link h fun x y hxy => ?_)
    rw [hn x y hxy, show F' i y = _ from funext fun t => hF x y hxy t i i.2, show G' j y = _ from funext fun t => hG x y hxy t j j.2]
  rw [e, meanCorr_mix xs a (S i) F, Matrix.mul_assoc, Matrix.mul_apply, Finset.sum_range]
  refine sum_congr rfl fun l _ => ?_
  rw [meanCorr_mix_right xs b (T j) (F l) G, Matrix.mul_apply, Finset.sum_range]
  congr 1
  exact sum_congr rfl fun r _ => mul_comm _ _

theorem pooled_link (h : Linked P xs ys) (hn : ∀ x y, P x y → y.n = x.n)
    (hF : ∀ x y, P x y → ∀ t, ∀ k < a, F' k y t = ∑ l ∈ range a, S k l * F l x t)
    (hG : ∀ x y, P x y → ∀ t, ∀ k < b, G' k y t = ∑ l ∈ range b, T k l * G l x t) :
    (Matrix.of fun (i : Fin a) (j : Fin b) => Spec.pooledSum (ys.map fun y => (y.n, fun t => F' i y t * G' j y t))) =
      mixMat a S * (Matrix.of fun (i : Fin a) (j : Fin b) => Spec.pooledSum (xs.map fun x => (x.n, fun t => F i x t * G j x t))) *
      (mixMat b T).transpose := by
  ext i j
  have e : (ys.map (fun y => (y.n, fun t => F' i y t * G' j y t))).Perm (xs.map fun x => (x.n, fun t =>
      (∑ l ∈ range a, S i l * F l x t) * ∑ l ∈ range b, T j l * G l x t)) := map_link h fun x y hxy => by
    rw [hn x y hxy, show F' i y = _ from funext fun t => hF x y hxy t i i.2, show G' j y = _ from funext fun t => hG x y hxy t j j.2]
  rw [Matrix.of_apply, pooledSum_perm e, pooled_mix xs a (S i) F, Matrix.mul_assoc, Matrix.mul_apply, Finset.sum_range]
  refine sum_congr rfl fun l _ => ?_
  rw [pooled_mix_right xs b (T j) (F l) G, Matrix.mul_apply, Finset.sum_range]
  congr 1
  exact sum_congr rfl fun r _ => mul_comm _ _

end

end


section
variable {K : Type*} [Field K] [LinearOrder K] {R R' Q : ℕ → ℕ → K} {c : K} {d : String}

/-- The same trajectories, in any order, and settings, in other coordinates and units. -/
structure MovedData (R R' Q : ℕ → ℕ → K) (c : K) (s s' : EstState K) : Prop where
  unit : c ≠ 0
  basis : MovedBasis R R' s.model.bm s'.model.bm
  xvas : Linked (MovedXva s.model.Lobs s.model.bm.dimx s.model.bm.dimObs R Q c) s.xvas s'.xvas
  Lobs : s'.model.Lobs = s.model.Lobs
  dt : s'.model.dt = c * s.model.dt
  truncInd : s'.model.truncInd = s.model.truncInd

theorem linked_mem {α β : Type*} {P : α → β → Prop} {xs : List α} {ys : List β} (h : Linked P xs ys) :
    Linked (fun x y => P x y ∧ x ∈ xs ∧ y ∈ ys) xs ys := by
  obtain ⟨zs, h, hp⟩ := h
  refine ⟨zs, ?_, hp⟩
  have key : List.Forall₂ (fun x y => P x y ∧ x ∈ xs ∧ y ∈ zs) xs zs := by
    clear hp
    induction h with
    | nil => exact List.Forall₂.nil
    | cons h _ ih =>
      refine List.Forall₂.cons ⟨h, List.mem_cons_self, List.mem_cons_self⟩ (ih.imp ?_)
      rintro x y ⟨h1, h2, h3⟩
      exact ⟨h1, List.mem_cons_of_mem _ h2, List.mem_cons_of_mem _ h3⟩
  exact key.imp fun x y hxy => ⟨hxy.1, hxy.2.1, hp.mem_iff.1 hxy.2.2⟩

/-- Both mean forces exist, and the coefficients are related by the mixing `F` of the functions and `Q` of the observable. -/
theorem force_of_link [CharZero K] {env : Env K} (hl : IsLoop env.loop) {s s' s1 : EstState K} (wf : s.model.bm.WF)
    (wf' : s'.model.bm.WF) {x : ℕ} (obs : SameObs s.xvas s.model.Lobs d x) (obs' : SameObs s'.xvas s'.model.Lobs d x) (ne : s.xvas ≠ [])
    (ne' : s'.xvas ≠ []) (hn : ∀ xva ∈ s.xvas, 1 ≤ xva.n) (hn' : ∀ xva ∈ s'.xvas, 1 ≤ xva.n) {p : ℕ}
    (hp : p = s.model.bm.nForce) (hp' : s'.model.bm.nForce = p) {mix mix' : ℕ → ℕ → K} (hinv : IsInv p mix mix')
    {P : Xva K → Xva K → Prop} (h : Linked P s.xvas s'.xvas) (hlen : ∀ x y, P x y → y.n = x.n)
    (hfeat : ∀ x y, P x y → ∀ t, ∀ k < p, Spec.forceFeature s'.model.bm y t k =
      ∑ l ∈ range p, mix k l * Spec.forceFeature s.model.bm x t l)
    (hobs : ∀ y y', P y y' → ∀ t, ∀ k < x, y'.data s'.model.Lobs t k = ∑ l ∈ range x, Q k l * y.data s.model.Lobs t l)
    (h1 : computeMeanForce env s = (s1, none)) :
    ∃ s1' c c', computeMeanForce env s' = (s1', none) ∧ s1.model.forceCoeff = some c ∧ s1'.model.forceCoeff = some c' ∧
      c.dims = ["dim_basis", d] ∧ c.shape = [p, x] ∧
      c'.dims = ["dim_basis", d] ∧ c'.shape = [p, x] ∧
      ∀ k < p, ∀ j < x, ∑ l ∈ range p, mix l k * c'.get [l, j] = ∑ q ∈ range x, Q j q * c.get [k, q] := by
  obtain ⟨c, hc, c1, c2, hdet, key⟩ := computeMeanForce_ok hl wf obs ne hn h1
  rw [← hp] at hdet key c2
  have hGG := pooled_link h hlen (F := fun k x t => Spec.forceFeature s.model.bm x t k)
    (F' := fun k x t => Spec.forceFeature s'.model.bm x t k) (G := fun k x t => Spec.forceFeature s.model.bm x t k)
    (G' := fun k x t => Spec.forceFeature s'.model.bm x t k) (S := mix) (T := mix) (a := p) (b := p) hfeat hfeat
  have hRR := pooled_link h hlen (F := fun k x t => Spec.forceFeature s.model.bm x t k)
    (F' := fun k x t => Spec.forceFeature s'.model.bm x t k) (G := fun k x t => x.data s.model.Lobs t k)
    (G' := fun k x t => x.data s'.model.Lobs t k) (S := mix) (T := Q) (a := p) (b := x) hfeat hobs
  obtain ⟨W, hW⟩ : ∃ W : K, W = ((s.xvas.map fun x => x.n).sum : ℕ) := ⟨_, rfl⟩
  have hWW : (s'.xvas.map fun x => x.n).sum = (s.xvas.map fun x => x.n).sum := (map_link h hlen).sum_eq
  have hW0 : W ≠ 0 := by
    obtain ⟨y, hy⟩ := List.exists_mem_of_ne_nil _ ne
    have : y.n ≤ (s.xvas.map fun x => x.n).sum := List.single_le_sum (by simp) _ (List.mem_map_of_mem hy)
    have := hn y hy
    rw [hW]
    exact_mod_cast (by omega : (s.xvas.map fun x => x.n).sum ≠ 0)
  have hFF := mixMat_mul hinv
  obtain ⟨F, hF⟩ : ∃ F : Mat K p p, F = mixMat p mix := ⟨_, rfl⟩
  rw [← hF] at hFF hGG hRR
  obtain ⟨G, hG⟩ : ∃ G : Mat K p p, G = Matrix.of fun i j : Fin p => Spec.pooledSum (s.xvas.map fun xva => (xva.n, fun t =>
        Spec.forceFeature s.model.bm xva t i * Spec.forceFeature s.model.bm xva t j)) := ⟨_, rfl⟩
  obtain ⟨G', hG'⟩ : ∃ G' : Mat K p p, G' = Matrix.of fun i j : Fin p => Spec.pooledSum (s'.xvas.map fun xva => (xva.n, fun t =>
        Spec.forceFeature s'.model.bm xva t i * Spec.forceFeature s'.model.bm xva t j)) := ⟨_, rfl⟩
  rw [← hG, ← hG'] at hGG
  have hGdet : G.det ≠ 0 := by
    have e : G = W • Matrix.of fun i j : Fin p => Spec.pooledMean (s.xvas.map fun xva => (xva.n, fun t =>
        Spec.forceFeature s.model.bm xva t i * Spec.forceFeature s.model.bm xva t j)) := by
      ext i j
      rw [hG, Matrix.smul_apply, Matrix.of_apply, Matrix.of_apply, pooledMean_eq, ← hW, smul_eq_mul, mul_div_cancel₀ _ hW0]
    rw [e, Matrix.det_smul]
    exact mul_ne_zero (pow_ne_zero _ hW0) hdet
  have hGdet' : G'.det ≠ 0 := by
    have : F.det ≠ 0 := by
      intro e
      have := congrArg Matrix.det hFF
      rw [Matrix.det_mul, e, zero_mul, Matrix.det_one] at this
      exact zero_ne_one this
    rw [hGG, Matrix.det_mul, Matrix.det_mul, Matrix.det_transpose]
    exact mul_ne_zero (mul_ne_zero this hGdet) this
  have hdet' : (Matrix.of fun i j : Fin s'.model.bm.nForce => Spec.pooledMean (s'.xvas.map fun xva => (xva.n, fun t =>
        Spec.forceFeature s'.model.bm xva t i * Spec.forceFeature s'.model.bm xva t j))).det ≠ 0 := by
    have key : ∀ q, q = p → (Matrix.of fun i j : Fin q => Spec.pooledMean (s'.xvas.map fun xva => (xva.n, fun t =>
        Spec.forceFeature s'.model.bm xva t i * Spec.forceFeature s'.model.bm xva t j))).det ≠ 0 := by
      rintro q rfl
      have e : G' = W • Matrix.of fun i j : Fin q => Spec.pooledMean (s'.xvas.map fun xva => (xva.n, fun t =>
          Spec.forceFeature s'.model.bm xva t i * Spec.forceFeature s'.model.bm xva t j)) := by
        ext i j
        rw [hG', Matrix.smul_apply, Matrix.of_apply, Matrix.of_apply, pooledMean_eq, hWW, ← hW, smul_eq_mul, mul_div_cancel₀ _ hW0]
      intro e0
      rw [e, Matrix.det_smul, e0, mul_zero] at hGdet'
      exact hGdet' rfl
    exact key _ hp'
  obtain ⟨s1', h1'⟩ := C38_defined hl wf' obs' ne' hn' hdet'
  obtain ⟨c', hc', c1', c2', -, key'⟩ := computeMeanForce_ok hl wf' obs' ne' hn' h1'
  rw [hp'] at c2' key'
  refine ⟨s1', c, c', h1', hc, hc', c1, c2, c1', c2', fun k hk j hj => ?_⟩
  have e := solve_mix (C := (Matrix.of fun (i : Fin p) (j : Fin x) => c.get [(i : ℕ), (j : ℕ)]) * (mixMat x Q).transpose)
    (C' := Matrix.of fun (i : Fin p) (j : Fin x) => c'.get [(i : ℕ), (j : ℕ)]) hFF hGG (hRR.trans (Matrix.mul_assoc _ _ _))
    (by
      rw [← Matrix.mul_assoc]
      congr 1
      ext i j
      rw [Matrix.of_apply, ← key i i.2 j j.2, Matrix.mul_apply, Finset.sum_range, hG]
      rfl)
    (by
      ext i j
      rw [Matrix.of_apply, ← key' i i.2 j j.2, Matrix.mul_apply, Finset.sum_range, hG']
      rfl) hGdet
  have := congrFun (congrFun e ⟨k, hk⟩) ⟨j, hj⟩
  rw [Matrix.mul_apply, Matrix.mul_apply, hF] at this
  rw [Finset.sum_range, Finset.sum_range]
  refine Eq.trans ?_ (this.symm.trans ?_)
  · rfl
  · exact sum_congr rfl fun q _ => mul_comm _ _

/-- The residual of the observable is mixed like the observable. -/
theorem ortho_link {m m' : BasisModel K} {p x : ℕ} (hp : m.nForce = p) (hp' : m'.nForce = p) {mix : ℕ → ℕ → K} {y y' : Xva K}
    {L L' : String} {t : ℕ} (hfeat : ∀ k < p, Spec.forceFeature m' y' t k = ∑ l ∈ range p, mix k l * Spec.forceFeature m y t l)
    (hobs : ∀ k < x, y'.data L' t k = ∑ l ∈ range x, Q k l * y.data L t l) {c c' : LArr K}
    (hc : ∀ k < p, ∀ j < x, ∑ l ∈ range p, mix l k * c'.get [l, j] = ∑ q ∈ range x, Q j q * c.get [k, q]) {j : ℕ} (hj : j < x) :
    Spec.ortho m' L' (fun k j => c'.get [k, j]) y' t j =
      ∑ q ∈ range x, Q j q * Spec.ortho m L (fun k j => c.get [k, j]) y t q := by
  unfold Spec.ortho
  have e : ∑ k ∈ range p, Spec.forceFeature m' y' t k * c'.get [k, j] =
      ∑ k ∈ range p, Spec.forceFeature m y t k * ∑ q ∈ range x, Q j q * c.get [k, q] := by
    rw [sum_congr rfl fun k hk => by rw [hfeat k (mem_range.1 hk)], mix_dot' _ _ _ _ _]
    exact sum_congr rfl fun k hk => by rw [hc k (mem_range.1 hk) j hj]
  rw [hp, hp', hobs j hj, e]
  simp only [mul_sub, sum_sub_distrib]
  congr 1
  simp only [mul_sum]
  rw [sum_comm]
  exact sum_congr rfl fun _ _ => sum_congr rfl fun _ _ => by ring

/-- The solvers on correlations in other coordinates and units. -/
theorem solver_link [CharZero K] {b x : ℕ} {C C' : Corrs K b x} {N : ℕ} (hN : C.N = N) (hN' : C'.N = N) (h1 : 1 ≤ N) (hc : c ≠ 0)
    {D1 D1' : ℕ → Mat K b x} {D2 D2' : ℕ → Mat K b b} (hD1 : C.dotbkdx = some D1) (hD1' : C'.dotbkdx = some D1')
    (hD2 : C.dotbkbk = .arr D2) (hD2' : C'.dotbkbk = .arr D2') {P P' : Mat K b b} (hP : P.transpose * P' = 1) {U : Mat K x x}
    (a1 : ∀ n < N, C'.bkbk n = P * C.bkbk n * P.transpose) (a2 : ∀ n < N, C'.bkdx n = P * C.bkdx n * U)
    (a3 : ∀ n < N, D1' n = c⁻¹ • (P * D1 n * U)) (a4 : ∀ n < N, D2' n = c⁻¹ • (P * D2 n * P.transpose)) {n : ℕ} {dt : K}
    {km : String} {r : KernelData K b x} (h : computeKernel (some C) n dt km none = .ok r) :
    ∃ r', computeKernel (some C') n (c * dt) km none = .ok r' ∧ r'.time.len = r.time.len ∧
      (∀ t, r'.time.get t = c * r.time.get t) ∧ r'.kernel.len = r.kernel.len ∧
      ∀ i, c⁻¹ • (r.kernel.get i * U) = P.transpose * r'.kernel.get i := by
  obtain ⟨r1, e, e1, e2, e3⟩ := C10_kernel_basis hP h
  have s1 := computeKernel_right U (C.changeBasis P) n dt km none
  rw [Option.map_none] at e s1
  rw [e] at s1
  have s2 := C136_units one_ne_zero hc 1 (some ((C.changeBasis P).right U)) n dt km none
  rw [Option.map_none] at s2
  rw [show computeKernel (some ((C.changeBasis P).right U)) n dt km none = .ok (r1.right U) from s1] at s2
  refine ⟨Spec.unitsKernel (1 / (1 * c)) c (r1.right U), ?_, ?_, fun t => ?_, ?_, fun i => ?_⟩
  · refine Eq.trans ?_ s2
    subst hN
    exact computeKernel_agree (c' := Spec.unitsCorrs 1 1 c ((C.changeBasis P).right U)) hN' (by rw [hN']; exact h1) hD1'
      (d' := fun n => (1 / c) • (P * D1 n * U)) (by simp [Corrs.changeBasis, hD1, Spec.unitsCorrs, Corrs.right, rmul]) hD2'
      (bd' := fun n => (1 / c) • (P * D2 n * P.transpose)) (by simp [Corrs.changeBasis, hD2, Spec.unitsCorrs, Corrs.right])
      (by rw [hN']; intro n hn; rw [a1 n hn]; exact (one_smul _ _).symm)
      (by rw [hN']; intro n hn; rw [a2 n hn]; exact (one_smul _ _).symm)
      (by rw [hN']; intro n hn; rw [a3 n hn, one_div])
      (by rw [hN']; intro n hn; rw [a4 n hn, one_div]) _ _ _ _
  · show r1.time.len = _
    rw [e1]
  · show c * r1.time.get t = _
    rw [e1]
  · exact e2
  · show _ = P.transpose * ((1 / (1 * c)) • (r1.kernel.get i * U))
    rw [e3, Matrix.mul_smul, ← Matrix.mul_assoc, ← Matrix.mul_assoc, hP, Matrix.one_mul, one_mul, one_div]


set_option maxHeartbeats 1000000 in
/-- The coefficients and the evaluations of a model estimated in other coordinates and units. -/
theorem covariant_all [CharZero K] {env : Env K} {method : String} {vectorize : Bool} {s s' : EstState K}
    (hs : Setup env method vectorize s.model.bm d s) (hs' : Setup env method vectorize s'.model.bm d s')
    (h : MovedData R R' Q c s s') {rankTol : Option K} {km : String} {s1 s2 s3 : EstState K}
    (h1 : computeMeanForce env s = (s1, none)) (h2 : computeCorrs env method vectorize true rankTol s1 = (s2, none))
    (h3 : computeKernelStep km (fun _ _ => none) s2 = (s3, none)) :
    ∃ s1' s2' s3', computeMeanForce env s' = (s1', none) ∧
      computeCorrs env method vectorize true rankTol s1' = (s2', none) ∧
      computeKernelStep km (fun _ _ => none) s2' = (s3', none) ∧ Covariant R R' Q c s.model.bm s3.model s3'.model ∧
      MovedCoefs (scaleMix (forceScale s.model.bm c)) (corrMove s.model.bm R c) Q c s.model.bm s'.model.bm d s3.model s3'.model := by
  have hpos : ∀ xva ∈ s.xvas, 1 ≤ xva.n := fun xva hx => hs.tpos.trans (hs.tle xva hx)
  have hpos' : ∀ xva ∈ s'.xvas, 1 ≤ xva.n := fun xva hx => hs'.tpos.trans (hs'.tle xva hx)
  have hX := linked_mem h.xvas
  have ob' := hs'.obs
  rw [h.basis.dimObs] at ob'
  have feat : ∀ x y, MovedXva s.model.Lobs s.model.bm.dimx s.model.bm.dimObs R Q c x y ∧ x ∈ s.xvas ∧ y ∈ s'.xvas → ∀ t,
      ∀ k < s.model.bm.nForce, Spec.forceFeature s'.model.bm y t k =
        ∑ l ∈ range s.model.bm.nForce, scaleMix (forceScale s.model.bm c) k l * Spec.forceFeature s.model.bm x t l :=
    fun x y hxy t k hk => by
      rw [scaleMix_sum hk]
      exact h.basis.forceFeature hs.wf hxy.1 (hs.dimx x hxy.2.1) ((hs'.dimx y hxy.2.2).trans h.basis.dimx) t hk
  have fobs : ∀ x y, MovedXva s.model.Lobs s.model.bm.dimx s.model.bm.dimObs R Q c x y ∧ x ∈ s.xvas ∧ y ∈ s'.xvas → ∀ t,
      ∀ k < s.model.bm.dimObs, y.data s'.model.Lobs t k = ∑ l ∈ range s.model.bm.dimObs, Q k l * x.data s.model.Lobs t l :=
    fun x y hxy t k hk => by rw [h.Lobs]; exact hxy.1.obs t k hk
  obtain ⟨s1', fc, fc', h1', hc, hc', c1, c2, c1', c2', hcc⟩ := force_of_link hs.loop hs.wf hs'.wf hs.obs ob' hs.ne hs'.ne hpos
    hpos' rfl h.basis.nForce (scaleMix_inv _ (forceScale_ne h.unit)) hX (fun x y hxy => hxy.1.n) feat fobs h1
  obtain ⟨e1, e2, e3, e4, e5, e6, e7⟩ := computeMeanForce_frame h1
  obtain ⟨f1, f2, f3, f4, f5, f6, f7⟩ := computeMeanForce_frame h1'
  have r : CorrReady env method vectorize s1 d s.model.bm.dimObs fc :=
    ⟨hs.loop, hs.fn, by rw [e2]; exact hs.wf, by rw [e1, e3]; exact hs.obs, hs.dim, by rw [e1, e2]; exact hs.dimx, hc, c1,
    by rw [e2]; exact c2, by rw [e2]; exact hs.npos, hs.xpos, by rw [e5]; exact hs.tpos, by rw [e1, e5]; exact hs.tle,
    by rw [e1]; exact hs.ne⟩
  have r' : CorrReady env method vectorize s1' d s.model.bm.dimObs fc' :=
    ⟨hs.loop, hs.fn, by rw [f2]; exact hs'.wf, by rw [f1, f3]; exact ob', hs.dim, by rw [f1, f2]; exact hs'.dimx, hc', c1',
    by rw [f2, h.basis.nForce]; exact c2', by rw [f2]; exact hs'.npos, hs.xpos, by rw [f5]; exact hs'.tpos,
    by rw [f1, f5]; exact hs'.tle, by rw [f1]; exact hs'.ne⟩
  rw [hs.noProj] at e6
  rw [h.dt] at f4
  rw [h.truncInd] at f5
  rw [hs'.noProj] at f6
  obtain ⟨n, hn⟩ : ∃ n, n = Spec.nCorr s.model.bm := ⟨_, rfl⟩
  obtain ⟨C, hC, s1a, s1b, N, D1, D2, hD1, hD2, hent⟩ := computeCorrs_true (rankTol := rankTol) r e6 (b := n)
    (by rw [e2, hn])
  obtain ⟨C', hC', s1a', s1b', N', D1', D2', hD1', hD2', hent'⟩ := computeCorrs_true (rankTol := rankTol) r' f6 (b := n)
    (by rw [f2, h.basis.nCorr, hn])
  rw [h2] at hC
  obtain rfl : s2 = { s1 with corrs := some C } := (Prod.mk.inj hC).1
  obtain ⟨C0, ⟨b, x, k⟩, hC0, hs3, hk, hb, hx⟩ := C42_method_recorded h3
  obtain rfl : C = C0 := Option.some.inj hC0
  dsimp only at hk hb hx
  rw [s1a] at hb
  rw [s1b] at hx
  subst hx hb
  obtain ⟨M, hM⟩ : ∃ M, M = corrMove s.model.bm R c := ⟨_, rfl⟩
  have hinv := corrMove_inv (m := s.model.bm) h.basis.inv h.unit
  rw [← hn, ← hM] at hinv
  have hfeat : ∀ x y, MovedXva s.model.Lobs s.model.bm.dimx s.model.bm.dimObs R Q c x y ∧ x ∈ s.xvas ∧ y ∈ s'.xvas → ∀ t,
      ∀ k < b, Spec.corrFeature s1'.model.bm y t k = ∑ l ∈ range b, M k l * Spec.corrFeature s1.model.bm x t l :=
    fun x y hxy t k hk => by
      rw [hM, hn, e2, f2]
      exact h.basis.corrFeature hxy.1 (hs.dimx x hxy.2.1) ((hs'.dimx y hxy.2.2).trans h.basis.dimx) t (hn ▸ hk)
  have hdot : ∀ x y, MovedXva s.model.Lobs s.model.bm.dimx s.model.bm.dimObs R Q c x y ∧ x ∈ s.xvas ∧ y ∈ s'.xvas → ∀ t,
      ∀ k < b, codeDot s1'.model.bm y t k = ∑ l ∈ range b, c⁻¹ * M k l * codeDot s1.model.bm x t l :=
    fun x y hxy t k hk => by
      rw [hM, hn, e2, f2]
      exact h.basis.codeDot hxy.1 (hs.dimx x hxy.2.1) ((hs'.dimx y hxy.2.2).trans h.basis.dimx) t (hn ▸ hk)
  have horth : ∀ x y, MovedXva s.model.Lobs s.model.bm.dimx s.model.bm.dimObs R Q c x y ∧ x ∈ s.xvas ∧ y ∈ s'.xvas → ∀ t,
      ∀ j < s.model.bm.dimObs, Spec.ortho s1'.model.bm s1'.model.Lobs (fun k j => fc'.get [k, j]) y t j =
        ∑ q ∈ range s.model.bm.dimObs, Q j q * Spec.ortho s1.model.bm s1.model.Lobs (fun k j => fc.get [k, j]) x t q :=
    fun x y hxy t j hj => by
      rw [e2, f2, e3, f3]
      exact ortho_link rfl h.basis.nForce (feat x y hxy t) (fobs x y hxy t) hcc hj
  have hP : (mixMat b M).transpose * (mixMat b (corrMove' s.model.bm R' c)).transpose = 1 := by
    rw [← Matrix.transpose_mul, mul_eq_one_comm.1 (mixMat_mul hinv), Matrix.transpose_one]
  have hsm : mixMat b (fun i j => c⁻¹ * M i j) = c⁻¹ • mixMat b M := rfl
  have hT : s1'.model.truncInd = s1.model.truncInd := by rw [f5, e5]
  rw [hT] at N' hent'
  rw [e1] at hent
  rw [f1] at hent'
  have hlen : ∀ x y, MovedXva s.model.Lobs s.model.bm.dimx s.model.bm.dimObs R Q c x y ∧ x ∈ s.xvas ∧ y ∈ s'.xvas → y.n = x.n :=
    fun x y hxy => hxy.1.n
  have hxp : 0 < s.model.bm.dimObs := hs.xpos
  obtain ⟨k', hk', t1, t2, t3, t4⟩ := solver_link N N' (by rw [e5]; exact hs.tpos) h.unit hD1 hD1' hD2 hD2' hP
    (U := (mixMat s.model.bm.dimObs Q).transpose)
    (fun m hm => by
      ext p q
      rw [(hent' m hm p q ⟨0, hxp⟩).1]
      refine (meanCorr_link hX hlen (F := fun k x t => Spec.corrFeature s1.model.bm x t k)
        (F' := fun k x t => Spec.corrFeature s1'.model.bm x t k) (G := fun k x t => Spec.corrFeature s1.model.bm x t k)
        (G' := fun k x t => Spec.corrFeature s1'.model.bm x t k) hfeat hfeat m p q).trans ?_
      exact congrFun (congrFun (congrArg (fun A => mixMat b M * A * (mixMat b M).transpose)
        (Matrix.ext fun p q => (hent m hm p q ⟨0, hxp⟩).1.symm)) p) q)
    (fun m hm => by
      ext p j
      rw [(hent' m hm p p j).2.1]
      refine (meanCorr_link hX hlen (F := fun k x t => Spec.corrFeature s1.model.bm x t k)
        (F' := fun k x t => Spec.corrFeature s1'.model.bm x t k)
        (G := fun j x t => Spec.ortho s1.model.bm s1.model.Lobs (fun k j => fc.get [k, j]) x t j)
        (G' := fun j x t => Spec.ortho s1'.model.bm s1'.model.Lobs (fun k j => fc'.get [k, j]) x t j) hfeat horth m p j).trans ?_
      exact congrFun (congrFun (congrArg (fun A => mixMat b M * A * (mixMat s.model.bm.dimObs Q).transpose)
        (Matrix.ext fun p q => (hent m hm p p q).2.1.symm)) p) j)
    (fun m hm => by
      ext p j
      rw [(hent' m hm p p j).2.2.1]
      refine (meanCorr_link hX hlen (F := fun k x t => codeDot s1.model.bm x t k)
        (F' := fun k x t => codeDot s1'.model.bm x t k)
        (G := fun j x t => Spec.ortho s1.model.bm s1.model.Lobs (fun k j => fc.get [k, j]) x t j)
        (G' := fun j x t => Spec.ortho s1'.model.bm s1'.model.Lobs (fun k j => fc'.get [k, j]) x t j) hdot horth m p j).trans ?_
      rw [hsm, Matrix.smul_mul, Matrix.smul_mul]
      exact congrFun (congrFun (congrArg (fun A => c⁻¹ • (mixMat b M * A * (mixMat s.model.bm.dimObs Q).transpose))
        (Matrix.ext fun p q => (hent m hm p p q).2.2.1.symm)) p) j)
    (fun m hm => by
      ext p q
      rw [(hent' m hm p q ⟨0, hxp⟩).2.2.2]
      refine (meanCorr_link hX hlen (F := fun k x t => codeDot s1.model.bm x t k)
        (F' := fun k x t => codeDot s1'.model.bm x t k) (G := fun k x t => Spec.corrFeature s1.model.bm x t k)
        (G' := fun k x t => Spec.corrFeature s1'.model.bm x t k) hdot hfeat m p q).trans ?_
      rw [hsm, Matrix.smul_mul, Matrix.smul_mul]
      exact congrFun (congrFun (congrArg (fun A => c⁻¹ • (mixMat b M * A * (mixMat b M).transpose))
        (Matrix.ext fun p q => (hent m hm p q ⟨0, hxp⟩).2.2.2.symm)) p) q) hk
  have hT0 : s1'.model.truncInd ≠ 0 := by have := hs.tpos; rw [f5]; omega
  have hstep := computeKernelStep_ok (s := { s1' with corrs := some C' }) rfl s1a' s1b' hT0 (km := km)
    (k0 := fun _ _ => none) (k := k') (by dsimp only; rw [hT, f4, ← e4]; exact hk')
  have bm3 : s3.model.bm = s.model.bm := by rw [hs3]; exact e2
  have hf3 : HasForce s3.model fc d := ⟨by rw [hs3]; exact hc, c1, by rw [bm3]; exact c2, ⟨hs.obs.1, hs.obs.2.1⟩⟩
  have hf3' : HasForce { s1'.model with method := some km, kernel := some ⟨_, _, k'⟩ } fc' d :=
    ⟨hc', c1', by dsimp only; rw [f2, h.basis.nForce, h.basis.dimObs]; exact c2', ⟨hs.obs.1, hs.obs.2.1⟩⟩
  refine ⟨s1', _, _, h1', hC', hstep, ⟨fun n pts pts' hpts => ?_, ⟨_, _, k, k', by rw [hs3], rfl, t1, t2, t3⟩,
    fun q1 q2 n pts pts' hpts => ?_⟩, bm3, f2, by rw [hs3], by rw [hs3]; exact hT, fc, fc', ?_⟩
  · obtain ⟨F, hF, F1, F2, F3⟩ := forceEval_ok (s := s3.model) (c := fc) (d := d)
      ⟨by rw [hs3]; exact hc, c1, by rw [bm3]; exact c2, ⟨hs.obs.1, hs.obs.2.1⟩⟩ (by rw [bm3]; exact hs.wf) n pts
    obtain ⟨F', hF', F1', F2', F3'⟩ := forceEval_ok (s := { s1'.model with method := some km, kernel := some ⟨_, _, k'⟩ })
      (c := fc') (d := d) ⟨hc', c1', by dsimp only; rw [f2, h.basis.nForce, h.basis.dimObs]; exact c2', ⟨hs.obs.1, hs.obs.2.1⟩⟩
      (by dsimp only; rw [f2]; exact hs'.wf) n pts'
    refine ⟨F, F', hF, hF', by rw [F1, F1'], ?_, fun i l hl => ?_⟩
    · rw [F2, F2']; dsimp only; rw [f2, bm3, h.basis.dimObs]
    · rw [F3']
      simp only [F3, bm3, mul_sum]
      rw [f2, h.basis.nOut, sum_comm]
      refine sum_congr rfl fun k hk => ?_
      have hk := mem_range.1 hk
      have hkf : k < s.model.bm.nForce := by rw [nForce_wf hs.wf]; split_ifs <;> omega
      have e := hcc k hkf l hl
      rw [scaleMix_left hkf, forceScale, if_neg (by omega), one_mul] at e
      rw [h.basis.basis _ _ (hpts i) k hk, e, mul_sum]
      exact sum_congr rfl fun q _ => by ring
  · have hb : Spec.nKernelAt s.model.bm + Spec.constRows s.model.bm = b := by
      rw [hn]
      exact rows_all _ q1 q2
    have hcr : Spec.constRows s'.model.bm = Spec.constRows s.model.bm := by unfold Spec.constRows; rw [h.basis.cls]
    have bm3' : ∀ {m : BasisModel K}, m = s.model.bm → Spec.nKernelAt m + Spec.constRows m = b := by rintro m rfl; exact hb
    obtain ⟨G, hG, G1⟩ := C108_kernel_eval (s := s3.model) (k := k) (by rw [hs3]) (by rw [hs3]; exact e6) (bm3' bm3) n pts
    obtain ⟨G', hG', G1'⟩ := C108_kernel_eval (s := { s1'.model with method := some km, kernel := some ⟨_, _, k'⟩ }) (k := k')
      rfl f6 (by dsimp only; rw [f2, h.basis.nKernelAt, hcr]; exact hb) n pts'
    have cast : ∀ (t l : ℕ) (hl : l < s.model.bm.dimObs) (m : BasisModel K) (k : KernelData K b s.model.bm.dimObs) (w z : ℕ)
        (hw : Spec.nKernelAt m = w) (hz : Spec.constRows m = z)
        (hb : Spec.nKernelAt m + Spec.constRows m = b) (hb' : w + z = b) (f : ℕ → K),
        ∑ p : Fin (Spec.nKernelAt m), k.kernel.get t ⟨p + Spec.constRows m, by have := p.2; omega⟩ ⟨l, hl⟩ * f p =
        ∑ p : Fin w, k.kernel.get t ⟨p + z, by have := p.2; omega⟩ ⟨l, hl⟩ * f p := by
      rintro t l hl m k w z rfl rfl _ _ f
      rfl
    have G2 : ∀ t, ∀ q : Fin s.model.bm.dimObs, ∀ i e, G t q i e = ∑ p : Fin (Spec.nKernelAt s.model.bm),
        k.kernel.get t ⟨p + Spec.constRows s.model.bm, by have := p.2; omega⟩ q * Spec.kernelAt s.model.bm (pts i) p e := fun t q i e => by
      rw [G1 t q q.2]
      refine (cast t q q.2 s3.model.bm k _ _ (by rw [bm3]) (by rw [bm3]) (bm3' bm3) hb
        fun p => Spec.kernelAt s3.model.bm (pts i) p e).trans ?_
      simp only [bm3]
    refine ⟨G, G', hG, hG', fun t l hl i j hj => ?_⟩
    rw [G1' t l hl]
    have hK : ∀ k, k < Spec.nKernelAt s.model.bm → Spec.kernelAt s'.model.bm (pts' i) k j = _ :=
      fun k hk => h.basis.kernelAt h.unit q1 q2 (hpts i) hj hk
    have key := contract_mix hb (D := M) (fun k l hk => by rw [hM]; exact corrMove_zero q1 hk) (t4 t) (by rw [hM]; exact hK) ⟨l, hl⟩
    refine (cast t l hl s1'.model.bm k' _ _ (by rw [f2, h.basis.nKernelAt]) (by rw [f2, hcr])
      (by rw [f2, h.basis.nKernelAt, hcr]; exact hb) hb fun p => Spec.kernelAt s1'.model.bm (pts' i) p j).trans ?_
    simp only [f2]
    rw [key]
    have row : ∀ p : Fin b, (c⁻¹ • (k.kernel.get t * (mixMat s.model.bm.dimObs Q).transpose)) p ⟨l, hl⟩ =
        c⁻¹ * ∑ q : Fin s.model.bm.dimObs, Q l q * k.kernel.get t p q := fun p => by
      rw [Matrix.smul_apply, Matrix.mul_apply, smul_eq_mul]
      congr 1
      exact sum_congr rfl fun q _ => mul_comm _ _
    simp only [row]
    have hc0 := h.unit
    have swap : ∀ f : ℕ → K, ∑ p : Fin (Spec.nKernelAt s.model.bm), (c⁻¹ * ∑ q : Fin s.model.bm.dimObs,
        Q l q * k.kernel.get t ⟨p + Spec.constRows s.model.bm, by have := p.2; omega⟩ q) * f p = c⁻¹ * ∑ q : Fin s.model.bm.dimObs, Q l q *
        ∑ p : Fin (Spec.nKernelAt s.model.bm), k.kernel.get t ⟨p + Spec.constRows s.model.bm, by have := p.2; omega⟩ q * f p := fun f => by
      simp only [mul_sum, sum_mul]
      rw [sum_comm]
      exact sum_congr rfl fun _ _ => sum_congr rfl fun _ _ => by ring
    rw [swap, Finset.sum_range, Finset.sum_range]
    simp only [G2]
    unfold kernelMoved
    split_ifs
    · rw [mul_sum]
      refine sum_congr rfl fun q _ => ?_
      simp only [mul_sum, sum_mul]
      rw [sum_comm]
      exact sum_congr rfl fun _ _ => sum_congr rfl fun _ _ => by field_simp
    · rw [div_eq_mul_inv, mul_comm]
  · subst hn hM
    exact ⟨k, k', hf3, hf3', hcc, by rw [hs3], rfl, t1, t2, t3, t4⟩

/-- **C144.** The estimation is covariant under linear changes of coordinates and changes of the unit of time. -/
theorem C144_covariant [CharZero K] {env : Env K} {method : String} {vectorize : Bool} {s s' : EstState K}
    (hs : Setup env method vectorize s.model.bm d s) (hs' : Setup env method vectorize s'.model.bm d s')
    (h : MovedData R R' Q c s s') {rankTol : Option K} {km : String} {s1 s2 s3 : EstState K}
    (h1 : computeMeanForce env s = (s1, none)) (h2 : computeCorrs env method vectorize true rankTol s1 = (s2, none))
    (h3 : computeKernelStep km (fun _ _ => none) s2 = (s3, none)) :
    ∃ s1' s2' s3', computeMeanForce env s' = (s1', none) ∧
      computeCorrs env method vectorize true rankTol s1' = (s2', none) ∧
      computeKernelStep km (fun _ _ => none) s2' = (s3', none) ∧ Covariant R R' Q c s.model.bm s3.model s3'.model := by
  obtain ⟨s1', s2', s3', a, b, c, d, -⟩ := covariant_all hs hs' h h1 h2 h3
  exact ⟨s1', s2', s3', a, b, c, d⟩

end

/-! ### Example: two coordinates, a shear and times three times as large -/

namespace CovariantEx

def R (i j : ℕ) : ℚ := if i ≤ j then (if i = 0 then 1 else 2) else 0
def R' (i j : ℕ) : ℚ := if i ≤ j then (if j = 0 then 1 else if i = 0 then -1 / 2 else 1 / 2) else 0
def Q (i j : ℕ) : ℚ := R i j / 3 ^ 2

/-- `y = M x`. -/
def act (M : ℕ → ℕ → ℚ) (x : ℕ → ℚ) (i : ℕ) : ℚ := ∑ j ∈ range 2, M i j * x j

/-- The functions `1`, `x`, `y`. -/
def lin : PointBasis ℚ where
  nOut := 3
  constRemoved := false
  basis := fun x k => if k = 0 then 1 else x (k - 1)
  deriv := fun _ k d => if k = d + 1 then 1 else 0
  hessian := fun _ _ _ _ => 0
  antiderivative := fun _ _ => 0

/-- The same functions in the other coordinates. -/
def lin' : PointBasis ℚ where
  nOut := 3
  constRemoved := false
  basis := fun y k => lin.basis (act R' y) k
  deriv := fun y k j => ∑ i ∈ range 2, lin.deriv (act R' y) k i * R' i j
  hessian := fun y k j j' => ∑ i ∈ range 2, ∑ i' ∈ range 2, lin.hessian (act R' y) k i i' * R' i j * R' i' j'
  antiderivative := fun _ _ => 0

def traj (n : ℕ) (x v a : ℕ → ℕ → ℚ) : Xva ℚ :=
  ⟨n, 2, fun k => k, fun name t j => if name = "x" then x t j else if name = "v" then v t j else a t j, id, fun _ => 2⟩

def x1 (t j : ℕ) : ℚ := t ^ 2 - 3 * j * t
def v1 (t j : ℕ) : ℚ := (t + 1) * (j + 1) - t ^ 2 * j
def a1 (t j : ℕ) : ℚ := 2 * t - j + t ^ 3
def x2 (t j : ℕ) : ℚ := 1 + t * j
def v2 (t j : ℕ) : ℚ := 2 - j * t
def a2 (t j : ℕ) : ℚ := 5 - t + j

def xvas : List (Xva ℚ) := [traj 4 x1 v1 a1, traj 3 x2 v2 a2]

def moved (n : ℕ) (x v a : ℕ → ℕ → ℚ) : Xva ℚ :=
  { traj n (fun t => act R (x t)) (fun t => act (fun i j => R i j / 3) (v t)) (fun t => act Q (a t)) with time := fun k => 3 * k }

/-- In the other order. -/
def xvas' : List (Xva ℚ) := [moved 3 x2 v2 a2, moved 4 x1 v1 a1]

def state (cls : ModelClass) (b : PointBasis ℚ) (xs : List (Xva ℚ)) (dt : ℚ) : EstState ℚ where
  model := ⟨⟨cls, b, 2, 2⟩, "a", dt, 2, none, none, none, false, none, none, none, none, none⟩
  xvas := xs
  corrs := none
  saveall := false

theorem inv : IsInv 2 R R' := by
  show ∀ i < 2, ∀ k < 2, _
  decide +kernel

theorem setup {cls : ModelClass} (hc : cls = .noVelBasis ∨ cls = .constKernel) {b : PointBasis ℚ} (hb : b.nOut = 3) (hb' : b.constRemoved = false) {xs : List (Xva ℚ)} {dt : ℚ} (h : xs = xvas ∨ xs = xvas') :
    Setup Ex.env "direct" false ⟨cls, b, 2, 2⟩ "dim_x" (state cls b xs dt) where
  loop := Ex.isLoop
  fn := Ex.isCorrFn
  bm := rfl
  wf := fun e => by dsimp only at e; rw [hb'] at e; cases e
  noProj := rfl
  obs := by
    refine ⟨by decide, by decide, fun x hx => ?_⟩
    have hx : x ∈ xs := hx
    rcases h with rfl | rfl <;> simp only [xvas, xvas', List.mem_cons, List.not_mem_nil, or_false] at hx <;>
      rcases hx with rfl | rfl <;> exact ⟨rfl, rfl⟩
  dim := by decide
  dimx := fun x hx => by
    have hx : x ∈ xs := hx
    rcases h with rfl | rfl <;> simp only [xvas, xvas', List.mem_cons, List.not_mem_nil, or_false] at hx <;>
      rcases hx with rfl | rfl <;> rfl
  npos := by
    rcases hc with rfl | rfl
    · show 1 ≤ b.nOut; omega
    · show 1 ≤ 2; decide
  xpos := by show 1 ≤ 2; decide
  tpos := by show 1 ≤ 2; decide
  tle := fun x hx => by
    have hx : x ∈ xs := hx
    show 2 ≤ x.n
    rcases h with rfl | rfl <;> simp only [xvas, xvas', List.mem_cons, List.not_mem_nil, or_false] at hx <;>
      rcases hx with rfl | rfl <;> simp [traj, moved]
  ne := by
    show xs ≠ []
    rcases h with rfl | rfl <;> simp [xvas, xvas']

theorem act_act {x y : ℕ → ℚ} (h : Moved 2 R x y) : ∀ i < 2, act R' y i = x i := by
  intro i hi
  have e : ∑ j ∈ range 2, R' i j * y j = ∑ j ∈ range 2, R' i j * ∑ l ∈ range 2, R j l * x l :=
    sum_congr rfl fun j hj => by rw [h j (mem_range.1 hj)]
  unfold act
  rw [e]
  obtain rfl | rfl : i = 0 ∨ i = 1 := by omega
  all_goals
    norm_num [sum_range_succ, R, R']
    ring

theorem movedBasis (cls : ModelClass) : MovedBasis R R' (state cls lin xvas 1).model.bm (state cls lin' xvas' 3).model.bm where
  cls := rfl
  dimx := rfl
  dimObs := rfl
  nOut := rfl
  constRemoved := rfl
  inv := inv
  basis := fun x y h k hk => by
    have hk : k < 3 := hk
    show (if k = 0 then (1 : ℚ) else act R' y (k - 1)) = if k = 0 then 1 else x (k - 1)
    split_ifs
    · rfl
    · exact act_act h _ (by omega)
  deriv := fun _ _ _ _ _ _ _ => rfl
  hessian := fun _ _ _ _ _ _ _ _ _ => rfl

theorem moved_traj (n : ℕ) (x v a : ℕ → ℕ → ℚ) : MovedXva "a" 2 2 R Q 3 (traj n x v a) (moved n x v a) :=
  ⟨rfl, fun _ _ _ => rfl, fun _ _ _ => rfl, fun _ _ _ => rfl, fun _ _ _ => rfl⟩

theorem movedData (cls : ModelClass) : MovedData R R' Q 3 (state cls lin xvas 1) (state cls lin' xvas' 3) where
  unit := by norm_num
  basis := movedBasis cls
  xvas := ⟨[moved 4 x1 v1 a1, moved 3 x2 v2 a2], .cons (moved_traj _ _ _ _) (.cons (moved_traj _ _ _ _) .nil), List.Perm.swap _ _ _⟩
  Lobs := rfl
  dt := by show (3 : ℚ) = 3 * 1; norm_num
  truncInd := rfl

theorem step1 (cls : ModelClass) (h : cls ∈ [.noVelBasis, .constKernel]) : (computeMeanForce Ex.env (state cls lin xvas 1)).2 = none := by
  revert cls; decide +kernel
theorem step2 (cls : ModelClass) (h : cls ∈ [.noVelBasis, .constKernel]) :
    (computeCorrs Ex.env "direct" false true none (computeMeanForce Ex.env (state cls lin xvas 1)).1).2 = none := by
  revert cls; decide +kernel
theorem step3 (cls : ModelClass) (h : cls ∈ [.noVelBasis, .constKernel]) : (computeKernelStep "second_kind_rect" (fun _ _ => none)
    (computeCorrs Ex.env "direct" false true none (computeMeanForce Ex.env (state cls lin xvas 1)).1).1).2 = none := by
  revert cls; decide +kernel

example := C144_covariant (setup (.inl rfl) rfl rfl (.inl rfl)) (setup (.inl rfl) rfl rfl (.inr rfl)) (movedData .noVelBasis)
  (Prod.ext rfl (step1 _ (by decide))) (Prod.ext rfl (step2 _ (by decide))) (Prod.ext rfl (step3 _ (by decide)))
example := C144_covariant (setup (.inr rfl) rfl rfl (.inl rfl)) (setup (.inr rfl) rfl rfl (.inr rfl)) (movedData .constKernel)
  (Prod.ext rfl (step1 _ (by decide))) (Prod.ext rfl (step2 _ (by decide))) (Prod.ext rfl (step3 _ (by decide)))

end CovariantEx

end Verif
