import Verif.Props.Covariant

/-!
# Symmetric trajectories give a symmetric force and kernel (C145)
-/

namespace Verif

set_option linter.unusedSectionVars false

open LArr Finset

namespace Spec

variable {K : Type*} [Field K]

/-- The space that the functions of the basis span is invariant under the linear map `R` with inverse `R'`: the functions at `R x` are
the combinations `T` of the functions at `x`, and their derivatives follow the chain rule. -/
structure InvariantBasis (R R' T T' : ℕ → ℕ → K) (m : BasisModel K) : Prop where
  full : m.basis.constRemoved = false
  inv : IsInv m.dimx R R'
  mix : IsInv m.basis.nOut T T'
  basis : ∀ x y, Moved m.dimx R x y → ∀ k < m.basis.nOut, m.basis.basis y k = ∑ l ∈ range m.basis.nOut, T k l * m.basis.basis x l
  deriv : ∀ x y, Moved m.dimx R x y → ∀ k < m.basis.nOut, ∀ j < m.dimx, m.basis.deriv y k j =
    ∑ l ∈ range m.basis.nOut, T k l * ∑ i ∈ range m.dimx, m.basis.deriv x l i * R' i j
  hessian : ∀ x y, Moved m.dimx R x y → ∀ k < m.basis.nOut, ∀ j < m.dimx, ∀ j' < m.dimx, m.basis.hessian y k j j' =
    ∑ l ∈ range m.basis.nOut, T k l * ∑ i ∈ range m.dimx, ∑ i' ∈ range m.dimx, m.basis.hessian x l i i' * R' i j * R' i' j'

end Spec

open Spec (IsInv Moved MovedXva MovedBasis Covariant Linked SameSpan InvariantBasis)

section
variable {K : Type*} [Field K] {R R' T T' : ℕ → ℕ → K} {m : BasisModel K}

/-- The functions at `R⁻¹ y`. -/
def pulled (T' : ℕ → ℕ → K) (m : BasisModel K) : BasisModel K :=
  { m with
    basis :=
      { m.basis with
        basis := fun y k => ∑ l ∈ range m.basis.nOut, T' k l * m.basis.basis y l
        deriv := fun y k j => ∑ l ∈ range m.basis.nOut, T' k l * m.basis.deriv y l j
        hessian := fun y k j j' => ∑ l ∈ range m.basis.nOut, T' k l * m.basis.hessian y l j j' } }

theorem mix_cancel {n : ℕ} (h : IsInv n T T') (f : ℕ → K) {k : ℕ} (hk : k < n) :
    ∑ l ∈ range n, T k l * ∑ i ∈ range n, T' l i * f i = f k := by
  rw [sum_congr rfl fun l _ => by rw [mul_sum], sum_comm]
  have : ∀ i ∈ range n, ∑ l ∈ range n, T k l * (T' l i * f i) = unitMix k i * f i := fun i hi => by
    rw [unitMix, ← h k hk i (mem_range.1 hi), sum_mul]
    exact sum_congr rfl fun l _ => by ring
  rw [sum_congr rfl this, unitMix_sum hk]

theorem Spec.InvariantBasis.moved (h : InvariantBasis R R' T T' m) : MovedBasis R R' m (pulled T' m) where
  cls := rfl
  dimx := rfl
  dimObs := rfl
  nOut := rfl
  constRemoved := rfl
  inv := h.inv
  basis := fun x y hxy k hk => by
    show ∑ l ∈ range m.basis.nOut, T' k l * m.basis.basis y l = _
    rw [sum_congr rfl fun l hl => by rw [h.basis x y hxy l (mem_range.1 hl)]]
    exact mix_cancel (IsInv_symm h.mix) _ hk
  deriv := fun x y hxy k hk j hj => by
    show ∑ l ∈ range m.basis.nOut, T' k l * m.basis.deriv y l j = _
    rw [sum_congr rfl fun l hl => by rw [h.deriv x y hxy l (mem_range.1 hl) j hj]]
    exact mix_cancel (IsInv_symm h.mix) _ hk
  hessian := fun x y hxy k hk j hj j' hj' => by
    show ∑ l ∈ range m.basis.nOut, T' k l * m.basis.hessian y l j j' = _
    rw [sum_congr rfl fun l hl => by rw [h.hessian x y hxy l (mem_range.1 hl) j hj j' hj']]
    exact mix_cancel (IsInv_symm h.mix) _ hk

theorem Spec.InvariantBasis.span (h : InvariantBasis R R' T T' m) : SameSpan T T' (pulled T' m) m where
  cls := rfl
  dimx := rfl
  dimObs := rfl
  nOut := rfl
  full := h.full
  full' := h.full
  inv := h.mix
  basis := fun pt _ hk => (mix_cancel h.mix (m.basis.basis pt) hk).symm
  deriv := fun pt _ hk d => (mix_cancel h.mix (fun l => m.basis.deriv pt l d) hk).symm
  hessian := fun pt _ hk d d' => (mix_cancel h.mix (fun l => m.basis.hessian pt l d d') hk).symm

end

section
variable {K : Type*} [Field K] [LinearOrder K] {R R' Q T T' : ℕ → ℕ → K} {d : String}

/-- **C145.** If the trajectories, as a set, and the space of functions are invariant under a linear map, then the force and the
kernel that are evaluated after the estimation are equivariant. -/
theorem C145_symmetric [CharZero K] {env : Env K} {method : String} {vectorize : Bool} {s : EstState K}
    (hs : Setup env method vectorize s.model.bm d s) (hb : InvariantBasis R R' T T' s.model.bm)
    (hX : Linked (MovedXva s.model.Lobs s.model.bm.dimx s.model.bm.dimObs R Q 1) s.xvas s.xvas) {rankTol : Option K} {km : String}
    {s1 s2 s3 : EstState K} (h1 : computeMeanForce env s = (s1, none))
    (h2 : computeCorrs env method vectorize true rankTol s1 = (s2, none))
    (h3 : computeKernelStep km (fun _ _ => none) s2 = (s3, none)) : Covariant R R' Q 1 s.model.bm s3.model s3.model := by
  obtain ⟨s', hs'⟩ : ∃ s' : EstState K, s' = { s with model := { s.model with bm := pulled T' s.model.bm } } := ⟨_, rfl⟩
  have hm : s'.model.bm = pulled T' s.model.bm := by rw [hs']
  have setup : Setup env method vectorize s'.model.bm d s' := by
    subst hs'
    exact ⟨hs.loop, hs.fn, rfl, hs.wf, hs.noProj, hs.obs, hs.dim, hs.dimx, hs.npos, hs.xpos, hs.tpos, hs.tle, hs.ne⟩
  have moved : MovedData R R' Q 1 s s' := by
    subst hs'
    exact ⟨one_ne_zero, hb.moved, hX, rfl, (one_mul _).symm, rfl⟩
  obtain ⟨s1', s2', s3', h1', h2', h3', hcov⟩ := C144_covariant hs setup moved h1 h2 h3
  have same : SameData T T' d s' s := by
    subst hs'
    exact ⟨hb.span, rfl, rfl, rfl, rfl, hs.noProj, hs.noProj, hs.obs, hs.dim, hs.dimx, hs.npos, hs.xpos, hs.tpos, hs.tle, hs.ne⟩
  obtain ⟨t1, t2, t3, g1, g2, g3, F, -, E⟩ := C138_same_functions hs.loop hs.fn same h1' h2' h3'
  rw [h1] at g1
  obtain rfl : s1 = t1 := (Prod.mk.inj g1).1
  rw [h2] at g2
  obtain rfl : s2 = t2 := (Prod.mk.inj g2).1
  rw [h3] at g3
  obtain rfl : s3 = t3 := (Prod.mk.inj g3).1
  have ho : s'.model.bm.dimObs = s.model.bm.dimObs := by rw [hm]; rfl
  have hc : s'.model.bm.cls = s.model.bm.cls := by rw [hm]; rfl
  have hd : s'.model.bm.dimx = s.model.bm.dimx := by rw [hm]; rfl
  refine ⟨fun n pts pts' hp => ?_, ?_, fun q1 q2 n pts pts' hp => ?_⟩
  · obtain ⟨A, A', a1, a2, a3, a4, a5⟩ := hcov.force n pts pts' hp
    obtain ⟨B, B', b1, b2, b3, b4, b5⟩ := F n pts'
    obtain rfl : A' = B := Except.ok.inj (a2.symm.trans b1)
    exact ⟨A, B', a1, b2, b3.trans a3, b4.trans a4, fun i l hl => (b5 i l (by rw [ho]; exact hl)).trans (a5 i l hl)⟩
  · obtain ⟨b, x, k, k', e1, -, -, -, -⟩ := hcov.kernel
    exact ⟨b, x, k, k, e1, e1, rfl, fun t => (one_mul _).symm, rfl⟩
  · obtain ⟨A, A', a1, a2, a3⟩ := hcov.eval q1 q2 n pts pts' hp
    obtain ⟨B, B', b1, b2, b3⟩ := E (by rw [hc, hd]; exact q1) (by rw [hc, ho, hd]; exact q2) n pts'
    obtain rfl : A' = B := Except.ok.inj (a2.symm.trans b1)
    exact ⟨A, B', a1, b2, fun t l hl i d hd => (b3 t l (by rw [ho]; exact hl) i d).trans (a3 t l hl i d hd)⟩

/-- The same for a reflection of a single coordinate: the force is odd, and the kernel even. -/
theorem C145_odd_force [CharZero K] {env : Env K} {method : String} {vectorize : Bool} {s : EstState K}
    (hs : Setup env method vectorize s.model.bm d s) (h1d : s.model.bm.dimx = 1) (h1o : s.model.bm.dimObs = 1)
    (hv : Spec.kernelOfVelocity s.model.bm.cls = true)
    (hb : InvariantBasis (fun _ _ => -1) (fun _ _ => -1) T T' s.model.bm)
    (hX : Linked (MovedXva s.model.Lobs 1 1 (fun _ _ => -1) (fun _ _ => -1) 1) s.xvas s.xvas) {rankTol : Option K} {km : String}
    {s1 s2 s3 : EstState K} (h1 : computeMeanForce env s = (s1, none))
    (h2 : computeCorrs env method vectorize true rankTol s1 = (s2, none))
    (h3 : computeKernelStep km (fun _ _ => none) s2 = (s3, none)) (n : ℕ) (z : ℕ → K) :
    (∃ F F', forceEval s3.model none n (fun i _ => z i) = .ok F ∧ forceEval s3.model none n (fun i _ => -z i) = .ok F' ∧
      ∀ i, F'.get i 0 = -F.get i 0) ∧
    ∃ G G', kernelEvalAt s3.model n (fun i _ => z i) = .ok G ∧ kernelEvalAt s3.model n (fun i _ => -z i) = .ok G' ∧
      ∀ t i, G' t 0 i 0 = G t 0 i 0 := by
  have key := C145_symmetric hs hb (by rw [h1d, h1o]; exact hX) h1 h2 h3
  have hp : ∀ i : ℕ, Moved s.model.bm.dimx (fun _ _ => (-1 : K)) (fun _ => z i) (fun _ => -z i) := fun i j _ => by
    rw [h1d]
    simp
  constructor
  · obtain ⟨F, F', e1, e2, -, -, e3⟩ := key.force n _ _ hp
    refine ⟨F, F', e1, e2, fun i => ?_⟩
    rw [e3 i 0 (by omega), h1o]
    simp
  · obtain ⟨G, G', e1, e2, e3⟩ := key.eval (fun _ => h1d) (fun _ => by rw [h1d, h1o]) n _ _ hp
    refine ⟨G, G', e1, e2, fun t i => ?_⟩
    rw [e3 t 0 (by omega) i 0 (by omega), if_pos hv, h1o, h1d]
    simp

end

/-! ### Example: two trajectories and their mirror images -/

namespace SymmetricEx

def sgn (k : ℕ) : ℚ := if k = 0 then 1 else -1

def mirror (n : ℕ) (x v a : ℕ → ℚ) : Xva ℚ := Ex.xva n (fun t => -x t) (fun t => -v t) (fun t => -a t)

def x1 (t : ℕ) : ℚ := t
def v1 (t : ℕ) : ℚ := t ^ 2 + 1
def a1 (t : ℕ) : ℚ := 2 * t + 1
def x2 (t : ℕ) : ℚ := t + 1
def v2 (_ : ℕ) : ℚ := 1
def a2 (t : ℕ) : ℚ := 5 - t

def xvas : List (Xva ℚ) := [Ex.xva 3 x1 v1 a1, Ex.xva 2 x2 v2 a2, mirror 3 x1 v1 a1, mirror 2 x2 v2 a2]

def state : EstState ℚ where
  model := ⟨Ex.model .constKernel, "a", 1, 2, none, none, none, false, none, none, none, none, none⟩
  xvas := xvas
  corrs := none
  saveall := false

theorem mem {x : Xva ℚ} (h : x ∈ xvas) : ∃ n x' v a, x = Ex.xva n x' v a ∧ 2 ≤ n := by
  simp only [xvas, List.mem_cons, List.not_mem_nil, or_false] at h
  rcases h with rfl | rfl | rfl | rfl <;> exact ⟨_, _, _, _, rfl, by decide⟩

theorem setup : Setup Ex.env "direct" false state.model.bm "dim_x" state where
  loop := Ex.isLoop
  fn := Ex.isCorrFn
  bm := rfl
  wf := Ex.wf _
  noProj := rfl
  obs := by
    refine ⟨by decide, by decide, fun x hx => ?_⟩
    obtain ⟨n, x', v, a, rfl, -⟩ := mem hx
    exact ⟨rfl, rfl⟩
  dim := by decide
  dimx := fun x hx => by
    obtain ⟨n, x', v, a, rfl, -⟩ := mem hx
    rfl
  npos := by decide
  xpos := by decide
  tpos := by decide
  tle := fun x hx => by
    obtain ⟨n, x', v, a, rfl, h⟩ := mem hx
    exact h
  ne := by simp [state, xvas]

theorem invariant : InvariantBasis (fun _ _ => -1) (fun _ _ => -1) (scaleMix sgn) (scaleMix sgn) state.model.bm where
  full := rfl
  inv := by
    show ∀ i < 1, ∀ k < 1, _
    decide +kernel
  mix := by
    show ∀ i < 2, ∀ k < 2, _
    decide +kernel
  basis := fun x y h k hk => by
    have e : y 0 = -x 0 := (h 0 (by decide)).trans (by simp [state, Ex.model])
    have hk : k < 2 := hk
    rw [scaleMix_sum (show k < state.model.bm.basis.nOut from hk)]
    show y 0 ^ k = sgn k * x 0 ^ k
    rw [e]
    obtain rfl | rfl : k = 0 ∨ k = 1 := by omega
    all_goals simp [sgn]
  deriv := fun x y h k hk j _ => by
    have hk : k < 2 := hk
    rw [scaleMix_sum (show k < state.model.bm.basis.nOut from hk)]
    show (k : ℚ) * y 0 ^ (k - 1) = sgn k * ∑ i ∈ range 1, (k : ℚ) * x 0 ^ (k - 1) * -1
    obtain rfl | rfl : k = 0 ∨ k = 1 := by omega
    all_goals simp [sgn]
  hessian := fun x y h k hk j _ j' _ => by
    have hk : k < 2 := hk
    rw [scaleMix_sum (show k < state.model.bm.basis.nOut from hk)]
    show (k : ℚ) * (k - 1) * y 0 ^ (k - 2) = sgn k * ∑ i ∈ range 1, ∑ i' ∈ range 1, (k : ℚ) * (k - 1) * x 0 ^ (k - 2) * -1 * -1
    obtain rfl | rfl : k = 0 ∨ k = 1 := by omega
    all_goals simp [sgn]

theorem moved (n : ℕ) (x v a : ℕ → ℚ) : MovedXva "a" 1 1 (fun _ _ => -1) (fun _ _ => -1) 1 (Ex.xva n x v a) (mirror n x v a) := by
  refine ⟨rfl, fun t i _ => ?_, fun t i _ => ?_, fun t i _ => ?_, fun t i _ => ?_⟩ <;> simp [Ex.xva, mirror]

theorem moved' (n : ℕ) (x v a : ℕ → ℚ) : MovedXva "a" 1 1 (fun _ _ => -1) (fun _ _ => -1) 1 (mirror n x v a) (Ex.xva n x v a) := by
  refine ⟨rfl, fun t i _ => ?_, fun t i _ => ?_, fun t i _ => ?_, fun t i _ => ?_⟩ <;> simp [Ex.xva, mirror]

theorem linked : Linked (MovedXva state.model.Lobs 1 1 (fun _ _ => -1) (fun _ _ => -1) 1) xvas xvas :=
  ⟨[mirror 3 x1 v1 a1, mirror 2 x2 v2 a2] ++ [Ex.xva 3 x1 v1 a1, Ex.xva 2 x2 v2 a2],
    .cons (moved _ _ _ _) (.cons (moved _ _ _ _) (.cons (moved' _ _ _ _) (.cons (moved' _ _ _ _) .nil))), List.perm_append_comm⟩

theorem step1 : (computeMeanForce Ex.env state).2 = none := by decide +kernel
theorem step2 : (computeCorrs Ex.env "direct" false true none (computeMeanForce Ex.env state).1).2 = none := by decide +kernel
theorem step3 : (computeKernelStep "rectangular" (fun _ _ => none)
    (computeCorrs Ex.env "direct" false true none (computeMeanForce Ex.env state).1).1).2 = none := by
  decide +kernel

example := C145_symmetric setup invariant linked (Prod.ext rfl step1) (Prod.ext rfl step2) (Prod.ext rfl step3)
example := C145_odd_force setup rfl rfl rfl invariant linked (Prod.ext rfl step1) (Prod.ext rfl step2) (Prod.ext rfl step3)

end SymmetricEx

end Verif
