import Verif.Model.EvalMore
import Verif.Spec.Eval
import Verif.Props.EstimatorMore

/-!
# Evaluation of the kernel (C108)
-/

namespace Verif

set_option linter.unusedSectionVars false

open LArr Finset

section
variable {K : Type*} [Field K]

theorem nKernelEval_eq (m : BasisModel K) : m.nKernelEval = Spec.nKernelAt m := by
  unfold BasisModel.nKernelEval Spec.nKernelAt BasisModel.nDeriv
  cases m.cls <;> rfl

theorem kernelVector_at (m : BasisModel K) (dimx n : ℕ) (pts : ℕ → ℕ → K) :
    ∃ w, (m.kernelVector (evalXva dimx n pts)).dims = ["time", "dim_basis", "dim_x"] ∧
      (m.kernelVector (evalXva dimx n pts)).shape = [n, Spec.nKernelAt m, w] ∧
      ∀ i p d, (m.kernelVector (evalXva dimx n pts)).get [i, p, d] = Spec.kernelAt m (pts i) p d := by
  obtain ⟨h1, h2, h3⟩ := kernelVector_is m (evalXva dimx n pts)
  refine ⟨m.kernelDim (evalXva dimx n pts), h1, ?_, fun i p d => ?_⟩
  · rw [h2, nKernelEval_eq]
    rfl
  · rw [h3]
    unfold Spec.kernelFeature Spec.kernelAt
    cases m.cls <;> rfl

/-- The value computed by `kernelEvalAt.contract` for an array with the given axes. -/
theorem contract_ok {b x w n p : ℕ} (cls : ModelClass) (k : KernelData K b x) {E : LArr K}
    (hd : E.dims = ["time", "dim_basis", "dim_x"]) (hs : E.shape = [n, p, w])
    (hp : p + (if cls = .hybrid then 1 else 0) = b) :
    ∃ r, kernelEvalAt.contract cls k E = .ok r ∧ ∀ t, ∀ l (hl : l < x), ∀ i d, r t l i d =
      ∑ q : Fin p, k.kernel.get t ⟨q + (if cls = .hybrid then 1 else 0), by have := q.2; omega⟩ ⟨l, hl⟩ * E.get [i, q, d] := by
  have hsz : E.size "dim_basis" = p := by
    unfold LArr.size
    rw [hd, hs]
    simp [env, List.lookup]
  have hb : b - (if cls = .hybrid then 1 else 0) = p := by omega
  refine ⟨_, by
    unfold kernelEvalAt.contract
    dsimp only
    rw [if_neg (by rw [hsz, hb]; simp)], fun t l hl i d => ?_⟩
  rw [hb, Finset.sum_range]
  refine Finset.sum_congr rfl fun q _ => ?_
  have h1 : (q : ℕ) + (if cls = .hybrid then 1 else 0) < b := by have := q.2; omega
  rw [dif_pos ⟨h1, hl⟩]
  congr 1
  unfold LArr.val
  rw [hd]
  simp

/-- The axis `dim_basis` has the wrong size. -/
theorem contract_error {b x w n p : ℕ} (cls : ModelClass) (k : KernelData K b x) {E : LArr K}
    (hd : E.dims = ["time", "dim_basis", "dim_x"]) (hs : E.shape = [n, p, w])
    (hp : p ≠ b - (if cls = .hybrid then 1 else 0)) : kernelEvalAt.contract cls k E = .error .value := by
  have hsz : E.size "dim_basis" = p := by
    unfold LArr.size
    rw [hd, hs]
    simp [env, List.lookup]
  unfold kernelEvalAt.contract
  dsimp only
  rw [if_pos (by rw [hsz]; exact hp)]

/-- **C108**, without projection: `kernel_eval` at the points `pts` is, for each time, component and coordinate, the
combination of the functions of the kernel at the point with the rows of the kernel as coefficients. -/
theorem C108_kernel_eval {s : ModelState K} {b x : ℕ} {k : KernelData K b x} (hk : s.kernel = some ⟨b, x, k⟩)
    (hp : s.rankProjection = false) (hb : Spec.nKernelAt s.bm + Spec.constRows s.bm = b) (n : ℕ) (pts : ℕ → ℕ → K) :
    ∃ r, kernelEvalAt s n pts = .ok r ∧ ∀ t, ∀ l (hl : l < x), ∀ i d, r t l i d =
      ∑ p : Fin (Spec.nKernelAt s.bm), k.kernel.get t ⟨p + Spec.constRows s.bm, by have := p.2; omega⟩ ⟨l, hl⟩ *
        Spec.kernelAt s.bm (pts i) p d := by
  obtain ⟨w, h1, h2, h3⟩ := kernelVector_at s.bm s.bm.dimx n pts
  obtain ⟨r, e, hr⟩ := contract_ok s.bm.cls k h1 h2 hb
  refine ⟨r, ?_, fun t l hl i d => ?_⟩
  · simp only [kernelEvalAt, hk, hp]
    exact e
  · rw [hr t l hl i d]
    refine Finset.sum_congr rfl fun p _ => ?_
    rw [h3]
    rfl

/-- **C108** with a projection `P` on `r` combinations of the functions: the functions of the kernel are replaced by their
combinations. -/
theorem C108_kernel_eval_projected {s : ModelState K} {b x : ℕ} {k : KernelData K b x} (hk : s.kernel = some ⟨b, x, k⟩)
    (hp : s.rankProjection = true) {P : LArr K} (hP : s.Prange = some P) (hd : P.dims = ["dim_basis", "dim_basis_old"])
    {r : ℕ} (hs : P.shape = [r, Spec.nKernelAt s.bm]) (hb : r + Spec.constRows s.bm = b) (n : ℕ) (pts : ℕ → ℕ → K) :
    ∃ R, kernelEvalAt s n pts = .ok R ∧ ∀ t, ∀ l (hl : l < x), ∀ i d, R t l i d =
      ∑ p : Fin r, k.kernel.get t ⟨p + Spec.constRows s.bm, by have := p.2; omega⟩ ⟨l, hl⟩ *
        ∑ q ∈ range (Spec.nKernelAt s.bm), P.get [p, q] * Spec.kernelAt s.bm (pts i) q d := by
  obtain ⟨w, h1, h2, h3⟩ := kernelVector_at s.bm s.bm.dimx n pts
  set E := s.bm.kernelVector (evalXva s.bm.dimx n pts)
  have hD : (LArr.dot [E.rename1 "dim_basis" "dim_basis_old", P]).dims = ["time", "dim_x", "dim_basis"] ∧
      (LArr.dot [E.rename1 "dim_basis" "dim_basis_old", P]).shape = [n, w, r] ∧
      ∀ i d p, (LArr.dot [E.rename1 "dim_basis" "dim_basis_old", P]).get [i, d, p] =
        ∑ q ∈ range (Spec.nKernelAt s.bm), Spec.kernelAt s.bm (pts i) q d * P.get [p, q] := by
    refine ⟨?_, ?_, fun i d p => ?_⟩
    · simp [dot, rename1, rename, h1, hd, unionDims, dotDims]
    · simp [dot, rename1, rename, h1, h2, hd, hs, unionDims, dotDims, sizeIn, size, env, List.lookup]
    · simp [dot, rename1, rename, h1, h2, hd, hs, unionDims, dotDims, sizeIn, size, env, List.lookup, LArr.val, sumOver, h3]
  obtain ⟨d1, d2, d3⟩ := hD
  set D := LArr.dot [E.rename1 "dim_basis" "dim_basis_old", P]
  have hsz : D.size "dim_basis" = r := by
    unfold LArr.size
    rw [d1, d2]
    simp [env, List.lookup]
  have hb' : b - (if s.bm.cls = .hybrid then 1 else 0) = r := by
    unfold Spec.constRows at hb
    omega
  refine ⟨_, by
    simp only [kernelEvalAt, hk, hp, hP]
    unfold kernelEvalAt.contract
    dsimp only
    rw [if_neg (by change ¬ D.size "dim_basis" ≠ _; rw [hsz, hb']; simp)], fun t l hl i d => ?_⟩
  rw [hb', Finset.sum_range]
  refine Finset.sum_congr rfl fun p _ => ?_
  have h1 : (p : ℕ) + (if s.bm.cls = .hybrid then 1 else 0) < b := by have := p.2; omega
  rw [dif_pos ⟨h1, hl⟩]
  congr 1
  change LArr.val D _ = _
  unfold LArr.val
  rw [d1]
  change D.get [i, d, (p : ℕ)] = _
  rw [d3]
  exact Finset.sum_congr rfl fun q _ => mul_comm _ _

/-- **C108**, the constant part of the kernel of the hybrid class: the row 0, the one left out by `kernel_eval`. -/
theorem C108_const_part {s : ModelState K} (hc : s.bm.cls = .hybrid) {b x : ℕ} {k : KernelData K (b + 1) x}
    (hk : s.kernel = some ⟨b + 1, x, k⟩) :
    ∃ r, getConstKernelPart s = .ok r ∧ ∀ t, ∀ l (hl : l < x), r t l = k.kernel.get t 0 ⟨l, hl⟩ := by
  refine ⟨fun t l => if hl : l < x then k.kernel.get t 0 ⟨l, hl⟩ else 0, ?_, fun t l hl => ?_⟩
  · unfold getConstKernelPart
    rw [if_neg (by simp [hc])]
    simp only [hk, Nat.succ_pos, dif_pos]
    rfl
  · beta_reduce
    rw [dif_pos hl]

/-- **C108**, before `compute_kernel`. -/
theorem C108_no_kernel {s : ModelState K} (hk : s.kernel = none) (n : ℕ) (pts : ℕ → ℕ → K) :
    kernelEvalAt s n pts = .error (.exception "Kernel has not been computed.") ∧
    (s.bm.cls = .hybrid → getConstKernelPart s = .error (.exception "Kernel has not been computed.")) := by
  refine ⟨by simp only [kernelEvalAt, hk], fun hc => ?_⟩
  unfold getConstKernelPart
  rw [if_neg (by simp [hc])]
  simp only [hk]

end

section
variable {K : Type*} [Field K] [LinearOrder K]

/-- **C108**, the kernel that the estimator stores can be evaluated, except for the hybrid class in dimension above one and
for the class with a constant kernel when the observable and the positions have different dimensions: there `kernel_eval`
raises `ValueError`. -/
theorem C108_after_estimation_partial {env : Env K} {method m' : String} {vectorize second : Bool} {rankTol : Option K}
    {s s' s'' : EstState K} {d : String} {x : ℕ} {fc : LArr K} (h : CorrReady env method vectorize s d x fc)
    (hr : s.model.rankProjection = false) (hx : 1 ≤ s.model.bm.dimx) (h1 : computeCorrs env method vectorize second rankTol s = (s', none))
    {k0 : ∀ b x : ℕ, Option (Mat K b x)} (h2 : computeKernelStep m' k0 s' = (s'', none)) (n : ℕ) (pts : ℕ → ℕ → K) :
    ((s.model.bm.cls = .hybrid → s.model.bm.dimx = 1) ∧ (s.model.bm.cls = .constKernel → s.model.bm.dimObs = s.model.bm.dimx) →
      ∃ (k : KernelData K (Spec.nCorr s.model.bm) x) (r : ℕ → ℕ → ℕ → ℕ → K),
        s''.model.kernel = some ⟨_, _, k⟩ ∧ kernelEvalAt s''.model n pts = .ok r ∧
        ∀ t, ∀ l (hl : l < x), ∀ i j, r t l i j = ∑ p ∈ range (Spec.nKernelAt s.model.bm),
          (if hp : p + Spec.constRows s.model.bm < Spec.nCorr s.model.bm then
            k.kernel.get t ⟨p + Spec.constRows s.model.bm, hp⟩ ⟨l, hl⟩ else 0) * Spec.kernelAt s.model.bm (pts i) p j) ∧
    (¬ ((s.model.bm.cls = .hybrid → s.model.bm.dimx = 1) ∧
        (s.model.bm.cls = .constKernel → s.model.bm.dimObs = s.model.bm.dimx)) →
      kernelEvalAt s''.model n pts = .error .value) := by
  obtain ⟨c, hc, -, hb, -, hd, -⟩ := C43_layout (second := second) (rankTol := rankTol) h hr
  rw [h1] at hc
  obtain ⟨c', ⟨b, y, k⟩, hc', hs'', -, hb', hy⟩ := C42_method_recorded h2
  have hm : s'.model = s.model := by
    have := h1
    unfold computeCorrs at this
    rw [h.force] at this
    dsimp only at this
    split at this
    · simp only [raises, Prod.mk.injEq, reduceCtorEq, and_false] at this
    · simp only [hr, Bool.false_eq_true, if_false] at this
      split at this
      · simp only [raises, Prod.mk.injEq, reduceCtorEq, and_false] at this
      · simp only [Prod.mk.injEq, and_true] at this
        rw [← this]
    · simp only [raises, Prod.mk.injEq, reduceCtorEq, and_false] at this
  obtain rfl : c = c' := Option.some.inj (hc.symm.trans hc')
  dsimp only at hb' hy
  rw [hb] at hb'
  rw [hd] at hy
  simp only [List.getElem?_cons_zero, Option.getD_some] at hb'
  simp only [List.getElem?_cons_succ, List.getElem?_cons_zero, Option.getD_some] at hy
  subst hb' hy
  have hk : s''.model.kernel = some ⟨_, _, k⟩ := by rw [hs'']
  have hbm : s''.model.bm = s.model.bm := by rw [hs'']; dsimp only; rw [hm]
  have hrp : s''.model.rankProjection = false := by rw [hs'']; dsimp only; rw [hm, hr]
  refine ⟨fun hcls => ?_, fun hcls => ?_⟩
  · have hn : Spec.nKernelAt s''.model.bm + Spec.constRows s''.model.bm = Spec.nCorr s.model.bm := by
      rw [hbm]
      unfold Spec.nKernelAt Spec.constRows Spec.nCorr
      cases hcl : s.model.bm.cls <;> simp_all
      omega
    obtain ⟨r, e, hr'⟩ := C108_kernel_eval hk hrp hn n pts
    refine ⟨k, r, hk, e, fun t l hl i j => ?_⟩
    refine (hr' t l hl i j).trans (Eq.trans (b := ∑ p ∈ range (Spec.nKernelAt s''.model.bm),
      (if hp : p + Spec.constRows s''.model.bm < Spec.nCorr s.model.bm then
        k.kernel.get t ⟨p + Spec.constRows s''.model.bm, hp⟩ ⟨l, hl⟩ else 0) *
        Spec.kernelAt s''.model.bm (pts i) p j) ?_ ?_)
    · rw [Finset.sum_range]
      refine Finset.sum_congr rfl fun p _ => ?_
      rw [dif_pos (by have := p.2; omega)]
    · rw [hbm]
  · obtain ⟨w, e1, e2, -⟩ := kernelVector_at s''.model.bm s''.model.bm.dimx n pts
    have := contract_error s''.model.bm.cls k e1 e2 (by
      rw [hbm]
      unfold Spec.nKernelAt Spec.nCorr
      cases hcl : s.model.bm.cls <;> simp_all
      omega)
    simp only [kernelEvalAt, hk, hrp]
    exact this

end

namespace Ex

/-- A kernel of `b` functions and one component: the entries are `t + 2 p`. -/
def kernelData (b : ℕ) : KernelData ℚ b 1 := ⟨⟨3, fun t => Matrix.of fun p _ => (t : ℚ) + 2 * (p : ℕ)⟩, ⟨3, fun t => t⟩⟩

def kernelModel (cls : ModelClass) (b : ℕ) : ModelState ℚ :=
  ⟨model cls, "a", 1, 3, none, some ⟨b, 1, kernelData b⟩, some "rect", false, none, none, none, none, none⟩

/-- A projection on the sum of the two functions. -/
def kernelModelP : ModelState ℚ :=
  { kernelModel .posGle 1 with
    rankProjection := true, Prange := some (LArr.mk2 "dim_basis" 1 "dim_basis_old" 2 fun _ _ => 1) }

end Ex

example := C108_kernel_eval (s := Ex.kernelModel .posGle 2) rfl rfl rfl 4 fun i _ => (i : ℚ)
example := C108_kernel_eval (s := Ex.kernelModel .hybrid 3) rfl rfl rfl 4 fun i _ => (i : ℚ)
example := C108_kernel_eval_projected (s := Ex.kernelModelP) rfl rfl rfl rfl rfl rfl 4 fun i _ => (i : ℚ)
example := C108_const_part (s := Ex.kernelModel .hybrid 3) rfl rfl

/-- The value at one point: the kernel is `k_0 b_0' + k_1 b_1'` with `b_0 = 1` and `b_1 = x`. -/
example : ∃ r, kernelEvalAt (Ex.kernelModel .posGle 2) 4 (fun i _ => (i : ℚ)) = .ok r ∧ r 1 0 3 0 = 3 := by
  obtain ⟨r, e, h⟩ := C108_kernel_eval (s := Ex.kernelModel .posGle 2) rfl rfl rfl 4 fun i _ => (i : ℚ)
  refine ⟨r, e, ?_⟩
  refine (h 1 0 (by decide) 3 0).trans ((Fin.sum_univ_two _).trans ?_)
  simp [Ex.kernelModel, Ex.kernelData, Ex.model, Ex.basis, Spec.kernelAt, Spec.constRows]
  norm_num

namespace Ex

/-- The state `ready` for the class with a constant kernel. -/
def readyC : EstState ℚ := { ready false with model := { (ready false).model with bm := model .constKernel } }

theorem corrReadyC : CorrReady env "direct" false readyC "dim_x" 1
    (mk2 "dim_basis" 2 "dim_x" 1 fun k _ => k + 1) where
  loop := isLoop
  fn := isCorrFn
  wf := wf _
  obs := sameObs
  dim := by decide
  dimx := (corrReady false).dimx
  force := rfl
  fdims := rfl
  fshape := rfl
  npos := by decide
  xpos := by decide
  tpos := by decide
  tle := (corrReady false).tle
  ne := nonempty

theorem corrsC_ok : ∃ s', computeCorrs env "direct" false true none readyC = (s', none) :=
  ⟨_, Prod.ext rfl (by decide +kernel)⟩

theorem kernelC_ok : (computeKernelStep "rect" (fun _ _ => none) (computeCorrs env "direct" false true none readyC).1).2 = none := by
  decide +kernel

end Ex

example (n : ℕ) (pts : ℕ → ℕ → ℚ) := C108_after_estimation_partial Ex.corrReadyC rfl (by decide)
  (Prod.ext rfl (by decide +kernel)) (Prod.ext rfl Ex.kernelC_ok) n pts

/-- **C42_method_recorded** applies to the same state. -/
example := C42_method_recorded (s' := (computeKernelStep "rect" (fun _ _ => none)
  (computeCorrs Ex.env "direct" false true none Ex.readyC).1).1) (Prod.ext rfl Ex.kernelC_ok)

/-- **C108** fails for the hybrid class in dimension two: a kernel with one row for each function the estimator correlates
(two velocities and two functions) cannot be evaluated. -/
theorem C108_hybrid_fails : ∃ s : ModelState ℚ, s.bm.cls = .hybrid ∧ s.bm.dimx = 2 ∧ s.rankProjection = false ∧
    (∃ k, s.kernel = some ⟨Spec.nCorr s.bm, 1, k⟩) ∧ ∀ n pts, kernelEvalAt s n pts = .error .value := by
  refine ⟨⟨⟨.hybrid, Ex.basis, 2, 1⟩, "a", 1, 3, none, some ⟨4, 1, Ex.kernelData 4⟩, some "rect", false, none, none, none,
    none, none⟩, rfl, rfl, rfl, ⟨_, rfl⟩, fun n pts => ?_⟩
  obtain ⟨w, e1, e2, -⟩ := kernelVector_at (⟨.hybrid, Ex.basis, 2, 1⟩ : BasisModel ℚ) 2 n pts
  exact contract_error .hybrid (Ex.kernelData 4) e1 e2 (by decide)

end Verif
