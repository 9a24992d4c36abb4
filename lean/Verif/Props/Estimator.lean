import Verif.Lemmas.Estimator
import Verif.Props.VolterraMore
import Mathlib.Algebra.BigOperators.Fin
import Mathlib.Algebra.BigOperators.Field
import Mathlib.Algebra.Order.BigOperators.Group.Finset
import Mathlib.Algebra.Order.BigOperators.Group.List
import Mathlib.LinearAlgebra.Matrix.Nondegenerate
import Mathlib.Tactic.Linarith

/-!
# Properties of the averages and of the mean force: C36 - C40
-/

namespace Verif

set_option linter.unusedSectionVars false

open LArr Finset

section
variable {K : Type*} [Field K] [LinearOrder K]

/-! ### C36: pooled averages -/

/-- **C36**, Gram matrix of the force basis: after `compute_gram_force` the entry `[i, j]` is the average
of the product of the functions `i` and `j` over all frames of all trajectories, whatever the lengths. -/
theorem C36_gram_force [CharZero K] {env : Env K} (hl : IsLoop env.loop) {s : EstState K} (hm : s.model.bm.WF)
    (hne : s.xvas ≠ []) (hn : ∀ xva ∈ s.xvas, 1 ≤ xva.n) :
    ∃ G, computeGramForce env s = ({ s with model := { s.model with gramForce := some G } }, none) ∧
      G.dims = ["dim_basis", "dim_basis'"] ∧ G.shape = [s.model.bm.nForce, s.model.bm.nForce] ∧
      ∀ i < s.model.bm.nForce, ∀ j < s.model.bm.nForce, G.get [i, j] = Spec.pooledMean (s.xvas.map fun x =>
        (x.n, fun t => Spec.forceFeature s.model.bm x t i * Spec.forceFeature s.model.bm x t j)) := by
  obtain ⟨out, e, h1, h2⟩ := loopSerial_ok hne (gramLay_ok s.model.bm.nForce) fun x _ => gramForce_res hm x
  obtain ⟨G, rfl⟩ := List.length_eq_one_iff.1 h1
  obtain ⟨A, hA, d1, d2, d3⟩ := h2 0 (by omega)
  simp only [List.getElem?_cons_zero, Option.some.injEq] at hA
  subst hA
  refine ⟨G, ?_, d1, d2, fun i hi j hj => ?_⟩
  · unfold computeGramForce
    rw [hl.eq, e]
  · rw [d3 _ (inRange2_mk hi hj), ← pooled_sum hn]
    rfl

/-- **C36**, the averages used for the mean force: projection of the observable and Gram matrix. -/
theorem C36_force_projection [CharZero K] {env : Env K} (hl : IsLoop env.loop) {m : BasisModel K} (hm : m.WF)
    {xvas : List (Xva K)} {L d : String} {x : ℕ} (hs : SameObs xvas L d x)
    (hne : xvas ≠ []) (hn : ∀ xva ∈ xvas, 1 ≤ xva.n) :
    ∃ D G, env.loop (projectionOnBasis m L) xvas = .ok [D, G] ∧
      D.dims = ["dim_basis", d] ∧ D.shape = [m.nForce, x] ∧
      G.dims = ["dim_basis", "dim_basis'"] ∧ G.shape = [m.nForce, m.nForce] ∧
      (∀ i < m.nForce, ∀ j < x, D.get [i, j] = Spec.pooledMean (xvas.map fun xva =>
        (xva.n, fun t => Spec.forceFeature m xva t i * xva.data L t j))) ∧
      ∀ i < m.nForce, ∀ j < m.nForce, G.get [i, j] = Spec.pooledMean (xvas.map fun xva =>
        (xva.n, fun t => Spec.forceFeature m xva t i * Spec.forceFeature m xva t j)) := by
  obtain ⟨out, e, h1, h2⟩ := loopSerial_ok hne (projLay_ok m hs.2.1 x) fun xva hx => projection_res hm hs hx
  obtain ⟨D, G, rfl⟩ := List.length_eq_two.1 h1
  obtain ⟨A, hA, d1, d2, d3⟩ := h2 0 (by omega)
  obtain ⟨B, hB, g1, g2, g3⟩ := h2 1 (by omega)
  simp only [List.getElem?_cons_zero, List.getElem?_cons_succ, Option.some.injEq] at hA hB
  subst hA hB
  refine ⟨D, G, by rw [hl.eq, e], d1, d2, g1, g2, fun i hi j hj => ?_, fun i hi j hj => ?_⟩
  · rw [d3 _ (inRange2_mk hi hj), ← pooled_sum hn]
    rfl
  · rw [g3 _ (inRange2_mk hi hj), ← pooled_sum hn]
    rfl

/-- **C36**, mean of the basis. -/
theorem C36_basis_mean [CharZero K] {env : Env K} (hl : IsLoop env.loop) {s : EstState K} (hm : s.model.bm.WF)
    (hne : s.xvas ≠ []) (hn : ∀ xva ∈ s.xvas, 1 ≤ xva.n) :
    ∃ E, computeBasisMean env "force" s = .ok E ∧ E.dims = ["dim_basis"] ∧ E.shape = [s.model.bm.nForce] ∧
      ∀ i < s.model.bm.nForce, E.get [i] = Spec.pooledMean (s.xvas.map fun x =>
        (x.n, fun t => Spec.forceFeature s.model.bm x t i)) := by
  obtain ⟨out, e, h1, h2⟩ := loopSerial_ok hne (fun i _ => by simp) fun x _ => basisMeanForce_res hm x
  obtain ⟨G, rfl⟩ := List.length_eq_one_iff.1 h1
  obtain ⟨A, hA, d1, d2, d3⟩ := h2 0 (by omega)
  simp only [List.getElem?_cons_zero, Option.some.injEq] at hA
  subst hA
  refine ⟨G, ?_, d1, d2, fun i hi => ?_⟩
  · unfold computeBasisMean
    rw [hl.eq, e]
    rfl
  · rw [d3 _ (.cons hi .nil), ← pooled_sum hn]
    rfl

/-- **C36**, Gram matrix of the kernel basis (classes without a rank projection). -/
theorem C36_gram_kernel [CharZero K] {env : Env K} (hl : IsLoop env.loop) {s : EstState K}
    (hr : s.model.rankProjection = false) (hne : s.xvas ≠ []) (hn : ∀ xva ∈ s.xvas, 1 ≤ xva.n) :
    ∃ G, computeGramKernel env s = ({ s with model := { s.model with gramKernel := some G } }, none) ∧
      G.dims = ["dim_basis", "dim_basis'"] ∧
      ∀ i < s.model.bm.nKernelEval, ∀ j < s.model.bm.nKernelEval, G.get [i, j] =
        Spec.pooledMean (s.xvas.map fun x => (x.n, fun t => ∑ d ∈ range (s.model.bm.kernelDim x),
          Spec.kernelFeature s.model.bm x t i d * Spec.kernelFeature s.model.bm x t j d)) := by
  obtain ⟨out, e, h1, h2⟩ := loopSerial_ok hne (gramLay_ok s.model.bm.nKernelEval) fun x _ =>
    gramKernel_res s.model.bm x
  obtain ⟨G, rfl⟩ := List.length_eq_one_iff.1 h1
  obtain ⟨A, hA, d1, d2, d3⟩ := h2 0 (by omega)
  simp only [List.getElem?_cons_zero, Option.some.injEq] at hA
  subst hA
  refine ⟨G, ?_, d1, fun i hi j hj => ?_⟩
  · unfold computeGramKernel
    rw [hl.eq, e]
    simp [hr]
  · rw [d3 _ (inRange2_mk hi hj), ← pooled_sum hn]
    rfl

/-! ### C37: order of the trajectories, parallel execution -/

/-- **C37**, parallel execution: whatever the order in which the pool runs the tasks, the result (or the
exception) is that of the serial loop. Holds for every function of a trajectory. -/
theorem C37_schedule (func : ℕ → Xva K → Except Err (List (LArr K))) (xvas : List (Xva K)) {order : List ℕ}
    (h : order.Perm (List.range xvas.length)) : loopParallel order func xvas = loopSerial func xvas :=
  loopParallel_eq func xvas fun _ hi => h.symm.subset (List.mem_range.2 hi)

/-- Two arrays with the same axes, sizes and entries. -/
def LArr.Same (A B : LArr K) : Prop :=
  A.dims = B.dims ∧ A.shape = B.shape ∧ ∀ is, InRange is A.shape → A.get is = B.get is

omit [LinearOrder K] in
theorem Res.same {k : ℕ} {lay : ℕ → List String × List ℕ} {f : ℕ → List ℕ → K} {rs rs' : List (LArr K)}
    (h : Res k lay f rs) (h' : Res k lay f rs') : List.Forall₂ LArr.Same rs rs' := by
  rw [List.forall₂_iff_get]
  refine ⟨by rw [h.1, h'.1], fun i h1 h2 => ?_⟩
  obtain ⟨A, hA, a1, a2, a3⟩ := h.2 i (h.1 ▸ h1)
  obtain ⟨B, hB, b1, b2, b3⟩ := h'.2 i (h.1 ▸ h1)
  rw [List.getElem?_eq_getElem h1, Option.some.injEq] at hA
  rw [List.getElem?_eq_getElem h2, Option.some.injEq] at hB
  simp only [List.get_eq_getElem, hA, hB]
  exact ⟨by rw [a1, b1], by rw [a2, b2], fun is his => by
    rw [a3 is (a2 ▸ his), b3 is (a2 ▸ his)]⟩

omit [LinearOrder K] in
/-- **C37**, permutations: for a function that gives arrays of the same axes and sizes for all trajectories,
the averages do not depend on the order of the trajectories. -/
theorem C37_permutation {func : ℕ → Xva K → Except Err (List (LArr K))} {xvas xvas' : List (Xva K)}
    (hp : xvas.Perm xvas') (hne : xvas ≠ []) {k : ℕ} {lay : ℕ → List String × List ℕ}
    (hn : ∀ i < k, (lay i).1.Nodup ∧ (lay i).2.length = (lay i).1.length)
    (hf : ∀ x ∈ xvas, ∃ rs g, func x.n x = .ok rs ∧ Res k lay g rs) :
    ∃ out out', loopSerial func xvas = .ok out ∧ loopSerial func xvas' = .ok out' ∧
      List.Forall₂ LArr.Same out out' := by
  have hf' : ∀ x, ∃ g, x ∈ xvas → ∃ rs, func x.n x = .ok rs ∧ Res k lay g rs := by
    intro x
    by_cases hx : x ∈ xvas
    · obtain ⟨rs, g, h⟩ := hf x hx; exact ⟨g, fun _ => ⟨rs, h⟩⟩
    · exact ⟨fun _ _ => 0, fun h => absurd h hx⟩
  choose g hg using hf'
  obtain ⟨out, e, h⟩ := loopSerial_ok hne hn fun x hx => hg x hx
  obtain ⟨out', e', h'⟩ := loopSerial_ok (xvas := xvas') (fun h => hne (by simpa [h] using hp)) hn
    fun x hx => hg x (hp.symm.subset hx)
  refine ⟨out, out', e, e', h.same ?_⟩
  have : (fun (i : ℕ) (is : List ℕ) => (xvas'.map fun x => g x i is * x.n / ((xvas'.map (·.n)).sum : ℕ)).sum) =
      fun i is => (xvas.map fun x => g x i is * x.n / ((xvas.map (·.n)).sum : ℕ)).sum := by
    funext i is
    rw [(hp.map fun x : Xva K => x.n).sum_eq]
    exact ((hp.map _).sum_eq).symm
  rw [this] at h'
  exact h'

/-- **C37** for the averages of the estimator: projection of the force, Gram matrices, mean of the basis,
squared velocities. (The correlations are in `C37_correlations`.) -/
theorem C37_averages {m : BasisModel K} (hm : m.WF) {xvas xvas' : List (Xva K)}
    {L d : String} {x y : ℕ} (hs : SameObs xvas L d x) (hy : ∀ xva ∈ xvas, xva.dimx = y) (hne : xvas ≠ [])
    (hp : xvas.Perm xvas') :
    ∀ func ∈ [projectionOnBasis m L, gramTraj m "force", gramTraj m "kernel", basisMeanTraj m "force",
      squareVelTraj],
    ∃ out out', loopSerial func xvas = .ok out ∧ loopSerial func xvas' = .ok out' ∧
      List.Forall₂ LArr.Same out out' := by
  intro func hfunc
  simp only [List.mem_cons, List.not_mem_nil, or_false] at hfunc
  rcases hfunc with rfl | rfl | rfl | rfl | rfl
  · exact C37_permutation hp hne (projLay_ok m hs.2.1 x) fun xva hx =>
      let ⟨rs, h⟩ := projection_res hm hs hx; ⟨rs, _, h⟩
  · exact C37_permutation hp hne (gramLay_ok m.nForce) fun xva _ =>
      let ⟨rs, h⟩ := gramForce_res hm xva; ⟨rs, _, h⟩
  · exact C37_permutation hp hne (gramLay_ok m.nKernelEval) fun xva _ =>
      let ⟨rs, h⟩ := gramKernel_res m xva; ⟨rs, _, h⟩
  · exact C37_permutation hp hne (fun i _ => by simp) fun xva _ =>
      let ⟨rs, h⟩ := basisMeanForce_res hm xva; ⟨rs, _, h⟩
  · exact C37_permutation hp hne (lay := velLay y) (k := 1) (fun i _ => by simp [velLay]) fun xva hx =>
      let ⟨rs, h⟩ := squareVel_res hy hx; ⟨rs, _, h⟩

/-! ### C38, C39: the mean force -/

omit [LinearOrder K] in
theorem pooledMean_eq (xvas : List (Xva K)) (F : Xva K → ℕ → K) :
    Spec.pooledMean (xvas.map fun x => (x.n, F x)) =
      Spec.pooledSum (xvas.map fun x => (x.n, F x)) / ((xvas.map fun x => x.n).sum : ℕ) := by
  rw [Spec.pooledMean, List.map_map]; rfl

omit [LinearOrder K] in
theorem pooled_add (xvas : List (Xva K)) (F G : Xva K → ℕ → K) :
    Spec.pooledSum (xvas.map fun x => (x.n, fun t => F x t + G x t)) =
      Spec.pooledSum (xvas.map fun x => (x.n, F x)) + Spec.pooledSum (xvas.map fun x => (x.n, G x)) := by
  simp [Spec.pooledSum, Function.comp_def, sum_add_distrib]

omit [LinearOrder K] in
theorem pooled_mul (xvas : List (Xva K)) (F : Xva K → ℕ → K) (c : K) :
    Spec.pooledSum (xvas.map fun x => (x.n, fun t => F x t * c)) =
      Spec.pooledSum (xvas.map fun x => (x.n, F x)) * c := by
  simp only [Spec.pooledSum, List.map_map, Function.comp_def, ← sum_mul, List.sum_map_mul_right]

omit [LinearOrder K] in
theorem pooled_fsum (xvas : List (Xva K)) (p : ℕ) (F : ℕ → Xva K → ℕ → K) :
    Spec.pooledSum (xvas.map fun x => (x.n, fun t => ∑ k ∈ range p, F k x t)) =
      ∑ k ∈ range p, Spec.pooledSum (xvas.map fun x => (x.n, F k x)) := by
  induction p with
  | zero => simp [Spec.pooledSum, Function.comp_def]
  | succ p ih =>
    simp only [sum_range_succ]
    rw [pooled_add, ih]

/-- What `solve_linear` returns. -/
theorem solveLinear_ok {G b c : LArr K} {p x : ℕ} (hG : G.shape = [p, p]) (hb : b.shape = [p, x])
    (h : solveLinear G b = .ok c) :
    c.dims = b.dims ∧ c.shape = b.shape ∧ (G.toMatrix p p).det ≠ 0 ∧
    ∀ i < p, ∀ j < x, ∑ k ∈ range p, G.get [i, k] * c.get [k, j] = b.get [i, j] := by
  unfold solveLinear at h
  rw [hG, hb, show [p, p].headD 0 = p from rfl, show [p, x].getLastD 0 = x from rfl] at h
  unfold solveDim npInv at h
  by_cases hd : (G.toMatrix p p).det = 0
  · rw [if_pos hd] at h; cases h
  · rw [if_neg hd] at h
    simp only [bind, Except.bind, pure, Except.pure, Except.ok.injEq] at h
    subst h
    refine ⟨rfl, rfl, hd, fun i hi j hj => ?_⟩
    have hmul : G.toMatrix p p * (((G.toMatrix p p).det⁻¹ • (G.toMatrix p p).adjugate) * b.toMatrix p x) =
        b.toMatrix p x := by
      rw [← Matrix.mul_assoc, Matrix.mul_smul, Matrix.mul_adjugate, smul_smul, inv_mul_cancel₀ hd, one_smul,
        Matrix.one_mul]
    have := congrFun (congrFun hmul ⟨i, hi⟩) ⟨j, hj⟩
    rw [Matrix.mul_apply] at this
    rw [sum_range]
    simp only [hj, Fin.is_lt, and_self, dite_true]
    exact this

theorem solveLinear_isOk {G b : LArr K} {p x : ℕ} (hG : G.shape = [p, p]) (hb : b.shape = [p, x])
    (hd : (G.toMatrix p p).det ≠ 0) : ∃ c, solveLinear G b = .ok c := by
  unfold solveLinear
  rw [hG, hb, show [p, p].headD 0 = p from rfl, show [p, x].getLastD 0 = x from rfl]
  unfold solveDim npInv
  rw [if_neg hd]
  exact ⟨_, rfl⟩

/-- What `compute_mean_force` does when it succeeds. -/
theorem computeMeanForce_ok [CharZero K] {env : Env K} (hl : IsLoop env.loop) {s s' : EstState K} (hm : s.model.bm.WF)
    {d : String} {x : ℕ} (hs : SameObs s.xvas s.model.Lobs d x)
    (hne : s.xvas ≠ []) (hn : ∀ xva ∈ s.xvas, 1 ≤ xva.n) (h : computeMeanForce env s = (s', none)) :
    ∃ c, s'.model.forceCoeff = some c ∧ c.dims = ["dim_basis", d] ∧ c.shape = [s.model.bm.nForce, x] ∧
      (Matrix.of fun i j : Fin s.model.bm.nForce => Spec.pooledMean (s.xvas.map fun xva => (xva.n, fun t =>
        Spec.forceFeature s.model.bm xva t i * Spec.forceFeature s.model.bm xva t j))).det ≠ 0 ∧
      ∀ i < s.model.bm.nForce, ∀ j < x,
        ∑ k ∈ range s.model.bm.nForce, Spec.pooledSum (s.xvas.map fun xva =>
          (xva.n, fun t => Spec.forceFeature s.model.bm xva t i * Spec.forceFeature s.model.bm xva t k)) * c.get [k, j] =
        Spec.pooledSum (s.xvas.map fun xva =>
          (xva.n, fun t => Spec.forceFeature s.model.bm xva t i * xva.data s.model.Lobs t j)) := by
  obtain ⟨D, G, e, d1, d2, g1, g2, d3, g3⟩ := C36_force_projection hl hm hs hne hn
  unfold computeMeanForce at h
  rw [e] at h
  dsimp only at h
  cases hc : solveLinear G D with
  | error e => rw [hc] at h; simp [raises] at h
  | ok c =>
    rw [hc] at h
    simp only [Prod.mk.injEq, and_true] at h
    subst h
    obtain ⟨c1, c2, c3, c4⟩ := solveLinear_ok g2 d2 hc
    refine ⟨c, rfl, by rw [c1, d1], by rw [c2, d2], ?_, fun i hi j hj => ?_⟩
    · have : G.toMatrix s.model.bm.nForce s.model.bm.nForce = Matrix.of fun i j : Fin s.model.bm.nForce =>
          Spec.pooledMean (s.xvas.map fun xva => (xva.n, fun t =>
          Spec.forceFeature s.model.bm xva t i * Spec.forceFeature s.model.bm xva t j)) := by
        ext i j
        exact g3 i i.2 j j.2
      rw [← this]; exact c3
    · have hW : (((s.xvas.map fun x => x.n).sum : ℕ) : K) ≠ 0 := by
        obtain ⟨y, hy⟩ := List.exists_mem_of_ne_nil _ hne
        have : y.n ≤ (s.xvas.map fun x => x.n).sum := List.single_le_sum (by simp) _ (List.mem_map_of_mem hy)
        have := hn y hy
        exact_mod_cast (by omega : (s.xvas.map fun x => x.n).sum ≠ 0)
      have := c4 i hi j hj
      rw [d3 i hi j hj, pooledMean_eq] at this
      rw [sum_congr rfl fun k hk => by rw [g3 i hi k (mem_range.1 hk), pooledMean_eq, div_mul_eq_mul_div],
        ← sum_div, div_left_inj' hW] at this
      exact this

/-- `compute_mean_force` succeeds when the pooled Gram matrix is invertible. -/
theorem C38_defined [CharZero K] {env : Env K} (hl : IsLoop env.loop) {s : EstState K} (hm : s.model.bm.WF)
    {d : String} {x : ℕ} (hs : SameObs s.xvas s.model.Lobs d x)
    (hne : s.xvas ≠ []) (hn : ∀ xva ∈ s.xvas, 1 ≤ xva.n)
    (hd : (Matrix.of fun i j : Fin s.model.bm.nForce => Spec.pooledMean (s.xvas.map fun xva => (xva.n, fun t =>
        Spec.forceFeature s.model.bm xva t i * Spec.forceFeature s.model.bm xva t j))).det ≠ 0) :
    ∃ s', computeMeanForce env s = (s', none) := by
  obtain ⟨D, G, e, d1, d2, g1, g2, d3, g3⟩ := C36_force_projection hl hm hs hne hn
  have : G.toMatrix s.model.bm.nForce s.model.bm.nForce = Matrix.of fun i j : Fin s.model.bm.nForce =>
      Spec.pooledMean (s.xvas.map fun xva => (xva.n, fun t =>
      Spec.forceFeature s.model.bm xva t i * Spec.forceFeature s.model.bm xva t j)) := by
    ext i j
    exact g3 i i.2 j j.2
  obtain ⟨c, hc⟩ := solveLinear_isOk g2 d2 (by rw [this]; exact hd)
  unfold computeMeanForce
  rw [e]
  dsimp only
  rw [hc]
  exact ⟨_, rfl⟩

/-- **C38.** After `compute_mean_force`, the residual of the observable is orthogonal to every basis
function: the sum of their product over all frames of all trajectories vanishes, for every component. -/
theorem C38_residual_orthogonal [CharZero K] {env : Env K} (hl : IsLoop env.loop) {s s' : EstState K}
    (hm : s.model.bm.WF) {d : String} {x : ℕ} (hs : SameObs s.xvas s.model.Lobs d x)
    (hne : s.xvas ≠ []) (hn : ∀ xva ∈ s.xvas, 1 ≤ xva.n) (h : computeMeanForce env s = (s', none)) :
    ∃ c, s'.model.forceCoeff = some c ∧ ∀ i < s.model.bm.nForce, ∀ j < x,
      Spec.pooledSum (s.xvas.map fun xva => (xva.n, fun t => Spec.forceFeature s.model.bm xva t i *
        (xva.data s.model.Lobs t j -
          ∑ k ∈ range s.model.bm.nForce, Spec.forceFeature s.model.bm xva t k * c.get [k, j]))) = 0 := by
  obtain ⟨c, hc, -, -, -, key⟩ := computeMeanForce_ok hl hm hs hne hn h
  refine ⟨c, hc, fun i hi j hj => ?_⟩
  have e : (fun xva : Xva K => (xva.n, fun t => Spec.forceFeature s.model.bm xva t i *
        (xva.data s.model.Lobs t j -
          ∑ k ∈ range s.model.bm.nForce, Spec.forceFeature s.model.bm xva t k * c.get [k, j]))) =
      fun xva => (xva.n, fun t => Spec.forceFeature s.model.bm xva t i * xva.data s.model.Lobs t j +
        (∑ k ∈ range s.model.bm.nForce, (Spec.forceFeature s.model.bm xva t i * Spec.forceFeature s.model.bm xva t k) *
          c.get [k, j]) * (-1)) := by
    funext xva
    congr 1
    funext t
    rw [mul_sub, mul_sum, mul_neg_one, ← sub_eq_add_neg]
    congr 1
    exact sum_congr rfl fun k _ => by ring
  rw [e, pooled_add, pooled_mul, pooled_fsum, ← key i hi j hj]
  simp only [pooled_mul]
  ring

end

section
variable {K : Type*} [Field K] [LinearOrder K] [IsStrictOrderedRing K]

omit [IsStrictOrderedRing K] in
theorem pooled_nonneg [IsStrictOrderedRing K] {xvas : List (Xva K)} {F : Xva K → ℕ → K} (hF : ∀ x t, 0 ≤ F x t) :
    0 ≤ Spec.pooledSum (xvas.map fun x => (x.n, F x)) := by
  unfold Spec.pooledSum
  refine List.sum_nonneg fun y hy => ?_
  simp only [List.map_map, List.mem_map, Function.comp] at hy
  obtain ⟨x, -, rfl⟩ := hy
  exact sum_nonneg fun t _ => hF x t

theorem pooled_eq_zero {xvas : List (Xva K)} {F : Xva K → ℕ → K} (hF : ∀ x t, 0 ≤ F x t) :
    Spec.pooledSum (xvas.map fun x => (x.n, F x)) = 0 ↔ ∀ x ∈ xvas, ∀ t < x.n, F x t = 0 := by
  induction xvas with
  | nil => simp [Spec.pooledSum]
  | cons y ys ih =>
    have h2 := pooled_nonneg (xvas := ys) hF
    have h1 : 0 ≤ ∑ t ∈ range y.n, F y t := sum_nonneg fun t _ => hF y t
    have e : Spec.pooledSum ((y :: ys).map fun x => (x.n, F x)) = (∑ t ∈ range y.n, F y t) +
        Spec.pooledSum (ys.map fun x => (x.n, F x)) := by
      simp [Spec.pooledSum]
    rw [e, List.forall_mem_cons, ← ih]
    constructor
    · intro h
      have h3 : ∑ t ∈ range y.n, F y t = 0 := by linarith
      refine ⟨fun t ht => (sum_eq_zero_iff_of_nonneg fun t _ => hF y t).1 h3 t (mem_range.2 ht), by linarith⟩
    · rintro ⟨h3, h4⟩
      rw [h4, sum_eq_zero fun t ht => h3 t (mem_range.1 ht), add_zero]

/-- The summed squared residual for given coefficients of the component `j`. -/
def Spec.residual (m : BasisModel K) (xvas : List (Xva K)) (L : String) (j : ℕ) (c : ℕ → K) : K :=
  Spec.pooledSum (xvas.map fun xva => (xva.n, fun t =>
    (xva.data L t j - ∑ k ∈ range m.nForce, Spec.forceFeature m xva t k * c k) ^ 2))

/-- **C39.** The coefficients found by `compute_mean_force` minimise the summed squared residual among all
coefficients, for every component, and are the only ones to do so. -/
theorem C39_least_squares {env : Env K} (hl : IsLoop env.loop) {s s' : EstState K}
    (hm : s.model.bm.WF) {d : String} {x : ℕ} (hs : SameObs s.xvas s.model.Lobs d x)
    (hne : s.xvas ≠ []) (hn : ∀ xva ∈ s.xvas, 1 ≤ xva.n) (h : computeMeanForce env s = (s', none)) :
    ∃ c, s'.model.forceCoeff = some c ∧ ∀ j < x, ∀ c' : ℕ → K,
      Spec.residual s.model.bm s.xvas s.model.Lobs j (fun k => c.get [k, j]) ≤
        Spec.residual s.model.bm s.xvas s.model.Lobs j c' ∧
      (Spec.residual s.model.bm s.xvas s.model.Lobs j c' =
        Spec.residual s.model.bm s.xvas s.model.Lobs j (fun k => c.get [k, j]) →
        ∀ k < s.model.bm.nForce, c' k = c.get [k, j]) := by
  obtain ⟨c0, hc0, horth⟩ := C38_residual_orthogonal hl hm hs hne hn h
  obtain ⟨c, hc, -, -, hdet, key⟩ := computeMeanForce_ok hl hm hs hne hn h
  obtain rfl : c0 = c := by rw [hc0] at hc; exact Option.some.inj hc
  clear hc0
  refine ⟨c0, hc, fun j hj c' => ?_⟩
  set m := s.model.bm
  set L := s.model.Lobs
  set u : ℕ → K := fun k => c0.get [k, j] - c' k with hu
  let q : Xva K → ℕ → K := fun xva t => ∑ k ∈ range m.nForce, Spec.forceFeature m xva t k * u k
  let r : Xva K → ℕ → K := fun xva t => xva.data L t j -
    ∑ k ∈ range m.nForce, Spec.forceFeature m xva t k * c0.get [k, j]
  have e : Spec.residual m s.xvas L j c' = Spec.residual m s.xvas L j (fun k => c0.get [k, j]) +
      Spec.pooledSum (s.xvas.map fun xva => (xva.n, fun t => q xva t ^ 2)) := by
    have h1 : (fun xva : Xva K => (xva.n, fun t =>
        (xva.data L t j - ∑ k ∈ range m.nForce, Spec.forceFeature m xva t k * c' k) ^ 2)) =
        fun xva => (xva.n, fun t => (r xva t ^ 2 + (∑ k ∈ range m.nForce,
          (Spec.forceFeature m xva t k * r xva t) * (2 * u k))) + q xva t ^ 2) := by
      funext xva
      congr 1
      funext t
      have h2 : ∑ k ∈ range m.nForce, Spec.forceFeature m xva t k * c' k =
          (∑ k ∈ range m.nForce, Spec.forceFeature m xva t k * c0.get [k, j]) - q xva t := by
        simp only [q, hu, ← sum_sub_distrib]
        exact sum_congr rfl fun k _ => by ring
      have h3 : ∑ k ∈ range m.nForce, (Spec.forceFeature m xva t k * r xva t) * (2 * u k) =
          2 * r xva t * q xva t := by
        simp only [q, mul_sum]
        exact sum_congr rfl fun k _ => by ring
      rw [h2, h3]
      simp only [r]
      ring
    unfold Spec.residual
    rw [h1, pooled_add, pooled_add, pooled_fsum]
    have h4 : ∑ k ∈ range m.nForce, Spec.pooledSum (s.xvas.map fun xva => (xva.n, fun t =>
        (Spec.forceFeature m xva t k * r xva t) * (2 * u k))) = 0 := by
      refine sum_eq_zero fun k hk => ?_
      rw [pooled_mul, horth k (mem_range.1 hk) j hj, zero_mul]
    rw [h4, add_zero]
  have hq : 0 ≤ Spec.pooledSum (s.xvas.map fun xva => (xva.n, fun t => q xva t ^ 2)) :=
    pooled_nonneg fun _ _ => sq_nonneg _
  refine ⟨by linarith, fun heq => ?_⟩
  have hq0 : Spec.pooledSum (s.xvas.map fun xva => (xva.n, fun t => q xva t ^ 2)) = 0 := by linarith
  have hqz := (pooled_eq_zero (F := fun xva t => q xva t ^ 2) fun _ _ => sq_nonneg _).1 hq0
  -- the Gram matrix annihilates `u`
  have hGu : (Matrix.of fun i j : Fin m.nForce => Spec.pooledMean (s.xvas.map fun xva => (xva.n, fun t =>
        Spec.forceFeature m xva t i * Spec.forceFeature m xva t j))).mulVec (fun k => u k) = 0 := by
    funext i
    simp only [Matrix.mulVec, dotProduct, Matrix.of_apply, pooledMean_eq, Pi.zero_apply, div_mul_eq_mul_div]
    rw [← sum_div]
    have h5 : ∑ k : Fin m.nForce, Spec.pooledSum (s.xvas.map fun xva => (xva.n, fun t =>
        Spec.forceFeature m xva t i * Spec.forceFeature m xva t k)) * u k =
        Spec.pooledSum (s.xvas.map fun xva => (xva.n, fun t => Spec.forceFeature m xva t i * q xva t)) := by
      rw [← sum_range (fun k => Spec.pooledSum (s.xvas.map fun xva => (xva.n, fun t =>
        Spec.forceFeature m xva t i * Spec.forceFeature m xva t k)) * u k)]
      have h6 : (fun xva : Xva K => (xva.n, fun t => Spec.forceFeature m xva t i * q xva t)) =
          fun xva => (xva.n, fun t => ∑ k ∈ range m.nForce,
            (Spec.forceFeature m xva t i * Spec.forceFeature m xva t k) * u k) := by
        funext xva
        congr 1
        funext t
        simp only [q, mul_sum, mul_assoc]
      rw [h6, pooled_fsum]
      simp only [pooled_mul]
    rw [h5]
    have h7 : Spec.pooledSum (s.xvas.map fun xva => (xva.n, fun t => Spec.forceFeature m xva t i * q xva t)) = 0 := by
      unfold Spec.pooledSum
      refine List.sum_eq_zero fun y hy => ?_
      simp only [List.map_map, List.mem_map, Function.comp] at hy
      obtain ⟨xva, hx, rfl⟩ := hy
      refine sum_eq_zero fun t ht => ?_
      have := hqz xva hx t (mem_range.1 ht)
      rw [pow_eq_zero_iff (two_ne_zero)] at this
      rw [this, mul_zero]
    rw [h7, zero_div]
  have hu0 := Matrix.eq_zero_of_mulVec_eq_zero hdet hGu
  intro k hk
  have := congrFun hu0 ⟨k, hk⟩
  simp only [hu, Pi.zero_apply, sub_eq_zero] at this
  exact this.symm

/-- **C39**, exact recovery: an observable that is a combination of the basis functions on all frames is
recovered exactly. -/
theorem C39_exact_recovery {env : Env K} (hl : IsLoop env.loop) {s s' : EstState K}
    (hm : s.model.bm.WF) {d : String} {x : ℕ} (hs : SameObs s.xvas s.model.Lobs d x)
    (hne : s.xvas ≠ []) (hn : ∀ xva ∈ s.xvas, 1 ≤ xva.n) (h : computeMeanForce env s = (s', none))
    {cs : ℕ → ℕ → K} (hobs : ∀ xva ∈ s.xvas, ∀ t < xva.n, ∀ j < x, xva.data s.model.Lobs t j =
      ∑ k ∈ range s.model.bm.nForce, Spec.forceFeature s.model.bm xva t k * cs k j) :
    ∃ c, s'.model.forceCoeff = some c ∧ ∀ k < s.model.bm.nForce, ∀ j < x, c.get [k, j] = cs k j := by
  obtain ⟨c, hc, key⟩ := C39_least_squares hl hm hs hne hn h
  refine ⟨c, hc, fun k hk j hj => ?_⟩
  obtain ⟨h1, h2⟩ := key j hj fun k => cs k j
  have hz : Spec.residual s.model.bm s.xvas s.model.Lobs j (fun k => cs k j) = 0 := by
    unfold Spec.residual
    rw [pooled_eq_zero (F := fun xva t => (xva.data s.model.Lobs t j -
      ∑ k ∈ range s.model.bm.nForce, Spec.forceFeature s.model.bm xva t k * cs k j) ^ 2) fun _ _ => sq_nonneg _]
    intro xva hx t ht
    rw [hobs xva hx t ht j hj, sub_self, zero_pow two_ne_zero]
  have hp : 0 ≤ Spec.residual s.model.bm s.xvas s.model.Lobs j (fun k => c.get [k, j]) :=
    pooled_nonneg fun _ _ => sq_nonneg _
  exact (h2 (by linarith) k hk).symm

/-! ### C40: Gram matrices -/

/-- **C40.** The Gram matrix computed by `compute_gram_force` is symmetric, its quadratic form is
non-negative, and vanishes exactly on the combinations of functions that vanish on every frame. -/
theorem C40_gram_psd {env : Env K} (hl : IsLoop env.loop) {s : EstState K} (hm : s.model.bm.WF)
    (hne : s.xvas ≠ []) (hn : ∀ xva ∈ s.xvas, 1 ≤ xva.n) :
    ∃ G, (computeGramForce env s).1.model.gramForce = some G ∧ (computeGramForce env s).2 = none ∧
      (∀ i < s.model.bm.nForce, ∀ j < s.model.bm.nForce, G.get [i, j] = G.get [j, i]) ∧
      ∀ c : ℕ → K,
        0 ≤ ∑ i ∈ range s.model.bm.nForce, ∑ j ∈ range s.model.bm.nForce, c i * G.get [i, j] * c j ∧
        (∑ i ∈ range s.model.bm.nForce, ∑ j ∈ range s.model.bm.nForce, c i * G.get [i, j] * c j = 0 ↔
          ∀ xva ∈ s.xvas, ∀ t < xva.n,
            ∑ k ∈ range s.model.bm.nForce, Spec.forceFeature s.model.bm xva t k * c k = 0) := by
  obtain ⟨G, e, -, -, g⟩ := C36_gram_force hl hm hne hn
  refine ⟨G, by rw [e], by rw [e], fun i hi j hj => ?_, fun c => ?_⟩
  · rw [g i hi j hj, g j hj i hi]
    simp only [mul_comm]
  set m := s.model.bm
  have hq : ∑ i ∈ range m.nForce, ∑ j ∈ range m.nForce, c i * G.get [i, j] * c j =
      Spec.pooledSum (s.xvas.map fun xva => (xva.n, fun t =>
        (∑ k ∈ range m.nForce, Spec.forceFeature m xva t k * c k) ^ 2)) / ((s.xvas.map fun x => x.n).sum : ℕ) := by
    have h1 : (fun xva : Xva K => (xva.n, fun t => (∑ k ∈ range m.nForce, Spec.forceFeature m xva t k * c k) ^ 2)) =
        fun xva => (xva.n, fun t => ∑ i ∈ range m.nForce, ∑ j ∈ range m.nForce,
          (Spec.forceFeature m xva t i * Spec.forceFeature m xva t j) * (c i * c j)) := by
      funext xva
      congr 1
      funext t
      rw [pow_two, sum_mul_sum]
      exact sum_congr rfl fun i _ => sum_congr rfl fun j _ => by ring
    rw [h1, pooled_fsum, sum_div]
    refine sum_congr rfl fun i hi => ?_
    rw [pooled_fsum, sum_div]
    refine sum_congr rfl fun j hj => ?_
    rw [pooled_mul, g i (mem_range.1 hi) j (mem_range.1 hj), pooledMean_eq]
    ring
  have hW : (0 : K) < ((s.xvas.map fun x => x.n).sum : ℕ) := by
    obtain ⟨y, hy⟩ := List.exists_mem_of_ne_nil _ hne
    have : y.n ≤ (s.xvas.map fun x => x.n).sum := List.single_le_sum (by simp) _ (List.mem_map_of_mem hy)
    have := hn y hy
    exact_mod_cast (by omega : 0 < (s.xvas.map fun x => x.n).sum)
  rw [hq]
  refine ⟨div_nonneg (pooled_nonneg fun _ _ => sq_nonneg _) hW.le, ?_⟩
  rw [div_eq_zero_iff, or_iff_left hW.ne', pooled_eq_zero (F := fun xva t =>
    (∑ k ∈ range m.nForce, Spec.forceFeature m xva t k * c k) ^ 2) fun _ _ => sq_nonneg _]
  simp only [pow_eq_zero_iff (two_ne_zero)]

end

end Verif
