import Verif.Props.EstimatorExamples
import Verif.Props.Ide
import Verif.Props.Describe

/-!
# More about the estimator: what the calls store (C36, C37, C42, C62), C106 and C107
-/

namespace Verif

set_option linter.unusedSectionVars false

open LArr Finset

section
variable {K : Type*} [Field K] [LinearOrder K]

/-- **C36**, the Gram matrix that `compute_mean_force` stores, whether or not the linear system can be solved. -/
theorem C36_gram_of_mean_force [CharZero K] {env : Env K} (hl : IsLoop env.loop) {s : EstState K} (hm : s.model.bm.WF)
    {d : String} {x : ℕ} (hs : SameObs s.xvas s.model.Lobs d x) (hne : s.xvas ≠ []) (hn : ∀ xva ∈ s.xvas, 1 ≤ xva.n) :
    ∃ G, (computeMeanForce env s).1.model.gramForce = some G ∧ G.dims = ["dim_basis", "dim_basis'"] ∧
      G.shape = [s.model.bm.nForce, s.model.bm.nForce] ∧
      ∀ i < s.model.bm.nForce, ∀ j < s.model.bm.nForce, G.get [i, j] = Spec.pooledMean (s.xvas.map fun xva =>
        (xva.n, fun t => Spec.forceFeature s.model.bm xva t i * Spec.forceFeature s.model.bm xva t j)) := by
  obtain ⟨D, G, e, -, -, g1, g2, -, g3⟩ := C36_force_projection hl hm hs hne hn
  refine ⟨G, ?_, g1, g2, g3⟩
  unfold computeMeanForce
  rw [e]
  dsimp only
  cases solveLinear G D <;> rfl

example := C36_gram_of_mean_force Ex.isLoop (s := Ex.state false) (Ex.wf _) Ex.sameObs Ex.nonempty Ex.pos

/-- **C42**, `set_zero_force`: all the coefficients are zero, one for each function of the force and component of the
observable, and nothing else is changed. -/
theorem C42_zero_force {s : EstState K} {xva : Xva K} {xvas : List (Xva K)} (h : s.xvas = xva :: xvas) {d : String}
    (hd : (xva.var s.model.Lobs).dims = ["time", d]) :
    ∃ c, setZeroForce s = ({ s with model := { s.model with forceCoeff := some c } }, none) ∧
      c.dims = ["dim_basis", d] ∧ c.shape = [s.model.bm.nForce, s.model.bm.dimObs] ∧ ∀ i j, c.get [i, j] = 0 := by
  refine ⟨LArr.mk2 "dim_basis" s.model.bm.nForce ((((xva.var s.model.Lobs).dims)[1]?).getD "") s.model.bm.dimObs
    fun _ _ => 0, ?_, ?_, rfl, fun i j => rfl⟩
  · simp only [setZeroForce, h]
  · rw [hd]; rfl

example := C42_zero_force (s := Ex.state false) rfl (d := "dim_x") rfl

/-- **C42**, `compute_kernel` records its method on the model, and the kernel when it succeeds; it changes nothing else. -/
theorem C42_method_recorded {s s' : EstState K} {method : String} {k0 : ∀ b x : ℕ, Option (Mat K b x)}
    (h : computeKernelStep method k0 s = (s', none)) :
    ∃ c k, s.corrs = some c ∧ s' = { s with model := { s.model with method := some method, kernel := some k } } ∧
      computeKernel (some (c.toCorrs k.1 k.2.1)) s.model.truncInd s.model.dt method (k0 k.1 k.2.1) = .ok k.2.2 ∧
      k.1 = (c.bkbk.shape[0]?).getD 0 ∧ k.2.1 = (c.bkdx.shape[1]?).getD 0 := by
  unfold computeKernelStep at h
  cases hc : s.corrs with
  | none => simp only [hc, raises, Prod.mk.injEq, reduceCtorEq, and_false] at h
  | some c =>
    simp only [hc] at h
    by_cases h0 : s.model.truncInd = 0
    · rw [if_pos h0] at h
      simp only [raises, Prod.mk.injEq, reduceCtorEq, and_false] at h
    · rw [if_neg h0] at h
      cases hk : computeKernel (some (c.toCorrs ((c.bkbk.shape[0]?).getD 0) ((c.bkdx.shape[1]?).getD 0))) s.model.truncInd
          s.model.dt method (k0 ((c.bkbk.shape[0]?).getD 0) ((c.bkdx.shape[1]?).getD 0)) with
      | error e =>
        rw [hk] at h
        simp only [raises, Prod.mk.injEq, reduceCtorEq, and_false] at h
      | ok k =>
        rw [hk] at h
        simp only [Prod.mk.injEq, and_true] at h
        exact ⟨c, ⟨_, _, k⟩, rfl, h.symm, hk, rfl, rfl⟩

/-! ### C106: effective mass -/

/-- **C106**: the effective mass is the inverse of the average of the products of the velocities over all the frames, in
every dimension; a singular matrix of averages raises `LinAlgError`. -/
theorem C106_effective_mass [CharZero K] {env : Env K} (hl : IsLoop env.loop) {s : EstState K} {x : ℕ}
    (hx : ∀ xva ∈ s.xvas, xva.dimx = x) (hne : s.xvas ≠ []) (hn : ∀ xva ∈ s.xvas, 1 ≤ xva.n) :
    let V : Mat K x x := Matrix.of fun i j => Spec.pooledMean (s.xvas.map fun xva =>
      (xva.n, fun t => xva.data "v" t i * xva.data "v" t j))
    (V.det ≠ 0 → ∃ M, computeEffectiveMass env s = ({ s with model := { s.model with effMass := some M } }, none) ∧
      M.dims = ["dim_x'", "dim_x"] ∧ M.shape = [x, x] ∧ M.toMatrix x x * V = 1 ∧ V * M.toMatrix x x = 1) ∧
    (V.det = 0 → computeEffectiveMass env s = (s, some .linAlg)) := by
  intro V
  obtain ⟨out, e, h1, h2⟩ := loopSerial_ok hne (lay := velLay x) (fun i _ => by simp [velLay])
    fun xva h => squareVel_res hx h
  obtain ⟨v2, rfl⟩ := List.length_eq_one_iff.1 h1
  obtain ⟨A, hA, d1, d2, d3⟩ := h2 0 (by omega)
  simp only [List.getElem?_cons_zero, Option.some.injEq] at hA
  subst hA
  obtain ⟨dims, shape, val⟩ := v2
  change shape = [x, x] at d2
  subst d2
  have hV : LArr.toMatrix ⟨dims, [x, x], val⟩ x x = V := by
    ext i j
    change LArr.get ⟨dims, [x, x], val⟩ [i, j] = _
    rw [d3 _ (inRange2_mk i.2 j.2)]
    exact pooled_sum hn (fun xva t => xva.data "v" t i * xva.data "v" t j)
  refine ⟨fun hd => ?_, fun hd => ?_⟩
  · refine ⟨LArr.mk2 "dim_x'" x "dim_x" x fun i j =>
      if h : i < x ∧ j < x then (V.det⁻¹ • V.adjugate) ⟨i, h.1⟩ ⟨j, h.2⟩ else 0, ?_, rfl, rfl, ?_⟩
    · unfold computeEffectiveMass
      rw [hl.eq, e]
      dsimp only [List.headD_cons]
      rw [hV, npInv, if_neg hd]
      rfl
    · have hM : (LArr.mk2 "dim_x'" x "dim_x" x fun i j =>
          if h : i < x ∧ j < x then (V.det⁻¹ • V.adjugate) ⟨i, h.1⟩ ⟨j, h.2⟩ else 0).toMatrix x x =
          V.det⁻¹ • V.adjugate := by
        ext i j
        change (if h : (i : ℕ) < x ∧ (j : ℕ) < x then (V.det⁻¹ • V.adjugate) ⟨i, h.1⟩ ⟨j, h.2⟩ else 0) = _
        rw [dif_pos ⟨i.2, j.2⟩]
      rw [hM]
      constructor
      · rw [Matrix.smul_mul, Matrix.adjugate_mul, smul_smul, inv_mul_cancel₀ hd, one_smul]
      · rw [Matrix.mul_smul, Matrix.mul_adjugate, smul_smul, inv_mul_cancel₀ hd, one_smul]
  · unfold computeEffectiveMass
    rw [hl.eq, e]
    dsimp only [List.headD_cons]
    rw [hV, npInv, if_pos hd]
    rfl

example := C106_effective_mass Ex.isLoop (s := Ex.state false) (x := 1) (by
  intro x hx
  simp only [Ex.state, Ex.xvas, List.mem_cons, List.not_mem_nil, or_false] at hx
  rcases hx with rfl | rfl <;> rfl) Ex.nonempty Ex.pos

/-! ### C107: the number of functions of the kernel -/

/-- **C107**: `N_basis_elt_kernel` is the number of functions whose correlations are computed, except for the hybrid class in
dimension above one, and for the class with a constant kernel when the observable and the positions have different
dimensions. -/
theorem C107_kernel_size_partial (m : BasisModel K) : m.nKernel = Spec.nCorr m ↔
    (m.cls = .hybrid → m.dimx = 1) ∧ (m.cls = .constKernel → m.dimObs = m.dimx) := by
  rcases h : m.cls with _ | _ | _ | _ | _ | _ <;> simp only [BasisModel.nKernel, Spec.nCorr, h] <;> simp
  omega

/-- The full statement, that the two numbers are always the same, is false. -/
theorem C107_hybrid_fails : ∃ m : BasisModel ℚ, m.dimObs = m.dimx ∧ m.nKernel ≠ Spec.nCorr m :=
  ⟨⟨.hybrid, Ex.basis, 2, 2⟩, rfl, by decide⟩

end

/-! ### C37: the methods of `compute_corrs` -/

/-- **C37**, the options `method` and `vectorize` of `compute_corrs`: whatever they are, the correlations of each pair of
components are `1/(N-n) Σ a_i(t) b_j(t+n)` for the first `trunc` lags. -/
theorem C37_methods (method : String) (vectorize : Bool) {p q N trunc : ℕ} (hp : 1 ≤ p) (hq : 1 ≤ q) (hN : 1 ≤ N)
    (ht : 1 ≤ trunc) (a : Fin p → ℕ → ℝ) (b : Fin q → ℕ → ℝ) :
    ∃ r, selectCorr method vectorize p q N a b (some trunc) = .ok r ∧ r.len = min N trunc ∧
      ∀ n < r.len, ∀ i j, r.get n i j = Spec.corr N (a i) (b j) n :=
  selectCorr_is method vectorize p q N a b trunc hp hq hN ht

example := C37_methods "fft" true (p := 2) (q := 3) (N := 5) (trunc := 4) (by norm_num) (by norm_num) (by norm_num)
  (by norm_num) (fun i t => i + t) (fun j t => j * t)

/-! ### C24: arguments of `evolve_volterra` -/

section
variable {K : Type*} [Field K] [DecidableEq K] [LinearOrder K] {b : ℕ}

/-- **C24**, `trunc_ind`: `None`, a value that is not positive and a value beyond the kernel all mean the whole kernel; any
other value is the same as keeping the first `trunc_ind` points of the kernel. -/
theorem C24_truncation (garbage : ℕ → (ℕ → Mat K b b) → Mat K b b) (m : IdeModel K b) (G0 : Mat K b b) (T : ℕ)
    (method : String) (t : ℤ) :
    ((t ≤ 0 ∨ (m.kernelLen : ℤ) ≤ t) → evolveVolterra garbage m G0 T method (some t) =
      evolveVolterra garbage m G0 T method none) ∧
    (0 < t → t ≤ m.kernelLen → evolveVolterra garbage m G0 T method (some t) =
      evolveVolterra garbage { m with kernelLen := t.toNat } G0 T method none) := by
  constructor
  · intro h
    have : m.trunc (some t) = m.trunc none := by
      simp only [IdeModel.trunc]
      split_ifs with h0
      · rfl
      · rcases h with h | h
        · exact absurd h h0
        · omega
    unfold evolveVolterra
    rw [this]
  · intro h0 h1
    have : m.trunc (some t) = IdeModel.trunc { m with kernelLen := t.toNat } none := by
      simp only [IdeModel.trunc]
      rw [if_neg (by omega)]
      omega
    unfold evolveVolterra
    rw [this]

example := (C24_truncation exGarbage exIde 1 4 "rect" 2).2 (by norm_num) (by norm_num [exIde])

/-- **C24**, a method that is none of `rect`, `trapz`, `trapz_stab` is reported: `UnboundLocalError`. -/
theorem C24_unknown_method (garbage : ℕ → (ℕ → Mat K b b) → Mat K b b) (m : IdeModel K b) (G0 : Mat K b b) (T : ℕ)
    {method : String} (h : method ∉ ["rect", "trapz", "trapz_stab"]) (hL : m.kernelLen ≠ 0) (t : Option ℤ) :
    evolveVolterra garbage m G0 T method t = .error .unbound := by
  have hL' : m.trunc t ≠ 0 := by
    cases t with
    | none => exact hL
    | some t =>
      simp only [IdeModel.trunc]
      split_ifs with h0
      · exact hL
      · omega
  simp only [List.mem_cons, List.not_mem_nil, or_false, not_or] at h
  unfold evolveVolterra
  simp only [bind, Except.bind, throw, throwThe, MonadExceptOf.throw, hL', if_false, h.1, h.2.1, h.2.2]

example := C24_unknown_method exGarbage exIde 1 4 (method := "simpson") (by decide) (by decide) none

end

/-! ### C62: the other descriptions -/

section
variable {K : Type*} [Field K] [LinearOrder K] [IsStrictOrderedRing K]

/-- **C62**, the variance of one trajectory is the unbiased one. -/
theorem C62_variance (dim : ℕ) (X : Arr (ℕ → K)) (hX : 0 < X.len) :
    ∃ d, describeData dim [X] none = .ok (d, some d) ∧ ∀ c, d.variance c =
      (∑ i ∈ range X.len, (X.get i c - (∑ k ∈ range X.len, X.get k c) / X.len) ^ 2) / (X.len - 1) := by
  obtain ⟨d, h1, h2⟩ := C62_variance_of_first dim X [] (by simpa using hX)
  refine ⟨d, h1, fun c => ?_⟩
  rw [h2]
  have hs : ∀ f : ℕ → K, forRange 0 X.len (fun i s => s + f i) 0 = ∑ i ∈ range X.len, f i := fun f => by
    rw [forRange_add, zero_add, Finset.range_eq_Ico]
  simp only [colVar, colMean, hs]

example := C62_variance 1 ⟨3, fun i c => (5 - 3 * i + c : ℚ)⟩ (by decide)

/-- **C62**, `minimal_describe`: count, minimum, maximum and mean of the data, no variance. -/
theorem C62_minimal (dim : ℕ) (X : Arr (ℕ → K)) (hX : 0 < X.len) :
    ∃ d, minimalDescribe dim X = .ok d ∧ Spec.Describes d [X] ∧ d.dim = dim ∧ ∀ c, d.variance c = 0 := by
  obtain ⟨d, h1, h2, -, h3⟩ := scipyDescribe_describes dim X hX
  have e1 : scipyDescribe dim X = .ok ⟨X.len, dim, colMin X, colMax X, colMean X, colVar X⟩ := if_neg (by omega)
  rw [e1] at h1
  cases h1
  exact ⟨_, if_neg (by omega), ⟨h2.nobs, h2.min, h2.max, h2.mean⟩, rfl, fun _ => rfl⟩

example := C62_minimal 1 ⟨3, fun i c => (5 - 3 * i + c : ℚ)⟩ (by decide)

/-- **C62**, `quick_describe` and `describe_from_dim` only know the dimension: all the statistics are zero. -/
theorem C62_dimension_only (dim : ℕ) (X : Arr (ℕ → K)) :
    (quickDescribe dim X).dim = dim ∧ (quickDescribe dim X).nobs = X.len ∧ (describeFromDim dim : DescribeResult K).dim = dim ∧
    ∀ d ∈ [quickDescribe dim X, describeFromDim dim], ∀ c, d.min c = 0 ∧ d.max c = 0 ∧ d.mean c = 0 ∧ d.variance c = 0 := by
  refine ⟨rfl, rfl, rfl, fun d hd c => ?_⟩
  simp only [List.mem_cons, List.not_mem_nil, or_false] at hd
  rcases hd with rfl | rfl <;> exact ⟨rfl, rfl, rfl, rfl⟩

example := C62_dimension_only 2 ⟨3, fun i c => (5 - 3 * i + c : ℚ)⟩

end

end Verif
