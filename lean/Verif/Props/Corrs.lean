import Verif.Lemmas.Corrs
import Verif.Props.Estimator

/-!
# Properties of the truncation, of the order of the calls, and of the stored correlations: C37, C41 - C43
-/

namespace Verif

set_option linter.unusedSectionVars false

open LArr Finset

section
variable {K : Type*} [Field K] [LinearOrder K]

/-- **C37** for the correlations. -/
theorem C37_correlations {func : CorrFn K} (hf : IsCorrFn func) {m : BasisModel K} (hm : m.WF)
    {xvas xvas' : List (Xva K)} {L d : String} {x trunc : ℕ} (hs : SameObs xvas L d x) (hd : d ≠ "time_trunc")
    (hdx : ∀ xva ∈ xvas, xva.dimx = m.dimx) {fc : LArr K} (hfc : fc.dims = ["dim_basis", d])
    (hfs : fc.shape = [m.nForce, x]) (hp : 1 ≤ Spec.nCorr m) (hx1 : 1 ≤ x) (ht : 1 ≤ trunc)
    (hN : ∀ xva ∈ xvas, trunc ≤ xva.n) (second : Bool) (hne : xvas ≠ []) (hperm : xvas.Perm xvas') :
    ∃ out out', loopSerial (correlationTraj func m L fc trunc second) xvas = .ok out ∧
      loopSerial (correlationTraj func m L fc trunc second) xvas' = .ok out' ∧ List.Forall₂ LArr.Same out out' := by
  have hfc' : fc.Is ["dim_basis", d] [m.nForce, x] (at2 fun i j => fc.get [i, j]) := by
    refine ⟨hfc, hfs, fun is his => ?_⟩
    obtain ⟨i, j, rfl, -, -⟩ := inRange2 his
    rfl
  exact C37_permutation hperm hne (corrLay_ok hs.2.1 hd second) fun xva hx =>
    let ⟨rs, h⟩ := correlation_res hf hm hs hx (hdx xva hx) hfc' hp hx1 ht (hN xva hx) second
    ⟨rs, _, h⟩

end

/-! ### C41: truncation -/

section
variable {K : Type*} [LinearOrder K]

theorem foldl_min_le (a : K) (l : List K) : l.foldl min a ≤ a ∧ ∀ b ∈ l, l.foldl min a ≤ b := by
  induction l generalizing a with
  | nil => simp
  | cons c l ih =>
    obtain ⟨h1, h2⟩ := ih (min a c)
    simp only [List.foldl_cons, List.mem_cons, forall_eq_or_imp]
    exact ⟨h1.trans (min_le_left _ _), h1.trans (min_le_right _ _), h2⟩

theorem foldl_min_mem (a : K) (l : List K) : l.foldl min a = a ∨ l.foldl min a ∈ l := by
  induction l generalizing a with
  | nil => simp
  | cons c l ih =>
    simp only [List.foldl_cons, List.mem_cons]
    rcases ih (min a c) with h | h
    · rcases min_choice a c with h' | h'
      · left; rw [h, h']
      · right; left; rw [h, h']
    · right; right; exact h

theorem countP_range_le {p : ℕ → Bool} {n m : ℕ} (h : ∀ k < n, p k = true → k < m) :
    (List.range n).countP p ≤ m := by
  rw [List.countP_eq_length_filter]
  have h1 : ((List.range n).filter p).Subperm (List.range m) := by
    refine List.subperm_of_subset (List.nodup_range.filter _) fun k hk => ?_
    rw [List.mem_filter, List.mem_range] at hk
    exact List.mem_range.2 (h k hk.1 hk.2)
  simpa using h1.length_le

/-- **C41**, for trajectories that share their times: `trunc_ind` is at least 1 and at most the number of
frames of each trajectory. The full statement, without the hypothesis on the times, is false
(`C41_fails`). -/
theorem C41_trunc_ind_partial {trunc : K} {xvas : List (Xva K)} (hne : xvas ≠ []) {τ : ℕ → K} (hτ : StrictMono τ)
    (htime : ∀ x ∈ xvas, 1 ≤ x.n ∧ ∀ k < x.n, x.time k = τ k) (ht : τ 0 ≤ trunc) :
    ∃ T, computeTruncInd trunc xvas = .ok T ∧ 1 ≤ T ∧ ∀ x ∈ xvas, T ≤ x.n := by
  cases xvas with
  | nil => exact absurd rfl hne
  | cons x0 xs =>
    unfold computeTruncInd
    dsimp only
    have h0 : ((x0 :: xs).any fun x => decide (x.n = 0)) = false := by
      rw [List.any_eq_false]
      intro x hx
      have := (htime x hx).1
      simp; omega
    rw [if_neg (by simp [h0])]
    refine ⟨_, rfl, ?_, fun x hx => ?_⟩
    · rw [Nat.one_le_iff_ne_zero, ne_eq, List.countP_eq_zero]
      push Not
      have hn0 := (htime x0 (by simp)).1
      refine ⟨0, List.mem_range.2 hn0, ?_⟩
      rw [decide_eq_true_eq, (htime x0 (by simp)).2 0 hn0]
      have hsm : τ 0 ≤ (xs.map fun x => x.time (x.n - 1)).foldl min (x0.time (x0.n - 1)) := by
        rcases foldl_min_mem (x0.time (x0.n - 1)) (xs.map fun x => x.time (x.n - 1)) with h | h
        · rw [h, (htime x0 (by simp)).2 _ (by omega)]
          exact hτ.monotone (by omega)
        · obtain ⟨y, hy, e⟩ := List.mem_map.1 h
          rw [← e, (htime y (by simp [hy])).2 _ (by have := (htime y (by simp [hy])).1; omega)]
          exact hτ.monotone (by omega)
      split_ifs
      · exact hsm
      · exact ht
    · refine countP_range_le fun k hk h => ?_
      rw [decide_eq_true_eq, (htime x0 (by simp)).2 k hk] at h
      have hsx : (xs.map fun x => x.time (x.n - 1)).foldl min (x0.time (x0.n - 1)) ≤ τ (x.n - 1) := by
        obtain ⟨h1, h2⟩ := foldl_min_le (x0.time (x0.n - 1)) (xs.map fun x => x.time (x.n - 1))
        have hn := (htime x hx).1
        rw [← (htime x hx).2 _ (by omega)]
        rcases List.mem_cons.1 hx with rfl | hx'
        · exact h1
        · exact h2 _ (List.mem_map.2 ⟨x, hx', rfl⟩)
      have hk' : τ k ≤ τ (x.n - 1) := by
        split_ifs at h with hc
        · exact h.trans hsx
        · exact h.trans ((not_lt.1 hc).trans hsx)
      have := hτ.le_iff_le.1 hk'
      have := (htime x hx).1
      omega

end

/-- The full statement of C41 is false: a second trajectory that starts later is shorter than `trunc_ind`
although every time is increasing and `trunc` is after the first time of all trajectories. -/
theorem C41_fails : ∃ (xvas : List (Xva ℚ)) (T : ℕ), (∀ x ∈ xvas, 1 ≤ x.n ∧ StrictMono x.time ∧ x.time 0 ≤ 200) ∧
    computeTruncInd 200 xvas = .ok T ∧ ∃ x ∈ xvas, x.n < T := by
  refine ⟨[⟨10, 1, fun k => k, fun _ _ _ => 0, id, fun _ => 1⟩, ⟨5, 1, fun k => 100 + k, fun _ _ _ => 0, id, fun _ => 1⟩],
    10, ?_, by decide +kernel, ⟨_, by simp; right; rfl, by norm_num⟩⟩
  intro x hx
  simp only [List.mem_cons, List.not_mem_nil, or_false] at hx
  rcases hx with rfl | rfl
  · exact ⟨by norm_num, fun a b h => by simpa using h, by norm_num⟩
  · exact ⟨by norm_num, fun a b h => by simpa using h, by norm_num⟩

/-! ### C42: order of the calls -/

section
variable {K : Type*} [Field K] [LinearOrder K]

/-- The calls that change the state of an estimator or its model. -/
inductive Op (K : Type*)
  | gramForce
  | gramKernel
  | effectiveMass
  | posEffectiveMass
  | meanForce
  | zeroForce
  | corrs (method : String) (vectorize secondOrder : Bool) (rankTol : Option K)
  | kernel (method : String) (k0 : ∀ b x : ℕ, Option (Mat K b x))

/-- One call. -/
def Op.step (env : Env K) : Op K → EstState K → Step K
  | .gramForce, s => computeGramForce env s
  | .gramKernel, s => computeGramKernel env s
  | .effectiveMass, s => computeEffectiveMass env s
  | .posEffectiveMass, s => computePosEffectiveMass env s
  | .meanForce, s => computeMeanForce env s
  | .zeroForce, s => setZeroForce s
  | .corrs m v so t, s => computeCorrs env m v so t s
  | .kernel m k0, s => computeKernelStep m k0 s

/-- The state after a sequence of calls; the caller may catch the exceptions and go on. -/
def runOps (env : Env K) (ops : List (Op K)) (s : EstState K) : EstState K :=
  ops.foldl (fun s op => (op.step env s).1) s

/-- The state of a new estimator. -/
def Fresh (s : EstState K) : Prop := s.model.forceCoeff = none ∧ s.corrs = none ∧ s.model.kernel = none

/-- A call that sets the mean force. -/
def Op.setsForce : Op K → Prop
  | .meanForce | .zeroForce => True
  | _ => False

def Op.isCorrs : Op K → Prop
  | .corrs .. => True
  | _ => False

def Op.isKernel : Op K → Prop
  | .kernel .. => True
  | _ => False

/-- Only `compute_mean_force` and `set_zero_force` change the mean force, only `compute_corrs` the
correlations, only `compute_kernel` the kernel; the last two need what comes before. -/
theorem step_frame (env : Env K) (op : Op K) (s : EstState K) :
    ((op.step env s).1.model.forceCoeff = s.model.forceCoeff ∨
      (op.setsForce ∧ (op.step env s).2 = none ∧ (op.step env s).1.model.forceCoeff.isSome)) ∧
    ((op.step env s).1.corrs = s.corrs ∨
      (op.isCorrs ∧ s.model.forceCoeff.isSome ∧ (op.step env s).1.corrs.isSome)) ∧
    ((op.step env s).1.model.kernel = s.model.kernel ∨
      (op.isKernel ∧ (op.step env s).2 = none ∧ s.corrs.isSome ∧ (op.step env s).1.model.kernel.isSome)) := by
  cases op with
  | gramForce =>
    simp only [Op.step, computeGramForce]
    split <;> simp [raises]
  | gramKernel =>
    simp only [Op.step, computeGramKernel]
    split
    · simp [raises]
    · simp [raises]
    · split_ifs <;> simp [raises]
  | effectiveMass =>
    simp only [Op.step, computeEffectiveMass]
    split
    · simp [raises]
    · simp [raises]
    · split <;> simp [raises]
  | posEffectiveMass =>
    simp only [Op.step, computePosEffectiveMass]
    split
    · simp [raises]
    · split <;> simp [raises]
    · simp [raises]
  | meanForce =>
    simp only [Op.step, computeMeanForce]
    split
    · simp [raises]
    · split <;> simp [raises, Op.setsForce]
    · simp [raises]
  | zeroForce =>
    simp only [Op.step, setZeroForce]
    split
    · simp [raises]
    · simp [Op.setsForce]
  | corrs m v so t =>
    simp only [Op.step, computeCorrs]
    split
    · simp [raises]
    · rename_i fc hfc
      split
      · simp [raises]
      · split_ifs <;> first
          | (simp [raises, Op.isCorrs, hfc]; done)
          | (split <;> simp [raises, Op.isCorrs, hfc])
      · simp [raises]
  | kernel m k0 =>
    simp only [Op.step, computeKernelStep]
    split
    · simp [raises]
    · rename_i c hc
      split_ifs
      · simp [raises]
      · split
        · simp [raises]
        · simp [Op.isKernel, hc]

/-- If a property does not hold at the start and holds after the calls, some call made it hold. -/
theorem exists_first {env : Env K} (P : EstState K → Prop) (ops : List (Op K)) (s : EstState K) (h0 : ¬ P s)
    (h : P (runOps env ops s)) : ∃ l1 op l2, ops = l1 ++ op :: l2 ∧ ¬ P (runOps env l1 s) ∧
      P (op.step env (runOps env l1 s)).1 := by
  induction ops generalizing s with
  | nil => exact absurd h h0
  | cons op ops ih =>
    by_cases h1 : P (op.step env s).1
    · exact ⟨[], op, ops, rfl, h0, h1⟩
    · obtain ⟨l1, op', l2, e, h2, h3⟩ := ih (op.step env s).1 h1 h
      exact ⟨op :: l1, op', l2, by rw [e]; rfl, h2, h3⟩

/-- **C42.** After any sequence of calls on a new estimator, a kernel is available only if there were, in
this order, a successful call that set the mean force, a call that computed the correlations, and a successful
call of `compute_kernel`. -/
theorem C42_order (env : Env K) (ops : List (Op K)) (s : EstState K) (hs : Fresh s)
    (h : (runOps env ops s).model.kernel ≠ none) :
    ∃ l1 f l2 c l3 k l4, ops = l1 ++ f :: l2 ++ c :: l3 ++ k :: l4 ∧
      f.setsForce ∧ (f.step env (runOps env l1 s)).2 = none ∧
      c.isCorrs ∧ (c.step env (runOps env (l1 ++ f :: l2) s)).1.corrs ≠ none ∧
      k.isKernel ∧ (k.step env (runOps env (l1 ++ f :: l2 ++ c :: l3) s)).2 = none := by
  obtain ⟨a, k, l4, rfl, hk1, hk2⟩ := exists_first (fun s => s.model.kernel ≠ none) ops s (by simpa using hs.2.2) h
  rcases (step_frame env k (runOps env a s)).2.2 with e | ⟨hk, hk3, hc, -⟩
  · exact absurd (by rw [e] at hk2; exact hk2) hk1
  obtain ⟨b, c, l3, rfl, hc1, hc2⟩ := exists_first (fun s => s.corrs ≠ none) a s (by simpa using hs.2.1)
    (Option.isSome_iff_ne_none.1 hc)
  rcases (step_frame env c (runOps env b s)).2.1 with e | ⟨hcc, hf, -⟩
  · exact absurd (by rw [e] at hc2; exact hc2) hc1
  obtain ⟨l1, f, l2, rfl, hf1, hf2⟩ := exists_first (fun s => s.model.forceCoeff ≠ none) b s (by simpa using hs.1)
    (Option.isSome_iff_ne_none.1 hf)
  rcases (step_frame env f (runOps env l1 s)).1 with e | ⟨hff, hf3, -⟩
  · exact absurd (by rw [e] at hf2; exact hf2) hf1
  exact ⟨l1, f, l2, c, l3, k, l4, rfl, hff, hf3, hcc, hc2, hk, hk3⟩

/-- **C42**, correlations: they exist only after a successful call that set the mean force. -/
theorem C42_corrs_order (env : Env K) (ops : List (Op K)) (s : EstState K) (hs : Fresh s)
    (h : (runOps env ops s).corrs ≠ none) :
    ∃ l1 f l2 c l3, ops = l1 ++ f :: l2 ++ c :: l3 ∧
      f.setsForce ∧ (f.step env (runOps env l1 s)).2 = none ∧
      c.isCorrs ∧ (c.step env (runOps env (l1 ++ f :: l2) s)).1.corrs ≠ none := by
  obtain ⟨b, c, l3, rfl, hc1, hc2⟩ := exists_first (fun s => s.corrs ≠ none) ops s (by simpa using hs.2.1) h
  rcases (step_frame env c (runOps env b s)).2.1 with e | ⟨hcc, hf, -⟩
  · exact absurd (by rw [e] at hc2; exact hc2) hc1
  obtain ⟨l1, f, l2, rfl, hf1, hf2⟩ := exists_first (fun s => s.model.forceCoeff ≠ none) b s (by simpa using hs.1)
    (Option.isSome_iff_ne_none.1 hf)
  rcases (step_frame env f (runOps env l1 s)).1 with e | ⟨hff, hf3, -⟩
  · exact absurd (by rw [e] at hf2; exact hf2) hf1
  exact ⟨l1, f, l2, c, l3, rfl, hff, hf3, hcc, hc2⟩

/-- **C42**, calls out of order raise and change nothing: `compute_corrs` without mean force and
`compute_kernel` without correlations. -/
theorem C42_out_of_order (env : Env K) (s : EstState K) :
    (s.model.forceCoeff = none → ∀ m v so t, computeCorrs env m v so t s =
      (s, some (.exception "Mean force has not been computed."))) ∧
    (s.corrs = none → ∀ m k0, computeKernelStep m k0 s = (s, some .attribute)) := by
  refine ⟨fun h m v so t => ?_, fun h m k0 => ?_⟩
  · simp [computeCorrs, h, raises]
  · simp [computeKernelStep, h, raises]

/-- The invariant of C42 in terms of the state. -/
theorem C42_invariant (env : Env K) (ops : List (Op K)) (s : EstState K) (hs : Fresh s) :
    ((runOps env ops s).model.kernel ≠ none → (runOps env ops s).corrs ≠ none) ∧
    ((runOps env ops s).corrs ≠ none → (runOps env ops s).model.forceCoeff ≠ none) := by
  have key : ∀ (ops : List (Op K)) (s : EstState K), ((s.model.kernel ≠ none → s.corrs ≠ none) ∧
      (s.corrs ≠ none → s.model.forceCoeff ≠ none)) → (((runOps env ops s).model.kernel ≠ none →
      (runOps env ops s).corrs ≠ none) ∧ ((runOps env ops s).corrs ≠ none →
      (runOps env ops s).model.forceCoeff ≠ none)) := by
    intro ops
    induction ops with
    | nil => exact fun s h => h
    | cons op ops ih =>
      intro s h
      refine ih (op.step env s).1 ?_
      obtain ⟨h1, h2, h3⟩ := step_frame env op s
      have hf : s.model.forceCoeff ≠ none → (op.step env s).1.model.forceCoeff ≠ none := by
        intro hs'
        rcases h1 with h | ⟨-, -, h⟩
        · rw [h]; exact hs'
        · exact Option.isSome_iff_ne_none.1 h
      have hc : s.corrs ≠ none → (op.step env s).1.corrs ≠ none := by
        intro hs'
        rcases h2 with h | ⟨-, -, h⟩
        · rw [h]; exact hs'
        · exact Option.isSome_iff_ne_none.1 h
      constructor
      · intro hk
        rcases h3 with h' | ⟨-, -, h', -⟩
        · rw [h'] at hk; exact hc (h.1 hk)
        · exact hc (Option.isSome_iff_ne_none.1 h')
      · intro hk
        rcases h2 with h' | ⟨-, h', -⟩
        · rw [h'] at hk; exact hf (h.2 hk)
        · exact hf (Option.isSome_iff_ne_none.1 h')
  exact key ops s ⟨fun h => absurd hs.2.2 h, fun h => absurd hs.2.1 h⟩

end

/-! ### C43: layout of the correlations -/

section
variable {K : Type*} [Field K] [LinearOrder K]

/-- The conditions under which the correlations are computed: trajectories with the same observable, at least as
long as the truncation, and a mean force of matching size. -/
structure CorrReady (env : Env K) (method : String) (vectorize : Bool) (s : EstState K) (d : String) (x : ℕ)
    (fc : LArr K) : Prop where
  loop : IsLoop env.loop
  fn : IsCorrFn (env.corrFn method vectorize)
  wf : s.model.bm.WF
  obs : SameObs s.xvas s.model.Lobs d x
  dim : d ≠ "time_trunc" ∧ d ≠ "dim_basis_old"
  dimx : ∀ xva ∈ s.xvas, xva.dimx = s.model.bm.dimx
  force : s.model.forceCoeff = some fc
  fdims : fc.dims = ["dim_basis", d]
  fshape : fc.shape = [s.model.bm.nForce, x]
  npos : 1 ≤ Spec.nCorr s.model.bm
  xpos : 1 ≤ x
  tpos : 1 ≤ s.model.truncInd
  tle : ∀ xva ∈ s.xvas, s.model.truncInd ≤ xva.n
  ne : s.xvas ≠ []

/-- What the loop over the trajectories returns. -/
theorem CorrReady.loop_ok {env : Env K} {method : String} {vectorize : Bool} {s : EstState K} {d : String} {x : ℕ}
    {fc : LArr K} (h : CorrReady env method vectorize s d x fc) (second : Bool) :
    ∃ A A' B B', env.loop (correlationTraj (env.corrFn method vectorize) s.model.bm s.model.Lobs fc s.model.truncInd
        second) s.xvas = .ok [A, A', B, B'] ∧
      (A.dims = ["dim_basis", d, "time_trunc"] ∧ A.shape = [Spec.nCorr s.model.bm, x, s.model.truncInd] ∧
        ∀ p < Spec.nCorr s.model.bm, ∀ j < x, ∀ n < s.model.truncInd, A.get [p, j, n] =
          Spec.meanCorr s.xvas (fun xva t => Spec.corrFeature s.model.bm xva t p)
            (fun xva t => Spec.ortho s.model.bm s.model.Lobs (fun k j => fc.get [k, j]) xva t j) n) ∧
      (B.dims = ["dim_basis'", "dim_basis", "time_trunc"] ∧
        B.shape = [Spec.nCorr s.model.bm, Spec.nCorr s.model.bm, s.model.truncInd] ∧
        ∀ p < Spec.nCorr s.model.bm, ∀ q < Spec.nCorr s.model.bm, ∀ n < s.model.truncInd, B.get [p, q, n] =
          Spec.meanCorr s.xvas (fun xva t => Spec.corrFeature s.model.bm xva t p)
            (fun xva t => Spec.corrFeature s.model.bm xva t q) n) ∧
      (second = true →
        (A'.dims = ["dim_basis", d, "time_trunc"] ∧ A'.shape = [Spec.nCorr s.model.bm, x, s.model.truncInd] ∧
          ∀ p < Spec.nCorr s.model.bm, ∀ j < x, ∀ n < s.model.truncInd, A'.get [p, j, n] =
            Spec.meanCorr s.xvas (fun xva t => codeDot s.model.bm xva t p)
              (fun xva t => Spec.ortho s.model.bm s.model.Lobs (fun k j => fc.get [k, j]) xva t j) n) ∧
        B'.dims = ["dim_basis'", "dim_basis", "time_trunc"] ∧
          B'.shape = [Spec.nCorr s.model.bm, Spec.nCorr s.model.bm, s.model.truncInd] ∧
          ∀ p < Spec.nCorr s.model.bm, ∀ q < Spec.nCorr s.model.bm, ∀ n < s.model.truncInd, B'.get [p, q, n] =
            Spec.meanCorr s.xvas (fun xva t => codeDot s.model.bm xva t p)
              (fun xva t => Spec.corrFeature s.model.bm xva t q) n) ∧
      (second = false → A'.dims = ["time_trunc", "dim_basis", d] ∧ A'.shape = [1, Spec.nCorr s.model.bm, x] ∧
        ∀ p < Spec.nCorr s.model.bm, ∀ j < x, A'.get [0, p, j] =
            Spec.meanCorr s.xvas (fun xva t => codeDot s.model.bm xva t p)
              (fun xva t => Spec.ortho s.model.bm s.model.Lobs (fun k j => fc.get [k, j]) xva t j) 0) := by
  have hfc' : fc.Is ["dim_basis", d] [s.model.bm.nForce, x] (at2 fun i j => fc.get [i, j]) := by
    refine ⟨h.fdims, h.fshape, fun is his => ?_⟩
    obtain ⟨i, j, rfl, -, -⟩ := inRange2 his
    rfl
  obtain ⟨out, e, h1, h2⟩ := loopSerial_ok h.ne (corrLay_ok h.obs.2.1 h.dim.1 second) fun xva hx =>
    correlation_res h.fn h.wf h.obs hx (h.dimx xva hx) hfc' h.npos h.xpos h.tpos (h.tle xva hx) second
  rw [h.loop.eq]
  obtain ⟨A, A', B, B', rfl⟩ : ∃ A A' B B', out = [A, A', B, B'] := by
    match out, h1 with
    | [A, A', B, B'], _ => exact ⟨A, A', B, B', rfl⟩
  obtain ⟨_, eA, hA⟩ := h2 0 (by omega)
  obtain ⟨_, eA', hA'⟩ := h2 1 (by omega)
  obtain ⟨_, eB, hB⟩ := h2 2 (by omega)
  obtain ⟨_, eB', hB'⟩ := h2 3 (by omega)
  simp only [List.getElem?_cons_zero, List.getElem?_cons_succ, Option.some.injEq] at eA eA' eB eB'
  subst eA eA' eB eB'
  refine ⟨A, A', B, B', e, ⟨hA.1, hA.2.1, fun p hp j hj n hn => ?_⟩, ⟨hB.1, hB.2.1, fun p hp q hq n hn => ?_⟩, ?_, ?_⟩
  · rw [hA.2.2 _ (inRange3_mk hp hj hn)]
    exact weighted_sum s.xvas _
  · rw [hB.2.2 _ (inRange3_mk hp hq hn)]
    exact weighted_sum s.xvas _
  · rintro rfl
    refine ⟨⟨hA'.1, hA'.2.1, fun p hp j hj n hn => ?_⟩, hB'.1, hB'.2.1, fun p hp q hq n hn => ?_⟩
    · rw [hA'.2.2 _ (inRange3_mk hp hj hn)]
      exact weighted_sum s.xvas _
    · rw [hB'.2.2 _ (inRange3_mk hp hq hn)]
      exact weighted_sum s.xvas _
  · rintro rfl
    refine ⟨hA'.1, hA'.2.1, fun p hp j hj => ?_⟩
    rw [hA'.2.2 _ (inRange3_mk (by norm_num) hp hj)]
    exact weighted_sum s.xvas _

/-- **C43**, without projection: axes and entries of the stored correlations. The derivative arrays use
`codeDot`, which is the time derivative of the functions for all classes but the hybrid one
(`C80_derivative_partial`). -/
theorem C43_layout {env : Env K} {method : String} {vectorize second : Bool} {rankTol : Option K} {s : EstState K}
    {d : String} {x : ℕ} {fc : LArr K} (h : CorrReady env method vectorize s d x fc)
    (hr : s.model.rankProjection = false) :
    ∃ c, (computeCorrs env method vectorize second rankTol s).1.corrs = some c ∧
      c.bkbk.dims = ["dim_basis'", "dim_basis", "time_trunc"] ∧
      c.bkbk.shape = [Spec.nCorr s.model.bm, Spec.nCorr s.model.bm, s.model.truncInd] ∧
      c.bkdx.dims = ["dim_basis", d, "time_trunc"] ∧
      c.bkdx.shape = [Spec.nCorr s.model.bm, x, s.model.truncInd] ∧
      (∀ p < Spec.nCorr s.model.bm, ∀ q < Spec.nCorr s.model.bm, ∀ n < s.model.truncInd, c.bkbk.get [p, q, n] =
          Spec.meanCorr s.xvas (fun xva t => Spec.corrFeature s.model.bm xva t p)
            (fun xva t => Spec.corrFeature s.model.bm xva t q) n) ∧
      (∀ p < Spec.nCorr s.model.bm, ∀ j < x, ∀ n < s.model.truncInd, c.bkdx.get [p, j, n] =
          Spec.meanCorr s.xvas (fun xva t => Spec.corrFeature s.model.bm xva t p)
            (fun xva t => Spec.ortho s.model.bm s.model.Lobs (fun k j => fc.get [k, j]) xva t j) n) := by
  obtain ⟨A, A', B, B', e, ⟨a1, a2, a3⟩, ⟨b1, b2, b3⟩, -⟩ := h.loop_ok second
  refine ⟨⟨A, A', B, if second then some B' else none⟩, ?_, b1, b2, a1, a2, b3, a3⟩
  unfold computeCorrs
  rw [h.force]
  dsimp only
  rw [e]
  simp only [hr, Bool.false_eq_true, if_false]
  split_ifs <;> rfl

/-- **C43**, what the solvers receive: the matrices of the Volterra equation, lag by lag. -/
theorem C43_solver_input {env : Env K} {method : String} {vectorize : Bool} {rankTol : Option K} {s : EstState K}
    {d : String} {x : ℕ} {fc : LArr K} (h : CorrReady env method vectorize s d x fc)
    (hr : s.model.rankProjection = false) :
    ∃ c, (computeCorrs env method vectorize true rankTol s).1.corrs = some c ∧
      (c.bkbk.shape[0]?).getD 0 = Spec.nCorr s.model.bm ∧ (c.bkdx.shape[1]?).getD 0 = x ∧
      (c.toCorrs (Spec.nCorr s.model.bm) x).N = s.model.truncInd ∧
      ∃ D1 D2, (c.toCorrs (Spec.nCorr s.model.bm) x).dotbkdx = some D1 ∧
      (c.toCorrs (Spec.nCorr s.model.bm) x).dotbkbk = .arr D2 ∧
      ∀ n < s.model.truncInd, ∀ (p q : Fin (Spec.nCorr s.model.bm)) (j : Fin x),
        (c.toCorrs (Spec.nCorr s.model.bm) x).bkbk n p q =
          Spec.meanCorr s.xvas (fun xva t => Spec.corrFeature s.model.bm xva t p)
            (fun xva t => Spec.corrFeature s.model.bm xva t q) n ∧
        (c.toCorrs (Spec.nCorr s.model.bm) x).bkdx n p j =
          Spec.meanCorr s.xvas (fun xva t => Spec.corrFeature s.model.bm xva t p)
            (fun xva t => Spec.ortho s.model.bm s.model.Lobs (fun k j => fc.get [k, j]) xva t j) n ∧
        D1 n p j = Spec.meanCorr s.xvas (fun xva t => codeDot s.model.bm xva t p)
            (fun xva t => Spec.ortho s.model.bm s.model.Lobs (fun k j => fc.get [k, j]) xva t j) n ∧
        D2 n p q = Spec.meanCorr s.xvas (fun xva t => codeDot s.model.bm xva t p)
            (fun xva t => Spec.corrFeature s.model.bm xva t q) n := by
  obtain ⟨A, A', B, B', e, ⟨a1, a2, a3⟩, ⟨b1, b2, b3⟩, h3, -⟩ := h.loop_ok true
  obtain ⟨⟨c1, c2, c3⟩, d1, d2, d3⟩ := h3 rfl
  refine ⟨⟨A, A', B, some B'⟩, ?_, by simp [b2], by simp [a2], by simp [CorrsL.toCorrs, b2], _, _, rfl, rfl,
    fun n hn p q j => ⟨b3 p p.2 q q.2 n hn, a3 p p.2 j j.2 n hn, ?_, d3 p p.2 q q.2 n hn⟩⟩
  · unfold computeCorrs
    rw [h.force]
    dsimp only
    rw [e]
    simp only [hr, Bool.false_eq_true, if_false]
    simp
  · change (A'.isel "time_trunc" n).get [(p : ℕ), (j : ℕ)] = _
    rw [isel_obs h.obs.2.1 h.dim.1 c1 c2, c3 p p.2 j j.2 n hn]

/-- **C43**, with projection: both basis indices are contracted with the stored `P_range`. -/
theorem C43_projected {env : Env K} {method : String} {vectorize second : Bool} {rankTol : Option K} {s s' : EstState K}
    {d : String} {x : ℕ} {fc : LArr K} (h : CorrReady env method vectorize s d x fc)
    (hr : s.model.rankProjection = true) (hk : Spec.nCorr s.model.bm = s.model.bm.nKernel)
    (hok : computeCorrs env method vectorize second rankTol s = (s', none)) :
    ∃ c P r, s'.corrs = some c ∧ s'.model.Prange = some P ∧ P.dims = ["dim_basis", "dim_basis_old"] ∧
      P.shape = [r, Spec.nCorr s.model.bm] ∧
      c.bkbk.dims = ["dim_basis'", "dim_basis", "time_trunc"] ∧ c.bkbk.shape = [r, r, s.model.truncInd] ∧
      c.bkdx.dims = ["dim_basis", d, "time_trunc"] ∧ c.bkdx.shape = [r, x, s.model.truncInd] ∧
      (∀ p < r, ∀ q < r, ∀ n < s.model.truncInd, c.bkbk.get [p, q, n] =
        ∑ k ∈ range (Spec.nCorr s.model.bm), ∑ l ∈ range (Spec.nCorr s.model.bm), P.get [p, k] * P.get [q, l] *
          Spec.meanCorr s.xvas (fun xva t => Spec.corrFeature s.model.bm xva t k)
            (fun xva t => Spec.corrFeature s.model.bm xva t l) n) ∧
      (∀ p < r, ∀ j < x, ∀ n < s.model.truncInd, c.bkdx.get [p, j, n] =
        ∑ k ∈ range (Spec.nCorr s.model.bm), P.get [p, k] *
          Spec.meanCorr s.xvas (fun xva t => Spec.corrFeature s.model.bm xva t k)
            (fun xva t => Spec.ortho s.model.bm s.model.Lobs (fun k j => fc.get [k, j]) xva t j) n) ∧
      (second = true → ∃ D, c.dotbkbk = some D ∧
        D.dims = ["dim_basis'", "dim_basis", "time_trunc"] ∧ D.shape = [r, r, s.model.truncInd] ∧
        c.dotbkdx.dims = ["dim_basis", d, "time_trunc"] ∧ c.dotbkdx.shape = [r, x, s.model.truncInd] ∧
        (∀ p < r, ∀ q < r, ∀ n < s.model.truncInd, D.get [p, q, n] =
          ∑ k ∈ range (Spec.nCorr s.model.bm), ∑ l ∈ range (Spec.nCorr s.model.bm), P.get [p, k] * P.get [q, l] *
            Spec.meanCorr s.xvas (fun xva t => codeDot s.model.bm xva t k)
              (fun xva t => Spec.corrFeature s.model.bm xva t l) n) ∧
        (∀ p < r, ∀ j < x, ∀ n < s.model.truncInd, c.dotbkdx.get [p, j, n] =
          ∑ k ∈ range (Spec.nCorr s.model.bm), P.get [p, k] *
            Spec.meanCorr s.xvas (fun xva t => codeDot s.model.bm xva t k)
              (fun xva t => Spec.ortho s.model.bm s.model.Lobs (fun k j => fc.get [k, j]) xva t j) n)) := by
  obtain ⟨A, A', B, B', e, ⟨a1, a2, a3⟩, ⟨b1, b2, b3⟩, h3, -⟩ := h.loop_ok second
  unfold computeCorrs at hok
  rw [h.force] at hok
  dsimp only at hok
  rw [e] at hok
  simp only [hr, if_true] at hok
  cases hP : setRangeProjection env.svd env.eps rankTol s.model.bm.nKernel s.model.bm.dimx (B.isel "time_trunc" 0) with
  | error er => rw [hP] at hok; simp [raises] at hok
  | ok P =>
    rw [hP] at hok
    dsimp only at hok
    have hs' : s'.corrs = some (projectCorrs P ⟨A, A', B, if second then some B' else none⟩) ∧
        s'.model.Prange = some P := by
      cases second
      · simp only [Bool.false_eq_true, not_false_eq_true, and_true, if_false] at hok ⊢
        split_ifs at hok with hc
        · simp [raises] at hok
        · simp only [Prod.mk.injEq, and_true] at hok
          rw [← hok]; exact ⟨rfl, rfl⟩
      · simp only [not_true_eq_false, and_false, if_false, if_true, Prod.mk.injEq, and_true] at hok
        rw [← hok]; exact ⟨rfl, rfl⟩
    obtain ⟨r, p1, p2⟩ : ∃ r, P.dims = ["dim_basis", "dim_basis_old"] ∧ P.shape = [r, Spec.nCorr s.model.bm] := by
      unfold setRangeProjection at hP
      dsimp only at hP
      split_ifs at hP <;> simp only [Except.ok.injEq, reduceCtorEq] at hP <;> rw [← hP, hk] <;> exact ⟨_, rfl, rfl⟩
    obtain ⟨t1, t2, t3⟩ := project_gram p1 p2 b1 b2
    obtain ⟨g1, g2, g3⟩ := project_gram2 p1 p2 t1 t2
    obtain ⟨o1, o2, o3⟩ := project_obs h.obs.2.1 h.dim.2 h.dim.1 p1 p2 a1 a2
    refine ⟨_, P, r, hs'.1, hs'.2, p1, p2, g1, g2, o1, o2, fun p hp q hq n hn => ?_, fun p hp j hj n hn => ?_, ?_⟩
    · change (LArr.dot [primed P, _]).get _ = _
      rw [g3]
      refine sum_congr rfl fun k hk => ?_
      rw [t3, mul_sum]
      refine sum_congr rfl fun l hl => ?_
      rw [b3 k (mem_range.1 hk) l (mem_range.1 hl) n hn, mul_assoc]
    · change (LArr.dot [P, _]).get _ = _
      rw [o3]
      exact sum_congr rfl fun k hk => by rw [a3 k (mem_range.1 hk) j hj n hn]
    · rintro rfl
      obtain ⟨⟨c1, c2, c3⟩, d1, d2, d3⟩ := h3 rfl
      obtain ⟨u1, u2, u3⟩ := project_dot p1 p2 d1 d2
      obtain ⟨v1, v2, v3⟩ := project_obs h.obs.2.1 h.dim.2 h.dim.1 p1 p2 c1 c2
      refine ⟨_, rfl, u1, u2, v1, v2, fun p hp q hq n hn => ?_, fun p hp j hj n hn => ?_⟩
      · change (LArr.dot [primed P, P, _]).get _ = _
        rw [u3]
        refine sum_congr rfl fun k hk => sum_congr rfl fun l hl => ?_
        rw [d3 k (mem_range.1 hk) l (mem_range.1 hl) n hn, mul_assoc]
      · change (LArr.dot [P, _]).get _ = _
        rw [v3]
        exact sum_congr rfl fun k hk => by rw [c3 k (mem_range.1 hk) j hj n hn]

/-- `compute_mean_force` and `set_zero_force` give a mean force of the size `compute_corrs` needs. -/
theorem C43_force_ready [CharZero K] {env : Env K} (hl : IsLoop env.loop) {s s' : EstState K} (hm : s.model.bm.WF)
    {d : String} {x : ℕ} (hs : SameObs s.xvas s.model.Lobs d x) (hx : s.model.bm.dimObs = x)
    (hne : s.xvas ≠ []) (hn : ∀ xva ∈ s.xvas, 1 ≤ xva.n)
    (h : computeMeanForce env s = (s', none) ∨ setZeroForce s = (s', none)) :
    ∃ fc, s'.model.forceCoeff = some fc ∧ fc.dims = ["dim_basis", d] ∧ fc.shape = [s.model.bm.nForce, x] := by
  rcases h with h | h
  · obtain ⟨c, h1, h2, h3, -⟩ := computeMeanForce_ok hl hm hs hne hn h
    exact ⟨c, h1, h2, h3⟩
  · unfold setZeroForce at h
    cases hxs : s.xvas with
    | nil => exact absurd hxs hne
    | cons y ys =>
      rw [hxs] at h
      simp only [Prod.mk.injEq, and_true] at h
      rw [← h]
      refine ⟨_, rfl, ?_, by rw [← hx]; rfl⟩
      have := (hs.2.2 y (by simp [hxs])).1
      simp [mk2, this]

end

end Verif
