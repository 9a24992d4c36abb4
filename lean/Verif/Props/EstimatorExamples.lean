import Verif.Props.RangeProjection
import Mathlib.Data.Fin.VecNotation
import Mathlib.LinearAlgebra.Matrix.Notation

/-!
# Concrete data that meet the hypotheses of C36 - C44

Two trajectories of 3 and 2 frames, basis functions `1` and `x`.
-/

namespace Verif

open LArr Finset

namespace Ex

def basis : PointBasis ℚ :=
  ⟨2, false, fun x k => x 0 ^ k, fun x k _ => k * x 0 ^ (k - 1), fun x k _ _ => k * (k - 1) * x 0 ^ (k - 2),
    fun x k => x 0 ^ (k + 1) / (k + 1)⟩

def model (cls : ModelClass) : BasisModel ℚ := ⟨cls, basis, 1, 1⟩

def xva (n : ℕ) (x v a : ℕ → ℚ) : Xva ℚ :=
  ⟨n, 1, fun k => k, fun name t _ => if name = "x" then x t else if name = "v" then v t else a t, id, fun _ => 1⟩

def xvas : List (Xva ℚ) :=
  [xva 3 (fun t => t) (fun t => t ^ 2 + 1) (fun t => 2 * t + 1), xva 2 (fun t => t + 1) (fun _ => 1) (fun t => 5 - t)]

/-- A singular value decomposition that is right for diagonal 2 by 2 matrices with increasing entries. -/
def svd : Svd ℚ := fun n B =>
  (Matrix.of fun i j => if (i : ℕ) + j + 1 = n then 1 else 0, fun i => B (Fin.rev i) (Fin.rev i))

def env : Env ℚ := ⟨svd, 0, loopSerial, fun _ _ _ _ N a b t => correlationDirectND N a b t⟩

def state (rp : Bool) : EstState ℚ where
  model := ⟨model .posGle, "a", 1, 2, none, none, none, rp, none, none, none, none, none⟩
  xvas := xvas
  corrs := none
  saveall := false

theorem isLoop : IsLoop env.loop := .inl rfl

/-- The parallel loop that runs the tasks in reverse order is covered too. -/
example : IsLoop (K := ℚ) fun f xs => loopParallel (List.range xs.length).reverse f xs :=
  .inr ⟨fun n => (List.range n).reverse, fun _ => List.reverse_perm _, rfl⟩

theorem wf (cls : ModelClass) : (model cls).WF := by intro h; cases h

theorem sameObs : SameObs xvas "a" "dim_x" 1 := by
  refine ⟨by decide, by decide, fun x hx => ?_⟩
  simp only [xvas, List.mem_cons, List.not_mem_nil, or_false] at hx
  rcases hx with rfl | rfl <;> exact ⟨rfl, rfl⟩

theorem pos : ∀ x ∈ xvas, 1 ≤ x.n := by
  intro x hx
  simp only [xvas, List.mem_cons, List.not_mem_nil, or_false] at hx
  rcases hx with rfl | rfl <;> simp [xva]

theorem nonempty : xvas ≠ [] := by simp [xvas]

/-- C36: the average of `x * x` over the five frames. -/
example : ∃ G, (computeGramForce env (state false)).1.model.gramForce = some G ∧ G.get [1, 1] = 2 := by
  obtain ⟨G, e, -, -, h⟩ := C36_gram_force isLoop (s := state false) (wf _) nonempty pos
  refine ⟨G, by rw [e], ?_⟩
  rw [h 1 (by decide) 1 (by decide)]
  decide +kernel

/-- C37: the two orders of the trajectories. -/
example : xvas.Perm xvas.reverse := (List.reverse_perm _).symm

/-- C38, C39: the mean force of the example is computed. -/
theorem meanForce_ok : (computeMeanForce env (state false)).2 = none := by decide +kernel

theorem meanForce : ∃ s', computeMeanForce env (state false) = (s', none) :=
  ⟨_, Prod.ext rfl meanForce_ok⟩

example : ∃ (s' : EstState ℚ) (c : LArr ℚ), computeMeanForce env (state false) = (s', none) ∧
    s'.model.forceCoeff = some c ∧ ∀ i < 2, ∀ j < 1,
      Spec.pooledSum (xvas.map fun xva => (xva.n, fun t => Spec.forceFeature (model .posGle) xva t i *
        (xva.data "a" t j - ∑ k ∈ range 2, Spec.forceFeature (model .posGle) xva t k * c.get [k, j]))) = 0 := by
  obtain ⟨s', h⟩ := meanForce
  obtain ⟨c, h1, h2⟩ := C38_residual_orthogonal isLoop (s := state false) (wf _) sameObs nonempty pos h
  exact ⟨s', c, h, h1, h2⟩

/-- C39, exact recovery: `a = 2 x + 1` on the first trajectory. -/
example : let s : EstState ℚ := { state false with xvas := [xva 3 (fun t => t) (fun t => t ^ 2 + 1) (fun t => 2 * t + 1)] }
    (computeMeanForce env s).2 = none ∧ ∀ x ∈ s.xvas, ∀ t < x.n, ∀ j < 1, x.data "a" t j =
      ∑ k ∈ range 2, Spec.forceFeature (model .posGle) x t k * (fun k _ => if k = 0 then 1 else 2 : ℕ → ℕ → ℚ) k j := by
  refine ⟨by decide +kernel, ?_⟩
  intro x hx t ht j hj
  simp only [List.mem_cons, List.not_mem_nil, or_false] at hx
  subst hx
  obtain rfl : j = 0 := by omega
  simp [Spec.forceFeature, model, basis, xva, sum_range_succ]
  ring

/-- C40: a combination that vanishes on every frame exists for a single frame, none for the example. -/
example : ∃ G, (computeGramForce env (state false)).1.model.gramForce = some G ∧ G.get [0, 1] = G.get [1, 0] := by
  obtain ⟨G, h1, -, h2, -⟩ := C40_gram_psd isLoop (s := state false) (wf _) nonempty pos
  exact ⟨G, h1, h2 0 (by decide) 1 (by decide)⟩

/-- C41: the trajectories of the example share their times. -/
example : ∃ T, computeTruncInd (5 / 2 : ℚ) xvas = .ok T ∧ 1 ≤ T ∧ ∀ x ∈ xvas, T ≤ x.n := by
  refine C41_trunc_ind_partial nonempty (τ := fun k => (k : ℚ)) (fun a b h => by simpa using h) ?_ (by norm_num)
  intro x hx
  refine ⟨pos x hx, fun k _ => ?_⟩
  simp only [xvas, List.mem_cons, List.not_mem_nil, or_false] at hx
  rcases hx with rfl | rfl <;> rfl

example : computeTruncInd (5 / 2 : ℚ) xvas = .ok 2 := by decide +kernel

/-- C42: a sequence of calls, with a first call out of order, after which the kernel exists. -/
example : Fresh (state false) ∧ (runOps env [.kernel "rectangular" fun _ _ => none, .meanForce, .gramForce,
    .corrs "direct" false true none, .kernel "foo" fun _ _ => none, .kernel "rectangular" fun _ _ => none]
    ({ state false with model := { (state false).model with bm := model .constKernel } })).model.kernel.isSome = true := by
  refine ⟨⟨rfl, rfl, rfl⟩, by decide +kernel⟩

theorem isCorrFn : IsCorrFn (env.corrFn "direct" false) := by
  intro p q N a b trunc _ _ hN ht
  have : ∃ r, correlationDirectND N a b (some trunc) = .ok r := by
    unfold correlationDirectND
    rw [if_neg (by simp only [lenTrunc]; omega)]
    exact ⟨_, rfl⟩
  obtain ⟨r, hr⟩ := this
  exact ⟨r, hr, (directND_spec hr).1, (directND_spec hr).2⟩

/-- A state with a mean force. -/
def ready (rp : Bool) : EstState ℚ :=
  { state rp with model := { (state rp).model with forceCoeff := some (mk2 "dim_basis" 2 "dim_x" 1 fun k _ => k + 1) } }

/-- C43: the conditions hold. -/
theorem corrReady (rp : Bool) : CorrReady env "direct" false (ready rp) "dim_x" 1
    (mk2 "dim_basis" 2 "dim_x" 1 fun k _ => k + 1) where
  loop := isLoop
  fn := isCorrFn
  wf := wf _
  obs := sameObs
  dim := by decide
  dimx := by
    intro x hx
    simp only [ready, state, xvas, List.mem_cons, List.not_mem_nil, or_false] at hx
    rcases hx with rfl | rfl <;> rfl
  force := rfl
  fdims := rfl
  fshape := rfl
  npos := by cases rp <;> decide
  xpos := by decide
  tpos := by cases rp <;> decide
  tle := by
    intro x hx
    simp only [ready, state, xvas, List.mem_cons, List.not_mem_nil, or_false] at hx
    rcases hx with rfl | rfl <;> simp [xva, ready, state]
  ne := nonempty

example : ∃ c, (computeCorrs env "direct" false true none (ready false)).1.corrs = some c ∧
    c.bkbk.get [1, 1, 1] = Spec.meanCorr xvas (fun xva t => Spec.corrFeature (model .posGle) xva t 1)
      (fun xva t => Spec.corrFeature (model .posGle) xva t 1) 1 := by
  obtain ⟨c, h1, -, -, -, -, h2, -⟩ := C43_layout (second := true) (rankTol := none) (corrReady false) rfl
  exact ⟨c, h1, h2 1 (by decide) 1 (by decide) 1 (by decide)⟩

/-- The functions of correlation.py meet the condition on `fn`, for real data. -/
example (method : String) (vectorize : Bool) : IsCorrFn (selectCorr method vectorize) := selectCorr_is method vectorize

/-- C44: the derivative of the function `1` vanishes, so that one direction is dropped. -/
def M : Mat ℚ 2 2 := Matrix.of fun k l : Fin 2 => Spec.meanCorr xvas
  (fun xva t => Spec.corrFeature (model .posGle) xva t k) (fun xva t => Spec.corrFeature (model .posGle) xva t l) 0

theorem isSvdOf : IsSvdOf M (svd 2 M) := by
  refine ⟨by decide +kernel, by decide +kernel, ?_, fun _ => 1, fun _ => .inl rfl, by decide +kernel⟩
  unfold Antitone
  decide +kernel

theorem corrs_ok : ∃ s', computeCorrs env "direct" false true none (ready true) = (s', none) :=
  ⟨_, Prod.ext rfl (by decide +kernel)⟩

example : ∃ s' c, computeCorrs env "direct" false true none (ready true) = (s', none) ∧ s'.corrs = some c ∧
    c.bkbk.get [0, 0, 0] = 32 / 5 := by
  obtain ⟨s', h⟩ := corrs_ok
  obtain ⟨c, h1, h2⟩ := C44_projected_gram (corrReady true) rfl rfl h (M := M) rfl isSvdOf
    (by decide +kernel) (by decide +kernel)
  refine ⟨s', c, h, h1, ?_⟩
  rw [(h2 0 0 (by decide +kernel) (by decide +kernel)).2]
  decide +kernel

end Ex

end Verif
