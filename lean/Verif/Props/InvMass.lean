import Verif.Props.PosMass
import Verif.Props.Consistent
import Verif.Props.ObservableShift

/-!
# The values of the position dependent inverse mass (C177)
-/

namespace Verif

open LArr Finset

set_option linter.unusedSectionVars false

section
variable {K : Type*} [Field K] [LinearOrder K]

/-- Trajectories in dimension one and a model whose kernel functions are the basis functions. -/
structure MassSetup (env : Env K) (s : EstState K) : Prop where
  loop : IsLoop env.loop
  cls : s.model.bm.cls = .noVelBasis ∨ s.model.bm.cls = .overdamped
  dim : s.model.bm.dimx = 1
  dimx : ∀ xva ∈ s.xvas, xva.dimx = 1
  pos : ∀ xva ∈ s.xvas, 1 ≤ xva.n
  ne : s.xvas ≠ []

/-- The average of the product of two basis functions over the frames. -/
def Spec.basisGram (m : BasisModel K) (xvas : List (Xva K)) (i k : ℕ) : K :=
  pooledMean (xvas.map fun xva => (xva.n, fun t => m.basis.basis (xva.data "x" t) i * m.basis.basis (xva.data "x" t) k))

/-- The average of a basis function times the square of the velocity over the frames. -/
def Spec.basisSquare (m : BasisModel K) (xvas : List (Xva K)) (i : ℕ) : K :=
  pooledMean (xvas.map fun xva => (xva.n, fun t => m.basis.basis (xva.data "x" t) i * xva.data "v" t 0 ^ 2))

theorem MassSetup.kernelEval {env : Env K} {s : EstState K} (h : MassSetup env s) : s.model.bm.nKernelEval = s.model.bm.basis.nOut := by
  rcases h.cls with e | e <;> simp [BasisModel.nKernelEval, e]

theorem MassSetup.kernelDim {env : Env K} {s : EstState K} (h : MassSetup env s) : ∀ xva ∈ s.xvas, s.model.bm.kernelDim xva = 1 := by
  intro xva hx
  rcases h.cls with e | e <;> simp [BasisModel.kernelDim, e, h.dim]

theorem MassSetup.kernelFeature {env : Env K} {s : EstState K} (h : MassSetup env s) (xva : Xva K) (t k d : ℕ) :
    Spec.kernelFeature s.model.bm xva t k d = s.model.bm.basis.basis (xva.data "x" t) k := by
  rcases h.cls with e | e <;> simp [Spec.kernelFeature, e]

theorem MassSetup.kernelDot {env : Env K} {s : EstState K} (h : MassSetup env s) {xva : Xva K} (hx : xva ∈ s.xvas) (t k l : ℕ) :
    Spec.kernelDot s.model.bm xva t k l = s.model.bm.basis.basis (xva.data "x" t) k * s.model.bm.basis.basis (xva.data "x" t) l := by
  simp [Spec.kernelDot, h.dimx xva hx, h.kernelFeature]

theorem MassSetup.kernelVel {env : Env K} {s : EstState K} (h : MassSetup env s) {xva : Xva K} (hx : xva ∈ s.xvas) (t k : ℕ) :
    Spec.kernelVel s.model.bm xva t k 0 = s.model.bm.basis.basis (xva.data "x" t) k * xva.data "v" t 0 ^ 2 := by
  simp [Spec.kernelVel, h.dimx xva hx, h.kernelFeature]
  ring

/-- `compute_pos_effective_mass` succeeds when the products of the kernel functions have an invertible average. -/
theorem posMass_defined [CharZero K] {env : Env K} (hl : IsLoop env.loop) {s : EstState K} {x : ℕ}
    (hs : ∀ xva ∈ s.xvas, xva.dimx = x) (hk : ∀ xva ∈ s.xvas, s.model.bm.kernelDim xva = x) (hne : s.xvas ≠ [])
    (hn : ∀ xva ∈ s.xvas, 1 ≤ xva.n)
    (hdet : (Matrix.of fun i j : Fin s.model.bm.nKernelEval => Spec.pooledMean (s.xvas.map fun xva =>
      (xva.n, fun t => Spec.kernelDot s.model.bm xva t i j))).det ≠ 0) : ∃ s', computePosEffectiveMass env s = (s', none) := by
  obtain ⟨out, e, ho⟩ := loopSerial_ok (func := squareVelPosTraj s.model.bm) hne (posMassLay_ok s.model.bm.nKernelEval x)
    fun xva hx => squareVelPos_res hs hk hx
  obtain ⟨hlen, hget⟩ := ho
  obtain ⟨D, hD, D1, D2, D3⟩ := hget 0 (by norm_num)
  obtain ⟨G, hG, G1, G2, G3⟩ := hget 1 (by norm_num)
  obtain rfl : out = [D, G] := by
    match out, hlen with
    | [a, b], _ =>
      simp only [List.getElem?_cons_zero, List.getElem?_cons_succ, Option.some.injEq] at hD hG
      rw [hD, hG]
  simp only [posMassLay, if_true, if_neg (show (1 : ℕ) ≠ 0 by norm_num)] at D1 D2 D3 G1 G2 G3
  have hGm : G.toMatrix s.model.bm.nKernelEval s.model.bm.nKernelEval = Matrix.of fun i j : Fin s.model.bm.nKernelEval =>
      Spec.pooledMean (s.xvas.map fun xva => (xva.n, fun t => Spec.kernelDot s.model.bm xva t i j)) := by
    ext i j
    show G.get [i.1, j.1] = _
    rw [G3 [i.1, j.1] (List.Forall₂.cons i.2 (List.Forall₂.cons j.2 List.Forall₂.nil))]
    simp only [at2, List.getD_cons_zero, List.getD_cons_succ]
    rw [pooled_sum hn (fun xva t => Spec.kernelDot s.model.bm xva t i j)]
    rfl
  obtain ⟨c, hc⟩ := solveLinear_isOk G2 D2 (by rw [hGm]; exact hdet)
  exact ⟨{ s with model := { s.model with invMassCoeff := some c } }, by
    unfold computePosEffectiveMass
    rw [hl.eq, e]
    dsimp only
    rw [hc]⟩

theorem MassSetup.gram {env : Env K} {s : EstState K} (h : MassSetup env s) (i k : ℕ) :
    Spec.pooledMean (s.xvas.map fun xva => (xva.n, fun t => Spec.kernelDot s.model.bm xva t i k)) = Spec.basisGram s.model.bm s.xvas i k := by
  refine congrArg Spec.pooledMean (List.map_congr_left fun xva hx => ?_)
  simp only [h.kernelDot hx]

theorem MassSetup.square {env : Env K} {s : EstState K} (h : MassSetup env s) (i : ℕ) :
    Spec.pooledMean (s.xvas.map fun xva => (xva.n, fun t => Spec.kernelVel s.model.bm xva t i 0)) = Spec.basisSquare s.model.bm s.xvas i := by
  refine congrArg Spec.pooledMean (List.map_congr_left fun xva hx => ?_)
  simp only [h.kernelVel hx]

/-- What is computed and evaluated. -/
theorem MassSetup.values [CharZero K] {env : Env K} {s s' : EstState K} (hs : MassSetup env s)
    (h : computePosEffectiveMass env s = (s', none)) : ∃ c : ℕ → K,
      (∀ i < s.model.bm.basis.nOut, ∑ k ∈ range s.model.bm.basis.nOut, Spec.basisGram s.model.bm s.xvas i k * c k =
        Spec.basisSquare s.model.bm s.xvas i) ∧
      ∀ n pts, ∃ A, invMassEval s'.model none n pts = .ok A ∧ A.shape = [n, 1] ∧
        ∀ i, A.get [i, 0] = ∑ k ∈ range s.model.bm.basis.nOut, s.model.bm.basis.basis (pts i) k * c k := by
  obtain ⟨c, rfl, c1, c2, c3⟩ := C83_coefficients hs.loop hs.dimx hs.kernelDim hs.ne hs.pos h
  refine ⟨fun k => c.get [k, 0], fun i hi => ?_, fun n pts => ?_⟩
  · have := c3 i (by rw [hs.kernelEval]; exact hi) 0 one_pos
    rw [hs.square] at this
    rw [← this, hs.kernelEval]
    exact sum_congr rfl fun k _ => by rw [hs.gram]
  · obtain ⟨A, a1, -, a2, a3⟩ := (C83_inv_mass_eval (s := { s.model with invMassCoeff := some c }) rfl c1 c2 n pts).2.2
      (by rcases hs.cls with e | e <;> simp [e]) hs.kernelEval
    exact ⟨A, a1, a2, fun i => by rw [a3 i 0, hs.kernelEval]⟩

/-- **C177**, the true part. In dimension one, for the classes without functions of the velocity, `inv_mass_eval` after
`compute_pos_effective_mass` is at all points the value of one combination of the basis functions, the least-squares fit of the
square of the velocity over the frames: the error is orthogonal to all basis functions. -/
theorem C177_fit_partial [CharZero K] {env : Env K} {s s' : EstState K} (hs : MassSetup env s)
    (h : computePosEffectiveMass env s = (s', none)) : ∃ c : ℕ → K,
      (∀ i < s.model.bm.basis.nOut, Spec.pooledMean (s.xvas.map fun xva => (xva.n, fun t => s.model.bm.basis.basis (xva.data "x" t) i *
        (xva.data "v" t 0 ^ 2 - ∑ k ∈ range s.model.bm.basis.nOut, s.model.bm.basis.basis (xva.data "x" t) k * c k))) = 0) ∧
      ∀ n pts, ∃ A, invMassEval s'.model none n pts = .ok A ∧ A.shape = [n, 1] ∧
        ∀ i, A.get [i, 0] = ∑ k ∈ range s.model.bm.basis.nOut, s.model.bm.basis.basis (pts i) k * c k := by
  obtain ⟨c, h1, h2⟩ := hs.values h
  refine ⟨c, fun i hi => ?_, h2⟩
  have e := pooledSum_add_comb s.xvas (range s.model.bm.basis.nOut) (fun xva t => s.model.bm.basis.basis (xva.data "x" t) i * xva.data "v" t 0 ^ 2)
    (fun k xva t => s.model.bm.basis.basis (xva.data "x" t) i * s.model.bm.basis.basis (xva.data "x" t) k) fun k => - c k
  have h3 := h1 i hi
  simp only [Spec.basisGram, Spec.basisSquare, pooledMean_eq] at h3
  rw [pooledMean_eq]
  rw [div_eq_zero_iff]
  left
  have hN : (((s.xvas.map fun x => x.n).sum : ℕ) : K) ≠ 0 := by
    obtain ⟨x, l, hx⟩ := List.exists_cons_of_ne_nil hs.ne
    have := hs.pos x (by rw [hx]; exact List.mem_cons_self)
    rw [Nat.cast_ne_zero, hx, List.map_cons, List.sum_cons]
    omega
  have h4 : ∑ k ∈ range s.model.bm.basis.nOut, Spec.pooledSum (s.xvas.map fun xva => (xva.n, fun t =>
      s.model.bm.basis.basis (xva.data "x" t) i * s.model.bm.basis.basis (xva.data "x" t) k)) * c k =
      Spec.pooledSum (s.xvas.map fun xva => (xva.n, fun t => s.model.bm.basis.basis (xva.data "x" t) i * xva.data "v" t 0 ^ 2)) := by
    rw [← div_left_inj' hN, ← h3, sum_div]
    exact sum_congr rfl fun k _ => by ring
  refine Eq.trans ?_ (e.trans ?_)
  · refine congrArg Spec.pooledSum (List.map_congr_left fun xva _ => ?_)
    refine congrArg (Prod.mk xva.n) (funext fun t => ?_)
    rw [mul_sub, mul_sum, sub_eq_add_neg, ← sum_neg_distrib]
    refine congrArg (_ + ·) (sum_congr rfl fun k _ => by ring)
  · rw [← h4, ← sum_add_distrib]
    exact sum_eq_zero fun k _ => by ring

end

namespace Spec

/-- The averages over the data are within `ε` of those of the process: `G` for products of basis functions, `S` for their products with the square of
the velocity. -/
structure NearMass (m : BasisModel ℝ) (G : ℕ → ℕ → ℝ) (S : ℕ → ℝ) (xvas : List (Xva ℝ)) (ε : ℝ) : Prop where
  gram : ∀ i < m.basis.nOut, ∀ k < m.basis.nOut, |basisGram m xvas i k - G i k| ≤ ε
  square : ∀ i < m.basis.nOut, |basisSquare m xvas i - S i| ≤ ε

end Spec

/-- **C177**, the true part: when the averages over the data are within `ε` of those of the process, `compute_pos_effective_mass` succeeds, and
`inv_mass_eval` is within `C ε` times the size of the basis functions of the fit `W` of the square of the velocity of the process. -/
theorem C177_near_partial {m : BasisModel ℝ} {G : ℕ → ℕ → ℝ} {S W : ℕ → ℝ} (hG : (Matrix.of fun i k : Fin m.basis.nOut => G i k).det ≠ 0)
    (hW : ∀ i < m.basis.nOut, ∑ k ∈ range m.basis.nOut, G i k * W k = S i) : ∃ C δ : ℝ, 0 < δ ∧ ∀ (env : Env ℝ) (s : EstState ℝ) (ε : ℝ),
      s.model.bm = m → MassSetup env s → Spec.NearMass m G S s.xvas ε → 0 ≤ ε → ε ≤ δ →
      ∃ s', computePosEffectiveMass env s = (s', none) ∧ ∀ n pts, ∃ A, invMassEval s'.model none n pts = .ok A ∧ A.shape = [n, 1] ∧
        ∀ i, |A.get [i, 0] - ∑ k ∈ range m.basis.nOut, m.basis.basis (pts i) k * W k| ≤
          C * ε * ∑ k ∈ range m.basis.nOut, |m.basis.basis (pts i) k| := by
  obtain ⟨C, δ, hC, hδ, H⟩ := solve_near hG (A := Matrix.of fun i (_ : Fin 1) => S i) (F := Matrix.of fun i _ => W i) (by
      ext i j
      rw [Matrix.mul_apply]
      simp only [Matrix.of_apply]
      rw [← hW i i.2, Finset.sum_range])
  refine ⟨C, δ, hδ, fun env s ε hm hs hn hε hεδ => ?_⟩
  subst hm
  obtain ⟨hdet, hsol⟩ := H (Matrix.of fun i k => Spec.basisGram s.model.bm s.xvas i k) (Matrix.of fun i _ => Spec.basisSquare s.model.bm s.xvas i) ε hε hεδ
    (fun i j => hn.gram i i.2 j j.2) fun i _ => hn.square i i.2
  obtain ⟨s', h⟩ := posMass_defined hs.loop hs.dimx hs.kernelDim hs.ne hs.pos (by
    simp only [hs.gram]
    rw [hs.kernelEval]
    exact hdet)
  obtain ⟨c, h1, h2⟩ := hs.values h
  have hc : ∀ k < s.model.bm.basis.nOut, |c k - W k| ≤ C * ε := fun k hk => hsol (Matrix.of fun k _ => c k) (by
    ext i j
    rw [Matrix.mul_apply]
    simp only [Matrix.of_apply]
    rw [← h1 i i.2, Finset.sum_range]) ⟨k, hk⟩ 0
  refine ⟨s', h, fun n pts => ?_⟩
  obtain ⟨A, a1, a2, a3⟩ := h2 n pts
  refine ⟨A, a1, a2, fun i => ?_⟩
  rw [a3, ← sum_sub_distrib, mul_sum]
  refine (abs_sum_le_sum_abs _ _).trans (sum_le_sum fun k hk => ?_)
  rw [← mul_sub, abs_mul, mul_comm]
  exact mul_le_mul_of_nonneg_right (hc k (mem_range.1 hk)) (abs_nonneg _)

/-! C177 does not hold for gradients, nor in dimension two. -/

/-- Two frames with velocities 1 and -1, and the function `x`, whose gradient is 1. -/
def slopeState (K : Type*) [Field K] (cls : ModelClass) : EstState K where
  model :=
    { bm := ⟨cls, ⟨1, false, fun p _ => p 0, fun _ _ _ => 1, fun _ _ _ _ => 0, fun _ _ => 0⟩, 1, 1⟩
      Lobs := "a", dt := 1, truncInd := 1, forceCoeff := none
      kernel := none, method := none, rankProjection := false, Prange := none, gramForce := none
      gramKernel := none, effMass := none }
  xvas := [⟨2, 1, fun t => t, fun name t _ => if name = "x" then t + 1 else if name = "v" then (-1) ^ t else 0, fun _ => "dim_x", fun _ => 1⟩]
  corrs := none
  saveall := false

/-- **C177 does not hold**: the square of the velocity is 1 at all frames and the kernel function of `Pos_gle` is 1 everywhere, so that it is fitted
without error; `inv_mass_eval` returns the position, because it multiplies with the functions of the force and not with their gradients. -/
theorem C177_gradient_fails : (∀ xva ∈ (slopeState ℚ .posGle).xvas, ∀ t, xva.data "v" t 0 ^ 2 = 1) ∧
    ∃ s', computePosEffectiveMass exampleMassEnv (slopeState ℚ .posGle) = (s', none) ∧
      ∀ n pts, ∃ A, invMassEval s'.model none n pts = .ok A ∧ A.shape = [n, 1] ∧ ∀ i, A.get [i, 0] = pts i 0 := by
  refine ⟨fun xva hx t => ?_, ?_⟩
  · obtain rfl := List.mem_singleton.1 hx
    show ((-1 : ℚ) ^ t) ^ 2 = 1
    rw [← pow_mul, mul_comm, pow_mul]
    norm_num
  · have h0 : (computePosEffectiveMass exampleMassEnv (slopeState ℚ .posGle)).2 = none := by decide +kernel
    obtain ⟨s', h⟩ : ∃ s', computePosEffectiveMass exampleMassEnv (slopeState ℚ .posGle) = (s', none) := ⟨_, Prod.ext rfl h0⟩
    refine ⟨s', h, fun n pts => ?_⟩
    obtain ⟨c, rfl, c1, c2, c3⟩ := C83_coefficients (x := 1) (.inl rfl) (by simp [slopeState]) (by simp [slopeState, BasisModel.kernelDim])
      (by simp [slopeState]) (by simp [slopeState]) h
    have hk : (slopeState ℚ .posGle).model.bm.nKernelEval = 1 := rfl
    rw [hk] at c2 c3
    have hc : c.get [0, 0] = 1 := by
      have := c3 0 one_pos 0 one_pos
      simp [slopeState, Spec.pooledMean, Spec.pooledSum, Spec.kernelDot, Spec.kernelVel, Spec.kernelFeature, Finset.sum_range_succ] at this
      linarith
    obtain ⟨A, a1, -, a2, a3⟩ := (C83_inv_mass_eval (s := { (slopeState ℚ .posGle).model with invMassCoeff := some c }) rfl c1 c2 n pts).2.2
      (by simp [slopeState]) rfl
    refine ⟨A, a1, a2, fun i => ?_⟩
    rw [a3 i 0, Finset.sum_range_one, hc, mul_one]
    rfl

/-- Four frames with velocities `(1, 1), (1, -1), (-1, 1), (-1, -1)`, in dimension two, and the constant function. -/
def planeState : EstState ℚ where
  model :=
    { bm := ⟨.noVelBasis, ⟨1, false, fun _ _ => 1, fun _ _ _ => 0, fun _ _ _ _ => 0, fun _ _ => 0⟩, 2, 2⟩
      Lobs := "a", dt := 1, truncInd := 1, forceCoeff := none
      kernel := none, method := none, rankProjection := false, Prange := none, gramForce := none
      gramKernel := none, effMass := none }
  xvas := [⟨4, 2, fun t => t, fun name t d => if name = "v" then (if d = 0 then (-1) ^ (t / 2) else (-1) ^ t) else 0, fun _ => "dim_x", fun _ => 2⟩]
  corrs := none
  saveall := false

/-- **C177 does not hold in dimension two**: the average of the products of the velocities is the unit matrix, and the basis has the constant function
only; `inv_mass_eval` returns two numbers and not a matrix, both 1/2. -/
theorem C177_plane_fails : (∀ i < 2, ∀ j < 2, Spec.pooledMean (planeState.xvas.map fun xva => (xva.n, fun t => xva.data "v" t i * xva.data "v" t j)) =
      if i = j then 1 else 0) ∧
    ∃ s', computePosEffectiveMass exampleMassEnv planeState = (s', none) ∧
      ∀ n pts, ∃ A, invMassEval s'.model none n pts = .ok A ∧ A.shape = [n, 2] ∧ ∀ i, ∀ j < 2, A.get [i, j] = 1 / 2 := by
  refine ⟨?_, ?_⟩
  · decide +kernel
  · have h0 : (computePosEffectiveMass exampleMassEnv planeState).2 = none := by decide +kernel
    obtain ⟨s', h⟩ : ∃ s', computePosEffectiveMass exampleMassEnv planeState = (s', none) := ⟨_, Prod.ext rfl h0⟩
    refine ⟨s', h, fun n pts => ?_⟩
    obtain ⟨c, rfl, c1, c2, c3⟩ := C83_coefficients (x := 2) (.inl rfl) (by simp [planeState]) (by simp [planeState, BasisModel.kernelDim])
      (by simp [planeState]) (by simp [planeState]) h
    have hk : planeState.model.bm.nKernelEval = 1 := rfl
    rw [hk] at c2 c3
    have hc : ∀ j < 2, c.get [0, j] = 1 / 2 := by
      intro j hj
      have := c3 0 one_pos j hj
      rcases (show j = 0 ∨ j = 1 by omega) with rfl | rfl <;>
      · simp [planeState, Spec.pooledMean, Spec.pooledSum, Spec.kernelDot, Spec.kernelVel, Spec.kernelFeature, Finset.sum_range_succ] at this
        linarith
    obtain ⟨A, a1, -, a2, a3⟩ := (C83_inv_mass_eval (s := { planeState.model with invMassCoeff := some c }) rfl c1 c2 n pts).2.2
      (by simp [planeState]) rfl
    refine ⟨A, a1, a2, fun i j hj => ?_⟩
    rw [a3 i j, Finset.sum_range_one, hc j hj]
    simp [planeState]

theorem slopeSetup {K : Type*} [Field K] [LinearOrder K] {env : Env K} (hl : IsLoop env.loop) : MassSetup env (slopeState K .noVelBasis) :=
  ⟨hl, .inl rfl, rfl, by simp [slopeState], by simp [slopeState], by simp [slopeState]⟩

/-- Positions 1 and 2, velocities 1 and -1: the fit by the multiples of `x` is `3 x / 5`. -/
example : ∃ s', computePosEffectiveMass exampleMassEnv (slopeState ℚ .noVelBasis) = (s', none) ∧ ∃ A, invMassEval s'.model none 1 (fun _ _ => 5) = .ok A ∧
    A.get [0, 0] = 3 := by
  have h0 : (computePosEffectiveMass exampleMassEnv (slopeState ℚ .noVelBasis)).2 = none := by decide +kernel
  obtain ⟨s', h⟩ : ∃ s', computePosEffectiveMass exampleMassEnv (slopeState ℚ .noVelBasis) = (s', none) := ⟨_, Prod.ext rfl h0⟩
  obtain ⟨c, h1, h2⟩ := C177_fit_partial (slopeSetup (.inl rfl)) h
  obtain ⟨A, a1, -, a2⟩ := h2 1 fun _ _ => 5
  refine ⟨s', h, A, a1, ?_⟩
  have h3 := h1 0 one_pos
  simp [slopeState, Spec.pooledMean, Spec.pooledSum, Finset.sum_range_succ] at h3
  have h4 := a2 0
  simp [slopeState] at h4
  linarith

/-- The averages of these data, for every `ε`. -/
theorem slopeNear {ε : ℝ} (hε : 0 ≤ ε) :
    Spec.NearMass (slopeState ℝ .noVelBasis).model.bm (fun _ _ => 5 / 2) (fun _ => 3 / 2) (slopeState ℝ .noVelBasis).xvas ε where
  gram := fun i _ k _ => by
    refine le_of_eq_of_le ?_ hε
    simp [slopeState, Spec.basisGram, Spec.pooledMean, Spec.pooledSum, Finset.sum_range_succ]
    norm_num
  square := fun i _ => by
    refine le_of_eq_of_le ?_ hε
    simp [slopeState, Spec.basisSquare, Spec.pooledMean, Spec.pooledSum, Finset.sum_range_succ]
    norm_num

example : ∃ C δ : ℝ, 0 < δ ∧ ∀ ε ≤ δ, 0 ≤ ε → ∃ s', computePosEffectiveMass TwoOscillators.env (slopeState ℝ .noVelBasis) = (s', none) ∧
    ∀ n pts, ∃ A, invMassEval s'.model none n pts = .ok A ∧ ∀ i, |A.get [i, 0] - pts i 0 * (3 / 5)| ≤ C * ε * |pts i 0| := by
  obtain ⟨C, δ, hδ, H⟩ := C177_near_partial (m := (slopeState ℝ .noVelBasis).model.bm) (G := fun _ _ => 5 / 2) (S := fun _ => 3 / 2) (W := fun _ => 3 / 5)
    (by
      show (Matrix.of fun _ _ : Fin 1 => (5 / 2 : ℝ)).det ≠ 0
      rw [Matrix.det_fin_one]
      norm_num)
    (fun i _ => by
      rw [show (slopeState ℝ .noVelBasis).model.bm.basis.nOut = 1 from rfl, Finset.sum_range_one]
      norm_num)
  refine ⟨C, δ, hδ, fun ε h1 h2 => ?_⟩
  obtain ⟨s', h, h'⟩ := H TwoOscillators.env _ ε rfl (slopeSetup (.inl rfl)) (slopeNear h2) h2 h1
  refine ⟨s', h, fun n pts => ?_⟩
  obtain ⟨A, a1, -, a2⟩ := h' n pts
  exact ⟨A, a1, fun i => by simpa [slopeState] using a2 i⟩

end Verif
