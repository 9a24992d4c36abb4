import Verif.Lemmas.Ide
import Verif.Spec.Quadrature
import Verif.Props.VolterraMore
import Mathlib.Algebra.Order.BigOperators.Group.Finset
import Mathlib.Algebra.BigOperators.Field
import Mathlib.Tactic.FieldSimp
import Mathlib.Tactic.Linarith

/-!
# Properties of `evolve_volterra` and `flux_from_volterra`: C24 - C30
-/

namespace Verif

open Finset

section
variable {K : Type*} [Field K] [DecidableEq K] [LinearOrder K] {b : ℕ}
  {garbage : ℕ → (ℕ → Mat K b b) → Mat K b b}

/-- The discrete time derivative of the evolution. -/
def discreteDeriv (dt : K) (G : ℕ → Mat K b b) (i : ℕ) : Mat K b b := dt⁻¹ • (G i - G (i - 1))

theorem evolve_rect_ok {m : IdeModel K b} {G0 : Mat K b b} {T : ℕ} {trunc : Option ℤ}
    {r : (ℕ → K) × (ℕ → Mat K b b)} (h : evolveVolterra garbage m G0 T "rect" trunc = .ok r) :
    0 < m.trunc trunc ∧ r.1 = (fun i : ℕ => (i : K) * m.dt) ∧
      FKernel.solveIdeRect (m.trunc trunc - 1) m.kernel G0 m.forceCoeff T m.dt = .ok r.2 := by
  unfold evolveVolterra at h
  simp only [bind, Except.bind, pure, Except.pure, throw, throwThe, MonadExceptOf.throw, if_true] at h
  by_cases hL : m.trunc trunc = 0
  · simp [hL] at h
  · simp only [hL, if_false] at h
    cases e : FKernel.solveIdeRect (m.trunc trunc - 1) m.kernel G0 m.forceCoeff T m.dt with
    | error _ => rw [e] at h; cases h
    | ok E =>
      rw [e] at h
      simp only [Except.ok.injEq] at h
      subst h
      exact ⟨by omega, rfl, rfl⟩

theorem evolve_trapz_ok {m : IdeModel K b} {G0 : Mat K b b} {T : ℕ} {trunc : Option ℤ}
    {r : (ℕ → K) × (ℕ → Mat K b b)} (h : evolveVolterra garbage m G0 T "trapz" trunc = .ok r) :
    0 < m.trunc trunc ∧ r.1 = (fun i : ℕ => (i : K) * m.dt) ∧
      FKernel.solveIdeTrapz (m.trunc trunc - 1) m.kernel G0 m.forceCoeff T m.dt = .ok r.2 := by
  unfold evolveVolterra at h
  simp only [bind, Except.bind, pure, Except.pure, throw, throwThe, MonadExceptOf.throw,
    show ("trapz" = "rect") = False by decide, if_false, if_true] at h
  by_cases hL : m.trunc trunc = 0
  · simp [hL] at h
  · simp only [hL, if_false] at h
    cases e : FKernel.solveIdeTrapz (m.trunc trunc - 1) m.kernel G0 m.forceCoeff T m.dt with
    | error _ => rw [e] at h; cases h
    | ok E =>
      rw [e] at h
      simp only [Except.ok.injEq] at h
      subst h
      exact ⟨by omega, rfl, rfl⟩

theorem evolve_stab_ok {m : IdeModel K b} {G0 : Mat K b b} {T : ℕ} {trunc : Option ℤ}
    {r : (ℕ → K) × (ℕ → Mat K b b)} (h : evolveVolterra garbage m G0 T "trapz_stab" trunc = .ok r) :
    FKernel.solveIdeTrapzStab garbage m.kernel G0 m.forceCoeff T m.dt = .ok r.2 := by
  unfold evolveVolterra at h
  simp only [bind, Except.bind, pure, Except.pure, throw, throwThe, MonadExceptOf.throw,
    show ("trapz_stab" = "rect") = False by decide, show ("trapz_stab" = "trapz") = False by decide,
    if_false, if_true] at h
  by_cases hL : m.trunc trunc = 0
  · simp [hL] at h
  · simp only [hL, if_false] at h
    cases e : FKernel.solveIdeTrapzStab garbage m.kernel G0 m.forceCoeff T m.dt with
    | error _ => rw [e] at h; cases h
    | ok E =>
      rw [e] at h
      simp only [Except.ok.injEq] at h
      subst h
      rfl

omit [DecidableEq K] [LinearOrder K] in
theorem discreteDeriv_of_step {dt c : K} (hdt : dt ≠ 0) {n : ℕ → ℕ} {ker : ℕ → Mat K b b} {F : Mat K b b}
    {E : ℕ → Mat K b b} {i : ℕ} (h : IdeStep n (1 + (c * dt ^ 2) • ker 0) ker F dt E i) :
    discreteDeriv dt E i = E (i - 1) * F -
      ((c * dt) • (E i * ker 0) + ∑ j ∈ Ico 1 (n i), dt • (E (i - j) * ker j)) := by
  unfold IdeStep at h
  rw [Matrix.mul_add, Matrix.mul_one, Matrix.mul_smul] at h
  have h' : E i - E (i - 1) = dt • (E (i - 1) * F -
      ((c * dt) • (E i * ker 0) + ∑ j ∈ Ico 1 (n i), dt • (E (i - j) * ker j))) := by
    have : E i = E (i - 1) + dt • (E (i - 1) * F) - dt • ∑ j ∈ Ico 1 (n i), dt • (E (i - j) * ker j) -
        (c * dt ^ 2) • (E i * ker 0) := by rw [← h]; abel
    rw [show E i - E (i - 1) = (E (i - 1) + dt • (E (i - 1) * F) - dt • ∑ j ∈ Ico 1 (n i), dt • (E (i - j) * ker j) -
        (c * dt ^ 2) • (E i * ker 0)) - E (i - 1) by rw [← this]]
    module
  rw [discreteDeriv, h', smul_smul, inv_mul_cancel₀ hdt, one_smul]

/-! ### Example data -/

/-- Two states, three kernel points, rows of the coefficients sum to zero. -/
def exIde : IdeModel ℚ 2 where
  forceCoeff := !![-1, 1; 2, -2]
  kernelLen := 3
  kernel := fun k => if k = 0 then !![1, -1; 0, 0] else !![1, -1; -1, 1]
  dt := 1 / 2

def exGarbage : ℕ → (ℕ → Mat ℚ 2 2) → Mat ℚ 2 2 := fun _ _ => 0

def dfltIde : (ℕ → ℚ) × (ℕ → Mat ℚ 2 2) := (0, 0)

/-! ### C24: rect -/

/-- **C24.** What `evolve_volterra(method="rect")` solves: the time derivative is the force minus
`dt` times a sum over the lags `0, ..., min(i, L-1) - 2` (and always lag 0, which is implicit), where
`L` is the number of kernel points. *Missing*: the rectangle rule over the full window has the lags
`0, ..., min(i, L) - 1`; see `C24_rect_fails`. -/
theorem C24_rect_partial {m : IdeModel K b} {G0 : Mat K b b} {T : ℕ} {trunc : Option ℤ}
    {r : (ℕ → K) × (ℕ → Mat K b b)} (hdt : m.dt ≠ 0)
    (h : evolveVolterra garbage m G0 T "rect" trunc = .ok r) :
    (∀ i, r.1 i = i * m.dt) ∧ r.2 0 = G0 ∧ ∀ i, 1 ≤ i → i < T →
      discreteDeriv m.dt r.2 i = r.2 (i - 1) * m.forceCoeff -
        Spec.rectRule m.dt (fun s => r.2 (i - s) * m.kernel s) (max 1 (min i (m.trunc trunc - 1) - 1)) := by
  obtain ⟨-, ht, hs⟩ := evolve_rect_ok h
  obtain ⟨h0, -, hstep⟩ := FKernel.solveIdeRect_ok hs
  refine ⟨fun i => by rw [ht], h0, fun i h1 h2 => ?_⟩
  rw [discreteDeriv_of_step (c := 1) hdt (by rw [one_mul]; exact hstep i h1 h2)]
  congr 1
  unfold Spec.rectRule
  rw [one_mul, range_eq_Ico, sum_eq_sum_Ico_succ_bot
    (show 0 < max 1 (min i (m.trunc trunc - 1) - 1) by omega)]
  beta_reduce
  rw [Nat.sub_zero]
  congr 1
  rcases Nat.eq_zero_or_pos (min i (m.trunc trunc - 1) - 1) with hz | hp
  · rw [hz]; simp
  · rw [max_eq_right hp]

/-- If the kernel vanishes on the lags left out, the full rectangle rule is solved. -/
theorem C24_rect_short_kernel_partial {m : IdeModel K b} {G0 : Mat K b b} {T : ℕ} {trunc : Option ℤ}
    {r : (ℕ → K) × (ℕ → Mat K b b)} (hdt : m.dt ≠ 0)
    (h : evolveVolterra garbage m G0 T "rect" trunc = .ok r) (i : ℕ) (h1 : 1 ≤ i) (h2 : i < T)
    (hker : ∀ j, max 1 (min i (m.trunc trunc - 1) - 1) ≤ j → j < min i (m.trunc trunc) → m.kernel j = 0) :
    discreteDeriv m.dt r.2 i = r.2 (i - 1) * m.forceCoeff -
        Spec.rectRule m.dt (fun s => r.2 (i - s) * m.kernel s) (min i (m.trunc trunc)) := by
  obtain ⟨-, -, hstep⟩ := C24_rect_partial hdt h
  obtain ⟨hpos, -⟩ := evolve_rect_ok h
  rw [hstep i h1 h2]
  congr 1
  unfold Spec.rectRule
  refine sum_subset (fun j hj => ?_) (fun j hj hj' => ?_)
  · have := mem_range.1 hj; exact mem_range.2 (by omega)
  · beta_reduce
    rw [hker j (by have := mt mem_range.2 hj'; omega) (mem_range.1 hj)]; simp

/-- `evolve_volterra` with `rect` or `trapz` runs whenever there is a kernel, at least one time step is
asked for, and the implicit matrix is invertible. -/
theorem C24_defined {m : IdeModel K b} (G0 : Mat K b b) {T : ℕ} {trunc : Option ℤ}
    (hL : m.trunc trunc ≠ 0) (hT : T ≠ 0) :
    ((1 + m.dt ^ 2 • m.kernel 0).det ≠ 0 → ∃ r, evolveVolterra garbage m G0 T "rect" trunc = .ok r) ∧
    ((1 + ((1 / 2 : K) * m.dt ^ 2) • m.kernel 0).det ≠ 0 →
      ∃ r, evolveVolterra garbage m G0 T "trapz" trunc = .ok r) := by
  constructor
  · intro hdet
    obtain ⟨E, hE⟩ := FKernel.solveIdeRect_of_det (M := m.trunc trunc - 1) G0 m.forceCoeff hT hdet
    unfold evolveVolterra
    simp only [hL, if_false, bind, Except.bind, pure, Except.pure, if_true, hE]
    exact ⟨_, rfl⟩
  · intro hdet
    obtain ⟨E, hE⟩ := FKernel.solveIdeTrapz_of_det (M := m.trunc trunc - 1) G0 m.forceCoeff hT hdet
    unfold evolveVolterra
    simp only [hL, if_false, bind, Except.bind, pure, Except.pure, if_true, hE,
      show ("trapz" = "rect") = False by decide]
    exact ⟨_, rfl⟩

example : ∃ r, evolveVolterra exGarbage exIde !![1, 0; 0, 1] 4 "rect" none = .ok r ∧
    exIde.trunc none = 3 ∧ r.2 3 0 0 = 68 / 125 :=
  ⟨_, eq_getOk (by decide +kernel) dfltIde, by decide +kernel, by decide +kernel⟩

/-- The evolution with the full rectangle rule is not what is computed: a lag is left out. -/
theorem C24_rect_fails : ∃ (m : IdeModel ℚ 2) (G0 : Mat ℚ 2 2) (r : (ℕ → ℚ) × (ℕ → Mat ℚ 2 2)) (i : ℕ),
    m.dt ≠ 0 ∧ evolveVolterra exGarbage m G0 4 "rect" none = .ok r ∧ 1 ≤ i ∧ i < 4 ∧
    discreteDeriv m.dt r.2 i ≠ r.2 (i - 1) * m.forceCoeff -
        Spec.rectRule m.dt (fun s => r.2 (i - s) * m.kernel s) (min i (m.trunc none)) := by
  refine ⟨exIde, 1, _, 2, by decide +kernel, eq_getOk (by decide +kernel) dfltIde, by decide, by decide, ?_⟩
  intro h
  have := congrFun (congrFun h 0) 0
  revert this
  decide +kernel

/-! ### C25: trapz -/

/-- **C25.** What `evolve_volterra(method="trapz")` solves, with at least two kernel points: the
trapezoidal rule over the window *without* its end point. *Missing*: the end point term
`dt/2 G(i-n) K(n)`, `n = min(i, L-1)`; see `C25_trapz_fails`. -/
theorem C25_trapz_partial [CharZero K] {m : IdeModel K b} {G0 : Mat K b b} {T : ℕ} {trunc : Option ℤ}
    {r : (ℕ → K) × (ℕ → Mat K b b)} (hdt : m.dt ≠ 0) (hL : 2 ≤ m.trunc trunc)
    (h : evolveVolterra garbage m G0 T "trapz" trunc = .ok r) :
    (∀ i, r.1 i = i * m.dt) ∧ r.2 0 = G0 ∧ ∀ i, 1 ≤ i → i < T →
      discreteDeriv m.dt r.2 i = r.2 (i - 1) * m.forceCoeff -
        (Spec.trapzRule m.dt (fun s => r.2 (i - s) * m.kernel s) (min i (m.trunc trunc - 1)) -
          (m.dt / 2) • (r.2 (i - min i (m.trunc trunc - 1)) * m.kernel (min i (m.trunc trunc - 1)))) := by
  obtain ⟨-, ht, hs⟩ := evolve_trapz_ok h
  obtain ⟨h0, -, hstep⟩ := FKernel.solveIdeTrapz_ok hs
  refine ⟨fun i => by rw [ht], h0, fun i h1 h2 => ?_⟩
  rw [discreteDeriv_of_step hdt (hstep i h1 h2)]
  congr 1
  rw [trapzRule_eq _ _ (by omega)]
  rw [Nat.sub_zero, one_div, inv_mul_eq_div]
  module

/-- If the end point term vanishes the trapezoidal equation holds. -/
theorem C25_trapz_end_partial [CharZero K] {m : IdeModel K b} {G0 : Mat K b b} {T : ℕ} {trunc : Option ℤ}
    {r : (ℕ → K) × (ℕ → Mat K b b)} (hdt : m.dt ≠ 0) (hL : 2 ≤ m.trunc trunc)
    (h : evolveVolterra garbage m G0 T "trapz" trunc = .ok r) (i : ℕ) (h1 : 1 ≤ i) (h2 : i < T)
    (hend : r.2 (i - min i (m.trunc trunc - 1)) * m.kernel (min i (m.trunc trunc - 1)) = 0) :
    discreteDeriv m.dt r.2 i = r.2 (i - 1) * m.forceCoeff -
        Spec.trapzRule m.dt (fun s => r.2 (i - s) * m.kernel s) (min i (m.trunc trunc - 1)) := by
  rw [(C25_trapz_partial hdt hL h).2.2 i h1 h2, hend, smul_zero, sub_zero]

example : ∃ r, evolveVolterra exGarbage exIde !![1, 0; 0, 1] 4 "trapz" none = .ok r ∧
    2 ≤ exIde.trunc none ∧ r.2 3 0 0 = 346 / 729 :=
  ⟨_, eq_getOk (by decide +kernel) dfltIde, by decide +kernel, by decide +kernel⟩

/-- The full statement of C25 is false: the end point of the trapezoidal rule is left out. -/
theorem C25_trapz_fails : ∃ (m : IdeModel ℚ 2) (G0 : Mat ℚ 2 2) (r : (ℕ → ℚ) × (ℕ → Mat ℚ 2 2)) (i : ℕ),
    m.dt ≠ 0 ∧ evolveVolterra exGarbage m G0 4 "trapz" none = .ok r ∧ 1 ≤ i ∧ i < 4 ∧
    discreteDeriv m.dt r.2 i ≠ r.2 (i - 1) * m.forceCoeff -
        Spec.trapzRule m.dt (fun s => r.2 (i - s) * m.kernel s) (min i (m.trunc none - 1)) := by
  refine ⟨exIde, 1, _, 2, by decide +kernel, eq_getOk (by decide +kernel) dfltIde, by decide, by decide, ?_⟩
  intro h
  have := congrFun (congrFun h 0) 0
  revert this
  decide +kernel

/-! ### C26: trapz_stab -/

/-- **C26.** Every step after the first of `trapz_stab` has non-negative entries, and the sum of all
its entries is one (unless all the entries were clipped, in which case the code divides zero by zero
and the model has zeros). This holds whatever the out-of-bounds slice reads. *Missing*: each row
summing to one, which is false for two or more rows, see `C26_rows_fail`. -/
theorem C26_stab_partial [IsStrictOrderedRing K] {m : IdeModel K b} {G0 : Mat K b b} {T : ℕ}
    {trunc : Option ℤ} {r : (ℕ → K) × (ℕ → Mat K b b)}
    (h : evolveVolterra garbage m G0 T "trapz_stab" trunc = .ok r) (i : ℕ) (h1 : 1 ≤ i) (h2 : i < T) :
    (∀ k l, 0 ≤ r.2 i k l) ∧ (r.2 i ≠ 0 → ∑ k, ∑ l, r.2 i k l = 1) := by
  obtain ⟨-, hst⟩ := FKernel.solveIdeTrapzStab_ok (evolve_stab_ok h)
  obtain ⟨D, hD⟩ := hst i h1 h2
  constructor
  · intro k l
    rw [hD]
    exact div_nonneg (le_max_right _ _) (sum_nonneg fun _ _ => sum_nonneg fun _ _ => le_max_right _ _)
  · intro hne
    have hs : ∑ k', ∑ l', max (D k' l') 0 ≠ 0 := by
      intro hs
      apply hne
      ext k l
      rw [hD, hs, div_zero]; rfl
    simp only [hD]
    simp only [← Finset.sum_div]
    exact div_self hs

/-- With two or more rows (initial conditions) it is impossible that every row sums to one, at any
step after the first. -/
theorem C26_rows_fail [IsStrictOrderedRing K] {m : IdeModel K b} {G0 : Mat K b b} {T : ℕ} {trunc : Option ℤ}
    {r : (ℕ → K) × (ℕ → Mat K b b)} (hb : 2 ≤ b)
    (h : evolveVolterra garbage m G0 T "trapz_stab" trunc = .ok r) (i : ℕ) (h1 : 1 ≤ i) (h2 : i < T) :
    ¬ ∀ k, ∑ l, r.2 i k l = 1 := by
  intro hrow
  have hne : r.2 i ≠ 0 := by
    intro hz
    have := hrow ⟨0, by omega⟩
    rw [hz] at this
    simp at this
  have := (C26_stab_partial h i h1 h2).2 hne
  simp only [hrow, sum_const, card_univ, Fintype.card_fin, nsmul_eq_mul, mul_one] at this
  have : (b : K) = (1 : ℕ) := by simpa using this
  have := Nat.cast_injective this
  omega

example : ∃ r, evolveVolterra exGarbage exIde !![1, 0; 0, 1] 3 "trapz_stab" none = .ok r ∧
    r.2 2 0 1 = 25 / 162 :=
  ⟨_, eq_getOk (by decide +kernel) dfltIde, by decide +kernel⟩

/-! ### C27: conservation of probability -/

omit [DecidableEq K] [LinearOrder K] in
theorem rowsum_iff {n : ℕ} (A : Mat K n b) (v : Fin n → K) :
    Matrix.mulVec A 1 = v ↔ ∀ k, ∑ l, A k l = v k := by
  constructor
  · intro h k
    have := congrFun h k
    simpa [Matrix.mulVec, dotProduct] using this
  · intro h
    funext k
    simpa [Matrix.mulVec, dotProduct] using h k

/-- **C27.** If the rows of `force_coeff` and of all the kernel slices sum to zero, every row sum of
the evolution is constant, for the methods `rect` and `trapz`. -/
theorem C27_conservation {m : IdeModel K b} {G0 : Mat K b b} {T : ℕ} {trunc : Option ℤ}
    {r : (ℕ → K) × (ℕ → Mat K b b)} {method : String} (hm : method = "rect" ∨ method = "trapz")
    (hF : ∀ k, ∑ l, m.forceCoeff k l = 0) (hker : ∀ j < m.kernelLen, ∀ k, ∑ l, m.kernel j k l = 0)
    (h : evolveVolterra garbage m G0 T method trunc = .ok r) :
    ∀ i < T, ∀ k, ∑ l, r.2 i k l = ∑ l, G0 k l := by
  have hlen : m.trunc trunc ≤ m.kernelLen := by
    unfold IdeModel.trunc
    cases trunc with
    | none => exact le_rfl
    | some t => dsimp only; split_ifs <;> omega
  have hF' : Matrix.mulVec m.forceCoeff 1 = 0 := (rowsum_iff _ _).2 hF
  have hk' : ∀ j < m.kernelLen, Matrix.mulVec (m.kernel j) 1 = 0 := fun j hj => (rowsum_iff _ _).2 (hker j hj)
  have key : ∀ i < T, Matrix.mulVec (r.2 i) 1 = Matrix.mulVec G0 1 := by
    rcases hm with rfl | rfl
    · obtain ⟨hpos, -, hs⟩ := evolve_rect_ok h
      obtain ⟨h0, -, hstep⟩ := FKernel.solveIdeRect_ok hs
      intro i
      induction i with
      | zero => intro _; rw [h0]
      | succ i ih =>
        intro hi
        rw [ide_conserve (hstep (i + 1) (by omega) hi) ?_ hF' ?_]
        · exact ih (by omega)
        · rw [Matrix.add_mulVec, Matrix.smul_mulVec, hk' 0 (by omega), Matrix.one_mulVec]; simp
        · intro j hj; exact hk' j (by omega)
    · obtain ⟨hpos, -, hs⟩ := evolve_trapz_ok h
      obtain ⟨h0, -, hstep⟩ := FKernel.solveIdeTrapz_ok hs
      intro i
      induction i with
      | zero => intro _; rw [h0]
      | succ i ih =>
        intro hi
        rw [ide_conserve (hstep (i + 1) (by omega) hi) ?_ hF' ?_]
        · exact ih (by omega)
        · rw [Matrix.add_mulVec, Matrix.smul_mulVec, hk' 0 (by omega), Matrix.one_mulVec]; simp
        · intro j hj; exact hk' j (by omega)
  intro i hi k
  have := congrFun (key i hi) k
  simpa [Matrix.mulVec, dotProduct] using this

example : (∀ k, ∑ l, exIde.forceCoeff k l = 0) ∧ (∀ j < exIde.kernelLen, ∀ k, ∑ l, exIde.kernel j k l = 0) ∧
    ∃ r, evolveVolterra exGarbage exIde !![1, 2; 0, 1] 4 "trapz" none = .ok r ∧ r.2 3 0 0 ≠ r.2 0 0 0 ∧
      r.2 3 0 0 + r.2 3 0 1 = 3 :=
  ⟨by decide +kernel, by decide +kernel, _, eq_getOk (by decide +kernel) dfltIde, by decide +kernel,
    by decide +kernel⟩

/-! ### C28: linearity -/

/-- **C28.** The evolution (`rect`, `trapz`) of `a G0 + G0'` is `a` times the evolution of `G0` plus
the evolution of `G0'`. -/
theorem C28_linear {m : IdeModel K b} {G0 G0' : Mat K b b} {T : ℕ} {trunc : Option ℤ} (a : K)
    {r r' s : (ℕ → K) × (ℕ → Mat K b b)} {method : String} (hm : method = "rect" ∨ method = "trapz")
    (h : evolveVolterra garbage m G0 T method trunc = .ok r)
    (h' : evolveVolterra garbage m G0' T method trunc = .ok r')
    (hs : evolveVolterra garbage m (a • G0 + G0') T method trunc = .ok s) :
    ∀ i < T, s.2 i = a • r.2 i + r'.2 i := by
  rcases hm with rfl | rfl
  · obtain ⟨h0, -, e⟩ := FKernel.solveIdeRect_ok (evolve_rect_ok h).2.2
    obtain ⟨h0', -, e'⟩ := FKernel.solveIdeRect_ok (evolve_rect_ok h').2.2
    obtain ⟨h0s, ⟨_, hinv⟩, es⟩ := FKernel.solveIdeRect_ok (evolve_rect_ok hs).2.2
    exact ide_unique hinv (E' := fun i => a • r.2 i + r'.2 i) (by simp only [h0, h0', h0s]) es
      fun i h1 h2 => ide_linear a (e i h1 h2) (e' i h1 h2)
  · obtain ⟨h0, -, e⟩ := FKernel.solveIdeTrapz_ok (evolve_trapz_ok h).2.2
    obtain ⟨h0', -, e'⟩ := FKernel.solveIdeTrapz_ok (evolve_trapz_ok h').2.2
    obtain ⟨h0s, ⟨_, hinv⟩, es⟩ := FKernel.solveIdeTrapz_ok (evolve_trapz_ok hs).2.2
    exact ide_unique hinv (E' := fun i => a • r.2 i + r'.2 i) (by simp only [h0, h0', h0s]) es
      fun i h1 h2 => ide_linear a (e i h1 h2) (e' i h1 h2)

/-- Success does not depend on the initial condition, so the third run of C28 succeeds as well. -/
theorem C28_succeeds {m : IdeModel K b} {G0 : Mat K b b} {T : ℕ} {trunc : Option ℤ}
    {r : (ℕ → K) × (ℕ → Mat K b b)} {method : String} (hm : method = "rect" ∨ method = "trapz")
    (h : evolveVolterra garbage m G0 T method trunc = .ok r) (G0' : Mat K b b) :
    ∃ r', evolveVolterra garbage m G0' T method trunc = .ok r' := by
  rcases hm with rfl | rfl
  · obtain ⟨hpos, -, hs⟩ := evolve_rect_ok h
    unfold FKernel.solveIdeRect at hs
    unfold evolveVolterra FKernel.solveIdeRect
    simp only [bind, Except.bind, pure, Except.pure, throw, throwThe, MonadExceptOf.throw, if_true] at hs ⊢
    have hp : m.trunc trunc ≠ 0 := by omega
    by_cases hT : T = 0
    · simp [hT] at hs
    cases e : lapackInv (1 + m.dt ^ 2 • m.kernel 0) with
    | error e' => simp only [hT, if_false] at hs; rw [e] at hs; cases hs
    | ok inv =>
      simp only [hp, hT, if_false]
      exact ⟨_, rfl⟩
  · obtain ⟨hpos, -, hs⟩ := evolve_trapz_ok h
    unfold FKernel.solveIdeTrapz at hs
    unfold evolveVolterra FKernel.solveIdeTrapz
    simp only [bind, Except.bind, pure, Except.pure, throw, throwThe, MonadExceptOf.throw, if_true,
      show ("trapz" = "rect") = False by decide, if_false] at hs ⊢
    have hp : m.trunc trunc ≠ 0 := by omega
    by_cases hT : T = 0
    · simp [hT] at hs
    cases e : lapackInv (1 + ((1 / 2 : K) * m.dt ^ 2) • m.kernel 0) with
    | error e' => simp only [hT, if_false] at hs; rw [e] at hs; cases hs
    | ok inv =>
      simp only [hp, hT, if_false]
      exact ⟨_, rfl⟩

example : ∃ r r' s, evolveVolterra exGarbage exIde !![1, 0; 0, 1] 4 "rect" none = .ok r ∧
    evolveVolterra exGarbage exIde !![0, 1; 0, 1] 4 "rect" none = .ok r' ∧
    evolveVolterra exGarbage exIde ((3 : ℚ) • !![1, 0; 0, 1] + !![0, 1; 0, 1]) 4 "rect" none = .ok s ∧
    s.2 3 0 0 ≠ r.2 3 0 0 :=
  ⟨_, _, _, eq_getOk (by decide +kernel) dfltIde, eq_getOk (by decide +kernel) dfltIde,
    eq_getOk (by decide +kernel) dfltIde, by decide +kernel⟩

/-! ### C29: Euler -/

/-- **C29.** With a zero kernel the evolution (`rect`, `trapz`) is `G0 (1 + dt F)^i`. -/
theorem C29_euler {m : IdeModel K b} {G0 : Mat K b b} {T : ℕ} {trunc : Option ℤ}
    {r : (ℕ → K) × (ℕ → Mat K b b)} {method : String} (hm : method = "rect" ∨ method = "trapz")
    (hker : ∀ j < m.kernelLen, m.kernel j = 0)
    (h : evolveVolterra garbage m G0 T method trunc = .ok r) :
    ∀ i < T, r.2 i = G0 * (1 + m.dt • m.forceCoeff) ^ i := by
  have hlen : m.trunc trunc ≤ m.kernelLen := by
    unfold IdeModel.trunc
    cases trunc with
    | none => exact le_rfl
    | some t => dsimp only; split_ifs <;> omega
  have key : ∀ (n : ℕ → ℕ) (c : K), (∀ i, n i ≤ m.kernelLen) → 0 < m.kernelLen → r.2 0 = G0 →
      (∀ i, 1 ≤ i → i < T → IdeStep n (1 + c • m.kernel 0) m.kernel m.forceCoeff m.dt r.2 i) →
      ∀ i < T, r.2 i = G0 * (1 + m.dt • m.forceCoeff) ^ i := by
    intro n c hn hpos h0 hstep i
    induction i with
    | zero => intro _; simp [h0]
    | succ i ih =>
      intro hi
      have e := hstep (i + 1) (by omega) hi
      unfold IdeStep at e
      rw [hker 0 hpos, smul_zero, add_zero, Matrix.mul_one, sum_eq_zero, smul_zero, sub_zero,
        Nat.add_sub_cancel, ih (by omega)] at e
      · rw [e, pow_succ, ← Matrix.mul_assoc, Matrix.mul_add, Matrix.mul_one, Matrix.mul_smul]
      · intro j hj
        have := (mem_Ico.1 hj).2
        rw [hker j (by have := hn (i + 1); omega), Matrix.mul_zero, smul_zero]
  rcases hm with rfl | rfl
  · obtain ⟨hpos, -, hs⟩ := evolve_rect_ok h
    obtain ⟨h0, -, e⟩ := FKernel.solveIdeRect_ok hs
    exact key _ _ (fun i => by omega) (by omega) h0 e
  · obtain ⟨hpos, -, hs⟩ := evolve_trapz_ok h
    obtain ⟨h0, -, e⟩ := FKernel.solveIdeTrapz_ok hs
    exact key _ _ (fun i => by omega) (by omega) h0 e

example : ∃ r, evolveVolterra exGarbage { exIde with kernel := 0 } !![1, 0; 0, 1] 4 "rect" none = .ok r ∧
    r.2 3 0 0 = 5 / 8 :=
  ⟨_, eq_getOk (by decide +kernel) dfltIde, by decide +kernel⟩

/-! ### C30: flux -/

/-- **C30.** What holds: for `trapz` with all kernel points (at least two) and a *symmetric*
`force_coeff`, the time derivative of the evolution at step `i` is the force flux at index `i-1` plus
the memory flux at index `i+1`. *Missing*: non-symmetric coefficients (the code multiplies with the
transpose), equal indices, and the method `rect`; see `C30_fails`. -/
theorem C30_flux_partial {m : IdeModel K b} {G0 : Mat K b b} {T : ℕ}
    {r : (ℕ → K) × (ℕ → Mat K b b)} (hdt : m.dt ≠ 0)
    (hF : m.forceCoeff.transpose = m.forceCoeff)
    (h : evolveVolterra garbage m G0 T "trapz" none = .ok r) (i : ℕ) (h1 : 1 ≤ i) (h2 : i + 1 < T) :
    discreteDeriv m.dt r.2 i = (fluxFromVolterra m r.2 T "trapz").1 (i - 1) +
      (fluxFromVolterra m r.2 T "trapz").2 (i + 1) := by
  obtain ⟨hpos, -, hs⟩ := evolve_trapz_ok h
  obtain ⟨h0, -, hstep⟩ := FKernel.solveIdeTrapz_ok hs
  change 0 < m.kernelLen at hpos
  rw [discreteDeriv_of_step hdt (hstep i h1 (by omega)), sub_eq_add_neg]
  congr 1
  · ext k l
    simp only [fluxFromVolterra, Matrix.of_apply, Matrix.mul_apply]
    refine sum_congr rfl fun j _ => ?_
    rw [mul_comm]
    congr 1
    have := congrFun (congrFun hF j) l
    rw [← this]; rfl
  · simp only [fluxFromVolterra, show ("trapz" = "rect") = False by decide, if_false, if_true]
    rw [if_pos ⟨by omega, h2⟩, FKernel.trapzIntegral_eq]
    have e1 : min (i + 1) m.kernelLen - 1 = min i (m.kernelLen - 1) := by omega
    have e2 : i + 1 - min (i + 1) m.kernelLen = i - min i (m.kernelLen - 1) := by omega
    rw [e1, e2]
    congr 1
    rw [show i - min i (m.kernelLen - 1) + min i (m.kernelLen - 1) = i by omega, one_div, inv_mul_eq_div]
    congr 1
    refine sum_congr rfl fun j hj => ?_
    have := (mem_Ico.1 hj).2
    change j < min i (m.kernelLen - 1) at this
    rw [show i - min i (m.kernelLen - 1) + (min i (m.kernelLen - 1) - j) = i - j by omega]

omit [DecidableEq K] [LinearOrder K] in
/-- The force flux is the product with the transposed coefficients. -/
theorem C30_force_transposed (m : IdeModel K b) (G : ℕ → Mat K b b) (T : ℕ) (method : String) (t : ℕ) :
    (fluxFromVolterra m G T method).1 t = G t * m.forceCoeff.transpose := by
  ext k l
  simp only [fluxFromVolterra, Matrix.of_apply, Matrix.mul_apply, Matrix.transpose_apply]
  exact sum_congr rfl fun j _ => mul_comm _ _

/-- The full statement is false: even without memory, the two terms do not add up to the time
derivative, be it the derivative to the left or to the right of the step. -/
theorem C30_fails : ∃ (m : IdeModel ℚ 2) (G0 : Mat ℚ 2 2) (r : (ℕ → ℚ) × (ℕ → Mat ℚ 2 2)),
    m.dt ≠ 0 ∧ (∀ j, m.kernel j = 0) ∧ evolveVolterra exGarbage m G0 4 "trapz" none = .ok r ∧
    ∀ i ∈ [1, 2], ∀ j ∈ [i, i + 1], discreteDeriv m.dt r.2 j ≠ (fluxFromVolterra m r.2 4 "trapz").1 i +
      (fluxFromVolterra m r.2 4 "trapz").2 i := by
  refine ⟨{ exIde with kernel := 0 }, 1, _, by decide +kernel, fun _ => rfl,
    eq_getOk (by decide +kernel) dfltIde, ?_⟩
  intro i hi j hj h
  have := congrFun (congrFun h 0) 1
  revert this
  simp only [List.mem_cons, List.not_mem_nil, or_false] at hi
  rcases hi with rfl | rfl <;> simp only [List.mem_cons, List.not_mem_nil, or_false] at hj <;>
    rcases hj with rfl | rfl <;> decide +kernel

example : ∃ r, evolveVolterra exGarbage { exIde with forceCoeff := !![-1, 1; 1, -1] } 1 4 "trapz" none = .ok r ∧
    r.2 2 0 0 ≠ 1 ∧ (!![-1, 1; 1, -1] : Mat ℚ 2 2).transpose = !![-1, 1; 1, -1] :=
  ⟨_, eq_getOk (by decide +kernel) dfltIde, by decide +kernel, by decide +kernel⟩

end

end Verif
