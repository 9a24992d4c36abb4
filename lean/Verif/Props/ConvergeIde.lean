import Verif.Lemmas.ConvergeIde
import Verif.Props.Ide
import Mathlib.Analysis.SpecialFunctions.ExpDeriv

/-!
# `evolve_volterra` compared with the continuous equation: C130, C131
-/

namespace Verif

open Finset Set
open scoped Matrix.Norms.Operator

variable {b : ℕ}

/-- The model, the kernel of which is used up to `L` points, and the initial value are those of the continuous equation,
up to `ε`, for `N` times. -/
structure NearEvolution (m : IdeModel ℝ b) (L N : ℕ) (G0 : Mat ℝ b b) (ε : ℝ) (F : Mat ℝ b b) (k : ℝ → Mat ℝ b b)
    (E0 : Mat ℝ b b) : Prop where
  force : ∀ i j, |m.forceCoeff i j - F i j| ≤ ε
  kernel : ∀ n < L, n < N → ∀ i j, |m.kernel n i j - k (n * m.dt) i j| ≤ ε
  initial : ∀ i j, |G0 i j - E0 i j| ≤ ε

theorem evolution_error {T : ℝ} {F : Mat ℝ b b} {k E : ℝ → Mat ℝ b b} (hk : Spec.Lip T k) (hE : Spec.Evolution T F k E) :
    ∃ C δ : ℝ, 0 < δ ∧ ∀ (m : IdeModel ℝ b) (G0 : Mat ℝ b b) (N L : ℕ) (c ε : ℝ) (n : ℕ → ℕ) (G : ℕ → Mat ℝ b b),
      0 < m.dt → m.dt ≤ δ → 0 ≤ ε → ε ≤ δ → 0 ≤ c → c ≤ 1 → 1 ≤ N → ((N - 1 : ℕ) : ℝ) * m.dt ≤ T → 1 ≤ L →
      (∀ t ≤ ((N - 1 : ℕ) : ℝ) * m.dt, ((L - 1 : ℕ) : ℝ) * m.dt < t → k t = 0) → NearEvolution m L N G0 ε F k (E 0) →
      (∀ i, 1 ≤ i → n i ≤ min i (L - 1) ∧ min i (L - 1) ≤ n i + 1) →
      (1 + (c * m.dt ^ 2) • m.kernel 0).det ≠ 0 ∧
      (G 0 = G0 → (∀ i, 1 ≤ i → i < N → IdeStep n (1 + (c * m.dt ^ 2) • m.kernel 0) m.kernel m.forceCoeff m.dt G i) →
        ∀ t < N, ∀ i j, |G t i j - E (t * m.dt) i j| ≤ C * (m.dt + ε)) := by
  obtain ⟨C, δ, hδ, H⟩ := ide_error hE hk
  refine ⟨|C| * (1 + b), min δ (1 / (1 + b)), by positivity, ?_⟩
  intro m G0 N L c ε n G hh hhδ hε hεδ hc hc1 hN hNT hL hz near hn
  have hbε : b * ε ≤ 1 := by
    have := hεδ.trans (min_le_right _ _)
    rw [le_div_iff₀ (by positivity)] at this
    nlinarith
  have hn' : ∀ i, 1 ≤ i → i < N → n i ≤ i ∧ n i ≤ L ∧ ∀ j, n i + 2 ≤ j → j < i → k (j * m.dt) = 0 := by
    intro i hi1 hi2
    obtain ⟨g1, g2⟩ := hn i hi1
    refine ⟨by omega, by omega, fun j hj1 hj2 => hz _ ?_ ?_⟩
    · have : (j : ℝ) ≤ (N - 1 : ℕ) := by exact_mod_cast (by omega : j ≤ N - 1)
      exact mul_le_mul_of_nonneg_right this hh.le
    · have : ((L - 1 : ℕ) : ℝ) < j := by exact_mod_cast (by omega : L - 1 < j)
      exact mul_lt_mul_of_pos_right this hh
  have H' := fun G h0 => H m.dt c (b * ε) N L n m.forceCoeff m.kernel G hh (hhδ.trans (min_le_left _ _)) hc hc1
    (by positivity) hbε hN hNT hL hn' (norm_le_of_entries hε fun i j => near.force i j)
    (fun j g1 g2 => norm_le_of_entries hε fun p q => near.kernel j g1 g2 p q) h0
  refine ⟨(H' (fun _ => E 0) (by rw [sub_self, norm_zero]; positivity)).1, fun h0 hs t ht i j => ?_⟩
  have h1 := (H' G (by rw [h0]; exact norm_le_of_entries hε fun i j => near.initial i j)).2 hs t ht
  refine (entry_le_norm (G t - E (t * m.dt)) i j).trans (h1.trans ?_)
  have hb : (0 : ℝ) ≤ b := by positivity
  calc C * (m.dt + b * ε) ≤ |C| * (m.dt + b * ε) := by gcongr; exact le_abs_self C
    _ ≤ |C| * (m.dt + b * ε + (b * m.dt + ε)) := by
        refine mul_le_mul_of_nonneg_left (le_add_of_nonneg_right ?_) (abs_nonneg C)
        positivity
    _ = _ := by ring

/-- **C130.** `evolve_volterra(method="rect")` converges with first order to the solution of
`E'(t) = E(t) F - ∫_0^t E(t-s) k(s) ds`, if the memory vanishes beyond the kernel points that are used (`trunc_ind`), for
coefficients and initial values known up to `ε`. -/
theorem C130_evolve_rect_converges {T : ℝ} {F : Mat ℝ b b} {k E : ℝ → Mat ℝ b b} (hk : Spec.Lip T k)
    (hE : Spec.Evolution T F k E) :
    ∃ C δ : ℝ, 0 < δ ∧ ∀ (garbage : ℕ → (ℕ → Mat ℝ b b) → Mat ℝ b b) (m : IdeModel ℝ b) (G0 : Mat ℝ b b) (N : ℕ)
      (trunc : Option ℤ) (ε : ℝ), 0 < m.dt → m.dt ≤ δ → 0 ≤ ε → ε ≤ δ → 1 ≤ N → ((N - 1 : ℕ) : ℝ) * m.dt ≤ T →
      1 ≤ m.trunc trunc → (∀ t ≤ ((N - 1 : ℕ) : ℝ) * m.dt, ((m.trunc trunc - 1 : ℕ) : ℝ) * m.dt < t → k t = 0) →
      NearEvolution m (m.trunc trunc) N G0 ε F k (E 0) →
      ∃ r, evolveVolterra garbage m G0 N "rect" trunc = .ok r ∧
        ∀ t < N, r.1 t = t * m.dt ∧ ∀ i j, |r.2 t i j - E (t * m.dt) i j| ≤ C * (m.dt + ε) := by
  obtain ⟨C, δ, hδ, H⟩ := evolution_error hk hE
  refine ⟨C, δ, hδ, fun garbage m G0 N trunc ε h1 h2 h3 h4 h5 h6 h7 h8 h9 => ?_⟩
  have H' := fun G => H m G0 N (m.trunc trunc) 1 ε (fun i => min i (m.trunc trunc - 1) - 1) G h1 h2 h3 h4 zero_le_one le_rfl
    h5 h6 h7 h8 h9 (fun i hi => by constructor <;> omega)
  simp only [one_mul] at H'
  obtain ⟨r, hr⟩ := (C24_defined (garbage := garbage) G0 (Nat.one_le_iff_ne_zero.1 h7) (by omega : N ≠ 0)).1 (H' 0).1
  obtain ⟨-, ht, hs⟩ := evolve_rect_ok hr
  obtain ⟨h0, -, hstep⟩ := FKernel.solveIdeRect_ok hs
  exact ⟨r, hr, fun t htN => ⟨by rw [ht], (H' r.2).2 h0 hstep t htN⟩⟩

/-- **C131**, the part that holds: `evolve_volterra(method="trapz")` converges with first order. *Missing*: second order,
see `C131_second_order_fails`. -/
theorem C131_evolve_trapz_partial {T : ℝ} {F : Mat ℝ b b} {k E : ℝ → Mat ℝ b b} (hk : Spec.Lip T k)
    (hE : Spec.Evolution T F k E) :
    ∃ C δ : ℝ, 0 < δ ∧ ∀ (garbage : ℕ → (ℕ → Mat ℝ b b) → Mat ℝ b b) (m : IdeModel ℝ b) (G0 : Mat ℝ b b) (N : ℕ)
      (trunc : Option ℤ) (ε : ℝ), 0 < m.dt → m.dt ≤ δ → 0 ≤ ε → ε ≤ δ → 1 ≤ N → ((N - 1 : ℕ) : ℝ) * m.dt ≤ T →
      1 ≤ m.trunc trunc → (∀ t ≤ ((N - 1 : ℕ) : ℝ) * m.dt, ((m.trunc trunc - 1 : ℕ) : ℝ) * m.dt < t → k t = 0) →
      NearEvolution m (m.trunc trunc) N G0 ε F k (E 0) →
      ∃ r, evolveVolterra garbage m G0 N "trapz" trunc = .ok r ∧
        ∀ t < N, r.1 t = t * m.dt ∧ ∀ i j, |r.2 t i j - E (t * m.dt) i j| ≤ C * (m.dt + ε) := by
  obtain ⟨C, δ, hδ, H⟩ := evolution_error hk hE
  refine ⟨C, δ, hδ, fun garbage m G0 N trunc ε h1 h2 h3 h4 h5 h6 h7 h8 h9 => ?_⟩
  have H' := fun G => H m G0 N (m.trunc trunc) (1 / 2) ε (fun i => min i (m.trunc trunc - 1)) G h1 h2 h3 h4 (by norm_num)
    (by norm_num) h5 h6 h7 h8 h9 (fun i hi => by constructor <;> omega)
  obtain ⟨r, hr⟩ := (C24_defined (garbage := garbage) G0 (Nat.one_le_iff_ne_zero.1 h7) (by omega : N ≠ 0)).2 (H' 0).1
  obtain ⟨-, ht, hs⟩ := evolve_trapz_ok hr
  obtain ⟨h0, -, hstep⟩ := FKernel.solveIdeTrapz_ok hs
  exact ⟨r, hr, fun t htN => ⟨by rw [ht], (H' r.2).2 h0 hstep t htN⟩⟩

/-! ### Examples: `E' = -∫ E`, that is `E = cos`; and `E' = E` without memory -/

def exEvolK : ℝ → Mat ℝ 1 1 := fun _ => !![1]
noncomputable def exEvolE : ℝ → Mat ℝ 1 1 := fun t => !![Real.cos t]

theorem exEvol (T : ℝ) : Spec.Evolution T 0 exEvolK exEvolE := by
  intro t _ i j
  fin_cases i; fin_cases j
  have : ∫ s in (0 : ℝ)..t, Real.cos (t - s) = Real.sin t := by
    rw [intervalIntegral.integral_comp_sub_left (f := Real.cos), integral_cos]; simp
  simpa [exEvolE, exEvolK, Matrix.mul_apply, this] using (Real.hasDerivAt_cos t).hasDerivWithinAt

/-- A model with `N` points of the kernel, wrong by `ε`. -/
noncomputable def exEvolModel (N : ℕ) (dt ε : ℝ) : IdeModel ℝ 1 :=
  { forceCoeff := !![ε], kernelLen := N, kernel := fun n => !![1 + (-1) ^ n * ε], dt := dt }

example : ∃ C δ : ℝ, 0 < δ ∧ ∀ dt : ℝ, 0 < dt → dt ≤ δ → dt ≤ 1 / 7 →
    ∃ r, evolveVolterra (fun _ _ => 0) (exEvolModel 8 dt dt) !![1] 8 "rect" none = .ok r ∧
      ∀ t < 8, |r.2 t 0 0 - Real.cos (t * dt)| ≤ C * (dt + dt) := by
  obtain ⟨C, δ, hδ, H⟩ := C130_evolve_rect_converges (k := exEvolK) ⟨0, by simp [exEvolK]⟩ (exEvol 1)
  refine ⟨C, δ, hδ, fun dt h1 h2 h3 => ?_⟩
  obtain ⟨r, hr, h⟩ := H (fun _ _ => 0) (exEvolModel 8 dt dt) !![1] 8 none dt h1 h2 h1.le h2 (by norm_num)
    (by simp only [exEvolModel]; norm_num; linarith) (by simp [IdeModel.trunc, exEvolModel])
    (by
      intro t ht hlt
      simp only [IdeModel.trunc, exEvolModel] at ht hlt
      linarith)
    ⟨by simp [exEvolModel, abs_of_pos h1], by simp [exEvolModel, exEvolK, abs_mul, abs_of_pos h1],
      by simp [exEvolE, h1.le]⟩
  exact ⟨r, hr, fun t ht => by simpa [exEvolE, exEvolModel] using (h t ht).2 0 0⟩

/-- A kernel of finite memory, cut by `trunc_ind`: `k(t) = max (1 - t) 0` and kernel points up to time 1. -/
example (E : ℝ → Mat ℝ 1 1) (hE : Spec.Evolution 3 0 (fun t => !![max (1 - t) 0]) E) :=
  C131_evolve_trapz_partial (T := 3) (k := fun t => !![max (1 - t) 0])
    ⟨1, fun s _ t _ i j => by
      fin_cases i; fin_cases j
      have := abs_max_sub_max_le_abs (1 - s) (1 - t) 0
      rw [sub_sub_sub_cancel_left, abs_sub_comm t s] at this
      simpa using this⟩ hE

def exGrowK : ℝ → Mat ℝ 1 1 := fun _ => 0
noncomputable def exGrowE : ℝ → Mat ℝ 1 1 := fun t => !![Real.exp t]

theorem exGrow (T : ℝ) : Spec.Evolution T 1 exGrowK exGrowE := by
  intro t _ i j
  fin_cases i; fin_cases j
  simpa [exGrowE, exGrowK, Matrix.mul_apply] using (Real.hasDerivAt_exp t).hasDerivWithinAt

theorem pow_quad {z : ℝ} (hz : 0 ≤ z) (n : ℕ) : (1 + z) ^ n + n * (z ^ 2 / 2) ≤ (1 + z + z ^ 2 / 2) ^ n := by
  induction n with
  | zero => simp
  | succ n ih =>
    have h1 : (1 : ℝ) ≤ (1 + z + z ^ 2 / 2) ^ n := one_le_pow₀ (by nlinarith)
    have h2 := mul_le_mul_of_nonneg_right ih (by positivity : 0 ≤ 1 + z)
    have h3 : (z ^ 2 / 2) * 1 ≤ (z ^ 2 / 2) * (1 + z + z ^ 2 / 2) ^ n := by gcongr
    have h4 : (0 : ℝ) ≤ n * (z ^ 2 / 2) * z := by positivity
    rw [pow_succ (1 + z), pow_succ (1 + z + z ^ 2 / 2)]
    push_cast
    generalize (1 + z + z ^ 2 / 2) ^ n = P at *
    generalize (1 + z) ^ n = R at *
    generalize z ^ 2 / 2 = q at *
    linarith

/-- **C131**, negation: `trapz` is not of second order. For `E' = E` the exact coefficients and time steps `1/N` give an
error of at least half of the time step at time 1. -/
theorem C131_second_order_fails : Spec.Evolution 1 1 exGrowK exGrowE ∧ ∀ N : ℕ, 1 ≤ N → ∃ (m : IdeModel ℝ 1)
    (r : (ℕ → ℝ) × (ℕ → Mat ℝ 1 1)), m.dt = 1 / N ∧ m.trunc none = N + 1 ∧
      NearEvolution m (m.trunc none) (N + 1) (exGrowE 0) 0 1 exGrowK (exGrowE 0) ∧
      evolveVolterra (fun _ _ => 0) m (exGrowE 0) (N + 1) "trapz" none = .ok r ∧ r.1 N = 1 ∧
      m.dt / 2 ≤ |r.2 N 0 0 - exGrowE 1 0 0| := by
  refine ⟨exGrow 1, fun N hN => ?_⟩
  obtain ⟨m, hm⟩ : ∃ m : IdeModel ℝ 1, m = { forceCoeff := 1, kernelLen := N + 1, kernel := fun _ => 0, dt := 1 / N } := ⟨_, rfl⟩
  have hN0 : (0 : ℝ) < N := by exact_mod_cast hN
  have hdt : m.dt = 1 / N := by rw [hm]
  have hdtpos : 0 < m.dt := by rw [hdt]; positivity
  have htr : m.trunc none = N + 1 := by rw [hm]; rfl
  have hker : ∀ j, m.kernel j = 0 := fun j => by rw [hm]
  have hF : m.forceCoeff = 1 := by rw [hm]
  obtain ⟨r, hr⟩ := (C24_defined (garbage := fun _ _ => 0) (m := m) (trunc := none) (exGrowE 0) (by omega) (by omega : N + 1 ≠ 0)).2
    (by rw [hker]; simp)
  obtain ⟨-, ht, hs⟩ := evolve_trapz_ok hr
  obtain ⟨h0, -, hstep⟩ := FKernel.solveIdeTrapz_ok hs
  have hpow : ∀ i ≤ N, r.2 i 0 0 = (1 + m.dt) ^ i := by
    intro i
    induction i with
    | zero => intro _; rw [h0]; simp [exGrowE]
    | succ i ih =>
      intro hi
      have := hstep (i + 1) (by omega) (by omega)
      unfold IdeStep at this
      simp only [hker, hF, smul_zero, add_zero, Matrix.mul_one, Matrix.mul_zero, sum_const_zero, sub_zero,
        Nat.add_sub_cancel] at this
      rw [this, Matrix.add_apply, Matrix.smul_apply, smul_eq_mul, ih (by omega), pow_succ]
      ring
  refine ⟨m, r, hdt, htr, ⟨by simp [hF], by simp [hker, exGrowK], by simp⟩, hr, ?_, ?_⟩
  · rw [ht, hdt]; field_simp
  · have hexp : Real.exp 1 = Real.exp m.dt ^ N := by
      rw [← Real.exp_nat_mul, hdt]; congr 1; field_simp
    have hq : 1 + m.dt + m.dt ^ 2 / 2 ≤ Real.exp m.dt := Real.quadratic_le_exp_of_nonneg hdtpos.le
    have hb := pow_quad hdtpos.le N
    have hNd : N * (m.dt ^ 2 / 2) = m.dt / 2 := by rw [hdt]; field_simp
    have he : (1 + m.dt + m.dt ^ 2 / 2) ^ N ≤ Real.exp m.dt ^ N := by gcongr
    have : exGrowE 1 0 0 = Real.exp 1 := by simp [exGrowE]
    rw [hpow N le_rfl, this, abs_sub_comm, hexp]
    exact le_trans (by linarith) (le_abs_self _)

end Verif
