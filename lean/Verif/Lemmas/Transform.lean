import Verif.Lemmas.Solvers

/-!
# How the solvers transform

If `B' = P B Q'` with `Q' Q = 1` and `D'` is the matching right hand side, then `k' = Q k`.
Linearity and the change of basis are both obtained from uniqueness of the solution.
-/

namespace Verif

open Finset

section
variable {K : Type*} [Field K] {b x : ℕ}

/-- The equation solved by the midpoint routine of the code. -/
def MidCodeAt (h : K) (B : ℕ → Mat K b b) (D k : ℕ → Mat K b x) (i : ℕ) : Prop :=
  (2 * h) • (B 1 * k i) + ∑ j ∈ range i, (2 * h) • (B (2 * (i - j)) * k j) = -D (2 * i + 1)

theorem mid_unique {h : K} {B B' : ℕ → Mat K b b} {D D' k k' : ℕ → Mat K b x} {n : ℕ}
    (hd : ((2 * h) • B 1).det ≠ 0)
    (hB : ∀ j, j < 2 * n → B j = B' j) (hD : ∀ j, j < 2 * n → D j = D' j)
    (hk : ∀ i, i < n → MidCodeAt h B D k i) (hk' : ∀ i, i < n → MidCodeAt h B' D' k' i) :
    ∀ i < n, k i = k' i := by
  obtain ⟨M, h1, h2⟩ := det_inv hd
  refine agree_of_step (lo := 0) (by simp) fun i _ hi ih => ?_
  have e1 := hk i hi
  have e2 := hk' i hi
  unfold MidCodeAt at e1 e2
  rw [← hB 1 (by omega)] at e2
  rw [← Matrix.smul_mul, ← eq_sub_iff_add_eq, solve_iff h1 h2] at e1 e2
  rw [e1, e2, hD _ (by omega)]
  congr 2
  refine sum_congr rfl fun j hj => ?_
  have := mem_range.1 hj
  rw [ih j this, hB _ (by omega)]

/-! ### Linear combinations -/

variable (a : K) {h : K} {B : ℕ → Mat K b b} {B0 : Mat K b b} {D D' k k' : ℕ → Mat K b x} {m : ℕ}

theorem rectAt_lin (h1 : Spec.FirstKindRectAt h B D k m) (h2 : Spec.FirstKindRectAt h B D' k' m) :
    Spec.FirstKindRectAt h B (a • D + D') (a • k + k') m := by
  unfold Spec.FirstKindRectAt Spec.rectRule Spec.convIntegrand at *
  simp only [Pi.add_apply, Pi.smul_apply, Matrix.mul_add, Matrix.mul_smul, smul_add, sum_add_distrib]
  rw [h2]
  simp only [smul_comm h a, ← smul_sum, h1]
  rw [smul_neg, neg_add]

theorem midAt_lin (h1 : MidCodeAt h B D k m) (h2 : MidCodeAt h B D' k' m) :
    MidCodeAt h B (a • D + D') (a • k + k') m := by
  unfold MidCodeAt at *
  simp only [Pi.add_apply, Pi.smul_apply, Matrix.mul_add, Matrix.mul_smul, smul_add, sum_add_distrib]
  simp only [smul_comm (2 * h) a, ← smul_sum] at h1 h2 ⊢
  rw [add_add_add_comm, h2, ← smul_add, h1, smul_neg, neg_add]

theorem trapzRule_lin {V : Type*} [AddCommGroup V] [Module K V] (f g : ℕ → V) :
    Spec.trapzRule h (fun s => a • f s + g s) m = a • Spec.trapzRule h f m + Spec.trapzRule h g m := by
  unfold Spec.trapzRule
  rw [smul_sum, ← sum_add_distrib]
  refine sum_congr rfl fun j _ => ?_
  module

theorem conv_lin : Spec.convIntegrand B (a • k + k') m =
    fun s => a • Spec.convIntegrand B k m s + Spec.convIntegrand B k' m s := by
  funext s
  simp [Spec.convIntegrand, Matrix.mul_add]

theorem trapzAt_lin (h1 : Spec.FirstKindTrapzAt h B D k m) (h2 : Spec.FirstKindTrapzAt h B D' k' m) :
    Spec.FirstKindTrapzAt h B (a • D + D') (a • k + k') m := by
  unfold Spec.FirstKindTrapzAt at *
  rw [conv_lin, trapzRule_lin, h1, h2]
  simp; abel

theorem secondRectAt_lin (h1 : Spec.SecondKindRectAt h B0 B D k m)
    (h2 : Spec.SecondKindRectAt h B0 B D' k' m) :
    Spec.SecondKindRectAt h B0 B (a • D + D') (a • k + k') m := by
  unfold Spec.SecondKindRectAt Spec.rectRule Spec.convIntegrand at *
  simp only [Pi.add_apply, Pi.smul_apply, Matrix.mul_add, Matrix.mul_smul, smul_add, sum_add_distrib]
  simp only [smul_comm h a, ← smul_sum] at h1 h2 ⊢
  rw [← h1, ← h2, smul_sub]; abel

theorem secondTrapzAt_lin (h1 : Spec.SecondKindTrapzAt h B0 B D k m)
    (h2 : Spec.SecondKindTrapzAt h B0 B D' k' m) :
    Spec.SecondKindTrapzAt h B0 B (a • D + D') (a • k + k') m := by
  unfold Spec.SecondKindTrapzAt at *
  rw [conv_lin, trapzRule_lin]
  simp only [Pi.add_apply, Pi.smul_apply]
  rw [← h1, ← h2, Matrix.mul_add, Matrix.mul_smul, smul_sub]; abel

end

/-! ### Change of basis -/

section
variable {K : Type*} [Field K] {b x : ℕ} {P Q : Mat K b b} (hQ : P.transpose * Q = 1)
include hQ
variable {h : K} {B : ℕ → Mat K b b} {B0 : Mat K b b} {D k : ℕ → Mat K b x} {m : ℕ}

theorem conj_mul (X : Mat K b b) (Y : Mat K b x) :
    (P * X * P.transpose) * (Q * Y) = P * (X * Y) := by
  rw [Matrix.mul_assoc (P * X), ← Matrix.mul_assoc P.transpose, hQ, Matrix.one_mul, Matrix.mul_assoc]

theorem rectAt_basis (h1 : Spec.FirstKindRectAt h B D k m) :
    Spec.FirstKindRectAt h (fun n => P * B n * P.transpose) (fun n => P * D n) (fun n => Q * k n) m := by
  unfold Spec.FirstKindRectAt Spec.rectRule Spec.convIntegrand at *
  simp only [conj_mul hQ, ← Matrix.mul_smul P, ← Matrix.mul_sum, h1, Matrix.mul_neg]

theorem midAt_basis (h1 : MidCodeAt h B D k m) :
    MidCodeAt h (fun n => P * B n * P.transpose) (fun n => P * D n) (fun n => Q * k n) m := by
  unfold MidCodeAt at *
  simp only [conj_mul hQ, ← Matrix.mul_smul P, ← Matrix.mul_sum, ← Matrix.mul_add, h1, Matrix.mul_neg]

theorem trapz_conj :
    Spec.trapzRule h (Spec.convIntegrand (fun n => P * B n * P.transpose) (fun n => Q * k n) m) m =
      P * Spec.trapzRule h (Spec.convIntegrand B k m) m := by
  unfold Spec.trapzRule Spec.convIntegrand
  simp only [conj_mul hQ, ← Matrix.mul_smul P, ← Matrix.mul_sum, ← Matrix.mul_add]

theorem trapzAt_basis (h1 : Spec.FirstKindTrapzAt h B D k m) :
    Spec.FirstKindTrapzAt h (fun n => P * B n * P.transpose) (fun n => P * D n) (fun n => Q * k n) m := by
  unfold Spec.FirstKindTrapzAt at *
  rw [trapz_conj hQ, h1, Matrix.mul_neg]

theorem secondRectAt_basis (h1 : Spec.SecondKindRectAt h B0 B D k m) :
    Spec.SecondKindRectAt h (P * B0 * P.transpose) (fun n => P * B n * P.transpose) (fun n => P * D n)
      (fun n => Q * k n) m := by
  unfold Spec.SecondKindRectAt Spec.rectRule Spec.convIntegrand at *
  simp only [conj_mul hQ, ← Matrix.mul_smul P, ← Matrix.mul_sum, ← Matrix.mul_sub, h1]

theorem secondTrapzAt_basis (h1 : Spec.SecondKindTrapzAt h B0 B D k m) :
    Spec.SecondKindTrapzAt h (P * B0 * P.transpose) (fun n => P * B n * P.transpose) (fun n => P * D n)
      (fun n => Q * k n) m := by
  unfold Spec.SecondKindTrapzAt at *
  rw [trapz_conj hQ, conj_mul hQ, ← Matrix.mul_sub, h1]

theorem det_conj_ne_zero {A : Mat K b b} (hA : A.det ≠ 0) : (P * A * P.transpose).det ≠ 0 := by
  have hP : P.det ≠ 0 := by
    intro h0
    have := congrArg Matrix.det hQ
    rw [Matrix.det_mul, Matrix.det_transpose, h0, zero_mul, Matrix.det_one] at this
    exact zero_ne_one this
  rw [Matrix.det_mul, Matrix.det_mul, Matrix.det_transpose]
  exact mul_ne_zero (mul_ne_zero hP hA) hP

end

/-! ### The solvers -/

namespace FKernel
variable {K : Type*} [Field K] [DecidableEq K] {b x : ℕ} {L : ℕ} {B Bd : ℕ → Mat K b b} {B0 : Mat K b b}
  {D D' k k' : ℕ → Mat K b x} {k0 k0' : Mat K b x} {dt : K}

theorem firstKindMidpoint_code (h : firstKindMidpoint L B D dt = .ok k) :
    ∀ i, i < max 1 (L / 2) → MidCodeAt dt B D k i := fun i hi =>
  firstKindMidpoint_solves h i (by omega)

theorem firstKindRect_lin (a : K) (h1 : firstKindRect L B D dt = .ok k)
    (h2 : firstKindRect L B D' dt = .ok k') :
    firstKindRect L B (a • D + D') dt = .ok (a • k + k') := by
  obtain ⟨hL, M, hM, -, -, hz⟩ := firstKindRect_ok h1
  obtain ⟨-, -, -, -, -, hz'⟩ := firstKindRect_ok h2
  obtain ⟨hd, -, -⟩ := lapackInv_ok hM
  obtain ⟨ker, hker⟩ := firstKindRect_total hL hd (a • D + D')
  rw [hker]
  congr 1
  obtain ⟨-, -, -, -, -, hz''⟩ := firstKindRect_ok hker
  funext i
  by_cases hi : i < L
  · exact rect_unique hd (fun _ _ => rfl) (fun _ _ => rfl) (firstKindRect_solves hker)
      (fun m hm hmL => rectAt_lin a (firstKindRect_solves h1 m hm hmL) (firstKindRect_solves h2 m hm hmL)) i hi
  · rw [hz'' i (by omega)]; simp [hz i (by omega), hz' i (by omega)]

theorem firstKindMidpoint_lin (a : K) (h1 : firstKindMidpoint L B D dt = .ok k)
    (h2 : firstKindMidpoint L B D' dt = .ok k') :
    firstKindMidpoint L B (a • D + D') dt = .ok (a • k + k') := by
  obtain ⟨hL, M, hM, -, -, hz⟩ := firstKindMidpoint_ok h1
  obtain ⟨-, -, -, -, -, hz'⟩ := firstKindMidpoint_ok h2
  obtain ⟨hd, -, -⟩ := lapackInv_ok hM
  obtain ⟨ker, hker⟩ := firstKindMidpoint_total hL hd (a • D + D')
  rw [hker]
  congr 1
  obtain ⟨-, -, -, -, -, hz''⟩ := firstKindMidpoint_ok hker
  funext i
  by_cases hi : i < max 1 (L / 2)
  · exact mid_unique hd (fun _ _ => rfl) (fun _ _ => rfl) (firstKindMidpoint_code hker)
      (fun m hm => midAt_lin a (firstKindMidpoint_code h1 m hm) (firstKindMidpoint_code h2 m hm)) i hi
  · rw [hz'' i (by omega) (by omega)]; simp [hz i (by omega) (by omega), hz' i (by omega) (by omega)]

theorem firstKindTrapz_lin [CharZero K] (a : K) (h1 : firstKindTrapz L k0 B D dt = .ok k)
    (h2 : firstKindTrapz L k0' B D' dt = .ok k') :
    firstKindTrapz L (a • k0 + k0') B (a • D + D') dt = .ok (a • k + k') := by
  obtain ⟨M, hM, -, -, hz⟩ := firstKindTrapz_ok h1
  obtain ⟨-, -, -, -, hz'⟩ := firstKindTrapz_ok h2
  obtain ⟨hd, -, -⟩ := lapackInv_ok hM
  obtain ⟨ker, hker⟩ := firstKindTrapz_total L (a • k0 + k0') hd (a • D + D')
  rw [hker]
  congr 1
  obtain ⟨-, -, -, -, hz''⟩ := firstKindTrapz_ok hker
  funext i
  obtain ⟨e0, e⟩ := firstKindTrapz_solves hker
  obtain ⟨e0', e'⟩ := firstKindTrapz_solves h1
  obtain ⟨e0'', e''⟩ := firstKindTrapz_solves h2
  by_cases hi : i < L + 1
  · exact trapz_unique hd (fun _ _ => rfl) (fun _ _ => rfl) (by rw [e0]; simp [e0', e0'']) e
      (fun m hm hmL => trapzAt_lin a (e' m hm hmL) (e'' m hm hmL)) i hi
  · rw [hz'' i (by omega)]; simp [hz i (by omega), hz' i (by omega)]

theorem secondKindRect_lin (a : K) (h1 : secondKindRect L k0 B0 Bd D dt = .ok k)
    (h2 : secondKindRect L k0' B0 Bd D' dt = .ok k') :
    secondKindRect L (a • k0 + k0') B0 Bd (a • D + D') dt = .ok (a • k + k') := by
  obtain ⟨M, hM, -, -, hz⟩ := secondKindRect_ok h1
  obtain ⟨-, -, -, -, hz'⟩ := secondKindRect_ok h2
  obtain ⟨hd, -, -⟩ := lapackInv_ok hM
  obtain ⟨ker, hker⟩ := secondKindRect_total L (a • k0 + k0') hd Bd (a • D + D') dt
  rw [hker]
  congr 1
  obtain ⟨-, -, -, -, hz''⟩ := secondKindRect_ok hker
  funext i
  obtain ⟨e0, e⟩ := secondKindRect_solves hker
  obtain ⟨e0', e'⟩ := secondKindRect_solves h1
  obtain ⟨e0'', e''⟩ := secondKindRect_solves h2
  by_cases hi : i < L + 1
  · exact secondRect_unique hd (fun _ _ => rfl) (fun _ _ => rfl) (by rw [e0]; simp [e0', e0'']) e
      (fun m hm hmL => secondRectAt_lin a (e' m hm hmL) (e'' m hm hmL)) i hi
  · rw [hz'' i (by omega)]; simp [hz i (by omega), hz' i (by omega)]

theorem secondKindTrapz_lin [CharZero K] (a : K) (h1 : secondKindTrapz L k0 B0 Bd D dt = .ok k)
    (h2 : secondKindTrapz L k0' B0 Bd D' dt = .ok k') :
    secondKindTrapz L (a • k0 + k0') B0 Bd (a • D + D') dt = .ok (a • k + k') := by
  obtain ⟨M, hM, -, -, hz⟩ := secondKindTrapz_ok h1
  obtain ⟨-, -, -, -, hz'⟩ := secondKindTrapz_ok h2
  obtain ⟨hd, -, -⟩ := lapackInv_ok hM
  obtain ⟨ker, hker⟩ := secondKindTrapz_total L (a • k0 + k0') hd (a • D + D')
  rw [hker]
  congr 1
  obtain ⟨-, -, -, -, hz''⟩ := secondKindTrapz_ok hker
  funext i
  obtain ⟨e0, e⟩ := secondKindTrapz_solves hker
  obtain ⟨e0', e'⟩ := secondKindTrapz_solves h1
  obtain ⟨e0'', e''⟩ := secondKindTrapz_solves h2
  by_cases hi : i < L + 1
  · exact secondTrapz_unique hd (fun _ _ => rfl) (fun _ _ => rfl) (by rw [e0]; simp [e0', e0'']) e
      (fun m hm hmL => secondTrapzAt_lin a (e' m hm hmL) (e'' m hm hmL)) i hi
  · rw [hz'' i (by omega)]; simp [hz i (by omega), hz' i (by omega)]

variable {P Q : Mat K b b}

theorem firstKindRect_basis (hQ : P.transpose * Q = 1) (h1 : firstKindRect L B D dt = .ok k) :
    firstKindRect L (fun n => P * B n * P.transpose) (fun n => P * D n) dt = .ok (fun n => Q * k n) := by
  obtain ⟨hL, M, hM, -, -, hz⟩ := firstKindRect_ok h1
  obtain ⟨hd, -, -⟩ := lapackInv_ok hM
  have hd' : (dt • (fun n => P * B n * P.transpose) 1).det ≠ 0 := by
    have := det_conj_ne_zero hQ hd
    rwa [Matrix.mul_smul, Matrix.smul_mul] at this
  obtain ⟨ker, hker⟩ := firstKindRect_total (B := fun n => P * B n * P.transpose) hL hd' (fun n => P * D n)
  rw [hker]
  congr 1
  obtain ⟨-, -, -, -, -, hz''⟩ := firstKindRect_ok hker
  funext i
  by_cases hi : i < L
  · exact rect_unique (B := fun n => P * B n * P.transpose) hd' (fun _ _ => rfl) (fun _ _ => rfl) (firstKindRect_solves hker)
      (fun m hm hmL => rectAt_basis hQ (firstKindRect_solves h1 m hm hmL)) i hi
  · rw [hz'' i (by omega)]; simp [hz i (by omega)]

theorem firstKindMidpoint_basis (hQ : P.transpose * Q = 1) (h1 : firstKindMidpoint L B D dt = .ok k) :
    firstKindMidpoint L (fun n => P * B n * P.transpose) (fun n => P * D n) dt = .ok (fun n => Q * k n) := by
  obtain ⟨hL, M, hM, -, -, hz⟩ := firstKindMidpoint_ok h1
  obtain ⟨hd, -, -⟩ := lapackInv_ok hM
  have hd' : ((2 * dt) • (fun n => P * B n * P.transpose) 1).det ≠ 0 := by
    have := det_conj_ne_zero hQ hd
    rwa [Matrix.mul_smul, Matrix.smul_mul] at this
  obtain ⟨ker, hker⟩ := firstKindMidpoint_total (B := fun n => P * B n * P.transpose) hL hd' (fun n => P * D n)
  rw [hker]
  congr 1
  obtain ⟨-, -, -, -, -, hz''⟩ := firstKindMidpoint_ok hker
  funext i
  by_cases hi : i < max 1 (L / 2)
  · exact mid_unique (B := fun n => P * B n * P.transpose) hd' (fun _ _ => rfl) (fun _ _ => rfl) (firstKindMidpoint_code hker)
      (fun m hm => midAt_basis hQ (firstKindMidpoint_code h1 m hm)) i hi
  · rw [hz'' i (by omega) (by omega)]; simp [hz i (by omega) (by omega)]

theorem firstKindTrapz_basis [CharZero K] (hQ : P.transpose * Q = 1)
    (h1 : firstKindTrapz L k0 B D dt = .ok k) :
    firstKindTrapz L (Q * k0) (fun n => P * B n * P.transpose) (fun n => P * D n) dt =
      .ok (fun n => Q * k n) := by
  obtain ⟨M, hM, -, -, hz⟩ := firstKindTrapz_ok h1
  obtain ⟨hd, -, -⟩ := lapackInv_ok hM
  have hd' : (((1 / 2 : K) * dt) • (fun n => P * B n * P.transpose) 0).det ≠ 0 := by
    have := det_conj_ne_zero hQ hd
    rwa [Matrix.mul_smul, Matrix.smul_mul] at this
  obtain ⟨ker, hker⟩ := firstKindTrapz_total (B := fun n => P * B n * P.transpose) L (Q * k0) hd' (fun n => P * D n)
  rw [hker]
  congr 1
  obtain ⟨-, -, -, -, hz''⟩ := firstKindTrapz_ok hker
  funext i
  obtain ⟨e0, e⟩ := firstKindTrapz_solves hker
  obtain ⟨e0', e'⟩ := firstKindTrapz_solves h1
  by_cases hi : i < L + 1
  · exact trapz_unique (B := fun n => P * B n * P.transpose) hd' (fun _ _ => rfl) (fun _ _ => rfl) (by rw [e0, e0']) e
      (fun m hm hmL => trapzAt_basis hQ (e' m hm hmL)) i hi
  · rw [hz'' i (by omega)]; simp [hz i (by omega)]

theorem secondKindRect_basis (hQ : P.transpose * Q = 1)
    (h1 : secondKindRect L k0 B0 Bd D dt = .ok k) :
    secondKindRect L (Q * k0) (P * B0 * P.transpose) (fun n => P * Bd n * P.transpose)
      (fun n => P * D n) dt = .ok (fun n => Q * k n) := by
  obtain ⟨M, hM, -, -, hz⟩ := secondKindRect_ok h1
  obtain ⟨hd, -, -⟩ := lapackInv_ok hM
  have hd' := det_conj_ne_zero hQ hd
  obtain ⟨ker, hker⟩ := secondKindRect_total L (Q * k0) hd' (fun n => P * Bd n * P.transpose)
    (fun n => P * D n) dt
  rw [hker]
  congr 1
  obtain ⟨-, -, -, -, hz''⟩ := secondKindRect_ok hker
  funext i
  obtain ⟨e0, e⟩ := secondKindRect_solves hker
  obtain ⟨e0', e'⟩ := secondKindRect_solves h1
  by_cases hi : i < L + 1
  · exact secondRect_unique hd' (fun _ _ => rfl) (fun _ _ => rfl) (by rw [e0, e0']) e
      (fun m hm hmL => secondRectAt_basis hQ (e' m hm hmL)) i hi
  · rw [hz'' i (by omega)]; simp [hz i (by omega)]

theorem secondKindTrapz_basis [CharZero K] (hQ : P.transpose * Q = 1)
    (h1 : secondKindTrapz L k0 B0 Bd D dt = .ok k) :
    secondKindTrapz L (Q * k0) (P * B0 * P.transpose) (fun n => P * Bd n * P.transpose)
      (fun n => P * D n) dt = .ok (fun n => Q * k n) := by
  obtain ⟨M, hM, -, -, hz⟩ := secondKindTrapz_ok h1
  obtain ⟨hd, -, -⟩ := lapackInv_ok hM
  have hd' : (P * B0 * P.transpose - ((1 / 2 : K) * dt) • (fun n => P * Bd n * P.transpose) 0).det ≠ 0 := by
    have := det_conj_ne_zero hQ hd
    rwa [Matrix.mul_sub, Matrix.sub_mul, Matrix.mul_smul, Matrix.smul_mul] at this
  obtain ⟨ker, hker⟩ := secondKindTrapz_total (Bd := fun n => P * Bd n * P.transpose) L (Q * k0) hd' (fun n => P * D n)
  rw [hker]
  congr 1
  obtain ⟨-, -, -, -, hz''⟩ := secondKindTrapz_ok hker
  funext i
  obtain ⟨e0, e⟩ := secondKindTrapz_solves hker
  obtain ⟨e0', e'⟩ := secondKindTrapz_solves h1
  by_cases hi : i < L + 1
  · exact secondTrapz_unique (B := fun n => P * Bd n * P.transpose) hd' (fun _ _ => rfl) (fun _ _ => rfl) (by rw [e0, e0']) e
      (fun m hm hmL => secondTrapzAt_basis hQ (e' m hm hmL)) i hi
  · rw [hz'' i (by omega)]; simp [hz i (by omega)]

end FKernel

end Verif
