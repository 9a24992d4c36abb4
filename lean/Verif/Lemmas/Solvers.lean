import Verif.Lemmas.Volterra

/-! # The solvers satisfy their discretised equation, which has a unique solution -/

namespace Verif

open Finset

theorem agree_of_step {V : Type*} {k k' : ℕ → V} {lo hi : ℕ} (h0 : ∀ j < lo, k j = k' j)
    (step : ∀ i, lo ≤ i → i < hi → (∀ j < i, k j = k' j) → k i = k' i) :
    ∀ i < hi, k i = k' i := by
  intro i
  induction i using Nat.strong_induction_on with
  | _ i ih =>
    intro hi'
    by_cases hlo : i < lo
    · exact h0 i hlo
    · exact step i (by omega) hi' fun j hj => ih j hj (by omega)

section
variable {K : Type*} [Field K] {b x : ℕ}

theorem solve_iff {A M : Mat K b b} (h1 : A * M = 1) (h2 : M * A = 1) {k r : Mat K b x} :
    A * k = r ↔ k = M * r := by
  constructor
  · rintro rfl; rw [← Matrix.mul_assoc, h2, Matrix.one_mul]
  · rintro rfl; rw [← Matrix.mul_assoc, h1, Matrix.one_mul]

theorem rectAt_succ (h : K) (B : ℕ → Mat K b b) (D k : ℕ → Mat K b x) (i : ℕ) :
    Spec.FirstKindRectAt h B D k (i + 1) ↔
      (h • B 1) * k i = -(∑ j ∈ range i, h • (B (i + 1 - j) * k j) + D (i + 1)) := by
  unfold Spec.FirstKindRectAt Spec.rectRule Spec.convIntegrand
  rw [sum_range_succ, show i + 1 - i = 1 by omega, Matrix.smul_mul]
  constructor <;> intro H
  · rw [neg_add, ← H]; abel
  · rw [H]; abel

theorem trapzAt_iff [CharZero K] (h : K) (B : ℕ → Mat K b b) (D k : ℕ → Mat K b x) {m : ℕ} (hm : 1 ≤ m) :
    Spec.FirstKindTrapzAt h B D k m ↔
      (((1 / 2 : K) * h) • B 0) * k m = -(FKernel.trapzIntegral h m B k + D m) := by
  unfold Spec.FirstKindTrapzAt Spec.convIntegrand
  rw [← FKernel.trapzIntegral_add_end h hm, Matrix.smul_mul, one_div, inv_mul_eq_div]
  constructor <;> intro H
  · rw [neg_add, ← H]; abel
  · rw [H]; abel

theorem simpsonAt_iff (h : K) (B : ℕ → Mat K b b) (D k : ℕ → Mat K b x) {m : ℕ} (hm : 2 ≤ m) :
    Spec.FirstKindSimpsonAt h B D k m ↔
      ((h / 3) • B 0) * k m = -(FKernel.simpsonIntegral h m B k + D m) := by
  unfold Spec.FirstKindSimpsonAt Spec.convIntegrand
  rw [← FKernel.simpsonIntegral_add_end h hm, Matrix.smul_mul]
  constructor <;> intro H
  · rw [neg_add, ← H]; abel
  · rw [H]; abel

theorem secondRectAt_iff (h : K) (B0 : Mat K b b) (Bd : ℕ → Mat K b b) (D k : ℕ → Mat K b x) (m : ℕ) :
    Spec.SecondKindRectAt h B0 Bd D k m ↔
      B0 * k m = ∑ j ∈ range m, h • (Bd (m - j) * k j) + D m := by
  unfold Spec.SecondKindRectAt Spec.convIntegrand Spec.rectRule
  rw [sub_eq_iff_eq_add']

theorem secondTrapzAt_iff [CharZero K] (h : K) (B0 : Mat K b b) (Bd : ℕ → Mat K b b)
    (D k : ℕ → Mat K b x) {m : ℕ} (hm : 1 ≤ m) :
    Spec.SecondKindTrapzAt h B0 Bd D k m ↔
      (B0 - ((1 / 2 : K) * h) • Bd 0) * k m = FKernel.trapzIntegral h m Bd k + D m := by
  unfold Spec.SecondKindTrapzAt Spec.convIntegrand
  rw [← FKernel.trapzIntegral_add_end h hm, Matrix.sub_mul, Matrix.smul_mul, one_div, inv_mul_eq_div]
  constructor <;> intro H
  · rw [← H]; abel
  · rw [← sub_sub, sub_right_comm, H]; abel

end

namespace FKernel

variable {K : Type*} [Field K] [DecidableEq K] {b x : ℕ}

theorem firstKindRect_solves {L : ℕ} {B : ℕ → Mat K b b} {D : ℕ → Mat K b x} {dt : K}
    {ker : ℕ → Mat K b x} (h : firstKindRect L B D dt = .ok ker) :
    ∀ m, 1 ≤ m → m ≤ L → Spec.FirstKindRectAt dt B D ker m := by
  obtain ⟨hL, M, hM, h0, h1, -⟩ := firstKindRect_ok h
  obtain ⟨-, hM1, hM2⟩ := lapackInv_ok hM
  intro m hm hmL
  obtain ⟨i, rfl⟩ : ∃ i, m = i + 1 := ⟨m - 1, by omega⟩
  rw [rectAt_succ, solve_iff hM1 hM2]
  rcases Nat.eq_zero_or_pos i with rfl | hi
  · simpa using h0
  · rw [h1 i hi (by omega), Matrix.mul_neg]

theorem firstKindTrapz_solves [CharZero K] {L : ℕ} {k0 : Mat K b x} {B : ℕ → Mat K b b}
    {D : ℕ → Mat K b x} {dt : K} {ker : ℕ → Mat K b x} (h : firstKindTrapz L k0 B D dt = .ok ker) :
    ker 0 = k0 ∧ ∀ m, 1 ≤ m → m ≤ L → Spec.FirstKindTrapzAt dt B D ker m := by
  obtain ⟨M, hM, h0, h1, -⟩ := firstKindTrapz_ok h
  obtain ⟨-, hM1, hM2⟩ := lapackInv_ok hM
  refine ⟨h0, fun m hm hmL => ?_⟩
  rw [trapzAt_iff _ _ _ _ hm, solve_iff hM1 hM2, h1 m hm hmL, Matrix.mul_neg]

theorem firstKindSimpson_solves [CharZero K] {L : ℕ} {k0 : Mat K b x} {B : ℕ → Mat K b b}
    {D : ℕ → Mat K b x} {dt : K} {ker : ℕ → Mat K b x} (h : firstKindSimpson L k0 B D dt = .ok ker) :
    ker 0 = k0 ∧ Spec.FirstKindTrapzAt dt B D ker 1 ∧
      ∀ m, 2 ≤ m → m ≤ L → Spec.FirstKindSimpsonAt dt B D ker m := by
  obtain ⟨-, M1, M, hM1', hM, h0, h1, h2, -⟩ := firstKindSimpson_ok h
  obtain ⟨-, hM1, hM2⟩ := lapackInv_ok hM
  obtain ⟨-, hM3, hM4⟩ := lapackInv_ok hM1'
  refine ⟨h0, ?_, fun m hm hmL => ?_⟩
  · rw [trapzAt_iff _ _ _ _ le_rfl, solve_iff hM3 hM4, h1, trapzIntegral_eq, h0]
    simp only [Ico_self, sum_empty, add_zero]
    rw [neg_add, one_div, inv_mul_eq_div]
    congr 1
    abel
  · rw [simpsonAt_iff _ _ _ _ hm, solve_iff hM1 hM2, h2 m hm hmL, Matrix.mul_neg]

theorem secondKindRect_solves {L : ℕ} {k0 : Mat K b x} {B0 : Mat K b b} {Bd : ℕ → Mat K b b}
    {D : ℕ → Mat K b x} {dt : K} {ker : ℕ → Mat K b x}
    (h : secondKindRect L k0 B0 Bd D dt = .ok ker) :
    ker 0 = k0 ∧ ∀ m, 1 ≤ m → m ≤ L → Spec.SecondKindRectAt dt B0 Bd D ker m := by
  obtain ⟨M, hM, h0, h1, -⟩ := secondKindRect_ok h
  obtain ⟨-, hM1, hM2⟩ := lapackInv_ok hM
  refine ⟨h0, fun m hm hmL => ?_⟩
  rw [secondRectAt_iff, solve_iff hM1 hM2, h1 m hm hmL]

theorem secondKindTrapz_solves [CharZero K] {L : ℕ} {k0 : Mat K b x} {B0 : Mat K b b}
    {Bd : ℕ → Mat K b b} {D : ℕ → Mat K b x} {dt : K} {ker : ℕ → Mat K b x}
    (h : secondKindTrapz L k0 B0 Bd D dt = .ok ker) :
    ker 0 = k0 ∧ ∀ m, 1 ≤ m → m ≤ L → Spec.SecondKindTrapzAt dt B0 Bd D ker m := by
  obtain ⟨M, hM, h0, h1, -⟩ := secondKindTrapz_ok h
  obtain ⟨-, hM1, hM2⟩ := lapackInv_ok hM
  refine ⟨h0, fun m hm hmL => ?_⟩
  rw [secondTrapzAt_iff _ _ _ _ _ hm, solve_iff hM1 hM2, h1 m hm hmL]

/-- The equation actually solved by the midpoint solver: previous lags are even instead of odd. -/
theorem firstKindMidpoint_solves {L : ℕ} {B : ℕ → Mat K b b} {D : ℕ → Mat K b x} {dt : K}
    {ker : ℕ → Mat K b x} (h : firstKindMidpoint L B D dt = .ok ker) :
    ∀ i, i = 0 ∨ i < L / 2 →
      (2 * dt) • (B 1 * ker i) + ∑ j ∈ range i, (2 * dt) • (B (2 * (i - j)) * ker j) = -D (2 * i + 1) := by
  obtain ⟨hL, M, hM, h0, h1, -⟩ := firstKindMidpoint_ok h
  obtain ⟨-, hM1, hM2⟩ := lapackInv_ok hM
  intro i hi
  have key : ((2 * dt) • B 1) * ker i =
      -(∑ j ∈ range i, (2 * dt) • (B (2 * (i - j)) * ker j) + D (2 * i + 1)) := by
    rw [solve_iff hM1 hM2]
    rcases Nat.eq_zero_or_pos i with rfl | hi'
    · simpa using h0
    · rw [h1 i hi' (by omega), Matrix.mul_neg]
  rw [← Matrix.smul_mul, key]
  abel

/-! ### Existence -/

theorem firstKindRect_total {L : ℕ} (hL : L ≠ 0) {B : ℕ → Mat K b b} {dt : K}
    (hd : (dt • B 1).det ≠ 0) (D : ℕ → Mat K b x) : ∃ ker, firstKindRect L B D dt = .ok ker := by
  obtain ⟨M, hM⟩ := lapackInv_of_det hd
  unfold firstKindRect
  simp only [hL, hM, bind, Except.bind, pure, Except.pure, if_false]
  exact ⟨_, rfl⟩

theorem firstKindMidpoint_total {L : ℕ} (hL : L ≠ 0) {B : ℕ → Mat K b b} {dt : K}
    (hd : ((2 * dt) • B 1).det ≠ 0) (D : ℕ → Mat K b x) : ∃ ker, firstKindMidpoint L B D dt = .ok ker := by
  obtain ⟨M, hM⟩ := lapackInv_of_det hd
  unfold firstKindMidpoint
  simp only [hL, hM, bind, Except.bind, pure, Except.pure, if_false]
  exact ⟨_, rfl⟩

theorem firstKindTrapz_total (L : ℕ) (k0 : Mat K b x) {B : ℕ → Mat K b b} {dt : K}
    (hd : (((1 / 2 : K) * dt) • B 0).det ≠ 0) (D : ℕ → Mat K b x) :
    ∃ ker, firstKindTrapz L k0 B D dt = .ok ker := by
  obtain ⟨M, hM⟩ := lapackInv_of_det hd
  unfold firstKindTrapz
  simp only [hM, bind, Except.bind, pure, Except.pure]
  exact ⟨_, rfl⟩

theorem secondKindRect_total (L : ℕ) (k0 : Mat K b x) {B0 : Mat K b b} (hd : B0.det ≠ 0)
    (Bd : ℕ → Mat K b b) (D : ℕ → Mat K b x) (dt : K) :
    ∃ ker, secondKindRect L k0 B0 Bd D dt = .ok ker := by
  obtain ⟨M, hM⟩ := lapackInv_of_det hd
  unfold secondKindRect
  simp only [hM, bind, Except.bind, pure, Except.pure]
  exact ⟨_, rfl⟩

theorem secondKindTrapz_total (L : ℕ) (k0 : Mat K b x) {B0 : Mat K b b} {Bd : ℕ → Mat K b b} {dt : K}
    (hd : (B0 - ((1 / 2 : K) * dt) • Bd 0).det ≠ 0) (D : ℕ → Mat K b x) :
    ∃ ker, secondKindTrapz L k0 B0 Bd D dt = .ok ker := by
  obtain ⟨M, hM⟩ := lapackInv_of_det hd
  unfold secondKindTrapz
  simp only [hM, bind, Except.bind, pure, Except.pure]
  exact ⟨_, rfl⟩

end FKernel

/-! ### Uniqueness of the solution of the discretised equations, with causality -/

section Unique
variable {K : Type*} [Field K] {b x : ℕ}

theorem det_inv {A : Mat K b b} (h : A.det ≠ 0) : ∃ M, A * M = 1 ∧ M * A = 1 := by
  have hu : IsUnit A.det := isUnit_iff_ne_zero.2 h
  exact ⟨A⁻¹, A.mul_nonsing_inv hu, A.nonsing_inv_mul hu⟩

theorem rect_unique {h : K} {B B' : ℕ → Mat K b b} {D D' k k' : ℕ → Mat K b x} {L : ℕ}
    (hd : (h • B 1).det ≠ 0)
    (hB : ∀ j ≤ L, B j = B' j) (hD : ∀ j ≤ L, D j = D' j)
    (hk : ∀ m, 1 ≤ m → m ≤ L → Spec.FirstKindRectAt h B D k m)
    (hk' : ∀ m, 1 ≤ m → m ≤ L → Spec.FirstKindRectAt h B' D' k' m) :
    ∀ i < L, k i = k' i := by
  obtain ⟨M, h1, h2⟩ := det_inv hd
  refine agree_of_step (lo := 0) (by simp) fun i _ hi ih => ?_
  have e1 := (rectAt_succ _ _ _ _ _).1 (hk (i + 1) (by omega) (by omega))
  have e2 := (rectAt_succ _ _ _ _ _).1 (hk' (i + 1) (by omega) (by omega))
  rw [← hB 1 (by omega)] at e2
  rw [solve_iff h1 h2] at e1 e2
  rw [e1, e2, hD (i + 1) (by omega)]
  congr 3
  refine sum_congr rfl fun j hj => ?_
  have := mem_range.1 hj
  rw [ih j this, hB _ (by omega)]

theorem trapz_unique [CharZero K] {h : K} {B B' : ℕ → Mat K b b} {D D' k k' : ℕ → Mat K b x} {L : ℕ}
    (hd : (((1 / 2 : K) * h) • B 0).det ≠ 0)
    (hB : ∀ j ≤ L, B j = B' j) (hD : ∀ j ≤ L, D j = D' j) (h0 : k 0 = k' 0)
    (hk : ∀ m, 1 ≤ m → m ≤ L → Spec.FirstKindTrapzAt h B D k m)
    (hk' : ∀ m, 1 ≤ m → m ≤ L → Spec.FirstKindTrapzAt h B' D' k' m) :
    ∀ i < L + 1, k i = k' i := by
  obtain ⟨M, h1, h2⟩ := det_inv hd
  refine agree_of_step (lo := 1) ?_ fun i hi0 hi ih => ?_
  · intro j hj; obtain rfl : j = 0 := by omega
    exact h0
  have e1 := (trapzAt_iff _ _ _ _ hi0).1 (hk i hi0 (by omega))
  have e2 := (trapzAt_iff _ _ _ _ hi0).1 (hk' i hi0 (by omega))
  rw [← hB 0 (by omega)] at e2
  rw [solve_iff h1 h2] at e1 e2
  rw [e1, e2, hD i (by omega)]
  congr 3
  exact FKernel.trapzIntegral_congr _ (fun j hj => hB j (by omega)) fun j hj => ih j (by omega)

theorem secondRect_unique {h : K} {B0 : Mat K b b} {B B' : ℕ → Mat K b b}
    {D D' k k' : ℕ → Mat K b x} {L : ℕ} (hd : B0.det ≠ 0)
    (hB : ∀ j ≤ L, B j = B' j) (hD : ∀ j ≤ L, D j = D' j) (h0 : k 0 = k' 0)
    (hk : ∀ m, 1 ≤ m → m ≤ L → Spec.SecondKindRectAt h B0 B D k m)
    (hk' : ∀ m, 1 ≤ m → m ≤ L → Spec.SecondKindRectAt h B0 B' D' k' m) :
    ∀ i < L + 1, k i = k' i := by
  obtain ⟨M, h1, h2⟩ := det_inv hd
  refine agree_of_step (lo := 1) ?_ fun i hi0 hi ih => ?_
  · intro j hj; obtain rfl : j = 0 := by omega
    exact h0
  have e1 := (secondRectAt_iff _ _ _ _ _ _).1 (hk i hi0 (by omega))
  have e2 := (secondRectAt_iff _ _ _ _ _ _).1 (hk' i hi0 (by omega))
  rw [solve_iff h1 h2] at e1 e2
  rw [e1, e2, hD i (by omega)]
  congr 2
  refine sum_congr rfl fun j hj => ?_
  have := mem_range.1 hj
  rw [ih j this, hB _ (by omega)]

theorem secondTrapz_unique [CharZero K] {h : K} {B0 : Mat K b b} {B B' : ℕ → Mat K b b}
    {D D' k k' : ℕ → Mat K b x} {L : ℕ} (hd : (B0 - ((1 / 2 : K) * h) • B 0).det ≠ 0)
    (hB : ∀ j ≤ L, B j = B' j) (hD : ∀ j ≤ L, D j = D' j) (h0 : k 0 = k' 0)
    (hk : ∀ m, 1 ≤ m → m ≤ L → Spec.SecondKindTrapzAt h B0 B D k m)
    (hk' : ∀ m, 1 ≤ m → m ≤ L → Spec.SecondKindTrapzAt h B0 B' D' k' m) :
    ∀ i < L + 1, k i = k' i := by
  obtain ⟨M, h1, h2⟩ := det_inv hd
  refine agree_of_step (lo := 1) ?_ fun i hi0 hi ih => ?_
  · intro j hj; obtain rfl : j = 0 := by omega
    exact h0
  have e1 := (secondTrapzAt_iff _ _ _ _ _ hi0).1 (hk i hi0 (by omega))
  have e2 := (secondTrapzAt_iff _ _ _ _ _ hi0).1 (hk' i hi0 (by omega))
  rw [← hB 0 (by omega)] at e2
  rw [solve_iff h1 h2] at e1 e2
  rw [e1, e2, hD i (by omega)]
  congr 2
  exact FKernel.trapzIntegral_congr _ (fun j hj => hB j (by omega)) fun j hj => ih j (by omega)

end Unique

end Verif
