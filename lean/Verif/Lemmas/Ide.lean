import Verif.Model.Ide
import Verif.Lemmas.Volterra
import Mathlib.Tactic.Module
import Mathlib.Tactic.Abel

/-! # The equation solved by `solve_ide_rect` and `solve_ide_trapz` -/

namespace Verif

open Finset

variable {K : Type*} [Field K] {o b : ℕ}

/-- One step of the common form of the two solvers: `A` is the implicit matrix and the explicit lags
are `1, ..., n i - 1`. -/
def IdeStep (n : ℕ → ℕ) (A : Mat K b b) (ker : ℕ → Mat K b b) (F : Mat K b b) (dt : K)
    (E : ℕ → Mat K o b) (i : ℕ) : Prop :=
  E i * A = E (i - 1) + dt • (E (i - 1) * F) - dt • ∑ j ∈ Ico 1 (n i), dt • (E (i - j) * ker j)

theorem ide_unique {n : ℕ → ℕ} {A invA : Mat K b b} {ker : ℕ → Mat K b b} {F : Mat K b b} {dt : K}
    {E E' : ℕ → Mat K o b} {T : ℕ} (hA : A * invA = 1) (h0 : E 0 = E' 0)
    (h : ∀ i, 1 ≤ i → i < T → IdeStep n A ker F dt E i)
    (h' : ∀ i, 1 ≤ i → i < T → IdeStep n A ker F dt E' i) : ∀ i < T, E i = E' i := by
  intro i
  induction i using Nat.strong_induction_on with
  | _ i ih =>
    intro hi
    rcases Nat.eq_zero_or_pos i with rfl | hpos
    · exact h0
    · have e : E i * A = E' i * A := by
        rw [h i hpos hi, h' i hpos hi, ih (i - 1) (by omega) (by omega)]
        congr 2
        refine sum_congr rfl fun j hj => ?_
        have := mem_Ico.1 hj
        rw [ih (i - j) (by omega) (by omega)]
      have := congrArg (fun M : Mat K o b => M * invA) e
      simpa [Matrix.mul_assoc, hA] using this

theorem ide_linear {n : ℕ → ℕ} {A : Mat K b b} {ker : ℕ → Mat K b b} {F : Mat K b b} {dt : K}
    {E E' : ℕ → Mat K o b} {i : ℕ} (a : K) (h : IdeStep n A ker F dt E i)
    (h' : IdeStep n A ker F dt E' i) : IdeStep n A ker F dt (fun i => a • E i + E' i) i := by
  unfold IdeStep at *
  simp only [Matrix.add_mul, Matrix.smul_mul, h, h', smul_add, sum_add_distrib]
  rw [show ∑ j ∈ Ico 1 (n i), dt • a • (E (i - j) * ker j) = a • ∑ j ∈ Ico 1 (n i), dt • (E (i - j) * ker j) by
    rw [smul_sum]; exact sum_congr rfl fun j _ => smul_comm _ _ _]
  module

/-- Sums of rows are preserved when everything annihilates the constant vector. -/
theorem ide_conserve {n : ℕ → ℕ} {A : Mat K b b} {ker : ℕ → Mat K b b} {F : Mat K b b} {dt : K}
    {E : ℕ → Mat K o b} {i : ℕ} (h : IdeStep n A ker F dt E i)
    (hA : Matrix.mulVec A 1 = 1) (hF : Matrix.mulVec F 1 = 0)
    (hker : ∀ j < n i, Matrix.mulVec (ker j) 1 = 0) :
    Matrix.mulVec (E i) 1 = Matrix.mulVec (E (i - 1)) 1 := by
  have := congrArg (fun M => Matrix.mulVec M 1) h
  simp only [← Matrix.mulVec_mulVec, Matrix.add_mulVec, Matrix.sub_mulVec, Matrix.smul_mulVec, hA, hF,
    Matrix.mulVec_zero, smul_zero, add_zero, Matrix.sum_mulVec] at this
  rw [this, sum_eq_zero, smul_zero, sub_zero]
  intro j hj
  rw [hker j (mem_Ico.1 hj).2, Matrix.mulVec_zero, smul_zero]

section
variable [DecidableEq K]

namespace FKernel

theorem solveIdeRect_ok {M : ℕ} {kernel : ℕ → Mat K b b} {E0 : Mat K o b} {F : Mat K b b} {T : ℕ} {dt : K}
    {E : ℕ → Mat K o b} (h : solveIdeRect M kernel E0 F T dt = .ok E) :
    E 0 = E0 ∧ (∃ invA, (1 + dt ^ 2 • kernel 0) * invA = 1) ∧
      ∀ i, 1 ≤ i → i < T → IdeStep (fun i => min i M - 1) (1 + dt ^ 2 • kernel 0) kernel F dt E i := by
  unfold solveIdeRect at h
  by_cases hT : T = 0
  · simp [hT, bind, Except.bind, throw, throwThe, MonadExceptOf.throw] at h
  simp only [hT, if_false, bind, Except.bind, pure, Except.pure] at h
  cases hinv : lapackInv (1 + dt ^ 2 • kernel 0) with
  | error e => rw [hinv] at h; cases h
  | ok inv =>
    simp only [hinv, Except.ok.injEq] at h
    obtain ⟨-, h1, h2⟩ := lapackInv_ok hinv
    obtain ⟨f1, f2⟩ := forRange_fill 1 T (fun i (E : ℕ → Mat K o b) =>
      (E (i - 1) - dt • rectIntegral dt (min i M - 1) (fun k => E (i - (min i M - 1) + k)) kernel +
        dt • (E (i - 1) * F)) * inv) (Function.update 0 0 E0)
    rw [h] at f1 f2
    refine ⟨by rw [f1 0 (by omega)]; simp, ⟨inv, h1⟩, fun i hi1 hi2 => ?_⟩
    unfold IdeStep
    have e := f2 i hi1 hi2
    beta_reduce at e
    rw [e, Matrix.mul_assoc, h2, Matrix.mul_one, if_pos (by omega), rectIntegral_eq]
    rw [show (∑ j ∈ range (min i M - 1), dt • ((if i - (min i M - 1) + (min i M - 1 - j) < i then
        E (i - (min i M - 1) + (min i M - 1 - j)) else
        Function.update (0 : ℕ → Mat K o b) 0 E0 (i - (min i M - 1) + (min i M - 1 - j))) * kernel j)) =
        ∑ j ∈ Ico 1 (min i M - 1), dt • (E (i - j) * kernel j) from ?_]
    · abel
    · rcases Nat.eq_zero_or_pos (min i M - 1) with hz | hp
      · rw [hz]; simp
      · rw [range_eq_Ico, sum_eq_sum_Ico_succ_bot hp]
        rw [if_neg (by omega), Function.update_of_ne (by omega)]
        simp only [Pi.zero_apply, Matrix.zero_mul, smul_zero, zero_add]
        refine sum_congr rfl fun j hj => ?_
        have := mem_Ico.1 hj
        rw [if_pos (by omega), show i - (min i M - 1) + (min i M - 1 - j) = i - j by omega]

theorem solveIdeRect_of_det {M : ℕ} {kernel : ℕ → Mat K b b} (E0 : Mat K o b) (F : Mat K b b) {T : ℕ} {dt : K}
    (hT : T ≠ 0) (h : (1 + dt ^ 2 • kernel 0).det ≠ 0) : ∃ E, solveIdeRect M kernel E0 F T dt = .ok E := by
  obtain ⟨inv, hinv⟩ := lapackInv_of_det h
  unfold solveIdeRect
  simp [hT, hinv, bind, Except.bind, pure, Except.pure]

theorem solveIdeTrapz_ok {M : ℕ} {kernel : ℕ → Mat K b b} {E0 : Mat K o b} {F : Mat K b b} {T : ℕ} {dt : K}
    {E : ℕ → Mat K o b} (h : solveIdeTrapz M kernel E0 F T dt = .ok E) :
    E 0 = E0 ∧ (∃ invA, (1 + ((1 / 2 : K) * dt ^ 2) • kernel 0) * invA = 1) ∧
      ∀ i, 1 ≤ i → i < T →
        IdeStep (fun i => min i M) (1 + ((1 / 2 : K) * dt ^ 2) • kernel 0) kernel F dt E i := by
  unfold solveIdeTrapz at h
  by_cases hT : T = 0
  · simp [hT, bind, Except.bind, throw, throwThe, MonadExceptOf.throw] at h
  simp only [hT, if_false, bind, Except.bind, pure, Except.pure] at h
  cases hinv : lapackInv (1 + ((1 / 2 : K) * dt ^ 2) • kernel 0) with
  | error e => rw [hinv] at h; cases h
  | ok inv =>
    simp only [hinv, Except.ok.injEq] at h
    obtain ⟨-, h1, h2⟩ := lapackInv_ok hinv
    obtain ⟨f1, f2⟩ := forRange_fill 1 T (fun i (E : ℕ → Mat K o b) =>
      (E (i - 1) - dt • trapzIntegral dt (min i M) (fun k => E (i - min i M + k)) kernel +
        dt • (E (i - 1) * F)) * inv) (Function.update 0 0 E0)
    rw [h] at f1 f2
    refine ⟨by rw [f1 0 (by omega)]; simp, ⟨inv, h1⟩, fun i hi1 hi2 => ?_⟩
    unfold IdeStep
    have e := f2 i hi1 hi2
    beta_reduce at e
    rw [e, Matrix.mul_assoc, h2, Matrix.mul_one, if_pos (by omega), trapzIntegral_eq]
    rw [show i - min i M + min i M = i by omega, if_neg (by omega), Function.update_of_ne (by omega)]
    rw [show (∑ j ∈ Ico 1 (min i M), dt • ((if i - min i M + (min i M - j) < i then
        E (i - min i M + (min i M - j)) else
        Function.update (0 : ℕ → Mat K o b) 0 E0 (i - min i M + (min i M - j))) * kernel j)) =
        ∑ j ∈ Ico 1 (min i M), dt • (E (i - j) * kernel j) from ?_]
    · simp only [Pi.zero_apply, Matrix.zero_mul, smul_zero, zero_add]; abel
    · refine sum_congr rfl fun j hj => ?_
      have := mem_Ico.1 hj
      rw [if_pos (by omega), show i - min i M + (min i M - j) = i - j by omega]

theorem solveIdeTrapz_of_det {M : ℕ} {kernel : ℕ → Mat K b b} (E0 : Mat K o b) (F : Mat K b b) {T : ℕ} {dt : K}
    (hT : T ≠ 0) (h : (1 + ((1 / 2 : K) * dt ^ 2) • kernel 0).det ≠ 0) :
    ∃ E, solveIdeTrapz M kernel E0 F T dt = .ok E := by
  obtain ⟨inv, hinv⟩ := lapackInv_of_det h
  unfold solveIdeTrapz
  simp only [hT, if_false, hinv, bind, Except.bind, pure, Except.pure]
  exact ⟨_, rfl⟩

/-- Every step of the stabilised solver is a clipped matrix divided by the sum of its entries. -/
theorem solveIdeTrapzStab_ok [LinearOrder K] {garbage : ℕ → (ℕ → Mat K o b) → Mat K o b}
    {kernel : ℕ → Mat K b b} {E0 : Mat K o b} {F : Mat K b b} {T : ℕ} {dt : K}
    {E : ℕ → Mat K o b} (h : solveIdeTrapzStab garbage kernel E0 F T dt = .ok E) :
    E 0 = E0 ∧ ∀ i, 1 ≤ i → i < T → ∃ D : Mat K o b,
      ∀ k l, E i k l = max (D k l) 0 / ∑ k', ∑ l', max (D k' l') 0 := by
  unfold solveIdeTrapzStab at h
  by_cases hT : T = 0
  · simp [hT, bind, Except.bind, throw, throwThe, MonadExceptOf.throw] at h
  simp only [hT, if_false, bind, Except.bind, pure, Except.pure] at h
  cases hinv : lapackInv (1 + ((1 / 2 : K) * dt ^ 2) • kernel 0) with
  | error e => rw [hinv] at h; cases h
  | ok inv =>
    simp only [hinv, Except.ok.injEq] at h
    obtain ⟨f1, f2⟩ := forRange_fill 1 T (fun i (E : ℕ → Mat K o b) =>
      (Matrix.of fun k l => (Matrix.of fun k l => max (((E (i - 1) - dt • garbage i E + dt • (E (i - 1) * F)) * inv) k l) 0 : Mat K o b) k l /
        ∑ k', ∑ l', (Matrix.of fun k l => max (((E (i - 1) - dt • garbage i E + dt • (E (i - 1) * F)) * inv) k l) 0 : Mat K o b) k' l'))
      (Function.update 0 0 E0)
    rw [h] at f1 f2
    refine ⟨by rw [f1 0 (by omega)]; simp, fun i hi1 hi2 => ?_⟩
    exact ⟨_, fun k l => congrFun (congrFun (f2 i hi1 hi2) k) l⟩

end FKernel
end

end Verif
