import Verif.Model.NoiseGen
import Verif.Lemmas.Integrate
import Verif.Lemmas.Correlation
import Mathlib.MeasureTheory.Integral.Bochner.Basic
import Mathlib.MeasureTheory.Integral.Bochner.SumMeasure
import Mathlib.MeasureTheory.Integral.Bochner.Set
import Mathlib.MeasureTheory.Measure.Count
import Mathlib.LinearAlgebra.Matrix.PosDef
import Mathlib.Tactic.NormNum
import Mathlib.Tactic.FieldSimp
import Mathlib.Tactic.FinCases

/-!
# Properties of the noise generators (C69, C70)
-/

namespace Verif

open Finset

set_option linter.unusedSectionVars false

section
variable {K : Type*} [Field K]

theorem stationaryCov_ok {N : ℕ} (hN : 1 ≤ N) (kernel : ℕ → K) (back : Option (ℕ → K)) :
    ∃ C, stationaryCov N kernel back = .ok C ∧ ∀ i < N, ∀ j < N,
      C i j = if j ≤ i then kernel (i - j) else (back.getD fun i => kernel (N - 1 - i)) (N - 1 - (j - i)) := by
  unfold stationaryCov
  rw [if_neg (by omega)]
  refine ⟨_, rfl, fun i hi j hj => ?_⟩
  have key : ∀ n, 1 ≤ n → n ≤ N → ∀ (f : ℕ → ℕ → K) (c : ℕ → ℕ → K),
      forRange 1 n (fun n (cov : ℕ → ℕ → K) => fun i j => if j = n then f n i else cov i j) c i j =
        if 1 ≤ j ∧ j < n then f j i else c i j := by
    intro n hn
    induction n, hn using Nat.le_induction with
    | base => intro _ f c; rw [forRange_of_le le_rfl, if_neg (by omega)]
    | succ n hn ih =>
      intro hnN f c
      rw [forRange_succ hn]
      by_cases hj : j = n
      · subst hj
        rw [if_pos rfl, if_pos (by omega)]
      · rw [if_neg hj, ih (by omega)]
        by_cases c1 : 1 ≤ j ∧ j < n
        · rw [if_pos c1, if_pos (by omega)]
        · rw [if_neg c1, if_neg (by omega)]
  rw [key N hN le_rfl (fun n i => if N - n - 1 + i < N - 1 then (back.getD fun i => kernel (N - 1 - i)) (N - n - 1 + i)
    else kernel (N - n - 1 + i - (N - 1)))]
  by_cases h0 : j = 0
  · subst h0
    simp
  · rw [if_pos (by omega)]
    by_cases h : j ≤ i
    · rw [if_pos h, if_neg (by omega), show N - j - 1 + i - (N - 1) = i - j by omega]
    · rw [if_neg h, if_pos (by omega), show N - j - 1 + i = N - 1 - (j - i) by omega]

/-- **C69** The matrix is Toeplitz and symmetric. -/
theorem C69_toeplitz {N : ℕ} (hN : 1 ≤ N) (kernel : ℕ → K) :
    ∃ C, stationaryCov N kernel none = .ok C ∧ (∀ i < N, ∀ j < N, C i j = kernel (((i : ℤ) - j).natAbs)) ∧
      ∀ i < N, ∀ j < N, C i j = C j i := by
  obtain ⟨C, h, hC⟩ := stationaryCov_ok hN kernel none
  have e : ∀ i < N, ∀ j < N, C i j = kernel (((i : ℤ) - j).natAbs) := by
    intro i hi j hj
    rw [hC i hi j hj]
    by_cases c : j ≤ i
    · rw [if_pos c]; congr 1; omega
    · rw [if_neg c, Option.getD_none]; congr 1; omega
  refine ⟨C, h, e, fun i hi j hj => ?_⟩
  rw [e i hi j hj, e j hj i hi]
  congr 1
  omega

/-- C69 with a kernel for negative lags: `back` is `kernel(-(N-1)), ..., kernel(-1)`. -/
theorem C69_backward {N : ℕ} (hN : 1 ≤ N) (kernel back : ℕ → K) :
    ∃ C, stationaryCov N kernel (some back) = .ok C ∧ ∀ i < N, ∀ j < N,
      C i j = if j ≤ i then kernel (i - j) else back (N - 1 - (j - i)) :=
  stationaryCov_ok hN kernel (some back)

/-- Without points the function raises. -/
theorem C69_empty (kernel : ℕ → K) (back : Option (ℕ → K)) : stationaryCov 0 kernel back = .error .index := rfl

example := C69_toeplitz (N := 3) (by decide) (fun i => (1 : ℚ) / (i + 1))
example := C69_backward (N := 3) (by decide) (fun i => (1 : ℚ) / (i + 1)) (fun i => (i : ℚ))

end

/-! ### Karhunen-Loève noise -/

section
open MeasureTheory Matrix

/-- What `np.linalg.eig` promises about a matrix with real eigenvalues: columns of norm one, which are
eigenvectors. -/
structure EigContract {n : ℕ} (A : Mat ℝ n n) (lam : Fin n → ℝ) (V : Mat ℝ n n) : Prop where
  eig : A * V = V * Matrix.diagonal lam
  norm : ∀ j, ∑ i, V i j ^ 2 = 1

/-- White noise: uncorrelated numbers of variance one. -/
structure IsWhite {ι Ω : Type*} [MeasurableSpace Ω] (μ : Measure Ω) (w : ι → Ω → ℝ) : Prop where
  int : ∀ i j, Integrable (fun o => w i o * w j o) μ
  one : ∀ i, ∫ o, w i o * w i o ∂μ = 1
  zero : ∀ i j, i ≠ j → ∫ o, w i o * w j o ∂μ = 0

/-- The covariance of two linear combinations of white noise. -/
theorem IsWhite.cov {ι Ω : Type*} [MeasurableSpace Ω] {μ : Measure Ω} {w : ι → Ω → ℝ} (hw : IsWhite μ w)
    (s : Finset ι) (a b : ι → ℝ) :
    ∫ o, (∑ k ∈ s, a k * w k o) * (∑ k ∈ s, b k * w k o) ∂μ = ∑ k ∈ s, a k * b k := by
  classical
  have e : (fun o => (∑ k ∈ s, a k * w k o) * (∑ k ∈ s, b k * w k o)) =
      fun o => ∑ k ∈ s, ∑ l ∈ s, (a k * b l) * (w k o * w l o) := by
    funext o
    rw [sum_mul_sum]
    exact sum_congr rfl fun k _ => sum_congr rfl fun l _ => by ring
  rw [e, integral_finsetSum _ fun k _ => integrable_finsetSum _ fun l _ => (hw.int k l).const_mul _]
  refine sum_congr rfl fun k hk => ?_
  rw [integral_finsetSum _ fun l _ => (hw.int k l).const_mul _, sum_eq_single k]
  · rw [integral_const_mul, hw.one, mul_one]
  · intro l _ hl
    rw [integral_const_mul, hw.zero k l (Ne.symm hl), mul_zero]
  · exact fun h => absurd hk h

/-- There is white noise: the coordinates, for the counting measure. -/
theorem exampleWhite (n : ℕ) : IsWhite (Measure.count : Measure (Fin n)) fun k o => if k = o then 1 else 0 := by
  refine ⟨fun i j => .of_finite, fun i => ?_, fun i j hij => ?_⟩
  · rw [integral_fintype .of_finite]
    simp [Measure.real]
  · rw [integral_fintype .of_finite]
    simpa [Measure.real] using hij

/-- The covariance of the generated noise in terms of the eigenvectors, whatever they are. -/
theorem klGenerate_cov {n : ℕ} {lam : Fin n → ℝ} (hl : ∀ k, 0 ≤ lam k) (V : Mat ℝ n n) {dt : ℝ} (hdt : 0 ≤ dt) {size : Option ℕ}
    (hs : size.getD n ≤ n) :
    ∃ noise : (Fin n → ℝ) → Arr ℝ, (∀ w, klGenerate lam V dt size w = .ok (noise w)) ∧ (∀ w, (noise w).len = size.getD n) ∧
      ∀ {Ω : Type} [MeasurableSpace Ω] {μ : Measure Ω} {w : Fin n → Ω → ℝ}, IsWhite μ w →
        ∀ i j (hi : i < n) (hj : j < n),
          ∫ o, (noise fun k => w k o).get i * (noise fun k => w k o).get j ∂μ =
            dt * (V * Matrix.diagonal lam * Vᵀ) ⟨i, hi⟩ ⟨j, hj⟩ := by
  refine ⟨_, fun w => by unfold klGenerate; rw [if_neg (by omega)], fun w => rfl, ?_⟩
  intro Ω _ μ w hw i j hi hj
  have e : ∀ (i : Fin n) o, V.mulVec ((Matrix.diagonal fun k => √(lam k)).mulVec fun k => w k o) i * √dt =
      ∑ k, (V i k * √(lam k) * √dt) * w k o := by
    intro i o
    simp only [Matrix.mulVec, dotProduct, Matrix.diagonal_apply, ite_mul, zero_mul, sum_ite_eq, mem_univ, if_true, sum_mul]
    exact sum_congr rfl fun k _ => by ring
  simp only [dif_pos hi, dif_pos hj, e]
  rw [hw.cov, Matrix.mul_apply, mul_sum]
  refine sum_congr rfl fun k _ => ?_
  rw [Matrix.mul_diagonal, Matrix.transpose_apply]
  calc _ = V ⟨i, hi⟩ k * V ⟨j, hj⟩ k * (√(lam k) * √(lam k)) * (√dt * √dt) := by ring
    _ = _ := by rw [Real.mul_self_sqrt (hl k), Real.mul_self_sqrt hdt]; ring

theorem EigContract.nonneg {n : ℕ} {A V : Mat ℝ n n} {lam : Fin n → ℝ} (h : EigContract A lam V)
    (hA : ∀ x : Fin n → ℝ, 0 ≤ x ⬝ᵥ A.mulVec x) (k : Fin n) : 0 ≤ lam k := by
  have e : A.mulVec (fun i => V i k) = lam k • fun i => V i k := by
    funext i
    have := congrFun (congrFun h.eig i) k
    rw [Matrix.mul_diagonal, Matrix.mul_apply] at this
    simp only [Matrix.mulVec, dotProduct, Pi.smul_apply, smul_eq_mul, this, mul_comm]
  have := hA fun i => V i k
  rw [e, dotProduct_smul, smul_eq_mul] at this
  have hn : (fun i => V i k) ⬝ᵥ (fun i => V i k) = 1 := by
    rw [← h.norm k]
    simp only [dotProduct, pow_two]
  rwa [hn, mul_one] at this

theorem EigContract.orthonormal {n : ℕ} {A V : Mat ℝ n n} {lam : Fin n → ℝ} (h : EigContract A lam V) (hA : A.IsSymm)
    (hd : Function.Injective lam) : Vᵀ * V = 1 := by
  ext k l
  rw [Matrix.mul_apply]
  simp only [Matrix.transpose_apply]
  rcases eq_or_ne k l with rfl | hkl
  · rw [Matrix.one_apply_eq, ← h.norm k]
    exact sum_congr rfl fun i _ => by ring
  · rw [Matrix.one_apply_ne hkl]
    have e1 : (Vᵀ * A * V) k l = lam l * ∑ i, V i k * V i l := by
      rw [Matrix.mul_assoc, h.eig, ← Matrix.mul_assoc, Matrix.mul_diagonal, Matrix.mul_apply, mul_comm]
      simp only [Matrix.transpose_apply]
    have e2 : (Vᵀ * A * V) k l = lam k * ∑ i, V i k * V i l := by
      have : Vᵀ * A = Matrix.diagonal lam * Vᵀ := by
        have := congrArg Matrix.transpose h.eig
        rwa [Matrix.transpose_mul, Matrix.transpose_mul, Matrix.diagonal_transpose, hA.eq] at this
      rw [this, Matrix.mul_assoc, Matrix.diagonal_mul, Matrix.mul_apply]
      simp only [Matrix.transpose_apply]
    have : (lam l - lam k) * ∑ i, V i k * V i l = 0 := by rw [sub_mul, ← e1, ← e2, sub_self]
    rcases mul_eq_zero.1 this with h0 | h0
    · exact absurd (hd (sub_eq_zero.1 h0)).symm hkl
    · exact h0

/-- **C70** when the eigenvectors returned by `np.linalg.eig` are orthonormal. `np.linalg.eig` does not promise
this when an eigenvalue is repeated: the full statement is `C70_distinct_partial` without its last hypothesis, and
`C70_degenerate_fails` shows that it does not follow from the promises of `np.linalg.eig`. -/
theorem C70_orthonormal_partial {n : ℕ} {A V : Mat ℝ n n} {lam : Fin n → ℝ} (h : EigContract A lam V)
    (hA : ∀ x : Fin n → ℝ, 0 ≤ x ⬝ᵥ A.mulVec x) (hV : Vᵀ * V = 1) {dt : ℝ} (hdt : 0 ≤ dt) {size : Option ℕ} (hs : size.getD n ≤ n) :
    ∃ noise : (Fin n → ℝ) → Arr ℝ, (∀ w, klGenerate lam V dt size w = .ok (noise w)) ∧ (∀ w, (noise w).len = size.getD n) ∧
      ∀ {Ω : Type} [MeasurableSpace Ω] {μ : Measure Ω} {w : Fin n → Ω → ℝ}, IsWhite μ w →
        ∀ i j (hi : i < n) (hj : j < n),
          ∫ o, (noise fun k => w k o).get i * (noise fun k => w k o).get j ∂μ = dt * A ⟨i, hi⟩ ⟨j, hj⟩ := by
  obtain ⟨noise, h1, h2, h3⟩ := klGenerate_cov (h.nonneg hA) V hdt hs
  refine ⟨noise, h1, h2, fun {Ω} _ {μ w} hw i j hi hj => ?_⟩
  rw [h3 hw i j hi hj, ← h.eig, Matrix.mul_assoc, mul_eq_one_comm.1 hV, Matrix.mul_one]

/-- **C70** for a symmetric positive semi-definite matrix with distinct eigenvalues. -/
theorem C70_distinct_partial {n : ℕ} {A V : Mat ℝ n n} {lam : Fin n → ℝ} (h : EigContract A lam V) (hS : A.IsSymm)
    (hA : ∀ x : Fin n → ℝ, 0 ≤ x ⬝ᵥ A.mulVec x) {dt : ℝ} (hdt : 0 ≤ dt) {size : Option ℕ} (hs : size.getD n ≤ n)
    (hd : Function.Injective lam) :
    ∃ noise : (Fin n → ℝ) → Arr ℝ, (∀ w, klGenerate lam V dt size w = .ok (noise w)) ∧ (∀ w, (noise w).len = size.getD n) ∧
      ∀ {Ω : Type} [MeasurableSpace Ω] {μ : Measure Ω} {w : Fin n → Ω → ℝ}, IsWhite μ w →
        ∀ i j (hi : i < n) (hj : j < n),
          ∫ o, (noise fun k => w k o).get i * (noise fun k => w k o).get j ∂μ = dt * A ⟨i, hi⟩ ⟨j, hj⟩ :=
  C70_orthonormal_partial h hA (h.orthonormal hS hd) hdt hs

/-- **C70** Requests longer than the matrix are rejected. -/
theorem C70_too_long {n : ℕ} (lam : Fin n → ℝ) (V : Mat ℝ n n) (dt : ℝ) {size : ℕ} (hs : n < size) (w : Fin n → ℝ) :
    klGenerate lam V dt (some size) w = .error .value := by
  unfold klGenerate
  rw [if_pos (by simpa using hs)]

/-- A covariance matrix with eigenvalues one and three. -/
def exampleCov : Mat ℝ 2 2 := !![2, 1; 1, 2]

theorem exampleCov_eig : EigContract exampleCov ![3, 1] !![1 / √2, 1 / √2; 1 / √2, -(1 / √2)] := by
  have h : (1 / √2) ^ 2 = (1 / 2 : ℝ) := by rw [div_pow, Real.sq_sqrt (by norm_num)]; norm_num
  constructor
  · ext i j
    fin_cases i <;> fin_cases j <;> simp [exampleCov, Matrix.mul_apply, Fin.sum_univ_two] <;> ring
  · intro j
    fin_cases j <;> simp [Fin.sum_univ_two] <;> norm_num

example := C70_distinct_partial exampleCov_eig (by ext i j; fin_cases i <;> fin_cases j <;> simp [exampleCov])
  (fun x => by
    simp [exampleCov, dotProduct, Matrix.mulVec, Fin.sum_univ_two]
    nlinarith [sq_nonneg (x 0 + x 1), sq_nonneg (x 0), sq_nonneg (x 1)])
  (dt := 1 / 2) (by norm_num) (size := some 1) (by decide) (by
    intro i j h
    fin_cases i <;> fin_cases j <;> simp at h ⊢)
example := C70_too_long ![3, 1] !![1, 0; 0, 1] 1 (size := 3) (by norm_num) ![1, 1]

/-- The promises of `np.linalg.eig` are not enough when an eigenvalue is repeated: for the identity matrix, unit
eigenvectors that are not orthogonal give another covariance. -/
theorem C70_degenerate_fails : ∃ (A V : Mat ℝ 2 2) (lam : Fin 2 → ℝ), EigContract A lam V ∧ A.IsSymm ∧
    (∀ x : Fin 2 → ℝ, 0 ≤ x ⬝ᵥ A.mulVec x) ∧ IsUnit V.det ∧
    ∃ noise : (Fin 2 → ℝ) → Arr ℝ, (∀ w, klGenerate lam V 1 none w = .ok (noise w)) ∧
      ∀ {Ω : Type} [MeasurableSpace Ω] {μ : Measure Ω} {w : Fin 2 → Ω → ℝ}, IsWhite μ w →
        ∫ o, (noise fun k => w k o).get 0 * (noise fun k => w k o).get 1 ∂μ ≠ 1 * A 0 1 := by
  refine ⟨1, !![1, 3 / 5; 0, 4 / 5], fun _ => 1, ⟨?_, ?_⟩, Matrix.isSymm_one, ?_, ?_, ?_⟩
  · ext i j
    fin_cases i <;> fin_cases j <;> simp [Matrix.mul_apply, Fin.sum_univ_two]
  · intro j
    fin_cases j <;> simp [Fin.sum_univ_two] <;> norm_num
  · intro x
    rw [Matrix.one_mulVec]
    exact sum_nonneg fun i _ => mul_self_nonneg _
  · simp [Matrix.det_fin_two]
  · obtain ⟨noise, h1, h2, h3⟩ := klGenerate_cov (lam := fun _ : Fin 2 => (1 : ℝ)) (fun _ => zero_le_one)
      !![1, 3 / 5; 0, 4 / 5] (dt := 1) zero_le_one (size := none) le_rfl
    refine ⟨noise, h1, fun {Ω} _ {μ w} hw => ?_⟩
    rw [h3 hw 0 1 (by decide) (by decide)]
    simp [Matrix.mul_apply, Fin.sum_univ_two]

end

end Verif
