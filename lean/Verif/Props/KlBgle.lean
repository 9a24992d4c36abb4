import Verif.Props.SuperposeBgle
import Verif.Props.NoiseGen
import Mathlib.Probability.ProbabilityMassFunction.Integrals

/-!
# Simulations of `BGLEIntegrator` with the noise of `KarhunenLoeveNoiseGenerator` (C184)
-/

namespace Verif

open Finset MeasureTheory ProbabilityTheory

/-- **C184** Let the force be affine and the noise be drawn by `KarhunenLoeveNoiseGenerator` for a symmetric positive semi-definite matrix `A` with
distinct eigenvalues, from white noise of mean zero. Every simulation that is not longer than the matrix succeeds. The mean of each frame is the
frame of the simulation without noise, and the covariances of the frames are those of `dt A`, multiplied with the responses to the noise. -/
theorem C184_simulate {n : ℕ} {A V : Mat ℝ n n} {lam : Fin n → ℝ} (hE : EigContract A lam V) (hS : A.IsSymm)
    (hA : ∀ x : Fin n → ℝ, 0 ≤ x ⬝ᵥ A.mulVec x) (hd : Function.Injective lam) {δ : ℝ} (hδ : 0 ≤ δ)
    {B : Bgle ℝ} {p g : ℝ} (hB : ∀ x, B.force x = p * x + g) (hT : 2 ≤ B.kernel.len) {nSteps : ℕ} (h1 : 1 ≤ nSteps) (hn : nSteps ≤ n) (x0 v0 : ℝ)
    {Ω : Type} [MeasurableSpace Ω] {P : Measure Ω} [IsProbabilityMeasure P] {w : Fin n → Ω → ℝ} (hw : IsWhite P w)
    (hm : ∀ k, MemLp (w k) 2 P) (h0 : ∀ k, ∫ ω, w k ω ∂P = 0) :
    ∃ (free : BgleTrj ℝ) (resp : ℕ → BgleTrj ℝ) (noise : Ω → Arr ℝ) (trj : Ω → BgleTrj ℝ),
      B.integrate nSteps (.numpy x0) v0 nSteps (fun _ => 0) = .ok free ∧
      (∀ r, B.integrate nSteps (.numpy x0) v0 nSteps (fun t => if t = r then 1 else 0) = .ok (resp r)) ∧
      (∀ ω, klGenerate lam V δ (some nSteps) (fun k => w k ω) = .ok (noise ω) ∧
        B.integrate nSteps (.numpy x0) v0 (noise ω).len (noise ω).get = .ok (trj ω)) ∧
      ∀ t < nSteps, (∫ ω, (trj ω).x t ∂P = free.x t ∧ ∫ ω, (trj ω).v t ∂P = free.v t) ∧ ∀ t' < nSteps,
        cov[fun ω => (trj ω).x t, fun ω => (trj ω).x t'; P] = ∑ r : Fin nSteps, ∑ r' : Fin nSteps,
          ((resp r).x t - free.x t) * ((resp r').x t' - free.x t') * (δ * A (r.castLE hn) (r'.castLE hn)) ∧
        cov[fun ω => (trj ω).x t, fun ω => (trj ω).v t'; P] = ∑ r : Fin nSteps, ∑ r' : Fin nSteps,
          ((resp r).x t - free.x t) * ((resp r').v t' - free.v t') * (δ * A (r.castLE hn) (r'.castLE hn)) ∧
        cov[fun ω => (trj ω).v t, fun ω => (trj ω).v t'; P] = ∑ r : Fin nSteps, ∑ r' : Fin nSteps,
          ((resp r).v t - free.v t) * ((resp r').v t' - free.v t') * (δ * A (r.castLE hn) (r'.castLE hn)) := by
  obtain ⟨noise, n1, n2, n3⟩ := C70_distinct_partial hE hS hA hδ (size := some nSteps) hn hd
  have hl : ∀ (i : ℕ) (hi : i < n) (u : Fin n → ℝ), (noise u).get i = ∑ k, (V ⟨i, hi⟩ k * √(lam k) * √δ) * u k := by
    intro i hi u
    have := n1 u
    unfold klGenerate at this
    rw [if_neg (by simpa using hn)] at this
    injection this with this
    rw [← this]
    simp only [dif_pos hi, Matrix.mulVec, dotProduct, Matrix.diagonal_apply, ite_mul, zero_mul, sum_ite_eq, mem_univ, if_true, sum_mul]
    exact sum_congr rfl fun k _ => by ring
  have hN : ∀ (r : ℕ) (hr : r < nSteps), (fun ω => (noise fun k => w k ω).get r) = fun ω => ∑ k, (V ⟨r, hr.trans_le hn⟩ k * √(lam k) * √δ) * w k ω :=
    fun r hr => funext fun ω => hl r (by omega) _
  have hL : ∀ r < nSteps, MemLp (fun ω => (noise fun k => w k ω).get r) 2 P := by
    intro r hr
    rw [hN r hr]
    exact memLp_finsetSum _ fun k _ => (hm k).const_mul _
  have hz : ∀ r < nSteps, ∫ ω, (noise fun k => w k ω).get r ∂P = 0 := by
    intro r hr
    rw [hN r hr, integral_finsetSum _ fun k _ => ((hm k).integrable one_le_two).const_mul _]
    exact sum_eq_zero fun k _ => by rw [integral_const_mul, h0, mul_zero]
  have hc : ∀ r : Fin nSteps, ∀ r' : Fin nSteps, cov[fun ω => (noise fun k => w k ω).get r, fun ω => (noise fun k => w k ω).get r'; P] =
      δ * A (r.castLE hn) (r'.castLE hn) := by
    intro r r'
    rw [covariance_eq_sub (hL r r.2) (hL r' r'.2), hz r r.2, zero_mul, sub_zero]
    exact n3 hw r r' (by omega) (by omega)
  obtain ⟨free, resp, trj, a1, a2, a3, a4⟩ := C183_covariance hB hT h1 x0 v0 (noise := fun ω r => (noise fun k => w k ω).get r) hL
  obtain ⟨trj', mean, b1, b2, b3⟩ := C183_mean hB hT h1 x0 v0 (noise := fun ω r => (noise fun k => w k ω).get r)
    fun r hr => (hL r hr).integrable one_le_two
  obtain rfl : trj' = trj := funext fun ω => by
    have := b1 ω
    rw [a3 ω] at this
    exact (Except.ok.inj this).symm
  obtain ⟨u1, u2, c1, c2, c3⟩ := C119_prefix (B := B) hT h1 le_rfl (x0 := x0) (v0 := v0) (noise := fun r => ∫ ω, (noise fun k => w k ω).get r ∂P)
    (noise' := fun _ => 0) fun t ht => hz t ht
  rw [b2] at c1
  cases c1
  rw [a1] at c2
  cases c2
  refine ⟨free, resp, fun ω => noise fun k => w k ω, trj', a1, a2, fun ω => ⟨n1 _, ?_⟩, fun t ht => ⟨⟨?_, ?_⟩, fun t' ht' => ?_⟩⟩
  · rw [n2]
    exact a3 ω
  · rw [(b3 t ht).1.2, (c3 t ht).1]
  · rw [(b3 t ht).2.2, (c3 t ht).2.1]
  · obtain ⟨e1, e2, e3⟩ := a4 t ht t' ht'
    rw [e1, e2, e3]
    simp only [Finset.sum_range, hc]
    exact ⟨trivial, trivial, trivial⟩

/-- **C184** A simulation longer than the matrix is not started: the generator raises. -/
theorem C184_too_long {n : ℕ} (lam : Fin n → ℝ) (V : Mat ℝ n n) (δ : ℝ) (B : Bgle ℝ) {nSteps : ℕ} (hn : n < nSteps) (x0 : Start ℝ) (v0 : ℝ) (w : Fin n → ℝ) :
    (klGenerate lam V δ (some nSteps) w >>= fun noise => B.integrate nSteps x0 v0 noise.len noise.get) = .error .value := by
  rw [C70_too_long lam V δ hn w]
  rfl

/-- Two coins. -/
noncomputable def coinsLaw : Measure (Bool × Bool) := (PMF.uniformOfFintype (Bool × Bool)).toMeasure

noncomputable instance : IsProbabilityMeasure coinsLaw := by
  unfold coinsLaw
  infer_instance

def coinsNoise (k : Fin 2) (ω : Bool × Bool) : ℝ := if (if k = 0 then ω.1 else ω.2) then 1 else -1

theorem coins_integral (f : Bool × Bool → ℝ) : ∫ ω, f ω ∂coinsLaw = (f (true, true) + f (true, false) + f (false, true) + f (false, false)) / 4 := by
  unfold coinsLaw
  rw [PMF.integral_eq_sum]
  simp [Fintype.sum_prod_type, PMF.uniformOfFintype_apply]
  ring

theorem coins_white : IsWhite coinsLaw coinsNoise := by
  refine ⟨fun i j => .of_finite, fun i => ?_, fun i j hij => ?_⟩
  · rw [coins_integral]
    fin_cases i <;> simp [coinsNoise] <;> norm_num
  · rw [coins_integral]
    fin_cases i <;> fin_cases j <;> simp [coinsNoise] at hij ⊢

example := C184_simulate exampleCov_eig (by ext i j; fin_cases i <;> fin_cases j <;> simp [exampleCov])
  (fun x => by
    simp only [exampleCov, dotProduct, Matrix.mulVec, Fin.sum_univ_two, Matrix.of_apply, Matrix.cons_val_zero, Matrix.cons_val_one, Matrix.cons_val']
    nlinarith [sq_nonneg (x 0 + x 1), sq_nonneg (x 0), sq_nonneg (x 1)])
  (fun i j h => by fin_cases i <;> fin_cases j <;> simp at h ⊢) (δ := 1 / 2) (by norm_num)
  (springBgle_linear ℝ) (by simp [springBgle]) (nSteps := 2) (by norm_num) le_rfl 3 1 coins_white (fun _ => .of_discrete)
  (fun k => by rw [coins_integral]; fin_cases k <;> simp [coinsNoise])
example := C184_too_long ![3, 1] !![1, 0; 0, 1] 1 (springBgle ℝ) (nSteps := 3) (by norm_num) (.numpy 3) 1 ![1, 1]

end Verif
