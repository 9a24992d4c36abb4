import Verif.Props.Integrate

/-!
# Construction of the integrators, initial conditions and the scalar integrator (C85, C86, C88, C89)
-/

namespace Verif

open Finset

set_option linter.unusedSectionVars false

/-- C85 is false: without a model the constructor never succeeds, whatever the keyword arguments. -/
theorem C85_no_model_fails (kernelArg : ℕ × ℕ × ℕ) (coeffs : Option (ℕ × ℕ)) (trunc : Option ℕ) :
    ∃ e, integratorInit none kernelArg coeffs trunc = .error e := by
  unfold integratorInit
  cases h : noiseShape none kernelArg coeffs trunc with
  | error e => exact ⟨e, rfl⟩
  | ok r => exact ⟨.attribute, rfl⟩

/-- C85: with arguments that fit together, what is raised is an `AttributeError`. -/
theorem C85_attribute_error (kernelArg : ℕ × ℕ × ℕ) (trunc : Option ℕ) :
    integratorInit none kernelArg none trunc = .error .attribute := rfl

/-- **C86**, when the truncation is not shorter than the kernel (the default one is not): the constructor
succeeds. The full statement (any truncation) is false: `C86_truncation_fails`. -/
theorem C86_truncation_partial {m : IntModel} {kernelArg : ℕ × ℕ × ℕ} {coeffs : Option (ℕ × ℕ)} {trunc : Option ℕ} {l : ℕ}
    (hc : (coeffs <|> m.invMass) = some (m.nK, l)) (hl : m.dim ≤ l) (hL : 2 ≤ m.kernelLen)
    (ht : m.kernelLen ≤ trunc.getD m.truncInd) : integratorInit (some m) kernelArg coeffs trunc = .ok m.kernelLen := by
  unfold integratorInit noiseShape
  simp only [hc, if_true, bind, Except.bind, pure, Except.pure, min_eq_right ht, colouredInit]
  rw [if_neg (by omega)]
  by_cases hd : m.dim = 0
  · rw [if_pos hd]
  · rw [if_neg hd, if_neg (by omega), if_neg (by omega), if_neg (by omega), if_neg (by omega), if_neg (by omega)]

/-- C86 is false: a truncation shorter than the kernel always makes the constructor raise, because the noise
generator gets the times of the whole kernel. -/
theorem C86_truncation_fails {m : IntModel} {kernelArg : ℕ × ℕ × ℕ} {coeffs : Option (ℕ × ℕ)} {k : ℕ} (hd : 1 ≤ m.dim)
    (hk : k < m.kernelLen) : ∃ e, integratorInit (some m) kernelArg coeffs (some k) = .error e := by
  unfold integratorInit noiseShape
  cases hc : (coeffs <|> m.invMass) with
  | none =>
    simp only [hc, bind, Except.bind]
    exact ⟨_, rfl⟩
  | some c =>
    obtain ⟨a, l⟩ := c
    by_cases h : a = m.nK
    · simp only [hc, if_pos h, bind, Except.bind, pure, Except.pure, Option.getD_some, min_eq_left hk.le]
      have : ∃ e, colouredInit m.kernelLen k l m.dim = .error e := by
        unfold colouredInit
        split_ifs
        · exact ⟨_, rfl⟩
        · omega
        all_goals first | exact ⟨_, rfl⟩ | omega
      obtain ⟨e, he⟩ := this
      exact ⟨e, by simp only [he]⟩
    · simp only [hc, if_neg h, bind, Except.bind]
      exact ⟨_, rfl⟩

/-- C86: what is raised, for a truncation that leaves a usable kernel. -/
theorem C86_value_error {m : IntModel} {kernelArg : ℕ × ℕ × ℕ} {coeffs : Option (ℕ × ℕ)} {k l : ℕ} (hd : 1 ≤ m.dim)
    (hc : (coeffs <|> m.invMass) = some (m.nK, l)) (hl : m.dim ≤ l) (h2 : 2 ≤ k)
    (hk : k < m.kernelLen) : integratorInit (some m) kernelArg coeffs (some k) = .error .value := by
  unfold integratorInit noiseShape
  simp only [hc, if_true, bind, Except.bind, pure, Except.pure, Option.getD_some, min_eq_left hk.le, colouredInit]
  rw [if_neg (by omega), if_neg (by omega), if_neg (by omega), if_neg (by omega), if_neg (by omega), if_pos (by omega)]

example := C86_truncation_partial (m := ⟨10, 3, 1, 12, some (3, 1)⟩) (kernelArg := (0, 0, 0)) (coeffs := none) (trunc := none) (l := 1)
  rfl (by decide) (by decide) (by decide)
example := C86_truncation_fails (m := ⟨10, 3, 1, 12, some (3, 1)⟩) (kernelArg := (0, 0, 0)) (coeffs := none) (k := 5) (by decide) (by decide)
example := C86_value_error (m := ⟨10, 3, 1, 12, some (3, 1)⟩) (kernelArg := (0, 0, 0)) (coeffs := none) (k := 5) (l := 1)
  (by decide) rfl (by decide) (by decide) (by decide)

section
variable {K : Type*} [Field K]

/-- A series extended by zero to negative times. -/
def Spec.extendZero (v : ℕ → K) (i : ℤ) : K := if i < 0 then 0 else v i.toNat

/-- **C88** The memory integral of the scalar integrator, together with the term at lag zero that is added in
`f_rk`, is the trapezoidal convolution over the whole kernel of the velocities, extended by zero before the start. -/
theorem C88_trapezoid [CharZero K] {kernel : Arr K} (hT : 2 ≤ kernel.len) (dt : K) (v : ℕ → K) (n : ℕ) :
    ∃ r, bgleMem kernel dt v n = .ok r ∧
      r + 1 / 2 * kernel.get 0 * v n * dt =
        Spec.trapzRule dt (fun j => kernel.get j * Spec.extendZero v (n - j)) (kernel.len - 1) := by
  unfold bgleMem
  rw [if_neg (by omega)]
  refine ⟨_, rfl, ?_⟩
  have hw : ∀ i, i ≤ kernel.len - 2 → (if n < kernel.len then
      (if (if n < kernel.len then kernel.len + 1 else n) - 1 - i < kernel.len - n + 1 then 0
        else v ((if n < kernel.len then kernel.len + 1 else n) - 1 - i - (kernel.len - n + 1)))
      else v ((if n < kernel.len then kernel.len + 1 else n) - 1 - i)) = Spec.extendZero v (n - (1 + i : ℕ)) := by
    intro i hi
    unfold Spec.extendZero
    by_cases c : n < kernel.len
    · simp only [if_pos c]
      by_cases c' : kernel.len + 1 - 1 - i < kernel.len - n + 1
      · rw [if_pos c', if_pos (by omega)]
      · rw [if_neg c', if_neg (by omega)]
        congr 1
        omega
    · simp only [if_neg c]
      rw [if_neg (by omega)]
      congr 1
      omega
  beta_reduce
  rw [trapzRule_eq _ _ (show 1 ≤ kernel.len - 1 by omega), hw _ le_rfl, sum_congr rfl fun i hi => by
    rw [hw i (by have := mem_range.1 hi; omega)]]
  rw [sum_Ico_eq_sum_range, show kernel.len - 1 - 1 = kernel.len - 2 by omega, show 1 + (kernel.len - 2) = kernel.len - 1 by omega]
  have h0 : Spec.extendZero v ((n : ℤ) - (0 : ℕ)) = v n := by simp [Spec.extendZero]
  rw [h0]
  simp only [smul_eq_mul, ← mul_sum]
  ring

/-- A kernel of one point makes the scalar integrator raise. -/
theorem C88_short {kernel : Arr K} (hT : kernel.len < 2) (dt : K) (v : ℕ → K) (n : ℕ) : bgleMem kernel dt v n = .error .index := by
  unfold bgleMem
  rw [if_pos hT]

example := C88_trapezoid (kernel := ⟨3, fun i => (i : ℚ)⟩) (by decide) (1 / 2) (fun t => (t : ℚ)) 1

/-- **C89** `initial_conditions` returns `n_mem + 1` consecutive frames of the trajectory, the last of which is the one
drawn, and `run` accepts them. -/
theorem C89_initial [DecidableEq K] {d nB nD b : ℕ} (I : Integrator K d nB nD b) (xva : InitData K d) {nMem point : ℕ}
    (h1 : nMem ≤ point) (h2 : point < xva.n) :
    ∃ D, initialConditions I.dt xva nMem point = .ok D ∧ D.n = nMem + 1 ∧
      (∀ t ≤ nMem, D.x t = xva.x (point - nMem + t) ∧ D.v t = xva.v (point - nMem + t)) ∧
      D.x nMem = xva.x point ∧ D.v nMem = xva.v point ∧
      (2 ≤ I.kernel.len → ∀ nSteps noise, nMem + 1 ≤ nSteps → ∃ trj, I.run nSteps (some D) noise = .ok trj) := by
  unfold initialConditions
  rw [if_neg (by omega)]
  have e : point - nMem + nMem = point := by omega
  refine ⟨_, rfl, rfl, fun t _ => ⟨rfl, rfl⟩, by simp only [e], by simp only [e], fun hT nSteps noise hs => ?_⟩
  exact I.run_ok noise hT (by simp) (by simpa using hs) (by rintro D ⟨⟩ t _; rfl)

/-- **C89** Trajectories that are too short are rejected. -/
theorem C89_short {d : ℕ} (dt : K) (xva : InitData K d) {nMem : ℕ} (h : xva.n ≤ nMem) (point : ℕ) :
    initialConditions dt xva nMem point = .error .value := by
  unfold initialConditions
  rw [if_pos h]

example := C89_initial (exampleInt 1 1) (exampleInit 7) (nMem := 2) (point := 5) (by decide) (by decide)

end

end Verif
