import Verif.Props.Features
import Verif.Model.LocalFeatures

/-!
# Higher orders of derivation (C117)
-/

namespace Verif

open Spec

/-- **C117**: the indicator features with one of the named boundaries reject the orders above two; an unknown name is
rejected whatever the order. -/
theorem C117_indicator {K : Type*} [Field K] [LinearOrder K] (s : String) {order : ℕ} (bd : Arr (K × K)) (periodic : Bool)
    (x : K) :
    (s ∈ ["tricube", "triweight", "quartic"] → 2 < order → 0 < bd.len →
      smoothIndicatorDeriv (.name s) order bd periodic x = .error .type) ∧
    (s ∉ ["tricube", "triweight", "quartic"] → smoothIndicatorDeriv (.name s) order bd periodic x = .error .value) := by
  constructor
  · intro hs h hb
    obtain ⟨f, hf⟩ : ∃ f, boundaryOf (K := K) (.name s) = .ok f := by
      simp only [List.mem_cons, List.not_mem_nil, or_false] at hs
      rcases hs with rfl | rfl | rfl <;> exact ⟨_, rfl⟩
    have h0 : bd.len ≠ 0 := by omega
    have h2 : ¬ order ≤ 2 := by omega
    simp [smoothIndicatorDeriv, hf, bind, Except.bind, h0, boundarySupports, h2, throw, throwThe, MonadExceptOf.throw]
  · intro hs
    have hf : boundaryOf (K := K) (.name s) = .error .value := by
      simp only [List.mem_cons, List.not_mem_nil, or_false, not_or] at hs
      unfold boundaryOf
      split <;> simp_all
    simp [smoothIndicatorDeriv, hf, bind, Except.bind]

/-- **C117**: the Fourier features reject the antiderivatives above order one. -/
theorem C117_fourier_antiderivative (freq : ℝ) (order dim : ℕ) {r : ℕ} (hr : 1 < r) (x : ℕ → ℝ) :
    fourierAntiderivative freq order dim r x = .error .notImplemented := by
  unfold fourierAntiderivative
  rw [if_pos hr]

/-- **C117**: the derivatives of the linear features of any order are right: those of order two and more are zero. -/
theorem C117_linear (dim : ℕ) {r : ℕ} (hr : 1 ≤ r) (x : ℕ → ℝ) (j i : ℕ) (idx : List ℕ) :
    PartialDeriv (fun y => (linearDeriv dim r y).get j idx) x i ((linearDeriv dim (r + 1) x).get j (i :: idx)) := by
  have h : (linearDeriv dim (r + 1) x).get j (i :: idx) = 0 := by
    simp [linearDeriv, show r ≠ 0 by omega]
  rw [h]
  exact hasDerivAt_const _ _

/-- **C117** fails for the Fourier features: the orders above two are accepted, and the array that is returned contains the
first derivatives. -/
theorem C117_fourier_first (freq : ℝ) (order : ℕ) (constRemoved : Bool) (dim : ℕ) {r : ℕ} (hr : 2 < r) (x : ℕ → ℝ) (j i : ℕ) :
    (fourierDeriv freq order constRemoved dim r x).get j (List.replicate r i) =
      (fourierDeriv freq order constRemoved dim 1 x).get j [i] := by
  have e : ∀ a b : ℕ, (List.replicate r a = List.replicate r b) = (a = b) := by
    intro a b
    simp [show r ≠ 0 by omega]
  simp only [fourierDeriv, if_neg (show r ≠ 2 by omega), show (1 : ℕ) ≠ 2 by decide, if_false, fillDeriv_get, e]
  simp

/-- **C117** fails for the Fourier features: the third derivative that is returned is not the derivative of the second one. -/
theorem C117_fourier_fails :
    ¬ ∀ (freq : ℝ) (order : ℕ) (constRemoved : Bool) (dim r : ℕ) (x : ℕ → ℝ) (j i : ℕ) (idx : List ℕ), 1 ≤ r →
      PartialDeriv (fun y => (fourierDeriv freq order constRemoved dim r y).get j idx) x i
        ((fourierDeriv freq order constRemoved dim (r + 1) x).get j (i :: idx)) := by
  intro h
  have h1 := h 1 1 false 1 2 (fun _ => 0) 1 0 [0, 0] (by decide)
  have h2 := fourierFnDeriv_hasDerivAt 1 1 0
  have hs : Real.sqrt Real.pi ≠ 0 := (Real.sqrt_pos.2 Real.pi_pos).ne'
  have h3 : HasDerivAt (fun s : ℝ => fourierFnHess 1 1 s) (-1 / Real.sqrt Real.pi) 0 := by
    have e : (fun s : ℝ => fourierFnHess 1 1 s) = fun s => -Real.sin s / Real.sqrt Real.pi := by
      funext s
      simp [fourierFnHess]
    rw [e]
    have := (Real.hasDerivAt_sin 0).neg.div_const (Real.sqrt Real.pi)
    simpa using this
  simp only [PartialDeriv, fourierDeriv, fourierHessian, withConst] at h1
  norm_num at h1
  have h4 := h1.unique h3
  have h5 : (fourierFnDeriv 1 1 0 : ℝ) = 1 / Real.sqrt Real.pi := by simp [fourierFnDeriv]
  rw [fillDeriv_get] at h4
  norm_num at h4
  rw [if_pos (by rfl), h5, div_eq_div_iff hs hs] at h4
  have : (1 : ℝ) = -1 := mul_right_cancel₀ hs h4
  norm_num at this

example := (C117_indicator (K := ℚ) "quartic" (order := 3) ⟨1, fun _ => (0, 1)⟩ false (1 / 2)).1 (by decide) (by decide) (by decide)
example := C117_fourier_antiderivative 1 2 3 (r := 2) (by decide) fun _ => 0
example := C117_fourier_first 2 3 true 2 (r := 3) (by decide) (fun _ => 1) 0 1
example := C117_linear 2 (r := 1) le_rfl (fun _ => 1) 0 1 [1]

end Verif
