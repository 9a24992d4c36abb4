import Verif.Lemmas.Api
import Verif.Props.VolterraMore

/-!
# Properties of `compute_kernel` as a whole: C09 - C16
-/

namespace Verif

open Finset

section
variable {K : Type*} [Field K] [DecidableEq K] {b x : ℕ}

/-! ### C09: linearity -/

/-- Linear combination of the correlations with the observable; `bkbk` (and its derivative) is the
one of the first argument. -/
def Corrs.lin (a : K) (c c' : Corrs K b x) : Corrs K b x where
  N := c.N
  bkbk := c.bkbk
  bkdx := a • c.bkdx + c'.bkdx
  dotbkdx := c.dotbkdx.bind fun d => c'.dotbkdx.map fun d' => a • d + d'
  dotbkbk := c.dotbkbk

/-- Linear combination of optional initial values. -/
def linK0 (a : K) (k0 k0' : Option (Mat K b x)) : Option (Mat K b x) :=
  k0.bind fun k => k0'.map fun k' => a • k + k'

theorem effectiveK0_lin {a : K} {c c' : Corrs K b x} {method : String}
    (hm : method ∈ ["trapz", "second_kind_rect", "second_kind_trapz"])
    {k0 k0' : Option (Mat K b x)} {k k' : Mat K b x} (hB : c'.bkbk = c.bkbk)
    (hk0 : k0.isSome = k0'.isSome)
    (h : effectiveK0 c method k0 = .ok (some k)) (h' : effectiveK0 c' method k0' = .ok (some k')) :
    effectiveK0 (c.lin a c') method (linK0 a k0 k0') = .ok (some (a • k + k')) := by
  rcases effectiveK0_needed hm h with rfl | ⟨rfl, d, e1, e2, e3⟩ <;>
    rcases effectiveK0_needed hm h' with rfl | ⟨rfl, d', f1, f2, f3⟩
  · exact effectiveK0_given _ _
  · simp at hk0
  · simp at hk0
  · refine effectiveK0_default hm (d := a • d + d') (by simp [Corrs.lin, e1, f1]) e2 ?_
    rw [hB] at f3
    change c.bkbk 0 * (a • k + k') = a • d 0 + d' 0
    rw [Matrix.mul_add, Matrix.mul_smul, e3, f3]

/-- **C09.** For fixed `bkbk`, the kernel is linear in the correlation with the observable (and in
`k0`), for every method. -/
theorem C09_linear [CharZero K] {c c' : Corrs K b x} {n : ℕ} {dt a : K} {method : String}
    {k0 k0' : Option (Mat K b x)} {r r' : KernelData K b x}
    (hN : c'.N = c.N) (hB : c'.bkbk = c.bkbk) (hBd : c'.dotbkbk = c.dotbkbk)
    (hk0 : k0.isSome = k0'.isSome)
    (h : computeKernel (some c) n dt method k0 = .ok r)
    (h' : computeKernel (some c') n dt method k0' = .ok r') :
    ∃ s, computeKernel (some (c.lin a c')) n dt method (linK0 a k0 k0') = .ok s ∧
      s.time = r.time ∧ s.kernel.len = r.kernel.len ∧
      ∀ i, s.kernel.get i = a • r.kernel.get i + r'.kernel.get i := by
  have hn := ne_zero_of_ok h
  have hm := computeKernel_method h
  simp only [methodNames, List.mem_cons, List.not_mem_nil, or_false] at hm
  have rect : ∀ method ∈ ["rect", "rectangular"], computeKernel (some c) n dt method k0 = .ok r →
      computeKernel (some c') n dt method k0' = .ok r' →
      ∃ s, computeKernel (some (c.lin a c')) n dt method (linK0 a k0 k0') = .ok s ∧
      s.time = r.time ∧ s.kernel.len = r.kernel.len ∧
      ∀ i, s.kernel.get i = a • r.kernel.get i + r'.kernel.get i := by
    intro method hm h h'
    obtain ⟨hNn, ker, e, rfl⟩ := computeKernel_rect_ok hm h
    obtain ⟨-, ker', e', rfl⟩ := computeKernel_rect_ok hm h'
    rw [hN, hB] at e'
    rw [computeKernel_rect_eq _ _ hn hm]
    rw [show FKernel.firstKindRect ((c.lin a c').N - 1) (c.lin a c').bkbk (c.lin a c').bkdx dt = _ from
      FKernel.firstKindRect_lin a e e']
    exact ⟨_, finish_of_len hNn, rfl, rfl, fun i => rfl⟩
  rcases hm with rfl | rfl | rfl | rfl | rfl | rfl | rfl
  · exact rect _ (by decide) h h'
  · exact rect _ (by decide) h h'
  · obtain ⟨ker, e, hl, rfl⟩ := computeKernel_midpoint_ok h
    obtain ⟨ker', e', -, rfl⟩ := computeKernel_midpoint_ok h'
    rw [hN, hB] at e'
    rw [computeKernel_midpoint_eq _ _ hn]
    rw [show FKernel.firstKindMidpoint ((c.lin a c').N - 1) (c.lin a c').bkbk (c.lin a c').bkdx dt = _
      from FKernel.firstKindMidpoint_lin a e e']
    exact ⟨_, finish_of_len hl, rfl, rfl, fun i => rfl⟩
  · obtain ⟨ker, ker3, s, e, e3, es, hl, rfl⟩ := computeKernel_richardson_ok h
    obtain ⟨ker', ker3', s', e', e3', es', -, rfl⟩ := computeKernel_richardson_ok h'
    rw [hN, hB] at e' e3'
    rw [hN] at es'
    obtain ⟨l1, l2, l3⟩ := richardson_ok es
    obtain ⟨-, -, l3'⟩ := richardson_ok es'
    rw [computeKernel_richardson_eq _ _ hn, third_len, third_get, third_get]
    rw [show FKernel.firstKindMidpoint ((c.lin a c').N - 1) (c.lin a c').bkbk (c.lin a c').bkdx dt = _
      from FKernel.firstKindMidpoint_lin a e e']
    have e4 := FKernel.firstKindMidpoint_lin a e3 e3'
    rw [show FKernel.firstKindMidpoint (((c.lin a c').N + 2) / 3 - 1) (fun k => (c.lin a c').bkbk (3 * k))
      (fun k => (c.lin a c').bkdx (3 * k)) (3 * dt) = _ from e4]
    obtain ⟨t, ht, tl, tg⟩ := richardson_eq (a • ker + ker') (a • ker3 + ker3')
      (show midpointLen ((c.N + 2) / 3) ≤ (midpointLen c.N + 2) / 3 by omega)
    refine ⟨⟨t, _⟩, ?_, rfl, ?_, fun i => ?_⟩
    · simp only [Except.bind, Corrs.lin]
      rw [ht]
      exact finish_of_len (p := (t, _)) (by rw [tl, ← l2, hl])
    · exact tl.trans l2.symm
    · rw [tg, l3, l3']
      simp only [Pi.add_apply, Pi.smul_apply]
      module
  · obtain ⟨k, ker, s, ek, e, es, hl, rfl⟩ := computeKernel_trapz_ok h
    obtain ⟨k', ker', s', ek', e', es', -, rfl⟩ := computeKernel_trapz_ok h'
    rw [hN, hB] at e'
    rw [hN] at es'
    rw [computeKernel_trapz_eq _ _ hn, effectiveK0_lin (by decide) hB hk0 ek ek']
    obtain ⟨s1, hs1, sl, sg⟩ := smooth_eq c.N ker
    obtain ⟨s2, hs2, sl', sg'⟩ := smooth_eq c.N ker'
    rw [es] at hs1; cases hs1
    rw [es'] at hs2; cases hs2
    obtain ⟨t, ht, tl, tg⟩ := smooth_eq c.N (a • ker + ker')
    refine ⟨⟨t.insert0 (a • k + k'), _⟩, ?_, rfl, ?_, fun i => ?_⟩
    · simp only [Except.bind]
      rw [show FKernel.firstKindTrapz ((c.lin a c').N - 1) (a • k + k') (c.lin a c').bkbk
        (c.lin a c').bkdx dt = _ from FKernel.firstKindTrapz_lin a e e']
      simp only [Corrs.lin]
      rw [ht]
      exact finish_of_len (p := (t.insert0 (a • k + k'), _)) (by rw [← hl, Arr.insert0, tl, sl])
    · simp only [Arr.insert0, tl, sl]
    · simp only [Arr.insert0]
      split_ifs
      · rfl
      · rw [tg, sg, sg']
        simp only [Pi.add_apply, Pi.smul_apply]
        module
  · obtain ⟨hNn, d, bd, k, ker, ed, eb, ek, e, rfl⟩ := computeKernel_secondRect_ok h
    obtain ⟨-, d', bd', k', ker', ed', eb', ek', e', rfl⟩ := computeKernel_secondRect_ok h'
    rw [hBd, eb] at eb'; cases eb'
    rw [hN, hB] at e'
    rw [computeKernel_secondRect_eq _ _ hn, effectiveK0_lin (by decide) hB hk0 ek ek']
    refine ⟨⟨⟨c.N, a • ker + ker'⟩, fullTime n dt⟩, ?_, rfl, rfl, fun i => rfl⟩
    simp only [Except.bind, secondKindBranch, Corrs.lin, ed, ed', Option.bind_some, Option.map_some, eb]
    rw [FKernel.secondKindRect_lin a e e']
    exact finish_of_len hNn
  · obtain ⟨hNn, d, bd, k, ker, ed, eb, ek, e, rfl⟩ := computeKernel_secondTrapz_ok h
    obtain ⟨-, d', bd', k', ker', ed', eb', ek', e', rfl⟩ := computeKernel_secondTrapz_ok h'
    rw [hBd, eb] at eb'; cases eb'
    rw [hN, hB] at e'
    rw [computeKernel_secondTrapz_eq _ _ hn, effectiveK0_lin (by decide) hB hk0 ek ek']
    refine ⟨⟨⟨c.N, a • ker + ker'⟩, fullTime n dt⟩, ?_, rfl, rfl, fun i => rfl⟩
    simp only [Except.bind, secondKindBranch, Corrs.lin, ed, ed', Option.bind_some, Option.map_some, eb]
    rw [FKernel.secondKindTrapz_lin a e e']
    exact finish_of_len hNn

/-- `exCorrs` with another observable. -/
def exCorrs' : Corrs ℚ 1 1 :=
  { exCorrs with bkdx := fun n => !![1 / (n + 2)], dotbkdx := some fun n => !![(n : ℚ)] }

example : ∀ method ∈ methodNames,
    (computeKernel (some exCorrs) 6 1 method none).isOk ∧
    (computeKernel (some exCorrs') 6 1 method none).isOk ∧
    (computeKernel (some (exCorrs.lin 3 exCorrs')) 6 1 method none).isOk := by decide +kernel

/-! ### C10: change of basis -/

/-- The correlations obtained with the basis `P · E` instead of `E`. -/
def Corrs.changeBasis (P : Mat K b b) (c : Corrs K b x) : Corrs K b x where
  N := c.N
  bkbk := fun n => P * c.bkbk n * P.transpose
  bkdx := fun n => P * c.bkdx n
  dotbkdx := c.dotbkdx.map fun d n => P * d n
  dotbkbk := match c.dotbkbk with
    | .none => .none
    | .placeholder => .placeholder
    | .arr bd => .arr fun n => P * bd n * P.transpose

theorem effectiveK0_basis {P Q : Mat K b b} (hQ : P.transpose * Q = 1) {c : Corrs K b x}
    {method : String} (hm : method ∈ ["trapz", "second_kind_rect", "second_kind_trapz"])
    {k0 : Option (Mat K b x)} {k : Mat K b x} (h : effectiveK0 c method k0 = .ok (some k)) :
    effectiveK0 (c.changeBasis P) method (k0.map (Q * ·)) = .ok (some (Q * k)) := by
  rcases effectiveK0_needed hm h with rfl | ⟨rfl, d, e1, e2, e3⟩
  · exact effectiveK0_given _ _
  · refine effectiveK0_default hm (d := fun n => P * d n) (by simp [Corrs.changeBasis, e1])
      (det_conj_ne_zero hQ e2) ?_
    show P * c.bkbk 0 * P.transpose * (Q * k) = _
    rw [conj_mul hQ, e3]

/-- In the new basis the kernel coefficients are `Q K` with `Q = (Pᵀ)⁻¹`. -/
theorem C10_kernel_basis [CharZero K] {P Q : Mat K b b} (hQ : P.transpose * Q = 1) {c : Corrs K b x}
    {n : ℕ} {dt : K} {method : String} {k0 : Option (Mat K b x)} {r : KernelData K b x}
    (h : computeKernel (some c) n dt method k0 = .ok r) :
    ∃ s, computeKernel (some (c.changeBasis P)) n dt method (k0.map (Q * ·)) = .ok s ∧
      s.time = r.time ∧ s.kernel.len = r.kernel.len ∧ ∀ i, s.kernel.get i = Q * r.kernel.get i := by
  have hn := ne_zero_of_ok h
  have hm := computeKernel_method h
  simp only [methodNames, List.mem_cons, List.not_mem_nil, or_false] at hm
  have rect : ∀ method ∈ ["rect", "rectangular"], computeKernel (some c) n dt method k0 = .ok r →
      ∃ s, computeKernel (some (c.changeBasis P)) n dt method (k0.map (Q * ·)) = .ok s ∧
      s.time = r.time ∧ s.kernel.len = r.kernel.len ∧ ∀ i, s.kernel.get i = Q * r.kernel.get i := by
    intro method hm h
    obtain ⟨hNn, ker, e, rfl⟩ := computeKernel_rect_ok hm h
    rw [computeKernel_rect_eq _ _ hn hm]
    rw [show FKernel.firstKindRect ((c.changeBasis P).N - 1) (c.changeBasis P).bkbk
      (c.changeBasis P).bkdx dt = _ from FKernel.firstKindRect_basis hQ e]
    exact ⟨_, finish_of_len hNn, rfl, rfl, fun i => rfl⟩
  rcases hm with rfl | rfl | rfl | rfl | rfl | rfl | rfl
  · exact rect _ (by decide) h
  · exact rect _ (by decide) h
  · obtain ⟨ker, e, hl, rfl⟩ := computeKernel_midpoint_ok h
    rw [computeKernel_midpoint_eq _ _ hn]
    rw [show FKernel.firstKindMidpoint ((c.changeBasis P).N - 1) (c.changeBasis P).bkbk
      (c.changeBasis P).bkdx dt = _ from FKernel.firstKindMidpoint_basis hQ e]
    exact ⟨_, finish_of_len hl, rfl, rfl, fun i => rfl⟩
  · obtain ⟨ker, ker3, s, e, e3, es, hl, rfl⟩ := computeKernel_richardson_ok h
    obtain ⟨l1, l2, l3⟩ := richardson_ok es
    rw [computeKernel_richardson_eq _ _ hn, third_len, third_get, third_get]
    rw [show FKernel.firstKindMidpoint ((c.changeBasis P).N - 1) (c.changeBasis P).bkbk
      (c.changeBasis P).bkdx dt = _ from FKernel.firstKindMidpoint_basis hQ e]
    have e4 := FKernel.firstKindMidpoint_basis hQ e3
    rw [show FKernel.firstKindMidpoint (((c.changeBasis P).N + 2) / 3 - 1)
      (fun k => (c.changeBasis P).bkbk (3 * k)) (fun k => (c.changeBasis P).bkdx (3 * k)) (3 * dt) = _ from e4]
    obtain ⟨t, ht, tl, tg⟩ := richardson_eq (fun n => Q * ker n) (fun n => Q * ker3 n)
      (show midpointLen ((c.N + 2) / 3) ≤ (midpointLen c.N + 2) / 3 by omega)
    refine ⟨⟨t, _⟩, ?_, rfl, ?_, fun i => ?_⟩
    · simp only [Except.bind, Corrs.changeBasis]
      rw [ht]
      exact finish_of_len (p := (t, _)) (by rw [tl, ← l2, hl])
    · exact tl.trans l2.symm
    · rw [tg, l3]
      simp only [Matrix.mul_smul, Matrix.mul_sub]
  · obtain ⟨k, ker, s, ek, e, es, hl, rfl⟩ := computeKernel_trapz_ok h
    rw [computeKernel_trapz_eq _ _ hn, effectiveK0_basis hQ (by decide) ek]
    obtain ⟨s1, hs1, sl, sg⟩ := smooth_eq c.N ker
    rw [es] at hs1; cases hs1
    obtain ⟨t, ht, tl, tg⟩ := smooth_eq c.N (fun n => Q * ker n)
    refine ⟨⟨t.insert0 (Q * k), _⟩, ?_, rfl, ?_, fun i => ?_⟩
    · simp only [Except.bind]
      rw [show FKernel.firstKindTrapz ((c.changeBasis P).N - 1) (Q * k) (c.changeBasis P).bkbk
        (c.changeBasis P).bkdx dt = _ from FKernel.firstKindTrapz_basis hQ e]
      simp only [Corrs.changeBasis]
      rw [ht]
      exact finish_of_len (p := (t.insert0 (Q * k), _)) (by rw [← hl, Arr.insert0, tl, sl])
    · simp only [Arr.insert0, tl, sl]
    · simp only [Arr.insert0]
      split_ifs
      · rfl
      · rw [tg, sg]
        simp only [Matrix.mul_smul, Matrix.mul_add]
  · obtain ⟨hNn, d, bd, k, ker, ed, eb, ek, e, rfl⟩ := computeKernel_secondRect_ok h
    rw [computeKernel_secondRect_eq _ _ hn, effectiveK0_basis hQ (by decide) ek]
    refine ⟨⟨⟨c.N, fun n => Q * ker n⟩, fullTime n dt⟩, ?_, rfl, rfl, fun i => rfl⟩
    simp only [Except.bind, secondKindBranch, Corrs.changeBasis, ed, Option.map_some, eb]
    rw [FKernel.secondKindRect_basis hQ e]
    exact finish_of_len hNn
  · obtain ⟨hNn, d, bd, k, ker, ed, eb, ek, e, rfl⟩ := computeKernel_secondTrapz_ok h
    rw [computeKernel_secondTrapz_eq _ _ hn, effectiveK0_basis hQ (by decide) ek]
    refine ⟨⟨⟨c.N, fun n => Q * ker n⟩, fullTime n dt⟩, ?_, rfl, rfl, fun i => rfl⟩
    simp only [Except.bind, secondKindBranch, Corrs.changeBasis, ed, Option.map_some, eb]
    rw [FKernel.secondKindTrapz_basis hQ e]
    exact finish_of_len hNn

/-- **C10.** For every method, `kernel_eval` does not depend on the basis: computing with the basis
`P · E`, `P` invertible, and evaluating with the new basis gives the same function. A user given
`k0` has to be expressed in the new coordinates. -/
theorem C10_kernel_eval_invariant [CharZero K] {P : Mat K b b} (hP : IsUnit P) {c : Corrs K b x}
    {n : ℕ} {dt : K} {method : String} {k0 : Option (Mat K b x)} {r : KernelData K b x}
    (h : computeKernel (some c) n dt method k0 = .ok r) :
    ∃ s, computeKernel (some (c.changeBasis P)) n dt method (k0.map (P.transpose⁻¹ * ·)) = .ok s ∧
      s.time = r.time ∧ s.kernel.len = r.kernel.len ∧
      ∀ (d : ℕ) (E : ℕ → Mat K b d) (i p : ℕ),
        kernelEval s.kernel (fun q => P * E q) i p = kernelEval r.kernel E i p := by
  have hu : IsUnit P.transpose.det := by
    rw [Matrix.det_transpose]; exact (Matrix.isUnit_iff_isUnit_det P).1 hP
  have hQ : P.transpose * P.transpose⁻¹ = 1 := Matrix.mul_nonsing_inv _ hu
  obtain ⟨s, hs, h1, h2, h3⟩ := C10_kernel_basis hQ h
  refine ⟨s, hs, h1, h2, fun d E i p => ?_⟩
  have key : ∀ (A : Arr (Mat K b x)) (F : ℕ → Mat K b d),
      kernelEval A F i p = (A.get i).transpose * F p := by
    intro A F
    ext o e
    simp [kernelEval, Matrix.mul_apply]
  rw [key, key, h3, Matrix.transpose_mul, Matrix.mul_assoc, ← Matrix.mul_assoc _ P,
    Matrix.transpose_nonsing_inv, Matrix.transpose_transpose,
    Matrix.nonsing_inv_mul _ ((Matrix.isUnit_iff_isUnit_det P).1 hP), Matrix.one_mul]

example : IsUnit (!![1, 1; 0, 2] : Mat ℚ 2 2) ∧
    entry (computeKernel (some exCorrs2) 4 (1 / 3) "rect" none) 1 1 1 = some (-9 / 49) ∧
    entry (computeKernel (some (exCorrs2.changeBasis !![1, 1; 0, 2])) 4 (1 / 3) "rect" none) 1 1 1 =
      some (-129 / 98) := by
  refine ⟨?_, by decide +kernel, by decide +kernel⟩
  rw [Matrix.isUnit_iff_isUnit_det, Matrix.det_fin_two]
  norm_num

end

end Verif
