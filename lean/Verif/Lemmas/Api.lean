import Verif.Lemmas.ComputeKernel
import Verif.Lemmas.Transform
import Verif.Model.CheckVolterra

/-! # `compute_kernel`: dispatch, smoothing, extrapolation, for all methods at once -/

namespace Verif

open Finset

variable {K : Type*} [Field K] [DecidableEq K] {b x : ℕ}

/-- The documented method names. -/
def methodNames : List String :=
  ["rect", "rectangular", "midpoint", "midpoint_w_richardson", "trapz", "second_kind_rect",
    "second_kind_trapz"]

def unknownMethodMsg : String := "Method for volterra inversion is not in  {rectangular, midpoint, midpoint_w_richardson,trapz,second_kind_rect,second_kind_trapz}"

theorem computeKernel_unknown {method : String} (h : method ∉ methodNames) (c : Corrs K b x) {n : ℕ}
    (hn : n ≠ 0) (dt : K) (k0 : Option (Mat K b x)) :
    computeKernel (some c) n dt method k0 = .error (.exception unknownMethodMsg) := by
  simp only [methodNames, List.mem_cons, List.not_mem_nil, or_false, not_or] at h
  obtain ⟨h1, h2, h3, h4, h5, h6, h7⟩ := h
  have hk : effectiveK0 c method k0 = .ok k0 := by
    simp [effectiveK0, h5, h6, h7]
  unfold computeKernel
  simp only [hn, hk, h1, h2, h3, h4, h5, h6, h7, List.mem_cons, List.not_mem_nil, or_false, bind,
    Except.bind, if_false, throw, throwThe, MonadExceptOf.throw, unknownMethodMsg]

theorem computeKernel_method {method : String} {c : Option (Corrs K b x)} {n : ℕ} {dt : K}
    {k0 : Option (Mat K b x)} {r : KernelData K b x}
    (h : computeKernel c n dt method k0 = .ok r) : method ∈ methodNames := by
  obtain ⟨c, rfl, hn⟩ := computeKernel_some h
  by_contra hm
  rw [computeKernel_unknown hm c hn] at h
  cases h

omit [DecidableEq K] in
/-- Smoothing never fails. -/
theorem smooth_eq (N : ℕ) (ker : ℕ → Mat K b x) :
    ∃ s, smooth ⟨N, ker⟩ = .ok s ∧ s.len = N - 2 ∧
      ∀ i, s.get i = (1 / 2 : K) • (ker (i + 1) + (1 / 2 : K) • (ker i + ker (i + 2))) := by
  unfold smooth
  have e1 : ((Arr.mk N ker).slice 0 ((Arr.mk N ker).len - 2) 1).len =
      ((Arr.mk N ker).slice 2 (Arr.mk N ker).len 1).len := by simp [Arr.slice]
  have e2 : ((Arr.mk N ker).slice 1 ((Arr.mk N ker).len - 1) 1).len =
      ((Arr.mk N ker).slice 0 ((Arr.mk N ker).len - 2) 1).len := by simp [Arr.slice]; omega
  simp only [bind, Except.bind, Arr.zipWith, e1, e2, if_true]
  refine ⟨_, rfl, ?_, fun i => ?_⟩
  · simp [Arr.slice]
  · simp only [Arr.slice, one_mul, zero_add, add_comm 1 i, add_comm 2 i]

omit [DecidableEq K] in
theorem richardson_ok {N N3 : ℕ} {ker ker3 : ℕ → Mat K b x} {s : Arr (Mat K b x)}
    (h : richardson ⟨N, ker⟩ ⟨N3, ker3⟩ = .ok s) :
    min N3 ((N + 2) / 3) = N3 ∧ s.len = N3 ∧
      ∀ i, s.get i = (1 / 8 : K) • ((9 : K) • ker (3 * i) - ker3 i) := by
  unfold richardson Arr.zipWith at h
  split_ifs at h with hl
  cases h
  simp [Arr.slice] at hl ⊢
  exact hl

omit [DecidableEq K] in
theorem richardson_eq {N N3 : ℕ} (ker ker3 : ℕ → Mat K b x) (hl : N3 ≤ (N + 2) / 3) :
    ∃ s, richardson ⟨N, ker⟩ ⟨N3, ker3⟩ = .ok s ∧ s.len = N3 ∧
      ∀ i, s.get i = (1 / 8 : K) • ((9 : K) • ker (3 * i) - ker3 i) := by
  unfold richardson Arr.zipWith
  simp only [Arr.slice, zero_add, one_mul, Nat.sub_zero, min_self]
  rw [if_pos (by simp; omega)]
  exact ⟨_, rfl, by simp; omega, fun i => rfl⟩

/-- The number of lags of `a[::3]`. -/
theorem third_len {V : Type*} (N : ℕ) (a : ℕ → V) : (third N a).len = (N + 2) / 3 := by
  simp [third, Arr.slice]

theorem third_get {V : Type*} (N : ℕ) (a : ℕ → V) : (third N a).get = fun k => a (3 * k) := by
  funext k; simp [third, Arr.slice]

variable {c : Corrs K b x} {n : ℕ} {dt : K}

theorem computeKernel_richardson_ok {k0 : Option (Mat K b x)} {r : KernelData K b x}
    (h : computeKernel (some c) n dt "midpoint_w_richardson" k0 = .ok r) :
    ∃ ker ker3 s, FKernel.firstKindMidpoint (c.N - 1) c.bkbk c.bkdx dt = .ok ker ∧
      FKernel.firstKindMidpoint ((c.N + 2) / 3 - 1) (fun k => c.bkbk (3 * k))
        (fun k => c.bkdx (3 * k)) (3 * dt) = .ok ker3 ∧
      richardson ⟨midpointLen c.N, ker⟩ ⟨midpointLen ((c.N + 2) / 3), ker3⟩ = .ok s ∧
      s.len = ((fullTime n dt).slice 0 (n - 3) 6).len ∧
      r = ⟨s, (fullTime n dt).slice 0 (n - 3) 6⟩ := by
  obtain ⟨-, -, hn⟩ := computeKernel_some h
  rw [computeKernel_richardson_eq _ _ hn, third_len, third_get, third_get] at h
  obtain ⟨ker, hker, h⟩ := bind_ok h
  obtain ⟨ker3, hker3, h⟩ := bind_ok h
  obtain ⟨s, hs, h⟩ := bind_ok h
  obtain ⟨hl, rfl⟩ := finish_ok h
  exact ⟨ker, ker3, s, hker, hker3, hs, hl, rfl⟩

theorem ne_zero_of_ok {c : Option (Corrs K b x)} {method : String} {k0 : Option (Mat K b x)}
    {r : KernelData K b x} (h : computeKernel c n dt method k0 = .ok r) : n ≠ 0 :=
  (computeKernel_some h).choose_spec.2

/-- The full behaviour of the `k0` selection for the methods which need an initial value. -/
theorem effectiveK0_needed {method : String}
    (hm : method ∈ ["trapz", "second_kind_rect", "second_kind_trapz"]) {k0 : Option (Mat K b x)}
    {k : Mat K b x} (h : effectiveK0 c method k0 = .ok (some k)) :
    k0 = some k ∨ k0 = none ∧ ∃ d, c.dotbkdx = some d ∧ (c.bkbk 0).det ≠ 0 ∧ c.bkbk 0 * k = d 0 := by
  unfold effectiveK0 at h
  cases k0 with
  | some k1 => simp at h; exact Or.inl (by rw [h])
  | none =>
    simp only [Option.isNone_none, true_and, hm, if_true] at h
    cases hd : c.dotbkdx with
    | none => simp [hd] at h
    | some d =>
      simp only [hd, bind] at h
      obtain ⟨inv, hi, h2⟩ := bind_ok h
      cases h2
      refine Or.inr ⟨rfl, d, rfl, ?_⟩
      obtain ⟨h1, h2, h3⟩ := npInv_ok hi
      exact ⟨h1, by rw [← Matrix.mul_assoc, h2, Matrix.one_mul]⟩

theorem effectiveK0_default {method : String}
    (hm : method ∈ ["trapz", "second_kind_rect", "second_kind_trapz"]) {d : ℕ → Mat K b x}
    (hd : c.dotbkdx = some d) {k : Mat K b x} (h0 : (c.bkbk 0).det ≠ 0) (hk : c.bkbk 0 * k = d 0) :
    effectiveK0 c method none = .ok (some k) := by
  unfold effectiveK0
  simp only [Option.isNone_none, true_and, hm, if_true, hd, npInv, h0, if_false, bind, Except.bind,
    pure, Except.pure, Except.ok.injEq, Option.some.injEq]
  have hu : IsUnit (c.bkbk 0).det := isUnit_iff_ne_zero.2 h0
  rw [← hk, Matrix.smul_mul, ← Matrix.mul_assoc, Matrix.adjugate_mul, Matrix.smul_mul, Matrix.one_mul,
    smul_smul, inv_mul_cancel₀ h0, one_smul]

theorem effectiveK0_given (method : String) (k : Mat K b x) :
    effectiveK0 c method (some k) = .ok (some k) := by
  simp [effectiveK0]

end Verif
