import Verif.Props.KernelApi
import Mathlib.Tactic.Ring
import Mathlib.Tactic.LinearCombination

/-!
# Properties of `compute_kernel` as a whole: C11 - C16
-/

namespace Verif

open Finset

section
variable {K : Type*} [Field K] [DecidableEq K] {b x : ℕ}

/-! ### C11: singular matrices -/

theorem lapackInv_sing {A : Mat K b b} (h : A.det = 0) : lapackInv A = .error .fortranStop := by
  simp [lapackInv, h]

omit [DecidableEq K] in
theorem det_smul_zero {A : Mat K b b} (h : A.det = 0) (a : K) : (a • A).det = 0 := by
  rw [Matrix.det_smul, h, mul_zero]

omit [DecidableEq K] in
theorem det_smul_ne {A : Mat K b b} (h : A.det ≠ 0) {a : K} (ha : a ≠ 0) : (a • A).det ≠ 0 := by
  rw [Matrix.det_smul]; exact mul_ne_zero (pow_ne_zero _ ha) h

/-- **C11, rect.** The method stops exactly when `bkbk(1)` is singular. -/
theorem C11_rect {c : Corrs K b x} {dt : K} {method : String} (k0 : Option (Mat K b x))
    (hm : method ∈ ["rect", "rectangular"]) (hdt : dt ≠ 0) (hN : 2 ≤ c.N) :
    ((c.bkbk 1).det = 0 → computeKernel (some c) c.N dt method k0 = .error .fortranStop) ∧
    ((c.bkbk 1).det ≠ 0 → ∃ r, computeKernel (some c) c.N dt method k0 = .ok r) := by
  rw [computeKernel_rect_eq _ _ (by omega) hm]
  constructor <;> intro h
  · unfold FKernel.firstKindRect
    rw [if_neg (by omega), lapackInv_sing (det_smul_zero h _)]; rfl
  · obtain ⟨ker, hker⟩ := FKernel.firstKindRect_total (L := c.N - 1) (by omega) (det_smul_ne h hdt) c.bkdx
    rw [hker]
    exact ⟨_, finish_of_len rfl⟩

omit [DecidableEq K] in
theorem midpoint_len_eq {N : ℕ} (hN : 2 ≤ N) (dt : K) :
    midpointLen N = ((fullTime N dt).slice 0 (N - 1) 2).len := by
  simp only [midpointLen, Arr.slice, fullTime]; omega

/-- **C11, midpoint.** The method stops exactly when `bkbk(1)` is singular. -/
theorem C11_midpoint [CharZero K] {c : Corrs K b x} {dt : K} (k0 : Option (Mat K b x))
    (hdt : dt ≠ 0) (hN : 2 ≤ c.N) :
    ((c.bkbk 1).det = 0 → computeKernel (some c) c.N dt "midpoint" k0 = .error .fortranStop) ∧
    ((c.bkbk 1).det ≠ 0 → ∃ r, computeKernel (some c) c.N dt "midpoint" k0 = .ok r) := by
  rw [computeKernel_midpoint_eq _ _ (by omega)]
  constructor <;> intro h
  · unfold FKernel.firstKindMidpoint
    rw [if_neg (by omega), lapackInv_sing (det_smul_zero h _)]; rfl
  · obtain ⟨ker, hker⟩ := FKernel.firstKindMidpoint_total (L := c.N - 1) (by omega)
      (det_smul_ne h (mul_ne_zero two_ne_zero hdt)) c.bkdx
    rw [hker]
    exact ⟨_, finish_of_len (midpoint_len_eq hN dt)⟩

/-- **C11, midpoint_w_richardson.** The method stops exactly when `bkbk(1)` or `bkbk(3)` is
singular. -/
theorem C11_richardson [CharZero K] {c : Corrs K b x} {dt : K} (k0 : Option (Mat K b x))
    (hdt : dt ≠ 0) (hN : 4 ≤ c.N) :
    (((c.bkbk 1).det = 0 ∨ (c.bkbk 3).det = 0) →
      computeKernel (some c) c.N dt "midpoint_w_richardson" k0 = .error .fortranStop) ∧
    ((c.bkbk 1).det ≠ 0 → (c.bkbk 3).det ≠ 0 →
      ∃ r, computeKernel (some c) c.N dt "midpoint_w_richardson" k0 = .ok r) := by
  rw [computeKernel_richardson_eq _ _ (by omega), third_len, third_get, third_get]
  have tot : (c.bkbk 1).det ≠ 0 → ∃ ker, FKernel.firstKindMidpoint (c.N - 1) c.bkbk c.bkdx dt = .ok ker :=
    fun h => FKernel.firstKindMidpoint_total (L := c.N - 1) (by omega)
      (det_smul_ne h (mul_ne_zero two_ne_zero hdt)) c.bkdx
  constructor
  · intro h
    by_cases h1 : (c.bkbk 1).det = 0
    · unfold FKernel.firstKindMidpoint
      rw [if_neg (by omega), lapackInv_sing (det_smul_zero h1 _)]; rfl
    · obtain ⟨ker, hker⟩ := tot h1
      have h3 := h.resolve_left h1
      rw [hker]
      simp only [Except.bind]
      unfold FKernel.firstKindMidpoint
      rw [if_neg (by omega), lapackInv_sing (det_smul_zero h3 _)]; rfl
  · intro h1 h3
    obtain ⟨ker, hker⟩ := tot h1
    obtain ⟨ker3, hker3⟩ := FKernel.firstKindMidpoint_total (L := (c.N + 2) / 3 - 1) (by omega)
      (B := fun k => c.bkbk (3 * k))
      (det_smul_ne h3 (mul_ne_zero two_ne_zero (mul_ne_zero (OfNat.ofNat_ne_zero 3) hdt))) (fun k => c.bkdx (3 * k))
    rw [hker, hker3]
    obtain ⟨t, ht, tl, tg⟩ := richardson_eq ker ker3
      (show midpointLen ((c.N + 2) / 3) ≤ (midpointLen c.N + 2) / 3 by unfold midpointLen; omega)
    simp only [Except.bind]
    rw [ht]
    refine ⟨_, finish_of_len ?_⟩
    rw [tl]
    simp only [Arr.slice, fullTime, midpointLen]
    omega

/-- **C11, trapz** with a given `k0`. -/
theorem C11_trapz [CharZero K] {c : Corrs K b x} {dt : K} (k0 : Mat K b x)
    (hdt : dt ≠ 0) (hN : 2 ≤ c.N) :
    ((c.bkbk 0).det = 0 → computeKernel (some c) c.N dt "trapz" (some k0) = .error .fortranStop) ∧
    ((c.bkbk 0).det ≠ 0 → ∃ r, computeKernel (some c) c.N dt "trapz" (some k0) = .ok r) := by
  rw [computeKernel_trapz_eq _ _ (by omega), effectiveK0_given]
  simp only [Except.bind]
  constructor <;> intro h
  · unfold FKernel.firstKindTrapz
    rw [lapackInv_sing (det_smul_zero h _)]; rfl
  · obtain ⟨ker, hker⟩ := FKernel.firstKindTrapz_total (c.N - 1) k0
      (det_smul_ne h (mul_ne_zero (by norm_num) hdt)) c.bkdx
    obtain ⟨s, hs, sl, -⟩ := smooth_eq c.N ker
    rw [hker]
    simp only
    rw [hs]
    refine ⟨_, finish_of_len ?_⟩
    simp only [Arr.insert0, sl, Arr.slice, fullTime]
    omega

/-- **C11, second_kind_rect** with a given `k0`. -/
theorem C11_second_rect {c : Corrs K b x} {dt : K} {d : ℕ → Mat K b x} {bd : ℕ → Mat K b b}
    (k0 : Mat K b x) (hd : c.dotbkdx = some d) (hbd : c.dotbkbk = .arr bd) (hN : 1 ≤ c.N) :
    ((c.bkbk 0).det = 0 →
      computeKernel (some c) c.N dt "second_kind_rect" (some k0) = .error .fortranStop) ∧
    ((c.bkbk 0).det ≠ 0 → ∃ r, computeKernel (some c) c.N dt "second_kind_rect" (some k0) = .ok r) := by
  rw [computeKernel_secondRect_eq _ _ (by omega), effectiveK0_given]
  simp only [Except.bind, secondKindBranch, hd, hbd]
  constructor <;> intro h
  · unfold FKernel.secondKindRect
    rw [lapackInv_sing h]; rfl
  · obtain ⟨ker, hker⟩ := FKernel.secondKindRect_total (c.N - 1) k0 h bd d dt
    rw [hker]
    exact ⟨_, finish_of_len rfl⟩

/-- **C11, second_kind_trapz** with a given `k0`. -/
theorem C11_second_trapz {c : Corrs K b x} {dt : K} {d : ℕ → Mat K b x} {bd : ℕ → Mat K b b}
    (k0 : Mat K b x) (hd : c.dotbkdx = some d) (hbd : c.dotbkbk = .arr bd) (hN : 1 ≤ c.N) :
    ((c.bkbk 0 - ((1 / 2 : K) * dt) • bd 0).det = 0 →
      computeKernel (some c) c.N dt "second_kind_trapz" (some k0) = .error .fortranStop) ∧
    ((c.bkbk 0 - ((1 / 2 : K) * dt) • bd 0).det ≠ 0 →
      ∃ r, computeKernel (some c) c.N dt "second_kind_trapz" (some k0) = .ok r) := by
  rw [computeKernel_secondTrapz_eq _ _ (by omega), effectiveK0_given]
  simp only [Except.bind, secondKindBranch, hd, hbd]
  constructor <;> intro h
  · unfold FKernel.secondKindTrapz
    rw [lapackInv_sing h]; rfl
  · obtain ⟨ker, hker⟩ := FKernel.secondKindTrapz_total (c.N - 1) k0 h d
    rw [hker]
    exact ⟨_, finish_of_len rfl⟩

/-- **C11, default `k0`.** Without `k0`, a singular `bkbk(0)` raises `LinAlgError`, for all methods
which need an initial value. -/
theorem C11_default_k0 {c : Corrs K b x} {dt : K} {d : ℕ → Mat K b x} {method : String}
    (hm : method ∈ ["trapz", "second_kind_rect", "second_kind_trapz"])
    (hd : c.dotbkdx = some d) (hN : 1 ≤ c.N) (h : (c.bkbk 0).det = 0) :
    computeKernel (some c) c.N dt method none = .error .linAlg := by
  have hk : effectiveK0 c method none = .error .linAlg := by
    unfold effectiveK0
    simp [hm, hd, npInv, h, bind, Except.bind]
  simp only [List.mem_cons, List.not_mem_nil, or_false] at hm
  rcases hm with rfl | rfl | rfl
  · rw [computeKernel_trapz_eq _ _ (by omega), hk]; rfl
  · rw [computeKernel_secondRect_eq _ _ (by omega), hk]; rfl
  · rw [computeKernel_secondTrapz_eq _ _ (by omega), hk]; rfl

/-- A singular correlation matrix at lag 1, regular at the other lags. -/
def exSing : Corrs ℚ 2 1 where
  N := 5
  bkbk := fun n => if n = 1 then !![1, 2; 2, 4] else !![1, 0; 0, 1]
  bkdx := fun n => !![n; 1]
  dotbkdx := none
  dotbkbk := .none

example : (exSing.bkbk 1).det = 0 ∧ (exSing.bkbk 0).det ≠ 0 ∧ (exCorrs.bkbk 1).det ≠ 0 ∧
    (exCorrs.bkbk 3).det ≠ 0 := by decide +kernel

/-! ### C12: lengths and times -/

/-- The number of steps `dt` between two entries of the kernel. -/
def stride (method : String) : ℕ :=
  if method = "midpoint" then 2 else if method = "midpoint_w_richardson" then 6 else 1

/-- **C12, times.** Whatever the method and the input, a returned kernel has the length of its time
axis, and the times are the multiples of `dt`, `2 dt` or `6 dt`. -/
theorem C12_times {c : Option (Corrs K b x)} {n : ℕ} {dt : K} {method : String}
    {k0 : Option (Mat K b x)} {r : KernelData K b x}
    (h : computeKernel c n dt method k0 = .ok r) :
    r.kernel.len = r.time.len ∧ ∀ i, r.time.get i = ((stride method * i : ℕ) : K) * dt := by
  obtain ⟨c, rfl, -⟩ := computeKernel_some h
  have hm := computeKernel_method h
  simp only [methodNames, List.mem_cons, List.not_mem_nil, or_false] at hm
  rcases hm with rfl | rfl | rfl | rfl | rfl | rfl | rfl
  · obtain ⟨hNn, ker, e, rfl⟩ := computeKernel_rect_ok (by decide) h
    exact ⟨hNn, fun i => by simp [fullTime, stride]⟩
  · obtain ⟨hNn, ker, e, rfl⟩ := computeKernel_rect_ok (by decide) h
    exact ⟨hNn, fun i => by simp [fullTime, stride]⟩
  · obtain ⟨ker, e, hl, rfl⟩ := computeKernel_midpoint_ok h
    exact ⟨hl, fun i => by simp [fullTime, stride, Arr.slice]⟩
  · obtain ⟨ker, ker3, s, e, e3, es, hl, rfl⟩ := computeKernel_richardson_ok h
    exact ⟨hl, fun i => by simp [fullTime, stride, Arr.slice]⟩
  · obtain ⟨k, ker, s, ek, e, es, hl, rfl⟩ := computeKernel_trapz_ok h
    exact ⟨hl, fun i => by simp [fullTime, stride, Arr.slice]⟩
  · obtain ⟨hNn, d, bd, k, ker, ed, eb, ek, e, rfl⟩ := computeKernel_secondRect_ok h
    exact ⟨hNn, fun i => by simp [fullTime, stride]⟩
  · obtain ⟨hNn, d, bd, k, ker, ed, eb, ek, e, rfl⟩ := computeKernel_secondTrapz_ok h
    exact ⟨hNn, fun i => by simp [fullTime, stride]⟩

/-- The number of kernel entries for `N` lags. -/
def kernelLen (method : String) (N : ℕ) : ℕ :=
  if method = "midpoint" then N / 2
  else if method = "midpoint_w_richardson" then (N + 2) / 6
  else if method = "trapz" then N - 1
  else N

/-- **C12, lengths.** For at least four lags, every method applied to data whose matrices are
invertible returns a kernel (no shape error), of length `kernelLen`. -/
theorem C12_lengths [CharZero K] {c : Corrs K b x} {dt : K} {method : String} {d : ℕ → Mat K b x}
    {bd : ℕ → Mat K b b} (hm : method ∈ methodNames) (hdt : dt ≠ 0) (hN : 4 ≤ c.N)
    (hd : c.dotbkdx = some d) (hbd : c.dotbkbk = .arr bd)
    (h0 : (c.bkbk 0).det ≠ 0) (h1 : (c.bkbk 1).det ≠ 0) (h3 : (c.bkbk 3).det ≠ 0)
    (hs : (c.bkbk 0 - ((1 / 2 : K) * dt) • bd 0).det ≠ 0) (k0 : Option (Mat K b x)) :
    ∃ r, computeKernel (some c) c.N dt method k0 = .ok r ∧ r.kernel.len = kernelLen method c.N := by
  have hk : ∀ method ∈ ["trapz", "second_kind_rect", "second_kind_trapz"],
      ∃ k, effectiveK0 c method k0 = .ok (some k) := by
    intro method hm
    cases k0 with
    | some k => exact ⟨k, effectiveK0_given _ _⟩
    | none =>
      obtain ⟨M, hM1, -⟩ := det_inv h0
      exact ⟨M * d 0, effectiveK0_default hm hd h0 (by rw [← Matrix.mul_assoc, hM1, Matrix.one_mul])⟩
  simp only [methodNames, List.mem_cons, List.not_mem_nil, or_false] at hm
  rcases hm with rfl | rfl | rfl | rfl | rfl | rfl | rfl
  · obtain ⟨r, h⟩ := (C11_rect (method := "rect") k0 (by decide) hdt (by omega)).2 h1
    obtain ⟨hNn, ker, e, rfl⟩ := computeKernel_rect_ok (method := "rect") (by decide) h
    exact ⟨_, h, by simp [kernelLen]⟩
  · obtain ⟨r, h⟩ := (C11_rect (method := "rectangular") k0 (by decide) hdt (by omega)).2 h1
    obtain ⟨hNn, ker, e, rfl⟩ := computeKernel_rect_ok (method := "rectangular") (by decide) h
    exact ⟨_, h, by simp [kernelLen]⟩
  · obtain ⟨r, h⟩ := (C11_midpoint k0 hdt (by omega)).2 h1
    obtain ⟨ker, e, hl, rfl⟩ := computeKernel_midpoint_ok h
    exact ⟨_, h, by simp [kernelLen, midpointLen]; omega⟩
  · obtain ⟨r, h⟩ := (C11_richardson k0 hdt (by omega)).2 h1 h3
    obtain ⟨ker, ker3, s, e, e3, es, hl, rfl⟩ := computeKernel_richardson_ok h
    refine ⟨_, h, ?_⟩
    show s.len = _
    rw [(richardson_ok es).2.1]
    simp [kernelLen, midpointLen]; omega
  · obtain ⟨k, hk⟩ := hk "trapz" (by decide)
    obtain ⟨r, h⟩ := (C11_trapz (dt := dt) k hdt (by omega)).2 h0
    rw [computeKernel_trapz_eq _ _ (by omega), effectiveK0_given] at h
    refine ⟨r, by rw [computeKernel_trapz_eq _ _ (by omega), hk]; exact h, ?_⟩
    rw [← effectiveK0_given (c := c) "trapz" k, ← computeKernel_trapz_eq _ _ (by omega)] at h
    obtain ⟨k, ker, s, ek, e, es, hl, rfl⟩ := computeKernel_trapz_ok h
    obtain ⟨s1, hs1, sl, -⟩ := smooth_eq c.N ker
    rw [es] at hs1; cases hs1
    simp [kernelLen, Arr.insert0, sl]; omega
  · obtain ⟨k, hk⟩ := hk "second_kind_rect" (by decide)
    obtain ⟨r, h⟩ := (C11_second_rect (dt := dt) k hd hbd (by omega)).2 h0
    obtain ⟨hNn, d, bd, k', ker, ed, eb, ek, e, hr⟩ := computeKernel_secondRect_ok h
    rw [computeKernel_secondRect_eq _ _ (by omega), effectiveK0_given] at h
    refine ⟨r, by rw [computeKernel_secondRect_eq _ _ (by omega), hk]; exact h, ?_⟩
    rw [hr]; simp [kernelLen]
  · obtain ⟨k, hk⟩ := hk "second_kind_trapz" (by decide)
    obtain ⟨r, h⟩ := (C11_second_trapz (dt := dt) k hd hbd (by omega)).2 hs
    obtain ⟨hNn, d, bd, k', ker, ed, eb, ek, e, hr⟩ := computeKernel_secondTrapz_ok h
    rw [computeKernel_secondTrapz_eq _ _ (by omega), effectiveK0_given] at h
    refine ⟨r, by rw [computeKernel_secondTrapz_eq _ _ (by omega), hk]; exact h, ?_⟩
    rw [hr]; simp [kernelLen]

example : (exCorrs.bkbk 0).det ≠ 0 ∧ (exCorrs.bkbk 1).det ≠ 0 ∧ (exCorrs.bkbk 3).det ≠ 0 ∧
    (exCorrs.bkbk 0 - ((1 / 2 : ℚ) * 1) • (!![-1 / (0 + 2)] : Mat ℚ 1 1)).det ≠ 0 := by decide +kernel

/-! ### C13: smoothing -/

/-- **C13.** The kernel of the `trapz` method starts at `k0` and is the average
`¼ raw(i-1) + ½ raw(i) + ¼ raw(i+1)` of the raw solution elsewhere. -/
theorem C13_smoothed {c : Corrs K b x} {n : ℕ} {dt : K} {k0 : Option (Mat K b x)}
    {r : KernelData K b x} (h : computeKernel (some c) n dt "trapz" k0 = .ok r) :
    ∃ k raw, effectiveK0 c "trapz" k0 = .ok (some k) ∧
      FKernel.firstKindTrapz (c.N - 1) k c.bkbk c.bkdx dt = .ok raw ∧
      r.kernel.len = c.N - 2 + 1 ∧ r.kernel.get 0 = k ∧
      ∀ i, 1 ≤ i → r.kernel.get i =
        (1 / 2 * (1 / 2) : K) • raw (i - 1) + (1 / 2 : K) • raw i + (1 / 2 * (1 / 2) : K) • raw (i + 1) := by
  obtain ⟨k, ker, s, ek, e, es, hl, rfl⟩ := computeKernel_trapz_ok h
  obtain ⟨s1, hs1, sl, sg⟩ := smooth_eq c.N ker
  rw [es] at hs1; cases hs1
  refine ⟨k, ker, ek, e, by simp [Arr.insert0, sl], rfl, fun i hi => ?_⟩
  simp only [Arr.insert0]
  rw [if_neg (by omega), sg, show i - 1 + 1 = i by omega, show i - 1 + 2 = i + 1 by omega]
  module

/-- **C13, exactness.** If the raw solution is affine in time plus an alternating component, the
smoothed kernel is the affine part alone (beyond lag 0, where it is `k0`). -/
theorem C13_affine_alternating [CharZero K] {c : Corrs K b x} {n : ℕ} {dt : K} {k : Mat K b x}
    {raw : ℕ → Mat K b x} {r : KernelData K b x}
    (h : computeKernel (some c) n dt "trapz" (some k) = .ok r)
    (hraw : FKernel.firstKindTrapz (c.N - 1) k c.bkbk c.bkdx dt = .ok raw)
    {A S Z : Mat K b x} (hA : ∀ i, i < c.N → raw i = A + (i : K) • S + (-1 : K) ^ i • Z) :
    ∀ i, 1 ≤ i → i < r.kernel.len → r.kernel.get i = A + (i : K) • S := by
  obtain ⟨k', raw', e1, e2, e3, -, e5⟩ := C13_smoothed h
  rw [effectiveK0_given] at e1
  cases e1
  rw [hraw] at e2; cases e2
  intro i hi hil
  obtain ⟨j, rfl⟩ : ∃ j, i = j + 1 := ⟨i - 1, by omega⟩
  rw [e5 _ hi, hA _ (by omega), hA _ (by omega), hA _ (by omega)]
  simp only [Nat.add_sub_cancel, Nat.cast_add, Nat.cast_one, pow_succ]
  match_scalars <;> ring

/-- Constant data: the raw solution is alternating. -/
def exAlt : Corrs ℚ 1 1 where
  N := 6
  bkbk := fun _ => !![1]
  bkdx := fun m => !![-(m : ℚ)]
  dotbkdx := none
  dotbkbk := .none

/-- With `k0 = 3` instead of `1` the raw solution is `1 + 2 (-1)^i`, the smoothed kernel is `1`. -/
example : (∀ i : Fin 6, solverEntry (FKernel.firstKindTrapz 5 !![3] exAlt.bkbk exAlt.bkdx 1) i 0 0 =
      some (1 + (-1) ^ (i : ℕ) * 2)) ∧
    entry (computeKernel (some exAlt) 6 1 "trapz" (some !![3])) 3 0 0 = some 1 := by
  decide +kernel

/-! ### C14: check of the inversion -/

theorem list_sum_range {V : Type*} [AddCommMonoid V] (f : ℕ → V) (n : ℕ) :
    ((List.range n).map f).sum = ∑ i ∈ range n, f i := by
  induction n with
  | zero => simp
  | succ n ih => rw [List.range_succ, List.map_append, List.sum_append, ih, sum_range_succ]; simp

omit [DecidableEq K] in
theorem scipyTrapezoid_eq [CharZero K] {V : Type*} [AddCommGroup V] [Module K V] (dx : K)
    (y : ℕ → V) (n : ℕ) : scipyTrapezoid dx y (n + 1) = Spec.trapzRule dx y n := by
  unfold scipyTrapezoid Spec.trapzRule
  rw [Nat.add_sub_cancel, list_sum_range]
  refine sum_congr rfl fun j _ => ?_
  module

omit [DecidableEq K] in
theorem resInt_eq [CharZero K] (c : Corrs K b x) (dt : K) (k : Arr (Mat K b x)) (n : ℕ) :
    resInt c dt k n = if n < k.len then -Spec.trapzRule dt (Spec.convIntegrand c.bkbk k.get n) n else 0 := by
  unfold resInt
  obtain ⟨h1, h2⟩ := forRange_fill 0 k.len (fun n (_ : ℕ → Mat K b x) =>
    (-1 : K) • scipyTrapezoid dt (fun i => c.bkbk (n - i) * k.get i) (n + 1)) 0
  split_ifs with hn
  · rw [h2 n (Nat.zero_le _) hn, scipyTrapezoid_eq, neg_smul, one_smul]; rfl
  · rw [h1 n (Or.inr (by omega))]; rfl

omit [DecidableEq K] in
/-- **C14.** For a kernel solving the trapezoidal Volterra equation, the check returns the input
correlation at all lags covered by the kernel, and zero at lag zero. -/
theorem C14_check [CharZero K] {c : Corrs K b x} {dt : K} {k : Arr (Mat K b x)} (hk : k.len ≤ c.N)
    (hs : ∀ m, 1 ≤ m → m < k.len → Spec.FirstKindTrapzAt dt c.bkbk c.bkdx k.get m) :
    ∃ r, checkVolterra c dt (some k) = .ok r ∧ r.len = c.N ∧ r.get 0 = 0 ∧
      (∀ m, 1 ≤ m → m < k.len → r.get m = c.bkdx m) ∧ ∀ m, k.len ≤ m → r.get m = 0 := by
  refine ⟨⟨c.N, resInt c dt k⟩, by simp [checkVolterra, hk], rfl, ?_, fun m h1 h2 => ?_, fun m h => ?_⟩
  · show resInt c dt k 0 = 0
    rw [resInt_eq]; simp [Spec.trapzRule]
  · show resInt c dt k m = _
    have := hs m h1 h2
    unfold Spec.FirstKindTrapzAt at this
    rw [resInt_eq, if_pos h2, this, neg_neg]
  · show resInt c dt k m = _
    rw [resInt_eq, if_neg (by omega)]

/-- **C14, difference.** With `return_diff=True` the result vanishes at those lags, and it is the
absolute value of the correlation at lag zero and beyond the kernel. -/
theorem C14_check_diff {F : Type*} [Field F] [LinearOrder F] [IsStrictOrderedRing F]
    {c : Corrs F b x} {dt : F} {k : Arr (Mat F b x)} (hk : k.len ≤ c.N)
    (hs : ∀ m, 1 ≤ m → m < k.len → Spec.FirstKindTrapzAt dt c.bkbk c.bkdx k.get m) :
    ∃ r, checkVolterraDiff c dt (some k) = .ok r ∧ r.len = c.N ∧
      (∀ m, 1 ≤ m → m < k.len → r.get m = 0) ∧
      ∀ m, m = 0 ∨ k.len ≤ m → ∀ i j, r.get m i j = |c.bkdx m i j| := by
  obtain ⟨r, h, hl, h0, h1, h2⟩ := C14_check hk hs
  refine ⟨⟨r.len, fun n => Matrix.of fun i j => |r.get n i j - c.bkdx n i j|⟩,
    by simp only [checkVolterraDiff, h, bind, Except.bind, pure, Except.pure], hl, ?_, ?_⟩
  · intro m e1 e2
    ext i j
    simp [h1 m e1 e2]
  · rintro m hm i j
    have : r.get m = 0 := by rcases hm with rfl | hm; exacts [h0, h2 m hm]
    simp [this]

omit [DecidableEq K] in
/-- **C14, errors.** The check fails exactly when there is no kernel, or one longer than the correlations. -/
theorem C14_fails_iff {c : Corrs K b x} {dt : K} (k : Option (Arr (Mat K b x))) :
    (checkVolterra c dt k = .error (.exception "Kernel has not been computed.") ↔ k = none) ∧
    (checkVolterra c dt k = .error .index ↔ ∃ k', k = some k' ∧ c.N < k'.len) := by
  rcases k with _ | k
  · simp [checkVolterra]
  · by_cases h : c.N < k.len <;> simp [checkVolterra, h]

/-- **C14, link with the solver.** The raw trapezoidal solution passes the check, whatever `k0`. -/
theorem C14_raw_passes [CharZero K] {c : Corrs K b x} {dt : K} {k0 : Mat K b x}
    {raw : ℕ → Mat K b x} (h : FKernel.firstKindTrapz (c.N - 1) k0 c.bkbk c.bkdx dt = .ok raw) :
    ∃ r, checkVolterra c dt (some ⟨c.N, raw⟩) = .ok r ∧
      ∀ m, 1 ≤ m → m < c.N → r.get m = c.bkdx m := by
  obtain ⟨-, hs⟩ := FKernel.firstKindTrapz_solves h
  obtain ⟨r, h1, -, -, h2, -⟩ := C14_check (k := ⟨c.N, raw⟩) (dt := dt) le_rfl
    (fun m e1 e2 => hs m e1 (by simp at e2; omega))
  exact ⟨r, h1, h2⟩

example : solverEntry ((checkVolterra exCorrs 1 (some ⟨6, getOk (FKernel.firstKindTrapz 5 !![2]
    exCorrs.bkbk exCorrs.bkdx 1) 0⟩)).map Arr.get) 4 0 0 = some 14 := by decide +kernel

/-! ### C15: Richardson extrapolation -/

/-- Every third lag of the correlations. -/
def Corrs.third (c : Corrs K b x) : Corrs K b x where
  N := (c.N + 2) / 3
  bkbk := fun n => c.bkbk (3 * n)
  bkdx := fun n => c.bkdx (3 * n)
  dotbkdx := none
  dotbkbk := .none

/-- **C15.** `midpoint_w_richardson` combines the midpoint kernel with step `dt` and the one with
step `3 dt` at the same times, and cancels an error term quadratic in the step. -/
theorem C15_richardson [CharZero K] {c : Corrs K b x} {dt : K} {k0 : Option (Mat K b x)}
    {r r1 r3 : KernelData K b x}
    (h : computeKernel (some c) c.N dt "midpoint_w_richardson" k0 = .ok r)
    (h1 : computeKernel (some c) c.N dt "midpoint" none = .ok r1)
    (h3 : computeKernel (some c.third) c.third.N (3 * dt) "midpoint" none = .ok r3) :
    (∀ i, i < r.kernel.len → i < r3.kernel.len ∧ 3 * i < r1.kernel.len ∧
      r1.time.get (3 * i) = r.time.get i ∧ r3.time.get i = r.time.get i) ∧
    ∀ (ks e : ℕ → Mat K b x),
      (∀ i, i < r.kernel.len → r1.kernel.get (3 * i) = ks i + dt ^ 2 • e i) →
      (∀ i, i < r.kernel.len → r3.kernel.get i = ks i + (3 * dt) ^ 2 • e i) →
      ∀ i, i < r.kernel.len → r.kernel.get i = ks i := by
  obtain ⟨-, t⟩ := C12_times h
  obtain ⟨-, t1⟩ := C12_times h1
  obtain ⟨-, t3⟩ := C12_times h3
  obtain ⟨ker, ker3, s, e, e3, es, hl, rfl⟩ := computeKernel_richardson_ok h
  obtain ⟨l1, l2, l3⟩ := richardson_ok es
  obtain ⟨ker', e', -, rfl⟩ := computeKernel_midpoint_ok h1
  obtain ⟨ker3', e3', -, rfl⟩ := computeKernel_midpoint_ok h3
  rw [e] at e'; cases e'
  rw [show FKernel.firstKindMidpoint (c.third.N - 1) c.third.bkbk c.third.bkdx (3 * dt) = _ from e3] at e3'
  cases e3'
  refine ⟨fun i hi => ⟨?_, ?_, ?_, ?_⟩, fun ks err hk1 hk3 i hi => ?_⟩
  · exact hi.trans_eq l2
  · have hi' : i < s.len := hi
    show 3 * i < midpointLen c.N
    rw [l2] at hi'
    omega
  · rw [t, t1, show stride "midpoint" = 2 from rfl, show stride "midpoint_w_richardson" = 6 from rfl]
    push_cast; ring
  · rw [t, t3, show stride "midpoint" = 2 from rfl, show stride "midpoint_w_richardson" = 6 from rfl]
    push_cast; ring
  · show s.get i = _
    rw [l3, show ker (3 * i) = _ from hk1 i hi, show ker3 i = _ from hk3 i hi]
    match_scalars <;> ring

example : (computeKernel (some exCorrs) 6 1 "midpoint_w_richardson" none).isOk ∧
    (computeKernel (some exCorrs) 6 1 "midpoint" none).isOk ∧
    (computeKernel (some exCorrs.third) 2 3 "midpoint" none).isOk := by decide +kernel

/-! ### C16: dispatch -/

/-- **C16.** A kernel is returned only for the documented names. -/
theorem C16_only_documented {c : Option (Corrs K b x)} {n : ℕ} {dt : K} {method : String}
    {k0 : Option (Mat K b x)} {r : KernelData K b x}
    (h : computeKernel c n dt method k0 = .ok r) :
    method ∈ ["rect", "rectangular", "midpoint", "midpoint_w_richardson", "trapz",
      "second_kind_rect", "second_kind_trapz"] :=
  computeKernel_method h

/-- **C16.** Any other method name raises the exception listing the methods. -/
theorem C16_unknown_raises {method : String}
    (h : method ∉ ["rect", "rectangular", "midpoint", "midpoint_w_richardson", "trapz",
      "second_kind_rect", "second_kind_trapz"]) (c : Corrs K b x) {n : ℕ}
    (hn : n ≠ 0) (dt : K) (k0 : Option (Mat K b x)) :
    computeKernel (some c) n dt method k0 = .error (.exception unknownMethodMsg) :=
  computeKernel_unknown h c hn dt k0

/-- **C16.** Second kind methods raise when the derivative correlations are missing. -/
theorem C16_second_kind_missing {method : String} (hm : method ∈ ["second_kind_rect", "second_kind_trapz"])
    {c : Corrs K b x} (hd : c.dotbkdx = none) {n : ℕ} (hn : n ≠ 0) (dt : K) (k0 : Option (Mat K b x)) :
    ∃ msg, computeKernel (some c) n dt method k0 = .error (.exception msg) := by
  simp only [List.mem_cons, List.not_mem_nil, or_false] at hm
  rcases hm with rfl | rfl
  · rw [computeKernel_secondRect_eq _ _ hn]
    cases k0 with
    | none => exact ⟨_, by simp only [effectiveK0, hd]; rfl⟩
    | some k => exact ⟨_, by simp only [effectiveK0_given, Except.bind, secondKindBranch, hd]; rfl⟩
  · rw [computeKernel_secondTrapz_eq _ _ hn]
    cases k0 with
    | none => exact ⟨_, by simp only [effectiveK0, hd]; rfl⟩
    | some k => exact ⟨_, by simp only [effectiveK0_given, Except.bind, secondKindBranch, hd]; rfl⟩

/-- **C16.** Second kind methods never succeed when `dotbkbk` is missing, or is the placeholder
stored with `second_order_method=False`. -/
theorem C16_second_kind_missing_basis {method : String}
    (hm : method ∈ ["second_kind_rect", "second_kind_trapz"])
    {c : Corrs K b x} (hd : ∀ bd, c.dotbkbk ≠ .arr bd) {n : ℕ} (dt : K) (k0 : Option (Mat K b x)) :
    ∀ r, computeKernel (some c) n dt method k0 ≠ .ok r := by
  intro r h
  simp only [List.mem_cons, List.not_mem_nil, or_false] at hm
  rcases hm with rfl | rfl
  · obtain ⟨-, d, bd, k, ker, -, eb, -⟩ := computeKernel_secondRect_ok h
    exact hd bd eb
  · obtain ⟨-, d, bd, k, ker, -, eb, -⟩ := computeKernel_secondTrapz_ok h
    exact hd bd eb

/-- **C16.** Without correlations the call fails with `AttributeError`. -/
theorem C16_no_corrs {n : ℕ} (dt : K) (method : String) (k0 : Option (Mat K b x)) :
    computeKernel none n dt method k0 = .error .attribute := rfl

/-- **C16.** The first kernel value of the methods with an initial value: the given `k0`, or the
solution of `bkbk(0) k0 = dotbkdx(0)`. -/
theorem C16_initial_value {method : String}
    (hm : method ∈ ["trapz", "second_kind_rect", "second_kind_trapz"])
    {c : Corrs K b x} {n : ℕ} {dt : K} {k0 : Option (Mat K b x)} {r : KernelData K b x}
    (h : computeKernel (some c) n dt method k0 = .ok r) :
    (∀ k, k0 = some k → r.kernel.get 0 = k) ∧
    (k0 = none → ∃ d, c.dotbkdx = some d ∧ c.bkbk 0 * r.kernel.get 0 = d 0) := by
  have key : effectiveK0 c method k0 = .ok (some (r.kernel.get 0)) := by
    simp only [List.mem_cons, List.not_mem_nil, or_false] at hm
    rcases hm with rfl | rfl | rfl
    · obtain ⟨k, raw, e, -, -, rfl, -⟩ := C13_smoothed h
      exact e
    · obtain ⟨-, d, bd, k, ker, ed, eb, ek, e, rfl⟩ := computeKernel_secondRect_ok h
      obtain ⟨M, hM, e0, -⟩ := FKernel.secondKindRect_ok e
      rw [ek]; simp [e0]
    · obtain ⟨-, d, bd, k, ker, ed, eb, ek, e, rfl⟩ := computeKernel_secondTrapz_ok h
      obtain ⟨M, hM, e0, -⟩ := FKernel.secondKindTrapz_ok e
      rw [ek]; simp [e0]
  rcases effectiveK0_needed hm key with hk | ⟨hk, d, hd, -, hd'⟩
  · refine ⟨fun k hk' => ?_, fun h => by simp [h] at hk⟩
    rw [hk] at hk'; exact Option.some.inj hk'
  · exact ⟨fun k hk' => by simp [hk] at hk', fun _ => ⟨d, hd, hd'⟩⟩

/-- **C16.** The other methods ignore `k0`. -/
theorem C16_k0_ignored {method : String}
    (hm : method ∈ ["rect", "rectangular", "midpoint", "midpoint_w_richardson"])
    (c : Corrs K b x) {n : ℕ} (hn : n ≠ 0) (dt : K) (k0 : Option (Mat K b x)) :
    computeKernel (some c) n dt method k0 = computeKernel (some c) n dt method none := by
  simp only [List.mem_cons, List.not_mem_nil, or_false] at hm
  rcases hm with rfl | rfl | rfl | rfl
  · rw [computeKernel_rect_eq _ _ hn (by decide), computeKernel_rect_eq _ _ hn (by decide)]
  · rw [computeKernel_rect_eq _ _ hn (by decide), computeKernel_rect_eq _ _ hn (by decide)]
  · rw [computeKernel_midpoint_eq _ _ hn, computeKernel_midpoint_eq _ _ hn]
  · rw [computeKernel_richardson_eq _ _ hn, computeKernel_richardson_eq _ _ hn]

example : entry (computeKernel (some exCorrs) 6 1 "trapz" (some !![7])) 0 0 0 = some 7 ∧
    entry (computeKernel (some exCorrs) 6 1 "trapz" none) 0 0 0 = some 1 ∧
    (computeKernel (some exCorrs2) 4 1 "second_kind_rect" none).isOk = false := by decide +kernel

end

end Verif
