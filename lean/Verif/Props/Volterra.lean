import Verif.Lemmas.ComputeKernel
import Verif.Lemmas.Transform
import Verif.Model.CheckVolterra
import Mathlib.Tactic.NormNum

/-!
# Properties of the Volterra inversion: C01 - C07
-/

namespace Verif

open Finset

/-- Concrete correlation functions used to show that hypotheses can be met. -/
def exCorrs : Corrs ℚ 1 1 where
  N := 6
  bkbk := fun n => !![1 / (n + 1)]
  bkdx := fun n => !![(n : ℚ) ^ 2 - 2]
  dotbkdx := some fun n => !![3 * (n : ℚ) + 1]
  dotbkbk := .arr fun n => !![-1 / (n + 2)]

/-- A two-dimensional basis with a two-dimensional observable. -/
def exCorrs2 : Corrs ℚ 2 2 where
  N := 4
  bkbk := fun n => !![2, n; 1, 3 + n]
  bkdx := fun n => !![n, 1; 2, n + 5]
  dotbkdx := none
  dotbkbk := .none

/-- Read one entry of the kernel returned by `compute_kernel`. -/
def entry {b x : ℕ} (r : Except Err (KernelData ℚ b x)) (i : ℕ) (p : Fin b) (q : Fin x) : Option ℚ :=
  match r with
  | .ok r => if i < r.kernel.len then some (r.kernel.get i p q) else none
  | .error _ => none

section
variable {K : Type*} [Field K] [DecidableEq K] {b x : ℕ}

/-- **C01.** The kernel of the rectangular method solves the first kind Volterra equation
discretised with the rectangle rule, at every lag; the last entry is zero. -/
theorem C01_rect_solves {c : Corrs K b x} {n : ℕ} {dt : K} {method : String}
    {k0 : Option (Mat K b x)} {r : KernelData K b x}
    (hm : method ∈ ["rect", "rectangular"])
    (h : computeKernel (some c) n dt method k0 = .ok r) :
    r.kernel.len = c.N ∧
    (∀ m, 1 ≤ m → m ≤ c.N - 1 → Spec.FirstKindRectAt dt c.bkbk c.bkdx r.kernel.get m) ∧
    r.kernel.get (c.N - 1) = 0 := by
  obtain ⟨-, ker, hker, rfl⟩ := computeKernel_rect_ok hm h
  obtain ⟨-, -, -, -, -, hz⟩ := FKernel.firstKindRect_ok hker
  exact ⟨rfl, FKernel.firstKindRect_solves hker, hz _ le_rfl⟩

example : entry (computeKernel (some exCorrs) 6 (1 / 2) "rect" none) 1 0 0 = some (-32 / 3) := by
  decide +kernel

example : entry (computeKernel (some exCorrs2) 4 (1 / 3) "rectangular" none) 1 1 1 = some (-9 / 49) := by
  decide +kernel

/-- **C02.** The raw kernel of the `trapz` method starts at `k0` and solves the first kind equation
discretised with the trapezoidal rule. What `compute_kernel` returns is its smoothing (see C13). -/
theorem C02_trapz_solves [CharZero K] {c : Corrs K b x} {n : ℕ} {dt : K}
    {k0 : Option (Mat K b x)} {r : KernelData K b x}
    (h : computeKernel (some c) n dt "trapz" k0 = .ok r) :
    ∃ k raw, effectiveK0 c "trapz" k0 = .ok (some k) ∧
      FKernel.firstKindTrapz (c.N - 1) k c.bkbk c.bkdx dt = .ok raw ∧
      raw 0 = k ∧
      (∀ m, 1 ≤ m → m ≤ c.N - 1 → Spec.FirstKindTrapzAt dt c.bkbk c.bkdx raw m) ∧
      ∃ s, smooth ⟨c.N, raw⟩ = .ok s ∧ r.kernel = s.insert0 k := by
  obtain ⟨k, ker, s, hk, hker, hs, -, rfl⟩ := computeKernel_trapz_ok h
  obtain ⟨h0, h1⟩ := FKernel.firstKindTrapz_solves hker
  exact ⟨k, ker, hk, hker, h0, h1, s, hs, rfl⟩

example : entry (computeKernel (some exCorrs) 6 (1 / 2) "trapz" none) 1 0 0 = some (-23 / 24) := by
  decide +kernel

/-- **C03.** Second kind equation, rectangle rule. -/
theorem C03_second_kind_rect_solves {c : Corrs K b x} {n : ℕ} {dt : K}
    {k0 : Option (Mat K b x)} {r : KernelData K b x}
    (h : computeKernel (some c) n dt "second_kind_rect" k0 = .ok r) :
    ∃ d bd k, c.dotbkdx = some d ∧ c.dotbkbk = .arr bd ∧
      effectiveK0 c "second_kind_rect" k0 = .ok (some k) ∧
      r.kernel.len = c.N ∧ r.kernel.get 0 = k ∧
      ∀ m, 1 ≤ m → m ≤ c.N - 1 → Spec.SecondKindRectAt dt (c.bkbk 0) bd d r.kernel.get m := by
  obtain ⟨-, d, bd, k, ker, hd, hbd, hk, hker, rfl⟩ := computeKernel_secondRect_ok h
  obtain ⟨h0, h1⟩ := FKernel.secondKindRect_solves hker
  exact ⟨d, bd, k, hd, hbd, hk, rfl, h0, h1⟩

example : entry (computeKernel (some exCorrs) 6 (1 / 2) "second_kind_rect" (some !![7])) 1 0 0
    = some (17 / 6) := by
  decide +kernel

/-- **C04.** Second kind equation, trapezoidal rule. -/
theorem C04_second_kind_trapz_solves [CharZero K] {c : Corrs K b x} {n : ℕ} {dt : K}
    {k0 : Option (Mat K b x)} {r : KernelData K b x}
    (h : computeKernel (some c) n dt "second_kind_trapz" k0 = .ok r) :
    ∃ d bd k, c.dotbkdx = some d ∧ c.dotbkbk = .arr bd ∧
      effectiveK0 c "second_kind_trapz" k0 = .ok (some k) ∧
      r.kernel.len = c.N ∧ r.kernel.get 0 = k ∧
      ∀ m, 1 ≤ m → m ≤ c.N - 1 → Spec.SecondKindTrapzAt dt (c.bkbk 0) bd d r.kernel.get m := by
  obtain ⟨-, d, bd, k, ker, hd, hbd, hk, hker, rfl⟩ := computeKernel_secondTrapz_ok h
  obtain ⟨h0, h1⟩ := FKernel.secondKindTrapz_solves hker
  exact ⟨d, bd, k, hd, hbd, hk, rfl, h0, h1⟩

example : entry (computeKernel (some exCorrs) 6 (1 / 2) "second_kind_trapz" none) 2 0 0
    = some (8239 / 1458) := by
  decide +kernel

end

end Verif
