import Verif.Lemmas.Units
import Verif.Lemmas.ComputeKernel

/-!
# Change of units (C136)

When the unit of time is changed, times are multiplied by a number `c`, and derivatives with respect to time are divided by it. When
the units of the observables are changed, the correlations of the basis are multiplied by a number `s` and those of the basis with the
increments by a number `u`. The memory kernel has then to be multiplied by `u / (s c)`.
-/

namespace Verif

variable {K : Type*} [Field K] {b x : ℕ}

/-- The correlations in other units. -/
def Spec.unitsCorrs (s u c : K) (C : Corrs K b x) : Corrs K b x where
  N := C.N
  bkbk := fun n => s • C.bkbk n
  bkdx := fun n => u • C.bkdx n
  dotbkdx := C.dotbkdx.map fun d n => (u / c) • d n
  dotbkbk := match C.dotbkbk with
    | .none => .none
    | .placeholder => .placeholder
    | .arr d => .arr fun n => (s / c) • d n

/-- The kernel in other units. -/
def Spec.unitsKernel (κ c : K) (r : KernelData K b x) : KernelData K b x where
  kernel := ⟨r.kernel.len, fun n => κ • r.kernel.get n⟩
  time := ⟨r.time.len, fun n => c * r.time.get n⟩

variable [DecidableEq K]

/-- An array of matrices multiplied by a number. -/
def Arr.smul (κ : K) (a : Arr (Mat K b x)) : Arr (Mat K b x) := ⟨a.len, fun n => κ • a.get n⟩

omit [DecidableEq K] in
theorem zipWith_units (κ : K) (f : Mat K b x → Mat K b x → Mat K b x) (hf : ∀ l r, f (κ • l) (κ • r) = κ • f l r) (a a' : Arr (Mat K b x)) :
    Arr.zipWith f (a.smul κ) (a'.smul κ) = (Arr.zipWith f a a').map (Arr.smul κ) := by
  unfold Arr.zipWith
  by_cases h : a.len = a'.len
  · rw [if_pos h, if_pos (show (a.smul κ).len = (a'.smul κ).len from h)]
    show Except.ok _ = Except.ok _
    simp only [Arr.smul, hf]
  · rw [if_neg h, if_neg (show ¬ (a.smul κ).len = (a'.smul κ).len from h)]
    rfl

omit [DecidableEq K] in
theorem smooth_units (κ : K) (a : Arr (Mat K b x)) : smooth (a.smul κ) = (smooth a).map (Arr.smul κ) := by
  show (Arr.zipWith _ ((a.slice 0 (a.len - 2) 1).smul κ) ((a.slice 2 a.len 1).smul κ)).bind
    (fun s => Arr.zipWith _ ((a.slice 1 (a.len - 1) 1).smul κ) s) =
      Except.map _ ((Arr.zipWith _ (a.slice 0 (a.len - 2) 1) (a.slice 2 a.len 1)).bind (fun s => Arr.zipWith _ (a.slice 1 (a.len - 1) 1) s))
  rw [zipWith_units κ _ (fun l r => by module)]
  cases Arr.zipWith (fun l r => (1 / 2 : K) • (l + r)) (a.slice 0 (a.len - 2) 1) (a.slice 2 a.len 1) with
  | error e => rfl
  | ok s => exact zipWith_units κ (fun m s => (1 / 2 : K) • (m + s)) (fun l r => by module) (a.slice 1 (a.len - 1) 1) s

omit [DecidableEq K] in
theorem richardson_units (κ : K) (a a3 : Arr (Mat K b x)) :
    richardson (a.smul κ) (a3.smul κ) = (richardson a a3).map (Arr.smul κ) :=
  zipWith_units κ _ (fun l r => by module) ((a.slice 0 a.len 3).slice 0 a3.len 1) a3

theorem effectiveK0_units {s c : K} (hs : s ≠ 0) (u : K) (C : Corrs K b x) (m : String) (k0 : Option (Mat K b x)) :
    effectiveK0 (Spec.unitsCorrs s u c C) m (k0.map ((u / (s * c)) • ·)) =
      (effectiveK0 C m k0).map (Option.map ((u / (s * c)) • ·)) := by
  unfold effectiveK0
  rw [Option.isNone_map]
  split_ifs with h
  · simp only [Spec.unitsCorrs]
    cases C.dotbkdx with
    | none => rfl
    | some d =>
      simp only [Option.map_some]
      rw [npInv_smul hs]
      cases npInv (C.bkbk 0) with
      | error e => rfl
      | ok I =>
        show Except.ok (some _) = Except.ok (some _)
        congr 2
        show s⁻¹ • I * ((u / c) • d 0) = _
        rw [Matrix.smul_mul, Matrix.mul_smul, smul_smul]
        congr 1
        rw [mul_comm s c, ← div_div, div_eq_inv_mul (u / c)]
  · rfl

omit [DecidableEq K] in
theorem finish_units (κ c : K) (a : Arr (Mat K b x)) (t t' : Arr K) (ht : t' = ⟨t.len, fun k => c * t.get k⟩) :
    finish (a.smul κ, t') = (finish (a, t)).map (Spec.unitsKernel κ c) := by
  subst ht
  unfold finish
  by_cases h : a.len = t.len
  · rw [if_neg (not_not.2 h), if_neg (not_not.2 (show (a.smul κ).len = t.len from h))]
    rfl
  · rw [if_pos h, if_pos (show ¬ (a.smul κ).len = t.len from h)]
    rfl

omit [DecidableEq K] in
theorem fullTime_units0 (n : ℕ) (c dt : K) : fullTime n (c * dt) = ⟨(fullTime n dt).len, fun k => c * (fullTime n dt).get k⟩ := by
  simp only [fullTime, Arr.mk.injEq, true_and]
  funext k
  ring

omit [DecidableEq K] in
theorem fullTime_units (n : ℕ) (c dt : K) (lo hi st : ℕ) : (fullTime n (c * dt)).slice lo hi st =
    ⟨((fullTime n dt).slice lo hi st).len, fun k => c * ((fullTime n dt).slice lo hi st).get k⟩ := by
  simp only [fullTime, Arr.slice, Arr.mk.injEq, true_and]
  funext k
  ring

/-- **C136**: `compute_kernel` does not depend on the system of units, whatever the method, with or without a given first value. Also the
errors are the same. -/
theorem C136_units {s c : K} (hs : s ≠ 0) (hc : c ≠ 0) (u : K) (C : Option (Corrs K b x)) (n : ℕ) (dt : K) (method : String) (k0 : Option (Mat K b x)) :
    computeKernel (C.map (Spec.unitsCorrs s u c)) n (c * dt) method (k0.map ((u / (s * c)) • ·)) =
      (computeKernel C n dt method k0).map (Spec.unitsKernel (u / (s * c)) c) := by
  cases C with
  | none => rfl
  | some C =>
  by_cases hn : n = 0
  · subst hn; rfl
  obtain ⟨κ, hκ⟩ : ∃ κ : K, κ = u / (s * c) := ⟨_, rfl⟩
  have r1 := fun L B D => FKernel.firstKindRect_units (b := b) (x := x) hc hs u dt L B D
  have r2 := fun dt L B D => FKernel.firstKindMidpoint_units (b := b) (x := x) hc hs u dt L B D
  have r3 := fun L B D k0 => FKernel.firstKindTrapz_units (b := b) (x := x) hc hs u dt L B D k0
  have r4 := fun L B D k0 B0 => FKernel.secondKindRect_units (b := b) (x := x) hc hs u dt L B D k0 B0
  have r5 := fun L B D k0 B0 => FKernel.secondKindTrapz_units (b := b) (x := x) hc hs u dt L B D k0 B0
  have r6 := fun m => effectiveK0_units (b := b) (x := x) (c := c) hs u C m k0
  rw [← hκ] at *
  rw [Option.map_some]
  by_cases h1 : method ∈ ["rect", "rectangular"]
  · rw [computeKernel_rect_eq _ _ hn h1, computeKernel_rect_eq _ _ hn h1]
    show (FKernel.firstKindRect (C.N - 1) (fun n => s • C.bkbk n) (fun n => u • C.bkdx n) (c * dt)).bind _ = _
    rw [r1]
    cases FKernel.firstKindRect (C.N - 1) C.bkbk C.bkdx dt with
    | error e => rfl
    | ok ker => exact finish_units κ c ⟨C.N, ker⟩ _ _ (fullTime_units0 n c dt)
  by_cases h2 : method = "midpoint"
  · subst h2
    rw [computeKernel_midpoint_eq _ _ hn, computeKernel_midpoint_eq _ _ hn]
    show (FKernel.firstKindMidpoint (C.N - 1) (fun n => s • C.bkbk n) (fun n => u • C.bkdx n) (c * dt)).bind _ = _
    rw [r2]
    cases FKernel.firstKindMidpoint (C.N - 1) C.bkbk C.bkdx dt with
    | error e => rfl
    | ok ker => exact finish_units κ c ⟨midpointLen C.N, ker⟩ _ _ (fullTime_units n c dt _ _ _)
  by_cases h3 : method = "midpoint_w_richardson"
  · subst h3
    rw [computeKernel_richardson_eq _ _ hn, computeKernel_richardson_eq _ _ hn]
    show (FKernel.firstKindMidpoint (C.N - 1) (fun n => s • C.bkbk n) (fun n => u • C.bkdx n) (c * dt)).bind (fun ker =>
      (FKernel.firstKindMidpoint ((third C.N C.bkbk).len - 1) (fun n => s • (third C.N C.bkbk).get n)
        (fun n => u • (third C.N C.bkdx).get n) (3 * (c * dt))).bind _) = _
    rw [r2, show 3 * (c * dt) = c * (3 * dt) by ring, r2]
    cases FKernel.firstKindMidpoint (C.N - 1) C.bkbk C.bkdx dt with
    | error e => rfl
    | ok ker =>
      cases FKernel.firstKindMidpoint ((third C.N C.bkbk).len - 1) (third C.N C.bkbk).get (third C.N C.bkdx).get (3 * dt) with
      | error e => rfl
      | ok ker3 =>
        show (richardson (Arr.smul κ ⟨midpointLen C.N, ker⟩) (Arr.smul κ ⟨midpointLen (third C.N C.bkbk).len, ker3⟩)).bind _ =
          Except.map _ ((richardson ⟨midpointLen C.N, ker⟩ ⟨midpointLen (third C.N C.bkbk).len, ker3⟩).bind _)
        rw [richardson_units]
        cases richardson ⟨midpointLen C.N, ker⟩ ⟨midpointLen (third C.N C.bkbk).len, ker3⟩ with
        | error e => rfl
        | ok k => exact finish_units κ c k _ _ (fullTime_units n c dt _ _ _)
  by_cases h4 : method = "trapz"
  · subst h4
    rw [computeKernel_trapz_eq _ _ hn, computeKernel_trapz_eq _ _ hn, r6]
    cases effectiveK0 C "trapz" k0 with
    | error e => rfl
    | ok k =>
      cases k with
      | none => rfl
      | some k =>
        show (FKernel.firstKindTrapz (C.N - 1) (κ • k) (fun n => s • C.bkbk n) (fun n => u • C.bkdx n) (c * dt)).bind _ =
          Except.map _ ((FKernel.firstKindTrapz (C.N - 1) k C.bkbk C.bkdx dt).bind _)
        rw [r3]
        cases FKernel.firstKindTrapz (C.N - 1) k C.bkbk C.bkdx dt with
        | error e => rfl
        | ok ker =>
          show (smooth (Arr.smul κ ⟨C.N, ker⟩)).bind _ = Except.map _ ((smooth ⟨C.N, ker⟩).bind _)
          rw [smooth_units]
          cases smooth ⟨C.N, ker⟩ with
          | error e => rfl
          | ok a =>
            show finish ((a.smul κ).insert0 (κ • k), _) = _
            rw [show (a.smul κ).insert0 (κ • k) = (a.insert0 k).smul κ by
              simp only [Arr.smul, Arr.insert0, Arr.mk.injEq, true_and]
              funext i
              split_ifs <;> rfl]
            exact finish_units κ c (a.insert0 k) _ _ (fullTime_units n c dt _ _ _)
  by_cases h5 : method = "second_kind_rect"
  · subst h5
    rw [computeKernel_secondRect_eq _ _ hn, computeKernel_secondRect_eq _ _ hn, r6]
    cases effectiveK0 C "second_kind_rect" k0 with
    | error e => rfl
    | ok k =>
      obtain ⟨N, B, D, d, bd⟩ := C
      cases d with
      | none => rfl
      | some d =>
        cases bd with
        | none => rfl
        | placeholder => rfl
        | arr bd =>
          cases k with
          | none => rfl
          | some k =>
            show (FKernel.secondKindRect (N - 1) (κ • k) (s • B 0) (fun n => (s / c) • bd n) (fun n => (u / c) • d n) (c * dt)).bind _ =
              Except.map _ ((FKernel.secondKindRect (N - 1) k (B 0) bd d dt).bind _)
            rw [r4]
            cases FKernel.secondKindRect (N - 1) k (B 0) bd d dt with
            | error e => rfl
            | ok ker => exact finish_units κ c ⟨N, ker⟩ _ _ (fullTime_units0 n c dt)
  by_cases h6 : method = "second_kind_trapz"
  · subst h6
    rw [computeKernel_secondTrapz_eq _ _ hn, computeKernel_secondTrapz_eq _ _ hn, r6]
    cases effectiveK0 C "second_kind_trapz" k0 with
    | error e => rfl
    | ok k =>
      obtain ⟨N, B, D, d, bd⟩ := C
      cases d with
      | none => rfl
      | some d =>
        cases bd with
        | none => rfl
        | placeholder => rfl
        | arr bd =>
          cases k with
          | none => rfl
          | some k =>
            show (FKernel.secondKindTrapz (N - 1) (κ • k) (s • B 0) (fun n => (s / c) • bd n) (fun n => (u / c) • d n) (c * dt)).bind _ =
              Except.map _ ((FKernel.secondKindTrapz (N - 1) k (B 0) bd d dt).bind _)
            rw [r5]
            cases FKernel.secondKindTrapz (N - 1) k (B 0) bd d dt with
            | error e => rfl
            | ok ker => exact finish_units κ c ⟨N, ker⟩ _ _ (fullTime_units0 n c dt)
  have e7 : ∀ (C : Corrs K b x) (dt : K) (k : Option (Mat K b x)), computeKernel (some C) n dt method k =
      (effectiveK0 C method k).bind fun _ => .error (.exception "Method for volterra inversion is not in  {rectangular, midpoint, midpoint_w_richardson,trapz,second_kind_rect,second_kind_trapz}") := by
    intro C dt k
    unfold computeKernel
    simp only [hn, h1, h2, h3, h4, h5, h6, bind, Except.bind, throw, throwThe, MonadExceptOf.throw, if_false]
  rw [e7, e7, r6]
  cases effectiveK0 C method k0 <;> rfl

/-- Time in thousandths of its unit, the basis doubled, the coordinate in tenths. -/
example (C : Corrs ℚ 2 1) := C136_units (s := 4) (c := 1000) (by norm_num) (by norm_num) 20 (some C) 11 (1 / 100) "second_kind_trapz" none

end Verif
