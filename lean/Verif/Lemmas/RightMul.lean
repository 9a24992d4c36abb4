import Verif.Lemmas.Units
import Verif.Lemmas.ComputeKernel

/-!
# The inversion routines when the components of the observable are mixed
-/

namespace Verif

open Finset

section
variable {K : Type*} [Field K] {b x y : ℕ}

/-- Each matrix multiplied from the right. -/
def rmul (R : Mat K x y) (f : ℕ → Mat K b x) : ℕ → Mat K b y := fun n => f n * R

namespace FKernel

theorem rectIntegral_right (dt : K) (n : ℕ) (B : ℕ → Mat K b b) (ker : ℕ → Mat K b x) (R : Mat K x y) :
    rectIntegral dt n B (rmul R ker) = rectIntegral dt n B ker * R := by
  unfold rectIntegral
  rw [← forRange_hom (fun M : Mat K b x => M * R) (f' := fun j res => res + dt • (B (n - j) * rmul R ker j)), Matrix.zero_mul]
  intro j M
  rw [rmul, Matrix.add_mul, Matrix.smul_mul, Matrix.mul_assoc]

theorem midpointIntegral_right (dt : K) (n : ℕ) (B : ℕ → Mat K b b) (ker : ℕ → Mat K b x) (R : Mat K x y) :
    midpointIntegral dt n B (rmul R ker) = midpointIntegral dt n B ker * R := by
  unfold midpointIntegral
  rw [← forRange_hom (fun M : Mat K b x => M * R) (f' := fun j res => res + dt • (B (2 * (n - j)) * rmul R ker j)), Matrix.zero_mul]
  intro j M
  rw [rmul, Matrix.add_mul, Matrix.smul_mul, Matrix.mul_assoc]

theorem trapzIntegral_right (dt : K) (n : ℕ) (B : ℕ → Mat K b b) (ker : ℕ → Mat K b x) (R : Mat K x y) :
    trapzIntegral dt n B (rmul R ker) = trapzIntegral dt n B ker * R := by
  unfold trapzIntegral
  rw [← forRange_hom (fun M : Mat K b x => M * R) (f' := fun j res => res + dt • (B (n - j) * rmul R ker j))]
  · congr 1
    rw [rmul, Matrix.smul_mul, Matrix.mul_assoc]
  · intro j M
    rw [rmul, Matrix.add_mul, Matrix.smul_mul, Matrix.mul_assoc]

theorem update_right (R : Mat K x y) (ker : ℕ → Mat K b x) (i : ℕ) (M : Mat K b x) :
    Function.update (rmul R ker) i (M * R) = rmul R (Function.update ker i M) := by
  funext j
  by_cases h : j = i
  · subst h; simp [rmul]
  · simp [h, rmul]

theorem zero_right (R : Mat K x y) (M : Mat K b x) :
    Function.update (0 : ℕ → Mat K b y) 0 (M * R) = rmul R (Function.update (0 : ℕ → Mat K b x) 0 M) := by
  rw [← update_right]
  congr 1
  funext n
  simp [rmul]

variable [DecidableEq K] (dt : K) (L : ℕ) (B : ℕ → Mat K b b) (D : ℕ → Mat K b x) (k0 : Mat K b x) (B0 : Mat K b b) (R : Mat K x y)

theorem firstKindRect_right : firstKindRect L B (rmul R D) dt = (firstKindRect L B D dt).map (rmul R) := by
  unfold firstKindRect
  by_cases hL : L = 0
  · simp only [if_pos hL]; rfl
  · simp only [if_neg hL]
    cases lapackInv (dt • B 1) with
    | error e => rfl
    | ok I =>
      show Except.ok _ = Except.ok _
      congr 1
      have e0 : ∀ M : Mat K b x, (-1 : K) • (I * (M * R)) = ((-1 : K) • (I * M)) * R := fun M => by
        rw [Matrix.smul_mul, Matrix.mul_assoc]
      rw [show rmul R D 1 = D 1 * R from rfl, e0, zero_right]
      apply forRange_hom
      intro i ker
      rw [rectIntegral_right, show rmul R D (i + 1) = D (i + 1) * R from rfl, ← Matrix.add_mul, e0, update_right]

theorem firstKindMidpoint_right : firstKindMidpoint L B (rmul R D) dt = (firstKindMidpoint L B D dt).map (rmul R) := by
  unfold firstKindMidpoint
  by_cases hL : L = 0
  · simp only [if_pos hL]; rfl
  · simp only [if_neg hL]
    cases lapackInv ((2 * dt) • B 1) with
    | error e => rfl
    | ok I =>
      show Except.ok _ = Except.ok _
      congr 1
      have e0 : ∀ M : Mat K b x, (-1 : K) • (I * (M * R)) = ((-1 : K) • (I * M)) * R := fun M => by
        rw [Matrix.smul_mul, Matrix.mul_assoc]
      rw [show rmul R D 1 = D 1 * R from rfl, e0, zero_right]
      apply forRange_hom
      intro i ker
      rw [midpointIntegral_right, show rmul R D (2 * i + 1) = D (2 * i + 1) * R from rfl, ← Matrix.add_mul, e0, update_right]

theorem firstKindTrapz_right : firstKindTrapz L (k0 * R) B (rmul R D) dt = (firstKindTrapz L k0 B D dt).map (rmul R) := by
  unfold firstKindTrapz
  cases lapackInv ((1 / 2 * dt) • B 0) with
  | error e => rfl
  | ok I =>
    show Except.ok _ = Except.ok _
    congr 1
    have e0 : ∀ M : Mat K b x, (-1 : K) • (I * (M * R)) = ((-1 : K) • (I * M)) * R := fun M => by
      rw [Matrix.smul_mul, Matrix.mul_assoc]
    rw [zero_right]
    apply forRange_hom
    intro i ker
    rw [trapzIntegral_right]
    show Function.update _ i ((-1 : K) • (I * (_ + D i * R))) = rmul R (Function.update _ i _)
    rw [← Matrix.add_mul, e0, update_right]

theorem secondKindRect_right : secondKindRect L (k0 * R) B0 B (rmul R D) dt = (secondKindRect L k0 B0 B D dt).map (rmul R) := by
  unfold secondKindRect
  cases lapackInv B0 with
  | error e => rfl
  | ok I =>
    show Except.ok _ = Except.ok _
    congr 1
    rw [zero_right]
    apply forRange_hom
    intro i ker
    rw [rectIntegral_right]
    show Function.update _ i (I * (_ + D i * R)) = rmul R (Function.update _ i _)
    rw [← Matrix.add_mul, ← Matrix.mul_assoc, update_right]

theorem secondKindTrapz_right : secondKindTrapz L (k0 * R) B0 B (rmul R D) dt = (secondKindTrapz L k0 B0 B D dt).map (rmul R) := by
  unfold secondKindTrapz
  cases lapackInv (B0 - (1 / 2 * dt) • B 0) with
  | error e => rfl
  | ok I =>
    show Except.ok _ = Except.ok _
    congr 1
    rw [zero_right]
    apply forRange_hom
    intro i ker
    rw [trapzIntegral_right]
    show Function.update _ i (I * (_ + D i * R)) = rmul R (Function.update _ i _)
    rw [← Matrix.add_mul, ← Matrix.mul_assoc, update_right]

end FKernel

/-- The correlations with mixed components of the observable. -/
def Corrs.right (R : Mat K x y) (C : Corrs K b x) : Corrs K b y where
  N := C.N
  bkbk := C.bkbk
  bkdx := rmul R C.bkdx
  dotbkdx := C.dotbkdx.map (rmul R)
  dotbkbk := C.dotbkbk

/-- The kernel with mixed components. -/
def KernelData.right (R : Mat K x y) (r : KernelData K b x) : KernelData K b y where
  kernel := ⟨r.kernel.len, rmul R r.kernel.get⟩
  time := r.time

def Arr.right (R : Mat K x y) (a : Arr (Mat K b x)) : Arr (Mat K b y) := ⟨a.len, rmul R a.get⟩

theorem zipWith_right (R : Mat K x y) (f : Mat K b x → Mat K b x → Mat K b x) (f' : Mat K b y → Mat K b y → Mat K b y)
    (hf : ∀ l r, f' (l * R) (r * R) = f l r * R) (a a' : Arr (Mat K b x)) :
    Arr.zipWith f' (a.right R) (a'.right R) = (Arr.zipWith f a a').map (Arr.right R) := by
  unfold Arr.zipWith
  by_cases h : a.len = a'.len
  · rw [if_pos h, if_pos (show (a.right R).len = (a'.right R).len from h)]
    show Except.ok _ = Except.ok _
    simp only [Arr.right, rmul, hf]
    rfl
  · rw [if_neg h, if_neg (show ¬ (a.right R).len = (a'.right R).len from h)]
    rfl

theorem smooth_right (R : Mat K x y) (a : Arr (Mat K b x)) : smooth (a.right R) = (smooth a).map (Arr.right R) := by
  show (Arr.zipWith _ ((a.slice 0 (a.len - 2) 1).right R) ((a.slice 2 a.len 1).right R)).bind
    (fun s => Arr.zipWith _ ((a.slice 1 (a.len - 1) 1).right R) s) =
      Except.map _ ((Arr.zipWith _ (a.slice 0 (a.len - 2) 1) (a.slice 2 a.len 1)).bind (fun s => Arr.zipWith _ (a.slice 1 (a.len - 1) 1) s))
  rw [zipWith_right R (fun l r => (1 / 2 : K) • (l + r)) _ (fun l r => by rw [Matrix.smul_mul, Matrix.add_mul])]
  cases Arr.zipWith (fun l r => (1 / 2 : K) • (l + r)) (a.slice 0 (a.len - 2) 1) (a.slice 2 a.len 1) with
  | error e => rfl
  | ok s =>
    exact zipWith_right R (fun m s => (1 / 2 : K) • (m + s)) (fun m s => (1 / 2 : K) • (m + s))
      (fun l r => by rw [Matrix.smul_mul, Matrix.add_mul]) (a.slice 1 (a.len - 1) 1) s

theorem richardson_right (R : Mat K x y) (a a3 : Arr (Mat K b x)) :
    richardson (a.right R) (a3.right R) = (richardson a a3).map (Arr.right R) :=
  zipWith_right R _ _ (fun l r => by simp only [Matrix.smul_mul, Matrix.sub_mul]) ((a.slice 0 a.len 3).slice 0 a3.len 1) a3

variable [DecidableEq K]

theorem effectiveK0_right (R : Mat K x y) (C : Corrs K b x) (m : String) (k0 : Option (Mat K b x)) :
    effectiveK0 (C.right R) m (k0.map (· * R)) = (effectiveK0 C m k0).map (Option.map (· * R)) := by
  unfold effectiveK0
  rw [Option.isNone_map]
  split_ifs with h
  · simp only [Corrs.right]
    cases C.dotbkdx with
    | none => rfl
    | some d =>
      simp only [Option.map_some]
      cases npInv (C.bkbk 0) with
      | error e => rfl
      | ok I =>
        show Except.ok (some _) = Except.ok (some _)
        congr 2
        exact (Matrix.mul_assoc _ _ _).symm
  · rfl

omit [DecidableEq K] in
theorem finish_right (R : Mat K x y) (a : Arr (Mat K b x)) (t : Arr K) :
    finish (a.right R, t) = (finish (a, t)).map (KernelData.right R) := by
  unfold finish
  by_cases h : a.len = t.len
  · rw [if_neg (not_not.2 h), if_neg (not_not.2 (show (a.right R).len = t.len from h))]
    rfl
  · rw [if_pos h, if_pos (show ¬ (a.right R).len = t.len from h)]
    rfl

/-- `compute_kernel` treats the components of the observable independently. -/
theorem computeKernel_right (R : Mat K x y) (C : Corrs K b x) (n : ℕ) (dt : K) (method : String) (k0 : Option (Mat K b x)) :
    computeKernel (some (C.right R)) n dt method (k0.map (· * R)) = (computeKernel (some C) n dt method k0).map (KernelData.right R) := by
  by_cases hn : n = 0
  · subst hn; rfl
  have r6 := fun m => effectiveK0_right R C m k0
  by_cases h1 : method ∈ ["rect", "rectangular"]
  · rw [computeKernel_rect_eq _ _ hn h1, computeKernel_rect_eq _ _ hn h1]
    show (FKernel.firstKindRect (C.N - 1) C.bkbk (rmul R C.bkdx) dt).bind _ = _
    rw [FKernel.firstKindRect_right]
    cases FKernel.firstKindRect (C.N - 1) C.bkbk C.bkdx dt with
    | error e => rfl
    | ok ker => exact finish_right R ⟨C.N, ker⟩ _
  by_cases h2 : method = "midpoint"
  · subst h2
    rw [computeKernel_midpoint_eq _ _ hn, computeKernel_midpoint_eq _ _ hn]
    show (FKernel.firstKindMidpoint (C.N - 1) C.bkbk (rmul R C.bkdx) dt).bind _ = _
    rw [FKernel.firstKindMidpoint_right]
    cases FKernel.firstKindMidpoint (C.N - 1) C.bkbk C.bkdx dt with
    | error e => rfl
    | ok ker => exact finish_right R ⟨midpointLen C.N, ker⟩ _
  by_cases h3 : method = "midpoint_w_richardson"
  · subst h3
    rw [computeKernel_richardson_eq _ _ hn, computeKernel_richardson_eq _ _ hn]
    show (FKernel.firstKindMidpoint (C.N - 1) C.bkbk (rmul R C.bkdx) dt).bind (fun ker =>
      (FKernel.firstKindMidpoint ((third C.N C.bkbk).len - 1) (third C.N C.bkbk).get
        (rmul R (third C.N C.bkdx).get) (3 * dt)).bind _) = _
    rw [FKernel.firstKindMidpoint_right, FKernel.firstKindMidpoint_right]
    cases FKernel.firstKindMidpoint (C.N - 1) C.bkbk C.bkdx dt with
    | error e => rfl
    | ok ker =>
      cases FKernel.firstKindMidpoint ((third C.N C.bkbk).len - 1) (third C.N C.bkbk).get (third C.N C.bkdx).get (3 * dt) with
      | error e => rfl
      | ok ker3 =>
        show (richardson (Arr.right R ⟨midpointLen C.N, ker⟩) (Arr.right R ⟨midpointLen (third C.N C.bkbk).len, ker3⟩)).bind _ =
          Except.map _ ((richardson ⟨midpointLen C.N, ker⟩ ⟨midpointLen (third C.N C.bkbk).len, ker3⟩).bind _)
        rw [richardson_right]
        cases richardson ⟨midpointLen C.N, ker⟩ ⟨midpointLen (third C.N C.bkbk).len, ker3⟩ with
        | error e => rfl
        | ok k => exact finish_right R k _
  by_cases h4 : method = "trapz"
  · subst h4
    rw [computeKernel_trapz_eq _ _ hn, computeKernel_trapz_eq _ _ hn, r6]
    cases effectiveK0 C "trapz" k0 with
    | error e => rfl
    | ok k =>
      cases k with
      | none => rfl
      | some k =>
        show (FKernel.firstKindTrapz (C.N - 1) (k * R) C.bkbk (rmul R C.bkdx) dt).bind _ =
          Except.map _ ((FKernel.firstKindTrapz (C.N - 1) k C.bkbk C.bkdx dt).bind _)
        rw [FKernel.firstKindTrapz_right]
        cases FKernel.firstKindTrapz (C.N - 1) k C.bkbk C.bkdx dt with
        | error e => rfl
        | ok ker =>
          show (smooth (Arr.right R ⟨C.N, ker⟩)).bind _ = Except.map _ ((smooth ⟨C.N, ker⟩).bind _)
          rw [smooth_right]
          cases smooth ⟨C.N, ker⟩ with
          | error e => rfl
          | ok a =>
            show finish ((a.right R).insert0 (k * R), _) = _
            rw [show (a.right R).insert0 (k * R) = (a.insert0 k).right R by
              simp only [Arr.right, Arr.insert0, Arr.mk.injEq, true_and]
              funext i
              unfold rmul
              dsimp only
              split_ifs <;> rfl]
            exact finish_right R (a.insert0 k) _
  by_cases h5 : method = "second_kind_rect"
  · subst h5
    rw [computeKernel_secondRect_eq _ _ hn, computeKernel_secondRect_eq _ _ hn, r6]
    cases effectiveK0 C "second_kind_rect" k0 with
    | error e => rfl
    | ok k =>
      obtain ⟨N, B, D, d, bd⟩ := C
      cases d with
      | none => rfl
      | some d =>
        cases bd with
        | none => rfl
        | placeholder => rfl
        | arr bd =>
          cases k with
          | none => rfl
          | some k =>
            show (FKernel.secondKindRect (N - 1) (k * R) (B 0) bd (rmul R d) dt).bind _ =
              Except.map _ ((FKernel.secondKindRect (N - 1) k (B 0) bd d dt).bind _)
            rw [FKernel.secondKindRect_right]
            cases FKernel.secondKindRect (N - 1) k (B 0) bd d dt with
            | error e => rfl
            | ok ker => exact finish_right R ⟨N, ker⟩ _
  by_cases h6 : method = "second_kind_trapz"
  · subst h6
    rw [computeKernel_secondTrapz_eq _ _ hn, computeKernel_secondTrapz_eq _ _ hn, r6]
    cases effectiveK0 C "second_kind_trapz" k0 with
    | error e => rfl
    | ok k =>
      obtain ⟨N, B, D, d, bd⟩ := C
      cases d with
      | none => rfl
      | some d =>
        cases bd with
        | none => rfl
        | placeholder => rfl
        | arr bd =>
          cases k with
          | none => rfl
          | some k =>
            show (FKernel.secondKindTrapz (N - 1) (k * R) (B 0) bd (rmul R d) dt).bind _ =
              Except.map _ ((FKernel.secondKindTrapz (N - 1) k (B 0) bd d dt).bind _)
            rw [FKernel.secondKindTrapz_right]
            cases FKernel.secondKindTrapz (N - 1) k (B 0) bd d dt with
            | error e => rfl
            | ok ker => exact finish_right R ⟨N, ker⟩ _
  have e7 : ∀ {x : ℕ} (C : Corrs K b x) (dt : K) (k : Option (Mat K b x)), computeKernel (some C) n dt method k =
      (effectiveK0 C method k).bind fun _ => .error (.exception "Method for volterra inversion is not in  {rectangular, midpoint, midpoint_w_richardson,trapz,second_kind_rect,second_kind_trapz}") := by
    intro x C dt k
    unfold computeKernel
    simp only [hn, h1, h2, h3, h4, h5, h6, bind, Except.bind, throw, throwThe, MonadExceptOf.throw, if_false]
  rw [e7, e7, r6]
  cases effectiveK0 C method k0 <;> rfl


end

end Verif
