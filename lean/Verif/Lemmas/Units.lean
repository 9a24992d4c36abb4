import Verif.Model.ComputeKernel
import Verif.Lemmas.Loops
import Mathlib.LinearAlgebra.Matrix.Adjugate
import Mathlib.Tactic.FieldSimp
import Mathlib.Tactic.Module

/-!
# The inversion routines under a change of units
-/

namespace Verif

open Finset

/-- A loop on transformed states. -/
theorem forRange_hom {σ τ : Type*} (φ : σ → τ) {f : ℕ → σ → σ} {f' : ℕ → τ → τ} (h : ∀ i s, f' i (φ s) = φ (f i s)) (lo hi : ℕ) (s : σ) :
    forRange lo hi f' (φ s) = φ (forRange lo hi f s) := by
  unfold forRange
  generalize List.range' lo (hi - lo) = l
  induction l generalizing s with
  | nil => rfl
  | cons i l ih => rw [List.foldl_cons, List.foldl_cons, h, ih]

section
variable {K : Type*} [Field K] {b x : ℕ}

theorem inv_adj_smul {n : ℕ} {a : K} (ha : a ≠ 0) (A : Mat K n n) :
    (a • A).det⁻¹ • (a • A).adjugate = a⁻¹ • (A.det⁻¹ • A.adjugate) := by
  rcases n with _ | n
  · exact Subsingleton.elim _ _
  · rw [Matrix.det_smul, Matrix.adjugate_smul, smul_smul, smul_smul]
    congr 1
    simp only [Fintype.card_fin, Nat.add_sub_cancel, mul_inv, pow_succ]
    have : a ^ n ≠ 0 := pow_ne_zero _ ha
    field_simp

variable [DecidableEq K]

theorem lapackInv_smul {n : ℕ} {a : K} (ha : a ≠ 0) (A : Mat K n n) :
    lapackInv (a • A) = (lapackInv A).map (a⁻¹ • ·) := by
  have h : (a • A).det = 0 ↔ A.det = 0 := by
    rw [Matrix.det_smul]; simp [ha]
  by_cases hA : A.det = 0
  · rw [lapackInv, lapackInv, if_pos (h.2 hA), if_pos hA]; rfl
  · rw [lapackInv, lapackInv, if_neg (mt h.1 hA), if_neg hA, inv_adj_smul ha]; rfl

theorem npInv_smul {n : ℕ} {a : K} (ha : a ≠ 0) (A : Mat K n n) :
    npInv (a • A) = (npInv A).map (a⁻¹ • ·) := by
  have h : (a • A).det = 0 ↔ A.det = 0 := by
    rw [Matrix.det_smul]; simp [ha]
  by_cases hA : A.det = 0
  · rw [npInv, npInv, if_pos (h.2 hA), if_pos hA]; rfl
  · rw [npInv, npInv, if_neg (mt h.1 hA), if_neg hA, inv_adj_smul ha]; rfl

namespace FKernel

omit [DecidableEq K] in
theorem rectIntegral_smul (c s κ dt : K) (n : ℕ) (B : ℕ → Mat K b b) (ker : ℕ → Mat K b x) :
    rectIntegral (c * dt) n (fun k => s • B k) (κ • ker) = (c * s * κ) • rectIntegral dt n B ker := by
  unfold rectIntegral
  rw [← forRange_hom (fun M : Mat K b x => (c * s * κ) • M) (f' := fun j res => res + (c * dt) • ((s • B (n - j)) * (κ • ker) j)), smul_zero]
  intro j M
  rw [Pi.smul_apply, Matrix.smul_mul, Matrix.mul_smul]
  module

omit [DecidableEq K] in
theorem midpointIntegral_smul (c s κ dt : K) (n : ℕ) (B : ℕ → Mat K b b) (ker : ℕ → Mat K b x) :
    midpointIntegral (c * dt) n (fun k => s • B k) (κ • ker) = (c * s * κ) • midpointIntegral dt n B ker := by
  unfold midpointIntegral
  rw [← forRange_hom (fun M : Mat K b x => (c * s * κ) • M) (f' := fun j res => res + (c * dt) • ((s • B (2 * (n - j))) * (κ • ker) j)), smul_zero]
  intro j M
  rw [Pi.smul_apply, Matrix.smul_mul, Matrix.mul_smul]
  module

omit [DecidableEq K] in
theorem trapzIntegral_smul (c s κ dt : K) (n : ℕ) (B : ℕ → Mat K b b) (ker : ℕ → Mat K b x) :
    trapzIntegral (c * dt) n (fun k => s • B k) (κ • ker) = (c * s * κ) • trapzIntegral dt n B ker := by
  unfold trapzIntegral
  rw [← forRange_hom (fun M : Mat K b x => (c * s * κ) • M) (f' := fun j res => res + (c * dt) • ((s • B (n - j)) * (κ • ker) j))]
  · congr 1
    rw [Pi.smul_apply, Matrix.smul_mul, Matrix.mul_smul]
    module
  · intro j M
    rw [Pi.smul_apply, Matrix.smul_mul, Matrix.mul_smul]
    module

omit [DecidableEq K] in
theorem update_smul_fun (κ : K) (ker : ℕ → Mat K b x) (i : ℕ) (M : Mat K b x) :
    Function.update (κ • ker) i (κ • M) = κ • Function.update ker i M := by
  funext j
  by_cases h : j = i
  · subst h; simp
  · simp [h]

omit [DecidableEq K] in
theorem zero_upd (κ : K) (M : Mat K b x) : Function.update (0 : ℕ → Mat K b x) 0 (κ • M) = κ • Function.update (0 : ℕ → Mat K b x) 0 M := by
  rw [← update_smul_fun, smul_zero]

variable {c s : K} (hc : c ≠ 0) (hs : s ≠ 0) (u dt : K) (L : ℕ) (B : ℕ → Mat K b b) (D : ℕ → Mat K b x) (k0 : Mat K b x)
include hc hs

theorem firstKindRect_units : firstKindRect L (fun n => s • B n) (fun n => u • D n) (c * dt) =
    (firstKindRect L B D dt).map ((u / (s * c)) • ·) := by
  unfold firstKindRect
  by_cases hL : L = 0
  · simp only [if_pos hL]; rfl
  · simp only [if_neg hL]
    rw [show (c * dt) • s • B 1 = (c * s) • (dt • B 1) by module, lapackInv_smul (mul_ne_zero hc hs)]
    cases lapackInv (dt • B 1) with
    | error e => rfl
    | ok I =>
      show Except.ok _ = Except.ok _
      congr 1
      have e0 : ∀ M N : Mat K b x, N = u • M → (-1 : K) • ((c * s)⁻¹ • I * N) = (u / (s * c)) • ((-1 : K) • (I * M)) := by
        rintro M _ rfl
        rw [Matrix.smul_mul, Matrix.mul_smul]
        match_scalars
        field_simp
      rw [e0 (D 1) _ rfl, zero_upd]
      apply forRange_hom
      intro i ker
      rw [rectIntegral_smul, e0 (rectIntegral dt i (fun k => B (1 + k)) ker + D (i + 1)), update_smul_fun]
      rw [smul_add]
      congr 2
      field_simp

theorem firstKindMidpoint_units : firstKindMidpoint L (fun n => s • B n) (fun n => u • D n) (c * dt) =
    (firstKindMidpoint L B D dt).map ((u / (s * c)) • ·) := by
  unfold firstKindMidpoint
  by_cases hL : L = 0
  · simp only [if_pos hL]; rfl
  · simp only [if_neg hL]
    rw [show (2 * (c * dt)) • s • B 1 = (c * s) • ((2 * dt) • B 1) by module, lapackInv_smul (mul_ne_zero hc hs)]
    cases lapackInv ((2 * dt) • B 1) with
    | error e => rfl
    | ok I =>
      show Except.ok _ = Except.ok _
      congr 1
      have e0 : ∀ M N : Mat K b x, N = u • M → (-1 : K) • ((c * s)⁻¹ • I * N) = (u / (s * c)) • ((-1 : K) • (I * M)) := by
        rintro M _ rfl
        rw [Matrix.smul_mul, Matrix.mul_smul]
        match_scalars
        field_simp
      rw [e0 (D 1) _ rfl, zero_upd]
      apply forRange_hom
      intro i ker
      rw [show 2 * (c * dt) = c * (2 * dt) by ring, midpointIntegral_smul,
        e0 (midpointIntegral (2 * dt) i (fun k => B (0 + k)) ker + D (2 * i + 1)), update_smul_fun]
      rw [smul_add]
      congr 2
      field_simp

theorem firstKindTrapz_units : firstKindTrapz L ((u / (s * c)) • k0) (fun n => s • B n) (fun n => u • D n) (c * dt) =
    (firstKindTrapz L k0 B D dt).map ((u / (s * c)) • ·) := by
  unfold firstKindTrapz
  rw [show (1 / 2 * (c * dt)) • s • B 0 = (c * s) • ((1 / 2 * dt) • B 0) by module, lapackInv_smul (mul_ne_zero hc hs)]
  cases lapackInv ((1 / 2 * dt) • B 0) with
  | error e => rfl
  | ok I =>
    show Except.ok _ = Except.ok _
    congr 1
    have e0 : ∀ M N : Mat K b x, N = u • M → (-1 : K) • ((c * s)⁻¹ • I * N) = (u / (s * c)) • ((-1 : K) • (I * M)) := by
      rintro M _ rfl
      rw [Matrix.smul_mul, Matrix.mul_smul]
      match_scalars
      field_simp
    rw [zero_upd]
    apply forRange_hom
    intro i ker
    rw [trapzIntegral_smul]
    show Function.update _ i ((-1 : K) • ((c * s)⁻¹ • I * (_ + u • D i))) = _ • Function.update _ i _
    rw [e0 (trapzIntegral dt i B ker + D i), update_smul_fun]
    rw [smul_add]
    congr 2
    field_simp

variable (B0 : Mat K b b)

theorem secondKindRect_units : secondKindRect L ((u / (s * c)) • k0) (s • B0) (fun n => (s / c) • B n) (fun n => (u / c) • D n) (c * dt) =
    (secondKindRect L k0 B0 B D dt).map ((u / (s * c)) • ·) := by
  unfold secondKindRect
  rw [lapackInv_smul hs]
  cases lapackInv B0 with
  | error e => rfl
  | ok I =>
    show Except.ok _ = Except.ok _
    congr 1
    have e0 : ∀ M N : Mat K b x, N = (u / c) • M → s⁻¹ • I * N = (u / (s * c)) • (I * M) := by
      rintro M _ rfl
      rw [Matrix.smul_mul, Matrix.mul_smul]
      match_scalars
      field_simp
    rw [zero_upd]
    apply forRange_hom
    intro i ker
    rw [rectIntegral_smul]
    show Function.update _ i (s⁻¹ • I * (_ + (u / c) • D i)) = _ • Function.update _ i _
    rw [e0 (rectIntegral dt i B ker + D i), update_smul_fun]
    rw [smul_add]
    congr 2
    field_simp

theorem secondKindTrapz_units : secondKindTrapz L ((u / (s * c)) • k0) (s • B0) (fun n => (s / c) • B n) (fun n => (u / c) • D n) (c * dt) =
    (secondKindTrapz L k0 B0 B D dt).map ((u / (s * c)) • ·) := by
  unfold secondKindTrapz
  rw [show s • B0 - (1 / 2 * (c * dt)) • (s / c) • B 0 = s • (B0 - (1 / 2 * dt) • B 0) by
    rw [smul_sub, smul_smul, smul_smul]
    congr 2
    field_simp, lapackInv_smul hs]
  cases lapackInv (B0 - (1 / 2 * dt) • B 0) with
  | error e => rfl
  | ok I =>
    show Except.ok _ = Except.ok _
    congr 1
    have e0 : ∀ M N : Mat K b x, N = (u / c) • M → s⁻¹ • I * N = (u / (s * c)) • (I * M) := by
      rintro M _ rfl
      rw [Matrix.smul_mul, Matrix.mul_smul]
      match_scalars
      field_simp
    rw [zero_upd]
    apply forRange_hom
    intro i ker
    rw [trapzIntegral_smul]
    show Function.update _ i (s⁻¹ • I * (_ + (u / c) • D i)) = _ • Function.update _ i _
    rw [e0 (trapzIntegral dt i B ker + D i), update_smul_fun]
    rw [smul_add]
    congr 2
    field_simp

end FKernel

end

end Verif
