import Verif.Model.FKernel
import Verif.Spec.Volterra
import Verif.Lemmas.Loops

/-! # Closed forms of the Fortran quadratures and solvers -/

namespace Verif

open Finset

theorem lapackInv_ok {K : Type*} [Field K] [DecidableEq K] {n : ℕ} {A M : Mat K n n}
    (h : lapackInv A = .ok M) : A.det ≠ 0 ∧ A * M = 1 ∧ M * A = 1 := by
  unfold lapackInv at h
  split at h
  · cases h
  · rename_i hd
    cases h
    refine ⟨hd, ?_, ?_⟩
    · rw [Matrix.mul_smul, Matrix.mul_adjugate, smul_smul, inv_mul_cancel₀ hd, one_smul]
    · rw [Matrix.smul_mul, Matrix.adjugate_mul, smul_smul, inv_mul_cancel₀ hd, one_smul]

theorem lapackInv_of_det {K : Type*} [Field K] [DecidableEq K] {n : ℕ} {A : Mat K n n}
    (h : A.det ≠ 0) : ∃ M, lapackInv A = .ok M :=
  ⟨_, by unfold lapackInv; rw [if_neg h]⟩

theorem npInv_ok {K : Type*} [Field K] [DecidableEq K] {n : ℕ} {A M : Mat K n n}
    (h : npInv A = .ok M) : A.det ≠ 0 ∧ A * M = 1 ∧ M * A = 1 := by
  apply lapackInv_ok
  unfold npInv at h
  unfold lapackInv
  split at h
  · cases h
  · rename_i hd; rw [if_neg hd]; exact h

section Quadrature
variable {K V : Type*} [Field K] [AddCommGroup V] [Module K V]

theorem trapzRule_eq [CharZero K] (h : K) (f : ℕ → V) {n : ℕ} (hn : 1 ≤ n) :
    Spec.trapzRule h f n = (h / 2) • f 0 + ∑ j ∈ Ico 1 n, h • f j + (h / 2) • f n := by
  induction n, hn using Nat.le_induction with
  | base => simp [Spec.trapzRule]
  | succ n hn ih =>
    have h2 : h = h / 2 + h / 2 := by ring
    rw [Spec.trapzRule, sum_range_succ, ← Spec.trapzRule, ih, sum_Ico_succ_top hn]
    conv_rhs => rw [show h • f n = (h / 2) • f n + (h / 2) • f n by rw [← add_smul, ← h2]]
    rw [smul_add]
    abel

theorem trapzRule_zero (h : K) (f : ℕ → V) : Spec.trapzRule h f 0 = 0 := by simp [Spec.trapzRule]

theorem rectRule_congr (h : K) {f g : ℕ → V} {n : ℕ} (H : ∀ j < n, f j = g j) :
    Spec.rectRule h f n = Spec.rectRule h g n :=
  sum_congr rfl fun j hj => by rw [H j (mem_range.1 hj)]

theorem trapzRule_congr (h : K) {f g : ℕ → V} {n : ℕ} (H : ∀ j ≤ n, f j = g j) :
    Spec.trapzRule h f n = Spec.trapzRule h g n :=
  sum_congr rfl fun j hj => by
    have := mem_range.1 hj
    rw [H j (by omega), H (j + 1) (by omega)]

end Quadrature

namespace FKernel

variable {K : Type*} [Field K] {o b x : ℕ}

theorem rectIntegral_eq (dt : K) (n : ℕ) (B : ℕ → Mat K o b) (ker : ℕ → Mat K b x) :
    rectIntegral dt n B ker = ∑ j ∈ range n, dt • (B (n - j) * ker j) := by
  rw [rectIntegral, forRange_add, zero_add, range_eq_Ico]

theorem midpointIntegral_eq (dt : K) (n : ℕ) (B : ℕ → Mat K o b) (ker : ℕ → Mat K b x) :
    midpointIntegral dt n B ker = ∑ j ∈ range n, dt • (B (2 * (n - j)) * ker j) := by
  rw [midpointIntegral, forRange_add, zero_add, range_eq_Ico]

theorem trapzIntegral_eq (dt : K) (n : ℕ) (B : ℕ → Mat K o b) (ker : ℕ → Mat K b x) :
    trapzIntegral dt n B ker = (dt / 2) • (B n * ker 0) + ∑ j ∈ Ico 1 n, dt • (B (n - j) * ker j) := by
  rw [trapzIntegral, forRange_add, one_div, inv_mul_eq_div]

/-- `trapz_integral` leaves out the end point term of the trapezoidal rule. -/
theorem trapzIntegral_add_end [CharZero K] (dt : K) {n : ℕ} (hn : 1 ≤ n) (B : ℕ → Mat K o b)
    (ker : ℕ → Mat K b x) :
    trapzIntegral dt n B ker + (dt / 2) • (B 0 * ker n) =
      Spec.trapzRule dt (fun s => B (n - s) * ker s) n := by
  rw [trapzIntegral_eq, trapzRule_eq _ _ hn]
  simp

theorem simpson_sum (h : K) {V : Type*} [AddCommGroup V] [Module K V] (g : ℕ → V) (m : ℕ) :
    ∑ p ∈ range (m + 1), (h / 3) • (g (2 * p) + (4 : K) • g (2 * p + 1) + g (2 * p + 2)) =
      (h / 3) • g 0 + ∑ p ∈ range m, ((4 * (h / 3)) • g (2 * p + 1) + (2 * (h / 3)) • g (2 * p + 2)) +
        (4 * (h / 3)) • g (2 * m + 1) + (h / 3) • g (2 * m + 2) := by
  induction m with
  | zero =>
    simp only [zero_add, sum_range_one, range_zero, sum_empty, mul_zero, add_zero]
    module
  | succ m ih =>
    rw [sum_range_succ, ih, sum_range_succ]
    rw [show 2 * (m + 1) = 2 * m + 2 by ring]
    module

/-- `simpson_integral` leaves out the end point term of Simpson's rule. -/
theorem simpsonIntegral_add_end (dt : K) {n : ℕ} (hn : 2 ≤ n) (B : ℕ → Mat K o b)
    (ker : ℕ → Mat K b x) :
    simpsonIntegral dt n B ker + (dt / 3) • (B 0 * ker n) =
      Spec.simpsonRule dt (fun s => B (n - s) * ker s) n := by
  set f : ℕ → Mat K o x := fun s => B (n - s) * ker s with hf
  have hsum : ∀ (s : ℕ) (r : Mat K o x), 1 ≤ s →
      forStep2 s (n - 1) (fun j (res : Mat K o x) =>
        res + (4 * (dt / 3)) • (B (n - j) * ker j) + (2 * (dt / 3)) • (B (n - j - 1) * ker (j + 1))) r =
      r + ∑ p ∈ range ((n - 1 - s + 1) / 2),
        ((4 * (dt / 3)) • f (s + 2 * p) + (2 * (dt / 3)) • f (s + 2 * p + 1)) := by
    intro s r _
    refine Eq.trans ?_ (forStep2_add s (n - 1)
      (fun j => (4 * (dt / 3)) • f j + (2 * (dt / 3)) • f (j + 1)) r)
    simp only [hf, add_assoc, Nat.sub_sub]
  unfold simpsonIntegral Spec.simpsonRule
  rcases Nat.even_or_odd' n with ⟨m, rfl | rfl⟩
  · obtain ⟨m, rfl⟩ : ∃ k, m = k + 1 := ⟨m - 1, by omega⟩
    have h0 : 2 * (m + 1) % 2 = 0 := by omega
    simp only [h0, zero_ne_one, if_false, if_true]
    rw [hsum 1 _ le_rfl]
    rw [show (2 * (m + 1)) / 2 = m + 1 by omega, show (2 * (m + 1) - 1 - 1 + 1) / 2 = m by omega]
    simp only [Spec.simpsonPanel]
    rw [simpson_sum]
    have e1 : B 1 * ker (2 * (m + 1) - 1) = f (2 * m + 1) := by
      simp only [hf]; rw [show 2 * (m + 1) - (2 * m + 1) = 1 by omega]; rfl
    have e2 : B 0 * ker (2 * (m + 1)) = f (2 * m + 2) := by
      simp only [hf]; rw [show 2 * (m + 1) - (2 * m + 2) = 0 by omega]; rfl
    have e3 : B (2 * (m + 1)) * ker 0 = f 0 := by simp [hf]
    rw [e1, e2, e3]
    have e5 : ∀ p, 1 + 2 * p = 2 * p + 1 := fun p => by ring
    simp only [e5]
  · obtain ⟨m, rfl⟩ : ∃ k, m = k + 1 := ⟨m - 1, by omega⟩
    have h0 : (2 * (m + 1) + 1) % 2 = 1 := by omega
    simp only [h0, one_ne_zero, if_false, if_true]
    rw [hsum 2 _ (by omega)]
    rw [show (2 * (m + 1) + 1) / 2 = m + 1 by omega, show (2 * (m + 1) + 1 - 1 - 2 + 1) / 2 = m by omega]
    simp only [Spec.simpsonPanel]
    have := simpson_sum dt (fun k => f (k + 1)) m
    simp only [show ∀ p, 2 * p + 1 + 1 = 2 * p + 2 from fun p => rfl] at this ⊢
    rw [show ∑ p ∈ range (m + 1), (dt / 3) • (f (2 * p + 1) + (4 : K) • f (2 * p + 2) + f (2 * p + 1 + 2)) = _
      from this]
    have e1 : B 1 * ker (2 * (m + 1) + 1 - 1) = f (2 * m + 2) := by
      simp only [hf]; rw [show 2 * (m + 1) + 1 - (2 * m + 2) = 1 by omega]; rfl
    have e2 : B 0 * ker (2 * (m + 1) + 1) = f (2 * m + 3) := by
      simp only [hf]; rw [show 2 * (m + 1) + 1 - (2 * m + 3) = 0 by omega]; rfl
    have e3 : B (2 * (m + 1) + 1) * ker 0 = f 0 := by simp [hf]
    have e4 : B (2 * (m + 1) + 1 - 1) * ker 1 = f 1 := by simp [hf]
    rw [e1, e2, e3, e4]
    have e5 : ∑ p ∈ range m, ((4 * (dt / 3)) • f (2 + 2 * p) + (2 * (dt / 3)) • f (2 + 2 * p + 1)) =
        ∑ p ∈ range m, ((4 * (dt / 3)) • f (2 * p + 2) + (2 * (dt / 3)) • f (2 * p + 2 + 1)) := by
      refine sum_congr rfl fun p _ => ?_
      rw [show 2 + 2 * p = 2 * p + 2 by ring]
    rw [e5, show 2 * m + 2 + 1 = 2 * m + 3 from rfl]
    simp only [zero_add]
    module

variable [DecidableEq K]

theorem firstKindRect_ok {L : ℕ} {B : ℕ → Mat K b b} {D : ℕ → Mat K b x} {dt : K}
    {ker : ℕ → Mat K b x} (h : firstKindRect L B D dt = .ok ker) :
    L ≠ 0 ∧ ∃ M, lapackInv (dt • B 1) = .ok M ∧ ker 0 = -(M * D 1) ∧
      (∀ i, 1 ≤ i → i < L → ker i = -(M * (∑ j ∈ range i, dt • (B (i + 1 - j) * ker j) + D (i + 1)))) ∧
      ∀ i, L ≤ i → ker i = 0 := by
  unfold firstKindRect at h
  by_cases hL : L = 0
  · simp [hL, bind, Except.bind, throw, throwThe, MonadExceptOf.throw] at h
  · refine ⟨hL, ?_⟩
    cases hM : lapackInv (dt • B 1) with
    | error e => simp [hL, hM, bind, Except.bind] at h
    | ok M =>
      simp only [hL, hM, bind, Except.bind, pure, Except.pure, if_false, Except.ok.injEq] at h
      refine ⟨M, rfl, ?_⟩
      obtain ⟨h1, h2⟩ := forRange_fill 1 L
        (fun i ker => (-1 : K) • (M * (rectIntegral dt i (fun k => B (1 + k)) ker + D (i + 1))))
        (Function.update (0 : ℕ → Mat K b x) 0 ((-1 : K) • (M * D 1)))
      rw [h] at h1 h2
      refine ⟨?_, ?_, ?_⟩
      · rw [h1 0 (by omega)]; simp
      · intro i hi hiL
        rw [h2 i hi hiL, rectIntegral_eq, neg_one_smul]
        congr 3
        refine sum_congr rfl fun j hj => ?_
        have hj := mem_range.1 hj
        rw [if_pos hj, show 1 + (i - j) = i + 1 - j by omega]
      · intro i hi
        rw [h1 i (by omega), Function.update_of_ne (by omega)]; rfl

theorem firstKindMidpoint_ok {L : ℕ} {B : ℕ → Mat K b b} {D : ℕ → Mat K b x} {dt : K}
    {ker : ℕ → Mat K b x} (h : firstKindMidpoint L B D dt = .ok ker) :
    L ≠ 0 ∧ ∃ M, lapackInv ((2 * dt) • B 1) = .ok M ∧ ker 0 = -(M * D 1) ∧
      (∀ i, 1 ≤ i → i < L / 2 → ker i =
        -(M * (∑ j ∈ range i, (2 * dt) • (B (2 * (i - j)) * ker j) + D (2 * i + 1)))) ∧
      ∀ i, 1 ≤ i → L / 2 ≤ i → ker i = 0 := by
  unfold firstKindMidpoint at h
  by_cases hL : L = 0
  · simp [hL, bind, Except.bind, throw, throwThe, MonadExceptOf.throw] at h
  · refine ⟨hL, ?_⟩
    cases hM : lapackInv ((2 * dt) • B 1) with
    | error e => simp [hL, hM, bind, Except.bind] at h
    | ok M =>
      simp only [hL, hM, bind, Except.bind, pure, Except.pure, if_false, Except.ok.injEq] at h
      refine ⟨M, rfl, ?_⟩
      obtain ⟨h1, h2⟩ := forRange_fill 1 (L / 2)
        (fun i ker => (-1 : K) • (M * (midpointIntegral (2 * dt) i (fun k => B (0 + k)) ker + D (2 * i + 1))))
        (Function.update (0 : ℕ → Mat K b x) 0 ((-1 : K) • (M * D 1)))
      rw [h] at h1 h2
      refine ⟨?_, ?_, ?_⟩
      · rw [h1 0 (by omega)]; simp
      · intro i hi hiL
        rw [h2 i hi hiL, midpointIntegral_eq, neg_one_smul]
        congr 3
        refine sum_congr rfl fun j hj => ?_
        have hj := mem_range.1 hj
        rw [if_pos hj, zero_add]
      · intro i hi0 hi
        rw [h1 i (by omega), Function.update_of_ne (by omega)]; rfl

omit [DecidableEq K] in
theorem trapzIntegral_congr (dt : K) {n : ℕ} {B B' : ℕ → Mat K o b} {ker ker' : ℕ → Mat K b x}
    (hB : ∀ j ≤ n, B j = B' j) (hk : ∀ j < max n 1, ker j = ker' j) :
    trapzIntegral dt n B ker = trapzIntegral dt n B' ker' := by
  rw [trapzIntegral_eq, trapzIntegral_eq, hB n le_rfl, hk 0 (by omega)]
  congr 1
  refine sum_congr rfl fun j hj => ?_
  have := mem_Ico.1 hj
  rw [hB _ (by omega), hk j (by omega)]

theorem firstKindTrapz_ok {L : ℕ} {k0 : Mat K b x} {B : ℕ → Mat K b b} {D : ℕ → Mat K b x} {dt : K}
    {ker : ℕ → Mat K b x} (h : firstKindTrapz L k0 B D dt = .ok ker) :
    ∃ M, lapackInv (((1 / 2 : K) * dt) • B 0) = .ok M ∧ ker 0 = k0 ∧
      (∀ i, 1 ≤ i → i ≤ L → ker i = -(M * (trapzIntegral dt i B ker + D i))) ∧
      ∀ i, L < i → ker i = 0 := by
  unfold firstKindTrapz at h
  cases hM : lapackInv (((1 / 2 : K) * dt) • B 0) with
  | error e => rw [hM] at h; cases h
  | ok M =>
    simp only [hM, bind, Except.bind, pure, Except.pure, Except.ok.injEq] at h
    refine ⟨M, rfl, ?_⟩
    obtain ⟨h1, h2⟩ := forRange_fill 1 (L + 1)
      (fun i ker => (-1 : K) • (M * (trapzIntegral dt i B ker + D i)))
      (Function.update (0 : ℕ → Mat K b x) 0 k0)
    rw [h] at h1 h2
    refine ⟨?_, ?_, ?_⟩
    · rw [h1 0 (by omega)]; simp
    · intro i hi hiL
      rw [h2 i hi (by omega), neg_one_smul]
      congr 3
      apply trapzIntegral_congr _ fun _ _ => rfl
      intro j hj
      rw [if_pos (by omega)]
    · intro i hi
      rw [h1 i (by omega), Function.update_of_ne (by omega)]; rfl

theorem secondKindRect_ok {L : ℕ} {k0 : Mat K b x} {B0 : Mat K b b} {Bd : ℕ → Mat K b b}
    {D : ℕ → Mat K b x} {dt : K} {ker : ℕ → Mat K b x}
    (h : secondKindRect L k0 B0 Bd D dt = .ok ker) :
    ∃ M, lapackInv B0 = .ok M ∧ ker 0 = k0 ∧
      (∀ i, 1 ≤ i → i ≤ L → ker i = M * (∑ j ∈ range i, dt • (Bd (i - j) * ker j) + D i)) ∧
      ∀ i, L < i → ker i = 0 := by
  unfold secondKindRect at h
  cases hM : lapackInv B0 with
  | error e => rw [hM] at h; cases h
  | ok M =>
    simp only [hM, bind, Except.bind, pure, Except.pure, Except.ok.injEq] at h
    refine ⟨M, rfl, ?_⟩
    obtain ⟨h1, h2⟩ := forRange_fill 1 (L + 1)
      (fun i ker => M * (rectIntegral dt i Bd ker + D i))
      (Function.update (0 : ℕ → Mat K b x) 0 k0)
    rw [h] at h1 h2
    refine ⟨?_, ?_, ?_⟩
    · rw [h1 0 (by omega)]; simp
    · intro i hi hiL
      rw [h2 i hi (by omega), rectIntegral_eq]
      congr 2
      refine sum_congr rfl fun j hj => ?_
      rw [if_pos (mem_range.1 hj)]
    · intro i hi
      rw [h1 i (by omega), Function.update_of_ne (by omega)]; rfl

theorem secondKindTrapz_ok {L : ℕ} {k0 : Mat K b x} {B0 : Mat K b b} {Bd : ℕ → Mat K b b}
    {D : ℕ → Mat K b x} {dt : K} {ker : ℕ → Mat K b x}
    (h : secondKindTrapz L k0 B0 Bd D dt = .ok ker) :
    ∃ M, lapackInv (B0 - ((1 / 2 : K) * dt) • Bd 0) = .ok M ∧ ker 0 = k0 ∧
      (∀ i, 1 ≤ i → i ≤ L → ker i = M * (trapzIntegral dt i Bd ker + D i)) ∧
      ∀ i, L < i → ker i = 0 := by
  unfold secondKindTrapz at h
  cases hM : lapackInv (B0 - ((1 / 2 : K) * dt) • Bd 0) with
  | error e => rw [hM] at h; cases h
  | ok M =>
    simp only [hM, bind, Except.bind, pure, Except.pure, Except.ok.injEq] at h
    refine ⟨M, rfl, ?_⟩
    obtain ⟨h1, h2⟩ := forRange_fill 1 (L + 1)
      (fun i ker => M * (trapzIntegral dt i Bd ker + D i))
      (Function.update (0 : ℕ → Mat K b x) 0 k0)
    rw [h] at h1 h2
    refine ⟨?_, ?_, ?_⟩
    · rw [h1 0 (by omega)]; simp
    · intro i hi hiL
      rw [h2 i hi (by omega)]
      congr 2
      apply trapzIntegral_congr _ fun _ _ => rfl
      intro j hj
      rw [if_pos (by omega)]
    · intro i hi
      rw [h1 i (by omega), Function.update_of_ne (by omega)]; rfl

omit [DecidableEq K] in
/-- `simpson_integral` only reads the kernel below the current lag. -/
theorem simpsonIntegral_congr (dt : K) {n : ℕ} (hn : 2 ≤ n) {B : ℕ → Mat K o b}
    {ker ker' : ℕ → Mat K b x} (hk : ∀ j < n, ker j = ker' j) :
    simpsonIntegral dt n B ker = simpsonIntegral dt n B ker' := by
  have h1 := simpsonIntegral_add_end dt hn B ker
  have h2 := simpsonIntegral_add_end dt hn B (Function.update ker' n (ker n))
  have h3 := simpsonIntegral_add_end dt hn B ker'
  have key : ∀ k k' : ℕ → Mat K b x, (∀ j ≤ n, k j = k' j) →
      Spec.simpsonRule dt (fun s => B (n - s) * k s) n =
        Spec.simpsonRule dt (fun s => B (n - s) * k' s) n := by
    intro k k' hkk
    unfold Spec.simpsonRule
    split_ifs with hp
    · refine sum_congr rfl fun p hp' => ?_
      have := mem_range.1 hp'
      simp only [Spec.simpsonPanel]
      rw [hkk (2 * p) (by omega), hkk (2 * p + 1) (by omega), hkk (2 * p + 2) (by omega)]
    · beta_reduce
      rw [hkk 0 (by omega), hkk 1 (by omega)]
      congr 1
      refine sum_congr rfl fun p hp' => ?_
      have := mem_range.1 hp'
      simp only [Spec.simpsonPanel]
      rw [hkk (2 * p + 1) (by omega), hkk (2 * p + 1 + 1) (by omega), hkk (2 * p + 1 + 2) (by omega)]
  -- the integral does not read entry `n`
  have key2 : simpsonIntegral dt n B ker' = simpsonIntegral dt n B (Function.update ker' n (ker n)) := by
    unfold simpsonIntegral
    have hu : ∀ j, j < n → Function.update ker' n (ker n) j = ker' j :=
      fun j hj => Function.update_of_ne (by omega) _ _
    have hfold : ∀ (s : ℕ) (r : Mat K o x), forStep2 s (n - 1) (fun j (res : Mat K o x) =>
          res + (4 * (dt / 3)) • (B (n - j) * ker' j) + (2 * (dt / 3)) • (B (n - j - 1) * ker' (j + 1))) r =
        forStep2 s (n - 1) (fun j (res : Mat K o x) =>
          res + (4 * (dt / 3)) • (B (n - j) * Function.update ker' n (ker n) j)
            + (2 * (dt / 3)) • (B (n - j - 1) * Function.update ker' n (ker n) (j + 1))) r := by
      intro s r
      simp only [add_assoc]
      rw [forStep2_add (f := fun j => (4 * (dt / 3)) • (B (n - j) * ker' j) + (2 * (dt / 3)) • (B (n - j - 1) * ker' (j + 1))),
        forStep2_add (f := fun j => (4 * (dt / 3)) • (B (n - j) * Function.update ker' n (ker n) j)
            + (2 * (dt / 3)) • (B (n - j - 1) * Function.update ker' n (ker n) (j + 1)))]
      congr 1
      refine sum_congr rfl fun p hp => ?_
      have := mem_range.1 hp
      rw [hu _ (by omega), hu _ (by omega)]
    simp only [hu 0 (by omega), hu 1 (by omega), hu (n - 1) (by omega), hfold]
  rw [key2]
  have hupd : ∀ j ≤ n, ker j = Function.update ker' n (ker n) j := by
    intro j hj
    by_cases h : j = n
    · subst h; simp
    · rw [Function.update_of_ne h, hk j (by omega)]
  have := h1.trans ((key _ _ hupd).trans h2.symm)
  simpa using this

theorem firstKindSimpson_ok {L : ℕ} {k0 : Mat K b x} {B : ℕ → Mat K b b} {D : ℕ → Mat K b x} {dt : K}
    {ker : ℕ → Mat K b x} (h : firstKindSimpson L k0 B D dt = .ok ker) :
    L ≠ 0 ∧ ∃ M1 M, lapackInv (((1 / 2 : K) * dt) • B 0) = .ok M1 ∧ lapackInv ((dt / 3) • B 0) = .ok M ∧
      ker 0 = k0 ∧ ker 1 = M1 * (-D 1 - ((1 / 2 : K) * dt) • (B 1 * k0)) ∧
      (∀ i, 2 ≤ i → i ≤ L → ker i = -(M * (simpsonIntegral dt i B ker + D i))) ∧
      ∀ i, L < i → ker i = 0 := by
  unfold firstKindSimpson at h
  by_cases hL : L = 0
  · simp [hL, bind, Except.bind, throw, throwThe, MonadExceptOf.throw] at h
  refine ⟨hL, ?_⟩
  cases hM1 : lapackInv (((1 / 2 : K) * dt) • B 0) with
  | error e => simp only [hL, hM1, bind, Except.bind, if_false] at h; cases h
  | ok M1 =>
  cases hM : lapackInv ((dt / 3) • B 0) with
  | error e => simp only [hL, hM1, hM, bind, Except.bind, if_false] at h; cases h
  | ok M =>
    simp only [hL, hM1, hM, bind, Except.bind, pure, Except.pure, if_false, Except.ok.injEq] at h
    refine ⟨M1, M, rfl, rfl, ?_⟩
    obtain ⟨h1, h2⟩ := forRange_fill 2 (L + 1)
      (fun i ker => (-1 : K) • (M * (simpsonIntegral dt i B ker + D i)))
      (Function.update (Function.update (0 : ℕ → Mat K b x) 0 k0) 1
        (M1 * ((-1 : K) • D 1 - ((1 / 2 : K) * dt) • (B 1 * Function.update (0 : ℕ → Mat K b x) 0 k0 0))))
    rw [h] at h1 h2
    refine ⟨?_, ?_, ?_, ?_⟩
    · rw [h1 0 (by omega)]; simp
    · rw [h1 1 (by omega)]; simp
    · intro i hi hiL
      rw [h2 i hi (by omega), neg_one_smul]
      congr 3
      apply simpsonIntegral_congr _ hi
      intro j hj
      rw [if_pos hj]
    · intro i hi
      rw [h1 i (by omega), Function.update_of_ne (by omega), Function.update_of_ne (by omega)]; rfl

end FKernel

end Verif
