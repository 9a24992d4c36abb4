import Verif.Model.Noise
import Verif.Spec.Noise
import Verif.Lemmas.Loops
import Mathlib.Tactic.Module
import Mathlib.Tactic.Ring

/-! # Closed forms of the memory and correlation loops -/

namespace Verif

open Finset

variable {K : Type*} [Field K] {b x o : ℕ}

/-- A loop which accumulates into entry `i` of an array. -/
theorem forRange_acc {V : Type*} [AddCommGroup V] (i : ℕ) (f : ℕ → V) (a : ℕ → V) (lo n : ℕ) :
    forRange lo (lo + n) (fun j a => Function.update a i (a i - f j)) a =
      Function.update a i (a i - ∑ j ∈ range n, f (lo + j)) := by
  induction n with
  | zero => rw [forRange_of_le (by omega)]; simp
  | succ n ih =>
    rw [← add_assoc, forRange_succ (by omega), ih, sum_range_succ]
    simp only [Function.update_self, Function.update_idem]
    congr 1
    abel

namespace FKernel

theorem memoryRect_eq (L M : ℕ) (kernel : ℕ → Mat K b x) (E : ℕ → Fin b → K) (dt : K) :
    memoryRect L M kernel E dt = fun i =>
      if 1 ≤ i ∧ i ≤ L then -∑ j ∈ range (min i M + 1), dt • Matrix.vecMul (E (i - j)) (kernel j) else 0 := by
  have key : ∀ i (a : ℕ → Fin x → K), forRange 0 (min i M + 1) (fun j memory =>
      Function.update memory i (memory i - dt • Matrix.vecMul (E (i - j)) (kernel j))) a =
      Function.update a i (a i - ∑ j ∈ range (min i M + 1), dt • Matrix.vecMul (E (i - j)) (kernel j)) := by
    intro i a
    have := forRange_acc i (fun j => dt • Matrix.vecMul (E (i - j)) (kernel j)) a 0 (min i M + 1)
    simpa using this
  unfold memoryRect
  simp only [key]
  obtain ⟨h1, h2⟩ := forRange_fill 1 (L + 1) (fun i (a : ℕ → Fin x → K) =>
    a i - ∑ j ∈ range (min i M + 1), dt • Matrix.vecMul (E (i - j)) (kernel j)) 0
  funext i
  split_ifs with hi
  · rw [h2 i hi.1 (by omega)]; simp
  · rw [h1 i (by omega)]; rfl

theorem memoryTrapz_eq (L M : ℕ) (kernel : ℕ → Mat K b x) (E : ℕ → Fin b → K) (dt : K) :
    memoryTrapz L M kernel E dt = fun i =>
      if 1 ≤ i ∧ i ≤ L then
        -(((1 / 2 : K) * dt) • Matrix.vecMul (E i) (kernel 0) +
          ∑ j ∈ range (min (i - 1) M), dt • Matrix.vecMul (E (i - (1 + j))) (kernel (1 + j)) +
          ((1 / 2 : K) * dt) • Matrix.vecMul (E (i - min i M)) (kernel (min i M))) else 0 := by
  have key : ∀ i (a : ℕ → Fin x → K), forRange 1 (min (i - 1) M + 1) (fun j memory =>
      Function.update memory i (memory i - dt • Matrix.vecMul (E (i - j)) (kernel j))) a =
      Function.update a i
        (a i - ∑ j ∈ range (min (i - 1) M), dt • Matrix.vecMul (E (i - (1 + j))) (kernel (1 + j))) := by
    intro i a
    have := forRange_acc i (fun j => dt • Matrix.vecMul (E (i - j)) (kernel j)) a 1 (min (i - 1) M)
    rwa [add_comm 1] at this
  unfold memoryTrapz
  simp only [key, Function.update_self, Function.update_idem]
  obtain ⟨h1, h2⟩ := forRange_fill 1 (L + 1) (fun i (_ : ℕ → Fin x → K) =>
    -((1 / 2 : K) * dt) • Matrix.vecMul (E i) (kernel 0) -
      ∑ j ∈ range (min (i - 1) M), dt • Matrix.vecMul (E (i - (1 + j))) (kernel (1 + j)) -
      ((1 / 2 : K) * dt) • Matrix.vecMul (E (i - min i M)) (kernel (min i M))) 0
  funext i
  split_ifs with hi
  · rw [h2 i hi.1 (by omega)]
    module
  · rw [h1 i (by omega)]; rfl

theorem vecMul_eq (E : ℕ → Fin b → K) (ker : ℕ → Mat K b x) (i s : ℕ) :
    Matrix.vecMul (E (i - s)) (ker s) = Spec.memIntegrand E ker i s := by
  funext l; simp [Matrix.vecMul, dotProduct, Spec.memIntegrand]

theorem memoryRect_spec (L M : ℕ) (kernel : ℕ → Mat K b x) (E : ℕ → Fin b → K) (dt : K) {i : ℕ}
    (h1 : 1 ≤ i) (h2 : i ≤ L) :
    memoryRect L M kernel E dt i = -Spec.rectRule dt (Spec.memIntegrand E kernel i) (min i M + 1) := by
  rw [memoryRect_eq]
  simp only [h1, h2, and_self, if_true, vecMul_eq, Spec.rectRule]

theorem memoryTrapz_spec [CharZero K] (L M : ℕ) (kernel : ℕ → Mat K b x) (E : ℕ → Fin b → K) (dt : K)
    {i : ℕ} (h1 : 1 ≤ i) (h2 : i ≤ L) (h3 : i ≤ M) :
    memoryTrapz L M kernel E dt i = -Spec.trapzRule dt (Spec.memIntegrand E kernel i) i := by
  rw [memoryTrapz_eq]
  simp only [h1, h2, and_self, if_true]
  obtain ⟨n, rfl⟩ : ∃ n, i = n + 1 := ⟨i - 1, by omega⟩
  rw [min_eq_left h3, show min (n + 1 - 1) M = n by omega]
  have e0 : Matrix.vecMul (E (n + 1)) (kernel 0) = Spec.memIntegrand E kernel (n + 1) 0 := by
    rw [← vecMul_eq]; rfl
  simp only [vecMul_eq, e0]
  congr 1
  unfold Spec.trapzRule
  generalize Spec.memIntegrand E kernel (n + 1) = f
  have e : ∀ n, ((1 / 2 : K) * dt) • f 0 + ∑ j ∈ range n, dt • f (1 + j) + ((1 / 2 : K) * dt) • f (n + 1) =
      ∑ j ∈ range (n + 1), (dt / 2) • (f j + f (j + 1)) := by
    intro n
    induction n with
    | zero => simp; module
    | succ n ih =>
      rw [sum_range_succ _ (n + 1), ← ih, sum_range_succ, add_comm 1 n]
      module
  exact e n

/-- Beyond the window the last kernel point has the weight `3/2` instead of `1/2`. -/
theorem memoryTrapz_late [CharZero K] (L M : ℕ) (kernel : ℕ → Mat K b x) (E : ℕ → Fin b → K) (dt : K)
    {i : ℕ} (h2 : i ≤ L) (h3 : M < i) :
    memoryTrapz L M kernel E dt i = -(Spec.trapzRule dt (Spec.memIntegrand E kernel i) M
      + dt • Spec.memIntegrand E kernel i M) := by
  rw [memoryTrapz_eq]
  have h1 : 1 ≤ i := by omega
  simp only [h1, h2, and_self, if_true]
  rw [min_eq_right h3.le, show min (i - 1) M = M by omega]
  have e0 : Matrix.vecMul (E i) (kernel 0) = Spec.memIntegrand E kernel i 0 := by
    rw [← vecMul_eq]; rfl
  simp only [vecMul_eq, e0]
  congr 1
  unfold Spec.trapzRule
  generalize Spec.memIntegrand E kernel i = f
  clear h1 h2 h3 e0
  induction M with
  | zero => simp; module
  | succ n ih =>
    rw [sum_range_succ, sum_range_succ, add_comm 1 n]
    have := ih
    have h4 : ((1 / 2 : K) * dt) • f 0 + ∑ j ∈ range n, dt • f (1 + j) =
      ∑ j ∈ range n, (dt / 2) • (f j + f (j + 1)) + dt • f n - ((1 / 2 : K) * dt) • f n := by
      rw [← this]; abel
    rw [← add_assoc, h4]
    module

theorem noiseCorr_congr {L n : ℕ} (left : ℕ → Fin o → K) {f g : ℕ → Fin x → K}
    (h : ∀ t, t + n ≤ L → f t = g t) : noiseCorr L n left f = noiseCorr L n left g := by
  unfold noiseCorr
  ext k l
  simp only [Matrix.of_apply]
  congr 1
  refine sum_congr rfl fun t ht => ?_
  rw [h t (by have := mem_range.1 ht; omega)]

theorem noiseCorr_spec {L n : ℕ} (hn : n ≤ L) (left : ℕ → Fin o → K) (f : ℕ → Fin x → K) (k : Fin o)
    (l : Fin x) : noiseCorr L n left f k l = Spec.lagAverage (L + 1) n left f k l := by
  unfold noiseCorr Spec.lagAverage
  simp only [Matrix.of_apply]
  rw [Nat.cast_sub (by omega)]
  push_cast
  congr 1
  ring

/-- General form of the two correlation loops. -/
theorem corrs_loop {L M : ℕ} {left : ℕ → Fin o → K} {upd : ℕ → (ℕ → Fin x → K) → ℕ → Fin x → K}
    {P : ℕ → ℕ → Fin x → K}
    (hupd : ∀ n t (s : ℕ → Fin x → K), t + n + 1 ≤ L → s (t + 1) = P n (t + 1) → upd n s t = P (n + 1) t)
    (i : ℕ) (hi : i < M) :
    (forRange 0 M (fun n (s : (ℕ → Mat K o x) × (ℕ → Fin x → K)) =>
      (Function.update s.1 n (noiseCorr L n left s.2), upd n s.2)) (0, P 0)).1 i =
      noiseCorr L i left (P i) := by
  have main : ∀ m, (∀ i, i < m → (forRange 0 m (fun n (s : (ℕ → Mat K o x) × (ℕ → Fin x → K)) =>
      (Function.update s.1 n (noiseCorr L n left s.2), upd n s.2)) (0, P 0)).1 i =
      noiseCorr L i left (P i)) ∧ ∀ t, t + m ≤ L →
      (forRange 0 m (fun n (s : (ℕ → Mat K o x) × (ℕ → Fin x → K)) =>
      (Function.update s.1 n (noiseCorr L n left s.2), upd n s.2)) (0, P 0)).2 t = P m t := by
    intro m
    induction m with
    | zero => exact ⟨fun i hi => absurd hi (by omega), fun t _ => by rw [forRange_of_le le_rfl]⟩
    | succ m ih =>
      rw [forRange_succ (by omega)]
      refine ⟨fun i hi => ?_, fun t ht => ?_⟩
      · simp only [Function.update_apply]
        split_ifs with him
        · subst him
          exact noiseCorr_congr left ih.2
        · exact ih.1 i (by omega)
      · exact hupd m t _ (by omega) (ih.2 (t + 1) (by omega))
  exact (main M).1 i hi

theorem corrsRect_spec {L M : ℕ} (noise : ℕ → Fin x → K) (kernel : ℕ → Mat K b x) (E : ℕ → Fin b → K)
    (left : ℕ → Fin o → K) (dt : K) {n : ℕ} (hn : n ≤ M) :
    corrsRect L M noise kernel E left dt n = noiseCorr L n left
      (fun t => noise (t + n) + Spec.rectRule dt (Spec.memIntegrand E kernel (t + n)) n) := by
  unfold corrsRect
  have := corrs_loop (L := L) (M := M + 1) (left := left)
    (upd := fun n s t => if t + n + 1 ≤ L then s (t + 1) + dt • Matrix.vecMul (E (t + 1)) (kernel n) else s t)
    (P := fun n t => noise (t + n) + Spec.rectRule dt (Spec.memIntegrand E kernel (t + n)) n) ?_ n (by omega)
  · simpa [Spec.rectRule] using this
  · intro n t s hL hs
    simp only [hL, if_true]
    rw [hs]
    have e : Matrix.vecMul (E (t + 1)) (kernel n) = Spec.memIntegrand E kernel (t + (n + 1)) n := by
      rw [← vecMul_eq, show t + (n + 1) - n = t + 1 by omega]
    rw [e, show t + 1 + n = t + (n + 1) by omega]
    simp only [Spec.rectRule, sum_range_succ]
    abel

theorem corrsTrapz_spec [CharZero K] {L M : ℕ} (noise : ℕ → Fin x → K) (kernel : ℕ → Mat K b x)
    (E : ℕ → Fin b → K) (left : ℕ → Fin o → K) (dt : K) {n : ℕ} (hn : n < M) :
    corrsTrapz L M noise kernel E left dt n = noiseCorr L n left
      (fun t => noise (t + n) + Spec.trapzRule dt (Spec.memIntegrand E kernel (t + n)) n) := by
  unfold corrsTrapz
  have := corrs_loop (L := L) (M := M) (left := left)
    (upd := fun n s t => if t + n + 1 ≤ L then s (t + 1) + ((1 / 2 : K) * dt) • Matrix.vecMul (E (t + 1)) (kernel n)
        + ((1 / 2 : K) * dt) • Matrix.vecMul (E t) (kernel (n + 1)) else s t)
    (P := fun n t => noise (t + n) + Spec.trapzRule dt (Spec.memIntegrand E kernel (t + n)) n) ?_ n (by omega)
  · simpa [Spec.trapzRule] using this
  · intro n t s hL hs
    simp only [hL, if_true]
    rw [hs]
    have e : Matrix.vecMul (E (t + 1)) (kernel n) = Spec.memIntegrand E kernel (t + (n + 1)) n := by
      rw [← vecMul_eq, show t + (n + 1) - n = t + 1 by omega]
    have e' : Matrix.vecMul (E t) (kernel (n + 1)) = Spec.memIntegrand E kernel (t + (n + 1)) (n + 1) := by
      rw [← vecMul_eq, show t + (n + 1) - (n + 1) = t by omega]
    rw [e, e', show t + 1 + n = t + (n + 1) by omega]
    simp only [Spec.trapzRule, sum_range_succ]
    module

end FKernel

end Verif
