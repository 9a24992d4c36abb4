import Verif.Props.EstNoise
import Mathlib.MeasureTheory.Integral.Prod
import Mathlib.Topology.Order.ProjIcc
import Mathlib.Analysis.Real.Pi.Bounds

/-!
# Correlations with the noise: fluctuation and dissipation (C155)
-/

namespace Verif

open Finset Set
open Spec (Averages NearAverages Estimates)

set_option linter.unusedSectionVars false

section
variable {bf b x o : ℕ}

/-- The averages along a trajectory with `len` rows, over the starting times that leave room for the lag `n`: those of a left observable
with an instantaneous noise at the lag `n`, and with the functions of the memory at the lags up to `n`, are within `ε` of `W` and `P`. -/
structure Spec.WindowAverages (S h ε : ℝ) (len : ℕ) (ψ : ℕ → Fin o → ℝ) (q : ℕ → Fin x → ℝ) (E : ℕ → Fin b → ℝ)
    (W : ℝ → Mat ℝ o x) (P : ℝ → Mat ℝ o b) : Prop where
  noise : ∀ n < len, n * h ≤ S → ∀ i l, |Spec.lagAverage len n ψ (fun t => q (t + n)) i l - W (n * h) i l| ≤ ε
  funs : ∀ n < len, n * h ≤ S → ∀ j ≤ n, ∀ i a, |Spec.lagAverage len n ψ (fun t => E (t + j)) i a - P (j * h) i a| ≤ ε

theorem abs_le_of_near {a b M ε : ℝ} (h1 : |b| ≤ M) (h2 : |a - b| ≤ ε) : |a| ≤ M + ε := by
  calc |a| = |b + (a - b)| := by rw [add_sub_cancel]
    _ ≤ _ := (abs_add_le _ _).trans (add_le_add h1 h2)

theorem abs_weighted_le {n : ℕ} {w : ℕ → ℝ} {f : ℕ → ℝ} {S B : ℝ} (hB : 0 ≤ B) (hw : ∀ j, 0 ≤ w j) (hS : ∑ j ∈ range (n + 1), w j ≤ S)
    (hf : ∀ j ≤ n, |f j| ≤ B) : |∑ j ∈ range (n + 1), w j * f j| ≤ S * B := by
  refine (abs_sum_le_sum_abs _ _).trans ?_
  calc ∑ j ∈ range (n + 1), |w j * f j| ≤ ∑ j ∈ range (n + 1), w j * B := by
        refine sum_le_sum fun j hj => ?_
        rw [abs_mul, abs_of_nonneg (hw j)]
        exact mul_le_mul_of_nonneg_left (hf j (by have := Finset.mem_range.1 hj; omega)) (hw j)
    _ = (∑ j ∈ range (n + 1), w j) * B := by rw [sum_mul]
    _ ≤ _ := mul_le_mul_of_nonneg_right hS hB

theorem abs_dot_le {n : ℕ} {u v : Fin n → ℝ} {A B : ℝ} (hA : 0 ≤ A) (hu : ∀ a, |u a| ≤ A) (hv : ∀ a, |v a| ≤ B) :
    |∑ a, u a * v a| ≤ n * (A * B) := by
  refine (abs_sum_le_sum_abs _ _).trans ?_
  refine (sum_le_card_nsmul _ _ (A * B) fun a _ => ?_).trans (by simp)
  rw [abs_mul]
  exact mul_le_mul (hu a) (hv a) (abs_nonneg _) hA

/-- Averages of a noise with memory, by averages with the instantaneous noise and with the functions of the memory. -/
theorem lagAverage_memory {len n : ℕ} {ψ : ℕ → Fin o → ℝ} {q : ℕ → Fin x → ℝ} {E : ℕ → Fin b → ℝ} {K : ℕ → Mat ℝ b x} {w : ℕ → ℝ}
    {i : Fin o} {l : Fin x} :
    Spec.lagAverage len n ψ (fun t l => q (t + n) l + ∑ j ∈ range (n + 1), w j * ∑ a, E (t + n - j) a * K j a l) i l =
      Spec.lagAverage len n ψ (fun t => q (t + n)) i l +
        ∑ j ∈ range (n + 1), w j * ∑ a, Spec.lagAverage len n ψ (fun t => E (t + (n - j))) i a * K j a l := by
  unfold Spec.lagAverage
  have e : ∀ t, ψ t i * (q (t + n) l + ∑ j ∈ range (n + 1), w j * ∑ a, E (t + n - j) a * K j a l) =
      ψ t i * q (t + n) l + ∑ j ∈ range (n + 1), w j * ∑ a, ψ t i * E (t + (n - j)) a * K j a l := fun t => by
    rw [mul_add, mul_sum]
    congr 1
    refine sum_congr rfl fun j hj => ?_
    have := Finset.mem_range.1 hj
    rw [mul_left_comm, mul_sum, Nat.add_sub_assoc (by omega)]
    congr 1
    exact sum_congr rfl fun a _ => by ring
  simp only [e, sum_add_distrib, add_div]
  congr 1
  rw [sum_comm, sum_div]
  refine sum_congr rfl fun j _ => ?_
  rw [← mul_sum, mul_div_assoc, sum_comm, sum_div]
  congr 1
  refine sum_congr rfl fun a _ => ?_
  rw [← sum_mul, div_mul_eq_mul_div]

theorem lagAverage_core {len n : ℕ} {ψ' ψ : ℕ → Fin o → ℝ} {q' q : ℕ → Fin x → ℝ} {E : ℕ → Fin b → ℝ} {K κ : ℕ → Mat ℝ b x}
    {p : ℕ → Mat ℝ o b} {w : ℕ → ℝ} {W : ℝ} {i : Fin o} {l : Fin x} {M MB MP S ε : ℝ} (hn : n < len) (hM : 0 ≤ M) (hMB : 0 ≤ MB)
    (hMP : 0 ≤ MP) (_hS0 : 0 ≤ S) (hε : 0 ≤ ε) (hε1 : ε ≤ 1) (h1 : ∀ t < len, |ψ t i| ≤ M) (h2 : ∀ t < len, |ψ' t i - ψ t i| ≤ ε)
    (h3 : ∀ t < len, |q t l| ≤ M) (h4 : ∀ t < len, |q' t l - q t l| ≤ ε) (h5 : ∀ t < len, ∀ a, |E t a| ≤ M)
    (h6 : ∀ j ≤ n, ∀ a, |κ j a l| ≤ MB) (h7 : ∀ j ≤ n, ∀ a, |K j a l - κ j a l| ≤ ε) (h8 : ∀ j ≤ n, ∀ a, |p j i a| ≤ MP)
    (hw : ∀ j, 0 ≤ w j) (hS : ∑ j ∈ range (n + 1), w j ≤ S)
    (hW : |Spec.lagAverage len n ψ (fun t => q (t + n)) i l - W| ≤ ε)
    (hP : ∀ j ≤ n, ∀ a, |Spec.lagAverage len n ψ (fun t => E (t + j)) i a - p j i a| ≤ ε) :
    |Spec.lagAverage len n ψ' (fun t l => q' (t + n) l + ∑ j ∈ range (n + 1), w j * ∑ a, E (t + n - j) a * K j a l) i l -
      (W + ∑ j ∈ range (n + 1), w j * (p (n - j) * κ j) i l)| ≤
      ((M + 1) + (M + S * (b * (M * (MB + 1)))) + 1 + S * (b * (MB + 1) + b * MP)) * ε := by
  have hK : ∀ j ≤ n, ∀ a, |K j a l| ≤ MB + 1 := fun j hj a => (abs_le_of_near (h6 j hj a) (h7 j hj a)).trans (by linarith)
  have a1 := lagAverage_near (left := ψ') (left' := ψ) (len := len) (n := n) (k := i) (l := l)
    (q := fun t l => q' (t + n) l + ∑ j ∈ range (n + 1), w j * ∑ a, E (t + n - j) a * K j a l)
    (q' := fun t l => q (t + n) l + ∑ j ∈ range (n + 1), w j * ∑ a, E (t + n - j) a * K j a l)
    (R := M + S * (b * (M * (MB + 1)))) (B := ε) hM hε hε1 (fun t ht => h1 t (by omega)) (fun t ht => h2 t (by omega))
    (fun t ht => (abs_add_le _ _).trans (add_le_add (h3 _ ht) (abs_weighted_le (by positivity) hw hS fun j hj =>
      abs_dot_le hM (fun a => h5 _ (by omega) a) (hK j hj))))
    (fun t ht => by rw [add_sub_add_right_eq_sub]; exact h4 _ ht) hn
  rw [lagAverage_memory (ψ := ψ)] at a1
  have a2 : |∑ j ∈ range (n + 1), w j * ∑ a, Spec.lagAverage len n ψ (fun t => E (t + (n - j))) i a * K j a l -
      ∑ j ∈ range (n + 1), w j * (p (n - j) * κ j) i l| ≤ S * ((b * (MB + 1) + b * MP) * ε) := by
    rw [← sum_sub_distrib]
    simp only [← mul_sub]
    refine abs_weighted_le (by positivity) hw hS fun j hj => ?_
    rw [Matrix.mul_apply, ← sum_sub_distrib]
    have e : ∀ a, Spec.lagAverage len n ψ (fun t => E (t + (n - j))) i a * K j a l - p (n - j) i a * κ j a l =
        (Spec.lagAverage len n ψ (fun t => E (t + (n - j))) i a - p (n - j) i a) * K j a l + p (n - j) i a * (K j a l - κ j a l) :=
      fun a => by ring
    simp only [e, sum_add_distrib]
    refine (abs_add_le _ _).trans ((add_le_add (abs_dot_le hε (hP (n - j) (by omega)) (hK j hj))
      (abs_dot_le hMP (h8 (n - j) (by omega)) (h7 j hj))).trans (le_of_eq (by ring)))
  have e : ∀ A B C D Z : ℝ, A - (C + D) = (A - (B + Z)) + (B - C) + (Z - D) := fun _ _ _ _ _ => by ring
  rw [e _ (Spec.lagAverage len n ψ (fun t => q (t + n)) i l) _ _
    (∑ j ∈ range (n + 1), w j * ∑ a, Spec.lagAverage len n ψ (fun t => E (t + (n - j))) i a * K j a l)]
  refine (abs_add_le _ _).trans ((add_le_add ((abs_add_le _ _).trans (add_le_add a1 hW)) a2).trans (le_of_eq (by ring)))

/-- The weights of the rectangle rule. -/
def rectW (h : ℝ) (n j : ℕ) : ℝ := if j < n then h else 0

/-- The weights of the trapezoidal rule. -/
noncomputable def trapzW (h : ℝ) (n j : ℕ) : ℝ := (if j < n then h / 2 else 0) + if 0 < j then h / 2 else 0

theorem rectW_sum {V : Type*} [AddCommGroup V] [Module ℝ V] (h : ℝ) (n : ℕ) (f : ℕ → V) :
    ∑ j ∈ range (n + 1), rectW h n j • f j = Spec.rectRule h f n := by
  rw [sum_range_succ, Spec.rectRule, rectW, if_neg (lt_irrefl _), zero_smul, add_zero]
  refine sum_congr rfl fun j hj => ?_
  rw [rectW, if_pos (Finset.mem_range.1 hj)]

theorem trapzW_sum {V : Type*} [AddCommGroup V] [Module ℝ V] (h : ℝ) (n : ℕ) (f : ℕ → V) :
    ∑ j ∈ range (n + 1), trapzW h n j • f j = Spec.trapzRule h f n := by
  simp only [trapzW, add_smul, sum_add_distrib, Spec.trapzRule, smul_add]
  rw [sum_range_succ, sum_range_succ' (fun j => (if 0 < j then h / 2 else 0) • f j)]
  simp only [lt_irrefl, if_false, zero_smul, add_zero, Nat.succ_pos, if_true]
  congr 1
  refine sum_congr rfl fun j hj => ?_
  rw [if_pos (Finset.mem_range.1 hj)]

theorem rectW_nonneg {h : ℝ} (hh : 0 ≤ h) (n j : ℕ) : 0 ≤ rectW h n j := by unfold rectW; split_ifs <;> positivity

theorem trapzW_nonneg {h : ℝ} (hh : 0 ≤ h) (n j : ℕ) : 0 ≤ trapzW h n j := by unfold trapzW; split_ifs <;> positivity

theorem rectW_total (h : ℝ) (n : ℕ) : ∑ j ∈ range (n + 1), rectW h n j = n * h := by
  have := rectW_sum h n fun _ => (1 : ℝ)
  simpa [Spec.rectRule] using this

theorem trapzW_total (h : ℝ) (n : ℕ) : ∑ j ∈ range (n + 1), trapzW h n j = n * h := by
  have := trapzW_sum h n fun _ => (1 : ℝ)
  simp only [smul_eq_mul, mul_one, Spec.trapzRule, sum_const, card_range, nsmul_eq_mul] at this
  rw [this]
  ring

/-- A model and a trajectory near a process: the force along the trajectory, the kernel and the left observable are those of the process up
to `ε`, everything is bounded by `M`, and the averages along the trajectory are those of the process up to `ε`. -/
structure Spec.NearProcess (S M h ε : ℝ) (κ : ℝ → Mat ℝ b x) (W : ℝ → Mat ℝ o x) (P : ℝ → Mat ℝ o b) (m : NoiseModel ℝ bf b x)
    (k : KernelData ℝ b x) (xva : Traj ℝ bf b x) (left : LeftOp ℝ x o) (c : Mat ℝ bf x) (ψ : ℕ → Fin o → ℝ) (q : ℕ → Fin x → ℝ) : Prop where
  step : xva.time 1 - xva.time 0 = h
  forceSet : m.forceCoeff = some c
  kernelSet : m.kernel = some k
  kernel : ∀ j < k.kernel.len, j * h ≤ S → ∀ a l, |k.kernel.get j a l - κ (j * h) a l| ≤ ε
  force : ∀ t < xva.len, ∀ l, |Spec.instantNoise xva.obs xva.Eforce c t l - q t l| ≤ ε
  left : ∀ t < xva.len, ∀ i, |left.values (Spec.instantNoise xva.obs xva.Eforce c) t i - ψ t i| ≤ ε
  bound : ∀ t < xva.len, (∀ i, |ψ t i| ≤ M) ∧ (∀ l, |q t l| ≤ M) ∧ ∀ a, |xva.E t a| ≤ M
  averages : Spec.WindowAverages S h ε xva.len ψ q xva.E W P

section
open scoped Matrix.Norms.Operator

/-- **C155**, rectangle methods: `compute_corrs_w_noise` tends to `W(t) + ∫_0^t P(t-s) κ(s) ds`. -/
theorem C155_corrs_rect {S M : ℝ} {κ : ℝ → Mat ℝ b x} {W : ℝ → Mat ℝ o x} {P : ℝ → Mat ℝ o b} (hP : Spec.Lip S P) (hκ : Spec.Lip S κ) :
    ∃ C : ℝ, 0 ≤ C ∧ ∀ (bf : ℕ) (m : NoiseModel ℝ bf b x) (k : KernelData ℝ b x) (xva : Traj ℝ bf b x) (left : LeftOp ℝ x o)
      (c : Mat ℝ bf x) (ψ : ℕ → Fin o → ℝ) (q : ℕ → Fin x → ℝ) (h ε : ℝ) (r : Arr ℝ × Arr (Mat ℝ o x)), isRectMethod m.method →
      0 < h → 0 ≤ ε → ε ≤ 1 → Spec.NearProcess S M h ε κ W P m k xva left c ψ q → computeCorrsWNoise m xva left = .ok r →
      ∀ n < r.2.len, n < xva.len → n * h ≤ S → ∀ i l,
        |r.2.get n i l - (W (n * h) i l + ∫ s in (0 : ℝ)..n * h, (P (n * h - s) * κ s) i l)| ≤ C * (h + ε) := by
  obtain ⟨Q, hQ0, hQ⟩ := rect_consistent hP hκ
  obtain ⟨MP, hMP0, hMP⟩ := lip_bound hP
  obtain ⟨MB, hMB0, hMB⟩ := lip_bound hκ
  refine ⟨Q + ((|M| + 1) + (|M| + |S| * (b * (|M| * (MB + 1)))) + 1 + |S| * (b * (MB + 1) + b * MP)), by positivity, ?_⟩
  intro bf m k xva left c ψ q h ε r hm hh hε hε1 D hr n hn hnl hnS i l
  obtain ⟨-, hlen, hget⟩ := C20_rect hm D.forceSet D.kernelSet hr
  have hnk : n < k.kernel.len := by omega
  have hM : ∀ {z : ℝ}, z ≤ M → z ≤ |M| := fun hz => hz.trans (le_abs_self M)
  have hj : ∀ j ≤ n, (j : ℝ) * h ∈ Icc 0 S := fun j hj => ⟨by positivity, le_trans (by gcongr) hnS⟩
  have core := lagAverage_core (p := fun j => P (j * h)) (κ := fun j => κ (j * h)) (w := rectW h n) (K := k.kernel.get)
    (ψ' := left.values (Spec.instantNoise xva.obs xva.Eforce c)) (ψ := ψ) (q' := Spec.instantNoise xva.obs xva.Eforce c) (q := q)
    (E := xva.E) (W := W (n * h) i l) (i := i) (l := l) hnl (abs_nonneg M) hMB0 hMP0 (abs_nonneg S) hε hε1
    (fun t ht => hM ((D.bound t ht).1 i)) (fun t ht => D.left t ht i) (fun t ht => hM ((D.bound t ht).2.1 l)) (fun t ht => D.force t ht l)
    (fun t ht a => hM ((D.bound t ht).2.2 a)) (fun j hj' a => (entry_le_norm _ a l).trans (hMB _ (hj j hj')))
    (fun j hj' a => D.kernel j (by omega) (hj j hj').2 a l) (fun j hj' a => (entry_le_norm _ i a).trans (hMP _ (hj j hj')))
    (rectW_nonneg hh.le n) (by rw [rectW_total]; exact hnS.trans (le_abs_self S)) (D.averages.noise n hnl hnS i l)
    (fun j hj' a => D.averages.funs n hnl hnS j hj' i a)
  have e1 : r.2.get n i l = Spec.lagAverage xva.len n (left.values (Spec.instantNoise xva.obs xva.Eforce c))
      (fun t l => Spec.instantNoise xva.obs xva.Eforce c (t + n) l + ∑ j ∈ range (n + 1), rectW h n j * ∑ a, xva.E (t + n - j) a * k.kernel.get j a l) i l := by
    rw [hget n hn hnl, D.step]
    congr 1
    funext t l
    rw [Pi.add_apply, ← rectW_sum, Finset.sum_apply]
    rfl
  have e2 : ∑ j ∈ range (n + 1), rectW h n j * (P ((n - j : ℕ) * h) * κ (j * h)) i l =
      (∑ j ∈ range n, h • (P ((n - j : ℕ) * h) * κ (j * h))) i l := by
    have := rectW_sum h n fun j => P ((n - j : ℕ) * h) * κ (j * h)
    rw [Spec.rectRule] at this
    rw [← this, Matrix.sum_apply]
    rfl
  rw [e1]
  rw [e2] at core
  have q1 := hQ h n hh.le hnS i l
  have e3 : ∀ A B C D : ℝ, A - (B + C) = (A - (B + D)) + (D - C) := fun _ _ _ _ => by ring
  rw [e3 _ _ _ ((∑ j ∈ range n, h • (P ((n - j : ℕ) * h) * κ (j * h))) i l)]
  refine (abs_add_le _ _).trans ((add_le_add core q1).trans ?_)
  obtain ⟨Z, hZ⟩ : ∃ Z, Z = (|M| + 1) + (|M| + |S| * (b * (|M| * (MB + 1)))) + 1 + |S| * (b * (MB + 1) + b * MP) := ⟨_, rfl⟩
  have hZ0 : 0 ≤ Z := by rw [hZ]; positivity
  rw [← hZ]
  nlinarith [mul_nonneg hZ0 hh.le, mul_nonneg hQ0 hε]

/-- **C155**, trapezoid methods. -/
theorem C155_corrs_trapz {S M : ℝ} {κ κ' : ℝ → Mat ℝ b x} {W : ℝ → Mat ℝ o x} {P P' : ℝ → Mat ℝ o b}
    (hP : Spec.DerivOn S P P') (hP' : Spec.Lip S P') (hκ : Spec.DerivOn S κ κ') (hκ' : Spec.Lip S κ') :
    ∃ C : ℝ, 0 ≤ C ∧ ∀ (bf : ℕ) (m : NoiseModel ℝ bf b x) (k : KernelData ℝ b x) (xva : Traj ℝ bf b x) (left : LeftOp ℝ x o)
      (c : Mat ℝ bf x) (ψ : ℕ → Fin o → ℝ) (q : ℕ → Fin x → ℝ) (h ε : ℝ) (r : Arr ℝ × Arr (Mat ℝ o x)), isTrapzMethod m.method →
      0 < h → 0 ≤ ε → ε ≤ 1 → Spec.NearProcess S M h ε κ W P m k xva left c ψ q → computeCorrsWNoise m xva left = .ok r →
      ∀ n < r.2.len, n < xva.len → n * h ≤ S → ∀ i l,
        |r.2.get n i l - (W (n * h) i l + ∫ s in (0 : ℝ)..n * h, (P (n * h - s) * κ s) i l)| ≤ C * (h ^ 2 + ε) := by
  obtain ⟨Q, hQ0, hQ⟩ := trapz_consistent hP hP' hκ hκ'
  obtain ⟨MP, hMP0, hMP⟩ := lip_bound (lip_of_deriv hP hP')
  obtain ⟨MB, hMB0, hMB⟩ := lip_bound (lip_of_deriv hκ hκ')
  refine ⟨Q + ((|M| + 1) + (|M| + |S| * (b * (|M| * (MB + 1)))) + 1 + |S| * (b * (MB + 1) + b * MP)), by positivity, ?_⟩
  intro bf m k xva left c ψ q h ε r hm hh hε hε1 D hr n hn hnl hnS i l
  obtain ⟨-, hlen, hget⟩ := C20_trapz hm D.forceSet D.kernelSet hr
  have hnk : n < k.kernel.len := by omega
  have hM : ∀ {z : ℝ}, z ≤ M → z ≤ |M| := fun hz => hz.trans (le_abs_self M)
  have hj : ∀ j ≤ n, (j : ℝ) * h ∈ Icc 0 S := fun j hj => ⟨by positivity, le_trans (by gcongr) hnS⟩
  have core := lagAverage_core (p := fun j => P (j * h)) (κ := fun j => κ (j * h)) (w := trapzW h n) (K := k.kernel.get)
    (ψ' := left.values (Spec.instantNoise xva.obs xva.Eforce c)) (ψ := ψ) (q' := Spec.instantNoise xva.obs xva.Eforce c) (q := q)
    (E := xva.E) (W := W (n * h) i l) (i := i) (l := l) hnl (abs_nonneg M) hMB0 hMP0 (abs_nonneg S) hε hε1
    (fun t ht => hM ((D.bound t ht).1 i)) (fun t ht => D.left t ht i) (fun t ht => hM ((D.bound t ht).2.1 l)) (fun t ht => D.force t ht l)
    (fun t ht a => hM ((D.bound t ht).2.2 a)) (fun j hj' a => (entry_le_norm _ a l).trans (hMB _ (hj j hj')))
    (fun j hj' a => D.kernel j (by omega) (hj j hj').2 a l) (fun j hj' a => (entry_le_norm _ i a).trans (hMP _ (hj j hj')))
    (trapzW_nonneg hh.le n) (by rw [trapzW_total]; exact hnS.trans (le_abs_self S)) (D.averages.noise n hnl hnS i l)
    (fun j hj' a => D.averages.funs n hnl hnS j hj' i a)
  have e1 : r.2.get n i l = Spec.lagAverage xva.len n (left.values (Spec.instantNoise xva.obs xva.Eforce c))
      (fun t l => Spec.instantNoise xva.obs xva.Eforce c (t + n) l + ∑ j ∈ range (n + 1), trapzW h n j * ∑ a, xva.E (t + n - j) a * k.kernel.get j a l) i l := by
    rw [hget n hn hnl, D.step]
    congr 1
    funext t l
    rw [Pi.add_apply, ← trapzW_sum, Finset.sum_apply]
    rfl
  have e2 : ∑ j ∈ range (n + 1), trapzW h n j * (P ((n - j : ℕ) * h) * κ (j * h)) i l =
      (Spec.trapzRule h (fun j => P ((n - j : ℕ) * h) * κ (j * h)) n) i l := by
    have := trapzW_sum h n fun j => P ((n - j : ℕ) * h) * κ (j * h)
    rw [← this, Matrix.sum_apply]
    rfl
  rw [e1]
  rw [e2] at core
  have q1 := hQ h n hh.le hnS i l
  have e3 : ∀ A B C D : ℝ, A - (B + C) = (A - (B + D)) + (D - C) := fun _ _ _ _ => by ring
  rw [e3 _ _ _ ((Spec.trapzRule h (fun j => P ((n - j : ℕ) * h) * κ (j * h)) n) i l)]
  refine (abs_add_le _ _).trans ((add_le_add core q1).trans ?_)
  obtain ⟨Z, hZ⟩ : ∃ Z, Z = (|M| + 1) + (|M| + |S| * (b * (|M| * (MB + 1)))) + 1 + |S| * (b * (MB + 1) + b * MP) := ⟨_, rfl⟩
  have hZ0 : 0 ≤ Z := by rw [hZ]; positivity
  rw [← hZ]
  nlinarith [mul_nonneg hZ0 (sq_nonneg h), mul_nonneg hQ0 hε]

end

/-! ### What the limit is -/

/-- `R(t) = W(t) + ∫_0^t P(t-s) κ(s) ds` on `[0, S]`. -/
def Spec.NoiseCorrelation (S : ℝ) (W : ℝ → Mat ℝ o x) (P : ℝ → Mat ℝ o b) (κ : ℝ → Mat ℝ b x) (R : ℝ → Mat ℝ o x) : Prop :=
  ∀ t ∈ Icc 0 S, ∀ i l, R t i l = W t i l + ∫ s in (0 : ℝ)..t, (P (t - s) * κ s) i l

theorem lip_entry_cont {S : ℝ} {P : ℝ → Mat ℝ o b} (hP : Spec.Lip S P) (i : Fin o) (a : Fin b) : ContinuousOn (fun t => P t i a) (Icc 0 S) := by
  obtain ⟨L, hL⟩ := hP
  exact contOn_of_lip fun s hs t ht => hL s hs t ht i a

theorem lip_const_mul {S : ℝ} (A : Mat ℝ o b) {D : ℝ → Mat ℝ b x} (hD : Spec.Lip S D) : Spec.Lip S fun t => A * D t := by
  obtain ⟨L, hL⟩ := hD
  refine ⟨∑ i, ∑ p, |A i p| * |L|, fun s hs t ht i l => ?_⟩
  beta_reduce
  rw [Matrix.mul_apply, Matrix.mul_apply, ← sum_sub_distrib]
  refine (abs_sum_le_sum_abs _ _).trans ?_
  calc ∑ p, |A i p * D s p l - A i p * D t p l| ≤ ∑ p, |A i p| * |L| * |s - t| := by
        refine sum_le_sum fun p _ => ?_
        rw [← mul_sub, abs_mul, mul_assoc]
        refine mul_le_mul_of_nonneg_left ((hL s hs t ht p l).trans ?_) (abs_nonneg _)
        exact mul_le_mul_of_nonneg_right (le_abs_self L) (abs_nonneg _)
    _ = (∑ p, |A i p| * |L|) * |s - t| := by rw [sum_mul]
    _ ≤ _ := by
        refine mul_le_mul_of_nonneg_right ?_ (abs_nonneg _)
        exact single_le_sum (f := fun i => ∑ p, |A i p| * |L|) (fun i _ => sum_nonneg fun p _ => by positivity) (Finset.mem_univ i)

theorem convMat_integrable {S : ℝ} {P : ℝ → Mat ℝ o b} {κ : ℝ → Mat ℝ b x} (hP : Spec.Lip S P) (hκ : Spec.Lip S κ) {t : ℝ}
    (ht : t ∈ Icc 0 S) (i : Fin o) (l : Fin x) : IntervalIntegrable (fun s => (P (t - s) * κ s) i l) MeasureTheory.volume 0 t := by
  refine ContinuousOn.intervalIntegrable_of_Icc ht.1 ?_
  simp only [Matrix.mul_apply]
  refine continuousOn_finsetSum _ fun a _ => ContinuousOn.mul ?_ ?_
  · exact ((lip_entry_cont hP i a).comp (continuousOn_const.sub continuousOn_id) fun s hs => ⟨by simp; linarith [hs.2], by simp; linarith [hs.1, ht.2]⟩)
  · exact (lip_entry_cont hκ a l).mono (Icc_subset_Icc le_rfl ht.2)

/-- **C155**, orthogonality: with the functions of the memory as left observable, the limit is zero. -/
theorem C155_orthogonal {S T : ℝ} (hS : S ≤ T) {B : ℝ → Mat ℝ b b} {D κ : ℝ → Mat ℝ b x} (h : Spec.FirstKind T B D κ) :
    Spec.NoiseCorrelation S D B κ 0 := by
  intro t ht i l
  rw [h t ⟨ht.1, ht.2.trans hS⟩ i l]
  simp

/-- **C155**, fluctuation and dissipation: with the left observable `A φ' + ζ`, where `ζ` is orthogonal to the noise, the limit is
`A ⟨φ φ⟩ κ`. -/
theorem C155_dissipation {S T : ℝ} (hS : S ≤ T) {B0 : Mat ℝ b b} {Bd : ℝ → Mat ℝ b b} {Dd κ : ℝ → Mat ℝ b x} (h : Spec.SecondKind T B0 Bd Dd κ)
    (hB : Spec.Lip S Bd) (hκ : Spec.Lip S κ) (A : Mat ℝ o b) {ω : ℝ → Mat ℝ o x} {β : ℝ → Mat ℝ o b} (hβ : Spec.Lip S β)
    (hζ : Spec.NoiseCorrelation S ω β κ 0) :
    Spec.NoiseCorrelation S (fun t => A * Dd t + ω t) (fun t => A * Bd t + β t) κ fun t => A * B0 * κ t := by
  intro t ht i l
  have e1 : ∀ s, ((A * Bd (t - s) + β (t - s)) * κ s) i l = (∑ p, A i p * (Bd (t - s) * κ s) p l) + (β (t - s) * κ s) i l := fun s => by
    rw [Matrix.add_mul, Matrix.add_apply, Matrix.mul_assoc, Matrix.mul_apply]
  simp only [e1]
  have hi : ∀ p, IntervalIntegrable (fun s => A i p * (Bd (t - s) * κ s) p l) MeasureTheory.volume 0 t := fun p =>
    (convMat_integrable hB hκ ht p l).const_mul _
  have hsum : IntervalIntegrable (fun s => ∑ p, A i p * (Bd (t - s) * κ s) p l) MeasureTheory.volume 0 t := by
    simpa only [Finset.sum_fn] using IntervalIntegrable.sum Finset.univ fun p _ => hi p
  rw [intervalIntegral.integral_add hsum (convMat_integrable hβ hκ ht i l),
    intervalIntegral.integral_finsetSum fun p _ => hi p]
  simp only [intervalIntegral.integral_const_mul]
  have h1 := hζ t ht i l
  rw [Pi.zero_apply, Matrix.zero_apply] at h1
  rw [Matrix.mul_assoc, Matrix.mul_apply, Matrix.add_apply, Matrix.mul_apply]
  have e2 : ∀ p, A i p * (B0 * κ t) p l = A i p * Dd t p l + A i p * ∫ s in (0 : ℝ)..t, (Bd (t - s) * κ s) p l := fun p => by
    rw [h t ⟨ht.1, ht.2.trans hS⟩ p l, mul_add]
  simp only [e2, sum_add_distrib]
  linarith

/-- `∫_0^t Σ (∫_0^{t-s} c) k(s) ds = ∫_0^t ∫_0^u Σ c(u-s) k(s) ds du`. -/
theorem conv_primitive_cont {c k : Fin b → ℝ → ℝ} (hc : ∀ a, Continuous (c a)) (hk : ∀ a, Continuous (k a)) {t : ℝ} (ht : 0 ≤ t) :
    ∫ s in (0 : ℝ)..t, ∑ a, (∫ v in (0 : ℝ)..(t - s), c a v) * k a s = ∫ u in (0 : ℝ)..t, ∫ s in (0 : ℝ)..u, ∑ a, c a (u - s) * k a s := by
  have hL : ∀ s ∈ Icc 0 t, ∑ a, (∫ v in (0 : ℝ)..(t - s), c a v) * k a s = ∫ u in (0 : ℝ)..t, indicator {p : ℝ × ℝ | p.1 ≤ p.2} (fun p => ∑ a, c a (p.2 - p.1) * k a p.1) (s, u) := by
    intro s hs
    have hint : ∀ a b, IntervalIntegrable (fun u => ∑ a, c a (u - s) * k a s) MeasureTheory.volume a b := fun a b => Continuous.intervalIntegrable (by fun_prop) _ _
    have e0 : ∀ u, s < u → indicator {p : ℝ × ℝ | p.1 ≤ p.2} (fun p => ∑ a, c a (p.2 - p.1) * k a p.1) (s, u) = ∑ a, c a (u - s) * k a s := fun u hu => by
      simp [indicator, hu.le]
    have e1 : ∀ u, u < s → indicator {p : ℝ × ℝ | p.1 ≤ p.2} (fun p => ∑ a, c a (p.2 - p.1) * k a p.1) (s, u) = 0 := fun u hu => by
      simp [indicator, hu]
    have a1 : ∫ u in (0 : ℝ)..s, indicator {p : ℝ × ℝ | p.1 ≤ p.2} (fun p => ∑ a, c a (p.2 - p.1) * k a p.1) (s, u) = ∫ _ in (0 : ℝ)..s, (0 : ℝ) := by
      refine intervalIntegral.integral_congr_ae ?_
      have : ∀ᵐ u : ℝ, u ≠ s := by simp [MeasureTheory.ae_iff]
      filter_upwards [this] with u hu hu'
      rw [Set.uIoc_of_le hs.1] at hu'
      exact e1 u (lt_of_le_of_ne hu'.2 hu)
    have a2 : ∫ u in s..t, indicator {p : ℝ × ℝ | p.1 ≤ p.2} (fun p => ∑ a, c a (p.2 - p.1) * k a p.1) (s, u) = ∫ u in s..t, ∑ a, c a (u - s) * k a s := by
      refine intervalIntegral.integral_congr_ae (Filter.Eventually.of_forall fun u hu => ?_)
      rw [Set.uIoc_of_le hs.2] at hu
      exact e0 u hu.1
    have i1 : IntervalIntegrable (fun u => indicator {p : ℝ × ℝ | p.1 ≤ p.2} (fun p => ∑ a, c a (p.2 - p.1) * k a p.1) (s, u)) MeasureTheory.volume 0 s := by
      refine (intervalIntegrable_const (c := (0 : ℝ))).congr_ae ?_
      rw [Set.uIoc_of_le hs.1]
      have : ∀ᵐ u : ℝ, u ≠ s := by simp [MeasureTheory.ae_iff]
      refine (MeasureTheory.ae_restrict_iff' measurableSet_Ioc).2 ?_
      filter_upwards [this] with u hu hu'
      exact (e1 u (lt_of_le_of_ne hu'.2 hu)).symm
    have i2 : IntervalIntegrable (fun u => indicator {p : ℝ × ℝ | p.1 ≤ p.2} (fun p => ∑ a, c a (p.2 - p.1) * k a p.1) (s, u)) MeasureTheory.volume s t := by
      refine (hint s t).congr_ae ?_
      rw [Set.uIoc_of_le hs.2]
      refine (MeasureTheory.ae_restrict_iff' measurableSet_Ioc).2 (Filter.Eventually.of_forall fun u hu => (e0 u hu.1).symm)
    rw [← intervalIntegral.integral_add_adjacent_intervals i1 i2, a1, a2, intervalIntegral.integral_zero, zero_add,
      intervalIntegral.integral_finsetSum fun a _ => Continuous.intervalIntegrable (by fun_prop) _ _]
    refine sum_congr rfl fun a _ => ?_
    rw [intervalIntegral.integral_mul_const, intervalIntegral.integral_comp_sub_right, sub_self]
  have hR : ∀ u ∈ Icc 0 t, ∫ s in (0 : ℝ)..u, ∑ a, c a (u - s) * k a s = ∫ s in (0 : ℝ)..t, indicator {p : ℝ × ℝ | p.1 ≤ p.2} (fun p => ∑ a, c a (p.2 - p.1) * k a p.1) (s, u) := by
    intro u hu
    rw [← intervalIntegral.integral_indicator hu]
    rfl
  have hL' := intervalIntegral.integral_congr (μ := MeasureTheory.volume) (a := 0) (b := t) (f := fun s => ∑ a, (∫ v in (0 : ℝ)..(t - s), c a v) * k a s)
    (g := fun s => ∫ u in (0 : ℝ)..t, indicator {p : ℝ × ℝ | p.1 ≤ p.2} (fun p => ∑ a, c a (p.2 - p.1) * k a p.1) (s, u)) (fun s hs => by
      rw [Set.uIcc_of_le ht] at hs
      exact hL s hs)
  have hR' := intervalIntegral.integral_congr (μ := MeasureTheory.volume) (a := 0) (b := t) (f := fun u => ∫ s in (0 : ℝ)..u, ∑ a, c a (u - s) * k a s)
    (g := fun u => ∫ s in (0 : ℝ)..t, indicator {p : ℝ × ℝ | p.1 ≤ p.2} (fun p => ∑ a, c a (p.2 - p.1) * k a p.1) (s, u)) (fun s hs => by
      rw [Set.uIcc_of_le ht] at hs
      exact hR s hs)
  rw [hL', hR']
  simp only [intervalIntegral.integral_of_le ht]
  refine MeasureTheory.integral_integral_swap (f := fun s u => indicator {p : ℝ × ℝ | p.1 ≤ p.2} (fun p => ∑ a, c a (p.2 - p.1) * k a p.1) (s, u)) ?_
  have hcont : Continuous fun p : ℝ × ℝ => ∑ a, c a (p.2 - p.1) * k a p.1 := by fun_prop
  have hm : MeasurableSet {p : ℝ × ℝ | p.1 ≤ p.2} := measurableSet_le measurable_fst measurable_snd
  have hi : MeasureTheory.IntegrableOn (fun p : ℝ × ℝ => ∑ a, c a (p.2 - p.1) * k a p.1) (Icc 0 t ×ˢ Icc 0 t) (MeasureTheory.volume.prod MeasureTheory.volume) :=
    hcont.continuousOn.integrableOn_compact (isCompact_Icc.prod isCompact_Icc)
  rw [MeasureTheory.Measure.prod_restrict]
  exact ((hi.mono_set (prod_mono Ioc_subset_Icc_self Ioc_subset_Icc_self)).indicator hm)

theorem conv_primitive {c k : Fin b → ℝ → ℝ} {T : ℝ} (hc : ∀ a, ContinuousOn (c a) (Icc 0 T)) (hk : ∀ a, ContinuousOn (k a) (Icc 0 T)) {t : ℝ} (ht : t ∈ Icc 0 T) :
    ∫ s in (0 : ℝ)..t, ∑ a, (∫ v in (0 : ℝ)..(t - s), c a v) * k a s = ∫ u in (0 : ℝ)..t, ∫ s in (0 : ℝ)..u, ∑ a, c a (u - s) * k a s := by
  have hT : 0 ≤ T := ht.1.trans ht.2
  have h := conv_primitive_cont (c := fun a => IccExtend hT (domRestrict (Icc 0 T) (c a))) (k := fun a => IccExtend hT (domRestrict (Icc 0 T) (k a)))
    (fun a => (continuousOn_iff_continuous_domRestrict.1 (hc a)).Icc_extend') (fun a => (continuousOn_iff_continuous_domRestrict.1 (hk a)).Icc_extend') ht.1
  have ec : ∀ a, ∀ v ∈ Icc 0 T, IccExtend hT (domRestrict (Icc 0 T) (c a)) v = c a v := fun a v hv => IccExtend_of_mem hT _ hv
  have ek : ∀ a, ∀ v ∈ Icc 0 T, IccExtend hT (domRestrict (Icc 0 T) (k a)) v = k a v := fun a v hv => IccExtend_of_mem hT _ hv
  refine Eq.trans ?_ (h.trans ?_)
  · refine intervalIntegral.integral_congr fun s hs => ?_
    rw [Set.uIcc_of_le ht.1] at hs
    refine sum_congr rfl fun a _ => ?_
    rw [ek a s ⟨hs.1, hs.2.trans ht.2⟩]
    congr 1
    refine intervalIntegral.integral_congr fun v hv => ?_
    rw [Set.uIcc_of_le (by linarith [hs.2])] at hv
    exact (ec a v ⟨hv.1, by linarith [hv.2, hs.1, ht.2]⟩).symm
  · refine intervalIntegral.integral_congr fun u hu => ?_
    rw [Set.uIcc_of_le ht.1] at hu
    refine intervalIntegral.integral_congr fun s hs => ?_
    rw [Set.uIcc_of_le hu.1] at hs
    refine sum_congr rfl fun a _ => ?_
    rw [ek a s ⟨hs.1, by linarith [hs.2, hu.2, ht.2]⟩, ec a _ ⟨by linarith [hs.2], by linarith [hs.1, hu.2, ht.2]⟩]


/-- The orthogonality to the noise is kept by primitives that begin with zero. -/
theorem orthogonal_primitive {S : ℝ} {ω ω' : ℝ → Mat ℝ o x} {β β' : ℝ → Mat ℝ o b} {κ : ℝ → Mat ℝ b x} (hω : Spec.DerivOn S ω ω')
    (hβ : Spec.DerivOn S β β') (hω' : Spec.Lip S ω') (hβ' : Spec.Lip S β') (hκ : Spec.Lip S κ) (hω0 : ω 0 = 0) (hβ0 : β 0 = 0)
    (h : Spec.NoiseCorrelation S ω' β' κ 0) : Spec.NoiseCorrelation S ω β κ 0 := by
  intro t ht i l
  have ftc : ∀ {n : ℕ} {g g' : ℝ → Mat ℝ o n}, Spec.DerivOn S g g' → Spec.Lip S g' → g 0 = 0 → ∀ u ∈ Icc 0 S, ∀ a : Fin n,
      ∫ v in (0 : ℝ)..u, g' v i a = g u i a := by
    intro n g g' hg hg' h0 u hu a
    obtain ⟨L, hL⟩ := hg'
    rw [ftc_on (fun v hv => hg v hv i a) (L := L) (fun s hs t ht => hL s hs t ht i a) le_rfl hu.1 hu.2, h0, Matrix.zero_apply, sub_zero]
  have e1 : ∫ s in (0 : ℝ)..t, (β (t - s) * κ s) i l = ∫ s in (0 : ℝ)..t, ∑ a, (∫ v in (0 : ℝ)..(t - s), β' v i a) * κ s a l := by
    refine intervalIntegral.integral_congr fun s hs => ?_
    rw [Set.uIcc_of_le ht.1] at hs
    rw [Matrix.mul_apply]
    refine sum_congr rfl fun a _ => ?_
    rw [ftc hβ hβ' hβ0 (t - s) ⟨by linarith [hs.2], by linarith [hs.1, ht.2]⟩ a]
  rw [e1, conv_primitive (c := fun a v => β' v i a) (k := fun a s => κ s a l) (fun a => lip_entry_cont hβ' i a)
    (fun a => lip_entry_cont hκ a l) ht, ← ftc hω hω' hω0 t ht l]
  have e2 : ∫ u in (0 : ℝ)..t, ∫ s in (0 : ℝ)..u, ∑ a, β' (u - s) i a * κ s a l = ∫ u in (0 : ℝ)..t, -ω' u i l := by
    refine intervalIntegral.integral_congr fun u hu => ?_
    rw [Set.uIcc_of_le ht.1] at hu
    have := h u ⟨hu.1, hu.2.trans ht.2⟩ i l
    simp only [Pi.zero_apply, Matrix.zero_apply, Matrix.mul_apply] at this
    linarith
  rw [e2, intervalIntegral.integral_neg]
  simp

/-- **C155**, the functions of the force are orthogonal to the noise, if their derivatives are combinations `-A φ` of the functions of the
memory: `⟨f(0) φ(t)⟩' = A ⟨φ(0) φ(t)⟩`, `⟨f(0) (obs - F f)(t)⟩' = A ⟨φ(0) (obs - F f)(t)⟩`, both zero at `t = 0`. -/
theorem C155_force_orthogonal {S T : ℝ} (hS : S ≤ T) {B : ℝ → Mat ℝ b b} {D κ : ℝ → Mat ℝ b x} (h : Spec.FirstKind T B D κ)
    (hB : Spec.Lip S B) (hD : Spec.Lip S D) (hκ : Spec.Lip S κ) (A : Mat ℝ o b) {ω : ℝ → Mat ℝ o x} {β : ℝ → Mat ℝ o b}
    (hω : Spec.DerivOn S ω fun t => A * D t) (hβ : Spec.DerivOn S β fun t => A * B t) (hω0 : ω 0 = 0) (hβ0 : β 0 = 0) :
    Spec.NoiseCorrelation S ω β κ 0 := by
  refine orthogonal_primitive hω hβ (lip_const_mul A hD) (lip_const_mul A hB) hκ hω0 hβ0 fun t ht i l => ?_
  have hi : ∀ p, IntervalIntegrable (fun s => A i p * (B (t - s) * κ s) p l) MeasureTheory.volume 0 t := fun p =>
    (convMat_integrable hB hκ ht p l).const_mul _
  have e1 : ∀ s, (A * B (t - s) * κ s) i l = ∑ p, A i p * (B (t - s) * κ s) p l := fun s => by
    rw [Matrix.mul_assoc, Matrix.mul_apply]
  simp only [e1]
  rw [intervalIntegral.integral_finsetSum fun p _ => hi p]
  simp only [intervalIntegral.integral_const_mul]
  rw [Matrix.mul_apply, ← sum_add_distrib]
  refine (sum_eq_zero fun p _ => ?_).symm
  rw [h t ⟨ht.1, ht.2.trans hS⟩ p l]
  ring

end

/-! ### Estimate, then compute the correlations -/

/-- `obs - F f` along a trajectory. -/
def Spec.residualAlong (m : BasisModel ℝ) (L : String) (F : Mat ℝ m.nForce m.dimObs) (xva : Xva ℝ) (t : ℕ) (l : Fin m.dimObs) : ℝ :=
  xva.data L t l - ∑ p : Fin m.nForce, Spec.forceFeature m xva t p * F p l

/-- A trajectory with the step `dt`, bounded by `M`, along which the averages of the left observable with `obs - F f` and with the functions
of the memory are within `ε` of `W` and `P`. -/
structure Spec.Typical (m : BasisModel ℝ) (L : String) (F : Mat ℝ m.nForce m.dimObs) {o : ℕ} (left : LeftOp ℝ m.dimObs o)
    (W : ℝ → Mat ℝ o m.dimObs) (P : ℝ → Mat ℝ o (Spec.nCorr m)) (S M dt ε : ℝ) (xva : Xva ℝ) : Prop where
  dimx : xva.dimx = m.dimx
  two : 2 ≤ xva.n
  step : xva.time 1 - xva.time 0 = dt
  bound : ∀ t < xva.n, (∀ i, |left.values (Spec.residualAlong m L F xva) t i| ≤ M) ∧ (∀ l, |Spec.residualAlong m L F xva t l| ≤ M) ∧
    (∀ q : Fin (Spec.nCorr m), |Spec.corrFeature m xva t q| ≤ M) ∧ ∀ p : Fin m.nForce, |Spec.forceFeature m xva t p| ≤ M
  averages : Spec.WindowAverages S dt ε xva.n (left.values (Spec.residualAlong m L F xva)) (Spec.residualAlong m L F xva)
    (fun t (q : Fin (Spec.nCorr m)) => Spec.corrFeature m xva t q) W P

/-- `compute_corrs_w_noise` of the model `s` along a trajectory is within `B` of `R`, on `[0, S]`. -/
def Spec.FindsCorr (s : ModelState ℝ) (L d : String) (S dt B : ℝ) {x o : ℕ} (left : LeftOp ℝ x o) (R : ℝ → Mat ℝ o x) (N : ℕ)
    (xva : Xva ℝ) : Prop :=
  ∃ r, computeCorrsWNoise (noiseModelOf s x) (xvaTraj s.bm L d x xva) left = .ok r ∧ N ≤ r.2.len ∧
    ∀ n < r.2.len, n < xva.n → n * dt ≤ S → ∀ i l, |r.2.get n i l - R (n * dt) i l| ≤ B

theorem left_values_near {x o : ℕ} (left : LeftOp ℝ x o) {q q' : ℕ → Fin x → ℝ} {t : ℕ} {η : ℝ} (hη : 0 ≤ η) (h : ∀ l, |q' t l - q t l| ≤ η) (i : Fin o) :
    |left.values q' t i - left.values q t i| ≤ η := by
  cases left with
  | noise e => exact h _
  | array a => simpa [LeftOp.values] using hη

/-- `compute_corrs_w_noise` succeeds. -/
theorem computeCorrsWNoise_succeeds {bf b x o : ℕ} {m : NoiseModel ℝ bf b x} {c : Mat ℝ bf x} {k : KernelData ℝ b x}
    (hc : m.forceCoeff = some c) (hk : m.kernel = some k) {xva : Traj ℝ bf b x} (hn : 2 ≤ xva.len) (left : LeftOp ℝ x o)
    (hm : isRectMethod m.method ∨ isTrapzMethod m.method) : ∃ r, computeCorrsWNoise m xva left = .ok r := by
  have h1 : ¬ xva.len < 2 := by omega
  unfold computeCorrsWNoise
  simp only [hc, hk, bind, Except.bind, pure, Except.pure, if_neg h1]
  by_cases hr : isRectMethod m.method
  · simp only [if_pos hr]
    exact ⟨_, rfl⟩
  · simp only [if_neg hr, if_pos (hm.resolve_left hr)]
    exact ⟨_, rfl⟩

/-- The data of `compute_corrs_w_noise` with an estimated model. -/
theorem process_data {s : ModelState ℝ} (hw : s.bm.WF) (hfr : s.bm.cls ≠ .withFriction) {F : Mat ℝ s.bm.nForce s.bm.dimObs}
    {k : ℝ → Mat ℝ (Spec.nCorr s.bm) s.bm.dimObs} {S M : ℝ} (hM0 : 0 ≤ M) {o : ℕ} {left : LeftOp ℝ s.bm.dimObs o}
    {W : ℝ → Mat ℝ o s.bm.dimObs} {P : ℝ → Mat ℝ o (Spec.nCorr s.bm)} {c : LArr ℝ} {d L : String} {N : ℕ} {xva : Xva ℝ} {ε η : ℝ}
    (hc : HasForce s c d) (hest : Estimates s.bm F k N s.dt η η s) (hη : 0 ≤ η) (hε : 0 ≤ ε) (hdt : 0 < s.dt)
    (hxva : Spec.Typical s.bm L F left W P S M s.dt ε xva) (hN : 2 ≤ N) (hcov : S ≤ (N - 1 : ℕ) * s.dt) :
    ∃ (r : KernelData ℝ (Spec.nCorr s.bm) s.bm.dimObs) (c' : Mat ℝ s.bm.nForce s.bm.dimObs),
      (noiseModelOf s s.bm.dimObs).forceCoeff = some c' ∧ (noiseModelOf s s.bm.dimObs).kernel = some r ∧ N ≤ r.kernel.len ∧
      Spec.NearProcess S M s.dt ((s.bm.basis.nOut * M + 1) * η + ε) k W P (noiseModelOf s s.bm.dimObs) r
        (xvaTraj s.bm L d s.bm.dimObs xva) left c' (left.values (Spec.residualAlong s.bm L F xva)) (Spec.residualAlong s.bm L F xva) := by
  obtain ⟨r, r1, r2, -, r4⟩ := hest.kernel
  have hk : (noiseModelOf s s.bm.dimObs).kernel = some r := by simp [noiseModelOf, r1]
  obtain ⟨f1, f2⟩ := xvaTraj_features hw hxva.dimx L d s.bm.dimObs
  have hnF : s.bm.nForce = s.bm.basis.nOut := by rw [nForce_wf hw, if_neg hfr]
  have h0 : 0 ≤ s.bm.basis.nOut * M * η := by positivity
  have hforce : ∀ t < xva.n, ∀ l, |Spec.instantNoise (xvaTraj s.bm L d s.bm.dimObs xva).obs (xvaTraj s.bm L d s.bm.dimObs xva).Eforce
      (Matrix.of fun (k : Fin s.bm.nForce) (l : Fin s.bm.dimObs) => c.get [k.1, l.1]) t l - Spec.residualAlong s.bm L F xva t l| ≤
      (s.bm.basis.nOut * M + 1) * η := by
    intro t ht l
    obtain ⟨R, h1, -, -, h4⟩ := forceEval_ok hc hw 1 fun _ => xva.data "x" t
    obtain ⟨R', h5, -, -, h6⟩ := hest.force 1 fun _ => xva.data "x" t
    obtain rfl : R = R' := Except.ok.inj (h1.symm.trans h5)
    have h7 := h6 0 l l.2
    rw [h4 0 l] at h7
    have feat : ∀ p : Fin s.bm.nForce, s.bm.basis.basis (xva.data "x" t) p = Spec.forceFeature s.bm xva t p := fun p => by
      rw [Spec.forceFeature, if_neg (fun h => hfr h.1)]
    have e1 : ∀ A : Fin s.bm.nForce → ℝ, ∀ B : ℕ → ℝ, (∀ p : Fin s.bm.nForce, B p = A p) → ∑ q ∈ Finset.range s.bm.basis.nOut, B q = ∑ p, A p :=
      fun A B h => by
        rw [← hnF, Finset.sum_range]
        exact sum_congr rfl fun p _ => h p
    rw [e1 (fun p => Spec.forceFeature s.bm xva t p * c.get [p.1, l.1]) _ fun p => by rw [feat],
      e1 (fun p => Spec.forceFeature s.bm xva t p * F p l) _ fun p => by rw [feat, Spec.entry, dif_pos ⟨p.2, l.2⟩],
      e1 (fun p => |Spec.forceFeature s.bm xva t p|) _ fun p => by rw [feat]] at h7
    have e2 : ∑ p, (xvaTraj s.bm L d s.bm.dimObs xva).Eforce t p * c.get [p.1, l.1] = ∑ p : Fin s.bm.nForce, Spec.forceFeature s.bm xva t p * c.get [p.1, l.1] :=
      sum_congr rfl fun p _ => by rw [f1 t ht]
    have e3 : ∑ p : Fin s.bm.nForce, |Spec.forceFeature s.bm xva t p| ≤ s.bm.basis.nOut * M := by
      refine (sum_le_card_nsmul _ _ M fun p _ => (hxva.bound t ht).2.2.2 p).trans ?_
      rw [card_univ, Fintype.card_fin, nsmul_eq_mul, hnF]
    have e4 : (xvaTraj s.bm L d s.bm.dimObs xva).obs t l = xva.data L t l := var_get _ _ _ _
    have e5 : ∀ A B C : ℝ, A - B - (A - C) = -(B - C) := fun _ _ _ => by ring
    simp only [Spec.instantNoise, Spec.residualAlong, Matrix.of_apply]
    rw [e4, e2, e5, abs_neg]
    refine h7.trans ?_
    nlinarith
  refine ⟨r, _, by simp only [noiseModelOf, hc.force, Option.map_some], hk, r2, hxva.step, by simp only [noiseModelOf, hc.force, Option.map_some], hk, fun j _ hj a l => ?_,
    fun t ht l => (hforce t ht l).trans (by linarith), fun t ht i => (left_values_near left (by positivity) (hforce t ht) i).trans (by linarith), fun t ht => ?_, ?_⟩
  · have h2 : (j : ℝ) ≤ (N - 1 : ℕ) := le_of_mul_le_mul_right (hj.trans hcov) hdt
    have h3 : j ≤ N - 1 := by exact_mod_cast h2
    refine ((r4 j (by omega)).2 a l).trans ?_
    linarith
  · obtain ⟨b1, b2, b3, -⟩ := hxva.bound t ht
    exact ⟨b1, b2, fun a => by rw [f2 t ht]; exact b3 a⟩
  · have hle : ε ≤ (s.bm.basis.nOut * M + 1) * η + ε := by nlinarith
    refine ⟨fun n hn hS i l => (hxva.averages.noise n hn hS i l).trans hle, fun n hn hS j hj i a => ?_⟩
    refine (le_of_eq ?_).trans ((hxva.averages.funs n hn hS j hj i a).trans hle)
    congr 2
    unfold Spec.lagAverage
    congr 1
    refine sum_congr rfl fun t ht => ?_
    have := Finset.mem_range.1 ht
    exact congrArg (_ * ·) (f2 (t + j) (by change n < xva.n at hn; change t < xva.n - n at this; omega) a)

section
variable {m : BasisModel ℝ} {F : Mat ℝ m.nForce m.dimObs} {k k' : ℝ → Mat ℝ (Spec.nCorr m) m.dimObs} {S M : ℝ} {o : ℕ}
  {W R : ℝ → Mat ℝ o m.dimObs} {P P' : ℝ → Mat ℝ o (Spec.nCorr m)}

/-- What the two next lemmas give. -/
def CorrNear (m : BasisModel ℝ) (F : Mat ℝ m.nForce m.dimObs) (k : ℝ → Mat ℝ (Spec.nCorr m) m.dimObs) (S M : ℝ) {o : ℕ}
    (W R : ℝ → Mat ℝ o m.dimObs) (P : ℝ → Mat ℝ o (Spec.nCorr m)) (Q : Option String → Prop) (p : ℕ) : Prop :=
  ∃ C : ℝ, 0 ≤ C ∧ ∀ (s : ModelState ℝ) (c : LArr ℝ) (d L : String) (left : LeftOp ℝ m.dimObs o) (N : ℕ) (xva : Xva ℝ) (ε η : ℝ), s.bm = m →
    HasForce s c d → Estimates m F k N s.dt η η s → Q s.method → 0 < s.dt → 0 ≤ ε → 0 ≤ η →
    2 ≤ N → S ≤ (N - 1 : ℕ) * s.dt → Spec.Typical m L F left W P S M s.dt ε xva → (m.basis.nOut * M + 1) * η + ε ≤ 1 →
    Spec.FindsCorr s L d S s.dt (C * (s.dt ^ p + (η + ε))) left R (N - 1) xva

theorem corr_bound {C h η ε nM : ℝ} (hC : 0 ≤ C) (hh : 0 ≤ h) (_hη : 0 ≤ η) (hε : 0 ≤ ε) (hn : 0 ≤ nM) :
    C * (h + ((nM + 1) * η + ε)) ≤ C * (nM + 1) * (h + (η + ε)) := by
  rw [mul_assoc]
  refine mul_le_mul_of_nonneg_left ?_ hC
  nlinarith [mul_nonneg hn hh, mul_nonneg hn hε]

theorem corr_near_rect (hw : m.WF) (hfr : m.cls ≠ .withFriction) (hM0 : 0 ≤ M) (hR : Spec.NoiseCorrelation S W P k R)
    (hP : Spec.Lip S P) (hk : Spec.Lip S k) : CorrNear m F k S M W R P isRectMethod 1 := by
  obtain ⟨C, hC0, hC⟩ := C155_corrs_rect (M := M) (W := W) hP hk
  refine ⟨C * (m.basis.nOut * M + 1), by positivity, ?_⟩
  intro s c d L left N xva ε η hbm hc hest hm hdt hε hη hN hcov hx h1
  subst hbm
  obtain ⟨r, c', hc', hr, hrN, D⟩ := process_data hw hfr hM0 hc hest hη hε hdt hx hN hcov
  obtain ⟨z, hz⟩ := computeCorrsWNoise_succeeds hc' hr (xva := xvaTraj s.bm L d s.bm.dimObs xva) hx.two left (.inl hm)
  have hlen := (C20_rect hm hc' hr hz).2.1
  refine ⟨z, hz, by omega, fun n hn hnx hnS i l => ?_⟩
  rw [hR _ ⟨by positivity, hnS⟩ i l, pow_one]
  exact (hC _ _ r _ left c' _ _ s.dt _ z hm hdt (by positivity) h1 D hz n hn hnx hnS i l).trans
    (corr_bound hC0 hdt.le hη hε (by positivity))

theorem corr_near_trapz (hw : m.WF) (hfr : m.cls ≠ .withFriction) (hM0 : 0 ≤ M) (hR : Spec.NoiseCorrelation S W P k R)
    (hP : Spec.DerivOn S P P') (hP' : Spec.Lip S P') (hk : Spec.DerivOn S k k') (hk' : Spec.Lip S k') :
    CorrNear m F k S M W R P isTrapzMethod 2 := by
  obtain ⟨C, hC0, hC⟩ := C155_corrs_trapz (M := M) (W := W) hP hP' hk hk'
  refine ⟨C * (m.basis.nOut * M + 1), by positivity, ?_⟩
  intro s c d L left N xva ε η hbm hc hest hm hdt hε hη hN hcov hx h1
  subst hbm
  obtain ⟨r, c', hc', hr, hrN, D⟩ := process_data hw hfr hM0 hc hest hη hε hdt hx hN hcov
  obtain ⟨z, hz⟩ := computeCorrsWNoise_succeeds hc' hr (xva := xvaTraj s.bm L d s.bm.dimObs xva) hx.two left (.inr hm)
  have hlen := (C20_trapz hm hc' hr hz).2.1
  refine ⟨z, hz, by omega, fun n hn hnx hnS i l => ?_⟩
  rw [hR _ ⟨by positivity, hnS⟩ i l]
  exact (hC _ _ r _ left c' _ _ s.dt _ z hm hdt (by positivity) h1 D hz n hn hnx hnS i l).trans
    (corr_bound hC0 (sq_nonneg _) hη hε (by positivity))

theorem corr_chain {Q : Option String → Prop} {p : ℕ} (hM0 : 0 ≤ M) (H : CorrNear m F k S M W R P Q p) (C : ℝ) :
    ∃ C' δ : ℝ, 0 ≤ C' ∧ 0 < δ ∧ ∀ (env : Env ℝ) (method km : String) (vectorize second : Bool) (rankTol : Option ℝ) (d : String)
      (s s1 s2 s3 : EstState ℝ) (left : LeftOp ℝ m.dimObs o) (N : ℕ) (xva : Xva ℝ) (ε η : ℝ), Q (some km) →
      Setup env method vectorize m d s → computeMeanForce env s = (s1, none) →
      computeCorrs env method vectorize second rankTol s1 = (s2, none) →
      computeKernelStep km (fun _ _ => none) s2 = (s3, none) →
      Estimates m F k N s.model.dt (C * ε) (C * η) s3.model → 0 < s.model.dt → 0 ≤ ε → ε ≤ η → η ≤ δ →
      2 ≤ N → S ≤ (N - 1 : ℕ) * s.model.dt → Spec.Typical m s.model.Lobs F left W P S M s.model.dt ε xva →
      Spec.FindsCorr s3.model s.model.Lobs d S s.model.dt (C' * (s.model.dt ^ p + η)) left R (N - 1) xva := by
  obtain ⟨C0, hC0, H⟩ := H
  have hCp : 0 ≤ |C| := abs_nonneg C
  have hX : 0 < (m.basis.nOut * M + 1) * (|C| + 1) + 1 := by positivity
  refine ⟨C0 * (|C| + 2), 1 / ((m.basis.nOut * M + 1) * (|C| + 1) + 1), by positivity, by positivity, ?_⟩
  intro env method km vectorize second rankTol d s s1 s2 s3 left N xva ε η hQ hs h1 h2 h3 hest hdt hε hεη hηδ hN hcov hx
  obtain ⟨c, e1, e2, -, e4, e5⟩ := estimation_frame hs h1 h2 h3
  have hmeth : s3.model.method = some km := by
    obtain ⟨_, _, -, rfl, -⟩ := C42_method_recorded h3
    rfl
  have hη : 0 ≤ η := hε.trans hεη
  obtain ⟨z, hz⟩ : ∃ z : ℝ, z = (|C| + 1) * η := ⟨_, rfl⟩
  have b1 : C * ε ≤ z := by
    rw [hz]
    have a1 := mul_le_mul_of_nonneg_right (le_abs_self C) hε
    have a2 := mul_le_mul_of_nonneg_left hεη hCp
    nlinarith
  have b2 : C * η ≤ z := by
    rw [hz]
    have a1 := mul_le_mul_of_nonneg_right (le_abs_self C) hη
    nlinarith
  have b3 : (m.basis.nOut * M + 1) * z + ε ≤ 1 := by
    rw [le_div_iff₀ hX] at hηδ
    rw [hz]
    nlinarith
  obtain ⟨r, r1, r2, r3⟩ := H s3.model c d s.model.Lobs left N xva ε z e1 e2 (by rw [e4]; exact Spec.Estimates.mono hest b1 b2)
    (by rw [hmeth]; exact hQ) (by rw [e4]; exact hdt) hε (by rw [hz]; positivity) hN (by rw [e4]; exact hcov)
    (by rw [e4]; exact hx) b3
  rw [e4] at r3
  refine ⟨r, r1, r2, fun n hn hnx hnS i l => (r3 n hn hnx hnS i l).trans ?_⟩
  rw [mul_assoc]
  refine mul_le_mul_of_nonneg_left ?_ hC0
  have h0 : 0 ≤ s.model.dt ^ p := by positivity
  rw [hz]
  nlinarith [mul_nonneg hCp h0]

variable {μ : Averages m.nForce (Spec.nCorr m) m.dimObs} {T MW : ℝ}

/-- **C155**, rectangle rule of the second kind: with a model estimated from data whose averages are within `ε` of those of the
process, and a trajectory with the averages of the process up to `ε`, `compute_corrs_w_noise` gives `W(t) + ∫_0^t P(t-s) k(s) ds` up to
`C (dt + ε)`. -/
theorem C155_second_kind_rect (hw : m.WF) (hx1 : 1 ≤ m.dimx) (hfr : m.cls ≠ .withFriction)
    (hG : μ.gram.det ≠ 0) (hF : μ.gram * F = μ.proj)
    (hW : ∀ t ∈ Set.Icc 0 T, ∀ i j, |μ.cross t i j| ≤ MW ∧ |μ.dcross t i j| ≤ MW) (hB0 : (μ.corr 0).det ≠ 0)
    (hB : Spec.Lip T μ.dcorr) (hk : Spec.Lip T k) (heq : Spec.SecondKind T (μ.corr 0) μ.dcorr (μ.dresidual F) k)
    (hh : m.cls ≠ .hybrid)
    (hM0 : 0 ≤ M) (hR : Spec.NoiseCorrelation S W P k R) (hP : Spec.Lip S P) (hkS : Spec.Lip S k) :
    ∃ C δ : ℝ, 0 < δ ∧ ∀ (env : Env ℝ) (method : String) (vectorize : Bool) (rankTol : Option ℝ) (d : String)
      (s : EstState ℝ) (left : LeftOp ℝ m.dimObs o) (xva : Xva ℝ) (ε : ℝ),
      Setup env method vectorize m d s → NearAverages m s.model.Lobs μ s.xvas s.model.truncInd s.model.dt ε →
      0 < s.model.dt → s.model.dt ≤ δ → 0 ≤ ε → ε ≤ δ → 2 ≤ s.model.truncInd →
      ((s.model.truncInd - 1 : ℕ) : ℝ) * s.model.dt ≤ T → S ≤ ((s.model.truncInd - 1 : ℕ) : ℝ) * s.model.dt →
      Spec.Typical m s.model.Lobs F left W P S M s.model.dt ε xva →
      ∃ s1 s2 s3, computeMeanForce env s = (s1, none) ∧ computeCorrs env method vectorize true rankTol s1 = (s2, none) ∧
        computeKernelStep "second_kind_rect" (fun _ _ => none) s2 = (s3, none) ∧
        Spec.FindsCorr s3.model s.model.Lobs d S s.model.dt (C * (s.model.dt + ε)) left R (s.model.truncInd - 1) xva := by
  obtain ⟨C1, δ1, hδ1, H1⟩ := C142_second_kind_rect hG hF hW hw hx1 hh hB0 hB hk heq
  obtain ⟨C2, δ2, hC2, hδ2, H2⟩ := corr_chain hM0 (corr_near_rect hw hfr hM0 hR hP hkS) C1
  refine ⟨C2 * 2, min δ1 (δ2 / 2), by positivity, ?_⟩
  intro env method vectorize rankTol d s left xva ε hs hn hdt hdtδ hε hεδ hN hT hcov hx
  obtain ⟨s1, s2, s3, h1, h2, h3, hest⟩ := H1 env method vectorize rankTol d s ε hs hn hdt (hdtδ.trans (min_le_left _ _)) hε
    (hεδ.trans (min_le_left _ _)) hT
  have q1 := hdtδ.trans (min_le_right _ _)
  have q2 := hεδ.trans (min_le_right _ _)
  obtain ⟨r, r1, r2, r3⟩ := H2 env method _ vectorize true rankTol d s s1 s2 s3 left _ xva ε _ (by decide) hs h1 h2 h3 hest hdt hε
    (by linarith) (by linarith) hN hcov hx
  refine ⟨s1, s2, s3, h1, h2, h3, r, r1, r2, fun n hn hnx hnS i l => (r3 n hn hnx hnS i l).trans ?_⟩
  rw [pow_one]
  exact twice_bound hC2 hε

/-- **C155**, trapezoidal rule of the second kind: `C (dt² + ε)`. -/
theorem C155_second_kind_trapz (hw : m.WF) (hx1 : 1 ≤ m.dimx) (hfr : m.cls ≠ .withFriction)
    (hG : μ.gram.det ≠ 0) (hF : μ.gram * F = μ.proj)
    (hW : ∀ t ∈ Set.Icc 0 T, ∀ i j, |μ.cross t i j| ≤ MW ∧ |μ.dcross t i j| ≤ MW) (hB0 : (μ.corr 0).det ≠ 0)
    {B' : ℝ → Mat ℝ (Spec.nCorr m) (Spec.nCorr m)} {kT : ℝ → Mat ℝ (Spec.nCorr m) m.dimObs}
    (hB : Spec.DerivOn T μ.dcorr B') (hB' : Spec.Lip T B') (hk : Spec.DerivOn T k kT) (hk' : Spec.Lip T kT)
    (heq : Spec.SecondKind T (μ.corr 0) μ.dcorr (μ.dresidual F) k)
    (hh : m.cls ≠ .hybrid)
    (hM0 : 0 ≤ M) (hR : Spec.NoiseCorrelation S W P k R) (hP : Spec.DerivOn S P P') (hP' : Spec.Lip S P')
    (hkS : Spec.DerivOn S k k') (hkS' : Spec.Lip S k') :
    ∃ C δ : ℝ, 0 < δ ∧ ∀ (env : Env ℝ) (method : String) (vectorize : Bool) (rankTol : Option ℝ) (d : String)
      (s : EstState ℝ) (left : LeftOp ℝ m.dimObs o) (xva : Xva ℝ) (ε : ℝ),
      Setup env method vectorize m d s → NearAverages m s.model.Lobs μ s.xvas s.model.truncInd s.model.dt ε →
      0 < s.model.dt → s.model.dt ≤ δ → 0 ≤ ε → ε ≤ δ → 2 ≤ s.model.truncInd →
      ((s.model.truncInd - 1 : ℕ) : ℝ) * s.model.dt ≤ T → S ≤ ((s.model.truncInd - 1 : ℕ) : ℝ) * s.model.dt →
      Spec.Typical m s.model.Lobs F left W P S M s.model.dt ε xva →
      ∃ s1 s2 s3, computeMeanForce env s = (s1, none) ∧ computeCorrs env method vectorize true rankTol s1 = (s2, none) ∧
        computeKernelStep "second_kind_trapz" (fun _ _ => none) s2 = (s3, none) ∧
        Spec.FindsCorr s3.model s.model.Lobs d S s.model.dt (C * (s.model.dt ^ 2 + ε)) left R (s.model.truncInd - 1) xva := by
  obtain ⟨C1, δ1, hδ1, H1⟩ := C142_second_kind_trapz hG hF hW hw hx1 hh hB0 hB hB' hk hk' heq
  obtain ⟨C2, δ2, hC2, hδ2, H2⟩ := corr_chain hM0 (corr_near_trapz hw hfr hM0 hR hP hP' hkS hkS') C1
  refine ⟨C2 * 2, min 1 (min δ1 (δ2 / 2)), by positivity, ?_⟩
  intro env method vectorize rankTol d s left xva ε hs hn hdt hdtδ hε hεδ hN hT hcov hx
  obtain ⟨l0, l1, l2⟩ : s.model.dt ≤ 1 ∧ s.model.dt ≤ δ1 ∧ s.model.dt ≤ δ2 / 2 := by simpa using hdtδ
  obtain ⟨-, l3, l4⟩ : ε ≤ 1 ∧ ε ≤ δ1 ∧ ε ≤ δ2 / 2 := by simpa using hεδ
  obtain ⟨s1, s2, s3, h1, h2, h3, hest⟩ := H1 env method vectorize rankTol d s ε hs hn hdt l1 hε l3 hT
  have q0 : 0 ≤ s.model.dt ^ 2 := by positivity
  have q1 : s.model.dt ^ 2 ≤ δ2 / 2 := by nlinarith
  obtain ⟨r, r1, r2, r3⟩ := H2 env method _ vectorize true rankTol d s s1 s2 s3 left _ xva ε _ (by decide) hs h1 h2 h3 hest hdt hε
    (by linarith) (by linarith) hN hcov hx
  refine ⟨s1, s2, s3, h1, h2, h3, r, r1, r2, fun n hn hnx hnS i l => (r3 n hn hnx hnS i l).trans ?_⟩
  exact twice_bound hC2 hε

/-- **C155**, rectangle rule of the first kind, which divides the errors of the averages by `dt`. -/
theorem C155_rect (hw : m.WF) (hx1 : 1 ≤ m.dimx) (hfr : m.cls ≠ .withFriction)
    (hG : μ.gram.det ≠ 0) (hF : μ.gram * F = μ.proj)
    (hW : ∀ t ∈ Set.Icc 0 T, ∀ i j, |μ.cross t i j| ≤ MW ∧ |μ.dcross t i j| ≤ MW) (hB0 : (μ.corr 0).det ≠ 0)
    {B' : ℝ → Mat ℝ (Spec.nCorr m) (Spec.nCorr m)} (hB : Spec.DerivOn T μ.corr B') (hB' : Spec.Lip T B') (hk : Spec.Lip T k)
    (heq : Spec.FirstKind T μ.corr (μ.residual F) k)
    (hM0 : 0 ≤ M) (hR : Spec.NoiseCorrelation S W P k R) (hP : Spec.Lip S P) (hkS : Spec.Lip S k) :
    ∃ C δ : ℝ, 0 < δ ∧ ∀ (env : Env ℝ) (method km : String) (vectorize : Bool) (rankTol : Option ℝ) (d : String)
      (s : EstState ℝ) (left : LeftOp ℝ m.dimObs o) (xva : Xva ℝ) (ε : ℝ), km ∈ ["rect", "rectangular"] →
      Setup env method vectorize m d s → NearAverages m s.model.Lobs μ s.xvas s.model.truncInd s.model.dt ε →
      0 < s.model.dt → s.model.dt ≤ δ → 0 ≤ ε → ε ≤ δ * s.model.dt → 3 ≤ s.model.truncInd →
      ((s.model.truncInd - 1 : ℕ) : ℝ) * s.model.dt ≤ T → S ≤ ((s.model.truncInd - 2 : ℕ) : ℝ) * s.model.dt →
      Spec.Typical m s.model.Lobs F left W P S M s.model.dt ε xva →
      ∃ s1 s2 s3, computeMeanForce env s = (s1, none) ∧ computeCorrs env method vectorize true rankTol s1 = (s2, none) ∧
        computeKernelStep km (fun _ _ => none) s2 = (s3, none) ∧
        Spec.FindsCorr s3.model s.model.Lobs d S s.model.dt (C * (s.model.dt + ε / s.model.dt)) left R (s.model.truncInd - 2) xva := by
  obtain ⟨C1, δ1, hδ1, H1⟩ := C142_rect hG hF hW hw hx1 hB0 hB hB' hk heq
  obtain ⟨C2, δ2, hC2, hδ2, H2⟩ := corr_chain hM0 (corr_near_rect hw hfr hM0 hR hP hkS) C1
  refine ⟨C2 * 2, min 1 (min δ1 (δ2 / 2)), by positivity, ?_⟩
  intro env method km vectorize rankTol d s left xva ε hkm hs hn hdt hdtδ hε hεδ hN hT hcov hx
  obtain ⟨l0, l1, l2⟩ : s.model.dt ≤ 1 ∧ s.model.dt ≤ δ1 ∧ s.model.dt ≤ δ2 / 2 := by simpa using hdtδ
  obtain ⟨δ, hδe⟩ : ∃ δ, δ = min 1 (min δ1 (δ2 / 2)) := ⟨_, rfl⟩
  rw [← hδe] at hεδ
  obtain ⟨d0, d1, d2⟩ : δ ≤ 1 ∧ δ ≤ δ1 ∧ δ ≤ δ2 / 2 := by rw [hδe]; simp
  have sqp : 0 < s.model.dt := by positivity
  obtain ⟨s1, s2, s3, h1, h2, h3, hest⟩ := H1 env method km vectorize rankTol d s ε hkm hs hn hdt
    l1 hε (hεδ.trans (mul_le_mul_of_nonneg_right d1 sqp.le)) (by omega) hT
  have q2 : 0 ≤ ε / s.model.dt := by positivity
  have q1 : ε ≤ ε / s.model.dt := (le_div_iff₀ sqp).2 (mul_le_of_le_one_right hε l0)
  have q3 : ε / s.model.dt ≤ δ2 / 2 := ((div_le_iff₀ sqp).2 hεδ).trans d2
  obtain ⟨r, r1, r2, r3⟩ := H2 env method _ vectorize true rankTol d s s1 s2 s3 left _ xva ε _ (by
      left
      simp only [List.mem_cons, List.not_mem_nil, or_false] at hkm
      rcases hkm with rfl | rfl <;> simp) hs h1 h2 h3 hest hdt hε
    (by linarith) (by linarith) (by omega) (by rw [Nat.sub_sub]; exact hcov) hx
  refine ⟨s1, s2, s3, h1, h2, h3, r, r1, by omega, fun n hn hnx hnS i l => (r3 n hn hnx hnS i l).trans ?_⟩
  rw [pow_one]
  exact twice_bound hC2 q2

/-- **C155**, trapezoidal rule of the first kind, which divides the errors of the averages by `dt²`. -/
theorem C155_trapz (hw : m.WF) (hx1 : 1 ≤ m.dimx) (hfr : m.cls ≠ .withFriction)
    (hG : μ.gram.det ≠ 0) (hF : μ.gram * F = μ.proj)
    (hW : ∀ t ∈ Set.Icc 0 T, ∀ i j, |μ.cross t i j| ≤ MW ∧ |μ.dcross t i j| ≤ MW) (hB0 : (μ.corr 0).det ≠ 0)
    {B1 B2 B3 : ℝ → Mat ℝ (Spec.nCorr m) (Spec.nCorr m)} {k1 k2 : ℝ → Mat ℝ (Spec.nCorr m) m.dimObs}
    (hB1 : Spec.DerivOn T μ.corr B1) (hB2 : Spec.DerivOn T B1 B2) (hB3 : Spec.DerivOn T B2 B3) (hLB : Spec.Lip T B3)
    (hk1 : Spec.DerivOn T k k1) (hk2 : Spec.DerivOn T k1 k2) (hLk : Spec.Lip T k2)
    (heq : Spec.FirstKind T μ.corr (μ.residual F) k) (h0 : μ.dresidual F 0 = μ.corr 0 * k 0)
    (hh : m.cls ≠ .hybrid)
    (hM0 : 0 ≤ M) (hR : Spec.NoiseCorrelation S W P k R) (hP : Spec.DerivOn S P P') (hP' : Spec.Lip S P')
    (hkS : Spec.DerivOn S k k') (hkS' : Spec.Lip S k') :
    ∃ C δ : ℝ, 0 < δ ∧ ∀ (env : Env ℝ) (method : String) (vectorize : Bool) (rankTol : Option ℝ) (d : String)
      (s : EstState ℝ) (left : LeftOp ℝ m.dimObs o) (xva : Xva ℝ) (ε : ℝ),
      Setup env method vectorize m d s → NearAverages m s.model.Lobs μ s.xvas s.model.truncInd s.model.dt ε →
      0 < s.model.dt → s.model.dt ≤ δ → 0 ≤ ε → ε ≤ δ * s.model.dt ^ 2 → 3 ≤ s.model.truncInd →
      ((s.model.truncInd - 1 : ℕ) : ℝ) * s.model.dt ≤ T → S ≤ ((s.model.truncInd - 2 : ℕ) : ℝ) * s.model.dt →
      Spec.Typical m s.model.Lobs F left W P S M s.model.dt ε xva →
      ∃ s1 s2 s3, computeMeanForce env s = (s1, none) ∧ computeCorrs env method vectorize true rankTol s1 = (s2, none) ∧
        computeKernelStep "trapz" (fun _ _ => none) s2 = (s3, none) ∧
        Spec.FindsCorr s3.model s.model.Lobs d S s.model.dt (C * (s.model.dt ^ 2 + ε / s.model.dt ^ 2)) left R
          (s.model.truncInd - 2) xva := by
  obtain ⟨C1, δ1, hδ1, H1⟩ := C142_trapz hG hF hW hw hx1 hh hB0 hB1 hB2 hB3 hLB hk1 hk2 hLk heq h0
  obtain ⟨C2, δ2, hC2, hδ2, H2⟩ := corr_chain hM0 (corr_near_trapz hw hfr hM0 hR hP hP' hkS hkS') C1
  refine ⟨C2 * 2, min 1 (min δ1 (δ2 / 2)), by positivity, ?_⟩
  intro env method vectorize rankTol d s left xva ε hs hn hdt hdtδ hε hεδ hN hT hcov hx
  obtain ⟨l0, l1, l2⟩ : s.model.dt ≤ 1 ∧ s.model.dt ≤ δ1 ∧ s.model.dt ≤ δ2 / 2 := by simpa using hdtδ
  obtain ⟨δ, hδe⟩ : ∃ δ, δ = min 1 (min δ1 (δ2 / 2)) := ⟨_, rfl⟩
  rw [← hδe] at hεδ
  obtain ⟨d0, d1, d2⟩ : δ ≤ 1 ∧ δ ≤ δ1 ∧ δ ≤ δ2 / 2 := by rw [hδe]; simp
  have sqp : 0 < s.model.dt ^ 2 := by positivity
  obtain ⟨s1, s2, s3, h1, h2, h3, hest⟩ := H1 env method vectorize rankTol d s ε hs hn hdt
    l1 hε (hεδ.trans (mul_le_mul_of_nonneg_right d1 sqp.le)) (by omega) hT
  have q2 : 0 ≤ ε / s.model.dt ^ 2 := by positivity
  have q1 : ε ≤ ε / s.model.dt ^ 2 := (le_div_iff₀ sqp).2 (mul_le_of_le_one_right hε (by nlinarith))
  have q3 : ε / s.model.dt ^ 2 ≤ δ2 / 2 := ((div_le_iff₀ sqp).2 hεδ).trans d2
  have q4 : s.model.dt ^ 2 ≤ δ2 / 2 := by nlinarith
  obtain ⟨r, r1, r2, r3⟩ := H2 env method _ vectorize true rankTol d s s1 s2 s3 left _ xva ε _ (by decide) hs h1 h2 h3 hest hdt hε
    (by linarith) (by linarith) (by omega) (by rw [Nat.sub_sub]; exact hcov) hx
  refine ⟨s1, s2, s3, h1, h2, h3, r, r1, by omega, fun n hn hnx hnS i l => (r3 n hn hnx hnS i l).trans ?_⟩
  exact twice_bound hC2 q2

end

namespace TwoOscillators

open Real

/-! ### One long trajectory -/

theorem cos_sum_le {ω h θ s : ℝ} (hs : 0 < s) (h1 : s ≤ sin (ω * h / 2)) (N : ℕ) : |∑ t ∈ Finset.range N, cos (ω * (t * h) + θ)| ≤ 1 / s := by
  have key : 2 * sin (ω * h / 2) * ∑ t ∈ Finset.range N, cos (ω * (t * h) + θ) = sin (ω * (N * h) + θ - ω * h / 2) - sin (θ - ω * h / 2) := by
    have := Finset.sum_range_sub (fun t : ℕ => sin (ω * (t * h) + θ - ω * h / 2)) N
    simp only [Nat.cast_zero, zero_mul, mul_zero, zero_add] at this
    rw [← this, mul_sum]
    refine sum_congr rfl fun t _ => ?_
    rw [show ω * ((t + 1 : ℕ) * h) + θ - ω * h / 2 = (ω * (t * h) + θ) + ω * h / 2 by push_cast; ring, sin_add, sin_sub]
    ring
  have h2 : 2 * sin (ω * h / 2) * |∑ t ∈ Finset.range N, cos (ω * (t * h) + θ)| ≤ 2 := by
    rw [← abs_of_nonneg (by linarith : 0 ≤ 2 * sin (ω * h / 2)), ← abs_mul, key]
    exact (abs_sub _ _).trans (by linarith [abs_sin_le_one (ω * (N * h) + θ - ω * h / 2), abs_sin_le_one (θ - ω * h / 2)])
  rw [le_div_iff₀ hs]
  nlinarith [abs_nonneg (∑ t ∈ Finset.range N, cos (ω * (t * h) + θ))]

theorem sin_sum_le {ω h θ s : ℝ} (hs : 0 < s) (h1 : s ≤ sin (ω * h / 2)) (N : ℕ) : |∑ t ∈ Finset.range N, sin (ω * (t * h) + θ)| ≤ 1 / s := by
  have := cos_sum_le (θ := θ - π / 2) hs h1 N
  simpa only [← add_sub_assoc, cos_sub_pi_div_two] using this

theorem sin_le_all {h : ℝ} (h0 : 0 < h) (h1 : h ≤ 1 / 5) :
    0 < sin h ∧ sin h ≤ sin (2 * h / 2) ∧ sin h ≤ sin (14 * h / 2) ∧ sin h ≤ sin (6 * h / 2) ∧ sin h ≤ sin (8 * h / 2) := by
  have hp := pi_gt_three
  have m : ∀ y, h ≤ y → y ≤ 7 / 5 → sin h ≤ sin y := fun y a b => sin_le_sin_of_le_of_le_pi_div_two (by linarith) (by linarith) a
  exact ⟨sin_pos_of_pos_of_lt_pi h0 (by linarith), m _ (by linarith) (by linarith), m _ (by linarith) (by linarith), m _ (by linarith) (by linarith),
    m _ (by linarith) (by linarith)⟩

theorem WW (p q p' q' A B : ℝ) : W p q A * W p' q' (A + B) - U (p * p' / 2) (q * q' / 2) B =
    -(p * p' / 2) * cos (2 * A + B) + -(q * q' / 2) * cos (14 * A + 7 * B) + p * q' / 2 * cos (6 * A + 7 * B) + -(p * q' / 2) * cos (8 * A + 7 * B) +
      q * p' / 2 * cos (6 * A + -B) + -(q * p' / 2) * cos (8 * A + B) := by
  obtain ⟨C, hC⟩ : ∃ C, C = 7 * A := ⟨_, rfl⟩
  obtain ⟨D, hD⟩ : ∃ D, D = 7 * B := ⟨_, rfl⟩
  unfold W U
  rw [show 7 * (A + B) = C + D by rw [hC, hD]; ring, show 2 * A + B = A + A + B by ring, show 14 * A + 7 * B = C + C + D by rw [hC, hD]; ring,
    show 6 * A + 7 * B = C - A + D by rw [hC, hD]; ring, show 8 * A + 7 * B = C + A + D by rw [hC, hD]; ring,
    show 6 * A + -B = C - A - B by rw [hC]; ring, show 8 * A + B = C + A + B by rw [hC]; ring, ← hC, ← hD]
  simp only [sin_add, cos_add, sin_sub, cos_sub]
  linear_combination (p * p' / 2 * cos B) * (sin_sq_add_cos_sq A) + (q * q' / 2 * cos D) * (sin_sq_add_cos_sq C)

theorem WU (p q p' q' A B : ℝ) : W p q A * U p' q' (A + B) - W (-(p * p' / 2)) (-(q * q' / 2)) B =
    p * p' / 2 * sin (2 * A + B) + q * q' / 2 * sin (14 * A + 7 * B) + -(p * q' / 2) * sin (6 * A + 7 * B) + p * q' / 2 * sin (8 * A + 7 * B) +
      q * p' / 2 * sin (6 * A + -B) + q * p' / 2 * sin (8 * A + B) := by
  obtain ⟨C, hC⟩ : ∃ C, C = 7 * A := ⟨_, rfl⟩
  obtain ⟨D, hD⟩ : ∃ D, D = 7 * B := ⟨_, rfl⟩
  unfold W U
  rw [show 7 * (A + B) = C + D by rw [hC, hD]; ring, show 2 * A + B = A + A + B by ring, show 14 * A + 7 * B = C + C + D by rw [hC, hD]; ring,
    show 6 * A + 7 * B = C - A + D by rw [hC, hD]; ring, show 8 * A + 7 * B = C + A + D by rw [hC, hD]; ring,
    show 6 * A + -B = C - A - B by rw [hC]; ring, show 8 * A + B = C + A + B by rw [hC]; ring, ← hC, ← hD]
  simp only [sin_add, cos_add, sin_sub, cos_sub]
  linear_combination (-(p * p' / 2) * sin B) * (sin_sq_add_cos_sq A) + (-(q * q' / 2) * sin D) * (sin_sq_add_cos_sq C)

theorem six_terms {c1 c2 c3 c4 c5 c6 s1 s2 s3 s4 s5 s6 y : ℝ} (h1 : |s1| ≤ y) (h2 : |s2| ≤ y) (h3 : |s3| ≤ y) (h4 : |s4| ≤ y) (h5 : |s5| ≤ y)
    (h6 : |s6| ≤ y) : |c1 * s1 + c2 * s2 + c3 * s3 + c4 * s4 + c5 * s5 + c6 * s6| ≤ (|c1| + |c2| + |c3| + |c4| + |c5| + |c6|) * y := by
  have m : ∀ {c s : ℝ}, |s| ≤ y → |c * s| ≤ |c| * y := fun {c s} h => by rw [abs_mul]; exact mul_le_mul_of_nonneg_left h (abs_nonneg c)
  have e := (abs_add_le (c1 * s1 + c2 * s2 + c3 * s3 + c4 * s4 + c5 * s5) (c6 * s6)).trans (add_le_add ((abs_add_le _ _).trans (add_le_add
    ((abs_add_le _ _).trans (add_le_add ((abs_add_le _ _).trans (add_le_add ((abs_add_le _ _).trans (add_le_add (m h1) (m h2))) (m h3))) (m h4))) (m h5))) (m h6))
  linarith

theorem average_near {N : ℕ} (hN : 0 < N) {f : ℕ → ℝ} {L X : ℝ} (h : |∑ t ∈ Finset.range N, (f t - L)| ≤ X) :
    |(∑ t ∈ Finset.range N, f t) / N - L| ≤ X / N := by
  have hN' : (0 : ℝ) < N := by exact_mod_cast hN
  rw [sum_sub_distrib, sum_const, card_range, nsmul_eq_mul] at h
  rw [show (∑ t ∈ Finset.range N, f t) / N - L = ((∑ t ∈ Finset.range N, f t) - N * L) / N by field_simp, abs_div, abs_of_pos hN']
  gcongr

theorem average_WW {h : ℝ} (h0 : 0 < h) (h1 : h ≤ 1 / 5) {N : ℕ} (hN : 0 < N) (p q p' q' B : ℝ) :
    |(∑ t ∈ Finset.range N, W p q (t * h) * W p' q' (t * h + B)) / N - U (p * p' / 2) (q * q' / 2) B| ≤
      ((|-(p * p' / 2)| + |-(q * q' / 2)| + |p * q' / 2| + |-(p * q' / 2)| + |q * p' / 2| + |-(q * p' / 2)|) * (1 / sin h)) / N := by
  obtain ⟨s0, s2, s14, s6, s8⟩ := sin_le_all h0 h1
  refine average_near hN ?_
  simp only [WW, sum_add_distrib, ← mul_sum]
  exact six_terms (cos_sum_le s0 s2 N) (cos_sum_le s0 s14 N) (cos_sum_le s0 s6 N) (cos_sum_le s0 s8 N) (cos_sum_le s0 s6 N) (cos_sum_le s0 s8 N)

theorem average_WU {h : ℝ} (h0 : 0 < h) (h1 : h ≤ 1 / 5) {N : ℕ} (hN : 0 < N) (p q p' q' B : ℝ) :
    |(∑ t ∈ Finset.range N, W p q (t * h) * U p' q' (t * h + B)) / N - W (-(p * p' / 2)) (-(q * q' / 2)) B| ≤
      ((|p * p' / 2| + |q * q' / 2| + |-(p * q' / 2)| + |p * q' / 2| + |q * p' / 2| + |q * p' / 2|) * (1 / sin h)) / N := by
  obtain ⟨s0, s2, s14, s6, s8⟩ := sin_le_all h0 h1
  refine average_near hN ?_
  simp only [WU, sum_add_distrib, ← mul_sum]
  exact six_terms (sin_sum_le s0 s2 N) (sin_sum_le s0 s14 N) (sin_sum_le s0 s6 N) (sin_sum_le s0 s8 N) (sin_sum_le s0 s6 N) (sin_sum_le s0 s8 N)

/-- The acceleration. -/
noncomputable def accel (dt : ℝ) : LeftOp ℝ model.dimObs (Spec.nCorr model) := .array fun t _ => W (-1) (-49) (t * dt)

theorem residualAlong_eq (dt : ℝ) (n t : ℕ) (l : Fin model.dimObs) :
    Spec.residualAlong model "a" F (xva dt n false 1) t l = W 24 (-24) (t * dt) := by
  unfold Spec.residualAlong
  rw [data_a]
  have : ∑ p : Fin model.nForce, Spec.forceFeature model (xva dt n false 1) t p * F p l = -25 * W 1 1 (t * dt) := by
    refine (Fin.sum_univ_one (fun p : Fin model.nForce => Spec.forceFeature model (xva dt n false 1) t p * F p l)).trans ?_
    rw [feature_x]
    change W 1 1 (t * dt) * (-25) = _
    ring
  rw [this]
  simp only [W, Bool.false_eq_true, if_false]
  ring

/-- The averages along one trajectory tend to those over the phases. -/
theorem typical {dt : ℝ} (h0 : 0 < dt) (h1 : dt ≤ 1 / 5) {ε : ℝ} (hε : 0 < ε) : ∃ n0 : ℕ, ∀ n ≥ n0,
    Spec.Typical model "a" F (accel dt) (μ.dresidual F) μ.dcorr 1 50 dt ε (xva dt n false 1) := by
  obtain ⟨s0, -⟩ := sin_le_all h0 h1
  obtain ⟨Y, hY⟩ : ∃ Y, Y = 1800 * (1 / sin dt) := ⟨_, rfl⟩
  have hY0 : 0 < Y := by rw [hY]; positivity
  obtain ⟨n0, hn0⟩ := exists_nat_ge (Y / ε + 1 / dt + 1)
  refine ⟨n0 + 2, fun n hn => ⟨rfl, by change 2 ≤ n; omega, by simp [xva], fun t _ => ⟨fun i => ?_, fun l => ?_, fun q => ?_, fun p => ?_⟩, ?_⟩⟩
  · exact (W_le _ _ _).trans (by norm_num)
  · rw [residualAlong_eq]
    exact (W_le _ _ _).trans (by norm_num)
  · rw [feature_v]
    exact (U_le _ _ _).trans (by norm_num)
  · rw [feature_x]
    exact (W_le _ _ _).trans (by norm_num)
  · have hlen : ∀ m : ℕ, m < n → m * dt ≤ 1 → 0 < n - m ∧ Y / ((n - m : ℕ) : ℝ) ≤ ε := fun m hm hS => by
      refine ⟨by omega, ?_⟩
      have a1 : (m : ℝ) ≤ 1 / dt := (le_div_iff₀ h0).2 hS
      have a2 : (n0 : ℝ) + 2 ≤ n := by exact_mod_cast hn
      have a3 : Y / ε ≤ ((n - m : ℕ) : ℝ) := by rw [Nat.cast_sub hm.le]; linarith
      have a4 : (0 : ℝ) < ((n - m : ℕ) : ℝ) := lt_of_lt_of_le (by positivity) a3
      rw [div_le_iff₀ hε] at a3
      rw [div_le_iff₀ a4]
      linarith
    refine ⟨fun m hm hS i l => ?_, fun m hm hS j hj i a => ?_⟩
    · obtain ⟨b1, b2⟩ := hlen m hm hS
      have key := average_WW h0 h1 b1 (-1) (-49) 24 (-24) (m * dt)
      rw [dresidual_eq, show (-12 : ℝ) = -1 * 24 / 2 by norm_num, show (588 : ℝ) = -49 * -24 / 2 by norm_num]
      refine (le_of_eq ?_).trans (key.trans (le_trans ?_ b2))
      · congr 2
        unfold Spec.lagAverage
        congr 1
        refine sum_congr rfl fun t _ => ?_
        beta_reduce
        rw [residualAlong_eq, Nat.cast_add, add_mul]
        rfl
      · rw [hY]
        gcongr
        norm_num
    · obtain ⟨b1, b2⟩ := hlen m hm hS
      have key := average_WU h0 h1 b1 (-1) (-49) 1 7 (j * dt)
      refine (le_of_eq ?_).trans (key.trans (le_trans ?_ b2))
      · congr 2
        · unfold Spec.lagAverage
          congr 1
          refine sum_congr rfl fun t _ => ?_
          beta_reduce
          rw [feature_v, Nat.cast_add, add_mul]
          simp only [Bool.false_eq_true, if_false, mul_one]
          rfl
        · change W (1 / 2) (343 / 2) (j * dt) = _
          norm_num
      · rw [hY]
        gcongr
        norm_num

theorem near_mono {m : BasisModel ℝ} {L : String} {μ : Averages m.nForce (Spec.nCorr m) m.dimObs} {xvas : List (Xva ℝ)} {N : ℕ} {dt ε ε' : ℝ}
    (h : NearAverages m L μ xvas N dt ε) (he : ε ≤ ε') : NearAverages m L μ xvas N dt ε' where
  gram := fun i j => (h.gram i j).trans he
  proj := fun i j => (h.proj i j).trans he
  corr := fun n hn i j => (h.corr n hn i j).trans he
  obs := fun n hn i j => (h.obs n hn i j).trans he
  cross := fun n hn i j => (h.cross n hn i j).trans he
  dcorr := fun n hn i j => (h.dcorr n hn i j).trans he
  dobs := fun n hn i j => (h.dobs n hn i j).trans he
  dcross := fun n hn i j => (h.dcross n hn i j).trans he

/-- `⟨φ'(0) ξ(t)⟩ = ⟨φ φ⟩ k(t)`, found along one long trajectory with the model estimated from the four trajectories. -/
theorem fluctuation_found : ∃ C δ : ℝ, 0 < δ ∧ ∀ N extra : ℕ, 2 ≤ N → 1 / ((N - 1 : ℕ) : ℝ) ≤ δ → ∀ ε, 0 < ε → ε ≤ δ →
    ∃ s1 s2 s3, computeMeanForce env (state (1 / ((N - 1 : ℕ) : ℝ)) N extra) = (s1, none) ∧
      computeCorrs env "direct" false true none s1 = (s2, none) ∧
      computeKernelStep "second_kind_rect" (fun _ _ => none) s2 = (s3, none) ∧ ∃ n0, ∀ n ≥ n0,
      Spec.FindsCorr s3.model "a" "dim_x" 1 (1 / ((N - 1 : ℕ) : ℝ)) (C * (1 / ((N - 1 : ℕ) : ℝ) + ε)) (accel (1 / ((N - 1 : ℕ) : ℝ)))
        (fun t => μ.corr 0 * k t) (N - 1) (xva (1 / ((N - 1 : ℕ) : ℝ)) n false 1) := by
  have hd := lip_of (b := Spec.nCorr model) (x := Spec.nCorr model) (fun t => W_deriv (1 / 2) (343 / 2) t) (U_le _ _)
  have hkl := lip_of (b := Spec.nCorr model) (x := model.dimObs) kt_deriv kt1_le
  have hR : Spec.NoiseCorrelation 1 (μ.dresidual F) μ.dcorr k fun t => μ.corr 0 * k t := by
    have := C155_dissipation (T := 1) le_rfl secondKind hd hkl (1 : Mat ℝ (Spec.nCorr model) (Spec.nCorr model)) (ω := 0) (β := 0)
      ⟨0, fun s _ t _ i j => by simp⟩ (fun t _ i l => by simp)
    simpa using this
  obtain ⟨C, δ, hδ, H⟩ := C155_second_kind_rect (M := 50) (fun h => by cases h) le_rfl (by decide) gram_det force cross_le corr_det
    hd hkl secondKind (by decide) (by norm_num) hR hd hkl
  refine ⟨C, min δ (1 / 5), by positivity, fun N extra hN hδN ε hε hεδ => ?_⟩
  have hN0 : (0 : ℝ) < ((N - 1 : ℕ) : ℝ) := by exact_mod_cast (by omega : 0 < N - 1)
  have h1 : ((N - 1 : ℕ) : ℝ) * (1 / ((N - 1 : ℕ) : ℝ)) = 1 := by field_simp
  obtain ⟨n0, hn0⟩ := typical (by positivity : 0 < 1 / ((N - 1 : ℕ) : ℝ)) (hδN.trans (min_le_right _ _)) hε
  have key := fun n (hn : n ≥ n0) => H env "direct" false none "dim_x" (state (1 / ((N - 1 : ℕ) : ℝ)) N extra) (accel (1 / ((N - 1 : ℕ) : ℝ)))
    (xva (1 / ((N - 1 : ℕ) : ℝ)) n false 1) ε (setup _ extra (by omega)) (near_mono (near _ extra (by omega)) hε.le)
    (by change 0 < 1 / ((N - 1 : ℕ) : ℝ); positivity) (hδN.trans (min_le_left _ _)) hε.le (hεδ.trans (min_le_left _ _)) hN h1.le h1.ge (hn0 n hn)
  obtain ⟨s1, s2, s3, a1, a2, a3, -⟩ := key n0 le_rfl
  refine ⟨s1, s2, s3, a1, a2, a3, n0, fun n hn => ?_⟩
  obtain ⟨t1, t2, t3, b1, b2, b3, b4⟩ := key n hn
  obtain rfl : s1 = t1 := (Prod.ext_iff.1 (a1.symm.trans b1)).1
  obtain rfl : s2 = t2 := (Prod.ext_iff.1 (a2.symm.trans b2)).1
  obtain rfl : s3 = t3 := (Prod.ext_iff.1 (a3.symm.trans b3)).1
  exact b4

/-- `⟨φ'(0) ξ(t)⟩ = ⟨φ φ⟩ k(t)`, on `[0, 1/2]`. -/
theorem dissipation_half : Spec.NoiseCorrelation (1 / 2) (μ.dresidual F) μ.dcorr k fun t => μ.corr 0 * k t := by
  have := C155_dissipation (S := 1 / 2) (by norm_num) secondKind (lip_half (lip_of (fun t => W_deriv (1 / 2) (343 / 2) t) (U_le _ _)))
    (lip_half (lip_of kt_deriv kt1_le)) (1 : Mat ℝ (Spec.nCorr model) (Spec.nCorr model)) (ω := 0) (β := 0)
    ⟨0, fun s _ t _ i j => by simp⟩ (fun t _ i l => by simp)
  simpa using this

example := C155_second_kind_trapz (M := 50) (fun h => by cases h) le_rfl (by decide) gram_det force cross_le corr_det
    (deriv_of (f' := U (1 / 2) (2401 / 2)) fun t => (W_deriv (1 / 2) (343 / 2) t).congr_deriv (by norm_num))
    (lip_of (U_deriv _ _) (W_le _ _)) (deriv_of kt_deriv) (lip_of kt1_deriv kt2_le) secondKind (by decide)
    (by norm_num) dissipation_half
    (deriv_half (deriv_of (f' := U (1 / 2) (2401 / 2)) fun t => (W_deriv (1 / 2) (343 / 2) t).congr_deriv (by norm_num)))
    (lip_half (lip_of (U_deriv _ _) (W_le _ _))) (deriv_half (deriv_of kt_deriv)) (lip_half (lip_of kt1_deriv kt2_le))

example := C155_rect (M := 50) (fun h => by cases h) le_rfl (by decide) gram_det force cross_le corr_det
    (deriv_of (U_deriv _ _)) (lip_of (W_deriv _ _) (U_le _ _)) (lip_of kt_deriv kt1_le) firstKind
    (by norm_num) dissipation_half (lip_half (lip_of (fun t => W_deriv (1 / 2) (343 / 2) t) (U_le _ _)))
    (lip_half (lip_of kt_deriv kt1_le))

example := C155_trapz (M := 50) (fun h => by cases h) le_rfl (by decide) gram_det force cross_le corr_det
    (deriv_of (U_deriv _ _)) (deriv_of (W_deriv _ _)) (deriv_of (U_deriv _ _)) (lip_of (W_deriv _ _) (U_le _ _))
    (deriv_of kt_deriv) (deriv_of kt1_deriv) (lip_of kt2_deriv kt3_le) firstKind initial (by decide)
    (by norm_num) dissipation_half
    (deriv_half (deriv_of (f' := U (1 / 2) (2401 / 2)) fun t => (W_deriv (1 / 2) (343 / 2) t).congr_deriv (by norm_num)))
    (lip_half (lip_of (U_deriv _ _) (W_le _ _))) (deriv_half (deriv_of kt_deriv)) (lip_half (lip_of kt1_deriv kt2_le))

/-- `⟨φ(0) ξ(t)⟩ = 0`. -/
example : Spec.NoiseCorrelation 1 (μ.residual F) μ.corr k 0 := C155_orthogonal le_rfl firstKind

/-- `⟨x(0) ξ(t)⟩ = 0`: the derivative of `x` is the velocity. -/
example : Spec.NoiseCorrelation (o := Spec.nCorr model) 1 (fun t => cm _ model.dimObs (U 12 (-12) t))
    (fun t => cm _ (Spec.nCorr model) (W (-(1 / 2)) (-(7 / 2)) t)) k 0 := by
  refine C155_force_orthogonal (T := 1) le_rfl firstKind (lip_of (U_deriv _ _) (W_le _ _)) ?_ (lip_of kt_deriv kt1_le)
    (-1 : Mat ℝ (Spec.nCorr model) (Spec.nCorr model)) ?_ ?_ ?_ ?_
  · have := lip_of (b := Spec.nCorr model) (x := model.dimObs) (fun t => W_deriv 12 (-84) t) (U_le _ _)
    exact (show μ.residual F = fun t => cm _ _ (W 12 (-84) t) from funext fun t => by ext i j; exact residual_eq t i j) ▸ this
  · refine fun t _ i j => (((U_deriv 12 (-12) t).congr_deriv ?_).hasDerivWithinAt)
    refine Eq.trans ?_ (congrFun (congrFun (show (-1 : Mat ℝ (Spec.nCorr model) (Spec.nCorr model)) * μ.residual F t = -μ.residual F t by rw [Matrix.neg_mul, Matrix.one_mul]) i) j).symm
    change _ = -μ.residual F t i j
    rw [residual_eq]
    simp only [W]
    ring
  · refine fun t _ i j => (((W_deriv (-(1 / 2)) (-(7 / 2)) t).congr_deriv ?_).hasDerivWithinAt)
    refine Eq.trans ?_ (congrFun (congrFun (show -1 * μ.corr t = -μ.corr t by rw [neg_one_mul]) i) j).symm
    change _ = -U (1 / 2) (49 / 2) t
    simp only [U]
    ring
  · ext i j
    simp [cm, U]
  · ext i j
    simp [cm, W]

end TwoOscillators

end Verif
