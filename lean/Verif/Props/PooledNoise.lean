import Verif.Props.Fluctuation
import Verif.Props.EvalMore2

/-!
# `compute_projected_corrs` of an estimated model (C166)
-/

namespace Verif

open Finset Set
open Spec (Averages NearAverages Estimates)

set_option linter.unusedSectionVars false

section
variable {α : Type*}

/-- The mean over the elements of a list with weights, as a function of what is averaged. -/
noncomputable def poolMean (l : List α) (w : α → ℕ) (f : α → ℝ) : ℝ := Spec.weightedMean (l.map fun e => (w e, f e))

theorem poolMean_eq (l : List α) (w : α → ℕ) (f : α → ℝ) :
    poolMean l w f = (l.map fun e => (w e : ℝ) * f e).sum / ((l.map w).sum : ℕ) := by
  simp only [poolMean, Spec.weightedMean, List.map_map, Function.comp_def]

theorem poolMean_add (l : List α) (w : α → ℕ) (f g : α → ℝ) : poolMean l w (fun e => f e + g e) = poolMean l w f + poolMean l w g := by
  simp only [poolMean_eq, mul_add, List.sum_map_add, add_div]

theorem poolMean_sub (l : List α) (w : α → ℕ) (f g : α → ℝ) : poolMean l w (fun e => f e - g e) = poolMean l w f - poolMean l w g := by
  rw [eq_sub_iff_add_eq, ← poolMean_add]
  simp only [sub_add_cancel]

theorem poolMean_mul (l : List α) (w : α → ℕ) (c : ℝ) (f : α → ℝ) : poolMean l w (fun e => c * f e) = c * poolMean l w f := by
  have : ∀ e, (w e : ℝ) * (c * f e) = c * ((w e : ℝ) * f e) := fun e => by ring
  simp only [poolMean_eq, this, List.sum_map_mul_left, mul_div_assoc]

theorem poolMean_zero (l : List α) (w : α → ℕ) : poolMean l w (fun _ => 0) = 0 := by
  simp only [poolMean_eq, mul_zero, List.map_const', List.sum_replicate, smul_zero, zero_div]

theorem poolMean_sum {ι : Type*} (l : List α) (w : α → ℕ) (s : Finset ι) (f : ι → α → ℝ) :
    poolMean l w (fun e => ∑ j ∈ s, f j e) = ∑ j ∈ s, poolMean l w (f j) := by
  classical
  induction s using Finset.induction_on with
  | empty => simp only [sum_empty, poolMean_zero]
  | insert a s ha ih =>
    simp only [sum_insert ha]
    rw [poolMean_add, ih]

theorem poolMean_congr {l : List α} {w : α → ℕ} {f g : α → ℝ} (h : ∀ e ∈ l, f e = g e) : poolMean l w f = poolMean l w g := by
  unfold poolMean
  congr 1
  exact List.map_congr_left fun e he => by rw [h e he]

theorem poolMean_le {l : List α} {w : α → ℕ} {f : α → ℝ} {B : ℝ} (hB : 0 ≤ B) (h : ∀ e ∈ l, |f e| ≤ B) : |poolMean l w f| ≤ B := by
  rw [poolMean_eq]
  have key : |(l.map fun e => (w e : ℝ) * f e).sum| ≤ ((l.map w).sum : ℕ) * B := by
    induction l with
    | nil => simp
    | cons a l ih =>
      simp only [List.map_cons, List.sum_cons, Nat.cast_add, add_mul]
      refine (abs_add_le _ _).trans (add_le_add ?_ (ih fun e he => h e (List.mem_cons_of_mem _ he)))
      rw [abs_mul, Nat.abs_cast]
      exact mul_le_mul_of_nonneg_left (h a List.mem_cons_self) (Nat.cast_nonneg _)
  rw [abs_div, Nat.abs_cast]
  rcases Nat.eq_zero_or_pos (l.map w).sum with h0 | h0
  · rw [h0, Nat.cast_zero, div_zero]
    exact hB
  · rw [div_le_iff₀ (by exact_mod_cast h0), mul_comm]
    exact key

theorem poolMean_near {l : List α} {w : α → ℕ} {f g : α → ℝ} {B : ℝ} (hB : 0 ≤ B) (h : ∀ e ∈ l, |f e - g e| ≤ B) :
    |poolMean l w f - poolMean l w g| ≤ B := by
  rw [← poolMean_sub]
  exact poolMean_le hB h

end

section
variable {α : Type*} {b x o : ℕ}

/-- Averages over trajectories of a noise with memory. -/
theorem pooled_core {data : List α} {len : α → ℕ} {n : ℕ} {ψ' ψ : α → ℕ → Fin o → ℝ} {q' q : α → ℕ → Fin x → ℝ} {E : α → ℕ → Fin b → ℝ}
    {K κ : ℕ → Mat ℝ b x} {p : ℕ → Mat ℝ o b} {w : ℕ → ℝ} {W : ℝ} {i : Fin o} {l : Fin x} {M MB MP S ε : ℝ}
    (hn : ∀ e ∈ data, n < len e) (hM : 0 ≤ M) (hMB : 0 ≤ MB) (hMP : 0 ≤ MP) (hS0 : 0 ≤ S) (hε : 0 ≤ ε) (hε1 : ε ≤ 1)
    (h1 : ∀ e ∈ data, ∀ t < len e, |ψ e t i| ≤ M) (h2 : ∀ e ∈ data, ∀ t < len e, |ψ' e t i - ψ e t i| ≤ ε)
    (h3 : ∀ e ∈ data, ∀ t < len e, |q e t l| ≤ M) (h4 : ∀ e ∈ data, ∀ t < len e, |q' e t l - q e t l| ≤ ε)
    (h5 : ∀ e ∈ data, ∀ t < len e, ∀ a, |E e t a| ≤ M)
    (h6 : ∀ j ≤ n, ∀ a, |κ j a l| ≤ MB) (h7 : ∀ j ≤ n, ∀ a, |K j a l - κ j a l| ≤ ε) (h8 : ∀ j ≤ n, ∀ a, |p j i a| ≤ MP)
    (hw : ∀ j, 0 ≤ w j) (hS : ∑ j ∈ range (n + 1), w j ≤ S)
    (hW : |poolMean data len (fun e => Spec.lagAverage (len e) n (ψ e) (fun t => q e (t + n)) i l) - W| ≤ ε)
    (hP : ∀ j ≤ n, ∀ a, |poolMean data len (fun e => Spec.lagAverage (len e) n (ψ e) (fun t => E e (t + j)) i a) - p j i a| ≤ ε) :
    |poolMean data len (fun e => Spec.lagAverage (len e) n (ψ' e) (fun t l => q' e (t + n) l +
        ∑ j ∈ range (n + 1), w j * ∑ a, E e (t + n - j) a * K j a l) i l) -
      (W + ∑ j ∈ range (n + 1), w j * (p (n - j) * κ j) i l)| ≤
      ((M + 1) + (M + S * (b * (M * (MB + 1)))) + 1 + S * (b * (MB + 1) + b * MP)) * ε := by
  have hK : ∀ j ≤ n, ∀ a, |K j a l| ≤ MB + 1 := fun j hj a => (abs_le_of_near (h6 j hj a) (h7 j hj a)).trans (by linarith)
  have a1 := poolMean_near (w := len) (l := data) (B := (M + 1) * ε + ε * (M + S * (b * (M * (MB + 1))))) (by positivity) fun e he =>
    lagAverage_near (left := ψ' e) (left' := ψ e) (len := len e) (n := n) (k := i) (l := l)
      (q := fun t l => q' e (t + n) l + ∑ j ∈ range (n + 1), w j * ∑ a, E e (t + n - j) a * K j a l)
      (q' := fun t l => q e (t + n) l + ∑ j ∈ range (n + 1), w j * ∑ a, E e (t + n - j) a * K j a l)
      (R := M + S * (b * (M * (MB + 1)))) (B := ε) hM hε hε1 (fun t ht => h1 e he t (by omega)) (fun t ht => h2 e he t (by omega))
      (fun t ht => (abs_add_le _ _).trans (add_le_add (h3 e he _ ht) (abs_weighted_le (by positivity) hw hS fun j hj =>
        abs_dot_le hM (fun a => h5 e he _ (by omega) a) (hK j hj))))
      (fun t ht => by rw [add_sub_add_right_eq_sub]; exact h4 e he _ ht) (hn e he)
  have e0 : poolMean data len (fun e => Spec.lagAverage (len e) n (ψ e) (fun t l => q e (t + n) l +
      ∑ j ∈ range (n + 1), w j * ∑ a, E e (t + n - j) a * K j a l) i l) =
      poolMean data len (fun e => Spec.lagAverage (len e) n (ψ e) (fun t => q e (t + n)) i l) + ∑ j ∈ range (n + 1), w j * ∑ a,
        poolMean data len (fun e => Spec.lagAverage (len e) n (ψ e) (fun t => E e (t + (n - j))) i a) * K j a l := by
    simp only [lagAverage_memory]
    rw [poolMean_add, poolMean_sum]
    congr 1
    refine sum_congr rfl fun j _ => ?_
    rw [poolMean_mul, poolMean_sum]
    congr 1
    refine sum_congr rfl fun a _ => ?_
    rw [mul_comm, ← poolMean_mul]
    simp only [mul_comm]
  rw [e0] at a1
  have a2 : |∑ j ∈ range (n + 1), w j * ∑ a, poolMean data len (fun e => Spec.lagAverage (len e) n (ψ e) (fun t => E e (t + (n - j))) i a) *
      K j a l - ∑ j ∈ range (n + 1), w j * (p (n - j) * κ j) i l| ≤ S * ((b * (MB + 1) + b * MP) * ε) := by
    rw [← sum_sub_distrib]
    simp only [← mul_sub]
    refine abs_weighted_le (by positivity) hw hS fun j hj => ?_
    rw [Matrix.mul_apply, ← sum_sub_distrib]
    have e : ∀ A P' K κ : ℝ, A * K - P' * κ = (A - P') * K + P' * (K - κ) := fun _ _ _ _ => by ring
    simp only [e, sum_add_distrib]
    refine (abs_add_le _ _).trans ((add_le_add (abs_dot_le hε (hP (n - j) (by omega)) (hK j hj))
      (abs_dot_le hMP (h8 (n - j) (by omega)) (h7 j hj))).trans (le_of_eq (by ring)))
  have e : ∀ A B C D Z : ℝ, A - (C + D) = (A - (B + Z)) + (B - C) + (Z - D) := fun _ _ _ _ _ => by ring
  rw [e _ (poolMean data len (fun e => Spec.lagAverage (len e) n (ψ e) (fun t => q e (t + n)) i l)) _ _
    (∑ j ∈ range (n + 1), w j * ∑ a, poolMean data len (fun e => Spec.lagAverage (len e) n (ψ e) (fun t => E e (t + (n - j))) i a) * K j a l)]
  refine (abs_add_le _ _).trans ((add_le_add ((abs_add_le _ _).trans (add_le_add a1 hW)) a2).trans (le_of_eq (by ring)))

end

/-- Trajectories with the step `dt`, bounded by `M`, each with a left observable. The averages of the left observable with `obs - F f` and
with the functions of the memory, over all the trajectories with their numbers of frames as weights, are within `ε` of `W` and `P`; over the
starting times that leave room for the lag `n`. -/
structure Spec.TypicalPool (m : BasisModel ℝ) (L : String) (F : Mat ℝ m.nForce m.dimObs) {o : ℕ}
    (W : ℝ → Mat ℝ o m.dimObs) (P : ℝ → Mat ℝ o (Spec.nCorr m)) (S M dt ε : ℝ) (data : List (Xva ℝ × LeftOp ℝ m.dimObs o)) : Prop where
  some : data ≠ []
  dimx : ∀ e ∈ data, e.1.dimx = m.dimx
  two : ∀ e ∈ data, 2 ≤ e.1.n
  step : ∀ e ∈ data, e.1.time 1 - e.1.time 0 = dt
  bound : ∀ e ∈ data, ∀ t < e.1.n, (∀ i, |e.2.values (Spec.residualAlong m L F e.1) t i| ≤ M) ∧
    (∀ l, |Spec.residualAlong m L F e.1 t l| ≤ M) ∧ (∀ q : Fin (Spec.nCorr m), |Spec.corrFeature m e.1 t q| ≤ M) ∧
    ∀ p : Fin m.nForce, |Spec.forceFeature m e.1 t p| ≤ M
  noise : ∀ n, (∀ e ∈ data, n < e.1.n) → n * dt ≤ S → ∀ i l,
    |Spec.weightedMean (data.map fun e => (e.1.n, Spec.lagAverage e.1.n n (e.2.values (Spec.residualAlong m L F e.1))
      (fun t => Spec.residualAlong m L F e.1 (t + n)) i l)) - W (n * dt) i l| ≤ ε
  funs : ∀ n, (∀ e ∈ data, n < e.1.n) → n * dt ≤ S → ∀ j ≤ n, ∀ i a,
    |Spec.weightedMean (data.map fun e => (e.1.n, Spec.lagAverage e.1.n n (e.2.values (Spec.residualAlong m L F e.1))
      (fun t (q : Fin (Spec.nCorr m)) => Spec.corrFeature m e.1 (t + j) q) i a)) - P (j * dt) i a| ≤ ε

/-- `compute_projected_corrs` with the model `s` is within `B` of `R`, on `[0, S]`, at the lags the trajectories have. -/
def Spec.FindsPool (s : ModelState ℝ) (L d : String) (S dt B : ℝ) {x o : ℕ} (R : ℝ → Mat ℝ o x) (N : ℕ)
    (data : List (Xva ℝ × LeftOp ℝ x o)) : Prop :=
  ∃ r, projectedCorrs (noiseModelOf s x) (data.map fun e => (xvaTraj s.bm L d x e.1, e.2)) = .ok r ∧ N ≤ r.2.len ∧ r.1.len = r.2.len ∧
    (∀ n < N, r.1.get n = n * dt) ∧
    ∀ n < r.2.len, (∀ e ∈ data, n < e.1.n) → n * dt ≤ S → ∀ i l, |r.2.get n i l - R (n * dt) i l| ≤ B

/-- One of the two rules: weights, and the correlations with the noise in terms of them. -/
structure PoolRule (Q : Option String → Prop) (w : ℝ → ℕ → ℕ → ℝ) : Prop where
  known : ∀ s, Q s → isRectMethod s ∨ isTrapzMethod s
  nonneg : ∀ h, 0 ≤ h → ∀ n j, 0 ≤ w h n j
  total : ∀ h n, ∑ j ∈ range (n + 1), w h n j = n * h
  get : ∀ {bf b x o : ℕ} {m : NoiseModel ℝ bf b x} {xva : Traj ℝ bf b x} {left : LeftOp ℝ x o} {r : Arr ℝ × Arr (Mat ℝ o x)}
    {c : Mat ℝ bf x} {k : KernelData ℝ b x}, Q m.method → m.forceCoeff = some c → m.kernel = some k →
    computeCorrsWNoise m xva left = .ok r → ∀ n, n < r.2.len → n < xva.len → ∀ i l, r.2.get n i l =
      Spec.lagAverage xva.len n (left.values (Spec.instantNoise xva.obs xva.Eforce c)) (fun t l =>
        Spec.instantNoise xva.obs xva.Eforce c (t + n) l +
          ∑ j ∈ range (n + 1), w (xva.time 1 - xva.time 0) n j * ∑ a, xva.E (t + n - j) a * k.kernel.get j a l) i l

theorem poolRule_rect : PoolRule isRectMethod rectW where
  known := fun _ h => .inl h
  nonneg := fun _ h => rectW_nonneg h
  total := rectW_total
  get := fun hm hc hk hr n hn hnl i l => by
    rw [(C20_rect hm hc hk hr).2.2 n hn hnl i l]
    congr 1
    funext t l
    rw [Pi.add_apply, ← rectW_sum, Finset.sum_apply]
    rfl

theorem poolRule_trapz : PoolRule isTrapzMethod trapzW where
  known := fun _ h => .inr h
  nonneg := fun _ h => trapzW_nonneg h
  total := trapzW_total
  get := fun hm hc hk hr n hn hnl i l => by
    rw [(C20_trapz hm hc hk hr).2.2 n hn hnl i l]
    congr 1
    funext t l
    rw [Pi.add_apply, ← trapzW_sum, Finset.sum_apply]
    rfl

section
variable {m : BasisModel ℝ} {F : Mat ℝ m.nForce m.dimObs} {k k' : ℝ → Mat ℝ (Spec.nCorr m) m.dimObs} {S M : ℝ} {o : ℕ}
  {W R : ℝ → Mat ℝ o m.dimObs} {P P' : ℝ → Mat ℝ o (Spec.nCorr m)}

/-- The integral of the memory by one of the two rules. -/
def Consistent (S : ℝ) (P : ℝ → Mat ℝ o (Spec.nCorr m)) (k : ℝ → Mat ℝ (Spec.nCorr m) m.dimObs) (w : ℝ → ℕ → ℕ → ℝ) (p : ℕ) : Prop :=
  ∃ Q : ℝ, 0 ≤ Q ∧ ∀ (h : ℝ) (n : ℕ), 0 ≤ h → n * h ≤ S → ∀ i l,
    |∑ j ∈ range (n + 1), w h n j * (P ((n - j : ℕ) * h) * k (j * h)) i l - ∫ s in (0 : ℝ)..n * h, (P (n * h - s) * k s) i l| ≤ Q * h ^ p

section
open scoped Matrix.Norms.Operator

theorem consistent_rect (hP : Spec.Lip S P) (hk : Spec.Lip S k) : Consistent S P k rectW 1 := by
  obtain ⟨Q, hQ0, hQ⟩ := rect_consistent hP hk
  refine ⟨Q, hQ0, fun h n hh hn i l => ?_⟩
  have := rectW_sum h n fun j => P ((n - j : ℕ) * h) * k (j * h)
  rw [pow_one]
  refine le_of_eq_of_le (congrArg (fun z => |z - _|) ?_) (hQ h n hh hn i l)
  rw [Spec.rectRule] at this
  rw [← this, Matrix.sum_apply]
  rfl

theorem consistent_trapz (hP : Spec.DerivOn S P P') (hP' : Spec.Lip S P') (hk : Spec.DerivOn S k k') (hk' : Spec.Lip S k') :
    Consistent S P k trapzW 2 := by
  obtain ⟨Q, hQ0, hQ⟩ := trapz_consistent hP hP' hk hk'
  refine ⟨Q, hQ0, fun h n hh hn i l => ?_⟩
  have := trapzW_sum h n fun j => P ((n - j : ℕ) * h) * k (j * h)
  refine le_of_eq_of_le (congrArg (fun z => |z - _|) ?_) (hQ h n hh hn i l)
  rw [← this, Matrix.sum_apply]
  rfl

/-- What `compute_projected_corrs` gives with a model whose force and kernel are known up to `η`. -/
def PoolNear (m : BasisModel ℝ) (F : Mat ℝ m.nForce m.dimObs) (k : ℝ → Mat ℝ (Spec.nCorr m) m.dimObs) (S M : ℝ) {o : ℕ}
    (W R : ℝ → Mat ℝ o m.dimObs) (P : ℝ → Mat ℝ o (Spec.nCorr m)) (Q : Option String → Prop) (p : ℕ) : Prop :=
  ∃ C : ℝ, 0 ≤ C ∧ ∀ (s : ModelState ℝ) (c : LArr ℝ) (d L : String) (N : ℕ) (data : List (Xva ℝ × LeftOp ℝ m.dimObs o)) (ε η : ℝ),
    s.bm = m → HasForce s c d → Estimates m F k N s.dt η η s → Q s.method → 0 < s.dt → 0 ≤ ε → 0 ≤ η →
    2 ≤ N → S ≤ (N - 1 : ℕ) * s.dt → Spec.TypicalPool m L F W P S M s.dt ε data → (m.basis.nOut * M + 1) * η + ε ≤ 1 →
    Spec.FindsPool s L d S s.dt (C * (s.dt ^ p + (η + ε))) R (N - 1) data

/-- `compute_projected_corrs` with a model whose force and kernel are known up to `η`. -/
theorem pool_near {Q : Option String → Prop} {w : ℝ → ℕ → ℕ → ℝ} {p : ℕ} (hrule : PoolRule Q w) (hw : m.WF)
    (hfr : m.cls ≠ .withFriction) (hM0 : 0 ≤ M) (hR : Spec.NoiseCorrelation S W P k R) (hP : Spec.Lip S P) (hk : Spec.Lip S k)
    (hcons : Consistent S P k w p) :
    PoolNear m F k S M W R P Q p := by
  obtain ⟨Q0, hQ0, hQ⟩ := hcons
  obtain ⟨MP, hMP0, hMP⟩ := lip_bound hP
  obtain ⟨MB, hMB0, hMB⟩ := lip_bound hk
  obtain ⟨Z, hZ⟩ : ∃ Z : ℝ, Z = (M + 1) + (M + |S| * (Spec.nCorr m * (M * (MB + 1)))) + 1 +
    |S| * (Spec.nCorr m * (MB + 1) + Spec.nCorr m * MP) := ⟨_, rfl⟩
  have hZ0 : 0 ≤ Z := by rw [hZ]; positivity
  refine ⟨(Q0 + Z) * (m.basis.nOut * M + 1), by positivity, ?_⟩
  intro s c d L N data ε η hbm hc hest hm hdt hε hη hN hcov hx h1
  subst hbm
  obtain ⟨r, r1, r2, r3, r4⟩ := hest.kernel
  have hkr : (noiseModelOf s s.bm.dimObs).kernel = some r := by simp [noiseModelOf, r1]
  obtain ⟨c', hc'⟩ : ∃ c', (noiseModelOf s s.bm.dimObs).forceCoeff = some c' :=
    ⟨_, by simp only [noiseModelOf, hc.force, Option.map_some]; rfl⟩
  -- one trajectory
  have each : ∀ e ∈ data, Spec.NearProcess (-1) M s.dt ((s.bm.basis.nOut * M + 1) * η + 0) k W P (noiseModelOf s s.bm.dimObs) r
      (xvaTraj s.bm L d s.bm.dimObs e.1) e.2 c' (e.2.values (Spec.residualAlong s.bm L F e.1)) (Spec.residualAlong s.bm L F e.1) := by
    intro e he
    have hneg : ∀ n : ℕ, ¬ (n : ℝ) * s.dt ≤ -1 := fun n h => by
      have : 0 ≤ (n : ℝ) * s.dt := by positivity
      linarith
    obtain ⟨r', c'', g1, g2, -, g4⟩ := process_data hw hfr (W := W) (P := P) (S := -1) hM0 hc hest hη le_rfl hdt
      (⟨hx.dimx e he, hx.two e he, hx.step e he, hx.bound e he, ⟨fun n _ h => absurd h (hneg n), fun n _ h => absurd h (hneg n)⟩⟩ :
        Spec.Typical s.bm L F e.2 W P (-1) M s.dt 0 e.1) hN (by
        have : 0 ≤ ((N - 1 : ℕ) : ℝ) * s.dt := by positivity
        linarith)
    obtain rfl : c' = c'' := Option.some.inj (hc'.symm.trans g1)
    obtain rfl : r = r' := Option.some.inj (hkr.symm.trans g2)
    exact g4
  have hok : ∀ t ∈ data.map fun e => (xvaTraj s.bm L d s.bm.dimObs e.1, e.2), ∃ z,
      computeCorrsWNoise (noiseModelOf s s.bm.dimObs) t.1 t.2 = .ok z := by
    intro t ht
    obtain ⟨e, he, rfl⟩ := List.mem_map.1 ht
    exact computeCorrsWNoise_succeeds hc' hkr (xva := xvaTraj s.bm L d s.bm.dimObs e.1) (hx.two e he) e.2 (hrule.known _ hm)
  classical
  obtain ⟨Fz, hFz⟩ : ∃ Fz : Traj ℝ s.bm.nForce (Spec.nCorr s.bm) s.bm.dimObs × LeftOp ℝ s.bm.dimObs o → Arr ℝ × Arr (Mat ℝ o s.bm.dimObs),
      ∀ t ∈ data.map fun e => (xvaTraj s.bm L d s.bm.dimObs e.1, e.2),
        computeCorrsWNoise (noiseModelOf s s.bm.dimObs) t.1 t.2 = .ok (Fz t) := by
    have : Nonempty (Arr ℝ × Arr (Mat ℝ o s.bm.dimObs)) := ⟨⟨⟨0, fun _ => 0⟩, ⟨0, fun _ => 0⟩⟩⟩
    choose! Fz hFz using hok
    exact ⟨Fz, hFz⟩
  obtain ⟨z, z1, z2, z3, z4, z5⟩ := C116_projected_corrs hkr (by simpa using hx.some) hFz
  refine ⟨z, z1, ?_, ?_, ?_, ?_⟩
  · rw [z4]
    split_ifs <;> omega
  · rw [z2, z4, r3]
  · intro n hn
    rw [z3, (r4 n (by omega)).1]
  · intro n hn hnx hnS i l
    have hlen : ∀ e ∈ data, n < (Fz (xvaTraj s.bm L d s.bm.dimObs e.1, e.2)).2.len := by
      intro e he
      have hz := hFz _ (List.mem_map_of_mem he)
      rcases hrule.known _ hm with h | h
      · rw [(C20_rect h hc' hkr hz).2.1]
        rw [z4] at hn
        omega
      · rw [z4] at hn
        have := (C20_trapz h hc' hkr hz).2.1
        rw [if_neg (show ¬ isRectMethod (noiseModelOf s s.bm.dimObs).method from not_rect_of_trapz h)] at hn
        omega
    have hnk : n < r.kernel.len := by
      rw [z4] at hn
      omega
    have hj : ∀ j ≤ n, (j : ℝ) * s.dt ∈ Icc 0 S := fun j hj => ⟨by positivity, le_trans (by gcongr) hnS⟩
    have e1 : z.2.get n i l = poolMean data (fun e => e.1.n) fun e => Spec.lagAverage e.1.n n
        (e.2.values (Spec.instantNoise (xvaTraj s.bm L d s.bm.dimObs e.1).obs (xvaTraj s.bm L d s.bm.dimObs e.1).Eforce c'))
        (fun t l => Spec.instantNoise (xvaTraj s.bm L d s.bm.dimObs e.1).obs (xvaTraj s.bm L d s.bm.dimObs e.1).Eforce c' (t + n) l +
          ∑ j ∈ range (n + 1), w s.dt n j * ∑ a, (xvaTraj s.bm L d s.bm.dimObs e.1).E (t + n - j) a * r.kernel.get j a l) i l := by
      rw [z5, List.map_map]
      refine poolMean_congr (w := fun e : Xva ℝ × LeftOp ℝ s.bm.dimObs o => e.1.n) fun e he => ?_
      rw [hrule.get hm hc' hkr (hFz _ (List.mem_map_of_mem he)) n (hlen e he) (hnx e he) i l, (each e he).step]
      rfl
    have hE : ∀ e ∈ data, ∀ t < e.1.n, ∀ a, (xvaTraj s.bm L d s.bm.dimObs e.1).E t a = Spec.corrFeature s.bm e.1 t a := fun e he t ht a =>
      (xvaTraj_features hw (hx.dimx e he) L d s.bm.dimObs).2 t ht a
    obtain ⟨g, hg⟩ : ∃ g : ℝ, g = (s.bm.basis.nOut * M + 1) * η + ε := ⟨_, rfl⟩
    have hg0 : 0 ≤ g := by rw [hg]; positivity
    have hgη : (s.bm.basis.nOut * M + 1) * η + 0 ≤ g := by rw [hg]; linarith
    have hgε : ε ≤ g := by
      rw [hg]
      have : 0 ≤ (s.bm.basis.nOut * M + 1) * η := by positivity
      linarith
    have hgk : η ≤ g := by
      have : 0 ≤ s.bm.basis.nOut * M * η := by positivity
      rw [hg]
      linarith
    have core := pooled_core (data := data) (len := fun e => e.1.n) (p := fun j => P (j * s.dt)) (κ := fun j => k (j * s.dt))
      (w := w s.dt n) (K := r.kernel.get) (W := W (n * s.dt) i l) (i := i) (l := l) (MP := MP) (MB := MB) (S := |S|)
      (ψ' := fun e => e.2.values (Spec.instantNoise (xvaTraj s.bm L d s.bm.dimObs e.1).obs (xvaTraj s.bm L d s.bm.dimObs e.1).Eforce c'))
      (ψ := fun e => e.2.values (Spec.residualAlong s.bm L F e.1))
      (q' := fun e => Spec.instantNoise (xvaTraj s.bm L d s.bm.dimObs e.1).obs (xvaTraj s.bm L d s.bm.dimObs e.1).Eforce c')
      (q := fun e => Spec.residualAlong s.bm L F e.1) (E := fun e => (xvaTraj s.bm L d s.bm.dimObs e.1).E)
      hnx hM0 hMB0 hMP0 (abs_nonneg S) hg0 (hg ▸ h1)
      (fun e he t ht => (hx.bound e he t ht).1 i) (fun e he t ht => ((each e he).left t ht i).trans hgη)
      (fun e he t ht => (hx.bound e he t ht).2.1 l) (fun e he t ht => ((each e he).force t ht l).trans hgη)
      (fun e he t ht a => by rw [hE e he t ht]; exact (hx.bound e he t ht).2.2.1 a)
      (fun j hj' a => (entry_le_norm _ a l).trans (hMB _ (hj j hj')))
      (fun j hj' a => by
        have h2 : (j : ℝ) ≤ (N - 1 : ℕ) := le_of_mul_le_mul_right ((hj j hj').2.trans hcov) hdt
        have h3 : j ≤ N - 1 := by exact_mod_cast h2
        exact ((r4 j (by omega)).2 a l).trans hgk)
      (fun j hj' a => (entry_le_norm _ i a).trans (hMP _ (hj j hj'))) (hrule.nonneg _ hdt.le n)
      (by rw [hrule.total]; exact hnS.trans (le_abs_self S)) ((hx.noise n hnx hnS i l).trans hgε)
      (fun j hj' a => by
        refine (le_of_eq ?_).trans ((hx.funs n hnx hnS j hj' i a).trans hgε)
        congr 2
        refine poolMean_congr fun e he => ?_
        unfold Spec.lagAverage
        congr 1
        refine sum_congr rfl fun t ht => ?_
        have h4 := Finset.mem_range.1 ht
        have h5 := hnx e he
        exact congrArg (_ * ·) (hE e he (t + j) (by omega) a))
    rw [← hZ] at core
    have q1 := hQ s.dt n hdt.le hnS i l
    rw [e1, hR _ ⟨by positivity, hnS⟩ i l]
    have e3 : ∀ A B C D : ℝ, A - (B + C) = (A - (B + D)) + (D - C) := fun _ _ _ _ => by ring
    rw [e3 _ _ _ (∑ j ∈ range (n + 1), w s.dt n j * (P ((n - j : ℕ) * s.dt) * k (j * s.dt)) i l)]
    refine (abs_add_le _ _).trans ((add_le_add core q1).trans ?_)
    have hp0 : 0 ≤ s.dt ^ p := by positivity
    calc Z * g + Q0 * s.dt ^ p ≤ (Q0 + Z) * (s.dt ^ p + ((s.bm.basis.nOut * M + 1) * η + ε)) := by
          rw [← hg]
          nlinarith [mul_nonneg hZ0 hp0, mul_nonneg hQ0 hg0]
      _ ≤ _ := corr_bound (by positivity) hp0 hη hε (by positivity)

theorem pool_near_rect (hw : m.WF) (hfr : m.cls ≠ .withFriction) (hM0 : 0 ≤ M) (hR : Spec.NoiseCorrelation S W P k R)
    (hP : Spec.Lip S P) (hk : Spec.Lip S k) : PoolNear m F k S M W R P isRectMethod 1 :=
  pool_near poolRule_rect hw hfr hM0 hR hP hk (consistent_rect hP hk)

theorem pool_near_trapz (hw : m.WF) (hfr : m.cls ≠ .withFriction) (hM0 : 0 ≤ M) (hR : Spec.NoiseCorrelation S W P k R)
    (hP : Spec.DerivOn S P P') (hP' : Spec.Lip S P') (hk : Spec.DerivOn S k k') (hk' : Spec.Lip S k') :
    PoolNear m F k S M W R P isTrapzMethod 2 :=
  pool_near poolRule_trapz hw hfr hM0 hR (lip_of_deriv hP hP') (lip_of_deriv hk hk') (consistent_trapz hP hP' hk hk')

end

theorem pool_chain {Q : Option String → Prop} {p : ℕ} (hM0 : 0 ≤ M) (H : PoolNear m F k S M W R P Q p) (C : ℝ) :
    ∃ C' δ : ℝ, 0 ≤ C' ∧ 0 < δ ∧ ∀ (env : Env ℝ) (method km : String) (vectorize second : Bool) (rankTol : Option ℝ) (d : String)
      (s s1 s2 s3 : EstState ℝ) (N : ℕ) (data : List (Xva ℝ × LeftOp ℝ m.dimObs o)) (ε η : ℝ), Q (some km) →
      Setup env method vectorize m d s → computeMeanForce env s = (s1, none) →
      computeCorrs env method vectorize second rankTol s1 = (s2, none) →
      computeKernelStep km (fun _ _ => none) s2 = (s3, none) →
      Estimates m F k N s.model.dt (C * ε) (C * η) s3.model → 0 < s.model.dt → 0 ≤ ε → ε ≤ η → η ≤ δ →
      2 ≤ N → S ≤ (N - 1 : ℕ) * s.model.dt → Spec.TypicalPool m s.model.Lobs F W P S M s.model.dt ε data →
      Spec.FindsPool s3.model s.model.Lobs d S s.model.dt (C' * (s.model.dt ^ p + η)) R (N - 1) data := by
  obtain ⟨C0, hC0, H⟩ := H
  have hCp : 0 ≤ |C| := abs_nonneg C
  have hX : 0 < (m.basis.nOut * M + 1) * (|C| + 1) + 1 := by positivity
  refine ⟨C0 * (|C| + 2), 1 / ((m.basis.nOut * M + 1) * (|C| + 1) + 1), by positivity, by positivity, ?_⟩
  intro env method km vectorize second rankTol d s s1 s2 s3 N data ε η hQ hs h1 h2 h3 hest hdt hε hεη hηδ hN hcov hx
  obtain ⟨c, e1, e2, -, e4, e5⟩ := estimation_frame hs h1 h2 h3
  have hmeth : s3.model.method = some km := by
    obtain ⟨_, _, -, rfl, -⟩ := C42_method_recorded h3
    rfl
  have hη : 0 ≤ η := hε.trans hεη
  obtain ⟨z, hz⟩ : ∃ z : ℝ, z = (|C| + 1) * η := ⟨_, rfl⟩
  have b1 : C * ε ≤ z := by
    rw [hz]
    have a1 := mul_le_mul_of_nonneg_right (le_abs_self C) hε
    have a2 := mul_le_mul_of_nonneg_left hεη hCp
    nlinarith
  have b2 : C * η ≤ z := by
    rw [hz]
    have a1 := mul_le_mul_of_nonneg_right (le_abs_self C) hη
    nlinarith
  have b3 : (m.basis.nOut * M + 1) * z + ε ≤ 1 := by
    rw [le_div_iff₀ hX] at hηδ
    rw [hz]
    nlinarith
  obtain ⟨r, r1, r2, r4, r5, r3⟩ := H s3.model c d s.model.Lobs N data ε z e1 e2 (by rw [e4]; exact Spec.Estimates.mono hest b1 b2)
    (by rw [hmeth]; exact hQ) (by rw [e4]; exact hdt) hε (by rw [hz]; positivity) hN (by rw [e4]; exact hcov)
    (by rw [e4]; exact hx) b3
  rw [e4] at r5 r3
  refine ⟨r, r1, r2, r4, r5, fun n hn hnx hnS i l => (r3 n hn hnx hnS i l).trans ?_⟩
  rw [mul_assoc]
  refine mul_le_mul_of_nonneg_left ?_ hC0
  have h0 : 0 ≤ s.model.dt ^ p := by positivity
  rw [hz]
  nlinarith [mul_nonneg hCp h0]

variable {μ : Averages m.nForce (Spec.nCorr m) m.dimObs} {T MW : ℝ}

/-- **C166**, rectangle rule of the second kind: with a model estimated from data whose averages are within `ε` of those of the
process, and a trajectory with the averages of the process up to `ε`, `compute_corrs_w_noise` gives `W(t) + ∫_0^t P(t-s) k(s) ds` up to
`C (dt + ε)`. -/
theorem C166_second_kind_rect (hw : m.WF) (hx1 : 1 ≤ m.dimx) (hfr : m.cls ≠ .withFriction)
    (hG : μ.gram.det ≠ 0) (hF : μ.gram * F = μ.proj)
    (hW : ∀ t ∈ Set.Icc 0 T, ∀ i j, |μ.cross t i j| ≤ MW ∧ |μ.dcross t i j| ≤ MW) (hB0 : (μ.corr 0).det ≠ 0)
    (hB : Spec.Lip T μ.dcorr) (hk : Spec.Lip T k) (heq : Spec.SecondKind T (μ.corr 0) μ.dcorr (μ.dresidual F) k)
    (hh : m.cls ≠ .hybrid)
    (hM0 : 0 ≤ M) (hR : Spec.NoiseCorrelation S W P k R) (hP : Spec.Lip S P) (hkS : Spec.Lip S k) :
    ∃ C δ : ℝ, 0 < δ ∧ ∀ (env : Env ℝ) (method : String) (vectorize : Bool) (rankTol : Option ℝ) (d : String)
      (s : EstState ℝ) (data : List (Xva ℝ × LeftOp ℝ m.dimObs o)) (ε : ℝ),
      Setup env method vectorize m d s → NearAverages m s.model.Lobs μ s.xvas s.model.truncInd s.model.dt ε →
      0 < s.model.dt → s.model.dt ≤ δ → 0 ≤ ε → ε ≤ δ → 2 ≤ s.model.truncInd →
      ((s.model.truncInd - 1 : ℕ) : ℝ) * s.model.dt ≤ T → S ≤ ((s.model.truncInd - 1 : ℕ) : ℝ) * s.model.dt →
      Spec.TypicalPool m s.model.Lobs F W P S M s.model.dt ε data →
      ∃ s1 s2 s3, computeMeanForce env s = (s1, none) ∧ computeCorrs env method vectorize true rankTol s1 = (s2, none) ∧
        computeKernelStep "second_kind_rect" (fun _ _ => none) s2 = (s3, none) ∧
        Spec.FindsPool s3.model s.model.Lobs d S s.model.dt (C * (s.model.dt + ε)) R (s.model.truncInd - 1) data := by
  obtain ⟨C1, δ1, hδ1, H1⟩ := C142_second_kind_rect hG hF hW hw hx1 hh hB0 hB hk heq
  obtain ⟨C2, δ2, hC2, hδ2, H2⟩ := pool_chain hM0 (pool_near_rect hw hfr hM0 hR hP hkS) C1
  refine ⟨C2 * 2, min δ1 (δ2 / 2), by positivity, ?_⟩
  intro env method vectorize rankTol d s data ε hs hn hdt hdtδ hε hεδ hN hT hcov hx
  obtain ⟨s1, s2, s3, h1, h2, h3, hest⟩ := H1 env method vectorize rankTol d s ε hs hn hdt (hdtδ.trans (min_le_left _ _)) hε
    (hεδ.trans (min_le_left _ _)) hT
  have q1 := hdtδ.trans (min_le_right _ _)
  have q2 := hεδ.trans (min_le_right _ _)
  obtain ⟨r, r1, r2, r4, r5, r3⟩ := H2 env method _ vectorize true rankTol d s s1 s2 s3 _ data ε _ (by decide) hs h1 h2 h3 hest hdt hε
    (by linarith) (by linarith) hN hcov hx
  refine ⟨s1, s2, s3, h1, h2, h3, r, r1, r2, r4, r5, fun n hn hnx hnS i l => (r3 n hn hnx hnS i l).trans ?_⟩
  rw [pow_one]
  exact twice_bound hC2 hε

/-- **C166**, trapezoidal rule of the second kind: `C (dt² + ε)`. -/
theorem C166_second_kind_trapz (hw : m.WF) (hx1 : 1 ≤ m.dimx) (hfr : m.cls ≠ .withFriction)
    (hG : μ.gram.det ≠ 0) (hF : μ.gram * F = μ.proj)
    (hW : ∀ t ∈ Set.Icc 0 T, ∀ i j, |μ.cross t i j| ≤ MW ∧ |μ.dcross t i j| ≤ MW) (hB0 : (μ.corr 0).det ≠ 0)
    {B' : ℝ → Mat ℝ (Spec.nCorr m) (Spec.nCorr m)} {kT : ℝ → Mat ℝ (Spec.nCorr m) m.dimObs}
    (hB : Spec.DerivOn T μ.dcorr B') (hB' : Spec.Lip T B') (hk : Spec.DerivOn T k kT) (hk' : Spec.Lip T kT)
    (heq : Spec.SecondKind T (μ.corr 0) μ.dcorr (μ.dresidual F) k)
    (hh : m.cls ≠ .hybrid)
    (hM0 : 0 ≤ M) (hR : Spec.NoiseCorrelation S W P k R) (hP : Spec.DerivOn S P P') (hP' : Spec.Lip S P')
    (hkS : Spec.DerivOn S k k') (hkS' : Spec.Lip S k') :
    ∃ C δ : ℝ, 0 < δ ∧ ∀ (env : Env ℝ) (method : String) (vectorize : Bool) (rankTol : Option ℝ) (d : String)
      (s : EstState ℝ) (data : List (Xva ℝ × LeftOp ℝ m.dimObs o)) (ε : ℝ),
      Setup env method vectorize m d s → NearAverages m s.model.Lobs μ s.xvas s.model.truncInd s.model.dt ε →
      0 < s.model.dt → s.model.dt ≤ δ → 0 ≤ ε → ε ≤ δ → 2 ≤ s.model.truncInd →
      ((s.model.truncInd - 1 : ℕ) : ℝ) * s.model.dt ≤ T → S ≤ ((s.model.truncInd - 1 : ℕ) : ℝ) * s.model.dt →
      Spec.TypicalPool m s.model.Lobs F W P S M s.model.dt ε data →
      ∃ s1 s2 s3, computeMeanForce env s = (s1, none) ∧ computeCorrs env method vectorize true rankTol s1 = (s2, none) ∧
        computeKernelStep "second_kind_trapz" (fun _ _ => none) s2 = (s3, none) ∧
        Spec.FindsPool s3.model s.model.Lobs d S s.model.dt (C * (s.model.dt ^ 2 + ε)) R (s.model.truncInd - 1) data := by
  obtain ⟨C1, δ1, hδ1, H1⟩ := C142_second_kind_trapz hG hF hW hw hx1 hh hB0 hB hB' hk hk' heq
  obtain ⟨C2, δ2, hC2, hδ2, H2⟩ := pool_chain hM0 (pool_near_trapz hw hfr hM0 hR hP hP' hkS hkS') C1
  refine ⟨C2 * 2, min 1 (min δ1 (δ2 / 2)), by positivity, ?_⟩
  intro env method vectorize rankTol d s data ε hs hn hdt hdtδ hε hεδ hN hT hcov hx
  obtain ⟨l0, l1, l2⟩ : s.model.dt ≤ 1 ∧ s.model.dt ≤ δ1 ∧ s.model.dt ≤ δ2 / 2 := by simpa using hdtδ
  obtain ⟨-, l3, l4⟩ : ε ≤ 1 ∧ ε ≤ δ1 ∧ ε ≤ δ2 / 2 := by simpa using hεδ
  obtain ⟨s1, s2, s3, h1, h2, h3, hest⟩ := H1 env method vectorize rankTol d s ε hs hn hdt l1 hε l3 hT
  have q0 : 0 ≤ s.model.dt ^ 2 := by positivity
  have q1 : s.model.dt ^ 2 ≤ δ2 / 2 := by nlinarith
  obtain ⟨r, r1, r2, r4, r5, r3⟩ := H2 env method _ vectorize true rankTol d s s1 s2 s3 _ data ε _ (by decide) hs h1 h2 h3 hest hdt hε
    (by linarith) (by linarith) hN hcov hx
  refine ⟨s1, s2, s3, h1, h2, h3, r, r1, r2, r4, r5, fun n hn hnx hnS i l => (r3 n hn hnx hnS i l).trans ?_⟩
  exact twice_bound hC2 hε

/-- **C166**, rectangle rule of the first kind, which divides the errors of the averages by `dt`. -/
theorem C166_rect (hw : m.WF) (hx1 : 1 ≤ m.dimx) (hfr : m.cls ≠ .withFriction)
    (hG : μ.gram.det ≠ 0) (hF : μ.gram * F = μ.proj)
    (hW : ∀ t ∈ Set.Icc 0 T, ∀ i j, |μ.cross t i j| ≤ MW ∧ |μ.dcross t i j| ≤ MW) (hB0 : (μ.corr 0).det ≠ 0)
    {B' : ℝ → Mat ℝ (Spec.nCorr m) (Spec.nCorr m)} (hB : Spec.DerivOn T μ.corr B') (hB' : Spec.Lip T B') (hk : Spec.Lip T k)
    (heq : Spec.FirstKind T μ.corr (μ.residual F) k)
    (hM0 : 0 ≤ M) (hR : Spec.NoiseCorrelation S W P k R) (hP : Spec.Lip S P) (hkS : Spec.Lip S k) :
    ∃ C δ : ℝ, 0 < δ ∧ ∀ (env : Env ℝ) (method km : String) (vectorize : Bool) (rankTol : Option ℝ) (d : String)
      (s : EstState ℝ) (data : List (Xva ℝ × LeftOp ℝ m.dimObs o)) (ε : ℝ), km ∈ ["rect", "rectangular"] →
      Setup env method vectorize m d s → NearAverages m s.model.Lobs μ s.xvas s.model.truncInd s.model.dt ε →
      0 < s.model.dt → s.model.dt ≤ δ → 0 ≤ ε → ε ≤ δ * s.model.dt → 3 ≤ s.model.truncInd →
      ((s.model.truncInd - 1 : ℕ) : ℝ) * s.model.dt ≤ T → S ≤ ((s.model.truncInd - 2 : ℕ) : ℝ) * s.model.dt →
      Spec.TypicalPool m s.model.Lobs F W P S M s.model.dt ε data →
      ∃ s1 s2 s3, computeMeanForce env s = (s1, none) ∧ computeCorrs env method vectorize true rankTol s1 = (s2, none) ∧
        computeKernelStep km (fun _ _ => none) s2 = (s3, none) ∧
        Spec.FindsPool s3.model s.model.Lobs d S s.model.dt (C * (s.model.dt + ε / s.model.dt)) R (s.model.truncInd - 2) data := by
  obtain ⟨C1, δ1, hδ1, H1⟩ := C142_rect hG hF hW hw hx1 hB0 hB hB' hk heq
  obtain ⟨C2, δ2, hC2, hδ2, H2⟩ := pool_chain hM0 (pool_near_rect hw hfr hM0 hR hP hkS) C1
  refine ⟨C2 * 2, min 1 (min δ1 (δ2 / 2)), by positivity, ?_⟩
  intro env method km vectorize rankTol d s data ε hkm hs hn hdt hdtδ hε hεδ hN hT hcov hx
  obtain ⟨l0, l1, l2⟩ : s.model.dt ≤ 1 ∧ s.model.dt ≤ δ1 ∧ s.model.dt ≤ δ2 / 2 := by simpa using hdtδ
  obtain ⟨δ, hδe⟩ : ∃ δ, δ = min 1 (min δ1 (δ2 / 2)) := ⟨_, rfl⟩
  rw [← hδe] at hεδ
  obtain ⟨d0, d1, d2⟩ : δ ≤ 1 ∧ δ ≤ δ1 ∧ δ ≤ δ2 / 2 := by rw [hδe]; simp
  have sqp : 0 < s.model.dt := by positivity
  obtain ⟨s1, s2, s3, h1, h2, h3, hest⟩ := H1 env method km vectorize rankTol d s ε hkm hs hn hdt
    l1 hε (hεδ.trans (mul_le_mul_of_nonneg_right d1 sqp.le)) (by omega) hT
  have q2 : 0 ≤ ε / s.model.dt := by positivity
  have q1 : ε ≤ ε / s.model.dt := (le_div_iff₀ sqp).2 (mul_le_of_le_one_right hε l0)
  have q3 : ε / s.model.dt ≤ δ2 / 2 := ((div_le_iff₀ sqp).2 hεδ).trans d2
  obtain ⟨r, r1, r2, r4, r5, r3⟩ := H2 env method _ vectorize true rankTol d s s1 s2 s3 _ data ε _ (by
      left
      simp only [List.mem_cons, List.not_mem_nil, or_false] at hkm
      rcases hkm with rfl | rfl <;> simp) hs h1 h2 h3 hest hdt hε
    (by linarith) (by linarith) (by omega) (by rw [Nat.sub_sub]; exact hcov) hx
  refine ⟨s1, s2, s3, h1, h2, h3, r, r1, by omega, r4, fun n hn => r5 n (by omega), fun n hn hnx hnS i l => (r3 n hn hnx hnS i l).trans ?_⟩
  rw [pow_one]
  exact twice_bound hC2 q2

/-- **C166**, trapezoidal rule of the first kind, which divides the errors of the averages by `dt²`. -/
theorem C166_trapz (hw : m.WF) (hx1 : 1 ≤ m.dimx) (hfr : m.cls ≠ .withFriction)
    (hG : μ.gram.det ≠ 0) (hF : μ.gram * F = μ.proj)
    (hW : ∀ t ∈ Set.Icc 0 T, ∀ i j, |μ.cross t i j| ≤ MW ∧ |μ.dcross t i j| ≤ MW) (hB0 : (μ.corr 0).det ≠ 0)
    {B1 B2 B3 : ℝ → Mat ℝ (Spec.nCorr m) (Spec.nCorr m)} {k1 k2 : ℝ → Mat ℝ (Spec.nCorr m) m.dimObs}
    (hB1 : Spec.DerivOn T μ.corr B1) (hB2 : Spec.DerivOn T B1 B2) (hB3 : Spec.DerivOn T B2 B3) (hLB : Spec.Lip T B3)
    (hk1 : Spec.DerivOn T k k1) (hk2 : Spec.DerivOn T k1 k2) (hLk : Spec.Lip T k2)
    (heq : Spec.FirstKind T μ.corr (μ.residual F) k) (h0 : μ.dresidual F 0 = μ.corr 0 * k 0)
    (hh : m.cls ≠ .hybrid)
    (hM0 : 0 ≤ M) (hR : Spec.NoiseCorrelation S W P k R) (hP : Spec.DerivOn S P P') (hP' : Spec.Lip S P')
    (hkS : Spec.DerivOn S k k') (hkS' : Spec.Lip S k') :
    ∃ C δ : ℝ, 0 < δ ∧ ∀ (env : Env ℝ) (method : String) (vectorize : Bool) (rankTol : Option ℝ) (d : String)
      (s : EstState ℝ) (data : List (Xva ℝ × LeftOp ℝ m.dimObs o)) (ε : ℝ),
      Setup env method vectorize m d s → NearAverages m s.model.Lobs μ s.xvas s.model.truncInd s.model.dt ε →
      0 < s.model.dt → s.model.dt ≤ δ → 0 ≤ ε → ε ≤ δ * s.model.dt ^ 2 → 3 ≤ s.model.truncInd →
      ((s.model.truncInd - 1 : ℕ) : ℝ) * s.model.dt ≤ T → S ≤ ((s.model.truncInd - 2 : ℕ) : ℝ) * s.model.dt →
      Spec.TypicalPool m s.model.Lobs F W P S M s.model.dt ε data →
      ∃ s1 s2 s3, computeMeanForce env s = (s1, none) ∧ computeCorrs env method vectorize true rankTol s1 = (s2, none) ∧
        computeKernelStep "trapz" (fun _ _ => none) s2 = (s3, none) ∧
        Spec.FindsPool s3.model s.model.Lobs d S s.model.dt (C * (s.model.dt ^ 2 + ε / s.model.dt ^ 2)) R
          (s.model.truncInd - 2) data := by
  obtain ⟨C1, δ1, hδ1, H1⟩ := C142_trapz hG hF hW hw hx1 hh hB0 hB1 hB2 hB3 hLB hk1 hk2 hLk heq h0
  obtain ⟨C2, δ2, hC2, hδ2, H2⟩ := pool_chain hM0 (pool_near_trapz hw hfr hM0 hR hP hP' hkS hkS') C1
  refine ⟨C2 * 2, min 1 (min δ1 (δ2 / 2)), by positivity, ?_⟩
  intro env method vectorize rankTol d s data ε hs hn hdt hdtδ hε hεδ hN hT hcov hx
  obtain ⟨l0, l1, l2⟩ : s.model.dt ≤ 1 ∧ s.model.dt ≤ δ1 ∧ s.model.dt ≤ δ2 / 2 := by simpa using hdtδ
  obtain ⟨δ, hδe⟩ : ∃ δ, δ = min 1 (min δ1 (δ2 / 2)) := ⟨_, rfl⟩
  rw [← hδe] at hεδ
  obtain ⟨d0, d1, d2⟩ : δ ≤ 1 ∧ δ ≤ δ1 ∧ δ ≤ δ2 / 2 := by rw [hδe]; simp
  have sqp : 0 < s.model.dt ^ 2 := by positivity
  obtain ⟨s1, s2, s3, h1, h2, h3, hest⟩ := H1 env method vectorize rankTol d s ε hs hn hdt
    l1 hε (hεδ.trans (mul_le_mul_of_nonneg_right d1 sqp.le)) (by omega) hT
  have q2 : 0 ≤ ε / s.model.dt ^ 2 := by positivity
  have q1 : ε ≤ ε / s.model.dt ^ 2 := (le_div_iff₀ sqp).2 (mul_le_of_le_one_right hε (by nlinarith))
  have q3 : ε / s.model.dt ^ 2 ≤ δ2 / 2 := ((div_le_iff₀ sqp).2 hεδ).trans d2
  have q4 : s.model.dt ^ 2 ≤ δ2 / 2 := by nlinarith
  obtain ⟨r, r1, r2, r4, r5, r3⟩ := H2 env method _ vectorize true rankTol d s s1 s2 s3 _ data ε _ (by decide) hs h1 h2 h3 hest hdt hε
    (by linarith) (by linarith) (by omega) (by rw [Nat.sub_sub]; exact hcov) hx
  refine ⟨s1, s2, s3, h1, h2, h3, r, r1, by omega, r4, fun n hn => r5 n (by omega), fun n hn hnx hnS i l => (r3 n hn hnx hnS i l).trans ?_⟩
  exact twice_bound hC2 q2

end


namespace TwoOscillators

open Real

/-- The acceleration along a trajectory. -/
noncomputable def accelOf (y : Xva ℝ) : LeftOp ℝ model.dimObs (Spec.nCorr model) := .array fun t i => Spec.corrFeatureDot model y t i

noncomputable def pairs (dt : ℝ) (n : ℕ) : List (Xva ℝ × LeftOp ℝ model.dimObs (Spec.nCorr model)) := (xvas dt n).map fun y => (y, accelOf y)

theorem residualAlong_all (dt : ℝ) (n : ℕ) (c : Bool) (σ : ℝ) (t : ℕ) (l : Fin model.dimObs) :
    Spec.residualAlong model "a" F (xva dt n c σ) t l = (xva dt n c σ).data "a" t l + 25 * Spec.forceFeature model (xva dt n c σ) t 0 := by
  unfold Spec.residualAlong
  have : ∑ p : Fin model.nForce, Spec.forceFeature model (xva dt n c σ) t p * F p l = Spec.forceFeature model (xva dt n c σ) t 0 * (-25) :=
    Fin.sum_univ_one (fun p : Fin model.nForce => Spec.forceFeature model (xva dt n c σ) t p * F p l)
  rw [this]
  ring

theorem window_of (dt : ℝ) (n : ℕ) {o x : ℕ} {f : Xva ℝ → ℕ → Fin o → ℝ} {g : Xva ℝ → ℕ → Fin x → ℝ} {τ : ℕ} {i : Fin o} {l : Fin x} {c : ℝ}
    (hτ : τ < n)
    (h : ∀ t, f (xva dt n true 1) t i * g (xva dt n true 1) t l + f (xva dt n true (-1)) t i * g (xva dt n true (-1)) t l +
      f (xva dt n false 1) t i * g (xva dt n false 1) t l + f (xva dt n false (-1)) t i * g (xva dt n false (-1)) t l = 4 * c) :
    Spec.weightedMean ((pairs dt n).map fun e => (e.1.n, Spec.lagAverage e.1.n τ (f e.1) (g e.1) i l)) = c := by
  have hn : ((n - τ : ℕ) : ℝ) ≠ 0 := by
    have : 0 < n - τ := by omega
    positivity
  have hn' : (n : ℝ) ≠ 0 := by
    have : 0 < n := by omega
    positivity
  have hs := Finset.sum_congr (rfl : Finset.range (n - τ) = Finset.range (n - τ)) fun t _ => h t
  rw [sum_add_distrib, sum_add_distrib, sum_add_distrib, sum_const, card_range, nsmul_eq_mul] at hs
  simp only [Spec.weightedMean, Spec.lagAverage, pairs, xvas, List.map_cons, List.map_nil, List.sum_cons, List.sum_nil]
  have hx : ∀ c σ, (xva dt n c σ).n = n := fun _ _ => rfl
  simp only [hx]
  push_cast
  rw [add_zero, add_zero, ← mul_add, ← mul_add, ← mul_add, ← add_div, ← add_div, ← add_div, ← add_assoc, ← add_assoc, hs]
  field_simp
  ring

theorem avg_residual (dt : ℝ) (n t τ : ℕ) (i : Fin (Spec.nCorr model)) (l : Fin model.dimObs) :
    Spec.corrFeatureDot model (xva dt n true 1) t i * Spec.residualAlong model "a" F (xva dt n true 1) (t + τ) l +
    Spec.corrFeatureDot model (xva dt n true (-1)) t i * Spec.residualAlong model "a" F (xva dt n true (-1)) (t + τ) l +
    Spec.corrFeatureDot model (xva dt n false 1) t i * Spec.residualAlong model "a" F (xva dt n false 1) (t + τ) l +
    Spec.corrFeatureDot model (xva dt n false (-1)) t i * Spec.residualAlong model "a" F (xva dt n false (-1)) (t + τ) l =
      4 * μ.dresidual F (τ * dt) i l := by
  rw [dresidual_eq]
  simp only [residualAlong_all]
  have h1 := avg_dobs dt n t τ i l
  have h2 := avg_dcross dt n t τ i 0
  have e : (4 : ℝ) * U (-12) 588 (τ * dt) = 4 * U (1 / 2) (2401 / 2) (τ * dt) + 25 * (4 * U (-1 / 2) (-49 / 2) (τ * dt)) := by
    simp only [U]
    ring
  rw [e]
  linear_combination h1 + 25 * h2

theorem bounded_all (dt : ℝ) (n : ℕ) (c : Bool) {σ : ℝ} (hσ : |σ| = 1) (t : ℕ) :
    (∀ i, |(accelOf (xva dt n c σ)).values (Spec.residualAlong model "a" F (xva dt n c σ)) t i| ≤ 100) ∧
    (∀ l, |Spec.residualAlong model "a" F (xva dt n c σ) t l| ≤ 100) ∧
    (∀ q : Fin (Spec.nCorr model), |Spec.corrFeature model (xva dt n c σ) t q| ≤ 100) ∧
    ∀ p : Fin model.nForce, |Spec.forceFeature model (xva dt n c σ) t p| ≤ 100 := by
  have h7 : |7 * σ| = 7 := by rw [abs_mul, hσ]; norm_num
  have h7' : |-7 * σ| = 7 := by rw [abs_mul, hσ]; norm_num
  have h49 : |-49 * σ| = 49 := by rw [abs_mul, hσ]; norm_num
  have hx : |Spec.forceFeature model (xva dt n c σ) t 0| ≤ 2 := by
    rw [feature_x]
    cases c
    · exact (W_le _ _ _).trans (by rw [hσ]; norm_num)
    · exact (U_le _ _ _).trans (by rw [hσ]; norm_num)
  have ha : ∀ i, |(xva dt n c σ).data "a" t i| ≤ 50 := fun i => by
    rw [data_a]
    cases c
    · exact (W_le _ _ _).trans (by rw [h49]; norm_num)
    · exact (U_le _ _ _).trans (by rw [h49]; norm_num)
  refine ⟨fun i => ?_, fun l => ?_, fun q => ?_, fun p => ?_⟩
  · change |Spec.corrFeatureDot model (xva dt n c σ) t i| ≤ 100
    rw [feature_a]
    have := ha 0
    rw [data_a] at this
    linarith
  · rw [residualAlong_all]
    refine (abs_add_le _ _).trans ?_
    rw [abs_mul, abs_of_pos (by norm_num : (0 : ℝ) < 25)]
    linarith [ha l]
  · rw [feature_v]
    cases c
    · exact (U_le _ _ _).trans (by rw [h7]; norm_num)
    · exact (W_le _ _ _).trans (by rw [h7']; norm_num)
  · rw [feature_x]
    rw [feature_x] at hx
    linarith

theorem mem_pairs {dt : ℝ} {n : ℕ} {e : Xva ℝ × LeftOp ℝ model.dimObs (Spec.nCorr model)} (h : e ∈ pairs dt n) :
    ∃ (c : Bool) (σ : ℝ), |σ| = 1 ∧ e = (xva dt n c σ, accelOf (xva dt n c σ)) := by
  simp only [pairs, xvas, List.map_cons, List.map_nil, List.mem_cons, List.not_mem_nil, or_false] at h
  rcases h with rfl | rfl | rfl | rfl <;> exact ⟨_, _, by norm_num, rfl⟩

/-- The averages over the four trajectories are those of the process. -/
theorem typicalPool (dt : ℝ) {n : ℕ} (hn : 2 ≤ n) (S : ℝ) : Spec.TypicalPool model "a" F (μ.dresidual F) μ.dcorr S 100 dt 0 (pairs dt n) where
  some := by simp [pairs, xvas]
  dimx := fun e he => by
    obtain ⟨c, σ, -, rfl⟩ := mem_pairs he
    rfl
  two := fun e he => by
    obtain ⟨c, σ, -, rfl⟩ := mem_pairs he
    exact hn
  step := fun e he => by
    obtain ⟨c, σ, -, rfl⟩ := mem_pairs he
    simp [xva]
  bound := fun e he t _ => by
    obtain ⟨c, σ, hσ, rfl⟩ := mem_pairs he
    exact bounded_all dt n c hσ t
  noise := fun τ hτ _ i l => by
    have hm : (xva dt n true 1, accelOf (xva dt n true 1)) ∈ pairs dt n := by simp [pairs, xvas]
    have key := window_of dt n (f := fun y t i => Spec.corrFeatureDot model y t i)
      (g := fun y t => Spec.residualAlong model "a" F y (t + τ)) (i := i) (l := l) (hτ _ hm) fun t => avg_residual dt n t τ i l
    refine le_of_eq ?_
    rw [abs_eq_zero, sub_eq_zero, ← key]
    refine poolMean_congr (w := fun e : Xva ℝ × LeftOp ℝ model.dimObs (Spec.nCorr model) => e.1.n) fun e he => ?_
    obtain ⟨c, σ, -, rfl⟩ := mem_pairs he
    rfl
  funs := fun τ hτ _ j hj i a => by
    have hm : (xva dt n true 1, accelOf (xva dt n true 1)) ∈ pairs dt n := by simp [pairs, xvas]
    have key := window_of dt n (f := fun y t i => Spec.corrFeatureDot model y t i)
      (g := fun y t (q : Fin (Spec.nCorr model)) => Spec.corrFeature model y (t + j) q) (i := i) (l := a) (hτ _ hm)
      fun t => avg_dcorr dt n t j i a
    refine le_of_eq ?_
    rw [abs_eq_zero, sub_eq_zero]
    refine Eq.trans ?_ key
    refine poolMean_congr (w := fun e : Xva ℝ × LeftOp ℝ model.dimObs (Spec.nCorr model) => e.1.n) fun e he => ?_
    obtain ⟨c, σ, -, rfl⟩ := mem_pairs he
    rfl

/-- `⟨φ'(0) ξ(t)⟩ = ⟨φ φ⟩ k(t)` from the trajectories the model is estimated from, up to `C dt`. -/
theorem fluctuation_pooled : ∃ C δ : ℝ, 0 < δ ∧ ∀ N extra : ℕ, 2 ≤ N → 1 / ((N - 1 : ℕ) : ℝ) ≤ δ →
    ∃ s1 s2 s3, computeMeanForce env (state (1 / ((N - 1 : ℕ) : ℝ)) N extra) = (s1, none) ∧
      computeCorrs env "direct" false true none s1 = (s2, none) ∧
      computeKernelStep "second_kind_rect" (fun _ _ => none) s2 = (s3, none) ∧
      Spec.FindsPool s3.model "a" "dim_x" (1 / 2) (1 / ((N - 1 : ℕ) : ℝ)) (C * (1 / ((N - 1 : ℕ) : ℝ)))
        (fun t => μ.corr 0 * k t) (N - 1) (pairs (1 / ((N - 1 : ℕ) : ℝ)) (N + extra)) := by
  obtain ⟨C, δ, hδ, H⟩ := C166_second_kind_rect (M := 100) (fun h => by cases h) le_rfl (by decide) gram_det force cross_le corr_det
    (lip_of (fun t => W_deriv (1 / 2) (343 / 2) t) (U_le _ _)) (lip_of kt_deriv kt1_le) secondKind (by decide) (by norm_num) dissipation_half
    (lip_half (lip_of (fun t => W_deriv (1 / 2) (343 / 2) t) (U_le _ _))) (lip_half (lip_of kt_deriv kt1_le))
  refine ⟨C, δ, hδ, fun N extra hN hδN => ?_⟩
  have hN0 : (0 : ℝ) < ((N - 1 : ℕ) : ℝ) := by exact_mod_cast (by omega : 0 < N - 1)
  have h1 : ((N - 1 : ℕ) : ℝ) * (1 / ((N - 1 : ℕ) : ℝ)) = 1 := by field_simp
  have key := H env "direct" false none "dim_x" (state (1 / ((N - 1 : ℕ) : ℝ)) N extra) (pairs (1 / ((N - 1 : ℕ) : ℝ)) (N + extra)) 0
    (setup _ extra (by omega)) (near _ extra (by omega)) (by change 0 < 1 / ((N - 1 : ℕ) : ℝ); positivity) hδN le_rfl hδ.le hN h1.le
    (by change (1 / 2 : ℝ) ≤ ((N - 1 : ℕ) : ℝ) * (1 / ((N - 1 : ℕ) : ℝ)); rw [h1]; norm_num) (typicalPool _ (by omega) _)
  simp only [add_zero] at key
  exact key

example := C166_second_kind_trapz (M := 100) (fun h => by cases h) le_rfl (by decide) gram_det force cross_le corr_det
    (deriv_of (f' := U (1 / 2) (2401 / 2)) fun t => (W_deriv (1 / 2) (343 / 2) t).congr_deriv (by norm_num))
    (lip_of (U_deriv _ _) (W_le _ _)) (deriv_of kt_deriv) (lip_of kt1_deriv kt2_le) secondKind (by decide)
    (by norm_num) dissipation_half
    (deriv_half (deriv_of (f' := U (1 / 2) (2401 / 2)) fun t => (W_deriv (1 / 2) (343 / 2) t).congr_deriv (by norm_num)))
    (lip_half (lip_of (U_deriv _ _) (W_le _ _))) (deriv_half (deriv_of kt_deriv)) (lip_half (lip_of kt1_deriv kt2_le))

example := C166_rect (M := 100) (fun h => by cases h) le_rfl (by decide) gram_det force cross_le corr_det
    (deriv_of (U_deriv _ _)) (lip_of (W_deriv _ _) (U_le _ _)) (lip_of kt_deriv kt1_le) firstKind
    (by norm_num) dissipation_half (lip_half (lip_of (fun t => W_deriv (1 / 2) (343 / 2) t) (U_le _ _)))
    (lip_half (lip_of kt_deriv kt1_le))

example := C166_trapz (M := 100) (fun h => by cases h) le_rfl (by decide) gram_det force cross_le corr_det
    (deriv_of (U_deriv _ _)) (deriv_of (W_deriv _ _)) (deriv_of (U_deriv _ _)) (lip_of (W_deriv _ _) (U_le _ _))
    (deriv_of kt_deriv) (deriv_of kt1_deriv) (lip_of kt2_deriv kt3_le) firstKind initial (by decide)
    (by norm_num) dissipation_half
    (deriv_half (deriv_of (f' := U (1 / 2) (2401 / 2)) fun t => (W_deriv (1 / 2) (343 / 2) t).congr_deriv (by norm_num)))
    (lip_half (lip_of (U_deriv _ _) (W_le _ _))) (deriv_half (deriv_of kt_deriv)) (lip_half (lip_of kt1_deriv kt2_le))

end TwoOscillators

end Verif
