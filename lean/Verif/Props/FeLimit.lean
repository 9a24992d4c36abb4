import Verif.Props.FreeEnergy
import Verif.Props.Sampled
import Mathlib.MeasureTheory.Integral.DominatedConvergence

/-!
# The histogram and the free energy of long data (C171)
-/

namespace Verif

open Finset MeasureTheory ProbabilityTheory Filter

universe u v

set_option linter.unusedSectionVars false

namespace Spec

/-- Position, velocity and acceleration of the component `k` at the frame `t`. -/
def pointAt (y : Xva ℝ) (t k : ℕ) : ℝ × ℝ × ℝ := (y.data "x" t k, y.data "v" t k, y.data "a" t k)

/-- The expectation of `w` over the frames and components with a position in `(a, b]`. -/
noncomputable def amount {E : Type u} [MeasurableSpace E] (ν : Measure E) (traj : E → Xva ℝ) (n x : ℕ) (w : ℝ × ℝ × ℝ → ℝ) (a b : ℝ) : ℝ :=
  (∑ t ∈ range n, ∑ k ∈ range x, ∫ e, (if a < (pointAt (traj e) t k).1 ∧ (pointAt (traj e) t k).1 ≤ b then w (pointAt (traj e) t k) else 0) ∂ν) /
    (n * x)

/-- The probability that a frame and a component have a position in `(a, b]`. -/
noncomputable def share {E : Type u} [MeasurableSpace E] (ν : Measure E) (traj : E → Xva ℝ) (n x : ℕ) (a b : ℝ) : ℝ :=
  amount ν traj n x (fun _ => 1) a b

/-- The edges of `m` equal bins between `lo` and `hi`. -/
noncomputable def edgeAt (lo hi : ℝ) (m i : ℕ) : ℝ := lo + i * ((hi - lo) / m)

/-- Trajectories of `n` frames in dimension `x`, with positions between `lo` and `hi` and as near to both as one likes, that are at
none of the edges, and not constant. -/
structure Spread {E : Type u} [MeasurableSpace E] (ν : Measure E) (traj : E → Xva ℝ) (n x m : ℕ) (lo hi : ℝ) : Prop where
  frames : ∀ e, (traj e).n = n
  dim : ∀ e, (traj e).dimx = x
  meas : ∀ t < n, ∀ k < x, AEMeasurable (fun e => (pointAt (traj e) t k).1) ν
  range : ∀ t < n, ∀ k < x, ∀ᵐ e ∂ν, lo ≤ (pointAt (traj e) t k).1 ∧ (pointAt (traj e) t k).1 ≤ hi
  low : ∀ δ > 0, ∃ t < n, ∃ k < x, 0 < ν {e | (pointAt (traj e) t k).1 ≤ lo + δ}
  high : ∀ δ > 0, ∃ t < n, ∃ k < x, 0 < ν {e | hi - δ < (pointAt (traj e) t k).1}
  edges : ∀ i ≤ m, ∀ t < n, ∀ k < x, ∀ᵐ e ∂ν, (pointAt (traj e) t k).1 ≠ edgeAt lo hi m i
  moves : ∀ᵐ e ∂ν, ∃ t < n, ∃ k < x, ∃ t' < n, ∃ k' < x, (pointAt (traj e) t k).1 < (pointAt (traj e) t' k').1

end Spec

open Spec (pointAt)

/-- The sum of `w` over the values with a position up to `c`. -/
noncomputable def below (w : ℝ × ℝ × ℝ → ℝ) (c : ℝ) (pts : List (ℝ × ℝ × ℝ)) : ℝ := (pts.map fun p => if p.1 ≤ c then w p else 0).sum

theorem sumIn_below (w : ℝ × ℝ × ℝ → ℝ) {a b : ℝ} (hab : a ≤ b) (pts : List (ℝ × ℝ × ℝ)) :
    Spec.sumIn w a b pts = below w b pts - below w a pts := by
  induction pts with
  | nil => simp [Spec.sumIn, Spec.counted, below]
  | cons p ps ih =>
    have e1 : below w b (p :: ps) = (if p.1 ≤ b then w p else 0) + below w b ps := by simp [below]
    have e2 : below w a (p :: ps) = (if p.1 ≤ a then w p else 0) + below w a ps := by simp [below]
    rw [e1, e2]
    by_cases h1 : p.1 ≤ a
    · have h2 : p.1 ≤ b := h1.trans hab
      have e3 : Spec.sumIn w a b (p :: ps) = Spec.sumIn w a b ps := by
        simp [Spec.sumIn, Spec.counted, not_lt.2 h1]
      rw [e3, ih, if_pos h1, if_pos h2]
      ring
    · by_cases h2 : p.1 ≤ b
      · have e3 : Spec.sumIn w a b (p :: ps) = w p + Spec.sumIn w a b ps := by
          simp [Spec.sumIn, Spec.counted, not_le.1 h1, h2]
        rw [e3, ih, if_neg h1, if_pos h2]
        ring
      · have e3 : Spec.sumIn w a b (p :: ps) = Spec.sumIn w a b ps := by
          simp [Spec.sumIn, Spec.counted, h2]
        rw [e3, ih, if_neg h1, if_neg h2]
        ring

theorem below_mono {w : ℝ × ℝ × ℝ → ℝ} (hw : ∀ p, 0 ≤ w p) {a b : ℝ} (hab : a ≤ b) (pts : List (ℝ × ℝ × ℝ)) :
    below w a pts ≤ below w b pts := by
  have := sumIn_below w hab pts
  have h0 : 0 ≤ Spec.sumIn w a b pts := List.sum_nonneg (by
    intro z hz
    obtain ⟨p, -, rfl⟩ := List.mem_map.1 hz
    exact hw p)
  linarith

theorem counted_sumIn (a b : ℝ) (pts : List (ℝ × ℝ × ℝ)) : ((Spec.counted a b pts).length : ℝ) = Spec.sumIn (fun _ => 1) a b pts := by
  simp [Spec.sumIn]

theorem sum_flatMap' {α β : Type*} (f : α → List β) (g : β → ℝ) : ∀ l : List α, ((l.flatMap f).map g).sum = (l.map fun a => ((f a).map g).sum).sum
  | [] => rfl
  | a :: l => by
    rw [List.flatMap_cons, List.map_append, List.sum_append, sum_flatMap' f g l, List.map_cons, List.sum_cons]

section
variable {E : Type u} {Ω : Type v} [MeasurableSpace E] [MeasurableSpace Ω] {ν : Measure E} {P : Measure Ω} {X : ℕ → Ω → E}
  {traj : E → Xva ℝ} {n x m : ℕ} {lo hi : ℝ}

theorem sum_points (hf : ∀ e, (traj e).n = n) (hd : ∀ e, (traj e).dimx = x) (g : ℝ × ℝ × ℝ → ℝ) (M : ℕ) (ω : Ω) :
    ((Spec.points (draws traj X M ω)).map g).sum = ∑ i ∈ range M, ∑ t ∈ range n, ∑ k ∈ range x, g (pointAt (traj (X i ω)) t k) := by
  unfold Spec.points draws
  rw [sum_flatMap', List.map_map, list_sum_range]
  refine sum_congr rfl fun i _ => ?_
  simp only [Function.comp_def]
  rw [sum_flatMap', list_sum_range, hf]
  refine sum_congr rfl fun t _ => ?_
  rw [List.map_map, list_sum_range, hd]
  rfl

/-- The expectation of `w` over the values with a position up to `c`. -/
noncomputable def belowMean (ν : Measure E) (traj : E → Xva ℝ) (n x : ℕ) (w : ℝ × ℝ × ℝ → ℝ) (c : ℝ) : ℝ :=
  (∑ t ∈ range n, ∑ k ∈ range x, ∫ e, (if (pointAt (traj e) t k).1 ≤ c then w (pointAt (traj e) t k) else 0) ∂ν) / (n * x)

/-- The weights can be summed. -/
def Weigh (ν : Measure E) (traj : E → Xva ℝ) (n x : ℕ) (w : ℝ × ℝ × ℝ → ℝ) : Prop :=
  ∀ t < n, ∀ k < x, Integrable (fun e => w (pointAt (traj e) t k)) ν

theorem nullMeas (h : Spec.Spread ν traj n x m lo hi) {t k : ℕ} (ht : t < n) (hk : k < x) (c : ℝ) :
    NullMeasurableSet {e | (pointAt (traj e) t k).1 ≤ c} ν :=
  (h.meas t ht k hk).nullMeasurableSet_preimage measurableSet_Iic

theorem integrable_below (h : Spec.Spread ν traj n x m lo hi) {w : ℝ × ℝ × ℝ → ℝ} (hw : Weigh ν traj n x w) {t k : ℕ} (ht : t < n)
    (hk : k < x) (c : ℝ) : Integrable (fun e => if (pointAt (traj e) t k).1 ≤ c then w (pointAt (traj e) t k) else 0) ν := by
  have := (hw t ht k hk).indicator₀ (nullMeas h ht hk c)
  refine this.congr (ae_of_all _ fun e => ?_)
  simp only [Set.indicator, Set.mem_ofPred_eq]

theorem below_converges (hX : Spec.Draws ν P X) (h : Spec.Spread ν traj n x m lo hi) {w : ℝ × ℝ × ℝ → ℝ} (hw : Weigh ν traj n x w) (c : ℝ) :
    ∀ᵐ ω ∂P, Tendsto (fun M : ℕ => below w c (Spec.points (draws traj X M ω)) / (n * x) / M) atTop (nhds (belowMean ν traj n x w c)) := by
  have hm : Spec.HasMean ν (fun e => (∑ t ∈ range n, ∑ k ∈ range x, if (pointAt (traj e) t k).1 ≤ c then w (pointAt (traj e) t k) else 0) /
      (n * x)) (belowMean ν traj n x w c) := by
    have hi : ∀ t ∈ range n, Integrable (fun e => ∑ k ∈ range x, if (pointAt (traj e) t k).1 ≤ c then w (pointAt (traj e) t k) else 0) ν :=
      fun t ht => integrable_finsetSum _ fun k hk => integrable_below h hw (mem_range.1 ht) (mem_range.1 hk) c
    refine ⟨(integrable_finsetSum _ hi).div_const _, ?_⟩
    rw [integral_div, integral_finsetSum _ hi, belowMean]
    congr 1
    refine sum_congr rfl fun t ht => ?_
    rw [integral_finsetSum _ fun k hk => integrable_below h hw (mem_range.1 ht) (mem_range.1 hk) c]
  filter_upwards [draws_mean hX hm] with ω hω
  refine hω.congr fun M => ?_
  rw [below, sum_points h.frames h.dim, ← sum_div]

/-- At an edge the expectation is continuous. -/
theorem belowMean_cont (h : Spec.Spread ν traj n x m lo hi) {w : ℝ × ℝ × ℝ → ℝ} (hw : Weigh ν traj n x w) {i : ℕ} (hi' : i ≤ m)
    {c : ℕ → ℝ} (hc : Tendsto c atTop (nhds (Spec.edgeAt lo hi m i))) :
    Tendsto (fun p => belowMean ν traj n x w (c p)) atTop (nhds (belowMean ν traj n x w (Spec.edgeAt lo hi m i))) := by
  refine Tendsto.div_const (tendsto_finsetSum _ fun t ht => tendsto_finsetSum _ fun k hk => ?_) _
  have ht := mem_range.1 ht
  have hk := mem_range.1 hk
  refine tendsto_integral_of_dominated_convergence (fun e => |w (pointAt (traj e) t k)|)
    (fun p => (integrable_below h hw ht hk (c p)).1) (hw t ht k hk).abs (fun p => ae_of_all _ fun e => ?_) ?_
  · rw [Real.norm_eq_abs]
    split_ifs
    · exact le_rfl
    · rw [abs_zero]; exact abs_nonneg _
  · filter_upwards [h.edges i hi' t ht k hk] with e he
    refine tendsto_const_nhds.congr' ?_
    rcases lt_or_gt_of_ne he with h1 | h1
    · filter_upwards [hc.eventually_const_lt h1] with p hp
      rw [if_pos h1.le, if_pos hp.le]
    · filter_upwards [hc.eventually_lt_const h1] with p hp
      rw [if_neg (not_le.2 h1), if_neg (not_le.2 hp)]

theorem amount_below (h : Spec.Spread ν traj n x m lo hi) {w : ℝ × ℝ × ℝ → ℝ} (hw : Weigh ν traj n x w) {a b : ℝ} (hab : a ≤ b) :
    Spec.amount ν traj n x w a b = belowMean ν traj n x w b - belowMean ν traj n x w a := by
  rw [Spec.amount, belowMean, belowMean, ← sub_div, ← sum_sub_distrib]
  congr 1
  refine sum_congr rfl fun t ht => ?_
  rw [← sum_sub_distrib]
  refine sum_congr rfl fun k hk => ?_
  rw [← integral_sub (integrable_below h hw (mem_range.1 ht) (mem_range.1 hk) b) (integrable_below h hw (mem_range.1 ht) (mem_range.1 hk) a)]
  refine integral_congr_ae (ae_of_all _ fun e => ?_)
  dsimp only
  by_cases h1 : (pointAt (traj e) t k).1 ≤ a
  · rw [if_pos h1, if_pos (h1.trans hab), if_neg (fun h => not_lt.2 h1 h.1), sub_self]
  · rw [if_neg h1, sub_zero]
    by_cases h2 : (pointAt (traj e) t k).1 ≤ b
    · rw [if_pos h2, if_pos ⟨not_le.1 h1, h2⟩]
    · rw [if_neg h2, if_neg (fun h => h2 h.2)]

/-- Below edges that converge to those of the process. -/
theorem below_moving {c : ℕ → ℝ} {w : ℝ × ℝ × ℝ → ℝ} (hw : ∀ p, 0 ≤ w p) {D : ℕ → List (ℝ × ℝ × ℝ)} {s : ℕ → ℝ} (hs : ∀ M, 0 ≤ s M) {G : ℝ → ℝ} {c0 : ℝ}
    (hc : Tendsto c atTop (nhds c0))
    (hp : ∀ p : ℕ, Tendsto (fun M => below w (c0 + 1 / (p + 1)) (D M) * s M) atTop (nhds (G (c0 + 1 / (p + 1)))))
    (hn : ∀ p : ℕ, Tendsto (fun M => below w (c0 - 1 / (p + 1)) (D M) * s M) atTop (nhds (G (c0 - 1 / (p + 1)))))
    (hG : ∀ d : ℕ → ℝ, Tendsto d atTop (nhds c0) → Tendsto (fun p => G (d p)) atTop (nhds (G c0))) :
    Tendsto (fun M => below w (c M) (D M) * s M) atTop (nhds (G c0)) := by
  have h0 : Tendsto (fun p : ℕ => (1 : ℝ) / (p + 1)) atTop (nhds 0) := tendsto_one_div_add_atTop_nhds_zero_nat
  have g1 := hG (fun p => c0 + 1 / (p + 1)) (by simpa using h0.const_add c0)
  have g2 := hG (fun p => c0 - 1 / (p + 1)) (by simpa using h0.const_sub c0)
  refine tendsto_order.2 ⟨fun y hy => ?_, fun y hy => ?_⟩
  · obtain ⟨p, hp'⟩ := (g2.eventually_const_lt hy).exists
    have hp0 : (0 : ℝ) < 1 / (p + 1) := by positivity
    filter_upwards [(hn p).eventually_const_lt hp', hc.eventually_const_lt (show c0 - 1 / (p + 1) < c0 by linarith)] with M h1 h2
    exact h1.trans_le (mul_le_mul_of_nonneg_right (below_mono hw h2.le _) (hs M))
  · obtain ⟨p, hp'⟩ := (g1.eventually_lt_const hy).exists
    have hp0 : (0 : ℝ) < 1 / (p + 1) := by positivity
    filter_upwards [(hp p).eventually_lt_const hp', hc.eventually_lt_const (show c0 < c0 + 1 / (p + 1) by linarith)] with M h1 h2
    exact lt_of_le_of_lt (mul_le_mul_of_nonneg_right (below_mono hw h2.le _) (hs M)) h1

theorem below_pos {c : ℝ} {pts : List (ℝ × ℝ × ℝ)} (h : 0 < below (fun _ => 1) c pts) : ∃ q ∈ pts, q.1 ≤ c := by
  by_contra hn
  push Not at hn
  have : below (fun _ => 1) c pts = 0 := List.sum_eq_zero (by
    intro z hz
    obtain ⟨q, hq, rfl⟩ := List.mem_map.1 hz
    exact if_neg (not_le.2 (hn q hq)))
  linarith

theorem below_lt {c : ℝ} {pts : List (ℝ × ℝ × ℝ)} (h : below (fun _ => 1) c pts < pts.length) : ∃ q ∈ pts, c < q.1 := by
  by_contra hn
  push Not at hn
  have : below (fun _ => 1) c pts = pts.length := by
    unfold below
    rw [List.map_congr_left fun q hq => if_pos (hn q hq)]
    simp
  linarith

/-- The edges of the bins converge to those between the extreme positions of the process. -/
theorem edges_converge {auto : List ℝ → List ℝ} {pts : ℕ → List (ℝ × ℝ × ℝ)} {s : ℕ → ℝ} {e : ℕ → ℕ → ℝ} {F : ℝ → ℝ} (hm : 1 ≤ m)
    (hs : ∀ M, 0 ≤ s M) (hN : ∀ M, 1 ≤ M → (pts M).length * s M = 1) (hr : ∀ M, ∀ q ∈ pts M, lo ≤ q.1 ∧ q.1 ≤ hi)
    (he : ∀ M, 1 ≤ M → Spec.Edges auto (.int (m + 1)) ((pts M).map (·.1)) m (e M))
    (h1 : ∀ p : ℕ, Tendsto (fun M => below (fun _ => 1) (lo + 1 / (p + 1)) (pts M) * s M) atTop (nhds (F (lo + 1 / (p + 1)))))
    (h2 : ∀ p : ℕ, Tendsto (fun M => below (fun _ => 1) (hi - 1 / (p + 1)) (pts M) * s M) atTop (nhds (F (hi - 1 / (p + 1)))))
    (hF1 : ∀ p : ℕ, 0 < F (lo + 1 / (p + 1))) (hF2 : ∀ p : ℕ, F (hi - 1 / (p + 1)) < 1) {i : ℕ} (hi' : i ≤ m) :
    Tendsto (fun M => e M i) atTop (nhds (Spec.edgeAt lo hi m i)) := by
  have hm0 : (m : ℝ) ≠ 0 := by positivity
  have info : ∀ M, 1 ≤ M → (∀ q ∈ pts M, e M 0 ≤ q.1 ∧ q.1 ≤ e M m) ∧ lo ≤ e M 0 ∧ e M m ≤ hi ∧
      ∀ i ≤ m, e M i = e M 0 + i * ((e M m - e M 0) / m) := by
    intro M hM
    obtain ⟨-, -, a, ha, b, hb, -, hab, hE⟩ := he M hM
    have e0 : e M 0 = a := by rw [hE 0 (by omega)]; simp
    have em : e M m = b := by rw [hE m le_rfl]; field_simp; ring
    obtain ⟨qa, hqa, rfl⟩ := List.mem_map.1 ha
    obtain ⟨qb, hqb, rfl⟩ := List.mem_map.1 hb
    refine ⟨fun q hq => ?_, ?_, ?_, fun i hi => ?_⟩
    · rw [e0, em]; exact hab _ (List.mem_map.2 ⟨q, hq, rfl⟩)
    · rw [e0]; exact (hr M qa hqa).1
    · rw [em]; exact (hr M qb hqb).2
    · rw [e0, em]; exact hE i hi
  have small : ∀ δ > 0, ∃ p : ℕ, 1 / ((p : ℝ) + 1) < δ := fun δ hδ => exists_nat_one_div_lt hδ
  have l0 : Tendsto (fun M => e M 0) atTop (nhds lo) := by
    refine tendsto_order.2 ⟨fun y hy => ?_, fun y hy => ?_⟩
    · filter_upwards [eventually_ge_atTop 1] with M hM
      exact hy.trans_le (info M hM).2.1
    · obtain ⟨p, hp⟩ := small (y - lo) (by linarith)
      filter_upwards [(h1 p).eventually_const_lt (hF1 p), eventually_ge_atTop 1] with M h3 hM
      obtain ⟨q, hq, hq'⟩ := below_pos (pos_of_mul_pos_left h3 (hs M))
      linarith [((info M hM).1 q hq).1]
  have lm : Tendsto (fun M => e M m) atTop (nhds hi) := by
    refine tendsto_order.2 ⟨fun y hy => ?_, fun y hy => ?_⟩
    · obtain ⟨p, hp⟩ := small (hi - y) (by linarith)
      filter_upwards [(h2 p).eventually_lt_const (hF2 p), eventually_ge_atTop 1] with M h3 hM
      have hsM : 0 < s M := lt_of_le_of_ne (hs M) fun h0 => by
        have := hN M hM
        rw [← h0, mul_zero] at this
        exact zero_ne_one this
      obtain ⟨q, hq, hq'⟩ := below_lt (lt_of_mul_lt_mul_right (h3.trans_eq (hN M hM).symm) hsM.le)
      linarith [((info M hM).1 q hq).2]
    · filter_upwards [eventually_ge_atTop 1] with M hM
      exact lt_of_le_of_lt (info M hM).2.2.1 hy
  refine Tendsto.congr' (f₁ := fun M => e M 0 + i * ((e M m - e M 0) / m)) ?_ (l0.add (((lm.sub l0).div_const _).const_mul _))
  filter_upwards [eventually_ge_atTop 1] with M hM
  exact ((info M hM).2.2.2 i hi').symm

theorem edgeAt_zero : Spec.edgeAt lo hi m 0 = lo := by simp [Spec.edgeAt]

theorem edgeAt_last (hm : 1 ≤ m) : Spec.edgeAt lo hi m m = hi := by
  have hm0 : (m : ℝ) ≠ 0 := by positivity
  unfold Spec.edgeAt
  field_simp
  ring

theorem weigh_one [IsProbabilityMeasure ν] : Weigh ν traj n x fun _ => 1 := fun _ _ _ _ => integrable_const 1

theorem integral_ite_one [IsProbabilityMeasure ν] (h : Spec.Spread ν traj n x m lo hi) {t k : ℕ} (ht : t < n) (hk : k < x) (c : ℝ) :
    ∫ e, (if (pointAt (traj e) t k).1 ≤ c then (1 : ℝ) else 0) ∂ν = ν.real {e | (pointAt (traj e) t k).1 ≤ c} := by
  have := integral_indicator₀ (f := fun _ => (1 : ℝ)) (nullMeas h ht hk c)
  rw [setIntegral_const, smul_eq_mul, mul_one] at this
  rw [← this]
  refine integral_congr_ae (ae_of_all _ fun e => ?_)
  simp only [Set.indicator, Set.mem_ofPred_eq]

theorem spread_pos (h : Spec.Spread ν traj n x m lo hi) : 0 < (n : ℝ) * x := by
  obtain ⟨t, ht, k, hk, -⟩ := h.low 1 one_pos
  have : 0 < n := by omega
  have : 0 < x := by omega
  positivity

theorem belowMean_pos [IsProbabilityMeasure ν] (h : Spec.Spread ν traj n x m lo hi) {δ : ℝ} (hδ : 0 < δ) :
    0 < belowMean ν traj n x (fun _ => 1) (lo + δ) := by
  obtain ⟨t, ht, k, hk, hp⟩ := h.low δ hδ
  refine div_pos ?_ (spread_pos h)
  have nn : ∀ t ∈ range n, ∀ k ∈ range x, 0 ≤ ∫ e, (if (pointAt (traj e) t k).1 ≤ lo + δ then (1 : ℝ) else 0) ∂ν := fun t ht k hk =>
    integral_nonneg fun e => by dsimp only; split_ifs <;> norm_num
  refine sum_pos' (fun t ht => sum_nonneg (nn t ht)) ⟨t, mem_range.2 ht, sum_pos' (nn t (mem_range.2 ht)) ⟨k, mem_range.2 hk, ?_⟩⟩
  rw [integral_ite_one h ht hk]
  exact ENNReal.toReal_pos hp.ne' (measure_ne_top _ _)

theorem belowMean_lt [IsProbabilityMeasure ν] (h : Spec.Spread ν traj n x m lo hi) {δ : ℝ} (hδ : 0 < δ) :
    belowMean ν traj n x (fun _ => 1) (hi - δ) < 1 := by
  obtain ⟨t, ht, k, hk, hp⟩ := h.high δ hδ
  rw [belowMean, div_lt_one (spread_pos h)]
  have le1 : ∀ t ∈ range n, ∀ k ∈ range x, ∫ e, (if (pointAt (traj e) t k).1 ≤ hi - δ then (1 : ℝ) else 0) ∂ν ≤ 1 := fun t ht k hk => by
    rw [integral_ite_one h (mem_range.1 ht) (mem_range.1 hk)]
    exact measureReal_le_one
  have hlt : ∫ e, (if (pointAt (traj e) t k).1 ≤ hi - δ then (1 : ℝ) else 0) ∂ν < 1 := by
    rw [integral_ite_one h ht hk]
    have := probReal_compl_eq_one_sub₀ (nullMeas h ht hk (hi - δ))
    have e1 : {e | (pointAt (traj e) t k).1 ≤ hi - δ}ᶜ = {e | hi - δ < (pointAt (traj e) t k).1} := by
      ext e
      simp
    rw [e1] at this
    have hp' : 0 < ν.real {e | hi - δ < (pointAt (traj e) t k).1} := ENNReal.toReal_pos hp.ne' (measure_ne_top _ _)
    linarith
  calc _ < ∑ t ∈ range n, (x : ℝ) := by
        refine sum_lt_sum (fun t ht => ?_) ⟨t, mem_range.2 ht, ?_⟩
        · exact (sum_le_sum (le1 t ht)).trans_eq (by simp)
        · exact (sum_lt_sum (le1 t (mem_range.2 ht)) ⟨k, mem_range.2 hk, hlt⟩).trans_eq (by simp)
    _ = n * x := by simp

theorem share_all [IsProbabilityMeasure ν] (h : Spec.Spread ν traj n x m lo hi) (hm : 1 ≤ m) : Spec.share ν traj n x lo hi = 1 := by
  have hpos := spread_pos h
  rw [Spec.share, Spec.amount, div_eq_one_iff_eq hpos.ne']
  have : ∀ t ∈ range n, ∀ k ∈ range x, ∫ e, (if lo < (pointAt (traj e) t k).1 ∧ (pointAt (traj e) t k).1 ≤ hi then (1 : ℝ) else 0) ∂ν = 1 := by
    intro t ht k hk
    have : ∀ᵐ e ∂ν, (if lo < (pointAt (traj e) t k).1 ∧ (pointAt (traj e) t k).1 ≤ hi then (1 : ℝ) else 0) = 1 := by
      filter_upwards [h.range t (mem_range.1 ht) k (mem_range.1 hk), h.edges 0 (by omega) t (mem_range.1 ht) k (mem_range.1 hk)] with e h1 h2
      rw [edgeAt_zero] at h2
      exact if_pos ⟨lt_of_le_of_ne h1.1 h2.symm, h1.2⟩
    rw [integral_congr_ae this]
    simp
  rw [sum_congr rfl fun t ht => sum_congr rfl (this t ht)]
  simp

theorem ae_draw (hX : Spec.Draws ν P X) {q : E → Prop} (hq : ∀ᵐ e ∂ν, q e) : ∀ᵐ ω ∂P, ∀ i, q (X i ω) := by
  refine ae_all_iff.2 fun i => ae_of_ae_map (hX.law i).aemeasurable ?_
  rw [(hX.law i).map_eq]
  exact hq

/-- Almost surely, for all edges and distances from them. -/
theorem below_edges (hX : Spec.Draws ν P X) (h : Spec.Spread ν traj n x m lo hi) {w : ℝ × ℝ × ℝ → ℝ} (hw : Weigh ν traj n x w) :
    ∀ᵐ ω ∂P, ∀ i p : ℕ,
      Tendsto (fun M : ℕ => below w (Spec.edgeAt lo hi m i + 1 / (p + 1)) (Spec.points (draws traj X M ω)) * (1 / (n * x * M))) atTop
        (nhds (belowMean ν traj n x w (Spec.edgeAt lo hi m i + 1 / (p + 1)))) ∧
      Tendsto (fun M : ℕ => below w (Spec.edgeAt lo hi m i - 1 / (p + 1)) (Spec.points (draws traj X M ω)) * (1 / (n * x * M))) atTop
        (nhds (belowMean ν traj n x w (Spec.edgeAt lo hi m i - 1 / (p + 1)))) := by
  have e : ∀ (c : ℝ), ∀ᵐ ω ∂P, Tendsto (fun M : ℕ => below w c (Spec.points (draws traj X M ω)) * (1 / (n * x * M))) atTop
      (nhds (belowMean ν traj n x w c)) := fun c => by
    filter_upwards [below_converges hX h hw c] with ω hω
    refine hω.congr fun M => ?_
    rw [div_div, mul_one_div]
  refine ae_all_iff.2 fun i => ae_all_iff.2 fun p => ?_
  filter_upwards [e (Spec.edgeAt lo hi m i + 1 / (p + 1)), e (Spec.edgeAt lo hi m i - 1 / (p + 1))] with ω h1 h2
  exact ⟨h1, h2⟩

/-- Almost surely the edges of the bins, and the sums of every weight in the bins, converge. -/
theorem bins_converge [IsProbabilityMeasure ν] (auto : List ℝ → List ℝ) (hm : 1 ≤ m) (hX : Spec.Draws ν P X)
    (h : Spec.Spread ν traj n x m lo hi) {J : Type} [Finite J] {w : J → ℝ × ℝ × ℝ → ℝ} (hw : ∀ j, Weigh ν traj n x (w j)) (hw0 : ∀ j p, 0 ≤ w j p) :
    ∀ᵐ ω ∂P, ∃ e : ℕ → ℕ → ℝ,
      (∀ M, 1 ≤ M → Spec.Edges auto (.int (m + 1)) ((Spec.points (draws traj X M ω)).map (·.1)) m (e M) ∧
        ∀ y ∈ draws traj X M ω, Spec.counted (e M 0) (e M m) (Spec.points [y]) ≠ []) ∧
      (∀ i ≤ m, Tendsto (fun M => e M i) atTop (nhds (Spec.edgeAt lo hi m i))) ∧
      ∀ j, ∀ i ≤ m, Tendsto (fun M : ℕ => below (w j) (e M i) (Spec.points (draws traj X M ω)) * (1 / (n * x * M))) atTop
        (nhds (belowMean ν traj n x (w j) (Spec.edgeAt lo hi m i))) := by
  have hpos := spread_pos h
  have a1 := below_edges hX h weigh_one
  have a2 := ae_all_iff.2 fun j => below_edges hX h (hw j)
  have a3 : ∀ᵐ e ∂ν, ∀ t < n, ∀ k < x, lo ≤ (pointAt (traj e) t k).1 ∧ (pointAt (traj e) t k).1 ≤ hi := by
    have := ae_all_iff.2 fun t : Fin n => ae_all_iff.2 fun k : Fin x => h.range t t.2 k k.2
    filter_upwards [this] with e he t ht k hk
    exact he ⟨t, ht⟩ ⟨k, hk⟩
  filter_upwards [a1, a2, ae_draw hX a3, ae_draw hX h.moves] with ω b1 b2 b3 b4
  have hpt : ∀ M, ∀ q ∈ Spec.points (draws traj X M ω), ∃ i < M, ∃ t < n, ∃ k < x, q = pointAt (traj (X i ω)) t k := by
    intro M q hq
    unfold Spec.points draws at hq
    obtain ⟨y, hy, hq⟩ := List.mem_flatMap.1 hq
    obtain ⟨i, hi, rfl⟩ := List.mem_map.1 hy
    obtain ⟨t, ht, hq⟩ := List.mem_flatMap.1 hq
    obtain ⟨k, hk, rfl⟩ := List.mem_map.1 hq
    rw [h.frames] at ht
    rw [h.dim] at hk
    exact ⟨i, List.mem_range.1 hi, t, List.mem_range.1 ht, k, List.mem_range.1 hk, rfl⟩
  have hin : ∀ (L : List (Xva ℝ)) (e : E), traj e ∈ L → ∀ t < n, ∀ k < x, pointAt (traj e) t k ∈ Spec.points L := by
    intro L e he t ht k hk
    refine List.mem_flatMap.2 ⟨_, he, List.mem_flatMap.2 ⟨t, ?_, List.mem_map.2 ⟨k, ?_, rfl⟩⟩⟩
    · rw [h.frames]; exact List.mem_range.2 ht
    · rw [h.dim]; exact List.mem_range.2 hk
  have hex : ∀ M, 1 ≤ M → ∃ e : ℕ → ℝ, Spec.Edges auto (.int (m + 1)) ((Spec.points (draws traj X M ω)).map (·.1)) m e ∧
      ∀ y ∈ draws traj X M ω, Spec.counted (e 0) (e m) (Spec.points [y]) ≠ [] := by
    intro M hM
    obtain ⟨z, hz⟩ := (C159_success (auto := auto) (n := (m : ℤ) + 1) (xvas := draws traj X M ω)).1.2 ⟨by omega, by
      intro h0
      have := congrArg List.length h0
      simp only [draws, List.length_map, List.length_range, List.length_nil] at this
      omega, fun y hy => by
        obtain ⟨i, hi, rfl⟩ := List.mem_map.1 hy
        obtain ⟨t, ht, k, hk, t', ht', k', hk', hlt⟩ := b4 i
        exact ⟨_, hin [traj (X i ω)] _ List.mem_cons_self t' ht' k' hk', _, hin _ _ hy t ht k hk, hlt⟩⟩
    obtain ⟨m', e, hE, hx⟩ := hist_ok hz
    have hm' : m' = m := by
      have : (m : ℤ) + 1 = m' + 1 := hE.1
      omega
    subst hm'
    exact ⟨e, hE, hx⟩
  choose! e he using hex
  have hlen : ∀ M, 1 ≤ M → ((Spec.points (draws traj X M ω)).length : ℝ) * (1 / (n * x * M)) = 1 := by
    intro M hM
    have h1 := sum_points (Ω := Ω) (X := X) h.frames h.dim (fun _ => 1) M ω
    simp only [List.map_const', List.sum_replicate, nsmul_eq_mul, mul_one, sum_const, card_range] at h1
    have hM0 : (n : ℝ) * x * M ≠ 0 := by positivity
    rw [h1, mul_one_div, div_eq_one_iff_eq hM0]
    ring
  have hconv : ∀ i ≤ m, Tendsto (fun M => e M i) atTop (nhds (Spec.edgeAt lo hi m i)) := by
    refine fun i hi' => edges_converge (F := belowMean ν traj n x fun _ => 1) hm (fun M => by positivity) hlen (fun M q hq => ?_) (fun M hM => (he M hM).1)
      (fun p => ?_) (fun p => ?_) (fun p => belowMean_pos h (by positivity)) (fun p => belowMean_lt h (by positivity)) hi'
    · obtain ⟨i, -, t, ht, k, hk, rfl⟩ := hpt M q hq
      exact b3 i t ht k hk
    · have := (b1 0 p).1
      rwa [edgeAt_zero] at this
    · have := (b1 m p).2
      rwa [edgeAt_last hm] at this
  refine ⟨e, he, hconv, fun j i hi' => ?_⟩
  exact below_moving (hw0 j) (fun M => by positivity) (hconv i hi') (fun p => (b2 j i p).1) (fun p => (b2 j i p).2)
    (fun d hd => belowMean_cont h (hw j) hi' hd)

theorem near_all {f : ℕ → ℕ → ℝ} {a : ℕ → ℝ} (h : ∀ i < m, Tendsto (fun M => f M i) atTop (nhds (a i))) {η : ℝ} (hη : 0 < η) :
    ∀ᶠ M in atTop, ∀ i < m, |f M i - a i| ≤ η := by
  have : ∀ i : Fin m, ∀ᶠ M in atTop, |f M i - a i| ≤ η := fun i => by
    filter_upwards [Metric.tendsto_nhds.1 (h i i.2) η hη] with M hM
    rw [Real.dist_eq] at hM
    exact hM.le
  filter_upwards [eventually_all.2 this] with M hM i hi
  exact hM ⟨i, hi⟩

/-- The sums in the bins. -/
theorem sumIn_converges (h : Spec.Spread ν traj n x m lo hi) {w : ℝ × ℝ × ℝ → ℝ} (hw : Weigh ν traj n x w) {e : ℕ → ℕ → ℝ}
    {D : ℕ → List (ℝ × ℝ × ℝ)} {s : ℕ → ℝ} (he : ∀ M, 1 ≤ M → ∀ i j, i < j → j ≤ m → e M i < e M j) (hlh : lo < hi)
    (hb : ∀ i ≤ m, Tendsto (fun M : ℕ => below w (e M i) (D M) * s M) atTop (nhds (belowMean ν traj n x w (Spec.edgeAt lo hi m i))))
    {i j : ℕ} (hij : i < j) (hj : j ≤ m) :
    Tendsto (fun M => Spec.sumIn w (e M i) (e M j) (D M) * s M) atTop
      (nhds (Spec.amount ν traj n x w (Spec.edgeAt lo hi m i) (Spec.edgeAt lo hi m j))) := by
  have hle : Spec.edgeAt lo hi m i ≤ Spec.edgeAt lo hi m j := by
    unfold Spec.edgeAt
    have : (i : ℝ) ≤ j := by exact_mod_cast hij.le
    have h0 : 0 ≤ (hi - lo) / m := div_nonneg (by linarith) (by positivity)
    nlinarith
  rw [amount_below h hw hle]
  refine ((hb j hj).sub (hb i (by omega))).congr' ?_
  filter_upwards [eventually_ge_atTop 1] with M hM
  rw [sumIn_below w (he M hM i j hij hj).le]
  ring

/-- **C171** From trajectories drawn independently, almost surely the centres of the bins and the frequencies that
`compute_1d_fe(.., bins=m + 1, hist=True)` returns converge to the centres of `m` equal bins between the extreme positions of the
process and to the probabilities of these bins. -/
theorem C171_histogram [IsProbabilityMeasure ν] (auto : List ℝ → List ℝ) (hm : 1 ≤ m) (hlh : lo < hi) (hX : Spec.Draws ν P X)
    (h : Spec.Spread ν traj n x m lo hi) :
    ∀ᵐ ω ∂P, ∀ η > 0, ∀ᶠ M in atTop, ∃ xf pf, computeHist auto (.int (m + 1)) (draws traj X M ω) = .ok (xf, pf) ∧
      xf.length = m ∧ pf.length = m ∧ ∀ i < m,
        |xf.getD i 0 - (Spec.edgeAt lo hi m i + Spec.edgeAt lo hi m (i + 1)) / 2| ≤ η ∧
        |pf.getD i 0 - Spec.share ν traj n x (Spec.edgeAt lo hi m i) (Spec.edgeAt lo hi m (i + 1))| ≤ η := by
  have hpos := spread_pos h
  filter_upwards [bins_converge auto hm hX h (J := Unit) (w := fun _ _ => 1) (fun _ => weigh_one) (fun _ _ => zero_le_one)] with ω hω η hη
  obtain ⟨e, he, hc, hb⟩ := hω
  have inc : ∀ M, 1 ≤ M → ∀ i j, i < j → j ≤ m → e M i < e M j := fun M hM => (feEdges_spec (he M hM).1).2.2
  have bin : ∀ {i j : ℕ}, i < j → j ≤ m → _ := fun hij hj => sumIn_converges h weigh_one inc hlh (hb ()) hij hj
  have all : Tendsto (fun M : ℕ => Spec.sumIn (fun _ => 1) (e M 0) (e M m) (Spec.points (draws traj X M ω)) * (1 / (n * x * M))) atTop (nhds 1) := by
    have := bin (i := 0) (j := m) (by omega) le_rfl
    rw [edgeAt_zero, edgeAt_last hm] at this
    have h1 := share_all h hm
    rw [Spec.share] at h1
    rwa [h1] at this
  have frac : ∀ i < m, Tendsto (fun M : ℕ => ((Spec.counted (e M i) (e M (i + 1)) (Spec.points (draws traj X M ω))).length : ℝ) /
      ((Spec.counted (e M 0) (e M m) (Spec.points (draws traj X M ω))).length : ℝ)) atTop
      (nhds (Spec.share ν traj n x (Spec.edgeAt lo hi m i) (Spec.edgeAt lo hi m (i + 1)))) := by
    intro i hi
    have := (bin (Nat.lt_succ_self i) hi).div all one_ne_zero
    rw [div_one] at this
    refine this.congr' ?_
    filter_upwards [eventually_ge_atTop 1] with M hM
    rw [counted_sumIn, counted_sumIn]
    have hs : (1 : ℝ) / (n * x * M) ≠ 0 := by positivity
    exact mul_div_mul_right _ _ hs
  have cent : ∀ i < m, Tendsto (fun M => (e M (i + 1) + e M i) / 2) atTop
      (nhds ((Spec.edgeAt lo hi m i + Spec.edgeAt lo hi m (i + 1)) / 2)) := by
    intro i hi'
    rw [add_comm (Spec.edgeAt lo hi m i)]
    exact ((hc (i + 1) hi').add (hc i hi'.le)).div_const 2
  filter_upwards [near_all frac hη, near_all cent hη, eventually_ge_atTop 1] with M h1 h2 hM
  obtain ⟨xf, pf, r1, rfl, rfl, -⟩ := C159_hist_partial (he M hM).1 (he M hM).2
  refine ⟨_, _, r1, by simp, by simp, fun i hi => ⟨?_, ?_⟩⟩
  · have := h2 i hi
    simpa [List.getD_eq_getElem?_getD, List.getElem?_map, List.getElem?_range hi] using this
  · have := h1 i hi
    simpa [List.getD_eq_getElem?_getD, List.getElem?_map, List.getElem?_range hi] using this

theorem greatest_converges {f : ℕ → ℕ → ℝ} {a G : ℕ → ℝ} (h : ∀ i < m, Tendsto (fun M => f M i) atTop (nhds (a i))) {B : ℝ}
    (hG : ∀ᶠ M in atTop, (∃ i < m, f M i = G M) ∧ ∀ i < m, f M i ≤ G M) (hB : ∃ i < m, a i = B) (hB' : ∀ i < m, a i ≤ B) :
    Tendsto G atTop (nhds B) := by
  refine Metric.tendsto_nhds.2 fun η hη => ?_
  filter_upwards [near_all h (half_pos hη), hG] with M h1 ⟨⟨i, hi, h2⟩, h3⟩
  obtain ⟨j, hj, rfl⟩ := hB
  rw [Real.dist_eq, abs_lt]
  have e1 := abs_le.1 (h1 i hi)
  have e2 := abs_le.1 (h1 j hj)
  have e3 := h3 j hj
  have e4 := hB' i hi
  constructor <;> linarith

/-- What `compute_1d_fe` returns is within `η` of the quantities of the process: centres of the bins, `-log` of the probabilities over
the greatest (the least one is zero), means of `v²` and `a` in the bins, and the mean of `v²` that scales the force. -/
structure Spec.NearFreeEnergy (ν : Measure E) (traj : E → Xva ℝ) (n x m : ℕ) (lo hi B kT : ℝ) (spl : List ℝ → List ℝ → Except Err (List ℝ))
    (η : ℝ) (r : FreeEnergy) : Prop where
  len : r.x.length = m ∧ r.fe.length = m ∧ r.mass.length = m ∧ r.meanA.length = m
  least : (∀ z ∈ r.fe, 0 ≤ z) ∧ 0 ∈ r.fe
  centre : ∀ i < m, |r.x.getD i 0 - (edgeAt lo hi m i + edgeAt lo hi m (i + 1)) / 2| ≤ η
  fe : ∀ i < m, |r.fe.getD i 0 - -Real.log (share ν traj n x (edgeAt lo hi m i) (edgeAt lo hi m (i + 1)) / B)| ≤ η
  mass : ∀ i < m, |r.mass.getD i 0 - amount ν traj n x (fun p => p.2.1 ^ 2) (edgeAt lo hi m i) (edgeAt lo hi m (i + 1)) /
    share ν traj n x (edgeAt lo hi m i) (edgeAt lo hi m (i + 1))| ≤ η
  meanA : ∀ i < m, |r.meanA.getD i 0 - amount ν traj n x (fun p => p.2.2) (edgeAt lo hi m i) (edgeAt lo hi m (i + 1)) /
    share ν traj n x (edgeAt lo hi m i) (edgeAt lo hi m (i + 1))| ≤ η
  force : ∃ dfe q, spl r.x r.fe = .ok dfe ∧ r.force = dfe.map (fun d => -kT * d / q) ∧ |q - amount ν traj n x (fun p => p.2.1 ^ 2) lo hi| ≤ η

theorem sumIn_sub (f g : ℝ × ℝ × ℝ → ℝ) (a b : ℝ) (pts : List (ℝ × ℝ × ℝ)) :
    Spec.sumIn (fun p => f p - g p) a b pts = Spec.sumIn f a b pts - Spec.sumIn g a b pts := by
  unfold Spec.sumIn
  induction Spec.counted a b pts with
  | nil => simp
  | cons p ps ih => simp only [List.map_cons, List.sum_cons, ih]; ring

theorem amount_sub (h : Spec.Spread ν traj n x m lo hi) {f g : ℝ × ℝ × ℝ → ℝ} (hf : Weigh ν traj n x f) (hg : Weigh ν traj n x g) {a b : ℝ}
    (hab : a ≤ b) : Spec.amount ν traj n x (fun p => f p - g p) a b = Spec.amount ν traj n x f a b - Spec.amount ν traj n x g a b := by
  have key : ∀ c, belowMean ν traj n x (fun p => f p - g p) c = belowMean ν traj n x f c - belowMean ν traj n x g c := by
    intro c
    rw [belowMean, belowMean, belowMean, ← sub_div, ← sum_sub_distrib]
    congr 1
    refine sum_congr rfl fun t ht => ?_
    rw [← sum_sub_distrib]
    refine sum_congr rfl fun k hk => ?_
    rw [← integral_sub (integrable_below h hf (mem_range.1 ht) (mem_range.1 hk) c) (integrable_below h hg (mem_range.1 ht) (mem_range.1 hk) c)]
    refine integral_congr_ae (ae_of_all _ fun e => ?_)
    dsimp only
    split_ifs
    · rfl
    · rw [sub_zero]
  rw [amount_below h hf hab, amount_below h hg hab, amount_below h (fun t ht k hk => (hf t ht k hk).sub (hg t ht k hk)) hab, key, key]
  ring

theorem bin_pairwise {e : ℕ → ℝ} (he : ∀ i j, i < j → j ≤ m → e i < e j) :
    ((List.range m).map fun i => (e (i + 1) + e i) / 2).Pairwise (· < ·) := by
  refine List.pairwise_map.2 (List.pairwise_lt_range.imp_of_mem fun {a b} ha hb hab => ?_)
  have hb := List.mem_range.1 hb
  have h1 := he a b hab hb.le
  have h2 := he (a + 1) (b + 1) (by omega) hb
  linarith

/-- **C171** So do the free energies, the mean square velocities and the mean accelerations in the bins, and the mean square velocity
that `compute_1d_fe` uses to scale the force, when all the bins have a positive probability and the spline accepts as many points. -/
theorem C171_free_energy [IsProbabilityMeasure ν] (auto : List ℝ → List ℝ) {spl : List ℝ → List ℝ → Except Err (List ℝ)} (kT : ℝ)
    (hspl : ∀ xs ys, xs.length = m → ys.length = m → xs.Pairwise (· < ·) → ∃ z, spl xs ys = .ok z)
    (hm : 1 ≤ m) (hlh : lo < hi) (hX : Spec.Draws ν P X) (h : Spec.Spread ν traj n x m lo hi)
    (hv : ∀ t < n, ∀ k < x, Integrable (fun e => (traj e).data "v" t k ^ 2) ν)
    (ha : ∀ t < n, ∀ k < x, Integrable (fun e => (traj e).data "a" t k) ν)
    (hfull : ∀ i < m, 0 < Spec.share ν traj n x (Spec.edgeAt lo hi m i) (Spec.edgeAt lo hi m (i + 1))) {B : ℝ}
    (hB : ∃ i < m, Spec.share ν traj n x (Spec.edgeAt lo hi m i) (Spec.edgeAt lo hi m (i + 1)) = B)
    (hB' : ∀ i < m, Spec.share ν traj n x (Spec.edgeAt lo hi m i) (Spec.edgeAt lo hi m (i + 1)) ≤ B) :
    ∀ᵐ ω ∂P, ∀ η > 0, ∀ᶠ M in atTop, ∃ r, compute1dFe auto spl (.int (m + 1)) kT (draws traj X M ω) = .ok r ∧
      Spec.NearFreeEnergy ν traj n x m lo hi B kT spl η r := by
  have hpos := spread_pos h
  have wp : Weigh ν traj n x fun p => max p.2.2 0 := fun t ht k hk => (ha t ht k hk).pos_part
  have wn : Weigh ν traj n x fun p => max (-p.2.2) 0 := fun t ht k hk => (ha t ht k hk).neg_part
  have wv : Weigh ν traj n x fun p => p.2.1 ^ 2 := hv
  have hB0 : B ≠ 0 := by
    obtain ⟨i, hi', rfl⟩ := hB
    exact (hfull i hi').ne'
  let w : Fin 4 → ℝ × ℝ × ℝ → ℝ := ![fun _ => 1, fun p => p.2.1 ^ 2, fun p => max p.2.2 0, fun p => max (-p.2.2) 0]
  filter_upwards [bins_converge auto hm hX h (J := Fin 4) (w := w)
    (by intro j; fin_cases j; exacts [weigh_one, wv, wp, wn])
    (by intro j p; fin_cases j; exacts [zero_le_one, sq_nonneg _, le_max_right _ _, le_max_right _ _])] with ω hω η hη
  obtain ⟨e, he, hc, hb⟩ := hω
  obtain ⟨pts, hpts⟩ : ∃ pts, pts = fun M => Spec.points (draws traj X M ω) := ⟨_, rfl⟩
  have inc : ∀ M, 1 ≤ M → ∀ i j, i < j → j ≤ m → e M i < e M j := fun M hM => (feEdges_spec (he M hM).1).2.2
  have s0 : ∀ M : ℕ, 1 ≤ M → (1 : ℝ) / (n * x * M) ≠ 0 := fun M hM => by positivity
  have b0 : ∀ {i j : ℕ}, i < j → j ≤ m → _ := fun hij hj => sumIn_converges h weigh_one inc hlh (hb 0) hij hj
  have b1 : ∀ {i j : ℕ}, i < j → j ≤ m → _ := fun hij hj => sumIn_converges h wv inc hlh (hb 1) hij hj
  have b2 : ∀ {i j : ℕ}, i < j → j ≤ m → _ := fun hij hj => sumIn_converges h wp inc hlh (hb 2) hij hj
  have b3 : ∀ {i j : ℕ}, i < j → j ≤ m → _ := fun hij hj => sumIn_converges h wn inc hlh (hb 3) hij hj
  have hpn : (fun p : ℝ × ℝ × ℝ => p.2.2) = fun p => max p.2.2 0 - max (-p.2.2) 0 := by
    funext p
    rcases le_total p.2.2 0 with h0 | h0
    · rw [max_eq_right h0, max_eq_left (by linarith)]; ring
    · rw [max_eq_left h0, max_eq_right (by linarith)]; ring
  have b4 : ∀ {i j : ℕ}, i < j → j ≤ m → Tendsto (fun M : ℕ => Spec.sumIn (fun p => p.2.2) (e M i) (e M j) (Spec.points (draws traj X M ω)) *
      (1 / (n * x * M))) atTop (nhds (Spec.amount ν traj n x (fun p => p.2.2) (Spec.edgeAt lo hi m i) (Spec.edgeAt lo hi m j))) := by
    intro i j hij hj
    have hle : Spec.edgeAt lo hi m i ≤ Spec.edgeAt lo hi m j := by
      unfold Spec.edgeAt
      have : (i : ℝ) ≤ j := by exact_mod_cast hij.le
      have h0 : 0 ≤ (hi - lo) / m := div_nonneg (by linarith) (by positivity)
      nlinarith
    rw [hpn, amount_sub h wp wn hle]
    refine ((b2 hij hj).sub (b3 hij hj)).congr fun M => ?_
    rw [sumIn_sub, sub_mul]
  have all : Tendsto (fun M : ℕ => Spec.sumIn (fun _ => 1) (e M 0) (e M m) (Spec.points (draws traj X M ω)) * (1 / (n * x * M))) atTop (nhds 1) := by
    have := b0 (i := 0) (j := m) (by omega) le_rfl
    rw [edgeAt_zero, edgeAt_last hm] at this
    have h1 := share_all h hm
    rw [Spec.share] at h1
    rwa [h1] at this
  -- the limits
  have cent : ∀ i < m, Tendsto (fun M => (e M (i + 1) + e M i) / 2) atTop
      (nhds ((Spec.edgeAt lo hi m i + Spec.edgeAt lo hi m (i + 1)) / 2)) := by
    intro i hi'
    rw [add_comm (Spec.edgeAt lo hi m i)]
    exact ((hc (i + 1) hi').add (hc i hi'.le)).div_const 2
  have cntC : ∀ i < m, Tendsto (fun M : ℕ => Spec.cnt (e M) (Spec.points (draws traj X M ω)) i * (1 / (n * x * M))) atTop
      (nhds (Spec.share ν traj n x (Spec.edgeAt lo hi m i) (Spec.edgeAt lo hi m (i + 1)))) := by
    intro i hi'
    refine (b0 (Nat.lt_succ_self i) hi').congr fun M => ?_
    rw [Spec.cnt, counted_sumIn]
  choose G hG1 hG2 using fun M => exists_greatest (fun i => Spec.cnt (e M) (Spec.points (draws traj X M ω)) i) m hm
  have GC : Tendsto (fun M : ℕ => G M * (1 / (n * x * M))) atTop (nhds B) := by
    refine greatest_converges cntC (Eventually.of_forall fun M => ⟨?_, fun i hi' => ?_⟩) hB hB'
    · obtain ⟨i, hi', h1⟩ := hG1 M
      exact ⟨i, hi', by rw [← h1]⟩
    · exact mul_le_mul_of_nonneg_right (hG2 M i hi') (by positivity)
  have feC : ∀ i < m, Tendsto (fun M : ℕ => -Real.log (Spec.cnt (e M) (Spec.points (draws traj X M ω)) i / G M)) atTop
      (nhds (-Real.log (Spec.share ν traj n x (Spec.edgeAt lo hi m i) (Spec.edgeAt lo hi m (i + 1)) / B))) := by
    intro i hi'
    refine (Tendsto.log (Tendsto.congr' ?_ ((cntC i hi').div GC hB0)) (div_ne_zero (hfull i hi').ne' hB0)).neg
    filter_upwards [eventually_ge_atTop 1] with M hM
    exact mul_div_mul_right _ _ (s0 M hM)
  have massC : ∀ i < m, Tendsto (fun M : ℕ => Spec.sumIn (fun p => p.2.1 ^ 2) (e M i) (e M (i + 1)) (Spec.points (draws traj X M ω)) /
      Spec.cnt (e M) (Spec.points (draws traj X M ω)) i) atTop
      (nhds (Spec.amount ν traj n x (fun p => p.2.1 ^ 2) (Spec.edgeAt lo hi m i) (Spec.edgeAt lo hi m (i + 1)) /
        Spec.share ν traj n x (Spec.edgeAt lo hi m i) (Spec.edgeAt lo hi m (i + 1)))) := by
    intro i hi'
    refine Tendsto.congr' ?_ ((b1 (Nat.lt_succ_self i) hi').div (cntC i hi') (hfull i hi').ne')
    filter_upwards [eventually_ge_atTop 1] with M hM
    exact mul_div_mul_right _ _ (s0 M hM)
  have accC : ∀ i < m, Tendsto (fun M : ℕ => Spec.sumIn (fun p => p.2.2) (e M i) (e M (i + 1)) (Spec.points (draws traj X M ω)) /
      Spec.cnt (e M) (Spec.points (draws traj X M ω)) i) atTop
      (nhds (Spec.amount ν traj n x (fun p => p.2.2) (Spec.edgeAt lo hi m i) (Spec.edgeAt lo hi m (i + 1)) /
        Spec.share ν traj n x (Spec.edgeAt lo hi m i) (Spec.edgeAt lo hi m (i + 1)))) := by
    intro i hi'
    refine Tendsto.congr' ?_ ((b4 (Nat.lt_succ_self i) hi').div (cntC i hi') (hfull i hi').ne')
    filter_upwards [eventually_ge_atTop 1] with M hM
    exact mul_div_mul_right _ _ (s0 M hM)
  have scaleC : Tendsto (fun M : ℕ => Spec.sumIn (fun p => p.2.1 ^ 2) (e M 0) (e M m) (Spec.points (draws traj X M ω)) /
      ((Spec.counted (e M 0) (e M m) (Spec.points (draws traj X M ω))).length : ℝ)) atTop
      (nhds (Spec.amount ν traj n x (fun p => p.2.1 ^ 2) lo hi)) := by
    have := (b1 (i := 0) (j := m) (by omega) le_rfl).div all one_ne_zero
    rw [div_one, edgeAt_zero, edgeAt_last hm] at this
    refine this.congr' ?_
    filter_upwards [eventually_ge_atTop 1] with M hM
    rw [counted_sumIn]
    exact mul_div_mul_right _ _ (s0 M hM)
  have posC : ∀ᶠ M in atTop, ∀ i < m, 0 < Spec.cnt (e M) (Spec.points (draws traj X M ω)) i := by
    have : ∀ i : Fin m, ∀ᶠ M in atTop, 0 < Spec.cnt (e M) (Spec.points (draws traj X M ω)) i := fun i => by
      filter_upwards [(cntC i i.2).eventually_const_lt (hfull i i.2)] with M hM
      exact pos_of_mul_pos_left hM (by positivity)
    filter_upwards [eventually_all.2 this] with M hM i hi'
    exact hM ⟨i, hi'⟩
  filter_upwards [near_all cent hη, near_all feC hη, near_all massC hη, near_all accC hη, Metric.tendsto_nhds.1 scaleC η hη, posC,
    eventually_ge_atTop 1] with M c1 c2 c3 c4 c5 c6 hM
  have hfill : Spec.filled (e M) (Spec.points (draws traj X M ω)) m = List.range m := by
    refine List.filter_eq_self.2 fun i hi' => ?_
    have := c6 i (List.mem_range.1 hi')
    simp only [ne_eq, decide_eq_true_eq]
    intro h0
    rw [Spec.cnt, h0] at this
    simp at this
  obtain ⟨hrun, hleast⟩ := C160_free_energy (spl := spl) (kT := kT) (he M hM).1 (he M hM).2 (hG1 M) (hG2 M) rfl rfl rfl rfl
  rw [hfill] at hrun hleast
  obtain ⟨dfe, hd⟩ := hspl ((List.range m).map fun i => (e M (i + 1) + e M i) / 2)
    ((List.range m).map fun i => -Real.log (Spec.cnt (e M) (Spec.points (draws traj X M ω)) i / G M)) (by simp) (by simp) (bin_pairwise (inc M hM))
  obtain ⟨drho, hr⟩ := hspl ((List.range m).map fun i => (e M (i + 1) + e M i) / 2)
    ((List.range m).map fun i => Spec.sumIn (fun p => p.2.1 ^ 2) (e M i) (e M (i + 1)) (Spec.points (draws traj X M ω)) /
      ((Spec.counted (e M 0) (e M m) (Spec.points (draws traj X M ω))).length : ℝ)) (by simp) (by simp) (bin_pairwise (inc M hM))
  rw [hd] at hrun
  simp only [Bind.bind, Except.bind, hr, pure, Except.pure] at hrun
  refine ⟨_, hrun, ⟨by simp, by simp, by simp, by simp⟩, hleast, fun i hi' => ?_, fun i hi' => ?_, fun i hi' => ?_, fun i hi' => ?_,
    ⟨dfe, _, hd, rfl, ?_⟩⟩
  · simpa [List.getD_eq_getElem?_getD, List.getElem?_map, List.getElem?_range hi'] using c1 i hi'
  · simpa [List.getD_eq_getElem?_getD, List.getElem?_map, List.getElem?_range hi'] using c2 i hi'
  · simpa [List.getD_eq_getElem?_getD, List.getElem?_map, List.getElem?_range hi'] using c3 i hi'
  · simpa [List.getD_eq_getElem?_getD, List.getElem?_map, List.getElem?_range hi'] using c4 i hi'
  · rw [Real.dist_eq] at c5
    exact c5.le

end

/-! Two frames at `u` and `1 - u`, where `u` is uniform in `[0, 1]`. -/

namespace Uniform2

noncomputable def law : Measure ℝ := volume.restrict (Set.Icc 0 1)

instance : IsProbabilityMeasure law := ⟨by simp [law]⟩

noncomputable def traj (u : ℝ) : Xva ℝ :=
  ⟨2, 1, fun t => t, fun name t _ => if name = "x" then (if t = 0 then u else 1 - u) else if name = "v" then u else 1, fun _ => "", fun _ => 1⟩

theorem pos (u : ℝ) (t k : ℕ) : (pointAt (traj u) t k).1 = if t = 0 then u else 1 - u := by simp [pointAt, traj]

theorem law_pos {a b : ℝ} (hab : a < b) (ha : 0 ≤ a) (hb : b ≤ 1) {s : Set ℝ} (hs : Set.Ioo a b ⊆ s) : 0 < law s := by
  refine lt_of_lt_of_le ?_ (measure_mono hs)
  have hsub : Set.Ioo a b ⊆ Set.Icc 0 1 := fun y hy => ⟨ha.trans hy.1.le, hy.2.le.trans hb⟩
  rw [law, Measure.restrict_apply measurableSet_Ioo, Set.inter_eq_left.2 hsub, Real.volume_Ioo]
  simpa using hab

theorem law_ne (c : ℝ) : ∀ᵐ u ∂law, u ≠ c := by
  have : law {c} = 0 := by
    refine le_antisymm ((Measure.restrict_apply_le _ _).trans ?_) zero_le
    simp
  exact compl_mem_ae_iff.2 this

theorem spread (m : ℕ) : Spec.Spread law traj 2 1 m 0 1 where
  frames := fun _ => rfl
  dim := fun _ => rfl
  meas := fun t _ k _ => by
    simp only [pos]
    split_ifs <;> fun_prop
  range := fun t _ k _ => by
    filter_upwards [ae_restrict_mem measurableSet_Icc] with u hu
    rw [pos]
    split_ifs
    · exact hu
    · constructor <;> linarith [hu.1, hu.2]
  low := fun δ hδ => ⟨0, by norm_num, 0, by norm_num, by
    simp only [pos, if_true]
    refine law_pos (a := 0) (b := min 1 δ) (by positivity) le_rfl (min_le_left _ _) fun u hu => ?_
    have := hu.2.le.trans (min_le_right _ _)
    simpa using this⟩
  high := fun δ hδ => ⟨1, by norm_num, 0, by norm_num, by
    simp only [pos, one_ne_zero, if_false]
    refine law_pos (a := 0) (b := min 1 δ) (by positivity) le_rfl (min_le_left _ _) fun u hu => ?_
    have := hu.2.trans_le (min_le_right _ _)
    simpa using this⟩
  edges := fun i _ t _ k _ => by
    filter_upwards [law_ne (Spec.edgeAt 0 1 m i), law_ne (1 - Spec.edgeAt 0 1 m i)] with u h1 h2
    rw [pos]
    split_ifs
    · exact h1
    · intro h
      exact h2 (by linarith)
  moves := by
    filter_upwards [law_ne (1 / 2)] with u hu
    rcases lt_or_gt_of_ne hu with h | h
    · exact ⟨0, by norm_num, 0, by norm_num, 1, by norm_num, 0, by norm_num, by simp only [pos, if_true, one_ne_zero, if_false]; linarith⟩
    · exact ⟨1, by norm_num, 0, by norm_num, 0, by norm_num, 0, by norm_num, by simp only [pos, if_true, one_ne_zero, if_false]; linarith⟩

theorem law_Ioc {s : Set ℝ} {a b : ℝ} (hab : a ≤ b) (ha : 0 ≤ a) (hb : b ≤ 1) (hs : MeasurableSet s) (h1 : Set.Ioo a b ⊆ s) (h2 : s ⊆ Set.Icc a b) :
    law.real s = b - a := by
  have e : law s = volume s := by
    rw [law, Measure.restrict_apply hs, Set.inter_eq_left.2 (h2.trans (Set.Icc_subset_Icc ha hb))]
  have e2 : volume s = ENNReal.ofReal (b - a) :=
    le_antisymm ((measure_mono h2).trans_eq Real.volume_Icc) (Real.volume_Ioo.symm.trans_le (measure_mono h1))
  rw [Measure.real, e, e2, ENNReal.toReal_ofReal (by linarith)]

/-- The probability of a bin is its width. -/
theorem share_eq {a b : ℝ} (hab : a ≤ b) (ha : 0 ≤ a) (hb : b ≤ 1) : Spec.share law traj 2 1 a b = b - a := by
  have key : ∀ (s : Set ℝ) [DecidablePred (· ∈ s)], MeasurableSet s → ∫ u, (if u ∈ s then (1 : ℝ) else 0) ∂law = law.real s := by
    intro s _ hs
    have := integral_indicator (μ := law) (f := fun _ => (1 : ℝ)) hs
    rw [setIntegral_const, smul_eq_mul, mul_one] at this
    rw [← this]
    refine integral_congr_ae (ae_of_all _ fun u => ?_)
    simp only [Set.indicator]
  classical
  have e1 : ∫ u, (if a < u ∧ u ≤ b then (1 : ℝ) else 0) ∂law = b - a := by
    rw [← law_Ioc hab ha hb (s := Set.Ioc a b) measurableSet_Ioc Set.Ioo_subset_Ioc_self Set.Ioc_subset_Icc_self, ← key _ measurableSet_Ioc]
    exact integral_congr_ae (ae_of_all _ fun u => if_congr Iff.rfl rfl rfl)
  have e2 : ∫ u, (if a < 1 - u ∧ 1 - u ≤ b then (1 : ℝ) else 0) ∂law = b - a := by
    have := law_Ioc (a := 1 - b) (b := 1 - a) (by linarith) (by linarith) (by linarith) (s := Set.Ico (1 - b) (1 - a)) measurableSet_Ico
      Set.Ioo_subset_Ico_self Set.Ico_subset_Icc_self
    rw [← key _ measurableSet_Ico] at this
    rw [show b - a = 1 - a - (1 - b) by ring, ← this]
    refine integral_congr_ae (ae_of_all _ fun u => ?_)
    dsimp only
    refine if_congr ?_ rfl rfl
    rw [Set.mem_Ico]
    constructor <;> rintro ⟨h1, h2⟩ <;> constructor <;> linarith
  rw [Spec.share, Spec.amount, Finset.sum_range_succ, Finset.sum_range_one, Finset.sum_range_one, Finset.sum_range_one]
  simp only [pos, if_true, one_ne_zero, if_false]
  rw [e1, e2]
  norm_num

theorem share_bin {m : ℕ} (hm : 1 ≤ m) {i : ℕ} (hi : i < m) :
    Spec.share law traj 2 1 (Spec.edgeAt 0 1 m i) (Spec.edgeAt 0 1 m (i + 1)) = 1 / m := by
  have hm0 : (0 : ℝ) < m := by positivity
  have hi' : ((i + 1 : ℕ) : ℝ) ≤ m := by exact_mod_cast hi
  have e : ∀ j : ℕ, Spec.edgeAt 0 1 m j = j / m := fun j => by unfold Spec.edgeAt; ring
  rw [e, e, share_eq (by gcongr; omega) (by positivity) ((div_le_one hm0).2 hi')]
  push_cast
  ring

theorem draws_exist : ∃ (Ω : Type) (_ : MeasurableSpace Ω) (P : Measure Ω) (X : ℕ → Ω → ℝ), IsProbabilityMeasure P ∧ Spec.Draws law P X := by
  obtain ⟨Ω, i, P, X, -, h1, h2, h3⟩ := exists_iid ℕ law
  exact ⟨Ω, i, P, X, h3, ⟨h1, h2⟩⟩

example (Ω : Type) [MeasurableSpace Ω] (P : Measure Ω) (X : ℕ → Ω → ℝ) (hX : Spec.Draws law P X) :=
  C171_histogram.{0, 0} id (m := 5) (by norm_num) one_pos hX (spread 5)

/-- All the frequencies converge to `1 / m`, and the free energies to zero. -/
theorem converges (Ω : Type) [MeasurableSpace Ω] (P : Measure Ω) (X : ℕ → Ω → ℝ) (hX : Spec.Draws law P X) {m : ℕ} (hm : 1 ≤ m) (kT : ℝ) :
    ∀ᵐ ω ∂P, ∀ η > 0, ∀ᶠ M in atTop, ∃ r, compute1dFe id chord (.int (m + 1)) kT (draws traj X M ω) = .ok r ∧
      Spec.NearFreeEnergy law traj 2 1 m 0 1 (1 / m) kT chord η r := by
  refine C171_free_energy.{0, 0} id kT (fun _ _ _ _ _ => ⟨_, rfl⟩) hm one_pos hX (spread m) (fun t _ k _ => ?_) (fun t _ k _ => ?_)
    (fun i hi => ?_) ⟨0, hm, share_bin hm hm⟩ (fun i hi => (share_bin hm hi).le)
  · have : Integrable (fun u : ℝ => u ^ 2) law := (continuous_pow 2).continuousOn.integrableOn_Icc
    exact this
  · have : Integrable (fun _ : ℝ => (1 : ℝ)) law := integrable_const 1
    exact this
  · rw [share_bin hm hi]
    positivity

end Uniform2

end Verif
