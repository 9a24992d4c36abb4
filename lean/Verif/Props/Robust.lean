import Verif.Props.Sampled
import Verif.Props.FiniteDiff
import Verif.Props.NoiseBack

/-!
# C169: errors of the data

Trajectories whose positions, velocities, accelerations and observable are wrong by at most `η` give the same force and
kernel up to `C η`. In particular the velocities and accelerations may be the finite differences of `compute_va`.
-/

namespace Verif

open Finset

namespace Spec

/-- On bounded sets of the first `d` coordinates, `f` is bounded and Lipschitz. -/
def Tame (d : ℕ) (f : (ℕ → ℝ) → ℝ) : Prop := ∀ M : ℝ, ∃ B : ℝ, ∀ (p p' : ℕ → ℝ) (δ : ℝ), 0 ≤ δ →
  (∀ k < d, |p k| ≤ M ∧ |p' k| ≤ M ∧ |p k - p' k| ≤ δ) → |f p| ≤ B ∧ |f p - f p'| ≤ B * δ

/-- The functions of the basis, their derivatives and, where they are used, their second derivatives are Lipschitz on bounded
sets. -/
structure TameBasis (m : BasisModel ℝ) : Prop where
  basis : ∀ q < m.basis.nOut, Tame m.dimx fun p => m.basis.basis p q
  deriv : m.cls ≠ .constKernel → ∀ q < m.basis.nOut, ∀ i < m.dimx, Tame m.dimx fun p => m.basis.deriv p q i
  hessian : m.cls = .posGle ∨ m.cls = .withFriction → ∀ q < m.basis.nOut, ∀ i < m.dimx, ∀ j < m.dimx,
    Tame m.dimx fun p => m.basis.hessian p q i j

/-- The trajectory `z` has the frames of `y`, with an error of at most `η`; `y` is bounded by `M`. -/
structure NearData (m : BasisModel ℝ) (L : String) (M η : ℝ) (z y : Xva ℝ) : Prop where
  frames : z.n = y.n
  dim : z.dimx = m.dimx
  dim' : y.dimx = m.dimx
  pos : ∀ t < y.n, ∀ k < m.dimx, |y.data "x" t k| ≤ M ∧ |z.data "x" t k - y.data "x" t k| ≤ η
  vel : ∀ t < y.n, ∀ k < m.dimx, |y.data "v" t k| ≤ M ∧ |z.data "v" t k - y.data "v" t k| ≤ η
  acc : m.cls ≠ .overdamped → m.cls ≠ .noVelBasis → ∀ t < y.n, ∀ k < m.dimx,
    |y.data "a" t k| ≤ M ∧ |z.data "a" t k - y.data "a" t k| ≤ η
  obs : ∀ t < y.n, ∀ k < m.dimObs, |y.data L t k| ≤ M ∧ |z.data L t k - y.data L t k| ≤ η

end Spec

open Spec

/-! ### What is computed from a frame -/

/-- A number computed from each frame, with an error proportional to that of the data. -/
def Steady (m : BasisModel ℝ) (φ : String → Xva ℝ → ℕ → ℝ) : Prop := ∀ M : ℝ, ∃ C : ℝ, 0 ≤ C ∧
  ∀ (L : String) (η : ℝ) (z y : Xva ℝ), 0 ≤ η → η ≤ 1 → NearData m L M η z y → ∀ t < y.n,
    |φ L y t| ≤ C ∧ |φ L z t - φ L y t| ≤ C * η

section
variable {m : BasisModel ℝ} {φ ψ : String → Xva ℝ → ℕ → ℝ}

theorem Steady.of_pos {f : (ℕ → ℝ) → ℝ} (hf : Tame m.dimx f) : Steady m fun _ xva t => f (xva.data "x" t) := by
  intro M
  obtain ⟨B, hB⟩ := hf (M + 1)
  refine ⟨|B|, abs_nonneg B, fun L η z y h0 h1 h t ht => ?_⟩
  have := hB (y.data "x" t) (z.data "x" t) η h0 fun k hk => by
    obtain ⟨a, b⟩ := h.pos t ht k hk
    refine ⟨by linarith, ?_, by rwa [abs_sub_comm]⟩
    calc |z.data "x" t k| = |y.data "x" t k + (z.data "x" t k - y.data "x" t k)| := by rw [add_sub_cancel]
      _ ≤ M + 1 := (abs_add_le _ _).trans (by linarith)
  refine ⟨this.1.trans (le_abs_self B), ?_⟩
  rw [abs_sub_comm]
  exact this.2.trans (mul_le_mul_of_nonneg_right (le_abs_self B) h0)

private theorem steady_of {φ : String → Xva ℝ → ℕ → ℝ} (h : ∀ L M η z y, NearData m L M η z y → ∀ t < y.n,
    |φ L y t| ≤ M ∧ |φ L z t - φ L y t| ≤ η) : Steady m φ := by
  refine fun M => ⟨max |M| 1, by positivity, fun L η z y h0 _ hn t ht => ?_⟩
  obtain ⟨a, b⟩ := h L M η z y hn t ht
  refine ⟨a.trans ((le_abs_self M).trans (le_max_left _ _)), b.trans ?_⟩
  calc η = 1 * η := (one_mul η).symm
    _ ≤ max |M| 1 * η := mul_le_mul_of_nonneg_right (le_max_right _ _) h0

theorem Steady.vel {k : ℕ} (hk : k < m.dimx) : Steady m fun _ xva t => xva.data "v" t k :=
  steady_of fun _ _ _ _ _ h t ht => h.vel t ht k hk

theorem Steady.acc (h1 : m.cls ≠ .overdamped) (h2 : m.cls ≠ .noVelBasis) {k : ℕ} (hk : k < m.dimx) :
    Steady m fun _ xva t => xva.data "a" t k := steady_of fun _ _ _ _ _ h t ht => h.acc h1 h2 t ht k hk

theorem Steady.obs {k : ℕ} (hk : k < m.dimObs) : Steady m fun L xva t => xva.data L t k :=
  steady_of fun _ _ _ _ _ h t ht => h.obs t ht k hk

theorem Steady.add (h : Steady m φ) (h' : Steady m ψ) : Steady m fun L xva t => φ L xva t + ψ L xva t := by
  intro M
  obtain ⟨C, hC, H⟩ := h M
  obtain ⟨C', hC', H'⟩ := h' M
  refine ⟨C + C', by positivity, fun L η z y h0 h1 hn t ht => ?_⟩
  obtain ⟨a, b⟩ := H L η z y h0 h1 hn t ht
  obtain ⟨a', b'⟩ := H' L η z y h0 h1 hn t ht
  refine ⟨(abs_add_le _ _).trans (add_le_add a a'), ?_⟩
  rw [add_sub_add_comm, add_mul]
  exact (abs_add_le _ _).trans (add_le_add b b')

/-- Products of numbers known up to an error. -/
theorem mul_near {u u' w w' C C' η : ℝ} (hC : 0 ≤ C) (hC' : 0 ≤ C') (h0 : 0 ≤ η) (h1 : η ≤ 1) (a : |u'| ≤ C) (b : |u - u'| ≤ C * η)
    (a' : |w'| ≤ C') (b' : |w - w'| ≤ C' * η) : |u * w - u' * w'| ≤ 3 * C * C' * η := by
  have hw : |w| ≤ 2 * C' := by
    calc |w| = |w' + (w - w')| := by rw [add_sub_cancel]
      _ ≤ C' + C' * η := (abs_add_le _ _).trans (add_le_add a' b')
      _ ≤ 2 * C' := by nlinarith
  rw [show u * w - u' * w' = (u - u') * w + u' * (w - w') by ring]
  refine (abs_add_le _ _).trans ?_
  rw [abs_mul, abs_mul]
  calc |u - u'| * |w| + |u'| * |w - w'| ≤ C * η * (2 * C') + C * (C' * η) := by gcongr
    _ = 3 * C * C' * η := by ring

theorem Steady.mul (h : Steady m φ) (h' : Steady m ψ) : Steady m fun L xva t => φ L xva t * ψ L xva t := by
  intro M
  obtain ⟨C, hC, H⟩ := h M
  obtain ⟨C', hC', H'⟩ := h' M
  refine ⟨3 * C * C', by positivity, fun L η z y h0 h1 hn t ht => ?_⟩
  obtain ⟨a, b⟩ := H L η z y h0 h1 hn t ht
  obtain ⟨a', b'⟩ := H' L η z y h0 h1 hn t ht
  refine ⟨?_, mul_near hC hC' h0 h1 a b a' b'⟩
  rw [abs_mul]
  calc |φ L y t| * |ψ L y t| ≤ C * C' := by gcongr
    _ ≤ 3 * C * C' := by nlinarith [mul_nonneg hC hC']

theorem Steady.zero : Steady m fun _ _ _ => 0 := fun _ => ⟨0, le_rfl, fun _ _ _ _ _ _ _ _ _ => by simp⟩

theorem Steady.sum {d : ℕ} {φ : ℕ → String → Xva ℝ → ℕ → ℝ} (h : ∀ k < d, Steady m (φ k)) :
    Steady m fun L xva t => ∑ k ∈ range d, φ k L xva t := by
  induction d with
  | zero => simpa using Steady.zero
  | succ d ih =>
    simp only [sum_range_succ]
    exact (ih fun k hk => h k (by omega)).add (h d (by omega))

theorem Steady.congr (h : Steady m φ) (e : ∀ L xva t, xva.dimx = m.dimx → ψ L xva t = φ L xva t) : Steady m ψ := by
  intro M
  obtain ⟨C, hC, H⟩ := h M
  refine ⟨C, hC, fun L η z y h0 h1 hn t ht => ?_⟩
  rw [e L y t hn.dim', e L z t hn.dim]
  exact H L η z y h0 h1 hn t ht

theorem steady_chain (hb : TameBasis m) (hc : m.cls ≠ .constKernel) {q : ℕ} (hq : q < m.basis.nOut) :
    Steady m fun _ xva t => ∑ d ∈ range m.dimx, m.basis.deriv (xva.data "x" t) q d * xva.data "v" t d :=
  Steady.sum (φ := fun d _ xva t => m.basis.deriv (xva.data "x" t) q d * xva.data "v" t d) fun d hd =>
    (Steady.of_pos (hb.deriv hc q hq d hd)).mul (Steady.vel hd)

theorem steady_force (hb : TameBasis m) {i : ℕ} (hi : i < m.nForce) : Steady m fun _ xva t => forceFeature m xva t i := by
  by_cases c : m.cls = .withFriction ∧ m.basis.nOut ≤ i
  · refine (steady_chain hb (by simp [c.1]) (q := i - m.basis.nOut) ?_).congr fun L xva t hx => ?_
    · unfold BasisModel.nForce at hi
      rw [c.1] at hi
      simp only at hi
      have := c.2
      omega
    · unfold forceFeature
      rw [if_pos c, hx]
  · refine (Steady.of_pos (hb.basis i ?_)).congr fun L xva t hx => ?_
    · unfold BasisModel.nForce at hi
      by_contra hh
      cases h : m.cls <;> rw [h] at hi <;> simp only at hi <;> first | omega | exact c ⟨h, by omega⟩
    · unfold forceFeature
      rw [if_neg c]

theorem steady_corr (hb : TameBasis m) {i : ℕ} (hi : i < nCorr m) : Steady m fun _ xva t => corrFeature m xva t i := by
  unfold nCorr at hi
  cases h : m.cls <;> rw [h] at hi <;> simp only at hi
  case posGle | withFriction =>
    refine (steady_chain hb (by simp [h]) (q := i) (by omega)).congr fun L xva t hx => ?_
    simp only [corrFeature, h, hx]
  case noVelBasis | overdamped =>
    refine (Steady.of_pos (hb.basis i hi)).congr fun L xva t hx => ?_
    simp only [corrFeature, h]
  case constKernel =>
    refine (Steady.vel hi).congr fun L xva t hx => ?_
    simp only [corrFeature, h]
  case hybrid =>
    by_cases c : i < m.dimx
    · refine (Steady.vel c).congr fun L xva t hx => ?_
      simp only [corrFeature, h, if_pos c]
    · refine (Steady.of_pos (hb.basis (i - m.dimx) (by omega))).congr fun L xva t hx => ?_
      simp only [corrFeature, h, if_neg c]

theorem steady_corrDot (hb : TameBasis m) {i : ℕ} (hi : i < nCorr m) : Steady m fun _ xva t => corrFeatureDot m xva t i := by
  unfold nCorr at hi
  cases h : m.cls <;> rw [h] at hi <;> simp only at hi
  case posGle | withFriction =>
    have hq : i < m.basis.nOut := by omega
    have h1 : Steady m fun _ xva t => ∑ d ∈ range m.dimx, m.basis.deriv (xva.data "x" t) i d * xva.data "a" t d :=
      Steady.sum (φ := fun d _ xva t => m.basis.deriv (xva.data "x" t) i d * xva.data "a" t d) fun d hd =>
        (Steady.of_pos (hb.deriv (by simp [h]) i hq d hd)).mul (Steady.acc (by simp [h]) (by simp [h]) hd)
    have h2 : Steady m fun _ xva t => ∑ d ∈ range m.dimx, ∑ d' ∈ range m.dimx,
        m.basis.hessian (xva.data "x" t) i d d' * xva.data "v" t d * xva.data "v" t d' :=
      Steady.sum (φ := fun d _ xva t => ∑ d' ∈ range m.dimx,
        m.basis.hessian (xva.data "x" t) i d d' * xva.data "v" t d * xva.data "v" t d') fun d hd =>
        Steady.sum (φ := fun d' _ xva t => m.basis.hessian (xva.data "x" t) i d d' * xva.data "v" t d * xva.data "v" t d') fun d' hd' =>
          ((Steady.of_pos (hb.hessian (by simp [h]) i hq d hd d' hd')).mul (Steady.vel hd)).mul (Steady.vel hd')
    refine (h1.add h2).congr fun L xva t hx => ?_
    simp only [corrFeatureDot, h, hx]
  case noVelBasis | overdamped =>
    refine (steady_chain hb (by simp [h]) hi).congr fun L xva t hx => ?_
    simp only [corrFeatureDot, h, hx]
  case constKernel =>
    refine (Steady.acc (by simp [h]) (by simp [h]) hi).congr fun L xva t hx => ?_
    simp only [corrFeatureDot, h]
  case hybrid =>
    by_cases c : i < m.dimx
    · refine (Steady.acc (by simp [h]) (by simp [h]) c).congr fun L xva t hx => ?_
      simp only [corrFeatureDot, h, if_pos c]
    · refine (steady_chain hb (by simp [h]) (q := i - m.dimx) (by omega)).congr fun L xva t hx => ?_
      simp only [corrFeatureDot, h, if_neg c, hx]

/-! ### Averages -/

private theorem forall2_near {m : BasisModel ℝ} {L : String} {M η B : ℝ} {zs ys : List (Xva ℝ)}
    (h : List.Forall₂ (NearData m L M η) zs ys) {u : Xva ℝ → ℝ} (hB : 0 ≤ B)
    (hu : ∀ z y, NearData m L M η z y → |u z - u y| ≤ (y.n : ℝ) * B) :
    |(zs.map u).sum / ((zs.map fun z => z.n).sum : ℕ) - (ys.map u).sum / ((ys.map fun y => y.n).sum : ℕ)| ≤ B := by
  have e : (zs.map fun z => z.n) = ys.map fun y => y.n := by
    induction h with
    | nil => rfl
    | cons h _ ih => rw [List.map_cons, List.map_cons, h.frames, ih]
  have d : |(zs.map u).sum - (ys.map u).sum| ≤ ((ys.map fun y => y.n).sum : ℕ) * B := by
    clear e
    induction h with
    | nil => simp
    | cons h _ ih =>
      simp only [List.map_cons, List.sum_cons, Nat.cast_add, add_mul]
      rw [add_sub_add_comm]
      exact (abs_add_le _ _).trans (add_le_add (hu _ _ h) ih)
  rw [e, ← sub_div, abs_div, Nat.abs_cast]
  rcases Nat.eq_zero_or_pos (ys.map fun y => y.n).sum with h0 | h0
  · rw [h0, Nat.cast_zero, div_zero]
    exact hB
  · rw [div_le_iff₀ (by exact_mod_cast h0), mul_comm]
    exact d

/-- Averages over all frames. -/
theorem pooled_steady (hφ : Steady m φ) (M : ℝ) : ∃ C : ℝ, 0 ≤ C ∧ ∀ (L : String) (η : ℝ) (zs ys : List (Xva ℝ)), 0 ≤ η → η ≤ 1 →
    List.Forall₂ (NearData m L M η) zs ys → |pooledMean (zs.map fun xva => (xva.n, φ L xva)) -
      pooledMean (ys.map fun xva => (xva.n, φ L xva))| ≤ C * η := by
  obtain ⟨C, hC, H⟩ := hφ M
  refine ⟨C, hC, fun L η zs ys h0 h1 h => ?_⟩
  have := forall2_near h (u := fun xva => ∑ t ∈ range xva.n, φ L xva t) (B := C * η) (by positivity) fun z y hn => by
    rw [hn.frames, ← sum_sub_distrib]
    refine (abs_sum_le_sum_abs _ _).trans ((sum_le_sum fun t ht => (H L η z y h0 h1 hn t (mem_range.1 ht)).2).trans ?_)
    simp
  simpa only [pooledMean, pooledSum, List.map_map, Function.comp_def] using this

/-- Correlations. -/
theorem corr_steady (hφ : Steady m φ) (hψ : Steady m ψ) (M : ℝ) : ∃ C : ℝ, 0 ≤ C ∧ ∀ (L : String) (η : ℝ) (zs ys : List (Xva ℝ)),
    0 ≤ η → η ≤ 1 → List.Forall₂ (NearData m L M η) zs ys → ∀ n, |meanCorr zs (φ L) (ψ L) n - meanCorr ys (φ L) (ψ L) n| ≤ C * η := by
  obtain ⟨C, hC, H⟩ := hφ M
  obtain ⟨C', hC', H'⟩ := hψ M
  refine ⟨3 * C * C', by positivity, fun L η zs ys h0 h1 h n => ?_⟩
  have := forall2_near h (u := fun xva => (xva.n : ℝ) * corr xva.n (φ L xva) (ψ L xva) n) (B := 3 * C * C' * η) (by positivity)
    fun z y hn => by
      rw [hn.frames, ← mul_sub, abs_mul, Nat.abs_cast]
      refine mul_le_mul_of_nonneg_left ?_ (Nat.cast_nonneg _)
      unfold corr
      rw [← sub_div, ← sum_sub_distrib, abs_div, Nat.abs_cast]
      rcases Nat.eq_zero_or_pos (y.n - n) with c | c
      · rw [c, Nat.cast_zero, div_zero]
        positivity
      · rw [div_le_iff₀ (by exact_mod_cast c)]
        refine (abs_sum_le_sum_abs _ _).trans ((sum_le_sum fun t ht => ?_).trans (le_of_eq (a := ∑ t ∈ range (y.n - n), 3 * C * C' * η) ?_))
        · have ht := mem_range.1 ht
          obtain ⟨a, b⟩ := H L η z y h0 h1 hn t (by omega)
          obtain ⟨a', b'⟩ := H' L η z y h0 h1 hn (t + n) (by omega)
          exact mul_near hC hC' h0 h1 a b a' b'
        · rw [sum_const, card_range, nsmul_eq_mul, mul_comm]
  simpa only [meanCorr, weightedMean, List.map_map, Function.comp_def] using this

end

/-- Finitely many constants. -/
theorem exists_bound {ι : Type*} [Finite ι] {P : ι → ℝ → Prop} (h : ∀ i, ∃ C : ℝ, 0 ≤ C ∧ P i C)
    (mono : ∀ i C C', C ≤ C' → P i C → P i C') : ∃ C : ℝ, 0 ≤ C ∧ ∀ i, P i C := by
  choose c h0 hc using h
  obtain ⟨C, hC⟩ := (Set.finite_range c).bddAbove
  exact ⟨max C 0, le_max_right _ _, fun i => mono i _ _ ((hC ⟨i, rfl⟩).trans (le_max_left _ _)) (hc i)⟩

section
variable {m : BasisModel ℝ} {μ : Averages m.nForce (nCorr m) m.dimObs}

private theorem pooled_all {ι : Type*} [Finite ι] {φ : ι → String → Xva ℝ → ℕ → ℝ} (hφ : ∀ i, Steady m (φ i)) (M : ℝ) :
    ∃ C : ℝ, 0 ≤ C ∧ ∀ (i : ι) (L : String) (η : ℝ) (zs ys : List (Xva ℝ)), 0 ≤ η → η ≤ 1 →
      List.Forall₂ (NearData m L M η) zs ys → |pooledMean (zs.map fun xva => (xva.n, φ i L xva)) -
        pooledMean (ys.map fun xva => (xva.n, φ i L xva))| ≤ C * η :=
  exists_bound (fun i => pooled_steady (hφ i) M) fun _ _ _ hC h L η zs ys h0 h1 hn =>
    (h L η zs ys h0 h1 hn).trans (mul_le_mul_of_nonneg_right hC h0)

private theorem corr_all {ι κ : Type*} [Finite ι] [Finite κ] {φ : ι → String → Xva ℝ → ℕ → ℝ} {ψ : κ → String → Xva ℝ → ℕ → ℝ}
    (hφ : ∀ i, Steady m (φ i)) (hψ : ∀ i, Steady m (ψ i)) (M : ℝ) :
    ∃ C : ℝ, 0 ≤ C ∧ ∀ (i : ι × κ) (L : String) (η : ℝ) (zs ys : List (Xva ℝ)), 0 ≤ η → η ≤ 1 →
      List.Forall₂ (NearData m L M η) zs ys → ∀ n, |meanCorr zs (φ i.1 L) (ψ i.2 L) n - meanCorr ys (φ i.1 L) (ψ i.2 L) n| ≤ C * η :=
  exists_bound (fun i => corr_steady (hφ i.1) (hψ i.2) M) fun _ _ _ hC h L η zs ys h0 h1 hn n =>
    (h L η zs ys h0 h1 hn n).trans (mul_le_mul_of_nonneg_right hC h0)

/-- **C169**. The averages of trajectories with errors `η` are those of the trajectories without errors, up to `C η`. -/
theorem C169_averages (hb : TameBasis m) (M : ℝ) : ∃ C : ℝ, 0 ≤ C ∧ ∀ (L : String) (zs ys : List (Xva ℝ)) (N : ℕ)
    (dt ε η : ℝ), 0 ≤ η → η ≤ 1 → List.Forall₂ (NearData m L M η) zs ys → NearAverages m L μ ys N dt ε →
    NearAverages m L μ zs N dt (ε + C * η) := by
  have hf : ∀ i : Fin m.nForce, Steady m fun _ xva t => forceFeature m xva t i := fun i => steady_force hb i.2
  have hc : ∀ i : Fin (nCorr m), Steady m fun _ xva t => corrFeature m xva t i := fun i => steady_corr hb i.2
  have hd : ∀ i : Fin (nCorr m), Steady m fun _ xva t => corrFeatureDot m xva t i := fun i => steady_corrDot hb i.2
  have ho : ∀ i : Fin m.dimObs, Steady m fun L xva t => xva.data L t i := fun i => Steady.obs i.2
  obtain ⟨C1, p1, H1⟩ := pooled_all (fun i : Fin m.nForce × Fin m.nForce => (hf i.1).mul (hf i.2)) M
  obtain ⟨C2, p2, H2⟩ := pooled_all (fun i : Fin m.nForce × Fin m.dimObs => (hf i.1).mul (ho i.2)) M
  obtain ⟨C3, p3, H3⟩ := corr_all hc hc M
  obtain ⟨C4, p4, H4⟩ := corr_all hc ho M
  obtain ⟨C5, p5, H5⟩ := corr_all hc hf M
  obtain ⟨C6, p6, H6⟩ := corr_all hd hc M
  obtain ⟨C7, p7, H7⟩ := corr_all hd ho M
  obtain ⟨C8, p8, H8⟩ := corr_all hd hf M
  refine ⟨C1 + C2 + C3 + C4 + C5 + C6 + C7 + C8, by positivity, fun L zs ys N dt ε η h0 h1 h hn => ?_⟩
  have key : ∀ {u w c C : ℝ}, |u - w| ≤ C * η → |w - c| ≤ ε → C ≤ C1 + C2 + C3 + C4 + C5 + C6 + C7 + C8 →
      |u - c| ≤ ε + (C1 + C2 + C3 + C4 + C5 + C6 + C7 + C8) * η := by
    intro u w c C h1 h2 h3
    rw [show u - c = (w - c) + (u - w) by ring]
    exact (abs_add_le _ _).trans (add_le_add h2 (h1.trans (mul_le_mul_of_nonneg_right h3 h0)))
  exact {
    gram := fun i j => key (H1 (i, j) L η zs ys h0 h1 h) (hn.gram i j) (by linarith)
    proj := fun i j => key (H2 (i, j) L η zs ys h0 h1 h) (hn.proj i j) (by linarith)
    corr := fun n hN i j => key (H3 (i, j) L η zs ys h0 h1 h n) (hn.corr n hN i j) (by linarith)
    obs := fun n hN i j => key (H4 (i, j) L η zs ys h0 h1 h n) (hn.obs n hN i j) (by linarith)
    cross := fun n hN i j => key (H5 (i, j) L η zs ys h0 h1 h n) (hn.cross n hN i j) (by linarith)
    dcorr := fun n hN i j => key (H6 (i, j) L η zs ys h0 h1 h n) (hn.dcorr n hN i j) (by linarith)
    dobs := fun n hN i j => key (H7 (i, j) L η zs ys h0 h1 h n) (hn.dobs n hN i j) (by linarith)
    dcross := fun n hN i j => key (H8 (i, j) L η zs ys h0 h1 h n) (hn.dcross n hN i j) (by linarith) }

/-! ### The estimation -/

variable {F : Mat ℝ m.nForce m.dimObs} {k : ℝ → Mat ℝ (nCorr m) m.dimObs} {T MW : ℝ}

theorem Spec.NearAverages.mono' {L : String} {xvas : List (Xva ℝ)} {N : ℕ} {dt ε ε' : ℝ} (h : NearAverages m L μ xvas N dt ε)
    (hε : ε ≤ ε') : NearAverages m L μ xvas N dt ε' :=
  ⟨fun i j => (h.gram i j).trans hε, fun i j => (h.proj i j).trans hε, fun n hn i j => (h.corr n hn i j).trans hε,
    fun n hn i j => (h.obs n hn i j).trans hε, fun n hn i j => (h.cross n hn i j).trans hε, fun n hn i j => (h.dcorr n hn i j).trans hε,
    fun n hn i j => (h.dobs n hn i j).trans hε, fun n hn i j => (h.dcross n hn i j).trans hε⟩

private theorem averages_sum (hb : TameBasis m) (M : ℝ) : ∃ C : ℝ, 1 ≤ C ∧ ∀ (L : String) (zs ys : List (Xva ℝ)) (N : ℕ)
    (dt ε η : ℝ), 0 ≤ ε → 0 ≤ η → η ≤ 1 → List.Forall₂ (NearData m L M η) zs ys → NearAverages m L μ ys N dt ε →
    NearAverages m L μ zs N dt (C * (ε + η)) := by
  obtain ⟨C, hC, H⟩ := C169_averages (μ := μ) hb M
  refine ⟨1 + C, by linarith, fun L zs ys N dt ε η hε h0 h1 h hn => (H L zs ys N dt ε η h0 h1 h hn).mono' ?_⟩
  nlinarith [mul_nonneg hC hε]

private theorem scale_le {C A e g : ℝ} (hA : 1 ≤ A) (he : 0 ≤ e) (hg : 0 ≤ g) : C * (g + A * e) ≤ |C| * A * (g + e) := by
  calc C * (g + A * e) ≤ |C| * (g + A * e) := mul_le_mul_of_nonneg_right (le_abs_self C) (by positivity)
    _ ≤ |C| * (A * (g + e)) := mul_le_mul_of_nonneg_left (by nlinarith) (abs_nonneg C)
    _ = |C| * A * (g + e) := by ring

/-- **C169** for `second_kind_rect`: errors `η` of the data count as errors of the averages. -/
theorem C169_second_kind_rect (hb : TameBasis m) (M : ℝ) (hG : μ.gram.det ≠ 0) (hF : μ.gram * F = μ.proj)
    (hW : ∀ t ∈ Set.Icc 0 T, ∀ i j, |μ.cross t i j| ≤ MW ∧ |μ.dcross t i j| ≤ MW) (hm : m.WF) (hx1 : 1 ≤ m.dimx)
    (hh : m.cls ≠ .hybrid) (hB0 : (μ.corr 0).det ≠ 0) (hB : Lip T μ.dcorr) (hk : Lip T k)
    (heq : SecondKind T (μ.corr 0) μ.dcorr (μ.dresidual F) k) :
    ∃ C δ : ℝ, 0 < δ ∧ ∀ (env : Env ℝ) (method : String) (vectorize : Bool) (rankTol : Option ℝ) (d : String)
      (s : EstState ℝ) (ys : List (Xva ℝ)) (ε η : ℝ), Setup env method vectorize m d s →
      List.Forall₂ (NearData m s.model.Lobs M η) s.xvas ys →
      NearAverages m s.model.Lobs μ ys s.model.truncInd s.model.dt ε → 0 < s.model.dt → s.model.dt ≤ δ → 0 ≤ ε → 0 ≤ η →
      ε + η ≤ δ → ((s.model.truncInd - 1 : ℕ) : ℝ) * s.model.dt ≤ T →
      ∃ s1 s2 s3, computeMeanForce env s = (s1, none) ∧ computeCorrs env method vectorize true rankTol s1 = (s2, none) ∧
        computeKernelStep "second_kind_rect" (fun _ _ => none) s2 = (s3, none) ∧
        Estimates m F k s.model.truncInd s.model.dt (C * (ε + η)) (C * (s.model.dt + (ε + η))) s3.model := by
  obtain ⟨A, hA, HA⟩ := averages_sum (μ := μ) hb M
  obtain ⟨C, δ, hδ, H⟩ := C142_second_kind_rect hG hF hW hm hx1 hh hB0 hB hk heq
  have hA0 : 0 < A := by linarith
  refine ⟨|C| * A, min 1 (δ / A), by positivity, ?_⟩
  intro env method vectorize rankTol d s ys ε η hs hd hn hdt hdtδ hε hη hle hT
  have hδA : δ / A ≤ δ := div_le_self hδ.le hA
  have l1 : s.model.dt ≤ 1 := hdtδ.trans (min_le_left _ _)
  have lp : s.model.dt ^ 2 ≤ 1 := pow_le_one₀ hdt.le l1
  have hm1 : min 1 (δ / A) ≤ 1 := min_le_left _ _
  have hm0 : 0 < min 1 (δ / A) := by positivity
  have h1 : η ≤ 1 := by
    refine (by linarith : η ≤ ε + η).trans (hle.trans ?_)
    exact hm1
  have hA' : A * (ε + η) ≤ δ := by
    have : min 1 (δ / A) ≤ δ / A := min_le_right _ _
    calc A * (ε + η) ≤ A * (δ / A) := mul_le_mul_of_nonneg_left (hle.trans this) hA0.le
      _ = δ := by field_simp
  obtain ⟨s1, s2, s3, a1, a2, a3, a4⟩ := H env method vectorize rankTol d s (A * (ε + η)) hs
    (HA s.model.Lobs s.xvas ys _ _ ε η hε hη h1 hd hn) hdt (hdtδ.trans ((min_le_right _ _).trans hδA)) (by positivity) hA' hT
  refine ⟨s1, s2, s3, a1, a2, a3, a4.mono ?_ ?_⟩
  · have := scale_le (C := C) (g := 0) hA (add_nonneg hε hη) le_rfl
    rwa [zero_add, zero_add] at this
  · exact scale_le hA (add_nonneg hε hη) hdt.le

/-- **C169** for `second_kind_trapz`: errors `η` of the data count as errors of the averages. -/
theorem C169_second_kind_trapz (hb : TameBasis m) (M : ℝ) (hG : μ.gram.det ≠ 0) (hF : μ.gram * F = μ.proj)
    (hW : ∀ t ∈ Set.Icc 0 T, ∀ i j, |μ.cross t i j| ≤ MW ∧ |μ.dcross t i j| ≤ MW) (hm : m.WF) (hx1 : 1 ≤ m.dimx)
    (hh : m.cls ≠ .hybrid) (hB0 : (μ.corr 0).det ≠ 0) {B' : ℝ → Mat ℝ (nCorr m) (nCorr m)} {k' : ℝ → Mat ℝ (nCorr m) m.dimObs}
    (hB : DerivOn T μ.dcorr B') (hB' : Lip T B') (hk : DerivOn T k k') (hk' : Lip T k')
    (heq : SecondKind T (μ.corr 0) μ.dcorr (μ.dresidual F) k) :
    ∃ C δ : ℝ, 0 < δ ∧ ∀ (env : Env ℝ) (method : String) (vectorize : Bool) (rankTol : Option ℝ) (d : String)
      (s : EstState ℝ) (ys : List (Xva ℝ)) (ε η : ℝ), Setup env method vectorize m d s →
      List.Forall₂ (NearData m s.model.Lobs M η) s.xvas ys →
      NearAverages m s.model.Lobs μ ys s.model.truncInd s.model.dt ε → 0 < s.model.dt → s.model.dt ≤ δ → 0 ≤ ε → 0 ≤ η →
      ε + η ≤ δ → ((s.model.truncInd - 1 : ℕ) : ℝ) * s.model.dt ≤ T →
      ∃ s1 s2 s3, computeMeanForce env s = (s1, none) ∧ computeCorrs env method vectorize true rankTol s1 = (s2, none) ∧
        computeKernelStep "second_kind_trapz" (fun _ _ => none) s2 = (s3, none) ∧
        Estimates m F k s.model.truncInd s.model.dt (C * (ε + η)) (C * (s.model.dt ^ 2 + (ε + η))) s3.model := by
  obtain ⟨A, hA, HA⟩ := averages_sum (μ := μ) hb M
  obtain ⟨C, δ, hδ, H⟩ := C142_second_kind_trapz hG hF hW hm hx1 hh hB0 hB hB' hk hk' heq
  have hA0 : 0 < A := by linarith
  refine ⟨|C| * A, min 1 (δ / A), by positivity, ?_⟩
  intro env method vectorize rankTol d s ys ε η hs hd hn hdt hdtδ hε hη hle hT
  have hδA : δ / A ≤ δ := div_le_self hδ.le hA
  have l1 : s.model.dt ≤ 1 := hdtδ.trans (min_le_left _ _)
  have lp : s.model.dt ^ 2 ≤ 1 := pow_le_one₀ hdt.le l1
  have hm1 : min 1 (δ / A) ≤ 1 := min_le_left _ _
  have hm0 : 0 < min 1 (δ / A) := by positivity
  have h1 : η ≤ 1 := by
    refine (by linarith : η ≤ ε + η).trans (hle.trans ?_)
    exact hm1
  have hA' : A * (ε + η) ≤ δ := by
    have : min 1 (δ / A) ≤ δ / A := min_le_right _ _
    calc A * (ε + η) ≤ A * (δ / A) := mul_le_mul_of_nonneg_left (hle.trans this) hA0.le
      _ = δ := by field_simp
  obtain ⟨s1, s2, s3, a1, a2, a3, a4⟩ := H env method vectorize rankTol d s (A * (ε + η)) hs
    (HA s.model.Lobs s.xvas ys _ _ ε η hε hη h1 hd hn) hdt (hdtδ.trans ((min_le_right _ _).trans hδA)) (by positivity) hA' hT
  refine ⟨s1, s2, s3, a1, a2, a3, a4.mono ?_ ?_⟩
  · have := scale_le (C := C) (g := 0) hA (add_nonneg hε hη) le_rfl
    rwa [zero_add, zero_add] at this
  · exact scale_le hA (add_nonneg hε hη) (sq_nonneg _)

/-- **C169** for `rect`: errors `η` of the data count as errors of the averages. -/
theorem C169_rect (hb : TameBasis m) (M : ℝ) (hG : μ.gram.det ≠ 0) (hF : μ.gram * F = μ.proj)
    (hW : ∀ t ∈ Set.Icc 0 T, ∀ i j, |μ.cross t i j| ≤ MW ∧ |μ.dcross t i j| ≤ MW) (hm : m.WF) (hx1 : 1 ≤ m.dimx)
    (hB0 : (μ.corr 0).det ≠ 0) {B' : ℝ → Mat ℝ (nCorr m) (nCorr m)} (hB : DerivOn T μ.corr B') (hB' : Lip T B') (hk : Lip T k)
    (heq : FirstKind T μ.corr (μ.residual F) k) :
    ∃ C δ : ℝ, 0 < δ ∧ ∀ (env : Env ℝ) (method km : String) (vectorize : Bool) (rankTol : Option ℝ) (d : String)
      (s : EstState ℝ) (ys : List (Xva ℝ)) (ε η : ℝ), km ∈ ["rect", "rectangular"] → Setup env method vectorize m d s →
      List.Forall₂ (NearData m s.model.Lobs M η) s.xvas ys →
      NearAverages m s.model.Lobs μ ys s.model.truncInd s.model.dt ε → 0 < s.model.dt → s.model.dt ≤ δ → 0 ≤ ε → 0 ≤ η →
      ε + η ≤ δ * s.model.dt → 2 ≤ s.model.truncInd → ((s.model.truncInd - 1 : ℕ) : ℝ) * s.model.dt ≤ T →
      ∃ s1 s2 s3, computeMeanForce env s = (s1, none) ∧ computeCorrs env method vectorize true rankTol s1 = (s2, none) ∧
        computeKernelStep km (fun _ _ => none) s2 = (s3, none) ∧
        Estimates m F k (s.model.truncInd - 1) s.model.dt (C * (ε + η)) (C * (s.model.dt + (ε + η) / s.model.dt)) s3.model := by
  obtain ⟨A, hA, HA⟩ := averages_sum (μ := μ) hb M
  obtain ⟨C, δ, hδ, H⟩ := C142_rect hG hF hW hm hx1 hB0 hB hB' hk heq
  have hA0 : 0 < A := by linarith
  refine ⟨|C| * A, min 1 (δ / A), by positivity, ?_⟩
  intro env method km vectorize rankTol d s ys ε η hkm hs hd hn hdt hdtδ hε hη hle h2 hT
  have hδA : δ / A ≤ δ := div_le_self hδ.le hA
  have l1 : s.model.dt ≤ 1 := hdtδ.trans (min_le_left _ _)
  have lp : s.model.dt ^ 2 ≤ 1 := pow_le_one₀ hdt.le l1
  have hm1 : min 1 (δ / A) ≤ 1 := min_le_left _ _
  have hm0 : 0 < min 1 (δ / A) := by positivity
  have h1 : η ≤ 1 := by
    refine (by linarith : η ≤ ε + η).trans (hle.trans ?_)
    nlinarith
  have hA' : A * (ε + η) ≤ δ * s.model.dt := by
    have : min 1 (δ / A) * s.model.dt ≤ δ / A * s.model.dt := by gcongr; exact min_le_right _ _
    calc A * (ε + η) ≤ A * (δ / A * s.model.dt) := mul_le_mul_of_nonneg_left (hle.trans this) hA0.le
      _ = δ * s.model.dt := by field_simp
  obtain ⟨s1, s2, s3, a1, a2, a3, a4⟩ := H env method km vectorize rankTol d s (A * (ε + η)) hkm hs
    (HA s.model.Lobs s.xvas ys _ _ ε η hε hη h1 hd hn) hdt (hdtδ.trans ((min_le_right _ _).trans hδA)) (by positivity) hA' h2 hT
  refine ⟨s1, s2, s3, a1, a2, a3, a4.mono ?_ ?_⟩
  · have := scale_le (C := C) (g := 0) hA (add_nonneg hε hη) le_rfl
    rwa [zero_add, zero_add] at this
  · rw [mul_div_assoc]
    exact scale_le hA (div_nonneg (add_nonneg hε hη) hdt.le) hdt.le

/-- **C169** for `trapz`: errors `η` of the data count as errors of the averages. -/
theorem C169_trapz (hb : TameBasis m) (M : ℝ) (hG : μ.gram.det ≠ 0) (hF : μ.gram * F = μ.proj)
    (hW : ∀ t ∈ Set.Icc 0 T, ∀ i j, |μ.cross t i j| ≤ MW ∧ |μ.dcross t i j| ≤ MW) (hm : m.WF) (hx1 : 1 ≤ m.dimx)
    (hh : m.cls ≠ .hybrid) (hB0 : (μ.corr 0).det ≠ 0) {B1 B2 B3 : ℝ → Mat ℝ (nCorr m) (nCorr m)} {k1 k2 : ℝ → Mat ℝ (nCorr m) m.dimObs}
    (hB1 : DerivOn T μ.corr B1) (hB2 : DerivOn T B1 B2) (hB3 : DerivOn T B2 B3) (hLB : Lip T B3)
    (hk1 : DerivOn T k k1) (hk2 : DerivOn T k1 k2) (hLk : Lip T k2)
    (heq : FirstKind T μ.corr (μ.residual F) k) (h0 : μ.dresidual F 0 = μ.corr 0 * k 0) :
    ∃ C δ : ℝ, 0 < δ ∧ ∀ (env : Env ℝ) (method : String) (vectorize : Bool) (rankTol : Option ℝ) (d : String)
      (s : EstState ℝ) (ys : List (Xva ℝ)) (ε η : ℝ), Setup env method vectorize m d s →
      List.Forall₂ (NearData m s.model.Lobs M η) s.xvas ys →
      NearAverages m s.model.Lobs μ ys s.model.truncInd s.model.dt ε → 0 < s.model.dt → s.model.dt ≤ δ → 0 ≤ ε → 0 ≤ η →
      ε + η ≤ δ * s.model.dt ^ 2 → 2 ≤ s.model.truncInd → ((s.model.truncInd - 1 : ℕ) : ℝ) * s.model.dt ≤ T →
      ∃ s1 s2 s3, computeMeanForce env s = (s1, none) ∧ computeCorrs env method vectorize true rankTol s1 = (s2, none) ∧
        computeKernelStep "trapz" (fun _ _ => none) s2 = (s3, none) ∧
        Estimates m F k (s.model.truncInd - 1) s.model.dt (C * (ε + η)) (C * (s.model.dt ^ 2 + (ε + η) / s.model.dt ^ 2)) s3.model := by
  obtain ⟨A, hA, HA⟩ := averages_sum (μ := μ) hb M
  obtain ⟨C, δ, hδ, H⟩ := C142_trapz hG hF hW hm hx1 hh hB0 hB1 hB2 hB3 hLB hk1 hk2 hLk heq h0
  have hA0 : 0 < A := by linarith
  refine ⟨|C| * A, min 1 (δ / A), by positivity, ?_⟩
  intro env method vectorize rankTol d s ys ε η hs hd hn hdt hdtδ hε hη hle h2 hT
  have hδA : δ / A ≤ δ := div_le_self hδ.le hA
  have l1 : s.model.dt ≤ 1 := hdtδ.trans (min_le_left _ _)
  have lp : s.model.dt ^ 2 ≤ 1 := pow_le_one₀ hdt.le l1
  have hm1 : min 1 (δ / A) ≤ 1 := min_le_left _ _
  have hm0 : 0 < min 1 (δ / A) := by positivity
  have h1 : η ≤ 1 := by
    refine (by linarith : η ≤ ε + η).trans (hle.trans ?_)
    nlinarith
  have hA' : A * (ε + η) ≤ δ * s.model.dt ^ 2 := by
    have : min 1 (δ / A) * s.model.dt ^ 2 ≤ δ / A * s.model.dt ^ 2 := by gcongr; exact min_le_right _ _
    calc A * (ε + η) ≤ A * (δ / A * s.model.dt ^ 2) := mul_le_mul_of_nonneg_left (hle.trans this) hA0.le
      _ = δ * s.model.dt ^ 2 := by field_simp
  obtain ⟨s1, s2, s3, a1, a2, a3, a4⟩ := H env method vectorize rankTol d s (A * (ε + η)) hs
    (HA s.model.Lobs s.xvas ys _ _ ε η hε hη h1 hd hn) hdt (hdtδ.trans ((min_le_right _ _).trans hδA)) (by positivity) hA' h2 hT
  refine ⟨s1, s2, s3, a1, a2, a3, a4.mono ?_ ?_⟩
  · have := scale_le (C := C) (g := 0) hA (add_nonneg hε hη) le_rfl
    rwa [zero_add, zero_add] at this
  · rw [mul_div_assoc]
    exact scale_le hA (div_nonneg (add_nonneg hε hη) (sq_nonneg _)) (sq_nonneg _)

end

/-! ### Velocities and accelerations from positions -/

namespace Spec

/-- The frames of a motion that `compute_va` keeps, without errors. -/
structure TrueFrames (m : BasisModel ℝ) (ds : Dataset ℝ) (q v a : ℝ → ℕ → ℝ) (y : Xva ℝ) : Prop where
  frames : y.n = ds.n - 2
  dim : y.dimx = m.dimx
  pos : ∀ t < y.n, ∀ k < m.dimx, y.data "x" t k = q (ds.time (t + 1)) k
  vel : ∀ t < y.n, ∀ k < m.dimx, y.data "v" t k = v (ds.time (t + 1)) k
  acc : ∀ t < y.n, ∀ k < m.dimx, y.data "a" t k = a (ds.time (t + 1)) k

end Spec

private theorem near_trans {u w c e e' g : ℝ} (h : |u - w| ≤ e) (h' : |w - c| ≤ e') (hg : e + e' ≤ g) : |u - c| ≤ g := by
  rw [show u - c = (u - w) + (w - c) by ring]
  exact (abs_add_le _ _).trans ((add_le_add h h').trans hg)

section
variable {m : BasisModel ℝ} {ds : Dataset ℝ} {t0 dt L J δ M : ℝ} {q v a b : ℝ → ℕ → ℝ} {y : Xva ℝ}

/-- **C169**, positions only: if the positions of a motion are known up to `δ`, the dataset that `compute_va` returns is that of
the motion with an error of at most `(L/6 + J/12) dt^2 + 4 δ/dt^2`. -/
theorem C169_positions (hd : 0 < m.dimx) (ho : m.dimObs = m.dimx) {Lobs : String} (hL : Lobs = "v" ∨ Lobs = "a")
    (hu : Uniform ds t0 dt) (hdt : dt ≤ 1) (hq : Moves m.dimx L q v a) (hj : Jerks m.dimx J a b) (hL0 : 0 ≤ L) (hJ0 : 0 ≤ J)
    (hδ : 0 ≤ δ) (hx : Approximates ds "x" m.dimx q δ) (hM : ∀ s, ∀ k < m.dimx, |q s k| ≤ M ∧ |v s k| ≤ M ∧ |a s k| ≤ M)
    (hy : TrueFrames m ds q v a y) :
    ∃ r, computeVa ds none (1 / 2) = .ok r ∧ IsInterior ds r ∧
      NearData m Lobs M ((L / 6 + J / 12) * dt ^ 2 + 4 * δ / dt ^ 2) r.toXva y := by
  obtain ⟨X, hX, hXδ⟩ := hx
  obtain ⟨r, h1, hI, kX, kV, kA⟩ := C45_compute_va ds (1 / 2) dt m.dimx X hd hu.dt hX
  have hp := hu.pos
  have hp2 : dt ^ 2 ≤ dt := by nlinarith
  have hp1 : dt ^ 2 ≤ 1 := by linarith
  have tn : ∀ i, ds.time (i + 1 + 1) = ds.time (i + 1) + dt ∧ ds.time i = ds.time (i + 1) - dt := fun i => by
    constructor <;> simp only [hu.time] <;> push_cast <;> ring
  have ny : y.n = r.n := hy.frames.trans hI.1.symm
  have e1 : δ ≤ 4 * δ / dt ^ 2 := by rw [le_div_iff₀ (by positivity)]; nlinarith
  have e2 : δ / dt ≤ 4 * δ / dt ^ 2 := by
    rw [div_le_div_iff₀ hp (by positivity)]
    nlinarith [mul_nonneg hδ hp.le]
  have e3 : 0 ≤ (L / 6 + J / 12) * dt ^ 2 := by positivity
  have toX : ∀ {name : String} {Y : ℕ → ℕ → ℝ}, r.Has name m.dimx Y → ∀ t < y.n, ∀ k < m.dimx, r.toXva.data name t k = Y t k :=
    fun h t ht k hk => by rw [toXva_has h (by omega), if_pos hk]
  have lt : ∀ t < y.n, t + 2 < ds.n := fun t ht => by have := hy.frames; omega
  have near3 : ∀ t < y.n, ∀ k < m.dimx, |X (t + 1 + 1) k - q (ds.time (t + 1) + dt) k| ≤ δ ∧ |X (t + 1) k - q (ds.time (t + 1)) k| ≤ δ ∧
      |X t k - q (ds.time (t + 1) - dt) k| ≤ δ := fun t ht k hk => by
    have := lt t ht
    rw [← (tn t).1, ← (tn t).2]
    exact ⟨hXδ _ (by omega) k hk, hXδ _ (by omega) k hk, hXδ _ (by omega) k hk⟩
  have posn : ∀ t < y.n, ∀ k < m.dimx, |y.data "x" t k| ≤ M ∧
      |r.toXva.data "x" t k - y.data "x" t k| ≤ (L / 6 + J / 12) * dt ^ 2 + 4 * δ / dt ^ 2 := fun t ht k hk => by
    rw [hy.pos t ht k hk, toX kX t ht k hk]
    exact ⟨(hM _ k hk).1, (near3 t ht k hk).2.1.trans (by linarith)⟩
  have veln : ∀ t < y.n, ∀ k < m.dimx, |y.data "v" t k| ≤ M ∧
      |r.toXva.data "v" t k - y.data "v" t k| ≤ (L / 6 + J / 12) * dt ^ 2 + 4 * δ / dt ^ 2 := fun t ht k hk => by
    rw [hy.vel t ht k hk, toX kV t ht k hk]
    refine ⟨(hM _ k hk).2.1, ?_⟩
    obtain ⟨n1, n2, n3⟩ := near3 t ht k hk
    have p := mixed_error (hq.vel k hk) (hq.acc k hk) (hq.lip k hk) hp (1 / 2) (ds.time (t + 1))
    have e : |(1 / 2 : ℝ)| + |1 - 1 / 2| = 1 := by norm_num
    rw [e, sub_self, zero_mul, zero_mul, sub_zero, one_mul] at p
    refine near_trans (e := δ / dt) ?_ p ?_
    · simp only [mixedDifference, Nat.add_sub_cancel]
      rw [← sub_div, abs_div, abs_of_pos hp]
      refine div_le_div_of_nonneg_right ?_ hp.le
      rw [abs_le] at n1 n3 ⊢
      constructor <;> linarith
    · have : 0 ≤ J / 12 * dt ^ 2 := by positivity
      linarith
  have accn : ∀ t < y.n, ∀ k < m.dimx, |y.data "a" t k| ≤ M ∧
      |r.toXva.data "a" t k - y.data "a" t k| ≤ (L / 6 + J / 12) * dt ^ 2 + 4 * δ / dt ^ 2 := fun t ht k hk => by
    rw [hy.acc t ht k hk, toX kA t ht k hk]
    refine ⟨(hM _ k hk).2.2, ?_⟩
    obtain ⟨n1, n2, n3⟩ := near3 t ht k hk
    have p := second_error' (hq.vel k hk) (hq.acc k hk) (hj.jerk k hk) (hj.lip k hk) hp (ds.time (t + 1))
    refine near_trans (e := 4 * δ / dt ^ 2) ?_ p ?_
    · simp only [secondDifference, Nat.add_sub_cancel]
      rw [← sub_div, abs_div, abs_of_pos (by positivity : 0 < dt ^ 2)]
      refine div_le_div_of_nonneg_right ?_ (by positivity)
      rw [abs_le] at n1 n2 n3 ⊢
      constructor <;> linarith
    · have : 0 ≤ L / 6 * dt ^ 2 := by positivity
      linarith
  refine ⟨r, h1, hI, ny.symm, ?_, hy.dim, posn, veln, fun _ _ => accn, fun t ht k hk => ?_⟩
  · obtain ⟨w, w1, w2, -⟩ := kX
    simp [Dataset.toXva, w1, w2]
  · rw [ho] at hk
    rcases hL with rfl | rfl
    · exact veln t ht k hk
    · exact accn t ht k hk

end

/-! ### Example: the two oscillators from their positions -/

namespace TwoOscillators

theorem tame : TameBasis model where
  basis := fun q _ M => ⟨max M 1, fun p p' δ hδ h => by
    obtain ⟨h1, -, h3⟩ := h 0 (by decide)
    refine ⟨h1.trans (le_max_left _ _), h3.trans ?_⟩
    calc δ = 1 * δ := (one_mul δ).symm
      _ ≤ max M 1 * δ := mul_le_mul_of_nonneg_right (le_max_right _ _) hδ⟩
  deriv := fun _ q _ i _ M => ⟨1, fun p p' δ hδ _ => by
    change |(1 : ℝ)| ≤ 1 ∧ |(1 : ℝ) - 1| ≤ 1 * δ
    simpa using hδ⟩
  hessian := fun _ q _ i _ j _ M => ⟨0, fun p p' δ _ _ => by
    change |(0 : ℝ)| ≤ 0 ∧ |(0 : ℝ) - 0| ≤ 0 * δ
    simp⟩

/-- The motion `cos(t) + σ cos(7 t)` or `sin(t) + σ sin(7 t)`, its derivatives. -/
noncomputable def path (c : Bool) (σ : ℝ) : ℕ → ℝ → ℝ
  | 0 => if c then U 1 σ else W 1 σ
  | 1 => if c then W (-1) (-7 * σ) else U 1 (7 * σ)
  | 2 => if c then U (-1) (-49 * σ) else W (-1) (-49 * σ)
  | 3 => if c then W 1 (343 * σ) else U (-1) (-343 * σ)
  | _ => if c then U 1 (2401 * σ) else W 1 (2401 * σ)

theorem path_deriv (c : Bool) (σ : ℝ) (n : ℕ) (hn : n < 4) (s : ℝ) : HasDerivAt (path c σ n) (path c σ (n + 1) s) s := by
  interval_cases n <;> cases c <;> simp only [path, if_true, Bool.false_eq_true, if_false]
  all_goals first
    | exact W_deriv _ _ s
    | exact U_deriv _ _ s
    | refine HasDerivAt.congr_deriv (W_deriv _ _ s) ?_
      simp only [U]; ring
    | refine HasDerivAt.congr_deriv (U_deriv _ _ s) ?_
      simp only [W]; ring

theorem path_le (c : Bool) {σ : ℝ} (hσ : |σ| = 1) (n : ℕ) (hn : n < 5) (s : ℝ) : |path c σ n s| ≤ 2402 := by
  interval_cases n <;> cases c <;> simp only [path, if_true, Bool.false_eq_true, if_false]
  all_goals first
    | refine (W_le _ _ s).trans ?_
    | refine (U_le _ _ s).trans ?_
  all_goals simp only [abs_mul, abs_neg, hσ]; norm_num

theorem path_lip (c : Bool) {σ : ℝ} (hσ : |σ| = 1) (n : ℕ) (hn : n < 4) (s s' : ℝ) :
    |path c σ n s - path c σ n s'| ≤ 2402 * |s - s'| :=
  convex_univ.norm_image_sub_le_of_norm_hasDerivWithin_le (fun x _ => (path_deriv c σ n hn x).hasDerivWithinAt)
    (fun x _ => path_le c hσ (n + 1) (by omega) x) (Set.mem_univ s') (Set.mem_univ s)

theorem path_moves (c : Bool) {σ : ℝ} (hσ : |σ| = 1) :
    Moves 1 2402 (fun s _ => path c σ 0 s) (fun s _ => path c σ 1 s) (fun s _ => path c σ 2 s) :=
  ⟨fun _ _ => path_deriv c σ 0 (by decide), fun _ _ => path_deriv c σ 1 (by decide), fun _ _ => path_lip c hσ 2 (by decide)⟩

theorem path_jerks (c : Bool) {σ : ℝ} (hσ : |σ| = 1) : Jerks 1 2402 (fun s _ => path c σ 2 s) (fun s _ => path c σ 3 s) :=
  ⟨fun _ _ => path_deriv c σ 2 (by decide), fun _ _ => path_lip c hσ 3 (by decide)⟩

/-- The positions at the times `-dt, 0, dt, ...` -/
noncomputable def record (dt : ℝ) (n : ℕ) (c : Bool) (σ : ℝ) : Dataset ℝ :=
  ⟨n + 2, fun i => -dt + i * dt, [("x", ⟨1, fun i _ => some (path c σ 0 (-dt + i * dt))⟩)], some dt⟩

theorem record_frames (dt : ℝ) (n : ℕ) (c : Bool) (σ : ℝ) : TrueFrames model (record dt n c σ) (fun s _ => path c σ 0 s)
    (fun s _ => path c σ 1 s) (fun s _ => path c σ 2 s) (xva dt n c σ) := by
  have e : ∀ t : ℕ, (record dt n c σ).time (t + 1) = t * dt := fun t => by
    simp only [record]
    push_cast
    ring
  refine ⟨rfl, rfl, fun t _ k _ => ?_, fun t _ k _ => ?_, fun t _ k _ => ?_⟩ <;> rw [e] <;> cases c <;> simp [xva, path]

/-- The data computed from the positions. -/
noncomputable def measured (dt : ℝ) (n : ℕ) (c : Bool) (σ : ℝ) : Xva ℝ :=
  match computeVa (record dt n c σ) none (1 / 2) with
  | .ok r => r.toXva
  | .error _ => ⟨0, 0, fun _ => 0, fun _ _ _ => 0, fun _ => "", fun _ => 0⟩

theorem measured_near {dt : ℝ} (hdt : 0 < dt) (hdt1 : dt ≤ 1) (n : ℕ) (c : Bool) {σ : ℝ} (hσ : |σ| = 1) :
    NearData model "a" 2402 (1000 * dt ^ 2) (measured dt n c σ) (xva dt n c σ) := by
  have hX : (record dt n c σ).Has "x" 1 fun i _ => path c σ 0 (-dt + i * dt) := ⟨_, rfl, rfl, fun _ _ _ _ => rfl⟩
  obtain ⟨r, h1, -, h3⟩ := C169_positions (m := model) (ds := record dt n c σ) (t0 := -dt) (dt := dt) (δ := 0) (M := 2402)
    (by decide) rfl (.inr rfl) ⟨hdt, rfl, fun _ => rfl⟩ hdt1 (path_moves c hσ) (path_jerks c hσ) (by norm_num) (by norm_num) le_rfl
    ⟨_, hX, fun i _ k _ => by simp [record]⟩
    (fun s k _ => ⟨path_le c hσ 0 (by decide) s, path_le c hσ 1 (by decide) s, path_le c hσ 2 (by decide) s⟩) (record_frames dt n c σ)
  have e : measured dt n c σ = r.toXva := by unfold measured; rw [h1]
  rw [e]
  have hle : (2402 / 6 + 2402 / 12) * dt ^ 2 + 4 * 0 / dt ^ 2 ≤ 1000 * dt ^ 2 := by
    rw [mul_zero, zero_div, add_zero]
    nlinarith [sq_nonneg dt]
  exact ⟨h3.frames, h3.dim, h3.dim', fun t ht k hk => ⟨(h3.pos t ht k hk).1, (h3.pos t ht k hk).2.trans hle⟩,
    fun t ht k hk => ⟨(h3.vel t ht k hk).1, (h3.vel t ht k hk).2.trans hle⟩,
    fun c1 c2 t ht k hk => ⟨(h3.acc c1 c2 t ht k hk).1, (h3.acc c1 c2 t ht k hk).2.trans hle⟩,
    fun t ht k hk => ⟨(h3.obs t ht k hk).1, (h3.obs t ht k hk).2.trans hle⟩⟩

noncomputable def measuredState (dt : ℝ) (N extra : ℕ) : EstState ℝ :=
  { state dt N extra with xvas := [measured dt (N + extra) true 1, measured dt (N + extra) true (-1), measured dt (N + extra) false 1,
      measured dt (N + extra) false (-1)] }

theorem measured_setup {dt : ℝ} (hdt : 0 < dt) (hdt1 : dt ≤ 1) {N : ℕ} (extra : ℕ) (hN : 1 ≤ N) :
    Setup env "direct" false model "dim_x" (measuredState dt N extra) := by
  have h := setup dt extra hN
  have mem : ∀ y ∈ (measuredState dt N extra).xvas, ∃ c σ, |σ| = 1 ∧ y = measured dt (N + extra) c σ := fun y hy => by
    simp only [measuredState, List.mem_cons, List.not_mem_nil, or_false] at hy
    rcases hy with rfl | rfl | rfl | rfl
    · exact ⟨true, 1, by simp, rfl⟩
    · exact ⟨true, -1, by simp, rfl⟩
    · exact ⟨false, 1, by simp, rfl⟩
    · exact ⟨false, -1, by simp, rfl⟩
  refine ⟨h.loop, h.fn, h.bm, h.wf, h.noProj, ⟨by decide, by decide, fun y hy => ?_⟩, h.dim, fun y hy => ?_, h.npos, h.xpos, h.tpos,
    fun y hy => ?_, by simp [measuredState]⟩ <;> obtain ⟨c, σ, hσ, rfl⟩ := mem y hy <;>
      have g1 := measured_near hdt hdt1 (N + extra) c hσ
  · exact ⟨rfl, congrArg (fun d => [(measured dt (N + extra) c σ).n, d]) g1.dim⟩
  · exact g1.dim
  · rw [g1.frames]
    exact Nat.le_add_right N extra

/-- The force and the kernel estimated from the positions only. -/
theorem converges_positions : ∃ C δ : ℝ, 0 < δ ∧ ∀ (dt : ℝ) (N extra : ℕ), 0 < dt → dt ≤ δ → 1 ≤ N → ((N - 1 : ℕ) : ℝ) * dt ≤ 1 →
    ∃ s1 s2 s3, computeMeanForce env (measuredState dt N extra) = (s1, none) ∧
      computeCorrs env "direct" false true none s1 = (s2, none) ∧
      computeKernelStep "second_kind_trapz" (fun _ _ => none) s2 = (s3, none) ∧
      Estimates model F k N dt (C * dt ^ 2) (C * dt ^ 2) s3.model := by
  obtain ⟨C, δ, hδ, H⟩ := C169_second_kind_trapz tame 2402 gram_det force cross_le (fun h => by cases h) le_rfl (by decide) corr_det
    (deriv_of (f' := U (1 / 2) (2401 / 2)) fun t => (W_deriv (1 / 2) (343 / 2) t).congr_deriv (by norm_num))
    (lip_of (U_deriv _ _) (W_le _ _)) (deriv_of kt_deriv) (lip_of kt1_deriv kt2_le) secondKind
  refine ⟨|C| * 1001, min 1 (min δ (δ / 1000)), by positivity, fun dt N extra h1 h2 h3 h4 => ?_⟩
  have hd1 : dt ≤ 1 := h2.trans (min_le_left _ _)
  have hd2 : dt ≤ δ := h2.trans ((min_le_right _ _).trans (min_le_left _ _))
  have hd3 : dt ≤ δ / 1000 := h2.trans ((min_le_right _ _).trans (min_le_right _ _))
  have near : ∀ c σ, |σ| = 1 → NearData model "a" 2402 (1000 * dt ^ 2) (measured dt (N + extra) c σ) (xva dt (N + extra) c σ) :=
    fun c σ hσ => measured_near h1 hd1 (N + extra) c hσ
  obtain ⟨s1, s2, s3, a1, a2, a3, a4⟩ := H env "direct" false none "dim_x" (measuredState dt N extra) (xvas dt (N + extra)) 0 (1000 * dt ^ 2)
    (measured_setup h1 hd1 extra h3)
    (.cons (near true 1 (by simp)) (.cons (near true (-1) (by simp)) (.cons (near false 1 (by simp)) (.cons (near false (-1) (by simp)) .nil))))
    (TwoOscillators.near dt extra h3) h1 hd2 le_rfl (by positivity) (by rw [zero_add]; nlinarith) h4
  have hC := le_abs_self C
  have hC0 := abs_nonneg C
  refine ⟨s1, s2, s3, a1, a2, a3, a4.mono ?_ ?_⟩
  · rw [zero_add]
    nlinarith [mul_nonneg hC0 (sq_nonneg dt), mul_le_mul_of_nonneg_right hC (sq_nonneg dt)]
  · change C * (dt ^ 2 + (0 + 1000 * dt ^ 2)) ≤ _
    nlinarith [mul_nonneg hC0 (sq_nonneg dt), mul_le_mul_of_nonneg_right hC (sq_nonneg dt)]

example := C169_second_kind_rect tame 3 gram_det force cross_le (fun h => by cases h) le_rfl (by decide) corr_det
    (lip_of (fun t => W_deriv (1 / 2) (343 / 2) t) (U_le _ _)) (lip_of kt_deriv kt1_le) secondKind

example := C169_rect tame 3 gram_det force cross_le (fun h => by cases h) le_rfl corr_det
    (deriv_of (U_deriv _ _)) (lip_of (W_deriv _ _) (U_le _ _)) (lip_of kt_deriv kt1_le) firstKind

example := C169_trapz tame 3 gram_det force cross_le (fun h => by cases h) le_rfl (by decide) corr_det
    (deriv_of (U_deriv _ _)) (deriv_of (W_deriv _ _)) (deriv_of (U_deriv _ _)) (lip_of (W_deriv _ _) (U_le _ _))
    (deriv_of kt_deriv) (deriv_of kt1_deriv) (lip_of kt2_deriv kt3_le) firstKind initial

example := C169_averages (μ := μ) tame 3

end TwoOscillators

end Verif
