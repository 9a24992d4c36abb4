import Verif.Lemmas.Indicator

/-!
# C56, C57, C63 and C82: `SmoothIndicatorFeatures`
-/

set_option linter.unusedSectionVars false

namespace Verif

open Finset Spec

section
variable {K : Type*} [Field K] [LinearOrder K] [IsStrictOrderedRing K]

/-- **C56**. Proved: for every number of states when not periodic, and for at least two states when periodic, the features are
between zero and one and sum to one at every point. Full statement: the same for one periodic state too; this is false, see
`C56_one_periodic_state`. -/
theorem C56_partition_of_unity_partial (bt : BoundaryType K) (f : K → ℕ → K) (hf : boundaryOf bt = .ok f)
    (hB : UnitBoundary (f · 0)) (bd : Arr (K × K)) (hN : 0 < bd.len) (periodic : Bool)
    (hp : periodic = true → 2 ≤ bd.len) (h : OrderedBoundaries bd.len bd.get) (x : K) :
    ∃ r, smoothIndicatorBasis bt bd periodic x = .ok r ∧ (∀ k < r.len, 0 ≤ r.get k ∧ r.get k ≤ 1) ∧
      ∑ k ∈ range r.len, r.get k = 1 := by
  obtain ⟨r, h1, h2, h3⟩ := indicatorBasis_eq hB.at_one hB.le_one bd hN periodic hp h x
  refine ⟨r, ?_, fun k hk => ?_, ?_⟩
  · rw [smoothIndicatorBasis, hf]; exact h1
  · rw [h3 k hk]; exact stepFeature_mem hB hN periodic hp h x k (h2 ▸ hk)
  · rw [sum_congr rfl fun k hk => h3 k (mem_range.1 hk), h2]
    exact sum_stepFeature 1 bd.len hN periodic _

/-- **C56**, the boundary functions of the module, which are found by their names, meet the hypothesis; other names are
rejected. -/
theorem C56_boundary_types :
    (∃ f, boundaryOf (.name "tricube" : BoundaryType K) = .ok f ∧ UnitBoundary (f · 0)) ∧
    (∃ f, boundaryOf (.name "triweight" : BoundaryType K) = .ok f ∧ UnitBoundary (f · 0)) ∧
    (∃ f, boundaryOf (.name "quartic" : BoundaryType K) = .ok f ∧ UnitBoundary (f · 0)) ∧
    ∀ s, s ≠ "tricube" → s ≠ "triweight" → s ≠ "quartic" →
      boundaryOf (.name s : BoundaryType K) = .error .value := by
  have key : ∀ (u : K) (n : ℕ), 0 ≤ u → u ≤ 1 → 0 ≤ 1 - u ^ n ∧ 1 - u ^ n ≤ 1 := fun u n h0 h1 =>
    ⟨sub_nonneg.2 (pow_le_one₀ h0 h1), sub_le_self _ (pow_nonneg h0 n)⟩
  refine ⟨⟨_, rfl, ⟨?_, ?_, ?_⟩⟩, ⟨_, rfl, ⟨?_, ?_, ?_⟩⟩, ⟨_, rfl, ⟨?_, ?_, ?_⟩⟩, ?_⟩
  · intro u h0 h1; simp only [tricube, if_true]; exact pow_nonneg (key u 3 h0 h1).1 _
  · intro u h0 h1; simp only [tricube, if_true]; exact pow_le_one₀ (key u 3 h0 h1).1 (key u 3 h0 h1).2
  · simp [tricube]
  · intro u h0 h1; simp only [triweight, if_true]; exact pow_nonneg (key u 2 h0 h1).1 _
  · intro u h0 h1; simp only [triweight, if_true]; exact pow_le_one₀ (key u 2 h0 h1).1 (key u 2 h0 h1).2
  · simp [triweight]
  · intro u h0 h1; simp only [quartic, if_true]; exact pow_nonneg (key u 2 h0 h1).1 _
  · intro u h0 h1; simp only [quartic, if_true]; exact pow_le_one₀ (key u 2 h0 h1).1 (key u 2 h0 h1).2
  · simp [quartic]
  · intro s h1 h2 h3
    unfold boundaryOf
    split <;> simp_all

/-- **C56** fails for one periodic state: the only feature is not one where the boundary function is strictly between zero and
one. -/
theorem C56_one_periodic_state (B : K → K) (bd : K × K) (h : bd.1 ≠ bd.2) (x : K) (hx : min bd.1 bd.2 ≤ x)
    (hx' : x ≤ max bd.1 bd.2) (h0 : 0 < B (indicatorArg bd x)) (h1 : B (indicatorArg bd x) < 1) :
    ∃ r, indicatorBasis B ⟨1, fun _ => bd⟩ true x = .ok r ∧ ∑ k ∈ range r.len, r.get k ≠ 1 := by
  refine ⟨_, indicatorBasis_eq' B ⟨1, fun _ => bd⟩ Nat.one_pos true x (by intro n hn; dsimp only at hn; omega), ?_⟩
  have e : stepOf B (fun _ => bd) x 0 = B (indicatorArg bd x) := by
    have a1 : ¬ indicatorArg bd x < 0 := by rw [indicatorArg_neg h]; exact not_lt.2 hx
    have a2 : ¬ 1 < indicatorArg bd x := by rw [one_lt_indicatorArg h]; exact not_lt.2 hx'
    simp [stepOf, stepVal, a1, a2]
  simp only [if_true, add_zero, range_one, sum_singleton, Nat.sub_self, e, sub_pos.2 h1]
  intro hc
  linarith

end

/-- Two states with reversed ends, at the middle of the second boundary. -/
def exampleBoundaries : Arr (ℚ × ℚ) := ⟨2, fun n => if n = 0 then (0, -2) else (1, 2)⟩

theorem exampleBoundaries_ordered : OrderedBoundaries exampleBoundaries.len exampleBoundaries.get := by
  refine ⟨?_, ?_⟩
  · intro n hn; simp only [exampleBoundaries] at hn ⊢; split_ifs <;> norm_num
  · intro n hn
    have : n = 0 := by simp only [exampleBoundaries] at hn; omega
    subst this
    simp only [exampleBoundaries]; norm_num

example := C56_partition_of_unity_partial (.name "tricube") tricube rfl
  (C56_boundary_types.1.elim fun f hf => by simp only [boundaryOf, Except.ok.injEq] at hf; exact hf.1 ▸ hf.2)
  exampleBoundaries (by decide) true (fun _ => le_rfl) exampleBoundaries_ordered (3 / 2)

/-- The values of the features at this point: the second one has lost `169/512`, which the first one has. -/
example : (indicatorBasis (tricube · 0) exampleBoundaries true (3 / 2 : ℚ)).map (fun r => (r.len, r.get 0, r.get 1)) =
    .ok (2, 169 / 512, 343 / 512) := by decide +kernel

example := C56_one_periodic_state (K := ℚ) (tricube · 0) (0, 1) (by norm_num) (1 / 2) (by norm_num) (by norm_num)
  (by norm_num [indicatorArg, tricube]) (by norm_num [indicatorArg, tricube])

/-! ### C57 -/

/-- **C57**. Proved: at every point, edges of the boundaries included, `deriv` is the derivative of `basis` and its entries sum
to zero, for every number of states when not periodic and at least two when periodic. Full statement: the same for one periodic
state too; this is false, see `C57_one_periodic_state`. -/
theorem C57_deriv_partial (bt : BoundaryType ℝ) (f : ℝ → ℕ → ℝ) (hf : boundaryOf bt = .ok f)
    (hB : SmoothStep (f · 0) (f · 1)) (hU : UnitBoundary (f · 0)) (bd : Arr (ℝ × ℝ)) (hN : 0 < bd.len) (periodic : Bool)
    (hp : periodic = true → 2 ≤ bd.len) (h : OrderedBoundaries bd.len bd.get) :
    ∃ F D : ℝ → Arr ℝ, (∀ x, smoothIndicatorBasis bt bd periodic x = .ok (F x)) ∧
      (∀ x, smoothIndicatorDeriv bt 1 bd periodic x = .ok (D x)) ∧
      ∀ x, (F x).len = (D x).len ∧ (∀ k < (F x).len, HasDerivAt (fun y => (F y).get k) ((D x).get k) x) ∧
        ∑ k ∈ range (D x).len, (D x).get k = 0 := by
  choose F hF1 hF2 hF3 using indicatorBasis_eq hB.at_one hU.le_one bd hN periodic hp h
  choose D hD1 hD2 hD3 using indicatorDeriv_eq (dB := (f · 1)) hB.deriv_one 1 bd hN periodic hp h
  refine ⟨F, D, fun x => ?_, fun x => ?_, fun x => ⟨(hF2 x).trans (hD2 x).symm, fun k hk => ?_, ?_⟩⟩
  · rw [smoothIndicatorBasis, hf]; exact hF1 x
  · have hs : boundarySupports bt 1 = true := by cases bt <;> simp [boundarySupports]
    have h0 : bd.len ≠ 0 := by omega
    rw [smoothIndicatorDeriv, hf]
    simp only [bind, Except.bind, h0, if_false, hs, if_true, pure, Except.pure]
    exact hD1 x
  · have e : (fun y => (F y).get k) = fun y => stepFeature 1 bd.len periodic (stepOf (f · 0) bd.get y) k :=
      funext fun y => hF3 y k (by rw [hF2, ← hF2 x]; exact hk)
    rw [e, hD3 x k (by rw [hD2, ← hF2 x]; exact hk)]
    exact stepFeature_hasDerivAt 1 bd.len hN periodic _ _ x (fun n hn => stepOf_hasDerivAt hB h x n hn) k (hF2 x ▸ hk)
  · rw [sum_congr rfl fun k hk => hD3 x k (mem_range.1 hk), hD2]
    exact sum_stepFeature 0 bd.len hN periodic _

/-- **C57**, the boundary functions of the module meet the hypothesis. -/
theorem C57_boundary_types :
    SmoothStep (tricube (K := ℝ) · 0) (tricube · 1) ∧ SmoothStep (triweight (K := ℝ) · 0) (triweight · 1) ∧
    SmoothStep (quartic (K := ℝ) · 0) (quartic · 1) := by
  refine ⟨⟨by simp [tricube], by simp [tricube], fun u => ?_, by simp [tricube], by simp [tricube]⟩,
    ⟨by simp [triweight], by simp [triweight], fun u => ?_, by simp [triweight], by simp [triweight]⟩,
    ⟨by simp [quartic], by simp [quartic], fun u => ?_, by simp [quartic], by simp [quartic]⟩⟩
  · simp only [tricube, if_true, one_ne_zero, if_false]
    refine ((((hasDerivAt_id' u).pow 3).const_sub 1).pow 3).congr_deriv ?_
    simp; ring
  · simp only [triweight, if_true, one_ne_zero, if_false]
    refine ((((hasDerivAt_id' u).pow 2).const_sub 1).pow 3).congr_deriv ?_
    simp; ring
  · simp only [quartic, if_true, one_ne_zero, if_false]
    refine ((((hasDerivAt_id' u).pow 2).const_sub 1).pow 2).congr_deriv ?_
    simp; ring

/-- **C57** fails for one periodic state: the feature is one up to the lower edge of the boundary and tends to zero after it,
so that it has no derivative there, while `deriv` returns zero. -/
theorem C57_one_periodic_state (B B' : ℝ → ℝ) (hB : SmoothStep B B') (hlt : ∀ u, 0 < u → u ≤ 1 → B u < 1) :
    ∃ F D : ℝ → Arr ℝ, (∀ x, indicatorBasis B ⟨1, fun _ => (0, 1)⟩ true x = .ok (F x)) ∧
      (∀ x, indicatorDeriv B' 1 ⟨1, fun _ => (0, 1)⟩ true x = .ok (D x)) ∧ (D 0).get 0 = 0 ∧
      ¬ ∃ d, HasDerivAt (fun y => (F y).get 0) d 0 := by
  refine ⟨_, _, fun x => indicatorBasis_eq' B ⟨1, fun _ => (0, 1)⟩ Nat.one_pos true x (by intro n hn; dsimp only at hn; omega),
    fun x => indicatorDeriv_eq' B' 1 ⟨1, fun _ => (0, 1)⟩ Nat.one_pos true x (by intro n hn; dsimp only at hn; omega), ?_, ?_⟩
  · simp [dstepOf, stepVal, indicatorArg, hB.deriv_zero]
  · rintro ⟨d, hd⟩
    have hc := hd.continuousAt
    simp only [if_true, Nat.sub_self] at hc
    have earg : ∀ y : ℝ, indicatorArg ((0, 1) : ℝ × ℝ) y = y := fun y => by simp [indicatorArg]
    have e0 : stepOf B (fun _ => ((0, 1) : ℝ × ℝ)) 0 0 = 1 := by simp [stepOf, stepVal, earg, hB.at_zero]
    have hB0 : ContinuousAt B 0 := (hB.deriv 0).continuousAt
    have l1 : Filter.Tendsto (fun y => if 1 - stepOf B (fun _ => ((0, 1) : ℝ × ℝ)) y 0 > 0 then
        1 - stepOf B (fun _ => ((0, 1) : ℝ × ℝ)) y 0 else stepOf B (fun _ => ((0, 1) : ℝ × ℝ)) y 0)
        (nhdsWithin 0 (Set.Ioi 0)) (nhds 1) := by
      have := hc.tendsto.mono_left (nhdsWithin_le_nhds (s := Set.Ioi 0))
      simpa [e0] using this
    have l2 : Filter.Tendsto (fun y => 1 - B y) (nhdsWithin 0 (Set.Ioi 0)) (nhds 0) := by
      have := (hB0.tendsto.const_sub 1).mono_left (nhdsWithin_le_nhds (s := Set.Ioi 0))
      simpa [hB.at_zero] using this
    have l3 := l1.congr' (f₂ := fun y => 1 - B y) (by
      filter_upwards [self_mem_nhdsWithin, mem_nhdsWithin_of_mem_nhds (gt_mem_nhds (zero_lt_one (α := ℝ)))] with y hy hy1
      have hy0 : ¬ y < 0 := not_lt.2 (le_of_lt hy)
      have hy1' : ¬ 1 < y := not_lt.2 (le_of_lt hy1)
      have := hlt y hy (le_of_lt hy1)
      simp only [stepOf, stepVal, earg, hy0, hy1', if_false, gt_iff_lt, sub_pos, this, if_true])
    exact one_ne_zero (tendsto_nhds_unique l3 l2)

/-- The example of C56 over the reals. -/
noncomputable def exampleBoundariesReal : Arr (ℝ × ℝ) := ⟨2, fun n => if n = 0 then (0, -2) else (1, 2)⟩

theorem exampleBoundariesReal_ordered : OrderedBoundaries exampleBoundariesReal.len exampleBoundariesReal.get := by
  refine ⟨?_, ?_⟩
  · intro n hn; simp only [exampleBoundariesReal] at hn ⊢; split_ifs <;> norm_num
  · intro n hn
    have : n = 0 := by simp only [exampleBoundariesReal] at hn; omega
    subst this
    simp only [exampleBoundariesReal]; norm_num

example := C57_deriv_partial (.name "tricube") tricube rfl C57_boundary_types.1
  (C56_boundary_types.1.elim fun f hf => by simp only [boundaryOf, Except.ok.injEq] at hf; exact hf.1 ▸ hf.2)
  exampleBoundariesReal (by simp [exampleBoundariesReal]) true (fun _ => by simp [exampleBoundariesReal])
  exampleBoundariesReal_ordered

example := C57_one_periodic_state (tricube · 0) (tricube · 1) C57_boundary_types.1 (by
  intro u h0 h1
  simp only [tricube, if_true]
  have h3 : 0 < u ^ 3 := pow_pos h0 3
  have h4 : u ^ 3 ≤ 1 := pow_le_one₀ h0.le h1
  exact pow_lt_one₀ (by linarith) (by linarith) (by norm_num))

/-! ### C63 -/

/-- **C63**, indicator features: `fit` accepts one-dimensional data only, and `basis` and `deriv` have `n_output_features_`
columns (the constant is not removed). -/
theorem C63_indicator {K : Type*} [Field K] [LinearOrder K] [IsStrictOrderedRing K] (B dB : K → K) (r : ℕ) (bd : Arr (K × K))
    (hN : 0 < bd.len) (periodic : Bool) (x : K) (n : ℕ) (hn : indicatorFit bd.len periodic 1 = .ok n) :
    (∃ R, indicatorBasis B bd periodic x = .ok R ∧ R.len = n) ∧ (∃ R, indicatorDeriv dB r bd periodic x = .ok R ∧ R.len = n) ∧
    ∀ dim, 1 < dim → indicatorFit bd.len periodic dim = .error .value := by
  have h0 : bd.len ≠ 0 := by omega
  simp only [indicatorFit, gt_iff_lt, lt_irrefl, if_false, Except.ok.injEq] at hn
  refine ⟨?_, ?_, fun dim hd => by simp [indicatorFit, hd]⟩
  · unfold indicatorBasis
    rw [if_neg h0]
    cases periodic
    · exact ⟨_, rfl, hn⟩
    · exact ⟨_, rfl, hn⟩
  · unfold indicatorDeriv
    rw [if_neg h0]
    cases periodic
    · exact ⟨_, rfl, hn⟩
    · exact ⟨_, rfl, hn⟩

example := C63_indicator (tricube · 0) (tricube · 1) 1 exampleBoundaries (by decide) false (3 / 2) 3 rfl

/-! ### C82 -/

/-- **C82**, `hessian` where it is right: at every point which is not an edge of a boundary, and at the edges too when the second
derivative of the boundary function vanishes there, `hessian` is the derivative of `deriv`. Full statement: at every point for
every boundary type; this is false, see `C82_hessian_edges`. -/
theorem C82_hessian_partial (bt : BoundaryType ℝ) (f : ℝ → ℕ → ℝ) (hf : boundaryOf bt = .ok f)
    (h0 : f 0 1 = 0) (h1 : f 1 1 = 0) (hd : ∀ u, HasDerivAt (f · 1) (f u 2) u)
    (bd : Arr (ℝ × ℝ)) (hN : 0 < bd.len) (periodic : Bool) (hp : periodic = true → 2 ≤ bd.len)
    (h : OrderedBoundaries bd.len bd.get) (x : ℝ)
    (hx0 : f 0 2 = 0 ∨ ∀ n < bd.len, x ≠ min (bd.get n).1 (bd.get n).2)
    (hx1 : f 1 2 = 0 ∨ ∀ n < bd.len, x ≠ max (bd.get n).1 (bd.get n).2) :
    ∃ (D : ℝ → Arr ℝ) (H : Arr ℝ), (∀ y, smoothIndicatorDeriv bt 1 bd periodic y = .ok (D y)) ∧
      smoothIndicatorDeriv bt 2 bd periodic x = .ok H ∧ H.len = (D x).len ∧
      ∀ k < H.len, HasDerivAt (fun y => (D y).get k) (H.get k) x := by
  choose D hD1 hD2 hD3 using indicatorDeriv_eq (dB := (f · 1)) h1 1 bd hN periodic hp h
  have hs1 : boundarySupports bt 1 = true := by cases bt <;> simp [boundarySupports]
  have hs2 : boundarySupports bt 2 = true := by cases bt <;> simp [boundarySupports]
  have hne : bd.len ≠ 0 := by omega
  -- the second derivative of a step vanishes when the next one begins
  have hz : ∀ m n, m < n → n < bd.len → ¬ indicatorArg (bd.get n) x < 0 → dstepOf (f · 2) 2 bd.get x m = 0 := by
    intro m n hmn hn hu
    rcases hx1 with hx1 | hx1
    · exact dstepOf_zero_of (dB := (f · 2)) hx1 2 h x hmn hn hu
    · rw [indicatorArg_neg (h.proper n hn), not_lt] at hu
      have hlt := lt_of_le_of_ne ((h.chain hmn hn).trans hu) (hx1 m (by omega)).symm
      have h2 := (one_lt_indicatorArg (h.proper m (by omega)) x).2 hlt
      have : ¬ indicatorArg (bd.get m) x < 0 := not_lt.2 (zero_le_one.trans h2.le)
      simp [dstepOf, stepVal, this, h2]
  have hH := indicatorDeriv_eq' (f · 2) 2 bd hN periodic x fun n hn hu => hz n (n + 1) (Nat.lt_succ_self n) hn hu
  have hH2 : smoothIndicatorDeriv bt 2 bd periodic x = indicatorDeriv (f · 2) 2 bd periodic x := by
    rw [smoothIndicatorDeriv, hf]
    simp only [bind, Except.bind, hne, if_false, hs2, if_true, pure, Except.pure]
  rw [hH] at hH2
  refine ⟨D, _, fun y => ?_, hH2, (hD2 x).symm, fun k hk => ?_⟩
  · rw [smoothIndicatorDeriv, hf]
    simp only [bind, Except.bind, hne, if_false, hs1, if_true, pure, Except.pure]
    exact hD1 y
  · have e : (fun y => (D y).get k) = fun y => stepFeature 0 bd.len periodic (dstepOf (f · 1) 1 bd.get y) k :=
      funext fun y => hD3 y k (by rw [hD2]; exact hk)
    rw [e]
    have key := stepFeature_hasDerivAt 0 bd.len hN periodic (fun y => dstepOf (f · 1) 1 bd.get y) (dstepOf (f · 2) 2 bd.get x) x
      (fun n hn => dstepOf_hasDerivAt h0 h1 hd 1 h x n hn
        (fun hx => by rcases hx0 with h' | h'; exacts [h', absurd hx (h' n hn)])
        (fun hx => by rcases hx1 with h' | h'; exacts [h', absurd hx (h' n hn)])) k hk
    refine key.congr_deriv ?_
    dsimp only at hk ⊢
    cases periodic
    · simp only [Bool.false_eq_true, if_false] at hk ⊢
      by_cases hk' : k < bd.len
      · simp [stepFeature, hk']
      · have : k = bd.len := by omega
        subst this
        simp [stepFeature]
    · simp only [if_true, add_zero] at hk ⊢
      by_cases hk' : k = 0
      · subst hk'
        simp only [if_true, stepFeature, zero_sub]
        have h2 := hp rfl
        rcases dstepOf_eq_zero_or (f · 2) 2 bd.get x (bd.len - 1) with h1 | h1
        · simp [h1]
        · rw [hz 0 (bd.len - 1) (by omega) (by omega) h1, zero_add]
          split_ifs with h3
          · rfl
          · exact not_not.1 h3
      · simp [stepFeature, hk', hk]

/-- **C82**, the second derivatives of the boundary functions of the module, and their values at the two edges. -/
theorem C82_boundary_types :
    (∀ u : ℝ, HasDerivAt (tricube · 1) (tricube u 2) u) ∧ (∀ u : ℝ, HasDerivAt (triweight · 1) (triweight u 2) u) ∧
    (∀ u : ℝ, HasDerivAt (quartic · 1) (quartic u 2) u) ∧ tricube (0 : ℝ) 2 = 0 ∧ tricube (1 : ℝ) 2 = 0 ∧
    triweight (0 : ℝ) 2 = -6 ∧ triweight (1 : ℝ) 2 = 0 ∧ quartic (0 : ℝ) 2 = -4 ∧ quartic (1 : ℝ) 2 = 8 := by
  refine ⟨fun u => ?_, fun u => ?_, fun u => ?_, by norm_num [tricube], by norm_num [tricube], by norm_num [triweight],
    by norm_num [triweight], by norm_num [quartic], by norm_num [quartic]⟩
  · simp only [tricube, one_ne_zero, if_false, if_true, OfNat.ofNat_ne_zero, OfNat.ofNat_ne_one]
    refine ((((hasDerivAt_id' u).pow 2).const_mul (-9)).mul ((((hasDerivAt_id' u).pow 3).const_sub 1).pow 2)).congr_deriv ?_
    simp; ring
  · simp only [triweight, one_ne_zero, if_false, if_true, OfNat.ofNat_ne_zero, OfNat.ofNat_ne_one]
    refine (((hasDerivAt_id' u).const_mul (-6)).mul ((((hasDerivAt_id' u).pow 2).const_sub 1).pow 2)).congr_deriv ?_
    simp; ring
  · simp only [quartic, one_ne_zero, if_false, if_true, OfNat.ofNat_ne_zero, OfNat.ofNat_ne_one]
    refine (((hasDerivAt_id' u).const_mul (-4)).mul (((hasDerivAt_id' u).pow 2).const_sub 1)).congr_deriv ?_
    simp; ring

/-- **C82** for `tricube`, the default: at every point. -/
theorem C82_hessian_tricube (bd : Arr (ℝ × ℝ)) (hN : 0 < bd.len) (periodic : Bool) (hp : periodic = true → 2 ≤ bd.len)
    (h : OrderedBoundaries bd.len bd.get) (x : ℝ) :
    ∃ (D : ℝ → Arr ℝ) (H : Arr ℝ), (∀ y, smoothIndicatorDeriv (.name "tricube") 1 bd periodic y = .ok (D y)) ∧
      smoothIndicatorDeriv (.name "tricube") 2 bd periodic x = .ok H ∧ H.len = (D x).len ∧
      ∀ k < H.len, HasDerivAt (fun y => (D y).get k) (H.get k) x :=
  C82_hessian_partial (.name "tricube") tricube rfl (by simp [tricube]) (by simp [tricube]) C82_boundary_types.1 bd hN periodic hp h
    x (Or.inl C82_boundary_types.2.2.2.1) (Or.inl C82_boundary_types.2.2.2.2.1)

/-- **C82** fails at the edges for the other types: with one boundary `[0, 1]` and a boundary function whose second derivative does
not vanish at zero (`triweight` and `quartic`), `deriv` has no derivative at `0`. -/
theorem C82_hessian_edges (B' B'' : ℝ → ℝ) (h0 : B' 0 = 0) (hd : ∀ u, HasDerivAt B' (B'' u) u) (h2 : B'' 0 ≠ 0) :
    ∃ D : ℝ → Arr ℝ, (∀ x, indicatorDeriv B' 1 ⟨1, fun _ => (0, 1)⟩ false x = .ok (D x)) ∧
      ¬ ∃ d, HasDerivAt (fun y => (D y).get 0) d 0 := by
  refine ⟨_, fun x => indicatorDeriv_eq' B' 1 ⟨1, fun _ => (0, 1)⟩ Nat.one_pos false x
    (by intro n hn; dsimp only at hn; omega), ?_⟩
  rintro ⟨d, hd'⟩
  have earg : ∀ y : ℝ, indicatorArg ((0, 1) : ℝ × ℝ) y = y := fun y => by simp [indicatorArg]
  simp only [Bool.false_eq_true, if_false, Nat.lt_one_iff, if_true, stepDiff] at hd'
  have l : HasDerivWithinAt (fun y => dstepOf B' 1 (fun _ => ((0, 1) : ℝ × ℝ)) y 0) 0 (Set.Iic 0) 0 := by
    refine (hasDerivWithinAt_const 0 _ 0).congr_of_mem (fun y hy => ?_) (Set.mem_Iic.2 le_rfl)
    rcases (Set.mem_Iic.1 hy).lt_or_eq with h | rfl
    · simp [dstepOf, stepVal, earg, h]
    · simp [dstepOf, stepVal, earg, h0]
  have r : HasDerivWithinAt (fun y => dstepOf B' 1 (fun _ => ((0, 1) : ℝ × ℝ)) y 0) (B'' 0) (Set.Icc 0 1) 0 := by
    refine (hd 0).hasDerivWithinAt.congr_of_mem (fun y hy => ?_) ⟨le_rfl, zero_le_one⟩
    simp [dstepOf, stepVal, earg, not_lt.2 hy.1, not_lt.2 hy.2]
  have e1 : d = 0 := (uniqueDiffWithinAt_Iic (0 : ℝ)).eq_deriv _ hd'.hasDerivWithinAt l
  have e2 : d = B'' 0 := (uniqueDiffOn_Icc (zero_lt_one (α := ℝ)) 0 ⟨le_rfl, zero_le_one⟩).eq_deriv _ hd'.hasDerivWithinAt r
  exact h2 (e2 ▸ e1)

example := C82_hessian_edges (triweight · 1) (triweight · 2) (by simp [triweight]) C82_boundary_types.2.1
  (by rw [C82_boundary_types.2.2.2.2.2.1]; norm_num)

example := C82_hessian_tricube exampleBoundariesReal (by simp [exampleBoundariesReal]) true
  (fun _ => by simp [exampleBoundariesReal]) exampleBoundariesReal_ordered 1

end Verif
