import Verif.Lemmas.Converge

/-! # Second differences of the trapezoidal rule for a convolution -/

namespace Verif

open Finset Set
open scoped Matrix.Norms.Operator

/-! ### Smooth functions with explicit constants -/

/-- `A'` is the derivative of `A` on `[0, T]`; both are bounded by `a` and Lipschitz with constant `a`. -/
structure Smooth1 {m n : ℕ} (T a : ℝ) (A A' : ℝ → Mat ℝ m n) : Prop where
  pos : 0 ≤ a
  deriv : Spec.DerivOn T A A'
  bound : ∀ t ∈ Icc 0 T, ‖A t‖ ≤ a
  bound' : ∀ t ∈ Icc 0 T, ‖A' t‖ ≤ a
  lip : ∀ s ∈ Icc 0 T, ∀ t ∈ Icc 0 T, ‖A s - A t‖ ≤ a * |s - t|
  lip' : ∀ s ∈ Icc 0 T, ∀ t ∈ Icc 0 T, ‖A' s - A' t‖ ≤ a * |s - t|

theorem Smooth1.mono {m n : ℕ} {T T' a : ℝ} {A A' : ℝ → Mat ℝ m n} (h : Smooth1 T a A A') (hT : T' ≤ T) :
    Smooth1 T' a A A' := by
  have hs : Icc 0 T' ⊆ Icc 0 T := Icc_subset_Icc le_rfl hT
  exact ⟨h.pos, fun t ht i j => (h.deriv t (hs ht) i j).mono hs, fun t ht => h.bound t (hs ht),
    fun t ht => h.bound' t (hs ht), fun s hs' t ht => h.lip s (hs hs') t (hs ht),
    fun s hs' t ht => h.lip' s (hs hs') t (hs ht)⟩

theorem Smooth1.weaken {m n : ℕ} {T a a' : ℝ} {A A' : ℝ → Mat ℝ m n} (h : Smooth1 T a A A') (ha : a ≤ a') :
    Smooth1 T a' A A' :=
  ⟨h.pos.trans ha, h.deriv, fun t ht => (h.bound t ht).trans ha, fun t ht => (h.bound' t ht).trans ha,
    fun s hs t ht => (h.lip s hs t ht).trans (by gcongr), fun s hs t ht => (h.lip' s hs t ht).trans (by gcongr)⟩

theorem smooth1_of {m n : ℕ} {T : ℝ} {A A' : ℝ → Mat ℝ m n} (h : Spec.DerivOn T A A') (hL : Spec.Lip T A') :
    ∃ a, Smooth1 T a A A' := by
  obtain ⟨L, hL0, hL1⟩ := lip_norm (lip_of_deriv h hL)
  obtain ⟨M, hM0, hM1⟩ := lip_bound (lip_of_deriv h hL)
  obtain ⟨L', hL0', hL1'⟩ := lip_norm hL
  obtain ⟨M', hM0', hM1'⟩ := lip_bound hL
  refine ⟨L + M + L' + M', by positivity, h, fun t ht => (hM1 t ht).trans (by linarith),
    fun t ht => (hM1' t ht).trans (by linarith), fun s hs t ht => (hL1 s hs t ht).trans ?_,
    fun s hs t ht => (hL1' s hs t ht).trans ?_⟩ <;>
  · gcongr
    linarith

theorem derivOn_increment {m n : ℕ} {T u h : ℝ} {A A' : ℝ → Mat ℝ m n} (hA : Spec.DerivOn T A A') (hh : 0 ≤ h)
    (hu : u + h ≤ T) : Spec.DerivOn u (fun s => A (s + h) - A s) (fun s => A' (s + h) - A' s) := by
  intro t ht i j
  have hsub : Icc 0 u ⊆ Icc 0 T := Icc_subset_Icc le_rfl (by linarith)
  have hmaps : MapsTo (fun s => s + h) (Icc 0 u) (Icc 0 T) := fun s hs =>
    ⟨by linarith [hs.1], by linarith [hs.2]⟩
  have := ((hA (t + h) (hmaps ht) i j).comp (h := fun s => s + h) t ((hasDerivWithinAt_id t _).add_const h) hmaps).sub
      ((hA t (hsub ht) i j).mono hsub)
  exact this.congr_deriv (by rw [mul_one]; rfl)

/-- The increment over a step `h` of a smooth function is smooth with constants of order `h`. -/
theorem smooth1_increment {m n : ℕ} {T : ℝ} {A A1 A2 : ℝ → Mat ℝ m n} (h1 : Spec.DerivOn T A A1)
    (h2 : Spec.DerivOn T A1 A2) (hL : Spec.Lip T A2) :
    ∃ a, 0 ≤ a ∧ ∀ h u : ℝ, 0 ≤ h → u + h ≤ T →
      Smooth1 u (a * h) (fun s => A (s + h) - A s) (fun s => A1 (s + h) - A1 s) := by
  have hL1 := lip_of_deriv h2 hL
  obtain ⟨a1, k1⟩ := smooth1_of h1 hL1
  obtain ⟨a2, k2⟩ := smooth1_of h2 hL
  obtain ⟨a3, p3, k3⟩ := increment_lip h1 hL1
  obtain ⟨a4, p4, k4⟩ := increment_lip h2 hL
  have p1 := k1.pos
  have p2 := k2.pos
  refine ⟨a1 + a2 + a3 + a4, by positivity, fun h u hh hu => ?_⟩
  have mem : ∀ t ∈ Icc 0 u, t + h ∈ Icc 0 T ∧ t ∈ Icc 0 T := fun t ht =>
    ⟨⟨by linarith [ht.1], by linarith [ht.2]⟩, ⟨ht.1, by linarith [ht.2]⟩⟩
  refine ⟨by positivity, derivOn_increment h1 hh hu, fun t ht => ?_, fun t ht => ?_, fun s hs t ht => ?_,
    fun s hs t ht => ?_⟩
  · have := k1.lip _ (mem t ht).1 _ (mem t ht).2
    rw [add_sub_cancel_left, abs_of_nonneg hh] at this
    refine this.trans ?_
    gcongr
    linarith
  · have := k2.lip _ (mem t ht).1 _ (mem t ht).2
    rw [add_sub_cancel_left, abs_of_nonneg hh] at this
    refine this.trans ?_
    gcongr
    linarith
  · refine (k3 h u hh hu s hs t ht).trans ?_
    gcongr
    linarith
  · refine (k4 h u hh hu s hs t ht).trans ?_
    gcongr
    linarith

/-- The second increment over a step `h`. -/
theorem smooth1_increment2 {m n : ℕ} {T : ℝ} {A A1 A2 A3 : ℝ → Mat ℝ m n} (h1 : Spec.DerivOn T A A1)
    (h2 : Spec.DerivOn T A1 A2) (h3 : Spec.DerivOn T A2 A3) (hL : Spec.Lip T A3) :
    ∃ a, 0 ≤ a ∧ ∀ h u : ℝ, 0 ≤ h → u + 2 * h ≤ T →
      Smooth1 u (a * h ^ 2) (fun s => (A (s + h + h) - A (s + h)) - (A (s + h) - A s))
        (fun s => (A1 (s + h + h) - A1 (s + h)) - (A1 (s + h) - A1 s)) := by
  have hL2 := lip_of_deriv h3 hL
  have hL1 := lip_of_deriv h2 hL2
  obtain ⟨a1, p1, k1⟩ := increment_lip h1 hL1
  obtain ⟨a2, p2, k2⟩ := increment_lip h2 hL2
  obtain ⟨a3, p3, k3⟩ := increment_lip h3 hL
  have hn : (0 : ℝ) ≤ n := by positivity
  refine ⟨a1 + a2 + n * a2 + n * a3, by positivity, fun h u hh hu => ?_⟩
  have mem : ∀ t ∈ Icc 0 u, t + h ∈ Icc 0 (u + h) ∧ t ∈ Icc 0 (u + h) := fun t ht =>
    ⟨⟨by linarith [ht.1], by linarith [ht.2]⟩, ⟨ht.1, by linarith [ht.2]⟩⟩
  have b1 : ∀ t ∈ Icc 0 u, ‖(A (t + h + h) - A (t + h)) - (A (t + h) - A t)‖ ≤ a1 * h ^ 2 := fun t ht => by
    have := k1 h (u + h) hh (by linarith) _ (mem t ht).1 _ (mem t ht).2
    rw [add_sub_cancel_left, abs_of_nonneg hh] at this
    exact this.trans (le_of_eq (by ring))
  have b2 : ∀ t ∈ Icc 0 u, ‖(A1 (t + h + h) - A1 (t + h)) - (A1 (t + h) - A1 t)‖ ≤ a2 * h ^ 2 := fun t ht => by
    have := k2 h (u + h) hh (by linarith) _ (mem t ht).1 _ (mem t ht).2
    rw [add_sub_cancel_left, abs_of_nonneg hh] at this
    exact this.trans (le_of_eq (by ring))
  have b3 : ∀ t ∈ Icc 0 u, ‖(A2 (t + h + h) - A2 (t + h)) - (A2 (t + h) - A2 t)‖ ≤ a3 * h ^ 2 := fun t ht => by
    have := k3 h (u + h) hh (by linarith) _ (mem t ht).1 _ (mem t ht).2
    rw [add_sub_cancel_left, abs_of_nonneg hh] at this
    exact this.trans (le_of_eq (by ring))
  have d1 : Spec.DerivOn u (fun s => (A (s + h + h) - A (s + h)) - (A (s + h) - A s))
      (fun s => (A1 (s + h + h) - A1 (s + h)) - (A1 (s + h) - A1 s)) :=
    derivOn_increment (derivOn_increment (u := u + h) h1 hh (by linarith)) hh le_rfl
  have d2 : Spec.DerivOn u (fun s => (A1 (s + h + h) - A1 (s + h)) - (A1 (s + h) - A1 s))
      (fun s => (A2 (s + h + h) - A2 (s + h)) - (A2 (s + h) - A2 s)) :=
    derivOn_increment (derivOn_increment (u := u + h) h2 hh (by linarith)) hh le_rfl
  have lipOf : ∀ {F F' : ℝ → Mat ℝ m n} {c : ℝ}, 0 ≤ c → Spec.DerivOn u F F' → (∀ t ∈ Icc 0 u, ‖F' t‖ ≤ c) →
      ∀ s ∈ Icc 0 u, ∀ t ∈ Icc 0 u, ‖F s - F t‖ ≤ n * c * |s - t| := by
    intro F F' c hc hd hb s hs t ht
    rw [mul_assoc]
    refine norm_le_of_entries (by positivity) fun i j => ?_
    have := Convex.norm_image_sub_le_of_norm_hasDerivWithin_le (C := c) (fun t ht => hd t ht i j)
      (fun v hv => (entry_le_norm _ i j).trans (hb v hv)) (convex_Icc _ _) ht hs
    simpa [Real.norm_eq_abs] using this
  have q : 0 ≤ h ^ 2 := sq_nonneg h
  refine ⟨by positivity, d1, fun t ht => (b1 t ht).trans ?_, fun t ht => (b2 t ht).trans ?_,
    fun s hs t ht => (lipOf (by positivity) d1 b2 s hs t ht).trans ?_,
    fun s hs t ht => (lipOf (by positivity) d2 b3 s hs t ht).trans ?_⟩
  · gcongr
    have : 0 ≤ n * a2 + n * a3 := by positivity
    linarith
  · gcongr
    have : 0 ≤ n * a2 + n * a3 := by positivity
    linarith
  · rw [← mul_assoc]
    gcongr
    have : 0 ≤ n * a3 := by positivity
    linarith
  · rw [← mul_assoc]
    gcongr
    have : 0 ≤ n * a2 := by positivity
    linarith

/-! ### Error of the trapezoidal rule on one cell -/

/-- Error of the trapezoidal rule on `[a, a+h]`. -/
noncomputable def cellErr (h a : ℝ) (f : ℝ → ℝ) : ℝ := h / 2 * (f a + f (a + h)) - ∫ s in a..a + h, f s

theorem cellErr_conv {l m n : ℕ} {t a c h u : ℝ} {A A' : ℝ → Mat ℝ l m} {B B' : ℝ → Mat ℝ m n}
    (hA : Smooth1 t a A A') (hB : Smooth1 t c B B') (hh : 0 ≤ h) (hu : 0 ≤ u) (hut : u + h ≤ t)
    (i : Fin l) (j : Fin n) : |cellErr h u fun s => (A (t - s) * B s) i j| ≤ 8 * (a * c) * h ^ 3 := by
  have ha := hA.pos
  have hc := hB.pos
  have hsub : Icc u (u + h) ⊆ Icc 0 t := Icc_subset_Icc hu hut
  have := trapz_cell (M := 4 * (a * c)) hh (by positivity)
    (fun s hs => (conv_deriv le_rfl hA.deriv hB.deriv i j s (hsub hs)).mono hsub) (fun s hs s' hs' => by
      have h1 := conv_lip le_rfl hA.pos hA.lip hA.bound hB.lip' hB.bound' i j s (hsub hs) s' (hsub hs')
      have h2 := conv_lip le_rfl hA.pos hA.lip' hA.bound' hB.lip hB.bound i j s (hsub hs) s' (hsub hs')
      have e : ∀ a b c d : ℝ, |a - b - (c - d)| ≤ |a - c| + |b - d| := fun a b c d => by
        rw [show a - b - (c - d) = (a - c) - (b - d) by ring]
        exact abs_sub _ _
      refine (e _ _ _ _).trans ((add_le_add h1 h2).trans (le_of_eq (by ring))))
  exact this.trans (le_of_eq (by ring))

theorem cellErr_sub {h a : ℝ} {f g : ℝ → ℝ} (hh : 0 ≤ h) (hf : ContinuousOn f (Icc a (a + h)))
    (hg : ContinuousOn g (Icc a (a + h))) : cellErr h a (fun s => f s - g s) = cellErr h a f - cellErr h a g := by
  have i1 : IntervalIntegrable f MeasureTheory.volume a (a + h) :=
    (hf.mono (by rw [Set.uIcc_of_le (by linarith)])).intervalIntegrable
  have i2 : IntervalIntegrable g MeasureTheory.volume a (a + h) :=
    (hg.mono (by rw [Set.uIcc_of_le (by linarith)])).intervalIntegrable
  unfold cellErr
  rw [intervalIntegral.integral_sub i1 i2]
  ring

theorem cellErr_shift {h a : ℝ} (f : ℝ → ℝ) : cellErr h (a + h) f = cellErr h a fun s => f (s + h) := by
  unfold cellErr
  rw [intervalIntegral.integral_comp_add_right]

theorem cellErr_congr {h a : ℝ} {f g : ℝ → ℝ} (hfg : ∀ s, f s = g s) : cellErr h a f = cellErr h a g := by
  rw [show f = g from funext hfg]

/-- Error of the trapezoidal rule for the convolution at the time `m h`. -/
noncomputable def convErr {l m n : ℕ} (A : ℝ → Mat ℝ l m) (B : ℝ → Mat ℝ m n) (h : ℝ) (i : Fin l) (j : Fin n)
    (N : ℕ) : ℝ :=
  (Spec.trapzRule h (fun k => A ((N - k : ℕ) * h) * B (k * h)) N) i j -
    ∫ s in (0 : ℝ)..N * h, (A (N * h - s) * B s) i j

theorem conv_cont {l m n : ℕ} {T a c t : ℝ} {A A' : ℝ → Mat ℝ l m} {B B' : ℝ → Mat ℝ m n}
    (hA : Smooth1 T a A A') (hB : Smooth1 T c B B') (ht : t ≤ T) (i : Fin l) (j : Fin n) :
    ContinuousOn (fun s => (A (t - s) * B s) i j) (Icc 0 t) :=
  contOn_of_lip (conv_lip ht hA.pos hA.lip hA.bound hB.lip hB.bound i j)

theorem convErr_cells {l m n : ℕ} {T a c : ℝ} {A A' : ℝ → Mat ℝ l m} {B B' : ℝ → Mat ℝ m n}
    (hA : Smooth1 T a A A') (hB : Smooth1 T c B B') {h : ℝ} (hh : 0 ≤ h) {N : ℕ} (hN : N * h ≤ T)
    (i : Fin l) (j : Fin n) :
    convErr A B h i j N = ∑ k ∈ range N, cellErr h (k * h) fun s => (A (N * h - s) * B s) i j := by
  have e : (Spec.trapzRule h (fun k => A ((N - k : ℕ) * h) * B (k * h)) N) i j =
      ∑ k ∈ range N, h / 2 * ((A (N * h - k * h) * B (k * h)) i j +
        (A (N * h - (k * h + h)) * B (k * h + h)) i j) := by
    rw [Spec.trapzRule, Matrix.sum_apply]
    refine sum_congr rfl fun k hk => ?_
    have := Finset.mem_range.1 hk
    rw [Matrix.smul_apply, smul_eq_mul, Matrix.add_apply, Nat.cast_sub (by omega), Nat.cast_sub (by omega),
      sub_mul, sub_mul, show ((k + 1 : ℕ) : ℝ) * h = k * h + h by push_cast; ring]
  unfold convErr
  rw [e, integral_cells hh (conv_cont hA hB hN i j), ← sum_sub_distrib]
  rfl

/-- The second difference of the error of the trapezoidal rule is of fourth order. -/
theorem convErr_second_difference {l m n : ℕ} {T : ℝ} {A A1 A2 A3 : ℝ → Mat ℝ l m} {B B1 B2 : ℝ → Mat ℝ m n}
    (hA1 : Spec.DerivOn T A A1) (hA2 : Spec.DerivOn T A1 A2) (hA3 : Spec.DerivOn T A2 A3) (hLA : Spec.Lip T A3)
    (hB1 : Spec.DerivOn T B B1) (hB2 : Spec.DerivOn T B1 B2) (hLB : Spec.Lip T B2) :
    ∃ R : ℝ, 0 ≤ R ∧ ∀ (h : ℝ) (N : ℕ), 0 ≤ h → (N + 2 : ℕ) * h ≤ T → ∀ i j,
      |convErr A B h i j (N + 2) - 2 * convErr A B h i j (N + 1) + convErr A B h i j N| ≤ R * h ^ 4 := by
  have hLA2 := lip_of_deriv hA3 hLA
  obtain ⟨a, sA⟩ := smooth1_of hA1 (lip_of_deriv hA2 hLA2)
  obtain ⟨c, sB⟩ := smooth1_of hB1 (lip_of_deriv hB2 hLB)
  obtain ⟨a1, pa1, sA1⟩ := smooth1_increment hA1 hA2 hLA2
  obtain ⟨a2, pa2, sA2⟩ := smooth1_increment2 hA1 hA2 hA3 hLA
  obtain ⟨c1, pc1, sB1⟩ := smooth1_increment hB1 hB2 hLB
  have pa := sA.pos
  have pc := sB.pos
  refine ⟨|T| * (8 * (a2 * c)) + 8 * (a1 * c) + 8 * (a * c1), by positivity, fun h N hh hN i j => ?_⟩
  have t2 : ((N + 2 : ℕ) : ℝ) * h = N * h + h + h := by push_cast; ring
  have t1 : ((N + 1 : ℕ) : ℝ) * h = N * h + h := by push_cast; ring
  rw [t2] at hN
  have pN : 0 ≤ N * h := by positivity
  have hT : N * h ≤ |T| := le_trans (by linarith) (le_abs_self T)
  have cells2 := convErr_cells sA sB hh (N := N + 2) (by rw [t2]; exact hN) i j
  have cells1 := convErr_cells sA sB hh (N := N + 1) (by rw [t1]; linarith) i j
  have cells0 := convErr_cells sA sB hh (N := N) (by linarith) i j
  rw [sum_range_succ, sum_range_succ, t2, t1] at cells2
  rw [sum_range_succ, t1] at cells1
  have cont2 : ContinuousOn (fun s => (A (N * h + h + h - s) * B s) i j) (Icc 0 (N * h + h + h)) :=
    conv_cont sA sB hN i j
  have cont1 : ContinuousOn (fun s => (A (N * h + h - s) * B s) i j) (Icc 0 (N * h + h)) :=
    conv_cont sA sB (by linarith) i j
  have cont0 : ContinuousOn (fun s => (A (N * h - s) * B s) i j) (Icc 0 (N * h)) :=
    conv_cont sA sB (by linarith) i j
  have E1 : ∀ k < N, |cellErr h (k * h) (fun s => (A (N * h + h + h - s) * B s) i j) -
      2 * cellErr h (k * h) (fun s => (A (N * h + h - s) * B s) i j) +
      cellErr h (k * h) (fun s => (A (N * h - s) * B s) i j)| ≤ 8 * (a2 * h ^ 2 * c) * h ^ 3 := by
    intro k hk
    have hk0 : (0 : ℝ) ≤ k * h := by positivity
    have hk1 : k * h + h ≤ N * h := by
      rw [← add_one_mul]
      gcongr
      exact_mod_cast hk
    have sub0 : Icc (k * h : ℝ) (k * h + h) ⊆ Icc 0 (N * h) := Icc_subset_Icc hk0 hk1
    have sub1 : Icc (k * h : ℝ) (k * h + h) ⊆ Icc 0 (N * h + h) := Icc_subset_Icc hk0 (by linarith)
    have sub2 : Icc (k * h : ℝ) (k * h + h) ⊆ Icc 0 (N * h + h + h) := Icc_subset_Icc hk0 (by linarith)
    have f2 := cont2.mono sub2
    have f1 := cont1.mono sub1
    have f0 := cont0.mono sub0
    have key := cellErr_conv (sA2 h (N * h) hh (by linarith)) (sB.mono (T' := N * h) (by linarith)) hh hk0 hk1 i j
    have e : ∀ s, ((A (N * h - s + h + h) - A (N * h - s + h) - (A (N * h - s + h) - A (N * h - s))) * B s) i j =
        ((A (N * h + h + h - s) * B s) i j - (A (N * h + h - s) * B s) i j) -
          ((A (N * h + h - s) * B s) i j - (A (N * h - s) * B s) i j) := by
      intro s
      rw [show N * h - s + h + h = N * h + h + h - s by ring, show N * h - s + h = N * h + h - s by ring]
      simp only [Matrix.sub_mul, Matrix.sub_apply]
    have q := cellErr_sub hh (f2.sub f1) (f1.sub f0)
    simp only [Pi.sub_apply] at q
    rw [cellErr_congr e, q] at key
    have q1 := cellErr_sub hh f2 f1
    have q0 := cellErr_sub hh f1 f0
    have p1 : cellErr h (k * h) ((fun s => (A (N * h + h + h - s) * B s) i j) -
      fun s => (A (N * h + h - s) * B s) i j) = _ := q1
    have p0 : cellErr h (k * h) ((fun s => (A (N * h + h - s) * B s) i j) -
      fun s => (A (N * h - s) * B s) i j) = _ := q0
    rw [p1, p0] at key
    refine le_trans (le_of_eq ?_) key
    congr 1
    ring
  have E2 : |cellErr h (N * h) (fun s => (A (N * h + h + h - s) * B s) i j) -
      cellErr h (N * h) (fun s => (A (N * h + h - s) * B s) i j)| ≤ 8 * (a1 * h * c) * h ^ 3 := by
    have key := cellErr_conv (sA1 h (N * h + h) hh (by linarith)) (sB.mono (T' := N * h + h) (by linarith)) hh pN
      le_rfl i j
    have e : ∀ s, ((A (N * h + h - s + h) - A (N * h + h - s)) * B s) i j =
        (A (N * h + h + h - s) * B s) i j - (A (N * h + h - s) * B s) i j := by
      intro s
      rw [show N * h + h - s + h = N * h + h + h - s by ring]
      simp only [Matrix.sub_mul, Matrix.sub_apply]
    rw [cellErr_congr e, cellErr_sub hh (cont2.mono (Icc_subset_Icc pN (by linarith)))
      (cont1.mono (Icc_subset_Icc pN le_rfl))] at key
    exact key
  have E3 : |cellErr h (N * h + h) (fun s => (A (N * h + h + h - s) * B s) i j) -
      cellErr h (N * h) (fun s => (A (N * h + h - s) * B s) i j)| ≤ 8 * (a * (c1 * h)) * h ^ 3 := by
    have key := cellErr_conv (sA.mono (T' := N * h + h) (by linarith)) (sB1 h (N * h + h) hh (by linarith)) hh pN
      le_rfl i j
    have e : ∀ s, (A (N * h + h - s) * (B (s + h) - B s)) i j =
        (A (N * h + h + h - (s + h)) * B (s + h)) i j - (A (N * h + h - s) * B s) i j := by
      intro s
      rw [show N * h + h + h - (s + h) = N * h + h - s by ring]
      simp only [Matrix.mul_sub, Matrix.sub_apply]
    have cs : ContinuousOn (fun s => (A (N * h + h + h - (s + h)) * B (s + h)) i j) (Icc (N * h) (N * h + h)) :=
      cont2.comp (f := fun s => s + h) (by fun_prop) fun s hs => ⟨by linarith [hs.1], by linarith [hs.2]⟩
    rw [cellErr_congr e, cellErr_sub hh cs (cont1.mono (Icc_subset_Icc pN le_rfl))] at key
    rw [cellErr_shift]
    exact key
  have e : convErr A B h i j (N + 2) - 2 * convErr A B h i j (N + 1) + convErr A B h i j N =
      (∑ k ∈ range N, (cellErr h (k * h) (fun s => (A (N * h + h + h - s) * B s) i j) -
        2 * cellErr h (k * h) (fun s => (A (N * h + h - s) * B s) i j) +
        cellErr h (k * h) (fun s => (A (N * h - s) * B s) i j))) +
      ((cellErr h (N * h) (fun s => (A (N * h + h + h - s) * B s) i j) -
        cellErr h (N * h) (fun s => (A (N * h + h - s) * B s) i j)) +
      (cellErr h (N * h + h) (fun s => (A (N * h + h + h - s) * B s) i j) -
        cellErr h (N * h) (fun s => (A (N * h + h - s) * B s) i j))) := by
    rw [cells2, cells1, cells0, sum_add_distrib, sum_sub_distrib, ← mul_sum]
    ring
  rw [e]
  refine (abs_add_le _ _).trans ?_
  have s1 : |∑ k ∈ range N, (cellErr h (k * h) (fun s => (A (N * h + h + h - s) * B s) i j) -
        2 * cellErr h (k * h) (fun s => (A (N * h + h - s) * B s) i j) +
        cellErr h (k * h) (fun s => (A (N * h - s) * B s) i j))| ≤ |T| * (8 * (a2 * c)) * h ^ 4 := by
    refine (abs_sum_le_sum_abs _ _).trans ?_
    refine (sum_le_card_nsmul _ _ _ fun k hk => E1 k (Finset.mem_range.1 hk)).trans ?_
    rw [card_range, nsmul_eq_mul]
    calc N * (8 * (a2 * h ^ 2 * c) * h ^ 3) = (N * h) * (8 * (a2 * c)) * h ^ 4 := by ring
      _ ≤ |T| * (8 * (a2 * c)) * h ^ 4 := by gcongr
  have s2 := (abs_add_le _ _).trans (add_le_add E2 E3)
  refine (add_le_add s1 s2).trans (le_of_eq (by ring))

end Verif
