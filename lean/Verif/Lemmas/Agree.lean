import Verif.Lemmas.Api

/-!
# The solvers only read the correlations that exist
-/

namespace Verif

set_option linter.unusedSectionVars false

theorem forRange_agree {σ : Type*} {lo hi : ℕ} {f g : ℕ → σ → σ} (h : ∀ i, lo ≤ i → i < hi → ∀ s, f i s = g i s) (s : σ) :
    forRange lo hi f s = forRange lo hi g s := by
  unfold forRange
  have key : ∀ l : List ℕ, (∀ i ∈ l, lo ≤ i ∧ i < hi) → ∀ s, l.foldl (fun s i => f i s) s = l.foldl (fun s i => g i s) s := by
    intro l
    induction l with
    | nil => intro _ s; rfl
    | cons a l ih =>
      intro hl s
      rw [List.foldl_cons, List.foldl_cons, h a (hl a (by simp)).1 (hl a (by simp)).2]
      exact ih (fun i hi => hl i (List.mem_cons_of_mem _ hi)) _
  exact key _ (fun i hi => by simp only [List.mem_range'_1] at hi; omega) s

namespace FKernel

section
variable {K : Type*} [Field K] {o b x : ℕ} {dt : K}

theorem rectIntegral_agree {n : ℕ} {B B' : ℕ → Mat K o b} (h : ∀ j, 1 ≤ j → j ≤ n → B j = B' j) (ker : ℕ → Mat K b x) :
    rectIntegral dt n B ker = rectIntegral dt n B' ker :=
  forRange_agree (fun i _ hi res => by rw [h (n - i) (by omega) (by omega)]) _

theorem midpointIntegral_agree {n : ℕ} {B B' : ℕ → Mat K o b} (h : ∀ j, j ≤ 2 * n → B j = B' j) (ker : ℕ → Mat K b x) :
    midpointIntegral dt n B ker = midpointIntegral dt n B' ker :=
  forRange_agree (fun i _ hi res => by rw [h (2 * (n - i)) (by omega)]) _

theorem trapzIntegral_agree {n : ℕ} {B B' : ℕ → Mat K o b} (h : ∀ j ≤ n, B j = B' j) (ker : ℕ → Mat K b x) :
    trapzIntegral dt n B ker = trapzIntegral dt n B' ker := by
  unfold trapzIntegral
  rw [h n le_rfl]
  exact forRange_agree (fun i _ hi res => by rw [h (n - i) (by omega)]) _

end

section
variable {K : Type*} [Field K] [DecidableEq K] {b x : ℕ} {dt : K} {L : ℕ} {B B' : ℕ → Mat K b b} {D D' : ℕ → Mat K b x}

theorem firstKindRect_agree (hB : ∀ n ≤ L, B n = B' n) (hD : ∀ n ≤ L, D n = D' n) :
    firstKindRect L B D dt = firstKindRect L B' D' dt := by
  unfold firstKindRect
  by_cases hL : L = 0
  · simp only [if_pos hL, bind, Except.bind, throw, throwThe, MonadExceptOf.throw]
  rw [if_neg hL, if_neg hL, hB 1 (by omega), hD 1 (by omega)]
  cases lapackInv (dt • B' 1) with
  | error e => simp only [bind, Except.bind]
  | ok M =>
    simp only [bind, Except.bind, pure, Except.pure, Except.ok.injEq]
    exact forRange_agree (fun i h1 h2 ker => by
      rw [hD (i + 1) (by omega), rectIntegral_agree (B' := fun k => B' (1 + k)) fun j _ hj => hB _ (by omega)]) _

theorem firstKindMidpoint_agree (hB : ∀ n ≤ L, B n = B' n) (hD : ∀ n ≤ L, D n = D' n) :
    firstKindMidpoint L B D dt = firstKindMidpoint L B' D' dt := by
  unfold firstKindMidpoint
  by_cases hL : L = 0
  · simp only [if_pos hL, bind, Except.bind, throw, throwThe, MonadExceptOf.throw]
  rw [if_neg hL, if_neg hL, hB 1 (by omega), hD 1 (by omega)]
  cases lapackInv ((2 * dt) • B' 1) with
  | error e => simp only [bind, Except.bind]
  | ok M =>
    simp only [bind, Except.bind, pure, Except.pure, Except.ok.injEq]
    exact forRange_agree (fun i h1 h2 ker => by
      rw [hD (2 * i + 1) (by omega), midpointIntegral_agree (B' := fun k => B' (0 + k)) fun j hj => hB _ (by omega)]) _

theorem firstKindTrapz_agree (k0 : Mat K b x) (hB : ∀ n ≤ L, B n = B' n) (hD : ∀ n ≤ L, D n = D' n) :
    firstKindTrapz L k0 B D dt = firstKindTrapz L k0 B' D' dt := by
  unfold firstKindTrapz
  rw [hB 0 (by omega)]
  cases lapackInv (((1 / 2 : K) * dt) • B' 0) with
  | error e => simp only [bind, Except.bind]
  | ok M =>
    simp only [bind, Except.bind, pure, Except.pure, Except.ok.injEq]
    exact forRange_agree (fun i h1 h2 ker => by
      rw [hD i (by omega), trapzIntegral_agree fun j hj => hB _ (by omega)]) _

theorem secondKindRect_agree (k0 : Mat K b x) (B0 : Mat K b b) (hB : ∀ n ≤ L, B n = B' n) (hD : ∀ n ≤ L, D n = D' n) :
    secondKindRect L k0 B0 B D dt = secondKindRect L k0 B0 B' D' dt := by
  unfold secondKindRect
  cases lapackInv B0 with
  | error e => simp only [bind, Except.bind]
  | ok M =>
    simp only [bind, Except.bind, pure, Except.pure, Except.ok.injEq]
    exact forRange_agree (fun i h1 h2 ker => by
      rw [hD i (by omega), rectIntegral_agree fun j _ hj => hB _ (by omega)]) _

theorem secondKindTrapz_agree (k0 : Mat K b x) (B0 : Mat K b b) (hB : ∀ n ≤ L, B n = B' n) (hD : ∀ n ≤ L, D n = D' n) :
    secondKindTrapz L k0 B0 B D dt = secondKindTrapz L k0 B0 B' D' dt := by
  unfold secondKindTrapz
  rw [hB 0 (by omega)]
  cases lapackInv (B0 - ((1 / 2 : K) * dt) • B' 0) with
  | error e => simp only [bind, Except.bind]
  | ok M =>
    simp only [bind, Except.bind, pure, Except.pure, Except.ok.injEq]
    exact forRange_agree (fun i h1 h2 ker => by
      rw [hD i (by omega), trapzIntegral_agree fun j hj => hB _ (by omega)]) _

end

end FKernel

section
variable {K : Type*} [Field K] [DecidableEq K] {b x : ℕ}

/-- Two sets of correlations with the same entries at all lags that exist give the same kernel. -/
theorem computeKernel_agree {c c' : Corrs K b x} (hN : c.N = c'.N) (h1 : 1 ≤ c.N) {d d' : ℕ → Mat K b x}
    {bd bd' : ℕ → Mat K b b} (hd : c.dotbkdx = some d) (hd' : c'.dotbkdx = some d') (hbd : c.dotbkbk = .arr bd)
    (hbd' : c'.dotbkbk = .arr bd') (hB : ∀ n < c.N, c.bkbk n = c'.bkbk n) (hD : ∀ n < c.N, c.bkdx n = c'.bkdx n)
    (hd0 : ∀ n < c.N, d n = d' n) (hbd0 : ∀ n < c.N, bd n = bd' n) (T : ℕ) (dt : K) (method : String)
    (k0 : Option (Mat K b x)) : computeKernel (some c) T dt method k0 = computeKernel (some c') T dt method k0 := by
  obtain ⟨N, B1, D1, d1, b1⟩ := c
  obtain ⟨N', B2, D2, d2, b2⟩ := c'
  dsimp only at hN h1 hd hd' hbd hbd' hB hD hd0 hbd0
  subst hN hd hd' hbd hbd'
  have e0 : effectiveK0 ⟨N, B1, D1, some d, .arr bd⟩ method k0 = effectiveK0 ⟨N, B2, D2, some d', .arr bd'⟩ method k0 := by
    unfold effectiveK0
    dsimp only
    rw [hB 0 (by omega), hd0 0 (by omega)]
  have e1 := FKernel.firstKindRect_agree (dt := dt) (L := N - 1) (B := B1) (B' := B2) (D := D1) (D' := D2)
    (fun n hn => hB n (by omega)) (fun n hn => hD n (by omega))
  have e2 := FKernel.firstKindMidpoint_agree (dt := dt) (L := N - 1) (B := B1) (B' := B2) (D := D1)
    (D' := D2) (fun n hn => hB n (by omega)) (fun n hn => hD n (by omega))
  have e3 := fun k => FKernel.firstKindTrapz_agree (dt := dt) (L := N - 1) (B := B1) (B' := B2) (D := D1)
    (D' := D2) k (fun n hn => hB n (by omega)) (fun n hn => hD n (by omega))
  have e4 := fun k => FKernel.secondKindRect_agree (dt := dt) (L := N - 1) (B := bd) (B' := bd') (D := d)
    (D' := d') k (B2 0) (fun n hn => hbd0 n (by omega)) (fun n hn => hd0 n (by omega))
  have e5 := fun k => FKernel.secondKindTrapz_agree (dt := dt) (L := N - 1) (B := bd) (B' := bd') (D := d)
    (D' := d') k (B2 0) (fun n hn => hbd0 n (by omega)) (fun n hn => hd0 n (by omega))
  have e6 := FKernel.firstKindMidpoint_agree (dt := 3 * dt) (L := (N + 2) / 3 - 1) (B := fun k => B1 (3 * k))
    (B' := fun k => B2 (3 * k)) (D := fun k => D1 (3 * k)) (D' := fun k => D2 (3 * k))
    (fun n hn => hB _ (by omega)) (fun n hn => hD _ (by omega))
  by_cases hT : T = 0
  · unfold computeKernel
    simp only [bind, Except.bind, hT, if_true, throw, throwThe, MonadExceptOf.throw]
  by_cases hm : method ∈ methodNames
  swap
  · rw [computeKernel_unknown hm _ hT, computeKernel_unknown hm _ hT]
  simp only [methodNames, List.mem_cons, List.not_mem_nil, or_false] at hm
  rcases hm with rfl | rfl | rfl | rfl | rfl | rfl | rfl
  · rw [computeKernel_rect_eq _ _ hT (by decide), computeKernel_rect_eq _ _ hT (by decide)]
    dsimp only; rw [e1]
  · rw [computeKernel_rect_eq _ _ hT (by decide), computeKernel_rect_eq _ _ hT (by decide)]
    dsimp only; rw [e1]
  · rw [computeKernel_midpoint_eq _ _ hT, computeKernel_midpoint_eq _ _ hT]
    dsimp only; rw [e2]
  · rw [computeKernel_richardson_eq _ _ hT, computeKernel_richardson_eq _ _ hT]
    dsimp only
    rw [third_len, third_len, third_get, third_get, third_get, third_get, e2, e6]
  · rw [computeKernel_trapz_eq _ _ hT, computeKernel_trapz_eq _ _ hT, e0]
    dsimp only; simp only [e3]
  · rw [computeKernel_secondRect_eq _ _ hT, computeKernel_secondRect_eq _ _ hT, e0]
    cases effectiveK0 _ _ k0 with
    | error er => simp only [Except.bind]
    | ok k =>
      cases k with
      | none => simp only [Except.bind, secondKindBranch]
      | some k =>
        dsimp only [secondKindBranch, Except.bind]
        rw [hB 0 (by omega), e4]
  · rw [computeKernel_secondTrapz_eq _ _ hT, computeKernel_secondTrapz_eq _ _ hT, e0]
    cases effectiveK0 _ _ k0 with
    | error er => simp only [Except.bind]
    | ok k =>
      cases k with
      | none => simp only [Except.bind, secondKindBranch]
      | some k =>
        dsimp only [secondKindBranch, Except.bind]
        rw [hB 0 (by omega), e5]

end

end Verif
