import Verif.Model.ComputeKernel
import Verif.Lemmas.Solvers

/-! # `compute_kernel`, method by method -/

namespace Verif

variable {K : Type*} [Field K] [DecidableEq K] {b x : ℕ}

/-- The full time axis `i dt`. -/
def fullTime (n : ℕ) (dt : K) : Arr K := ⟨n, fun k => (k : K) * dt - ((0 : ℕ) : K) * dt⟩

/-- The last step of `compute_kernel`: build the labelled array. -/
def finish (p : Arr (Mat K b x) × Arr K) : Except Err (KernelData K b x) :=
  if p.1.len ≠ p.2.len then .error .value else .ok ⟨p.1, p.2⟩

omit [Field K] [DecidableEq K] in
theorem finish_ok {p : Arr (Mat K b x) × Arr K} {r : KernelData K b x} (h : finish p = .ok r) :
    p.1.len = p.2.len ∧ r = ⟨p.1, p.2⟩ := by
  unfold finish at h
  split_ifs at h with hl
  cases h
  exact ⟨by simpa using hl, rfl⟩

omit [Field K] [DecidableEq K] in
theorem finish_of_len {p : Arr (Mat K b x) × Arr K} (h : p.1.len = p.2.len) :
    finish p = .ok ⟨p.1, p.2⟩ := by
  unfold finish; simp [h]

theorem bind_ok {ε α β : Type*} {m : Except ε α} {f : α → Except ε β} {r : β}
    (h : m.bind f = .ok r) : ∃ a, m = .ok a ∧ f a = .ok r := by
  cases m with
  | error e => cases h
  | ok a => exact ⟨a, rfl, h⟩

theorem computeKernel_some {c : Option (Corrs K b x)} {n : ℕ} {dt : K} {method : String}
    {k0 : Option (Mat K b x)} {r : KernelData K b x}
    (h : computeKernel c n dt method k0 = .ok r) : ∃ c', c = some c' ∧ n ≠ 0 := by
  cases c with
  | none => simp [computeKernel, bind, Except.bind] at h
  | some c =>
    refine ⟨c, rfl, ?_⟩
    rintro rfl
    simp [computeKernel, bind, Except.bind, throw, throwThe, MonadExceptOf.throw] at h

variable {c : Corrs K b x} {n : ℕ} (dt : K)

theorem computeKernel_rect_eq {method : String} (k0 : Option (Mat K b x)) (hn : n ≠ 0)
    (hm : method ∈ ["rect", "rectangular"]) :
    computeKernel (some c) n dt method k0 =
      (FKernel.firstKindRect (c.N - 1) c.bkbk c.bkdx dt).bind fun ker =>
        finish (⟨c.N, ker⟩, fullTime n dt) := by
  have hk : effectiveK0 c method k0 = .ok k0 := by
    simp only [List.mem_cons, List.not_mem_nil, or_false] at hm
    rcases hm with rfl | rfl <;> simp [effectiveK0]
  unfold computeKernel
  simp only [hn, hk, hm, bind, Except.bind, pure, Except.pure, if_false, if_true]
  cases FKernel.firstKindRect (c.N - 1) c.bkbk c.bkdx dt <;> rfl

theorem computeKernel_midpoint_eq (k0 : Option (Mat K b x)) (hn : n ≠ 0) :
    computeKernel (some c) n dt "midpoint" k0 =
      (FKernel.firstKindMidpoint (c.N - 1) c.bkbk c.bkdx dt).bind fun ker =>
        finish (⟨midpointLen c.N, ker⟩, (fullTime n dt).slice 0 (n - 1) 2) := by
  have hk : effectiveK0 c "midpoint" k0 = .ok k0 := by simp [effectiveK0]
  unfold computeKernel
  have hm : ¬ "midpoint" ∈ ["rect", "rectangular"] := by decide
  simp only [hn, hk, hm, bind, Except.bind, pure, Except.pure, if_false, if_true]
  cases FKernel.firstKindMidpoint (c.N - 1) c.bkbk c.bkdx dt <;> rfl

/-- `a[::3]` along time, for an array with `N` lags. -/
def third {V : Type*} (N : ℕ) (a : ℕ → V) : Arr V := (Arr.mk N a).slice 0 N 3

theorem computeKernel_richardson_eq (k0 : Option (Mat K b x)) (hn : n ≠ 0) :
    computeKernel (some c) n dt "midpoint_w_richardson" k0 =
      (FKernel.firstKindMidpoint (c.N - 1) c.bkbk c.bkdx dt).bind fun ker =>
      (FKernel.firstKindMidpoint ((third c.N c.bkbk).len - 1) (third c.N c.bkbk).get
        (third c.N c.bkdx).get (3 * dt)).bind fun ker3 =>
      (richardson ⟨midpointLen c.N, ker⟩ ⟨midpointLen (third c.N c.bkbk).len, ker3⟩).bind fun k =>
        finish (k, (fullTime n dt).slice 0 (n - 3) 6) := by
  have hk : effectiveK0 c "midpoint_w_richardson" k0 = .ok k0 := by simp [effectiveK0]
  unfold computeKernel
  have hm : ¬ "midpoint_w_richardson" ∈ ["rect", "rectangular"] := by decide
  have hm2 : ¬ "midpoint_w_richardson" = "midpoint" := by decide
  simp only [hn, hk, hm, hm2, bind, Except.bind, pure, Except.pure, if_false, if_true, third]
  cases FKernel.firstKindMidpoint (c.N - 1) c.bkbk c.bkdx dt with
  | error e => rfl
  | ok ker =>
    simp only
    cases FKernel.firstKindMidpoint (((Arr.mk c.N c.bkbk).slice 0 c.N 3).len - 1)
      ((Arr.mk c.N c.bkbk).slice 0 c.N 3).get ((Arr.mk c.N c.bkdx).slice 0 c.N 3).get (3 * dt) with
    | error e => rfl
    | ok ker3 =>
      simp only
      cases richardson ⟨midpointLen c.N, ker⟩
        ⟨midpointLen ((Arr.mk c.N c.bkbk).slice 0 c.N 3).len, ker3⟩ <;> rfl

theorem effectiveK0_isSome {method : String} {k0 k : Option (Mat K b x)}
    (hm : method ∈ ["trapz", "second_kind_rect", "second_kind_trapz"])
    (h : effectiveK0 c method k0 = .ok k) : ∃ k', k = some k' := by
  unfold effectiveK0 at h
  cases k0 with
  | some k1 => simp at h; exact ⟨k1, h.symm⟩
  | none =>
    simp only [Option.isNone_none, true_and, hm, if_true] at h
    cases hd : c.dotbkdx with
    | none => simp [hd] at h
    | some d =>
      simp only [hd, bind] at h
      obtain ⟨inv, -, h2⟩ := bind_ok h
      cases h2
      exact ⟨_, rfl⟩

theorem computeKernel_trapz_eq (k0 : Option (Mat K b x)) (hn : n ≠ 0) :
    computeKernel (some c) n dt "trapz" k0 =
      (effectiveK0 c "trapz" k0).bind fun k0 =>
      match k0 with
      | none => .error .value
      | some k0 =>
        (FKernel.firstKindTrapz (c.N - 1) k0 c.bkbk c.bkdx dt).bind fun ker =>
        (smooth ⟨c.N, ker⟩).bind fun k =>
          finish (k.insert0 k0, (fullTime n dt).slice 0 (n - 1) 1) := by
  unfold computeKernel
  have hm : ¬ "trapz" ∈ ["rect", "rectangular"] := by decide
  have hm2 : ¬ "trapz" = "midpoint" := by decide
  have hm3 : ¬ "trapz" = "midpoint_w_richardson" := by decide
  simp only [hn, hm, hm2, hm3, bind, Except.bind, pure, Except.pure, if_false, if_true]
  cases effectiveK0 c "trapz" k0 with
  | error e => rfl
  | ok k0 =>
    cases k0 with
    | none => rfl
    | some k0 =>
      simp only
      cases FKernel.firstKindTrapz (c.N - 1) k0 c.bkbk c.bkdx dt with
      | error e => rfl
      | ok ker =>
        simp only
        cases smooth ⟨c.N, ker⟩ <;> rfl

/-- The message raised by the second kind methods when derivative correlations are missing. -/
def secondKindMsg : String := "Need correlation with derivative functions to compute the kernel using this method, please use other method."

/-- Common form of the two second kind methods. -/
def secondKindBranch (c : Corrs K b x) (n : ℕ) (dt : K) (k0 : Option (Mat K b x))
    (solver : Mat K b x → (ℕ → Mat K b b) → (ℕ → Mat K b x) → Except Err (ℕ → Mat K b x)) :
    Except Err (KernelData K b x) :=
  match c.dotbkdx, c.dotbkbk, k0 with
  | none, _, _ | _, .none, _ => .error (.exception secondKindMsg)
  | _, .placeholder, _ => .error .attribute
  | some d, .arr bd, some k0 => (solver k0 bd d).bind fun ker => finish (⟨c.N, ker⟩, fullTime n dt)
  | _, _, none => .error .value

theorem computeKernel_secondRect_eq (k0 : Option (Mat K b x)) (hn : n ≠ 0) :
    computeKernel (some c) n dt "second_kind_rect" k0 =
      (effectiveK0 c "second_kind_rect" k0).bind fun k0 =>
        secondKindBranch c n dt k0 fun k0 bd d =>
          FKernel.secondKindRect (c.N - 1) k0 (c.bkbk 0) bd d dt := by
  unfold computeKernel
  have hm : ¬ "second_kind_rect" ∈ ["rect", "rectangular"] := by decide
  have hm2 : ¬ "second_kind_rect" = "midpoint" := by decide
  have hm3 : ¬ "second_kind_rect" = "midpoint_w_richardson" := by decide
  have hm4 : ¬ "second_kind_rect" = "trapz" := by decide
  simp only [hn, hm, hm2, hm3, hm4, bind, Except.bind, pure, Except.pure, if_false, if_true]
  cases effectiveK0 c "second_kind_rect" k0 with
  | error e => rfl
  | ok k0 =>
    unfold secondKindBranch
    simp only
    cases c.dotbkdx with
    | none => rfl
    | some d =>
      cases c.dotbkbk with
      | none => rfl
      | placeholder => rfl
      | arr bd =>
        cases k0 with
        | none => rfl
        | some k0 =>
          simp only
          cases FKernel.secondKindRect (c.N - 1) k0 (c.bkbk 0) bd d dt <;> rfl

theorem computeKernel_secondTrapz_eq (k0 : Option (Mat K b x)) (hn : n ≠ 0) :
    computeKernel (some c) n dt "second_kind_trapz" k0 =
      (effectiveK0 c "second_kind_trapz" k0).bind fun k0 =>
        secondKindBranch c n dt k0 fun k0 bd d =>
          FKernel.secondKindTrapz (c.N - 1) k0 (c.bkbk 0) bd d dt := by
  unfold computeKernel
  have hm : ¬ "second_kind_trapz" ∈ ["rect", "rectangular"] := by decide
  have hm2 : ¬ "second_kind_trapz" = "midpoint" := by decide
  have hm3 : ¬ "second_kind_trapz" = "midpoint_w_richardson" := by decide
  have hm4 : ¬ "second_kind_trapz" = "trapz" := by decide
  have hm5 : ¬ "second_kind_trapz" = "second_kind_rect" := by decide
  simp only [hn, hm, hm2, hm3, hm4, hm5, bind, Except.bind, pure, Except.pure, if_false, if_true]
  cases effectiveK0 c "second_kind_trapz" k0 with
  | error e => rfl
  | ok k0 =>
    unfold secondKindBranch
    simp only
    cases c.dotbkdx with
    | none => rfl
    | some d =>
      cases c.dotbkbk with
      | none => rfl
      | placeholder => rfl
      | arr bd =>
        cases k0 with
        | none => rfl
        | some k0 =>
          simp only
          cases FKernel.secondKindTrapz (c.N - 1) k0 (c.bkbk 0) bd d dt <;> rfl

variable {dt}

theorem computeKernel_rect_ok {method : String} {k0 : Option (Mat K b x)} {r : KernelData K b x}
    (hm : method ∈ ["rect", "rectangular"])
    (h : computeKernel (some c) n dt method k0 = .ok r) :
    c.N = n ∧ ∃ ker, FKernel.firstKindRect (c.N - 1) c.bkbk c.bkdx dt = .ok ker ∧
      r = ⟨⟨c.N, ker⟩, fullTime n dt⟩ := by
  obtain ⟨-, -, hn⟩ := computeKernel_some h
  rw [computeKernel_rect_eq _ _ hn hm] at h
  obtain ⟨ker, hker, h⟩ := bind_ok h
  obtain ⟨hl, rfl⟩ := finish_ok h
  exact ⟨hl, ker, hker, rfl⟩

theorem computeKernel_midpoint_ok {k0 : Option (Mat K b x)} {r : KernelData K b x}
    (h : computeKernel (some c) n dt "midpoint" k0 = .ok r) :
    ∃ ker, FKernel.firstKindMidpoint (c.N - 1) c.bkbk c.bkdx dt = .ok ker ∧
      midpointLen c.N = ((fullTime n dt).slice 0 (n - 1) 2).len ∧
      r = ⟨⟨midpointLen c.N, ker⟩, (fullTime n dt).slice 0 (n - 1) 2⟩ := by
  obtain ⟨-, -, hn⟩ := computeKernel_some h
  rw [computeKernel_midpoint_eq _ _ hn] at h
  obtain ⟨ker, hker, h⟩ := bind_ok h
  obtain ⟨hl, rfl⟩ := finish_ok h
  exact ⟨ker, hker, hl, rfl⟩

theorem computeKernel_trapz_ok {k0 : Option (Mat K b x)} {r : KernelData K b x}
    (h : computeKernel (some c) n dt "trapz" k0 = .ok r) :
    ∃ k ker s, effectiveK0 c "trapz" k0 = .ok (some k) ∧
      FKernel.firstKindTrapz (c.N - 1) k c.bkbk c.bkdx dt = .ok ker ∧
      smooth ⟨c.N, ker⟩ = .ok s ∧
      s.len + 1 = ((fullTime n dt).slice 0 (n - 1) 1).len ∧
      r = ⟨s.insert0 k, (fullTime n dt).slice 0 (n - 1) 1⟩ := by
  obtain ⟨-, -, hn⟩ := computeKernel_some h
  rw [computeKernel_trapz_eq _ _ hn] at h
  obtain ⟨ok0, hk0, h⟩ := bind_ok h
  obtain ⟨k, rfl⟩ := effectiveK0_isSome (by decide) hk0
  obtain ⟨ker, hker, h⟩ := bind_ok h
  obtain ⟨s, hs, h⟩ := bind_ok h
  obtain ⟨hl, rfl⟩ := finish_ok h
  exact ⟨k, ker, s, hk0, hker, hs, hl, rfl⟩

omit [DecidableEq K] in
theorem secondKindBranch_ok {k0 : Option (Mat K b x)}
    {solver : Mat K b x → (ℕ → Mat K b b) → (ℕ → Mat K b x) → Except Err (ℕ → Mat K b x)}
    {r : KernelData K b x} (h : secondKindBranch c n dt k0 solver = .ok r) :
    c.N = n ∧ ∃ d bd k ker, c.dotbkdx = some d ∧ c.dotbkbk = .arr bd ∧ k0 = some k ∧
      solver k bd d = .ok ker ∧ r = ⟨⟨c.N, ker⟩, fullTime n dt⟩ := by
  unfold secondKindBranch at h
  cases hd : c.dotbkdx with
  | none => rw [hd] at h; simp at h
  | some d =>
    rw [hd] at h
    cases hb : c.dotbkbk with
    | none => rw [hb] at h; simp at h
    | placeholder => rw [hb] at h; simp at h
    | arr bd =>
      rw [hb] at h
      cases k0 with
      | none => simp at h
      | some k =>
        simp only at h
        obtain ⟨ker, hker, h⟩ := bind_ok h
        obtain ⟨hl, rfl⟩ := finish_ok h
        exact ⟨hl, d, bd, k, ker, rfl, rfl, rfl, hker, rfl⟩

theorem computeKernel_secondRect_ok {k0 : Option (Mat K b x)} {r : KernelData K b x}
    (h : computeKernel (some c) n dt "second_kind_rect" k0 = .ok r) :
    c.N = n ∧ ∃ d bd k ker, c.dotbkdx = some d ∧ c.dotbkbk = .arr bd ∧
      effectiveK0 c "second_kind_rect" k0 = .ok (some k) ∧
      FKernel.secondKindRect (c.N - 1) k (c.bkbk 0) bd d dt = .ok ker ∧
      r = ⟨⟨c.N, ker⟩, fullTime n dt⟩ := by
  obtain ⟨-, -, hn⟩ := computeKernel_some h
  rw [computeKernel_secondRect_eq _ _ hn] at h
  obtain ⟨ok0, hk0, h⟩ := bind_ok h
  obtain ⟨hN, d, bd, k, ker, h1, h2, rfl, h4, h5⟩ := secondKindBranch_ok h
  exact ⟨hN, d, bd, k, ker, h1, h2, hk0, h4, h5⟩

theorem computeKernel_secondTrapz_ok {k0 : Option (Mat K b x)} {r : KernelData K b x}
    (h : computeKernel (some c) n dt "second_kind_trapz" k0 = .ok r) :
    c.N = n ∧ ∃ d bd k ker, c.dotbkdx = some d ∧ c.dotbkbk = .arr bd ∧
      effectiveK0 c "second_kind_trapz" k0 = .ok (some k) ∧
      FKernel.secondKindTrapz (c.N - 1) k (c.bkbk 0) bd d dt = .ok ker ∧
      r = ⟨⟨c.N, ker⟩, fullTime n dt⟩ := by
  obtain ⟨-, -, hn⟩ := computeKernel_some h
  rw [computeKernel_secondTrapz_eq _ _ hn] at h
  obtain ⟨ok0, hk0, h⟩ := bind_ok h
  obtain ⟨hN, d, bd, k, ker, h1, h2, rfl, h4, h5⟩ := secondKindBranch_ok h
  exact ⟨hN, d, bd, k, ker, h1, h2, hk0, h4, h5⟩

end Verif
