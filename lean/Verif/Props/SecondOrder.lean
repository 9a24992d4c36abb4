import Verif.Props.Corrs
import Verif.Props.EstimatorExamples

/-!
# `compute_corrs` with `second_order_method=False` (C115)
-/

namespace Verif

set_option linter.unusedSectionVars false
set_option linter.unusedSimpArgs false

open LArr Finset

section
variable {K : Type*} [Field K] [LinearOrder K]

/-- Lists of four arrays with the same first and third ones. -/
def SameFirst (l l' : List (LArr K)) : Prop :=
  ∃ A A' B B' D D', l = [A, A', B, B'] ∧ l' = [A, D, B, D']

theorem correlationTraj_same {func : CorrFn K} {m : BasisModel K} {L : String} {fc : LArr K} {T w : ℕ} {xva : Xva K}
    {l l' : List (LArr K)} (h : correlationTraj func m L fc T true w xva = .ok l)
    (h' : correlationTraj func m L fc T false w xva = .ok l') : SameFirst l l' := by
  unfold correlationTraj at h h'
  cases hc : m.corrsVector xva with
  | error e => rw [hc] at h; cases h
  | ok v =>
    obtain ⟨F, E, D⟩ := v
    rw [hc] at h h'
    simp only [bind, Except.bind, pure, Except.pure] at h h'
    cases ho : LArr.binop (· - ·) (xva.var L) (LArr.dot [F, fc]) with
    | error e => rw [ho] at h; cases h
    | ok o =>
      rw [ho] at h h'
      dsimp only at h h'
      cases ha : applyCorr func E o T with
      | error e => rw [ha] at h; cases h
      | ok A =>
        rw [ha] at h h'
        dsimp only at h h'
        cases hb : applyCorr func (E.rename1 "dim_basis" "dim_basis'") E T with
        | error e => rw [hb] at h; cases h
        | ok B =>
          rw [hb] at h h'
          simp only [if_true, Bool.false_eq_true, if_false] at h h'
          cases hd : applyCorr func D o T with
          | error e => rw [hd] at h; cases h
          | ok A' =>
            rw [hd] at h
            dsimp only at h
            cases he : applyCorr func (D.rename1 "dim_basis" "dim_basis'") E T with
            | error e => rw [he] at h; cases h
            | ok B' =>
              rw [he] at h
              exact ⟨A, A', B, B', _, _, (Except.ok.inj h).symm, (Except.ok.inj h').symm⟩

theorem accumulate_four {w W : ℕ} {a b c d a' b' c' d' : LArr K} {l : List (LArr K)}
    (h : accumulate w W [a, b, c, d] [a', b', c', d'] = .ok l) :
    ∃ A A' B B', l = [A, A', B, B'] ∧
      LArr.binop (· + ·) a (a'.map fun e => e * (w : K) / (W : K)) = .ok A ∧
      LArr.binop (· + ·) c (c'.map fun e => e * (w : K) / (W : K)) = .ok B := by
  simp only [accumulate, bind, Except.bind, pure, Except.pure] at h
  cases h1 : LArr.binop (· + ·) a (a'.map fun e => e * (w : K) / (W : K)) with
  | error e => rw [h1] at h; cases h
  | ok A =>
    rw [h1] at h
    dsimp only at h
    cases h2 : LArr.binop (· + ·) b (b'.map fun e => e * (w : K) / (W : K)) with
    | error e => rw [h2] at h; cases h
    | ok A' =>
      rw [h2] at h
      dsimp only at h
      cases h3 : LArr.binop (· + ·) c (c'.map fun e => e * (w : K) / (W : K)) with
      | error e => rw [h3] at h; cases h
      | ok B =>
        rw [h3] at h
        dsimp only at h
        cases h4 : LArr.binop (· + ·) d (d'.map fun e => e * (w : K) / (W : K)) with
        | error e => rw [h4] at h; cases h
        | ok B' =>
          rw [h4] at h
          exact ⟨A, A', B, B', (Except.ok.inj h).symm, rfl, rfl⟩

theorem accumulate_same {w W : ℕ} {r r' a a' l l' : List (LArr K)} (hr : SameFirst r r') (ha : SameFirst a a')
    (h : accumulate w W r a = .ok l) (h' : accumulate w W r' a' = .ok l') : SameFirst l l' := by
  obtain ⟨A, A', B, B', D, D', rfl, rfl⟩ := hr
  obtain ⟨A1, A1', B1, B1', D1, D1', rfl, rfl⟩ := ha
  obtain ⟨X, X', Y, Y', rfl, h1, h2⟩ := accumulate_four h
  obtain ⟨U, U', V, V', rfl, h3, h4⟩ := accumulate_four h'
  obtain rfl := Except.ok.inj (h1.symm.trans h3)
  obtain rfl := Except.ok.inj (h2.symm.trans h4)
  exact ⟨X, X', Y, Y', U', V', rfl, rfl⟩

theorem foldlM_same {W : ℕ} : ∀ {ws : List ℕ} {rs rs' : List (List (LArr K))} {a a' l l' : List (LArr K)},
    List.Forall₂ SameFirst rs rs' → SameFirst a a' →
    (ws.zip rs).foldlM (fun res wr => accumulate wr.1 W res wr.2) a = .ok l →
    (ws.zip rs').foldlM (fun res wr => accumulate wr.1 W res wr.2) a' = .ok l' → SameFirst l l'
  | [], _, _, _, _, _, _, _, ha, h, h' => by
    simp only [List.zip_nil_left, List.foldlM_nil, pure, Except.pure] at h h'
    obtain rfl := Except.ok.inj h
    obtain rfl := Except.ok.inj h'
    exact ha
  | w :: ws, _, _, _, _, _, _, .nil, ha, h, h' => by
    simp only [List.zip_nil_right, List.foldlM_nil, pure, Except.pure] at h h'
    obtain rfl := Except.ok.inj h
    obtain rfl := Except.ok.inj h'
    exact ha
  | w :: ws, r :: rs, r' :: rs', a, a', l, l', .cons hr hrs, ha, h, h' => by
    simp only [List.zip_cons_cons, List.foldlM_cons, bind, Except.bind] at h h'
    cases h1 : accumulate w W a r with
    | error e => rw [h1] at h; cases h
    | ok b =>
      cases h2 : accumulate w W a' r' with
      | error e => rw [h2] at h'; cases h'
      | ok b' =>
        rw [h1] at h
        rw [h2] at h'
        exact foldlM_same hrs (accumulate_same ha hr h1 h2) h h'

theorem mapE_same {f g : Xva K → Except Err (List (LArr K))} (hfg : ∀ x l l', f x = .ok l → g x = .ok l' → SameFirst l l') :
    ∀ {xs : List (Xva K)} {rs rs' : List (List (LArr K))}, mapE f xs = .ok rs → mapE g xs = .ok rs' →
      List.Forall₂ SameFirst rs rs'
  | [], rs, rs', h, h' => by
    obtain rfl := Except.ok.inj h
    obtain rfl := Except.ok.inj h'
    exact .nil
  | x :: xs, rs, rs', h, h' => by
    simp only [mapE, bind, Except.bind, pure, Except.pure] at h h'
    cases h1 : f x with
    | error e => rw [h1] at h; cases h
    | ok b =>
      cases h2 : g x with
      | error e => rw [h2] at h'; cases h'
      | ok b' =>
        rw [h1] at h
        rw [h2] at h'
        dsimp only at h h'
        cases h3 : mapE f xs with
        | error e => rw [h3] at h; cases h
        | ok bs =>
          cases h4 : mapE g xs with
          | error e => rw [h4] at h'; cases h'
          | ok bs' =>
            rw [h3] at h
            rw [h4] at h'
            obtain rfl := Except.ok.inj h
            obtain rfl := Except.ok.inj h'
            exact .cons (hfg x _ _ h1 h2) (mapE_same hfg h3 h4)

theorem loopSerial_same {f g : ℕ → Xva K → Except Err (List (LArr K))}
    (hfg : ∀ x l l', f x.n x = .ok l → g x.n x = .ok l' → SameFirst l l') {xs : List (Xva K)} {l l' : List (LArr K)}
    (h : loopSerial f xs = .ok l) (h' : loopSerial g xs = .ok l') : SameFirst l l' := by
  simp only [loopSerial, bind, Except.bind] at h h'
  cases h1 : mapE (fun x => f x.n x) xs with
  | error e => rw [h1] at h; cases h
  | ok rs =>
    cases h2 : mapE (fun x => g x.n x) xs with
    | error e => rw [h2] at h'; cases h'
    | ok rs' =>
      rw [h1] at h
      rw [h2] at h'
      have hrs := mapE_same hfg h1 h2
      dsimp only at h h'
      cases hrs with
      | nil => cases h
      | cons hr ht =>
        unfold combine at h h'
        dsimp only at h h'
        refine foldlM_same (.cons hr ht) ?_ h h'
        obtain ⟨A, A', B, B', D, D', rfl, rfl⟩ := hr
        exact ⟨_, _, _, _, _, _, rfl, rfl⟩

/-- What the loop returns with and without derivatives. -/
theorem CorrReady.loop_same {env : Env K} {method : String} {vectorize : Bool} {s : EstState K} {d : String} {x : ℕ}
    {fc : LArr K} (h : CorrReady env method vectorize s d x fc) :
    ∃ A A' B B' D D', env.loop (correlationTraj (env.corrFn method vectorize) s.model.bm s.model.Lobs fc s.model.truncInd
        true) s.xvas = .ok [A, A', B, B'] ∧
      env.loop (correlationTraj (env.corrFn method vectorize) s.model.bm s.model.Lobs fc s.model.truncInd
        false) s.xvas = .ok [A, D, B, D'] := by
  obtain ⟨A, A', B, B', e, -⟩ := h.loop_ok true
  obtain ⟨U, D, V, D', e', -⟩ := h.loop_ok false
  have e1 := e
  have e1' := e'
  rw [h.loop.eq] at e e'
  obtain ⟨X, X', Y, Y', Z, Z', h1, h2⟩ := loopSerial_same (fun x l l' => correlationTraj_same) e e'
  simp only [List.cons.injEq, and_true] at h1 h2
  obtain ⟨rfl, rfl, rfl, rfl⟩ := h1
  obtain ⟨rfl, rfl, rfl, rfl⟩ := h2
  exact ⟨_, _, _, _, _, _, e1, e1'⟩

theorem isel_first {A : LArr K} {b x T : ℕ} {d : String} (h1 : d ≠ "dim_basis") (h2 : d ≠ "time_trunc")
    (hA : A.dims = ["time_trunc", "dim_basis", d]) (hAs : A.shape = [T, b, x]) (p j n : ℕ) :
    (A.isel "time_trunc" n).get [p, j] = A.get [n, p, j] := by
  obtain ⟨_, _, g⟩ := A
  simp only at hA hAs
  subst hA hAs
  have e1 : ("time_trunc" == d) = false := by simpa using h2.symm
  have e2 : (d == "dim_basis") = false := by simpa using h1
  have e3 : (d == "time_trunc") = false := by simpa using h2
  simp [isel, env, LArr.val, List.lookup, List.erase_cons, e1, e2, e3, h1, h2, h2.symm, Function.update]

theorem isel_project_first {P A : LArr K} {r b x T : ℕ} {d : String} (h1 : d ≠ "dim_basis") (h2 : d ≠ "dim_basis_old")
    (h3 : d ≠ "time_trunc") (hP : P.dims = ["dim_basis", "dim_basis_old"]) (hPs : P.shape = [r, b])
    (hA : A.dims = ["time_trunc", "dim_basis", d]) (hAs : A.shape = [T, b, x]) (p j n : ℕ) :
    ((LArr.dot [P, A.rename1 "dim_basis" "dim_basis_old"]).isel "time_trunc" n).get [p, j] =
      ∑ k ∈ range b, P.get [p, k] * A.get [n, k, j] := by
  obtain ⟨ds, sh, g⟩ := P
  obtain ⟨ds', sh', g'⟩ := A
  simp only at hP hPs hA hAs
  subst hP hPs hA hAs
  have e1 : (d == "dim_basis") = false := by simpa using h1
  have e2 : (d == "dim_basis_old") = false := by simpa using h2
  have e3 : (d == "time_trunc") = false := by simpa using h3
  have e1' : ("dim_basis" == d) = false := by simpa using h1.symm
  have e2' : ("dim_basis_old" == d) = false := by simpa using h2.symm
  have e3' : ("time_trunc" == d) = false := by simpa using h3.symm
  simp [isel, dot, rename1, rename, dotDims, unionDims, sizeIn, size, env, LArr.val, sumOver, h1, h2, h3, h1.symm, h2.symm, h3.symm, List.countP_cons, List.lookup, e1, e2, e3, e1', e2', e3', Function.update, List.erase_cons]

/-- The methods of the first kind use the derivatives only through the value of `dotbkdxcorrw` at time zero. -/
theorem computeKernel_congr {b x : ℕ} {c c' : Corrs K b x} {d d' : ℕ → Mat K b x} (hN : c.N = c'.N)
    (hb : c.bkbk = c'.bkbk) (hx : c.bkdx = c'.bkdx) (hd : c.dotbkdx = some d) (hd' : c'.dotbkdx = some d')
    (h0 : d 0 = d' 0) {method : String} (hm : method ∉ ["second_kind_rect", "second_kind_trapz"]) (T : ℕ) (dt : K)
    (k0 : Option (Mat K b x)) :
    computeKernel (some c) T dt method k0 = computeKernel (some c') T dt method k0 := by
  simp only [List.mem_cons, List.not_mem_nil, or_false, not_or] at hm
  have he : effectiveK0 c method k0 = effectiveK0 c' method k0 := by
    unfold effectiveK0
    rw [hd, hd', hb]
    dsimp only
    rw [h0]
  simp only [computeKernel, bind, Except.bind, he, hN, hb, hx, hm, if_false]

/-- **C115**: for the methods of the first kind the kernel does not depend on `second_order_method`: whatever the
trajectories and the projection, `compute_kernel` ends in the same way with the same model. -/
theorem C115_same_kernel {env : Env K} {method : String} {vectorize : Bool} {rankTol : Option K} {s : EstState K}
    {d : String} {x : ℕ} {fc : LArr K} (h : CorrReady env method vectorize s d x fc)
    (hk : s.model.rankProjection = true → Spec.nCorr s.model.bm = s.model.bm.nKernel) {km : String}
    (hm : km ∉ ["second_kind_rect", "second_kind_trapz"]) (k0 : ∀ b x : ℕ, Option (Mat K b x)) :
    (computeKernelStep km k0 (computeCorrs env method vectorize true rankTol s).1).2 =
      (computeKernelStep km k0 (computeCorrs env method vectorize false rankTol s).1).2 ∧
    (computeKernelStep km k0 (computeCorrs env method vectorize true rankTol s).1).1.model =
      (computeKernelStep km k0 (computeCorrs env method vectorize false rankTol s).1).1.model := by
  have key : ∀ (c c' : CorrsL K) (t t' : EstState K), t.model = t'.model → t.corrs = some c → t'.corrs = some c' →
      c.bkbk = c'.bkbk → c.bkdx = c'.bkdx → (∀ p < (c.bkbk.shape[0]?).getD 0, ∀ j < (c.bkdx.shape[1]?).getD 0,
        (c.dotbkdx.isel "time_trunc" 0).get [p, j] = (c'.dotbkdx.isel "time_trunc" 0).get [p, j]) →
      (computeKernelStep km k0 t).2 = (computeKernelStep km k0 t').2 ∧
      (computeKernelStep km k0 t).1.model = (computeKernelStep km k0 t').1.model := by
    intro c c' t t' ht hc hc' h1 h2 h3
    unfold computeKernelStep
    rw [hc, hc']
    dsimp only
    rw [← h1, ← h2, ← ht]
    have e := fun T dt => computeKernel_congr (c := c.toCorrs ((c.bkbk.shape[0]?).getD 0) ((c.bkdx.shape[1]?).getD 0))
      (c' := c'.toCorrs ((c.bkbk.shape[0]?).getD 0) ((c.bkdx.shape[1]?).getD 0)) (by simp only [CorrsL.toCorrs, h1])
      (by simp only [CorrsL.toCorrs, h1]) (by simp only [CorrsL.toCorrs, h2]) rfl rfl
      (by ext p j; exact h3 p p.2 j j.2) hm T dt (k0 _ _)
    rw [e]
    split_ifs
    · exact ⟨rfl, ht⟩
    · split <;> exact ⟨rfl, rfl⟩
  obtain ⟨A, A', B, B', D, D', e1, e2⟩ := h.loop_same
  obtain ⟨A2, A2', B2, B2', e1', ⟨a1, a2, -⟩, ⟨b1, b2, -⟩, h3, -⟩ := h.loop_ok true
  obtain ⟨A3, A3', B3, B3', e2', -, -, -, h4⟩ := h.loop_ok false
  obtain ⟨rfl, rfl, rfl, rfl⟩ : A2 = A ∧ A2' = A' ∧ B2 = B ∧ B2' = B' := by
    have := Except.ok.inj (e1'.symm.trans e1)
    simpa using this
  obtain ⟨rfl, rfl, rfl, rfl⟩ : A3 = A2 ∧ A3' = D ∧ B3 = B2 ∧ B3' = D' := by
    have := Except.ok.inj (e2'.symm.trans e2)
    simpa using this
  obtain ⟨⟨c1, c2, c3⟩, -⟩ := h3 rfl
  obtain ⟨d1, d2, d3⟩ := h4 rfl
  unfold computeCorrs
  rw [h.force]
  dsimp only
  rw [e1, e2]
  dsimp only
  have plain : ∀ p < Spec.nCorr s.model.bm, ∀ j < x,
      (A2'.isel "time_trunc" 0).get [p, j] = (A3'.isel "time_trunc" 0).get [p, j] := by
    intro p hp j hj
    rw [isel_obs h.obs.2.1 h.dim.1 c1 c2, isel_first h.obs.2.1 h.dim.1 d1 d2, c3 p hp j hj 0 h.tpos, d3 p hp j hj]
  have hb : (B3.shape[0]?).getD 0 = Spec.nCorr s.model.bm := by rw [b2]; rfl
  have hx : (A3.shape[1]?).getD 0 = x := by rw [a2]; rfl
  cases hr : s.model.rankProjection with
  | false =>
    simp only [Bool.false_eq_true, if_false]
    split_ifs <;> refine key _ _ _ _ rfl rfl rfl rfl rfl ?_ <;> dsimp only <;> rw [hb, hx] <;> exact plain
  | true =>
    simp only [if_true]
    cases hP : setRangeProjection env.svd env.eps rankTol s.model.bm.nKernel s.model.bm.dimx (B3.isel "time_trunc" 0) with
    | error er =>
      refine key _ _ _ _ rfl rfl rfl rfl rfl ?_
      dsimp only; rw [hb, hx]; exact plain
    | ok P =>
      obtain ⟨r, p1, p2⟩ : ∃ r, P.dims = ["dim_basis", "dim_basis_old"] ∧ P.shape = [r, Spec.nCorr s.model.bm] := by
        unfold setRangeProjection at hP
        dsimp only at hP
        split_ifs at hP <;> simp only [Except.ok.injEq, reduceCtorEq] at hP <;> rw [← hP, hk hr] <;> exact ⟨_, rfl, rfl⟩
      obtain ⟨o1, o2, o3⟩ := project_obs h.obs.2.1 h.dim.2 h.dim.1 p1 p2 a1 a2
      obtain ⟨v1, v2, v3⟩ := project_obs h.obs.2.1 h.dim.2 h.dim.1 p1 p2 c1 c2
      have proj : ∀ p, ∀ j < x,
          ((LArr.dot [P, A2'.rename1 "dim_basis" "dim_basis_old"]).isel "time_trunc" 0).get [p, j] =
          ((LArr.dot [P, A3'.rename1 "dim_basis" "dim_basis_old"]).isel "time_trunc" 0).get [p, j] := by
        intro p j hj
        rw [isel_obs h.obs.2.1 h.dim.1 v1 v2, v3, isel_project_first h.obs.2.1 h.dim.2 h.dim.1 p1 p2 d1 d2]
        refine sum_congr rfl fun k hk => ?_
        rw [c3 k (mem_range.1 hk) j hj 0 h.tpos, d3 k (mem_range.1 hk) j hj]
      have hx' : ((LArr.dot [P, A3.rename1 "dim_basis" "dim_basis_old"]).shape[1]?).getD 0 = x := by rw [o2]; rfl
      dsimp only
      split_ifs <;> refine key _ _ _ _ rfl rfl rfl rfl rfl ?_ <;> simp only [projectCorrs] <;> rw [hx'] <;>
        exact fun p _ j hj => proj p j hj

/-- **C115**: without derivatives the methods of the second kind raise `AttributeError` when the value at time zero is
given, and fail in any case. -/
theorem C115_second_kind {env : Env K} {method : String} {vectorize : Bool} {rankTol : Option K} {s : EstState K}
    {d : String} {x : ℕ} {fc : LArr K} (h : CorrReady env method vectorize s d x fc) {km : String}
    (hm : km ∈ ["second_kind_rect", "second_kind_trapz"]) (k0 : ∀ b x : ℕ, Option (Mat K b x)) :
    (computeKernelStep km k0 (computeCorrs env method vectorize false rankTol s).1).2 ≠ none ∧
    ((∀ b x, (k0 b x).isSome) →
      (computeKernelStep km k0 (computeCorrs env method vectorize false rankTol s).1).2 = some .attribute) := by
  have key : ∀ (c : CorrsL K) (t : EstState K), t.corrs = some c → c.dotbkbk = none → t.model.truncInd ≠ 0 →
      (computeKernelStep km k0 t).2 ≠ none ∧ ((∀ b x, (k0 b x).isSome) → (computeKernelStep km k0 t).2 = some .attribute) := by
    intro c t hc hn ht
    unfold computeKernelStep
    rw [hc]
    dsimp only
    rw [if_neg ht]
    generalize (c.bkbk.shape[0]?).getD 0 = b
    generalize (c.bkdx.shape[1]?).getD 0 = x
    have hp : (c.toCorrs b x).dotbkbk = .placeholder := by simp only [CorrsL.toCorrs, hn]
    have hd : ∃ D, (c.toCorrs b x).dotbkdx = some D := ⟨_, rfl⟩
    obtain ⟨D, hd⟩ := hd
    generalize c.toCorrs b x = cc at hp hd
    cases he : effectiveK0 cc km (k0 b x) with
    | error e =>
      have : computeKernel (some cc) t.model.truncInd t.model.dt km (k0 b x) = .error e := by
        simp only [computeKernel, bind, Except.bind, pure, Except.pure, if_neg ht, he]
      rw [this]
      refine ⟨by simp [raises], fun hs => ?_⟩
      have := hs b x
      unfold effectiveK0 at he
      rw [if_neg (by rintro ⟨hh, -⟩; cases hk : k0 b x <;> simp_all)] at he
      cases he
    | ok v =>
      have : computeKernel (some cc) t.model.truncInd t.model.dt km (k0 b x) = .error .attribute := by
        simp only [List.mem_cons, List.not_mem_nil, or_false] at hm
        rcases hm with rfl | rfl <;>
          simp [computeKernel, bind, Except.bind, pure, Except.pure, if_neg ht, he, hp, hd, throw, throwThe, MonadExceptOf.throw]
      rw [this]
      exact ⟨by simp [raises], fun _ => rfl⟩
  obtain ⟨A, A', B, B', e, -⟩ := h.loop_ok false
  have hT : s.model.truncInd ≠ 0 := by have := h.tpos; omega
  unfold computeCorrs
  rw [h.force]
  dsimp only
  rw [e]
  dsimp only
  cases hr : s.model.rankProjection with
  | false =>
    simp only [Bool.false_eq_true, if_false]
    split_ifs <;> exact key _ _ rfl rfl hT
  | true =>
    simp only [if_true]
    cases hP : setRangeProjection env.svd env.eps rankTol s.model.bm.nKernel s.model.bm.dimx (B.isel "time_trunc" 0) with
    | error er => exact key _ _ rfl rfl hT
    | ok P =>
      simp only [Bool.false_eq_true, if_false]
      split_ifs <;> exact key _ _ rfl rfl hT

/-- **C115** fails for an estimator that saves its results: with `second_order_method=False` the call raises `ValueError`
after the correlations are stored. -/
theorem C115_saveall_fails {env : Env K} {method : String} {vectorize : Bool} {rankTol : Option K} {s : EstState K}
    {d : String} {x : ℕ} {fc : LArr K} (h : CorrReady env method vectorize s d x fc)
    (hr : s.model.rankProjection = false) :
    (s.saveall = true → (computeCorrs env method vectorize false rankTol s).2 = some .value) ∧
    (s.saveall = false → (computeCorrs env method vectorize false rankTol s).2 = none) ∧
    (computeCorrs env method vectorize true rankTol s).2 = none ∧
    (computeCorrs env method vectorize false rankTol s).1.corrs ≠ none := by
  obtain ⟨A, A', B, B', e, -⟩ := h.loop_ok false
  obtain ⟨A2, A2', B2, B2', e2, -⟩ := h.loop_ok true
  unfold computeCorrs
  rw [h.force]
  dsimp only
  rw [e, e2]
  simp only [hr, Bool.false_eq_true, if_false, not_false_eq_true, and_true, not_true_eq_false, and_false]
  refine ⟨fun hs => by simp [hs, raises], fun hs => by simp [hs], trivial, ?_⟩
  split_ifs <;> simp [raises]

end

example := C115_same_kernel (rankTol := none) (Ex.corrReady true) (fun _ => rfl) (km := "trapz") (by decide) fun _ _ => none
example := C115_second_kind (rankTol := none) (Ex.corrReady false) (km := "second_kind_rect") (by decide) fun _ _ => none
example := C115_saveall_fails (rankTol := none) (Ex.corrReady false) rfl

end Verif
