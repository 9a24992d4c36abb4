import Verif.Model.Estimator
import Mathlib.Tactic.Ring

/-!
# Lemmas on labelled arrays and on the loop over the trajectories
-/

namespace Verif
namespace LArr

open Finset

variable {K : Type*}

theorem env_cons_self (d : String) (ds : List String) (i : ℕ) (is : List ℕ) : env (d :: ds) (i :: is) d = i := by
  simp [env]

theorem env_cons_ne {d d' : String} (h : d' ≠ d) (ds : List String) (i : ℕ) (is : List ℕ) :
    env (d :: ds) (i :: is) d' = env ds is d' := by
  simp only [env, List.zip_cons_cons, List.lookup]
  rw [show (d' == d) = false from by simpa using h]

theorem map_env : ∀ {ds : List String} {is : List ℕ}, ds.Nodup → is.length = ds.length →
    ds.map (env ds is) = is
  | [], [], _, _ => rfl
  | d :: ds, i :: is, hn, hl => by
    obtain ⟨h1, h2⟩ := List.nodup_cons.1 hn
    simp only [List.map_cons, env_cons_self]
    congr 1
    have : ds.map (env (d :: ds) (i :: is)) = ds.map (env ds is) := by
      refine List.map_congr_left fun d' hd' => env_cons_ne ?_ _ _ _
      rintro rfl; exact h1 hd'
    rw [this]
    exact map_env h2 (by simpa using hl)

theorem val_env {A : LArr K} {is : List ℕ} (hn : A.dims.Nodup) (hl : is.length = A.dims.length) :
    A.val (env A.dims is) = A.get is := by
  rw [val, map_env hn hl]

/-- `is` is a valid position in an array of shape `sh`. -/
def InRange (is sh : List ℕ) : Prop := List.Forall₂ (· < ·) is sh

/-- `A` has axes `ds`, sizes `sh` and entries `f`. -/
def Is (A : LArr K) (ds : List String) (sh : List ℕ) (f : List ℕ → K) : Prop :=
  A.dims = ds ∧ A.shape = sh ∧ ∀ is : List ℕ, InRange is sh → A.get is = f is

theorem Is.congr {A : LArr K} {ds : List String} {sh : List ℕ} {f g : List ℕ → K} (h : A.Is ds sh f)
    (hfg : ∀ is : List ℕ, InRange is sh → f is = g is) : A.Is ds sh g :=
  ⟨h.1, h.2.1, fun is hl => by rw [h.2.2 is hl, hfg is hl]⟩

theorem Is.map {A : LArr K} {ds : List String} {sh : List ℕ} {f : List ℕ → K} (h : A.Is ds sh f) (g : K → K) :
    (A.map g).Is ds sh fun is => g (f is) :=
  ⟨h.1, h.2.1, fun is hl => by dsimp only; rw [← h.2.2 is hl]; rfl⟩

theorem unionDims_self {A B : LArr K} (h : A.dims = B.dims) : unionDims [A, B] = A.dims := by
  simp [unionDims, h]

theorem compat_of_eq {A B : LArr K} (h : A.dims = B.dims) (hs : A.shape = B.shape) : compat [A, B] = true := by
  simp only [compat, List.all_cons, List.all_nil, Bool.and_true, Bool.and_eq_true, List.all_eq_true,
    decide_eq_true_eq]
  refine ⟨fun d hd => ?_, fun d hd => ?_⟩
  · simp [sizeIn, hd]
  · rw [sizeIn, List.find?_cons_of_pos (by simpa [h] using hd)]
    simp [size, h, hs]

theorem binop_same {A B : LArr K} {ds : List String} {sh : List ℕ} {f g : List ℕ → K} (op : K → K → K)
    (hn : ds.Nodup) (hl : sh.length = ds.length) (hA : A.Is ds sh f) (hB : B.Is ds sh g) :
    ∃ C, binop op A B = .ok C ∧ C.Is ds sh fun is => op (f is) (g is) := by
  obtain ⟨a1, a2, a3⟩ := hA
  obtain ⟨b1, b2, b3⟩ := hB
  have hu : unionDims [A, B] = ds := by rw [unionDims_self (by rw [a1, b1]), a1]
  unfold binop
  rw [compat_of_eq (by rw [a1, b1]) (by rw [a2, b2]), if_pos rfl]
  refine ⟨_, rfl, hu, ?_, fun is hi => ?_⟩
  · dsimp only
    rw [hu]
    have : ds.map (sizeIn [A, B]) = ds.map (env ds sh) := by
      refine List.map_congr_left fun d hd => ?_
      rw [sizeIn, List.find?_cons_of_pos (by simpa [a1] using hd)]
      simp [size, a1, a2]
    rw [this, map_env hn hl]
  · dsimp only
    rw [hu, ← a3 is hi, ← b3 is hi]
    have hi := hi.length_eq.trans hl
    congr 1
    · rw [← a1]; exact val_env (a1 ▸ hn) (a1 ▸ hi)
    · rw [← b1]; exact val_env (b1 ▸ hn) (b1 ▸ hi)

theorem binop_scalar {A B : LArr K} {ds : List String} {sh : List ℕ} {f g : List ℕ → K} (op : K → K → K)
    (hn : ds.Nodup) (hl : sh.length = ds.length) (hA : A.Is [] [] f) (hB : B.Is ds sh g) :
    ∃ C, binop op A B = .ok C ∧ C.Is ds sh fun is => op (f []) (g is) := by
  obtain ⟨a1, a2, a3⟩ := hA
  obtain ⟨b1, b2, b3⟩ := hB
  have hu : unionDims [A, B] = ds := by simp [unionDims, a1, b1]
  have hsz : ∀ d ∈ ds, sizeIn [A, B] d = env ds sh d := by
    intro d hd
    rw [sizeIn, List.find?_cons_of_neg (by simp [a1]), List.find?_cons_of_pos (by simpa [b1] using hd)]
    simp [size, b1, b2]
  have hc : compat [A, B] = true := by
    simp only [compat, List.all_cons, List.all_nil, Bool.and_true, Bool.and_eq_true, List.all_eq_true,
      decide_eq_true_eq]
    refine ⟨by simp [a1], fun d hd => ?_⟩
    rw [hsz d (b1 ▸ hd), size, b1, b2]
  unfold binop
  rw [hc, if_pos rfl]
  refine ⟨_, rfl, hu, ?_, fun is hi => ?_⟩
  · dsimp only
    rw [hu, List.map_congr_left hsz, map_env hn hl]
  · dsimp only
    rw [hu, ← a3 [] List.Forall₂.nil, ← b3 is hi]
    have hi := hi.length_eq.trans hl
    congr 1
    · rw [val, a1]; rfl
    · rw [← b1]; exact val_env (b1 ▸ hn) (b1 ▸ hi)

section
variable [CommSemiring K]

theorem dot_gram {E : LArr K} {n p : ℕ} (hd : E.dims = ["time", "dim_basis"]) (hs : E.shape = [n, p]) :
    (dot [E, E.rename1 "dim_basis" "dim_basis'"]).dims = ["dim_basis", "dim_basis'"] ∧
    (dot [E, E.rename1 "dim_basis" "dim_basis'"]).shape = [p, p] ∧
    ∀ i j, (dot [E, E.rename1 "dim_basis" "dim_basis'"]).get [i, j] = ∑ t ∈ range n, E.get [t, i] * E.get [t, j] := by
  obtain ⟨ds, sh, g⟩ := E
  simp only at hd hs
  subst hd hs
  simp [dot, rename1, rename, dotDims, unionDims, sizeIn, size, env, val, sumOver, List.countP_cons, List.lookup]

theorem dot_gram3 {E : LArr K} {n p x : ℕ} (hd : E.dims = ["time", "dim_basis", "dim_x"]) (hs : E.shape = [n, p, x]) :
    (dot [E, E.rename1 "dim_basis" "dim_basis'"]).dims = ["dim_basis", "dim_basis'"] ∧
    (dot [E, E.rename1 "dim_basis" "dim_basis'"]).shape = [p, p] ∧
    ∀ i j, (dot [E, E.rename1 "dim_basis" "dim_basis'"]).get [i, j] =
      ∑ t ∈ range n, ∑ d ∈ range x, E.get [t, i, d] * E.get [t, j, d] := by
  obtain ⟨ds, sh, g⟩ := E
  simp only at hd hs
  subst hd hs
  simp [dot, rename1, rename, dotDims, unionDims, sizeIn, size, env, val, sumOver, List.countP_cons, List.lookup]

theorem dot_obs {E O : LArr K} {n p x : ℕ} {d : String} (h1 : d ≠ "time") (h2 : d ≠ "dim_basis")
    (hd : E.dims = ["time", "dim_basis"]) (hs : E.shape = [n, p])
    (hd' : O.dims = ["time", d]) (hs' : O.shape = [n, x]) :
    (dot [E, O]).dims = ["dim_basis", d] ∧ (dot [E, O]).shape = [p, x] ∧
    ∀ i j, (dot [E, O]).get [i, j] = ∑ t ∈ range n, E.get [t, i] * O.get [t, j] := by
  obtain ⟨ds, sh, g⟩ := E
  obtain ⟨ds', sh', g'⟩ := O
  simp only at hd hs hd' hs'
  subst hd hs hd' hs'
  have h1' : (d == "time") = false := by simpa using h1
  have h2' : (d == "dim_basis") = false := by simpa using h2
  simp [dot, dotDims, unionDims, sizeIn, size, env, val, sumOver, List.countP_cons, List.lookup, h1, h2,
    h1.symm, h2.symm, h1', h2']

/-- `xr.dot(E_force, force_coeff)` -/
theorem dot_force {E C : LArr K} {n p x : ℕ} {d : String} (h1 : d ≠ "time") (h2 : d ≠ "dim_basis")
    (hd : E.dims = ["time", "dim_basis"]) (hs : E.shape = [n, p])
    (hd' : C.dims = ["dim_basis", d]) (hs' : C.shape = [p, x]) :
    (dot [E, C]).dims = ["time", d] ∧ (dot [E, C]).shape = [n, x] ∧
    ∀ t j, (dot [E, C]).get [t, j] = ∑ k ∈ range p, E.get [t, k] * C.get [k, j] := by
  obtain ⟨ds, sh, g⟩ := E
  obtain ⟨ds', sh', g'⟩ := C
  simp only at hd hs hd' hs'
  subst hd hs hd' hs'
  have h1' : (d == "time") = false := by simpa using h1
  have h2' : (d == "dim_basis") = false := by simpa using h2
  simp [dot, dotDims, unionDims, sizeIn, size, env, val, sumOver, List.countP_cons, List.lookup, h1, h2,
    h1.symm, h2.symm, h1', h2']

end

end LArr

/-! ### The loop over the trajectories -/

section
variable {K : Type*} [Field K]

open LArr

/-- The list `rs` holds `k` arrays, the `i`-th with axes `lay i` and entries `f i`. -/
def Res (k : ℕ) (lay : ℕ → List String × List ℕ) (f : ℕ → List ℕ → K) (rs : List (LArr K)) : Prop :=
  rs.length = k ∧ ∀ i < k, ∃ A, rs[i]? = some A ∧ A.Is (lay i).1 (lay i).2 (f i)

omit [Field K] in
theorem Res.tail {k : ℕ} {lay : ℕ → List String × List ℕ} {f : ℕ → List ℕ → K} {A : LArr K} {rs : List (LArr K)}
    (h : Res (k + 1) lay f (A :: rs)) : Res k (fun i => lay (i + 1)) (fun i => f (i + 1)) rs := by
  refine ⟨by simpa using h.1, fun i hi => ?_⟩
  simpa using h.2 (i + 1) (by omega)

omit [Field K] in
theorem Res.head {k : ℕ} {lay : ℕ → List String × List ℕ} {f : ℕ → List ℕ → K} {A : LArr K} {rs : List (LArr K)}
    (h : Res (k + 1) lay f (A :: rs)) : A.Is (lay 0).1 (lay 0).2 (f 0) := by
  simpa using h.2 0 (by omega)

theorem accumulate_ok {w W : ℕ} : ∀ {k : ℕ} {lay lay0 : ℕ → List String × List ℕ} {f g : ℕ → List ℕ → K}
    {res single : List (LArr K)}, (∀ i < k, (lay i).1.Nodup ∧ (lay i).2.length = (lay i).1.length) →
    (∀ i < k, (lay0 i = ([], []) ∧ ∀ is, f i is = f i []) ∨ lay0 i = lay i) →
    Res k lay0 f res → Res k lay g single →
    ∃ out, accumulate w W res single = .ok out ∧ Res k lay (fun i is => f i is + g i is * w / W) out
  | 0, lay, lay0, f, g, res, single, _, _, h1, h2 => by
    obtain rfl : res = [] := List.length_eq_zero_iff.1 h1.1
    obtain rfl : single = [] := List.length_eq_zero_iff.1 h2.1
    exact ⟨[], rfl, rfl, by simp⟩
  | k + 1, lay, lay0, f, g, [], single, _, _, h1, _ => by simp [Res] at h1
  | k + 1, lay, lay0, f, g, r :: rs, [], _, _, _, h2 => by simp [Res] at h2
  | k + 1, lay, lay0, f, g, r :: rs, a :: as, hn, h0, h1, h2 => by
    obtain ⟨out, ho, hR⟩ := accumulate_ok (w := w) (W := W) (fun i hi => hn (i + 1) (by omega))
      (fun i hi => h0 (i + 1) (by omega)) h1.tail h2.tail
    have ha : (a.map fun c => c * (w : K) / (W : K)).Is (lay 0).1 (lay 0).2 _ := h2.head.map _
    have hr := h1.head
    have key : ∃ C, binop (· + ·) r (a.map fun c => c * (w : K) / (W : K)) = .ok C ∧
        C.Is (lay 0).1 (lay 0).2 fun is => f 0 is + g 0 is * w / W := by
      rcases h0 0 (by omega) with ⟨h, hc⟩ | h
      · rw [h] at hr
        obtain ⟨C, e, hC⟩ := binop_scalar (· + ·) (hn 0 (by omega)).1 (hn 0 (by omega)).2 hr ha
        exact ⟨C, e, hC.congr fun is _ => by rw [hc is]⟩
      · rw [h] at hr
        exact binop_same (· + ·) (hn 0 (by omega)).1 (hn 0 (by omega)).2 hr ha
    obtain ⟨C, e, hC⟩ := key
    refine ⟨C :: out, ?_, by simp [hR.1], fun i hi => ?_⟩
    · simp only [accumulate, bind, Except.bind, pure, Except.pure, e, ho]
    · cases i with
      | zero => exact ⟨C, rfl, hC⟩
      | succ i => simpa using hR.2 i (by omega)

theorem mapE_ok {α β : Type*} {f : α → Except Err β} : ∀ {l : List α} {g : α → β}, (∀ a ∈ l, f a = .ok (g a)) →
    mapE f l = .ok (l.map g)
  | [], _, _ => rfl
  | a :: as, g, h => by
    simp only [mapE, h a (by simp), mapE_ok (l := as) (g := g) fun x hx => h x (by simp [hx]), bind, Except.bind,
      pure, Except.pure, List.map_cons]

/-- The fold over the trajectories, started from arrays with the right axes. -/
theorem foldlM_ok {W k : ℕ} {lay : ℕ → List String × List ℕ}
    (hn : ∀ i < k, (lay i).1.Nodup ∧ (lay i).2.length = (lay i).1.length) :
    ∀ {ws : List (ℕ × List (LArr K))} {gs : List (ℕ × (ℕ → List ℕ → K))} {f : ℕ → List ℕ → K} {res : List (LArr K)},
    List.Forall₂ (fun a b => a.1 = b.1 ∧ Res k lay b.2 a.2) ws gs → Res k lay f res →
    ∃ out, ws.foldlM (fun res wr => accumulate wr.1 W res wr.2) res = .ok out ∧
      Res k lay (fun i is => f i is + (gs.map fun g => g.2 i is * (g.1 : K) / (W : K)).sum) out
  | [], [], f, res, _, h => ⟨res, rfl, by simpa using h⟩
  | (w, r) :: ws, (w', g) :: gs, f, res, hf, h => by
    obtain ⟨⟨hw, hr⟩, hf'⟩ := List.forall₂_cons.1 hf
    dsimp only at hw hr
    subst hw
    obtain ⟨out, e, ho⟩ := accumulate_ok (w := w) (W := W) hn (fun i _ => Or.inr rfl) h hr
    obtain ⟨out', e', ho'⟩ := foldlM_ok hn hf' ho
    refine ⟨out', ?_, ?_⟩
    · simp only [List.foldlM_cons, e, bind, Except.bind]
      exact e'
    · have : (fun (i : ℕ) (is : List ℕ) => f i is + (((w, g) :: gs).map fun g => g.2 i is * (g.1 : K) / (W : K)).sum) =
          fun i is => f i is + g i is * w / W + (gs.map fun g => g.2 i is * (g.1 : K) / (W : K)).sum := by
        funext i is
        simp [add_assoc]
      rw [this]
      exact ho'

/-- What the loop returns: the weighted averages of the single results. -/
theorem loopSerial_ok {func : ℕ → Xva K → Except Err (List (LArr K))} {xvas : List (Xva K)} {k : ℕ}
    {lay : ℕ → List String × List ℕ} {g : Xva K → ℕ → List ℕ → K} (hne : xvas ≠ [])
    (hn : ∀ i < k, (lay i).1.Nodup ∧ (lay i).2.length = (lay i).1.length)
    (hf : ∀ x ∈ xvas, ∃ rs, func x.n x = .ok rs ∧ Res k lay (g x) rs) :
    ∃ out, loopSerial func xvas = .ok out ∧
      Res k lay (fun i is => (xvas.map fun x => g x i is * x.n / ((xvas.map (·.n)).sum : ℕ)).sum) out := by
  have hf' : ∀ x, ∃ rs, x ∈ xvas → func x.n x = .ok rs ∧ Res k lay (g x) rs := by
    intro x
    by_cases hx : x ∈ xvas
    · obtain ⟨rs, h⟩ := hf x hx; exact ⟨rs, fun _ => h⟩
    · exact ⟨[], fun h => absurd h hx⟩
  choose r hr using hf'
  cases xvas with
  | nil => exact absurd rfl hne
  | cons x xs =>
    have hm : mapE (fun xva : Xva K => func xva.n xva) (x :: xs) = .ok ((x :: xs).map r) :=
      mapE_ok fun a ha => (hr a ha).1
    unfold loopSerial
    simp only [hm, bind, Except.bind]
    have hlen : (r x).length = k := (hr x (by simp)).2.1
    simp only [combine, List.map_cons]
    set W := ((x :: xs).map fun x : Xva K => x.n).sum with hW
    rw [show x.n :: xs.map (fun x : Xva K => x.n) = (x :: xs).map fun x : Xva K => x.n from rfl, ← hW, hlen]
    simp only [List.map_cons, List.zip_cons_cons, List.foldlM_cons, bind, Except.bind]
    have h0 : Res k (fun _ => ([], [])) (fun _ _ => (0 : K)) (List.replicate k (LArr.scalar (0 : K))) := by
      refine ⟨by simp, fun i hi => ⟨LArr.scalar 0, by simp [hi], rfl, rfl, fun _ _ => rfl⟩⟩
    obtain ⟨out, e, ho⟩ := accumulate_ok (w := x.n) (W := W) hn (fun i _ => Or.inl ⟨rfl, fun _ => rfl⟩) h0
      (hr x (by simp)).2
    rw [e]
    dsimp only
    have hfa : List.Forall₂ (fun (a : ℕ × List (LArr K)) (b : ℕ × (ℕ → List ℕ → K)) => a.1 = b.1 ∧ Res k lay b.2 a.2)
        ((xs.map fun x : Xva K => x.n).zip (xs.map r)) (xs.map fun x => (x.n, g x)) := by
      have : ∀ ys : List (Xva K), (∀ y ∈ ys, y ∈ x :: xs) →
          List.Forall₂ (fun (a : ℕ × List (LArr K)) (b : ℕ × (ℕ → List ℕ → K)) => a.1 = b.1 ∧ Res k lay b.2 a.2)
          ((ys.map fun x : Xva K => x.n).zip (ys.map r)) (ys.map fun x => (x.n, g x)) := by
        intro ys
        induction ys with
        | nil => intro _; exact List.Forall₂.nil
        | cons y ys ih =>
          intro hy
          exact List.Forall₂.cons ⟨rfl, (hr y (hy y (by simp))).2⟩ (ih fun z hz => hy z (by simp [hz]))
      exact this xs fun y hy => by simp [hy]
    obtain ⟨out', e', ho'⟩ := foldlM_ok (W := W) hn hfa ho
    refine ⟨out', e', ?_⟩
    have : (fun (i : ℕ) (is : List ℕ) => (((x :: xs).map fun y => g y i is * y.n / (W : K))).sum) =
        fun i is => 0 + g x i is * x.n / W + ((xs.map fun x => (x.n, g x)).map fun g => g.2 i is * (g.1 : K) / (W : K)).sum := by
      funext i is
      simp [Function.comp_def]
    simp only [List.map_cons] at this
    simp only [this]
    exact ho'

/-- The pool gives the same results as the serial loop, whatever the order of execution. -/
theorem runPool_get {α β : Type*} (task : α → β) (args : List α) :
    ∀ (order : List ℕ) (s : ℕ → Option β) (i : ℕ) (a : α), args[i]? = some a →
    (i ∈ order ∨ s i = some (task a)) →
    order.foldl (fun slots i => match args[i]? with
      | some a => Function.update slots i (some (task a))
      | none => slots) s i = some (task a)
  | [], s, i, a, _, h => by simpa using h
  | j :: js, s, i, a, ha, h => by
    rw [List.foldl_cons]
    refine runPool_get task args js _ i a ha ?_
    by_cases hj : i ∈ js
    · exact Or.inl hj
    · right
      by_cases hij : i = j
      · subst hij
        rw [ha]; simp
      · have hs : s i = some (task a) := by
          rcases h with h | h
          · rcases List.mem_cons.1 h with h | h
            · exact absurd h hij
            · exact absurd h hj
          · exact h
        cases args[j]? with
        | none => exact hs
        | some b => simpa [Function.update, hij] using hs

theorem mapE_range {α β : Type*} (f : α → Except Err β) (g : ℕ → Except Err β) (args : List α)
    (h : ∀ i a, args[i]? = some a → g i = f a) : mapE g (List.range args.length) = mapE f args := by
  have : ∀ (args : List α) (k : ℕ), (∀ i a, args[i]? = some a → g (k + i) = f a) →
      mapE g (List.range' k args.length) = mapE f args := by
    intro args
    induction args with
    | nil => intro k _; rfl
    | cons a as ih =>
      intro k h
      rw [List.length_cons, List.range'_succ, mapE, mapE, show g k = f a from by simpa using h 0 a rfl,
        ih (k + 1) fun i b hb => by
          have := h (i + 1) b (by simpa using hb)
          rw [← this]; congr 1; omega]
  rw [List.range_eq_range']
  exact this args 0 (by simpa using h)

theorem loopParallel_eq (func : ℕ → Xva K → Except Err (List (LArr K))) (xvas : List (Xva K)) {order : List ℕ}
    (h : ∀ i < xvas.length, i ∈ order) : loopParallel order func xvas = loopSerial func xvas := by
  unfold loopParallel loopSerial
  dsimp only
  rw [mapE_range (fun xva : Xva K => func xva.n xva) _ xvas]
  intro i a ha
  have hi : i < xvas.length := by
    by_contra hc
    rw [List.getElem?_eq_none (by omega)] at ha
    cases ha
  have : runPool (fun xva : Xva K => func xva.n xva) xvas order i = some (func a.n a) :=
    runPool_get (fun xva : Xva K => func xva.n xva) xvas order (fun _ => none) i a ha (Or.inl (h i hi))
  rw [this]
  rfl

end

end Verif
