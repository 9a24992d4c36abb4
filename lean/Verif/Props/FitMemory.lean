import Verif.Model.FitMemory
import Verif.Lemmas.Prony
import Verif.Spec.FitMemory
import Mathlib.Tactic.NormNum

/-!
# C74 and C95: the fits of the memory kernels
-/

namespace Verif

open Finset

/-! ## C74 -/

/-- The contract of `curve_fit`: as many parameters as in the first guess. -/
def Fitters.IsFit (F : Fitters) : Prop := ∀ func t d p0 r, F.curveFit func t d p0 = .ok r → r.length = p0.length

/-- What a type stands for: the same function, with the stated number of parameters, for the fit and the evaluation. -/
theorem dispatch_spec {name : String} {m : ℕ} {f : List ℝ → ℝ → ℝ} (h : (name, m, f) ∈ Spec.fitFamily) (d0 dt : ℝ) :
    ∃ (func : FitFun) (p0 : List ℝ), fitDispatch name d0 dt = .ok (.inr (func, p0)) ∧ evalDispatch name = .ok (.inr func) ∧
      p0.length = m ∧ ∀ q t, q.length = m → func q t = .ok (f q t) := by
  simp only [Spec.fitFamily, List.mem_cons, Prod.mk.injEq, List.not_mem_nil, or_false] at h
  have two : ∀ q : List ℝ, q.length = 2 → ∃ a b, q = [a, b] := by
    intro q hq
    match q, hq with
    | [a, b], _ => exact ⟨a, b, rfl⟩
  have three : ∀ q : List ℝ, q.length = 3 → ∃ a b c, q = [a, b, c] := by
    intro q hq
    match q, hq with
    | [a, b, c], _ => exact ⟨a, b, c, rfl⟩
  have one : ∀ q : List ℝ, q.length = 1 → ∃ a, q = [a] := by
    intro q hq
    match q, hq with
    | [a], _ => exact ⟨a, rfl⟩
  rcases h with h | h | h | h | h | h | h | h | h | h <;> obtain ⟨rfl, rfl, rfl⟩ := h
  · refine ⟨expFct, [d0, 0.1 / dt], by simp [fitDispatch], by simp [evalDispatch], rfl, fun q t hq => ?_⟩
    obtain ⟨a, b, rfl⟩ := two q hq
    simp [expFct]
  · refine ⟨expFct, [d0, 0.1 / dt], by simp [fitDispatch], by simp [evalDispatch], rfl, fun q t hq => ?_⟩
    obtain ⟨a, b, rfl⟩ := two q hq
    simp [expFct]
  · refine ⟨expnormFct, [0.1 / dt], by simp [fitDispatch], by simp [evalDispatch], rfl, fun q t hq => ?_⟩
    obtain ⟨a, rfl⟩ := one q hq
    simp [expnormFct]
  · refine ⟨expnormFct, [0.1 / dt], by simp [fitDispatch], by simp [evalDispatch], rfl, fun q t hq => ?_⟩
    obtain ⟨a, rfl⟩ := one q hq
    simp [expnormFct]
  · refine ⟨doubleExpnormFct, [0.001 / dt, 0.1 / dt, 0.5], by simp [fitDispatch], by simp [evalDispatch], rfl, fun q t hq => ?_⟩
    obtain ⟨a, b, c, rfl⟩ := three q hq
    simp [doubleExpnormFct]
  · refine ⟨doubleExpnormFct, [0.001 / dt, 0.1 / dt, 0.5], by simp [fitDispatch], by simp [evalDispatch], rfl, fun q t hq => ?_⟩
    obtain ⟨a, b, c, rfl⟩ := three q hq
    simp [doubleExpnormFct]
  · refine ⟨sechFct, [d0, 0.1 / √dt, 1.5], by simp [fitDispatch], by simp [evalDispatch], rfl, fun q t hq => ?_⟩
    obtain ⟨a, b, c, rfl⟩ := three q hq
    simp [sechFct]
  · refine ⟨sechOneFct, [d0, 0.1 / √dt], by simp [fitDispatch], by simp [evalDispatch], rfl, fun q t hq => ?_⟩
    obtain ⟨a, b, rfl⟩ := two q hq
    simp [sechOneFct]
  · refine ⟨sechTwoFct, [d0, 0.1 / √dt], by simp [fitDispatch], by simp [evalDispatch], rfl, fun q t hq => ?_⟩
    obtain ⟨a, b, rfl⟩ := two q hq
    simp [sechTwoFct]
  · refine ⟨gaussianFct, [d0, 0.1 / √dt], by simp [fitDispatch], by simp [evalDispatch], rfl, fun q t hq => ?_⟩
    obtain ⟨a, b, rfl⟩ := two q hq
    simp [gaussianFct]

/-- **C74.** A type of the family that is fitted is evaluated with the function of the fit, at the fitted
parameters, of which there are as many as the function has; the function is the stated one. -/
theorem C74_same_function (F : Fitters) (hF : F.IsFit) (tDim dDim : ℕ) (times data : Arr ℝ) {name : String} {m : ℕ}
    {f : List ℝ → ℝ → ℝ} (hname : (name, m, f) ∈ Spec.fitFamily) (r : String × FitParam)
    (h : memoryFit F tDim dDim times data name = .ok r) :
    ∃ (func : FitFun) (p0 popt : List ℝ), F.curveFit func times data p0 = .ok popt ∧ p0.length = m ∧ r = (name, .popt popt) ∧
      popt.length = m ∧ (∀ q t, q.length = m → func q t = .ok (f q t)) ∧
        ∀ ts : List ℝ, memoryFitEval ts r.2 r.1 = .ok (ts.map (f popt)) := by
  obtain ⟨func, p0, h1, h2, h3, h4⟩ := dispatch_spec hname (data.get 0) (times.get 1 - times.get 0)
  unfold memoryFit at h
  split at h
  · exact absurd h (by simp)
  simp only [h1] at h
  split at h
  · exact absurd h (by simp)
  cases hc : F.curveFit func times data p0 with
  | error e => rw [hc] at h; exact absurd h (by simp [Except.map])
  | ok popt =>
    rw [hc] at h
    simp only [Except.map, Except.ok.injEq] at h
    subst h
    have hl : popt.length = m := by rw [hF _ _ _ _ _ hc, h3]
    refine ⟨func, p0, popt, hc, h3, rfl, hl, h4, fun ts => ?_⟩
    simp only [memoryFitEval, h2]
    exact mapM_of_ok _ _ _ fun t _ => h4 popt t hl

/-- Every type of the family is accepted by both: the fit succeeds when `curve_fit` does. -/
theorem C74_accepted (F : Fitters) (times data : Arr ℝ) (ht : 2 ≤ times.len) (hd : 1 ≤ data.len) {name : String} {m : ℕ}
    {f : List ℝ → ℝ → ℝ} (hname : (name, m, f) ∈ Spec.fitFamily) (hc : ∀ func p0, ∃ r, F.curveFit func times data p0 = .ok r) :
    ∃ r, memoryFit F 1 1 times data name = .ok r := by
  obtain ⟨func, p0, h1, -⟩ := dispatch_spec hname (data.get 0) (times.get 1 - times.get 0)
  obtain ⟨r, hr⟩ := hc func p0
  refine ⟨(name, .popt r), ?_⟩
  rw [memoryFit, if_neg (by omega)]
  simp only [h1]
  rw [if_neg (by omega), hr]; rfl

/-- The Prony fit is evaluated by the Prony series. -/
theorem C74_prony (F : Fitters) (tDim dDim : ℕ) (times data : Arr ℝ) (r : String × FitParam)
    (h : memoryFit F tDim dDim times data "prony" = .ok r) :
    ∃ y0 A, F.prony data (times.get 1 - times.get 0) = .ok (y0, A) ∧ r = ("prony", .prony y0 A) ∧
      ∀ ts : List ℝ, memoryFitEval ts r.2 r.1 = pronySeriesEval ts y0 A.1 A.2 := by
  have h1 : fitDispatch "prony" (data.get 0) (times.get 1 - times.get 0) = .ok (.inl ()) := by simp [fitDispatch]
  have h2 : evalDispatch "prony" = .ok (.inl ()) := by simp [evalDispatch]
  unfold memoryFit at h
  split at h
  · exact absurd h (by simp)
  simp only [h1] at h
  split at h
  · exact absurd h (by simp)
  cases hc : F.prony data (times.get 1 - times.get 0) with
  | error e => rw [hc] at h; exact absurd h (by simp [Except.map])
  | ok q =>
    rw [hc] at h
    simp only [Except.map, Except.ok.injEq] at h
    subst h
    exact ⟨q.1, q.2, rfl, rfl, fun ts => by simp only [memoryFitEval, h2]⟩

/-- An unknown type is a `ValueError` in both. -/
theorem C74_unknown (F : Fitters) (tDim dDim : ℕ) (times data : Arr ℝ) (name : String)
    (hname : name ∉ "prony" :: Spec.fitFamily.map Prod.fst) (ts : List ℝ) (p : FitParam) :
    memoryFit F tDim dDim times data name = .error .value ∧ memoryFitEval ts p name = .error .value := by
  simp only [Spec.fitFamily, List.map_cons, List.map_nil, List.mem_cons, List.not_mem_nil, or_false, not_or] at hname
  obtain ⟨h1, h2, h3, h4, h5, h6, h7, h8, h9, h10, h11⟩ := hname
  constructor
  · unfold memoryFit
    split
    · rfl
    · simp [fitDispatch, *]
  · simp [memoryFitEval, evalDispatch, *]

/-- The components of a kernel are fitted and evaluated one by one: the values at component `(k, d)` are those of the
evaluation of the parameters fitted to the component `(k, d)`. -/
theorem C74_kernel (F : Fitters) (times : Arr ℝ) (len dimB dimX : ℕ) (kernel : ℕ → ℕ → ℕ → ℝ) (type : String)
    (P : String × List (List FitParam)) (h : memoryFitKernel F times len dimB dimX kernel type = .ok P)
    (ts : List ℝ) (out : List (List (List ℝ))) (ho : memoryKernelEval ts P = .ok out) :
    P.1 = type ∧ P.2.length = dimX ∧ out.length = dimX ∧ ∀ d < dimX, ∃ row cols, P.2[d]? = some row ∧ out[d]? = some cols ∧
      row.length = dimB ∧ cols.length = dimB ∧ ∀ k < dimB, ∃ p values, row[k]? = some p ∧ cols[k]? = some values ∧
        (∃ ty, memoryFit F 1 1 times ⟨len, fun i => kernel i k d⟩ type = .ok (ty, p)) ∧ memoryFitEval ts p type = .ok values := by
  unfold memoryFitKernel at h
  cases hm : (List.range dimX).mapM (fun d => (List.range dimB).mapM fun k =>
      (memoryFit F 1 1 times ⟨len, fun i => kernel i k d⟩ type).map Prod.snd) with
  | error e => rw [hm] at h; exact absurd h (by simp [Except.map])
  | ok popt =>
    rw [hm] at h
    simp only [Except.map, Except.ok.injEq] at h
    subst h
    obtain ⟨hl, hrow⟩ := mapM_ok _ _ _ hm
    rw [List.length_range] at hl
    have hrange : ∀ {n i : ℕ}, i < n → (List.range n)[i]? = some i := fun h => by simp [h]
    unfold memoryKernelEval at ho
    simp only at ho
    cases hp : popt with
    | nil => rw [hp] at ho; exact absurd ho (by simp)
    | cons first rest =>
      rw [← hp]
      have hX : 0 < dimX := by rw [← hl, hp]; simp
      have hfirst : first.length = dimB := by
        obtain ⟨row, hr, hr'⟩ := hrow 0 0 (hrange hX)
        rw [hp] at hr'
        simp only [List.getElem?_cons_zero, Option.some.injEq] at hr'
        subst hr'
        have := (mapM_ok _ _ _ hr).1
        rwa [List.length_range] at this
      rw [hp] at ho
      simp only at ho
      rw [← hp] at ho
      obtain ⟨hol, hcol⟩ := mapM_ok _ _ _ ho
      rw [List.length_range, hl] at hol
      refine ⟨rfl, hl, hol, fun d hd => ?_⟩
      obtain ⟨row, hr, hr'⟩ := hrow d d (hrange hd)
      obtain ⟨cols, hc, hc'⟩ := hcol d d (hrange (by rw [hl]; exact hd))
      obtain ⟨hrl, hre⟩ := mapM_ok _ _ _ hr
      obtain ⟨hcl, hce⟩ := mapM_ok _ _ _ hc
      rw [List.length_range] at hrl hcl
      refine ⟨row, cols, hr', hc', hrl, by rw [hcl, hfirst], fun k hk => ?_⟩
      obtain ⟨p, hp1, hp2⟩ := hre k k (hrange hk)
      obtain ⟨v, hv1, hv2⟩ := hce k k (hrange (by rw [hfirst]; exact hk))
      rw [hr'] at hv1
      simp only [hp2] at hv1
      refine ⟨p, v, hp2, hv2, ?_, hv1⟩
      cases hf : memoryFit F 1 1 times ⟨len, fun i => kernel i k d⟩ type with
      | error e => rw [hf] at hp1; exact absurd hp1 (by simp [Except.map])
      | ok q =>
        rw [hf] at hp1
        simp only [Except.map, Except.ok.injEq] at hp1
        exact ⟨q.1, by rw [← hp1]⟩

/-! ## C95 -/

/-- **C95.** What `markovian_friction` returns starts with the builtin `type` instead of a name, whatever the kernel, so
that no evaluation accepts it. -/
theorem C95_no_type_fails (simpson : Arr ℝ → Arr ℝ → ℝ) (times : Arr ℝ) (len dimB dimX : ℕ) (kernel : ℕ → ℕ → ℕ → ℝ) :
    ∀ name ∈ "prony" :: Spec.fitFamily.map Prod.fst, (markovianFriction simpson times len dimB dimX kernel).1 ≠ some name := by
  intro name _ h
  exact absurd h (by simp [markovianFriction])

/-- The integrals it returns are those of the components. -/
theorem C95_integrals (simpson : Arr ℝ → Arr ℝ → ℝ) (times : Arr ℝ) (len dimB dimX : ℕ) (kernel : ℕ → ℕ → ℕ → ℝ) (d k : ℕ)
    (hd : d < dimX) (hk : k < dimB) :
    ((markovianFriction simpson times len dimB dimX kernel).2[d]?.bind fun r => r[k]?) =
      some (simpson ⟨len, fun i => kernel i k d⟩ times) := by
  simp [markovianFriction, hd, hk]

/-- A fitter for the examples: the first guess, and a constant series. -/
noncomputable def exampleFitters : Fitters :=
  ⟨fun _ _ _ p0 => .ok p0, fun data _ => .ok (data.get 0, ⟨1, fun _ _ => 0⟩)⟩

example := C74_same_function exampleFitters (fun _ _ _ _ _ h => by simp only [exampleFitters, Except.ok.injEq] at h; rw [h]) 1 1
  ⟨3, fun i => i⟩ ⟨3, fun i => (1 / 2) ^ i⟩ (name := "gaussian") (m := 2) (by simp [Spec.fitFamily]; rfl) ("gaussian", .popt [1, 0.1])
  (by simp [memoryFit, fitDispatch, exampleFitters, Except.map])
example := C74_accepted exampleFitters ⟨3, fun i => i⟩ ⟨3, fun i => (1 / 2) ^ i⟩ (by decide) (by decide) (name := "exp") (m := 2)
  (List.mem_cons_self ..) (fun _ p0 => ⟨p0, rfl⟩)
example := C74_prony exampleFitters 1 1 ⟨3, fun i => i⟩ ⟨3, fun i => (1 / 2) ^ i⟩ ("prony", .prony 1 ⟨1, fun _ _ => 0⟩)
  (by simp [memoryFit, fitDispatch, exampleFitters, Except.map])
example := C74_unknown exampleFitters 1 1 ⟨3, fun i => i⟩ ⟨3, fun i => (1 / 2) ^ i⟩ "lorentzian" (by simp [Spec.fitFamily]) [0, 1] (.popt [])
example := C74_kernel exampleFitters ⟨3, fun i => i⟩ 3 1 2 (fun i _ d => (d + 1) * (1 / 2) ^ i) "expnorm" ("expnorm", [[.popt [0.1]], [.popt [0.1]]])
  (by simp [memoryFitKernel, memoryFit, fitDispatch, exampleFitters, Except.map, List.range_succ, bind, Except.bind, pure, Except.pure])
  [0] [[[1]], [[1]]]
  (by simp [memoryKernelEval, memoryFitEval, evalDispatch, expnormFct, List.range_succ, bind, Except.bind, pure, Except.pure])

end Verif
