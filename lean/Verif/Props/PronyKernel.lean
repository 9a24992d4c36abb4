import Verif.Model.PronyKernel
import Verif.Props.PronyExact
import Verif.Props.Integrate

/-!
# The Prony fit of a kernel (C123) and `Integrator_posgle` (C122)
-/

namespace Verif

open Finset

set_option linter.unusedSectionVars false
set_option linter.unusedSimpArgs false

/-! ## C122 -/

section
variable {K : Type*} [Field K] {d nB nD b : ℕ} {I : Integrator K d nB nD b} {deriv : (Fin d → K) → Fin nD → Fin d → K}

/-- C122 is false when the number of functions of the kernel is not the dimension: every run that has a step to make
raises `ValueError`. -/
theorem C122_run_fails [DecidableEq K] (hd : nD ≠ d) (hT : 2 ≤ I.kernel.len) {nSteps : ℕ} {x0 : Option (InitData K d)}
    (h1 : 1 ≤ initLen x0) (hn : initLen x0 < nSteps) (ht : ∀ D, x0 = some D → ∀ t < D.n, D.time t = t * I.dt) (noise : ℕ → Fin d → K) :
    I.posRun deriv nSteps x0 noise = .error .value := by
  have hb : ∀ ind s, 1 ≤ ind → I.posRunStep deriv noise ind s = .error .value := by
    intro ind s hi
    unfold Integrator.posRunStep Integrator.posRkStep Integrator.posFRk Integrator.posNoise
    simp only [I.memIntRed_ok hT _ hi, dif_neg hd, bind, Except.bind]
  have hl : ∀ n s, initLen x0 < n → forRangeE (initLen x0) n (I.posRunStep deriv noise) s = .error .value := by
    intro n s hlt
    obtain ⟨m, rfl⟩ : ∃ m, n = m + 1 := ⟨n - 1, by omega⟩
    induction m with
    | zero => omega
    | succ m ih =>
      rw [forRangeE_succ (by omega)]
      rcases Nat.lt_or_ge (initLen x0) (m + 1) with c | c
      · rw [ih c]; rfl
      · rw [show m + 1 = initLen x0 by omega, forRangeE_self]
        exact hb _ _ (by omega)
  have c2 : ¬ (x0.map fun D => (List.range D.n).all fun t => decide (D.time t = t * I.dt)) = some false := by
    cases x0 with
    | none => simp
    | some D =>
      simp only [Option.map_some, Option.some.injEq, List.all_eq_false, List.mem_range, not_exists, not_and]
      intro t htD
      simp [ht D rfl t htD]
  unfold initLen at hl h1 hn
  obtain ⟨r, hr⟩ : ∃ r, I.firstRmi (fun t => if t < (x0.map (·.n)).getD 1 then I.E (initRows x0 (·.x) t) (initRows x0 (·.v) t) else 0)
      ((x0.map (·.n)).getD 1) = .ok r := by
    unfold Integrator.firstRmi
    split_ifs with c
    · exact ⟨_, I.memIntRed_ok hT _ (by omega)⟩
    · exact ⟨_, rfl⟩
  unfold Integrator.posRun
  simp only [if_neg (show ¬ (nSteps < (x0.map (·.n)).getD 1 ∨ (x0.map (·.n)).getD 1 = 0) by omega), if_neg c2, bind, Except.bind, pure, Except.pure,
    hr, hl _ _ hn]

/-- **C122** When there are as many functions of the kernel as coordinates, the random force at `x` is the noise multiplied
by the transposed Jacobian of these functions. -/
theorem C122_force {I : Integrator K d nB d b} (deriv : (Fin d → K) → Fin d → Fin d → K) (x v rmi fr : Fin d → K) (α : K)
    (lastE : Fin b → K) (lastRmi : Fin d → K) :
    I.posFRk deriv x v rmi fr α lastE lastRmi =
      .ok (I.fRk x v rmi (Matrix.mulVec (Matrix.of (deriv x)).transpose fr) α lastE lastRmi) := by
  unfold Integrator.posFRk Integrator.posNoise
  simp only [dif_pos, bind, Except.bind, pure, Except.pure, Fin.cast_eq_self]
  rfl

/-- **C122** When the functions of the kernel are linear, `Integrator_posgle` is `Integrator_gle` with a noise multiplied by
the transposed matrix of these functions. -/
theorem C122_linear [DecidableEq K] {I : Integrator K d nB d b} {deriv : (Fin d → K) → Fin d → Fin d → K} {G : Matrix (Fin d) (Fin d) K}
    (hd : ∀ x l i, deriv x l i = G l i) (nSteps : ℕ) (x0 : Option (InitData K d)) (noise : ℕ → Fin d → K) :
    I.posRun deriv nSteps x0 noise = I.run nSteps x0 fun t => Matrix.mulVec G.transpose (noise t) := by
  have hG : ∀ x, Matrix.of (deriv x) = G := fun x => by ext l i; exact hd x l i
  have hs : I.posRunStep deriv noise = I.runStep fun t => Matrix.mulVec G.transpose (noise t) := by
    funext ind s
    unfold Integrator.posRunStep Integrator.runStep Integrator.posRkStep
    simp only [C122_force, hG, bind, Except.bind, pure, Except.pure]
    rfl
  unfold Integrator.posRun Integrator.run
  rw [hs]

/-- **C122** When the functions of the kernel are the coordinates, `Integrator_posgle` is `Integrator_gle`. -/
theorem C122_coordinates [DecidableEq K] {I : Integrator K d nB d b} {deriv : (Fin d → K) → Fin d → Fin d → K}
    (hd : ∀ x l i, deriv x l i = if l = i then 1 else 0) (nSteps : ℕ) (x0 : Option (InitData K d)) (noise : ℕ → Fin d → K) :
    I.posRun deriv nSteps x0 noise = I.run nSteps x0 noise := by
  rw [C122_linear (G := 1) (fun x l i => by rw [hd, Matrix.one_apply])]
  simp

end

example := C122_run_fails (I := { exampleInt 1 (-1) with vec := fun _ v (_ : Fin 2) => v 0, proj := fun _ _ => 1 }) (deriv := fun _ _ _ => (1 : ℚ)) (by decide) (le_refl 2)
  (nSteps := 3) (x0 := none) (by decide) (by decide) (by rintro D ⟨⟩) 0
example := C122_linear (I := exampleInt 1 (-1)) (deriv := fun _ _ _ => (2 : ℚ)) (G := !![2]) (fun _ l i => by fin_cases l; fin_cases i; rfl) 3 none 1
example := C122_coordinates (I := exampleInt 1 (-1)) (deriv := fun _ l i => if l = i then (1 : ℚ) else 0) (fun _ _ _ => rfl) 3 none 1

/-! ## C123 -/

section
variable {b d : ℕ} {times : List ℝ} {T : ℕ} {kernel : ℕ → Fin b → Fin d → ℝ} {svd : (n : ℕ) → Mat ℝ (n + 1) (n + 1) → HermSvd n}
  {eig : (N : ℕ) → Mat ℝ N N → EigData N} {eps : ℝ} {thres : Option ℝ} {nKeep : Option ℕ}

/-- **C123** The fit of a kernel is the list of the fits of its components, each of which is evaluated at its place: the series
`[i, k, d]` is the evaluation of the fit of `kernel[:, k, d]`. -/
theorem C123_components {t0 t1 : ℝ} {ts : List ℝ} {L : List (List (ℝ × Σ m : ℕ, Mat ℝ m m))} {times' : List ℝ} {F : List (List (List ℝ))}
    (h : pronyFitKernel (t0 :: t1 :: ts) T kernel svd eig eps thres nKeep = .ok L) (hF : pronyKernelEval times' L = .ok F) :
    F.length = d ∧ ∀ (x : Fin d) (k : Fin b), ∃ row out y0 m A, F[x.val]? = some row ∧ row.length = b ∧ row[k.val]? = some out ∧
      pronyFit ⟨T, fun i => kernel i k x⟩ (t1 - t0) svd eig eps thres nKeep true = .ok (y0, ⟨m, A⟩) ∧
      pronySeriesEval times' y0 m A = .ok out := by
  unfold pronyFitKernel at h
  obtain ⟨hl, hL⟩ := mapM_ok _ _ _ h
  have hrow : ∀ x : Fin d, ∃ row, L[x.val]? = some row ∧ row.length = b ∧ ∀ k : Fin b, ∃ y, row[k.val]? = some y ∧
      pronyFit ⟨T, fun i => kernel i k x⟩ (t1 - t0) svd eig eps thres nKeep true = .ok y := by
    intro x
    obtain ⟨row, hr, ho⟩ := hL x.val x (by simp)
    obtain ⟨hl', hR⟩ := mapM_ok _ _ _ hr
    refine ⟨row, ho, by simpa using hl', fun k => ?_⟩
    obtain ⟨y, hy, ho'⟩ := hR k.val k (by simp)
    exact ⟨y, ho', hy⟩
  have hlen : ∀ row ∈ L, row.length = b := by
    intro row hr
    obtain ⟨i, hi, rfl⟩ := List.getElem_of_mem hr
    obtain ⟨row', h1, h2, -⟩ := hrow ⟨i, by simpa [hl] using hi⟩
    rw [List.getElem?_eq_getElem hi] at h1
    cases h1
    exact h2
  unfold pronyKernelEval at hF
  split_ifs at hF with c
  cases L with
  | nil => cases hF
  | cons row0 L' =>
    dsimp only at hF
    have h0 : row0.length = b := hlen _ (by simp)
    rw [h0] at hF
    obtain ⟨hl2, hE⟩ := mapM_ok _ _ _ hF
    refine ⟨by rw [hl2, hl]; simp, fun x k => ?_⟩
    obtain ⟨row, h1, h2, h3⟩ := hrow x
    obtain ⟨o, ho, hFx⟩ := hE x.val row h1
    obtain ⟨hl3, hO⟩ := mapM_ok _ _ _ ho
    obtain ⟨out, hout, hok⟩ := hO k.val k.val (by simp)
    obtain ⟨⟨y0, m, A⟩, hy, hfit⟩ := h3 k
    rw [hy] at hout
    exact ⟨o, out, y0, m, A, hFx, by simpa using hl3, hok, hfit, by rw [pronySeriesEval, if_neg c]; exact hout⟩

/-- **C123** At time zero the evaluated series is the kernel at time zero. -/
theorem C123_initial {t0 t1 : ℝ} {ts : List ℝ} {L : List (List (ℝ × Σ m : ℕ, Mat ℝ m m))} {times' : List ℝ} {F : List (List (List ℝ))}
    (h : pronyFitKernel (t0 :: t1 :: ts) T kernel svd eig eps thres nKeep = .ok L) (hF : pronyKernelEval times' L = .ok F) {i : ℕ}
    (hi : times'[i]? = some 0) (x : Fin d) (k : Fin b) :
    ∃ row out, F[x.val]? = some row ∧ row[k.val]? = some out ∧ out.length = times'.length ∧ out[i]? = some (kernel 0 k x) := by
  obtain ⟨-, hc⟩ := C123_components h hF
  obtain ⟨row, out, y0, m, A, h1, -, h2, h3, h4⟩ := hc x k
  obtain ⟨h5, h6⟩ := C73_initial _ _ _ _ _ h4
  refine ⟨row, out, h1, h2, h5, ?_⟩
  rw [h6 i hi]
  unfold pronyFit at h3
  split_ifs at h3
  dsimp only at h3
  split at h3
  · cases h3
  · split at h3
    · cases h3
    · cases h3; rfl

/-- C123: a kernel of one time, an evaluation at one time and a kernel without components raise `IndexError`. -/
theorem C123_errors (t : ℝ) (L : List (List (ℝ × Σ m : ℕ, Mat ℝ m m))) (times' : List ℝ) :
    pronyFitKernel [t] T kernel svd eig eps thres nKeep = .error .index ∧ pronyKernelEval [t] L = .error .index ∧
    pronyKernelEval times' [] = .error .index := by
  refine ⟨rfl, rfl, ?_⟩
  unfold pronyKernelEval
  split_ifs <;> rfl

end

/-- A kernel with two functions and one component, halved at each time. -/
theorem examplePronyKernel : ∃ L F, pronyFitKernel [0, 1 / 4] PronyExample.data.len (fun i (_ : Fin 2) (_ : Fin 1) => PronyExample.data.get i)
      PronyExample.svd PronyExample.eig 0 (some (1 / 10)) none = .ok L ∧ pronyKernelEval [0, 1 / 4] L = .ok F := by
  obtain ⟨m, A, h1, h2⟩ := C92_interpolates PronyExample.data (by simp [PronyExample.data]) (by simp [PronyExample.data]) (1 / 4 - 0) (by norm_num)
    PronyExample.svd PronyExample.eig 0 (1 / 10) true 1 rfl PronyExample.H rfl PronyExample.S_svd PronyExample.sep
    ⟨1, by simp [PronyExample.svd, PronyExample.S]⟩ (by norm_num) (by norm_num) PronyExample.L (PronyExample.ldl 0) PronyExample.rank.symm
    (fun a => by simp [PronyExample.L]) PronyExample.isEig
    (fun k => Or.inl (by simp [PronyExample.eig])) (fun _ k => by simp [PronyExample.eig]; norm_num)
  have h2 := h2 [0, 1] (by decide) (by intro k hk; fin_cases hk <;> decide)
  have e : ([0, 1].map fun k : ℕ => (k : ℝ) * (1 / 4 - 0)) = [0, 1 / 4] := by simp
  rw [e, pronySeriesEval, if_neg (by decide)] at h2
  refine ⟨[[(PronyExample.data.get 0, ⟨m, A⟩), (PronyExample.data.get 0, ⟨m, A⟩)]], [[[0, 1].map PronyExample.data.get, [0, 1].map PronyExample.data.get]], ?_, ?_⟩
  · unfold pronyFitKernel
    dsimp only
    rw [h1]
    rfl
  · unfold pronyKernelEval
    rw [if_neg (by decide)]
    simp only [List.mapM_cons, List.mapM_nil, List.length_cons, List.length_nil, List.range_succ, List.range_zero, List.nil_append, List.cons_append,
      List.getElem?_cons_zero, List.getElem?_cons_succ, bind, Except.bind, pure, Except.pure] at h2 ⊢
    simp only [h2]

example := C123_components examplePronyKernel.choose_spec.choose_spec.1 examplePronyKernel.choose_spec.choose_spec.2
example := C123_initial examplePronyKernel.choose_spec.choose_spec.1 examplePronyKernel.choose_spec.choose_spec.2 (i := 0) (by simp) 0 1
example := C123_errors (T := 3) (kernel := fun _ (_ : Fin 1) (_ : Fin 1) => 1) (svd := PronyExample.svd) (eig := PronyExample.eig) (eps := 0) (thres := none)
  (nKeep := none) 1 [] [0, 1]

end Verif
