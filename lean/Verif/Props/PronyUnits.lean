import Verif.Props.PronyKernel

/-!
# C179: Prony fits follow the units

Values that are `c` times larger give a series that is `c` times larger, and times that are `s` times larger give the same series,
run through `s` times slower.
-/

namespace Verif

open Finset

/-- A fit in units of the values and times that are smaller by `c` and `s`. -/
noncomputable def Spec.rescaled (c s : ℝ) (A : ℝ × Σ m : ℕ, Mat ℝ m m) : ℝ × Σ m : ℕ, Mat ℝ m m :=
  (c * A.1, ⟨A.2.1, s⁻¹ • A.2.2⟩)

theorem cleanEigenvalues_smul {N : ℕ} (E : EigData N) (dt : ℝ) {s : ℝ} (hs : 0 < s) (remove : Bool) :
    cleanEigenvalues E (s * dt) remove = (cleanEigenvalues E dt remove).map fun A => ⟨A.1, s⁻¹ • A.2⟩ := by
  have hlog (z : ℂ) : z / ((s * dt : ℝ) : ℂ) = (s⁻¹ : ℝ) * (z / (dt : ℂ)) := by
    push_cast
    rw [div_mul_eq_div_div, div_eq_mul_inv z (s : ℂ)]
    ring
  have hsg (z : ℂ) : SignType.sign (z / ((s * dt : ℝ) : ℂ)).im = SignType.sign (z / (dt : ℂ)).im := by
    rw [hlog, Complex.im_ofReal_mul, sign_mul, sign_pos (inv_pos.2 hs), one_mul]
  have hnew {m q : ℕ} (lamb : Fin m → ℂ) (dup : Fin q → Fin m) :
      newLog lamb (s * dt) dup = ((s⁻¹ : ℝ) : ℂ) • newLog lamb dt dup := by
    funext x
    cases x with
    | inl k => simp only [newLog, Sum.elim_inl, Pi.smul_apply, smul_eq_mul, hlog]
    | inr k => simp only [newLog, Sum.elim_inr, Pi.smul_apply, smul_eq_mul, hlog, map_mul, Complex.conj_ofReal]
  unfold cleanEigenvalues
  extract_lets kept m lamb V dup sg W sg' W'
  have hW : W = W' := by
    show newVect V dup.get sg = newVect V dup.get sg'
    congr 1
    funext k
    simp only [sg, sg', hsg]
  rw [hW, hnew]
  split
  · rw [Matrix.diagonal_smul, Matrix.mul_smul, Matrix.smul_mul]
    refine congrArg (fun A => Except.ok (⟨_, A⟩ : Σ m : ℕ, Mat ℝ m m)) (Matrix.ext fun i j => ?_)
    simp only [Matrix.map_apply, Matrix.submatrix_apply, Matrix.smul_apply, smul_eq_mul, Complex.re_ofReal_mul]
  · rfl

/-- C179: what `prony_fit_times_serie` returns for data and times in other units. -/
theorem C179_fit (data : Arr ℝ) (dt : ℝ) {c s : ℝ} (hc : c ≠ 0) (hs : 0 < s) (svd : (n : ℕ) → Mat ℝ (n + 1) (n + 1) → HermSvd n)
    (eig : (N : ℕ) → Mat ℝ N N → EigData N) (eps : ℝ) (thres : Option ℝ) (nKeep : Option ℕ) (remove : Bool) :
    pronyFit ⟨data.len, fun i => c * data.get i⟩ (s * dt) svd eig eps thres nKeep remove =
      (pronyFit data dt svd eig eps thres nKeep remove).map (Spec.rescaled c s) := by
  simp only [pronyFit, mul_div_mul_left _ _ hc]
  split
  · rfl
  · cases h : jacobiReduced ⟨data.len, fun i => data.get i / data.get 0⟩ (hankelSize data.len) (svd (hankelSize data.len)) eps thres nKeep with
    | error e => rfl
    | ok J =>
      simp only [cleanEigenvalues_smul _ _ hs]
      cases cleanEigenvalues (eig J.1 J.2) dt remove <;> rfl

/-- C179: `prony_inspect_data` returns the filtered data in the units of the data. -/
theorem C179_inspect (data : Arr ℝ) {c : ℝ} (hc : c ≠ 0) (svd : (n : ℕ) → Mat ℝ (n + 1) (n + 1) → HermSvd n)
    (eps : ℝ) (thres : Option ℝ) (nKeep : Option ℕ) :
    pronyInspect ⟨data.len, fun i => c * data.get i⟩ svd eps thres nKeep =
      (pronyInspect data svd eps thres nKeep).map fun y => ⟨y.len, fun i => c * y.get i⟩ := by
  simp only [pronyInspect, mul_div_mul_left _ _ hc]
  split
  · rfl
  · cases pronyKeep (svd (hankelSize data.len) fun i j => hankelMat (fun i => data.get i / data.get 0) (hankelSize data.len) i j)
      eps thres nKeep with
    | error e => rfl
    | ok N =>
      simp only [reconstructData]
      split
      · rfl
      · split
        · rfl
        · simp only [Except.map, mul_assoc]

theorem pronyTerm_rescaled (A : ℝ × Σ m : ℕ, Mat ℝ m m) (c : ℝ) {s : ℝ} (hs : s ≠ 0) (t : ℝ) :
    pronyTerm (Spec.rescaled c s A).1 (Spec.rescaled c s A).2.1 (Spec.rescaled c s A).2.2 (s * t) =
      (pronyTerm A.1 A.2.1 A.2.2 t).map (c * ·) := by
  obtain ⟨y0, m, A⟩ := A
  show pronyTerm (c * y0) m (s⁻¹ • A) (s * t) = (pronyTerm y0 m A t).map (c * ·)
  unfold pronyTerm
  split
  · rw [smul_smul, mul_comm s t, mul_assoc t, mul_inv_cancel₀ hs, mul_one]
    simp only [Except.map, mul_assoc]
  · rfl

theorem mapM_map_except {ε α β γ : Type*} (f : α → Except ε β) (g : β → γ) (l : List α) :
    l.mapM (fun a => (f a).map g) = (l.mapM f).map (List.map g) := by
  induction l with
  | nil => rfl
  | cons a l ih =>
    simp only [List.mapM_cons, ih]
    cases f a with
    | error e => rfl
    | ok b => cases l.mapM f <;> rfl

/-- C179: `prony_series_eval` of a fit in other units. -/
theorem C179_eval (times : List ℝ) (A : ℝ × Σ m : ℕ, Mat ℝ m m) (c : ℝ) {s : ℝ} (hs : s ≠ 0) :
    pronySeriesEval (times.map (s * ·)) (Spec.rescaled c s A).1 (Spec.rescaled c s A).2.1 (Spec.rescaled c s A).2.2 =
      (pronySeriesEval times A.1 A.2.1 A.2.2).map (List.map (c * ·)) := by
  simp only [pronySeriesEval, List.length_map]
  split
  · rfl
  · rw [← mapM_map_except, List.mapM_map]
    exact congrArg (fun f => List.mapM f times) (funext fun t => pronyTerm_rescaled A c hs t)

/-- C179: `prony_fit_kernel` of a kernel and times in other units. -/
theorem C179_fit_kernel {b d : ℕ} (times : List ℝ) (T : ℕ) (kernel : ℕ → Fin b → Fin d → ℝ) {c s : ℝ} (hc : c ≠ 0) (hs : 0 < s)
    (svd : (n : ℕ) → Mat ℝ (n + 1) (n + 1) → HermSvd n) (eig : (N : ℕ) → Mat ℝ N N → EigData N) (eps : ℝ) (thres : Option ℝ)
    (nKeep : Option ℕ) :
    pronyFitKernel (times.map (s * ·)) T (fun t k x => c * kernel t k x) svd eig eps thres nKeep =
      (pronyFitKernel times T kernel svd eig eps thres nKeep).map (List.map (List.map (Spec.rescaled c s))) := by
  match times with
  | [] => rfl
  | [_] => rfl
  | t0 :: t1 :: ts =>
    simp only [List.map_cons, pronyFitKernel, ← mul_sub]
    rw [← mapM_map_except]
    refine congrArg (fun f => List.mapM f (List.finRange d)) (funext fun x => ?_)
    rw [← mapM_map_except]
    exact congrArg (fun f => List.mapM f (List.finRange b))
      (funext fun k => C179_fit ⟨T, fun i => kernel i k x⟩ (t1 - t0) hc hs svd eig eps thres nKeep true)

/-- C179: the series fitted to a kernel in other units, at times in these units, is the series fitted to the kernel. -/
theorem C179_kernel {b d : ℕ} (times times' : List ℝ) (T : ℕ) (kernel : ℕ → Fin b → Fin d → ℝ) {c s : ℝ} (hc : c ≠ 0) (hs : 0 < s)
    (svd : (n : ℕ) → Mat ℝ (n + 1) (n + 1) → HermSvd n) (eig : (N : ℕ) → Mat ℝ N N → EigData N) (eps : ℝ) (thres : Option ℝ)
    (nKeep : Option ℕ) :
    (pronyFitKernel (times.map (s * ·)) T (fun t k x => c * kernel t k x) svd eig eps thres nKeep >>= pronyKernelEval (times'.map (s * ·))) =
      (pronyFitKernel times T kernel svd eig eps thres nKeep >>= pronyKernelEval times').map (List.map (List.map (List.map (c * ·)))) := by
  rw [C179_fit_kernel times T kernel hc hs]
  cases pronyFitKernel times T kernel svd eig eps thres nKeep with
  | error e => rfl
  | ok L =>
    show pronyKernelEval _ (L.map _) = (pronyKernelEval times' L).map _
    simp only [pronyKernelEval, List.length_map]
    split
    · rfl
    · match L with
      | [] => rfl
      | row0 :: rows =>
        simp only [List.map_cons, List.length_map]
        rw [← mapM_map_except, ← List.map_cons, List.mapM_map]
        refine congrArg (fun f => List.mapM f (row0 :: rows)) (funext fun row => ?_)
        simp only [Function.comp]
        rw [← mapM_map_except]
        refine congrArg (fun f => List.mapM f (List.range row0.length)) (funext fun k => ?_)
        simp only [List.getElem?_map]
        cases row[k]? with
        | none => rfl
        | some A =>
          simp only [Option.map_some]
          rw [← mapM_map_except, List.mapM_map]
          exact congrArg (fun f => List.mapM f times') (funext fun t => pronyTerm_rescaled A c hs.ne' t)

section

open PronyExample

example := C179_fit data (1 / 4) (c := -3) (s := 60) (by norm_num) (by norm_num) svd eig 0 (some (1 / 10)) none true
example := C179_inspect data (c := -3) (by norm_num) svd 0 (some (1 / 10)) none
example := C179_eval [0, 1] (2, ⟨2, !![0, 1; -1, 0]⟩) 3 (s := 60) (by norm_num)
example := C179_fit_kernel [0, 1 / 4] data.len (fun i (_ : Fin 2) (_ : Fin 1) => data.get i) (c := -3) (s := 60) (by norm_num) (by norm_num)
  svd eig 0 (some (1 / 10)) none
example := C179_kernel [0, 1 / 4] [0, 1] data.len (fun i (_ : Fin 2) (_ : Fin 1) => data.get i) (c := -3) (s := 60) (by norm_num)
  (by norm_num) svd eig 0 (some (1 / 10)) none

end

end Verif
