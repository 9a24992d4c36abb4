import Verif.Model.SaveLoad
import Mathlib.Tactic.NormNum

/-!
# Properties of `save_model` and `load_model`: C65
-/

namespace Verif

set_option linter.unusedSectionVars false
set_option linter.unusedSimpArgs false

section
variable {K : Type*}

/-- The axes of the arrays computed by the estimator. -/
structure EstimatorAxes (s : ModelState K) : Prop where
  force : ∀ c, s.forceCoeff = some c → ∃ d, c.dims = ["dim_basis", d] ∧ d ≠ "dim_basis" ∧ d ≠ "dim_basis_force"
  gram : ∀ g, s.gramForce = some g → g.dims = ["dim_basis", "dim_basis'"]

/-- **C65** What comes back: everything but the method of inversion, the masses and the Gram matrix of the
kernel, which are lost. -/
theorem C65_roundtrip {s : ModelState K} (ha : EstimatorAxes s) {sv : Saved K} (h : saveModel s = .ok sv) :
    loadModel s.bm.cls s.bm.basis sv =
      { s with method := none, effMass := none, gramKernel := none, invMassCoeff := none } := by
  unfold saveModel at h
  dsimp only at h
  split_ifs at h
  cases h
  obtain ⟨bm, Lobs, dt, trunc, fc, ker, meth, rp, P, gf, gk, em, im⟩ := s
  have e1 : (fc.map fun c => c.rename1 "dim_basis" "dim_basis_force").map
      (fun c => c.rename1 "dim_basis_force" "dim_basis") = fc := by
    cases fc with
    | none => rfl
    | some c =>
      obtain ⟨d, hd, h1, h2⟩ := ha.force c rfl
      obtain ⟨ds, sh, g⟩ := c
      simp only at hd
      subst hd
      simp [LArr.rename1, LArr.rename, h1, h2]
  have e2 : (gf.map fun c => c.rename fun d =>
      if d = "dim_basis" then "dim_basis_force" else if d = "dim_basis'" then "dim_basis_force'" else d).map
      (fun c => c.rename fun d =>
      if d = "dim_basis_force" then "dim_basis" else if d = "dim_basis_force'" then "dim_basis'" else d) = gf := by
    cases gf with
    | none => rfl
    | some g =>
      have hd := ha.gram g rfl
      obtain ⟨ds, sh, f⟩ := g
      simp only at hd
      subst hd
      simp [LArr.rename]
  simp only [loadModel, e1, e2]

/-- **C65**: the parts of the model named by the claim. -/
theorem C65_fields {s : ModelState K} (ha : EstimatorAxes s) {sv : Saved K} (h : saveModel s = .ok sv) :
    (loadModel s.bm.cls s.bm.basis sv).forceCoeff = s.forceCoeff ∧
    (loadModel s.bm.cls s.bm.basis sv).kernel = s.kernel ∧
    (loadModel s.bm.cls s.bm.basis sv).rankProjection = s.rankProjection ∧
    (loadModel s.bm.cls s.bm.basis sv).Prange = s.Prange ∧
    (loadModel s.bm.cls s.bm.basis sv).dt = s.dt ∧
    (loadModel s.bm.cls s.bm.basis sv).truncInd = s.truncInd ∧
    (loadModel s.bm.cls s.bm.basis sv).Lobs = s.Lobs := by
  rw [C65_roundtrip ha h]
  exact ⟨rfl, rfl, rfl, rfl, rfl, rfl, rfl⟩

/-- Saving twice: a loaded model can be saved, and nothing more is lost. -/
theorem C65_idempotent {s : ModelState K} (ha : EstimatorAxes s) {sv : Saved K} (h : saveModel s = .ok sv) :
    ∃ sv', saveModel (loadModel s.bm.cls s.bm.basis sv) = .ok sv' ∧
      loadModel s.bm.cls s.bm.basis sv' = loadModel s.bm.cls s.bm.basis sv := by
  rw [C65_roundtrip ha h]
  obtain ⟨sv', h'⟩ : ∃ sv', saveModel { s with method := none, effMass := none, gramKernel := none, invMassCoeff := none } =
      .ok sv' := by
    unfold saveModel at h ⊢
    dsimp only at h ⊢
    split_ifs at h with hs
    rw [if_pos]
    · exact ⟨_, rfl⟩
    · unfold sizesAgree at hs ⊢
      rw [List.all_eq_true] at hs ⊢
      intro p hp
      have hsub : ∀ q, q ∈ layout (s.forceCoeff.map fun c => c.rename1 "dim_basis" "dim_basis_force") ++
          layout (s.gramForce.map fun c => c.rename fun d =>
            if d = "dim_basis" then "dim_basis_force" else if d = "dim_basis'" then "dim_basis_force'" else d) ++
          kernelLayout { s with method := none, effMass := none, gramKernel := none, invMassCoeff := none } ++
          layout (none : Option (LArr K)) ++ layout (none : Option (LArr K)) ++ layout (none : Option (LArr K)) ++ layout s.Prange →
          q ∈ layout (s.forceCoeff.map fun c => c.rename1 "dim_basis" "dim_basis_force") ++
          layout (s.gramForce.map fun c => c.rename fun d =>
            if d = "dim_basis" then "dim_basis_force" else if d = "dim_basis'" then "dim_basis_force'" else d) ++
          kernelLayout s ++ layout s.invMassCoeff ++ layout s.effMass ++ layout s.gramKernel ++ layout s.Prange := by
        intro q hq
        have e : kernelLayout { s with method := none, effMass := none, gramKernel := none, invMassCoeff := none } =
          kernelLayout s := rfl
        rw [e] at hq
        simp only [layout, List.append_nil, List.mem_append] at hq ⊢
        tauto
      have h1 := hs p (hsub p hp)
      rw [List.all_eq_true] at h1 ⊢
      exact fun q hq => h1 q (hsub q hq)
  have ha' : EstimatorAxes { s with method := none, effMass := none, gramKernel := none, invMassCoeff := none } :=
    ⟨ha.force, ha.gram⟩
  exact ⟨sv', h', C65_roundtrip ha' h'⟩

end

section
variable {K : Type*} [Field K]

/-- **C65**: the mean force and the memory kernel of the loaded model are the same functions. -/
theorem C65_evaluation {s : ModelState K} (ha : EstimatorAxes s) {sv : Saved K} (h : saveModel s = .ok sv)
    (coeffs : Option (LArr K)) (n : ℕ) (pts : ℕ → ℕ → K) :
    forceEval (loadModel s.bm.cls s.bm.basis sv) coeffs n pts = forceEval s coeffs n pts ∧
    kernelEvalAt (loadModel s.bm.cls s.bm.basis sv) n pts = kernelEvalAt s n pts := by
  rw [C65_roundtrip ha h]
  exact ⟨rfl, rfl⟩

/-- **C65** for `compute_noise`, when the kernel was computed with a rectangle method. The full statement
(any method) is false: `C65_noise_fails`. -/
theorem C65_noise_partial {s : ModelState K} (ha : EstimatorAxes s) {sv : Saved K} (h : saveModel s = .ok sv)
    (hm : isRectMethod s.method) {bf b x : ℕ} (xva : Traj K bf b x) (trunc : Option ℕ) (start : ℕ) (stop : Option ℕ) :
    computeNoise ((loadModel s.bm.cls s.bm.basis sv).toNoise bf b x) xva trunc start stop =
      computeNoise (s.toNoise bf b x) xva trunc start stop := by
  rw [C65_roundtrip ha h]
  have hn : isRectMethod (none : Option String) := Or.inr rfl
  unfold computeNoise ModelState.toNoise
  simp only [if_pos hm, if_pos hn]

/-- After loading, `compute_noise` uses the rectangle rule whatever the method of the kernel. -/
theorem C65_noise_loaded {s : ModelState K} (ha : EstimatorAxes s) {sv : Saved K} (h : saveModel s = .ok sv)
    {bf b x : ℕ} (xva : Traj K bf b x) (trunc : Option ℕ) (start : ℕ) (stop : Option ℕ) :
    computeNoise ((loadModel s.bm.cls s.bm.basis sv).toNoise bf b x) xva trunc start stop =
      computeNoise { s.toNoise bf b x with method := some "rect" } xva trunc start stop := by
  rw [C65_roundtrip ha h]
  have hn : isRectMethod (none : Option String) := Or.inr rfl
  have hr : isRectMethod (some "rect") := Or.inl (by simp)
  unfold computeNoise ModelState.toNoise
  simp only [if_pos hr, if_pos hn]

end

/-! ### Examples and counterexamples -/

/-- A model with two functions in one dimension, a kernel of two points and the given method. -/
def exampleSaved (method : Option String) : ModelState ℚ where
  bm := ⟨.posGle, ⟨2, true, fun p k => p 0 ^ k, fun p k _ => k * p 0 ^ (k - 1), fun _ _ _ _ => 0, fun _ _ => 0⟩, 1, 1⟩
  Lobs := "a"
  dt := 1
  truncInd := 2
  forceCoeff := some (LArr.mk2 "dim_basis" 2 "dim_x" 1 fun k _ => k)
  kernel := some ⟨1, 1, ⟨⟨2, fun _ _ _ => 1⟩, ⟨2, fun t => t⟩⟩⟩
  method := method
  rankProjection := false
  Prange := none
  gramForce := some (LArr.mk2 "dim_basis" 2 "dim_basis'" 2 fun i j => if i = j then 1 else 0)
  gramKernel := none
  effMass := some (LArr.mk2 "dim_x'" 1 "dim_x" 1 fun _ _ => 2)

theorem exampleSaved_axes (method : Option String) : EstimatorAxes (exampleSaved method) where
  force := fun c h => by cases h; exact ⟨"dim_x", rfl, by decide, by decide⟩
  gram := fun c h => by cases h; rfl

theorem exampleSaved_ok (method : Option String) : ∃ sv, saveModel (exampleSaved method) = .ok sv := by
  unfold saveModel
  dsimp only
  rw [if_pos]
  · exact ⟨_, rfl⟩
  · exact (by decide : sizesAgree [("dim_basis_force", 2), ("dim_x", 1), ("dim_basis_force", 2), ("dim_basis_force'", 2),
      ("time_kernel", 2), ("dim_basis", 1), ("dim_x", 1), ("dim_x'", 1), ("dim_x", 1)] = true)

example (method : Option String) := C65_roundtrip (exampleSaved_axes method) (exampleSaved_ok method).choose_spec
example (method : Option String) := C65_fields (exampleSaved_axes method) (exampleSaved_ok method).choose_spec
example (method : Option String) := C65_idempotent (exampleSaved_axes method) (exampleSaved_ok method).choose_spec
example := C65_evaluation (exampleSaved_axes (some "trapz")) (exampleSaved_ok (some "trapz")).choose_spec none 2
  (fun i _ => (i : ℚ))

/-- A trajectory of three frames. -/
def exampleSavedTraj : Traj ℚ 2 1 1 := ⟨3, fun t => t, fun _ _ => 1, fun _ _ => 1, fun t _ => t + 1, "dim_x"⟩

example := C65_noise_partial (exampleSaved_axes (some "rect")) (exampleSaved_ok (some "rect")).choose_spec (Or.inl (by decide))
  exampleSavedTraj none 0 none
example := C65_noise_loaded (exampleSaved_axes (some "trapz")) (exampleSaved_ok (some "trapz")).choose_spec
  exampleSavedTraj none 0 none

/-- The full statement of C65 is false: with a kernel computed by the trapezoid method the noise of the loaded
model is another one. -/
theorem C65_noise_fails : ∃ (s : ModelState ℚ) (sv : Saved ℚ) (r r' : NoiseOut ℚ 1), EstimatorAxes s ∧ saveModel s = .ok sv ∧
    computeNoise (s.toNoise 2 1 1) exampleSavedTraj none 0 none = .ok r ∧
    computeNoise ((loadModel s.bm.cls s.bm.basis sv).toNoise 2 1 1) exampleSavedTraj none 0 none = .ok r' ∧
    r.noise 2 0 ≠ r'.noise 2 0 := by
  obtain ⟨sv, h⟩ := exampleSaved_ok (some "trapz")
  have e1 : (computeNoise ((exampleSaved (some "trapz")).toNoise 2 1 1) exampleSavedTraj none 0 none).toOption.map
      (fun r => r.noise 2 0) = some (9 / 2) := by decide +kernel
  have e2 : (computeNoise ((loadModel (exampleSaved (some "trapz")).bm.cls (exampleSaved (some "trapz")).bm.basis
      sv).toNoise 2 1 1) exampleSavedTraj none 0 none).toOption.map (fun r => r.noise 2 0) = some 5 := by
    rw [C65_roundtrip (exampleSaved_axes _) h]
    decide +kernel
  revert e1 e2
  cases h1 : computeNoise ((exampleSaved (some "trapz")).toNoise 2 1 1) exampleSavedTraj none 0 none with
  | error e => intro e1; cases e1
  | ok r =>
    cases h2 : computeNoise ((loadModel (exampleSaved (some "trapz")).bm.cls (exampleSaved (some "trapz")).bm.basis
      sv).toNoise 2 1 1) exampleSavedTraj none 0 none with
    | error e => intro _ e2; cases e2
    | ok r' =>
      intro e1 e2
      refine ⟨_, sv, r, r', exampleSaved_axes _, h, h1, h2, ?_⟩
      simp only [Except.toOption, Option.map_some, Option.some.injEq] at e1 e2
      rw [e1, e2]
      norm_num

/-- `save_model` raises when the kernel and the position dependent inverse mass have different numbers of basis
functions, which happens as soon as the kernel has been projected on the range of the basis. -/
theorem C65_save_fails {K : Type*} {s : ModelState K} {b x n y : ℕ} {k : KernelData K b x} {c : LArr K} {d : String}
    (hk : s.kernel = some ⟨b, x, k⟩) (hc : s.invMassCoeff = some c) (hd : c.dims = ["dim_basis", d])
    (hs : c.shape = [n, y]) (hn : n ≠ b) : saveModel s = .error .value := by
  unfold saveModel
  dsimp only
  rw [if_neg]
  unfold sizesAgree
  simp only [List.all_eq_true, not_forall]
  have h1 : ("dim_basis", b) ∈ kernelLayout s := by simp [kernelLayout, hk]
  have h2 : ("dim_basis", n) ∈ layout s.invMassCoeff := by simp [layout, hc, hd, hs]
  refine ⟨("dim_basis", b), by simp only [List.mem_append]; tauto, ("dim_basis", n),
    by simp only [List.mem_append]; tauto, by simpa using hn.symm⟩

example := C65_save_fails (K := ℚ) (n := 2) (y := 1) (d := "dim_x'")
  (c := LArr.mk2 "dim_basis" 2 "dim_x'" 1 fun _ _ => 1)
  (s := { exampleSaved none with invMassCoeff := some (LArr.mk2 "dim_basis" 2 "dim_x'" 1 fun _ _ => 1) }) rfl rfl rfl rfl
  (by decide)

end Verif
