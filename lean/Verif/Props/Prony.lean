import Verif.Lemmas.Prony
import Mathlib.Analysis.SpecialFunctions.Exponential
import Mathlib.Analysis.ODE.ExistUnique
import Mathlib.Analysis.SpecialFunctions.Trigonometric.Deriv
import Mathlib.LinearAlgebra.Matrix.Notation
import Mathlib.Tactic.NormNum
import Mathlib.Tactic.Linarith

/-!
# C71, C72, C73 and C90: the Prony fit
-/

namespace Verif

open Finset

/-! ## C71 -/

/-- **C71.** The series read off the Hankel matrix of a series is the series, up to its last odd length: all of it
when the length is odd, all but the last point when it is even. -/
theorem C71_round_trip {K : Type*} (y : Arr K) (hy : 1 ≤ y.len) :
    ∃ z, reconstructData (hankelSize y.len + 1) (hankelSize y.len + 1) (hankelMat y.get (hankelSize y.len)) = .ok z ∧
      (z.len = if y.len % 2 = 1 then y.len else y.len - 1) ∧ ∀ i < z.len, z.get i = y.get i := by
  refine ⟨_, by rw [reconstructData, if_neg (by omega), if_neg (by simp)], ?_, ?_⟩
  · show _ + 1 + (_ + 1) - 1 = _
    simp only [hankelSize]
    split <;> omega
  · intro i hi
    have hi : i < hankelSize y.len + 1 + (hankelSize y.len + 1) - 1 := hi
    simp only [hankelMat]
    generalize hankelSize y.len = n at *
    rcases Nat.eq_zero_or_pos n with rfl | hn
    · obtain rfl : i = 0 := by omega
      simp
    · by_cases h : n + 1 - 1 ≤ i
      · rw [if_pos h, if_neg (by omega)]
        by_cases h' : n + 1 - 1 + (i - (n + 1 - 1)) < n + 1
        · rw [if_pos h']; congr 1; omega
        · rw [if_neg h']; congr 1; omega
      · rw [if_neg h, if_pos (by omega)]; simp

/-- The inspection of `data` with nothing to remove: a series whose Hankel matrix has at most `n` singular values
above the threshold and zeros for the others is returned unchanged. -/
theorem C71_inspect (data : Arr ℝ) (hd : 1 ≤ data.len) (h0 : data.get 0 ≠ 0)
    (svd : (n : ℕ) → Mat ℝ (n + 1) (n + 1) → HermSvd n) (eps t : ℝ)
    (n : ℕ) (hn : n = hankelSize data.len) (H : Mat ℝ (n + 1) (n + 1)) (hH : H = fun i j => data.get (i.val + j.val) / data.get 0)
    (hS : (svd n H).IsSvd H) (hsep : ∀ k, (svd n H).s k ≤ t → (svd n H).s k = 0) (hrank : ∃ k, (svd n H).s k ≤ t) :
    ∃ z, pronyInspect data svd eps (some t) none = .ok z ∧ (z.len = if data.len % 2 = 1 then data.len else data.len - 1) ∧
      ∀ i < z.len, z.get i = data.get i := by
  subst hn
  have e : H = fun i j => hankelMat (fun i => data.get i / data.get 0) (hankelSize data.len) i.val j.val := by
    rw [hH]; funext i j; exact (hankelMat_eq (fun i => data.get i / data.get 0) _ _ _).symm
  clear hH
  subst e
  have hH := HermSvd.filtered_eq hS hsep
  have hget : ∀ i j : ℕ, data.get 0 * (hankelMat (fun i => data.get i / data.get 0) (hankelSize data.len) i j) =
      data.get (i + j) := by
    intro i j
    rw [hankelMat_eq]; field_simp
  refine ⟨?z, ?_, ?_, ?_⟩; rotate_left
  · rw [pronyInspect, if_neg (by omega)]
    simp only [pronyKeep_eq eps hrank]
    rw [reconstructData, if_neg (by omega), if_neg (by simp)]
    rfl
  · show _ + 1 + (_ + 1) - 1 = _
    simp only [hankelSize]
    split <;> omega
  · intro i hi
    have hi : i < hankelSize data.len + 1 + (hankelSize data.len + 1) - 1 := hi
    simp only [hH]
    set n := hankelSize data.len
    by_cases h : n + 1 - 1 ≤ i
    · rw [if_pos h]
      by_cases h0 : n + 1 = 1
      · rw [if_pos h0, dif_pos ⟨by omega, by omega⟩, hget]
        congr 1
        show n + 1 - 1 + 0 = i
        omega
      · rw [if_neg h0, dif_pos ⟨by omega, by omega⟩, hget]
        congr 1
        show n + 1 - 1 + (i - (n + 1 - 1)) = i
        omega
    · rw [if_neg h, dif_pos ⟨by omega, by omega⟩, hget]
      rfl

example := C71_round_trip (⟨4, fun i => (i : ℚ) + 1⟩ : Arr ℚ) (by decide)

/-! ## C72 -/

/-- **C72.** With a positive threshold, the vectors returned are orthogonal for the filtered matrix, which is
symmetric, with squares equal to the returned signs; the signs are `1` or `-1`, and there are at most as many
vectors as singular values kept. -/
theorem C72_orthogonal (y : Arr ℝ) (n : ℕ) (svd : Mat ℝ (n + 1) (n + 1) → HermSvd n) (eps : ℝ) (thres : Option ℝ)
    (nKeep : Option ℕ) (N : ℕ) (t : ℝ) (L : Ldl n)
    (hk : pronyKeep (svd fun i j => hankelMat y.get n i j) eps thres nKeep = .ok (N, t)) (ht : 0 < t)
    (h : ldlHankel y n svd eps thres nKeep = .ok L) :
    L.H.IsSymm ∧ L.H = (svd fun i j => hankelMat y.get n i j).filtered N ∧ 0 < L.size ∧ L.size ≤ N ∧
      (∀ a b, L.dlu a ⬝ᵥ L.H.mulVec (L.dlu b) = if a = b then L.sign a else 0) ∧ ∀ a, L.sign a = 1 ∨ L.sign a = -1 := by
  unfold ldlHankel at h
  by_cases hlen : y.len < 2 * n + 1
  · rw [if_pos hlen] at h; exact absurd h (by simp)
  rw [if_neg hlen] at h
  simp only [hk] at h
  set S := svd fun i j => hankelMat y.get n i j
  have hs := S.filtered_symm N
  cases hl : ldlLoop (S.filtered N) N t (List.finRange (n + 1)) [] with
  | error e => rw [hl] at h; exact absurd h (by simp)
  | ok us =>
    rw [hl] at h
    obtain ⟨hf, hle, -⟩ := ldlLoop_frame hs ht _ _ _ ⟨List.Pairwise.nil, by simp⟩ (Nat.zero_le _) hl
    simp only [ldlOut] at h
    by_cases h0 : us.length = 0
    · rw [if_pos h0] at h; exact absurd h (by simp)
    · rw [if_neg h0, Except.ok.injEq] at h
      subst h
      refine ⟨hs, rfl, Nat.pos_of_ne_zero h0, hle, fun a b => hf.normalised hs a b, fun a => ?_⟩
      have hne := hf.2 (us.get a) (List.get_mem _ _)
      rcases lt_or_gt_of_ne hne with h | h
      · right; simp only [sign_neg h]; simp
      · left; simp only [sign_pos h]; simp

/-- In matrix form: `dlu H dluᵀ` is the diagonal matrix of the signs. -/
theorem C72_matrix (y : Arr ℝ) (n : ℕ) (svd : Mat ℝ (n + 1) (n + 1) → HermSvd n) (eps : ℝ) (thres : Option ℝ)
    (nKeep : Option ℕ) (N : ℕ) (t : ℝ) (L : Ldl n)
    (hk : pronyKeep (svd fun i j => hankelMat y.get n i j) eps thres nKeep = .ok (N, t)) (ht : 0 < t)
    (h : ldlHankel y n svd eps thres nKeep = .ok L) :
    Matrix.of L.dlu * L.H * (Matrix.of L.dlu).transpose = Matrix.diagonal L.sign := by
  have := (C72_orthogonal y n svd eps thres nKeep N t L hk ht h).2.2.2.2.1
  ext a b
  rw [Matrix.diagonal_apply, ← this a b, Matrix.dotProduct_mulVec]
  rfl

/-! ## C73 -/

section exponential

attribute [local instance] Matrix.linftyOpNormedRing Matrix.linftyOpNormedAlgebra

/-- **C73.** At time `0` the series is `y0`. -/
theorem C73_initial (times : List ℝ) (y0 : ℝ) (m : ℕ) (A : Mat ℝ m m) (out : List ℝ)
    (h : pronySeriesEval times y0 m A = .ok out) :
    out.length = times.length ∧ ∀ i : ℕ, times[i]? = some 0 → out[i]? = some y0 := by
  unfold pronySeriesEval at h
  split at h
  · exact absurd h (by simp)
  · obtain ⟨h1, h2⟩ := mapM_ok _ _ _ h
    refine ⟨h1, fun i hi => ?_⟩
    obtain ⟨b, hb, ho⟩ := h2 i 0 hi
    rw [ho]
    unfold pronyTerm at hb
    split at hb
    · simp only [zero_smul, Except.ok.injEq] at hb
      rw [← hb, NormedSpace.exp_zero]; simp
    · exact absurd hb (by simp)

/-- The values of the series are the matrix exponentials, which obey the semigroup law: the exponential at `s + t`
is the product of those at `s` and at `t`. -/
theorem C73_semigroup (times : List ℝ) (y0 : ℝ) (m : ℕ) (A : Mat ℝ (m + 1) (m + 1)) (h1 : times.length ≠ 1) :
    ∃ (U : ℝ → Mat ℝ (m + 1) (m + 1)), (U 0 = 1 ∧ (∀ s t, U (s + t) = U s * U t) ∧ ∀ t, HasDerivAt U (A * U t) t) ∧
      pronySeriesEval times y0 (m + 1) A = .ok (times.map fun t => y0 * U t 0 0) := by
  refine ⟨fun t => NormedSpace.exp (t • A), ⟨by simp [NormedSpace.exp_zero], fun s t => ?_, fun t => ?_⟩, ?_⟩
  · beta_reduce
    rw [add_smul]
    exact Matrix.exp_add_of_commute _ _ (((Commute.refl A).smul_right t).smul_left s)
  · exact hasDerivAt_exp_smul_const' A t
  · rw [pronySeriesEval, if_neg h1]
    exact mapM_of_ok _ _ _ fun t _ => by rw [pronyTerm, dif_pos (Nat.succ_pos m)]; rfl

/-- The series is `y0` times the first component of any solution of `x' = A x` that starts from the first unit
vector. -/
theorem C73_ode (times : List ℝ) (y0 : ℝ) (m : ℕ) (A : Mat ℝ (m + 1) (m + 1)) (h1 : times.length ≠ 1)
    (x : ℝ → Fin (m + 1) → ℝ) (hx0 : x 0 = Pi.single 0 1) (hx : ∀ t, HasDerivAt x (A.mulVec (x t)) t) :
    pronySeriesEval times y0 (m + 1) A = .ok (times.map fun t => y0 * x t 0) := by
  obtain ⟨U, ⟨h0, -, hd⟩, h⟩ := C73_semigroup times y0 m A h1
  rw [h]
  have key : (fun t => (U t).mulVec (Pi.single 0 1)) = x := by
    let F : (Fin (m + 1) → ℝ) →L[ℝ] (Fin (m + 1) → ℝ) := LinearMap.toContinuousLinearMap (Matrix.mulVecLin A)
    let G : Mat ℝ (m + 1) (m + 1) →L[ℝ] (Fin (m + 1) → ℝ) := LinearMap.toContinuousLinearMap
      { toFun := fun M => M.mulVec (Pi.single 0 1), map_add' := fun M M' => Matrix.add_mulVec M M' _,
        map_smul' := fun c M => Matrix.smul_mulVec c M _ }
    refine ODE_solution_unique_univ (v := fun _ => F) (s := fun _ => Set.univ) (t₀ := 0) (fun _ => F.lipschitz.lipschitzOnWith)
      (fun t => ⟨?_, trivial⟩) (fun t => ⟨hx t, trivial⟩) ?_
    · have := G.hasFDerivAt.comp_hasDerivAt t (hd t)
      have e : G (A * U t) = F ((U t).mulVec (Pi.single 0 1)) := by
        show (A * U t).mulVec _ = A.mulVec _
        rw [Matrix.mulVec_mulVec]
      rw [← e]; exact this
    · show (U 0).mulVec _ = x 0
      rw [h0, hx0, Matrix.one_mulVec]
  congr 2
  funext t
  rw [← key]; simp

/-- One time only is an `IndexError`, for every matrix. -/
theorem C73_one_time_fails (t y0 : ℝ) (m : ℕ) (A : Mat ℝ m m) : pronySeriesEval [t] y0 m A = .error .index := rfl


end exponential

example := C73_initial [0, 1] 3 1 !![-1] [3, 3 * (NormedSpace.exp ((1 : ℝ) • !![-1]) : Mat ℝ 1 1) 0 0]
  (by simp [pronySeriesEval, pronyTerm, bind, Except.bind, pure, Except.pure, NormedSpace.exp_zero])
example := C73_semigroup [0, 1, 2] 3 1 !![0, 1; -1, 0] (by decide)
example := C73_ode [0, 1, 2] 3 1 !![0, 1; -1, 0] (by decide) (fun t => ![Real.cos t, -Real.sin t])
  (by funext i; fin_cases i <;> simp)
  (fun t => by
    rw [hasDerivAt_pi]
    intro i
    fin_cases i
    · simpa [Matrix.mulVec, dotProduct, Fin.sum_univ_two] using Real.hasDerivAt_cos t
    · have : HasDerivAt (fun x => -Real.sin x) (-Real.cos t) t := (Real.hasDerivAt_sin t).neg
      simpa [Matrix.mulVec, dotProduct, Fin.sum_univ_two] using this)

/-! ## C90 -/

/-- **C90.** Asking to keep at least as many singular values as there are, for a series whose Hankel matrix has all
of them above the threshold, is an `IndexError`. -/
theorem C90_keep_all_fails (y : Arr ℝ) (n : ℕ) (svd : Mat ℝ (n + 1) (n + 1) → HermSvd n) (eps t : ℝ) (m : ℕ)
    (hy : 2 * n + 1 ≤ y.len) (hm : n + 1 ≤ m) (hrank : ∀ k, t < (svd fun i j => hankelMat y.get n i j).s k) :
    ldlHankel y n svd eps (some t) (some m) = .error .index := by
  have hr : (univ.filter fun k => t < (svd fun i j => hankelMat y.get n i j).s k).card = n + 1 := by
    rw [filter_true_of_mem fun k _ => hrank k]; simp
  rw [ldlHankel, if_neg (by omega)]
  simp only [pronyKeep, Option.getD_some, hr]
  rw [dif_neg (by omega)]

example := C90_keep_all_fails ⟨3, fun i => if i = 1 then 0 else 1⟩ 1 (fun _ => ⟨1, fun _ => 1, fun _ => 1⟩) 0 (1 / 10) 100 (by norm_num) (by norm_num)
  (fun k => by norm_num)

end Verif
