import Verif.Props.PronyDup
import Verif.Lemmas.PronyReal

/-!
# C134 and C135: removing the diverging exponentials of a Prony fit
-/

namespace Verif

open Finset Matrix

/-- **C134.** With `remove=True` the fit does not diverge: it is bounded for all the times, whatever the amplitude. -/
theorem C134_bounded {N : ℕ} (E : EigData N) {c : Fin N → Fin N} (hc : E.IsConj c) {dt : ℝ} (hdt : 0 < dt)
    (hlam : ∀ k, ‖E.lamb k‖ ≤ 1 → 0 < (E.lamb k).re ∨ 1e-15 ≤ |(E.lamb k).im| ∨ (E.lamb k).re < 0 ∧ (E.lamb k).im = 0)
    {r : ℕ} {A : Mat ℝ r r} (h : cleanEigenvalues E dt true = .ok ⟨r, A⟩) :
    ∃ C : ℝ, ∀ (y0 : ℝ) (ts : List ℝ) (ys : List ℝ), (∀ t ∈ ts, 0 ≤ t) → pronySeriesEval ts y0 r A = .ok ys →
      ys.length = ts.length ∧ ∀ y ∈ ys, |y| ≤ C * |y0| := by
  obtain ⟨p, s, g, W, f, D, hW, hA, hf, hD⟩ := clean_form E hc true (fun k hk => hlam k (hk rfl)) h
  have key : ∀ (t : ℝ), 0 ≤ t → ∀ i j : Fin r, |(NormedSpace.exp (t • A) : Mat ℝ r r) i j| ≤ ∑ x, ∑ y, ∑ z, ‖W x z‖ * ‖W⁻¹ z y‖ := by
    intro t ht i j
    have e0 := exp_reindex_type g (t • A) i j
    have e1 : ((t • A).map Complex.ofReal).submatrix g.symm g.symm = W * diagonal ((t : ℂ) • D) * W⁻¹ := by
      rw [diagonal_smul, Matrix.mul_smul, Matrix.smul_mul, ← hA]
      ext x y; simp
    rw [e1, Matrix.exp_conj _ _ ((isUnit_iff_isUnit_det W).2 hW), Matrix.exp_diagonal] at e0
    have e2 : ∀ x, ‖(NormedSpace.exp ((t : ℂ) • D) : _ → ℂ) x‖ ≤ 1 := by
      intro x
      rw [Pi.coe_exp, ← Complex.exp_eq_exp_ℂ, Complex.norm_exp]
      have hre : (((t : ℂ) • D) x).re = t * (Real.log ‖E.lamb (f x)‖ / dt) := by
        rcases hD x with e | e
        · rw [Pi.smul_apply, smul_eq_mul, Complex.re_ofReal_mul, e, Complex.div_ofReal_re, Complex.log_re]
        · rw [Pi.smul_apply, smul_eq_mul, Complex.re_ofReal_mul, e, Complex.conj_re, Complex.div_ofReal_re, Complex.log_re]
      rw [hre, ← Real.exp_zero, Real.exp_le_exp]
      have : Real.log ‖E.lamb (f x)‖ ≤ 0 := Real.log_nonpos (norm_nonneg _) (hf x rfl)
      exact mul_nonpos_of_nonneg_of_nonpos ht (div_nonpos_of_nonpos_of_nonneg this hdt.le)
    rw [← Real.norm_eq_abs, ← Complex.norm_real, e0, mul_apply]
    calc _ ≤ ∑ z, ‖W (g i) z‖ * ‖W⁻¹ z (g j)‖ := by
          refine (norm_sum_le _ _).trans (Finset.sum_le_sum fun z _ => ?_)
          rw [norm_mul, mul_diagonal, norm_mul]
          refine mul_le_mul_of_nonneg_right ?_ (norm_nonneg _)
          exact mul_le_of_le_one_right (norm_nonneg _) (e2 z)
      _ ≤ ∑ y, ∑ z, ‖W (g i) z‖ * ‖W⁻¹ z y‖ :=
          Finset.single_le_sum (f := fun y => ∑ z, ‖W (g i) z‖ * ‖W⁻¹ z y‖)
            (fun y _ => Finset.sum_nonneg fun z _ => by positivity) (Finset.mem_univ _)
      _ ≤ _ := Finset.single_le_sum (f := fun x => ∑ y, ∑ z, ‖W x z‖ * ‖W⁻¹ z y‖)
            (fun x _ => Finset.sum_nonneg fun y _ => Finset.sum_nonneg fun z _ => by positivity) (Finset.mem_univ _)
  refine ⟨∑ x, ∑ y, ∑ z, ‖W x z‖ * ‖W⁻¹ z y‖, fun y0 ts ys ht hy => ?_⟩
  unfold pronySeriesEval at hy
  split at hy
  · exact absurd hy (by simp)
  · rcases ts with _ | ⟨t0, ts⟩
    · have : ys = [] := by simpa [pure, Except.pure, eq_comm] using hy
      subst this
      exact ⟨rfl, by simp⟩
    · by_cases hr : 0 < r
      · rw [mapM_of_ok _ (fun t => y0 * (NormedSpace.exp (t • A) : Mat ℝ r r) ⟨0, hr⟩ ⟨0, hr⟩) _
          (fun t _ => by rw [pronyTerm, dif_pos hr]), Except.ok.injEq] at hy
        subst hy
        refine ⟨by simp, fun y hy => ?_⟩
        obtain ⟨t, htm, rfl⟩ := List.mem_map.1 hy
        rw [abs_mul, mul_comm]
        exact mul_le_mul_of_nonneg_right (key t (ht t htm) _ _) (abs_nonneg _)
      · exfalso
        rw [List.mapM_cons, pronyTerm, dif_neg hr] at hy
        exact absurd hy (by simp [bind, Except.bind])

/-! ## C135 -/

/-- The series of the exponentials of a matrix that do not diverge, with their amplitudes. -/
noncomputable def Spec.keptSeries {N : ℕ} (E : EigData N) (i : Fin N) (k : ℕ) : ℂ :=
  ∑ j, if ‖E.lamb j‖ ≤ 1 then E.vect i j * E.lamb j ^ k * E.vect⁻¹ j i else 0

/-- **C135.** Whatever is removed, the fit starts at the first value of the data, as does every series. -/
theorem C135_start {r : ℕ} (A : Mat ℝ r r) (y0 : ℝ) (ts ys : List ℝ) (hy : pronySeriesEval (0 :: ts) y0 r A = .ok ys) :
    ys.head? = some y0 := by
  unfold pronySeriesEval at hy
  split at hy
  · exact absurd hy (by simp)
  · rw [List.mapM_cons, pronyTerm] at hy
    by_cases hr : 0 < r
    · rw [dif_pos hr] at hy
      simp only [bind, Except.bind, zero_smul, NormedSpace.exp_zero, one_apply_eq, mul_one] at hy
      split at hy
      · exact absurd hy (by simp)
      · simp only [pure, Except.pure, Except.ok.injEq] at hy
        rw [← hy]; rfl
    · rw [dif_neg hr] at hy
      exact absurd hy (by simp [bind, Except.bind])

/-- **C135.** What is true when one exponential `x^k` remains: the fit is `y0 x^k`, at the times `k dt`. -/
theorem C135_single_partial {N : ℕ} (E : EigData N) {c : Fin N → Fin N} (hc : E.IsConj c) {dt : ℝ} (hdt : dt ≠ 0) {j0 : Fin N} {x : ℝ}
    (hx : 0 < x) (hj0 : E.lamb j0 = x) (hu : ∀ j, ‖E.lamb j‖ ≤ 1 → j = j0) {r : ℕ} {A : Mat ℝ r r}
    (h : cleanEigenvalues E dt true = .ok ⟨r, A⟩) (k : ℕ) (i : Fin r) : (NormedSpace.exp ((k * dt : ℝ) • A) : Mat ℝ r r) i i = x ^ k := by
  obtain ⟨p, s, g, W, f, D, hW, hA, hf, hD⟩ := clean_form E hc true (fun k hk => .inl (by
    rw [hu k (hk rfl), hj0]; simpa using hx)) h
  have hDx : ∀ z, Complex.exp (dt * D z) = x := by
    intro z
    have e : D z = Complex.log x / dt := by
      rcases hD z with e | e
      · rw [e, hu _ (hf z rfl), hj0]
      · rw [e, hu _ (hf z rfl), hj0, ← Complex.ofReal_log hx.le, ← Complex.ofReal_div, Complex.conj_ofReal]
    rw [e, mul_div_cancel₀ _ (by exact_mod_cast hdt), Complex.exp_log (by exact_mod_cast hx.ne')]
  have e0 := exp_reindex_type g ((k * dt : ℝ) • A) i i
  have e1 : ((((k * dt : ℝ) • A).map Complex.ofReal).submatrix g.symm g.symm) = ((k * dt : ℝ) : ℂ) • (W * diagonal D * W⁻¹) := by
    rw [← hA]
    ext x y; simp
  rw [e1, exp_diag_pow hW hDx] at e0
  have e2 : W * diagonal (fun _ => (x : ℂ) ^ k) * W⁻¹ = diagonal fun _ => (x : ℂ) ^ k := by
    have : diagonal (fun _ => (x : ℂ) ^ k) = ((x : ℂ) ^ k) • (1 : Matrix (Fin p ⊕ Fin s) (Fin p ⊕ Fin s) ℂ) := by
      rw [← diagonal_one, ← diagonal_smul]; congr 1; funext z; simp
    rw [this, Matrix.mul_smul, Matrix.mul_one, Matrix.smul_mul, mul_nonsing_inv W hW]
  rw [e2, diagonal_apply_eq] at e0
  exact_mod_cast e0

namespace PronyExample3

/-- The eigenvalues one half and two. -/
noncomputable def E : EigData 2 := ⟨![1 / 2, 2], !![1, 1; -1, 1]⟩

/-- The matrix. -/
noncomputable def J : Mat ℝ 2 2 := !![5 / 4, 3 / 4; 3 / 4, 5 / 4]

theorem det : E.vect.det = 2 := by simp [E, det_fin_two]; norm_num

theorem isEig : E.IsEig J := by
  refine ⟨?_, by rw [det]; simp⟩
  ext i j
  fin_cases i <;> fin_cases j <;> simp [E, J, Matrix.mul_apply, Fin.sum_univ_two] <;> norm_num

theorem isConj : E.IsConj id where
  lamb k := by fin_cases k <;> simp [E, Complex.ext_iff]
  vect i k := by fin_cases i <;> fin_cases k <;> simp [E]
  real k _ := rfl

theorem kept : E.kept true = [0] := by
  have : List.finRange 2 = [0, 1] := by decide
  rw [EigData.kept, this]
  norm_num [E]

theorem dup (l : List (Fin 2)) (hl : l = [0]) : duplicated (fun k => E.lamb (l.get k)) = [] := by
  subst hl
  rw [duplicated, List.filter_eq_nil_iff]
  intro k _
  have : E.lamb ([0].get k) = 1 / 2 := by fin_cases k; simp [E]
  rw [this]
  norm_num

theorem series (k : ℕ) : Spec.keptSeries E 0 k = (1 / 2) ^ k / 2 := by
  have hinv : E.vect⁻¹ = !![1 / 2, -(1 / 2); 1 / 2, 1 / 2] := by
    apply inv_eq_right_inv
    ext i j
    fin_cases i <;> fin_cases j <;> simp [E, Matrix.mul_apply, Fin.sum_univ_two] <;> norm_num
  rw [Spec.keptSeries, hinv]
  norm_num [E, Fin.sum_univ_two]
  ring

theorem ok : ∃ A : Mat ℝ 1 1, cleanEigenvalues E 1 true = .ok ⟨1, A⟩ := by
  have hp : ∀ p : Σ m : ℕ, Mat ℝ m m, p.1 = 1 → ∃ A : Mat ℝ 1 1, (Except.ok p : Except Err _) = .ok ⟨1, A⟩ := by
    rintro ⟨m, A⟩ h
    obtain rfl : m = 1 := h
    exact ⟨A, rfl⟩
  unfold cleanEigenvalues
  simp only
  generalize hk : E.kept true = l
  rw [kept] at hk
  have hd := dup l hk.symm
  generalize duplicated (fun k => E.lamb (l.get k)) = D at hd
  subst hd
  subst hk
  have hs : Subsingleton (Fin [(0 : Fin 2)].length ⊕ Fin ([] : List (Fin [(0 : Fin 2)].length)).length) :=
    ⟨by
      rintro (a | a) (b | b)
      · exact congrArg _ (Subsingleton.elim (α := Fin 1) a b)
      · exact Fin.elim0 b
      · exact Fin.elim0 a
      · exact Fin.elim0 a⟩
  rw [if_pos]
  · exact hp _ rfl
  · rw [det_eq_elem_of_subsingleton _ (Sum.inl ⟨0, by simp⟩)]
    show IsUnit (E.vect 0 0)
    simp [E]

end PronyExample3

/-- **C135 is false**: the amplitudes of the exponentials that are kept are not theirs. For the series
`(1/2)^k / 2 + 2^k / 2` the second term is removed, and the fit is `(1/2)^k` instead of `(1/2)^k / 2`. -/
theorem C135_amplitudes_fail : ∃ (E : EigData 2) (J : Mat ℝ 2 2), E.IsEig J ∧ E.IsConj id ∧ ∃ A : Mat ℝ 1 1,
    cleanEigenvalues E 1 true = .ok ⟨1, A⟩ ∧ ∀ k : ℕ, Spec.keptSeries E 0 k = (1 / 2) ^ k / 2 ∧
      (NormedSpace.exp ((k : ℝ) • A) : Mat ℝ 1 1) 0 0 = (1 / 2) ^ k := by
  obtain ⟨A, hA⟩ := PronyExample3.ok
  refine ⟨PronyExample3.E, PronyExample3.J, PronyExample3.isEig, PronyExample3.isConj, A, hA, fun k => ⟨PronyExample3.series k, ?_⟩⟩
  have := C135_single_partial PronyExample3.E PronyExample3.isConj one_ne_zero (j0 := 0) (x := 1 / 2) (by norm_num) (by simp [PronyExample3.E])
    (fun j hj => by
      fin_cases j
      · rfl
      · norm_num [PronyExample3.E] at hj) hA k ⟨0, by norm_num⟩
  simpa using this

example : ∃ A : Mat ℝ 1 1, ∃ C : ℝ, ∀ (y0 : ℝ) (ts : List ℝ) (ys : List ℝ), (∀ t ∈ ts, 0 ≤ t) → pronySeriesEval ts y0 1 A = .ok ys →
      ys.length = ts.length ∧ ∀ y ∈ ys, |y| ≤ C * |y0| := by
  obtain ⟨A, hA⟩ := PronyExample3.ok
  exact ⟨A, C134_bounded PronyExample3.E PronyExample3.isConj one_pos (fun k hk => by
    fin_cases k
    · simp [PronyExample3.E]
    · norm_num [PronyExample3.E] at hk) hA⟩

end Verif
