import Verif.Lemmas.PronyDup

/-!
# The matrix of the fit is real
-/

namespace Verif

open Finset Matrix

variable {m q : ℕ}

/-- The columns of the conjugate are other columns, hence the matrix is real. -/
theorem newVect_real_perm {V : Mat ℂ m m} {dup : Fin q → Fin m} (hinj : Function.Injective dup) {sg : Fin m → ℝ}
    (hu : IsUnit (newVect V dup sg).det) {τ : Fin m → Fin m} (hτ : ∀ i k, V i (τ k) = (starRingEnd ℂ) (V i k))
    (hre : ∀ a i, (V i (dup a)).im = 0) (hτd : ∀ k, (∀ a, dup a ≠ k) → ∀ a, dup a ≠ τ k) {lg : Fin m → ℂ}
    (hlg : ∀ k, (∀ a, dup a ≠ k) → lg (τ k) = (starRingEnd ℂ) (lg k)) :
    (((newVect V dup sg * diagonal (Sum.elim lg fun a => (starRingEnd ℂ) (lg (dup a))) * (newVect V dup sg)⁻¹).map Complex.re).map
        Complex.ofReal : Matrix (Fin m ⊕ Fin q) (Fin m ⊕ Fin q) ℂ) =
      newVect V dup sg * diagonal (Sum.elim lg fun a => (starRingEnd ℂ) (lg (dup a))) * (newVect V dup sg)⁻¹ := by
  obtain ⟨W, hW⟩ : ∃ W, W = newVect V dup sg := ⟨_, rfl⟩
  obtain ⟨D, hD⟩ : ∃ D : Fin m ⊕ Fin q → ℂ, D = Sum.elim lg fun a => (starRingEnd ℂ) (lg (dup a)) := ⟨_, rfl⟩
  rw [← hW] at hu
  rw [← hW, ← hD]
  let Q : Matrix (Fin m ⊕ Fin q) (Fin m ⊕ Fin q) ℂ := fun x y => Sum.elim
    (fun k => if ∃ a, dup a = k then Sum.elim (fun _ => 0) (fun a => if dup a = k then 1 else 0) x else Sum.elim (fun i => if i = τ k then 1 else 0) (fun _ => 0) x)
    (fun a => Sum.elim (fun i => if dup a = i then 1 else 0) (fun _ => 0) x) y
  have hconj : ∀ a i, (starRingEnd ℂ) (V i (dup a)) = V i (dup a) := fun a i => Complex.conj_eq_iff_im.2 (hre a i)
  have hQ : W * Q = W.map (starRingEnd ℂ) := by
    ext x y
    rw [mul_apply, Fintype.sum_sum_type, map_apply]
    rcases y with k | a
    · by_cases hk : ∃ a, dup a = k
      · simp only [Q, Sum.elim_inl, Sum.elim_inr, if_pos hk, mul_zero, Finset.sum_const_zero, zero_add, mul_ite, mul_one]
        obtain ⟨a, rfl⟩ := hk
        rw [Finset.sum_eq_single a (fun a' _ hne => if_neg fun e => hne (hinj e)) (by simp), if_pos rfl, hW]
        rcases x with i | c'
        · simp [newVect_ll, newVect_lr, hconj]
        · simp only [newVect_rl, newVect_rr]
          by_cases hc : c' = a
          · subst hc; simp
          · rw [if_neg hc, if_neg (fun e => hc (hinj e).symm)]; simp
      · simp only [Q, Sum.elim_inl, Sum.elim_inr, if_neg hk, mul_zero, Finset.sum_const_zero, add_zero, hW, mul_ite, mul_one,
          Finset.sum_ite_eq', Finset.mem_univ, if_true]
        have hk' : ∀ a, dup a ≠ k := fun a e => hk ⟨a, e⟩
        rcases x with i | c'
        · simp only [newVect_ll, hτ]
        · simp only [newVect_rl]
          rw [if_neg (fun e => hτd k hk' c' e.symm), if_neg (fun e => hk' c' e.symm), map_zero]
    · simp only [Q, Sum.elim_inl, Sum.elim_inr, mul_zero, Finset.sum_const_zero, add_zero, mul_ite, mul_one,
        Finset.sum_ite_eq, Finset.mem_univ, if_true, hW]
      rcases x with i | c'
      · simp [newVect_ll, newVect_lr, hconj]
      · simp only [newVect_rl, newVect_rr]
        by_cases hc : c' = a
        · subst hc; simp
        · rw [if_neg hc, if_neg (fun e => hc (hinj e).symm)]; simp
  have hDQ : diagonal D * Q = Q * diagonal fun x => (starRingEnd ℂ) (D x) := by
    ext x y
    rw [diagonal_mul, mul_diagonal]
    have key : Q x y ≠ 0 → D x = (starRingEnd ℂ) (D y) := by
      intro hne
      rw [hD]
      rcases y with k | a
      · by_cases hk : ∃ a, dup a = k
        · simp only [Q, Sum.elim_inl, if_pos hk] at hne
          rcases x with i | a
          · simp at hne
          · simp only [Sum.elim_inr, ne_eq, ite_eq_right_iff, one_ne_zero, imp_false, not_not] at hne
            simp [hne]
        · simp only [Q, Sum.elim_inl, if_neg hk] at hne
          rcases x with i | a
          · simp only [Sum.elim_inl, ne_eq, ite_eq_right_iff, one_ne_zero, imp_false, not_not] at hne
            simp only [Sum.elim_inl, hne]
            exact hlg k fun a e => hk ⟨a, e⟩
          · simp at hne
      · simp only [Q, Sum.elim_inr] at hne
        rcases x with i | a'
        · simp only [Sum.elim_inl, ne_eq, ite_eq_right_iff, one_ne_zero, imp_false, not_not] at hne
          simp [hne]
        · simp at hne
    by_cases hz : Q x y = 0
    · rw [hz]; ring
    · rw [key hz, mul_comm]
  have hcW : W.map (starRingEnd ℂ) * W⁻¹.map (starRingEnd ℂ) = 1 := by
    rw [← Matrix.map_mul, mul_nonsing_inv W hu]
    ext i j; simp only [map_apply, one_apply]; split <;> simp
  have h4 : (W * diagonal D * W⁻¹).map (starRingEnd ℂ) = W * diagonal D * W⁻¹ := by
    rw [Matrix.map_mul, Matrix.map_mul, diagonal_map (map_zero _)]
    have e : W * diagonal D * W⁻¹ * W.map (starRingEnd ℂ) = W.map (starRingEnd ℂ) * diagonal fun x => (starRingEnd ℂ) (D x) := by
      rw [← hQ, ← Matrix.mul_assoc, Matrix.mul_assoc _ W⁻¹ W, nonsing_inv_mul W hu, Matrix.mul_one, Matrix.mul_assoc, hDQ,
        Matrix.mul_assoc]
    rw [← e, Matrix.mul_assoc _ _ (W⁻¹.map _), hcW, Matrix.mul_one]
  ext i j
  have := congrFun (congrFun h4 i) j
  exact Complex.conj_eq_iff_re.1 this

/-- What `np.linalg.eig` guarantees for a real matrix (LAPACK's `dgeev`): the eigenvalues that are not real come with
their conjugates, with conjugate vectors, and the vectors of real eigenvalues are real. -/
structure EigData.IsConj {N : ℕ} (E : EigData N) (c : Fin N → Fin N) : Prop where
  lamb : ∀ k, E.lamb (c k) = (starRingEnd ℂ) (E.lamb k)
  vect : ∀ i k, E.vect i (c k) = (starRingEnd ℂ) (E.vect i k)
  real : ∀ k, (E.lamb k).im = 0 → c k = k

/-- What `clean_eigenvalues` returns: a real matrix with known eigenvectors, and as eigenvalues the logarithms of those
that are kept. -/
theorem clean_form {N : ℕ} (E : EigData N) {c : Fin N → Fin N} (hc : E.IsConj c) {dt : ℝ} (remove : Bool)
    (hlam : ∀ k, (remove = true → ‖E.lamb k‖ ≤ 1) → 0 < (E.lamb k).re ∨ 1e-15 ≤ |(E.lamb k).im| ∨ (E.lamb k).re < 0 ∧ (E.lamb k).im = 0)
    {r : ℕ} {A : Mat ℝ r r} (h : cleanEigenvalues E dt remove = .ok ⟨r, A⟩) :
    ∃ (p s : ℕ) (g : Fin r ≃ Fin p ⊕ Fin s) (W : Matrix (Fin p ⊕ Fin s) (Fin p ⊕ Fin s) ℂ) (f : Fin p ⊕ Fin s → Fin N)
      (D : Fin p ⊕ Fin s → ℂ), IsUnit W.det ∧ (A.map Complex.ofReal).submatrix g.symm g.symm = W * diagonal D * W⁻¹ ∧
        (∀ x, remove = true → ‖E.lamb (f x)‖ ≤ 1) ∧
        ∀ x, D x = Complex.log (E.lamb (f x)) / dt ∨ D x = (starRingEnd ℂ) (Complex.log (E.lamb (f x)) / dt) := by
  have hkept : ∀ j : Fin (E.kept remove).length, remove = true → ‖E.lamb ((E.kept remove).get j)‖ ≤ 1 := by
    intro j hr
    have := (List.mem_filter.1 (List.get_mem (E.kept remove) j)).2
    subst hr
    simpa using this
  have hmemk : ∀ k, (remove = true → ‖E.lamb k‖ ≤ 1) → k ∈ E.kept remove := by
    intro k hk
    rw [EigData.kept, List.mem_filter]
    refine ⟨List.mem_finRange k, ?_⟩
    cases remove with
    | false => rfl
    | true => simpa using hk rfl
  have hex : ∀ j : Fin (E.kept remove).length, ∃ j', (E.kept remove).get j' = c ((E.kept remove).get j) := by
    intro j
    refine List.mem_iff_get.1 (hmemk _ fun hr => ?_)
    rw [hc.lamb, RCLike.norm_conj]
    exact hkept j hr
  choose τ hτ using hex
  have hmem : ∀ k, k ∈ duplicated (fun k => E.lamb ((E.kept remove).get k)) ↔
      (E.lamb ((E.kept remove).get k)).re < 0 ∧ (E.lamb ((E.kept remove).get k)).im = 0 := by
    intro k
    rw [duplicated, List.mem_filter, decide_eq_true_eq]
    refine ⟨fun h => ?_, fun h => ⟨List.mem_finRange k, ?_, Or.inl h.1⟩⟩
    · rcases hlam ((E.kept remove).get k) (hkept k) with h' | h' | h'
      · rcases h.2.2 with h2 | h2 <;> exfalso <;> linarith [h2]
      · exact absurd h.2.1 (not_lt.2 h')
      · exact h'
    · rw [h.2]; norm_num
  have hnodup : (duplicated (fun k => E.lamb ((E.kept remove).get k))).Nodup := (List.nodup_finRange _).filter _
  unfold cleanEigenvalues at h
  simp only at h
  generalize hDl : duplicated (fun k => E.lamb ((E.kept remove).get k)) = Dl at hmem hnodup h
  generalize (fun k => if ∀ k, (E.lamb k).im = 0 then 0 else
    (SignType.sign (Complex.log (E.lamb ((E.kept remove).get k)) / dt).im : ℝ) : Fin (E.kept remove).length → ℝ) = sg at h
  obtain ⟨V, hV⟩ : ∃ V : Mat ℂ (E.kept remove).length (E.kept remove).length,
    V = fun (i k : Fin (E.kept remove).length) => if h : i.val < N then E.vect ⟨i, h⟩ ((E.kept remove).get k) else 0 := ⟨_, rfl⟩
  rw [← hV] at h
  split at h
  case isFalse => exact absurd h (by simp)
  case isTrue hdet =>
    have hinj : Function.Injective Dl.get := List.nodup_iff_injective_get.1 hnodup
    have hdm : ∀ a, (E.lamb ((E.kept remove).get (Dl.get a))).re < 0 ∧ (E.lamb ((E.kept remove).get (Dl.get a))).im = 0 :=
      fun a => (hmem _).1 (List.get_mem _ _)
    have hnd : ∀ k, (∀ a, Dl.get a ≠ k) ↔ ¬ ((E.lamb ((E.kept remove).get k)).re < 0 ∧ (E.lamb ((E.kept remove).get k)).im = 0) := by
      intro k
      rw [← hmem, List.mem_iff_get]
      push Not
      rfl
    have hreal := newVect_real_perm (V := V) hinj hdet (τ := τ) (fun i k => by
        rw [hV]
        by_cases hi : i.val < N
        · simp only [dif_pos hi, hτ, hc.vect]
        · simp only [dif_neg hi, map_zero])
      (fun a i => by
        rw [hV]
        by_cases hi : i.val < N
        · simp only [dif_pos hi]
          have := hc.vect ⟨i, hi⟩ ((E.kept remove).get (Dl.get a))
          rw [hc.real _ (hdm a).2] at this
          exact Complex.conj_eq_iff_im.1 this.symm
        · simp only [dif_neg hi, Complex.zero_im])
      (fun k hk => by
        rw [hnd] at hk ⊢
        rw [hτ, hc.lamb]
        simpa using hk)
      (lg := fun k => Complex.log (E.lamb ((E.kept remove).get k)) / dt) (fun k hk => by
        rw [hnd] at hk
        rw [hτ, hc.lamb, Complex.log_conj, map_div₀, Complex.conj_ofReal]
        intro harg
        rw [Complex.arg_eq_pi_iff] at harg
        exact hk harg)
    rw [Except.ok.injEq] at h
    obtain ⟨rfl, h⟩ := Sigma.mk.inj h
    rw [heq_eq_eq] at h
    refine ⟨_, _, finSumFinEquiv.symm, _, Sum.elim (fun k => (E.kept remove).get k) fun a => (E.kept remove).get (Dl.get a),
      newLog (fun k => E.lamb ((E.kept remove).get k)) dt Dl.get, hdet, ?_, ?_, ?_⟩
    · rw [← h]
      conv_rhs => rw [newLog, ← hreal]
      ext x y
      simp [newLog]
    · intro x
      rcases x with k | a
      · exact hkept k
      · exact hkept (Dl.get a)
    · intro x
      rcases x with k | a
      · exact .inl rfl
      · exact .inr rfl

end Verif
