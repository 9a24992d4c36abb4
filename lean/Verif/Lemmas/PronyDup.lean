import Verif.Lemmas.PronyExp

/-!
# Duplicated eigenvalues
-/

namespace Verif

open Finset Matrix

variable {m q : ℕ}

section
variable (V : Mat ℂ m m) (dup : Fin q → Fin m) (sg : Fin m → ℝ)

theorem newVect_ll (i k : Fin m) : newVect V dup sg (Sum.inl i) (Sum.inl k) = V i k := rfl

theorem newVect_lr (i : Fin m) (a : Fin q) : newVect V dup sg (Sum.inl i) (Sum.inr a) = V i (dup a) := rfl

theorem newVect_rl (a : Fin q) (k : Fin m) :
    newVect V dup sg (Sum.inr a) (Sum.inl k) = if k = dup a then Complex.I * sg k else 0 := rfl

theorem newVect_rr (a c : Fin q) :
    newVect V dup sg (Sum.inr a) (Sum.inr c) = if a = c then -Complex.I * sg (dup a) else 0 := rfl

end

/-- The matrix of the eigenvectors with duplicated columns is invertible. -/
theorem newVect_unit {V : Mat ℂ m m} (hV : IsUnit V.det) {dup : Fin q → Fin m} (hinj : Function.Injective dup) {sg : Fin m → ℝ}
    (hsg : ∀ a, sg (dup a) ≠ 0) : IsUnit (newVect V dup sg).det := by
  rw [isUnit_iff_ne_zero]
  intro h0
  obtain ⟨w, hw, hz⟩ := exists_mulVec_eq_zero_iff.2 h0
  refine hw ?_
  have hsum : ∀ f : Fin m ⊕ Fin q → ℂ, ∑ x, f x = ∑ k, f (Sum.inl k) + ∑ a, f (Sum.inr a) := fun f => Fintype.sum_sum_type f
  have hbot : ∀ a, w (Sum.inl (dup a)) = w (Sum.inr a) := by
    intro a
    have h := congrFun hz (Sum.inr a)
    have hI : Complex.I * (sg (dup a) : ℂ) ≠ 0 := mul_ne_zero Complex.I_ne_zero (by exact_mod_cast hsg a)
    simp only [mulVec, dotProduct, hsum, newVect_rl, newVect_rr, Pi.zero_apply,
      ite_mul, zero_mul, Finset.sum_ite_eq, Finset.mem_univ, if_true, Finset.sum_ite_eq'] at h
    have : Complex.I * (sg (dup a) : ℂ) * (w (Sum.inl (dup a)) - w (Sum.inr a)) = 0 := by rw [← h]; ring
    exact sub_eq_zero.1 ((mul_eq_zero.1 this).resolve_left hI)
  have htop : V *ᵥ (fun k => w (Sum.inl k) + ∑ a, if dup a = k then w (Sum.inr a) else 0) = 0 := by
    funext i
    have h := congrFun hz (Sum.inl i)
    simp only [mulVec, dotProduct, hsum, newVect_ll, newVect_lr, Pi.zero_apply] at h ⊢
    refine Eq.trans ?_ h
    simp only [mul_add, Finset.sum_add_distrib, Finset.mul_sum, mul_ite, mul_zero]
    rw [Finset.sum_comm (s := univ (α := Fin m))]
    simp
  have hk : (fun k => w (Sum.inl k) + ∑ a, if dup a = k then w (Sum.inr a) else 0) = 0 := by
    by_contra hne
    exact (isUnit_iff_ne_zero.1 hV) (exists_mulVec_eq_zero_iff.1 ⟨_, hne, htop⟩)
  have hr : ∀ a, w (Sum.inr a) = 0 := by
    intro a
    have h := congrFun hk (dup a)
    simp only [Pi.zero_apply] at h
    rw [Finset.sum_eq_single a (fun a' _ hne => if_neg fun e => hne (hinj e)) (by simp), if_pos rfl, hbot] at h
    have : (2 : ℂ) * w (Sum.inr a) = 0 := by rw [← h]; ring
    exact (mul_eq_zero.1 this).resolve_left two_ne_zero
  funext x
  rcases x with k | a
  · have h := congrFun hk k
    simpa [hr] using h
  · exact hr a

/-- The first block acts as the matrix of the eigenvectors. -/
theorem newVect_block {V : Mat ℂ m m} (hV : IsUnit V.det) {J : Mat ℂ m m} {l : Fin m → ℂ} (hJ : J * V = V * diagonal l)
    {dup : Fin q → Fin m} (hinj : Function.Injective dup) {sg : Fin m → ℝ} (hsg : ∀ a, sg (dup a) ≠ 0) (k : ℕ) (i j : Fin m) :
    (newVect V dup sg * diagonal (fun x => Sum.elim l (l ∘ dup) x ^ k) * (newVect V dup sg)⁻¹) (Sum.inl i) (Sum.inl j) = (J ^ k) i j := by
  obtain ⟨W, hW⟩ : ∃ W, W = newVect V dup sg := ⟨_, rfl⟩
  have hu : IsUnit W.det := hW ▸ newVect_unit hV hinj hsg
  -- the embedding of the first block
  let P : Matrix (Fin m ⊕ Fin q) (Fin m) ℂ := fun x k => if x = Sum.inl k then 1 else 0
  let R : Matrix (Fin m ⊕ Fin q) (Fin m) ℂ := fun x k => Sum.elim (fun i => if i = k then (if ∃ a, dup a = k then 1 / 2 else 1) else 0)
    (fun a => if dup a = k then 1 / 2 else 0) x
  have hR : W * R = P * V := by
    ext x k
    rw [mul_apply, mul_apply, Fintype.sum_sum_type]
    simp only [R, P, Sum.elim_inl, Sum.elim_inr, mul_ite, mul_zero, Finset.sum_ite_eq', Finset.mem_univ, if_true, hW]
    by_cases hk : ∃ a, dup a = k
    · obtain ⟨a, rfl⟩ := hk
      rw [if_pos ⟨a, rfl⟩, Finset.sum_eq_single a (fun a' _ hne => if_neg fun e => hne (hinj e)) (by simp), if_pos rfl]
      rcases x with i | c
      · simp [newVect_ll, newVect_lr]
        ring
      · simp only [newVect_rl, newVect_rr, reduceCtorEq, if_false, zero_mul,
          Finset.sum_const_zero]
        by_cases hc : c = a
        · subst hc; simp
        · rw [if_neg (fun e => hc (hinj e).symm), if_neg hc]; ring
    · rw [if_neg hk, Finset.sum_eq_zero (fun a _ => if_neg fun e => hk ⟨a, e⟩)]
      rcases x with i | c
      · simp [newVect_ll]
      · simp only [newVect_rl, reduceCtorEq, if_false, zero_mul, Finset.sum_const_zero]
        rw [if_neg (fun e => hk ⟨c, e.symm⟩)]; ring
  have hdR : ∀ k : ℕ, diagonal (fun x => Sum.elim l (l ∘ dup) x ^ k) * R = R * diagonal fun i => l i ^ k := by
    intro k
    ext x j
    rw [diagonal_mul, mul_diagonal]
    rcases x with i | a
    · simp only [R, Sum.elim_inl]
      by_cases h : i = j
      · rw [h]; ring
      · rw [if_neg h]; ring
    · simp only [R, Sum.elim_inr, Function.comp]
      by_cases h : dup a = j
      · rw [h]; ring
      · rw [if_neg h]; ring
  have hJk : J ^ k * V = V * diagonal fun i => l i ^ k := by
    induction k with
    | zero => simp
    | succ k ih =>
      rw [pow_succ, Matrix.mul_assoc, hJ, ← Matrix.mul_assoc, ih, Matrix.mul_assoc, diagonal_mul_diagonal]
      congr 2
  have hmain : W * diagonal (fun x => Sum.elim l (l ∘ dup) x ^ k) * W⁻¹ * P = P * J ^ k := by
    have hVu : V * V⁻¹ = 1 := mul_nonsing_inv V hV
    have h1 : W⁻¹ * P * V = R := by
      rw [Matrix.mul_assoc, ← hR, ← Matrix.mul_assoc, nonsing_inv_mul W hu, Matrix.one_mul]
    have h2 : W * diagonal (fun x => Sum.elim l (l ∘ dup) x ^ k) * W⁻¹ * P * V = P * J ^ k * V := by
      rw [Matrix.mul_assoc (W * _) W⁻¹ P, Matrix.mul_assoc (W * _) _ V, h1, Matrix.mul_assoc, hdR, ← Matrix.mul_assoc, hR,
        Matrix.mul_assoc, ← hJk, Matrix.mul_assoc]
    calc _ = W * diagonal (fun x => Sum.elim l (l ∘ dup) x ^ k) * W⁻¹ * P * V * V⁻¹ := by
          rw [Matrix.mul_assoc _ V, hVu, Matrix.mul_one]
      _ = _ := by rw [h2, Matrix.mul_assoc _ V, hVu, Matrix.mul_one]
  have := congrFun (congrFun hmain (Sum.inl i)) j
  rw [mul_apply, mul_apply] at this
  rw [← hW]
  simpa [P] using this

/-- The logarithm with duplicated eigenvalues is real. -/
theorem newVect_real {J : Mat ℝ m m} {V : Mat ℂ m m} (hV : IsUnit V.det) {l : Fin m → ℂ}
    (hJ : (J.map Complex.ofReal) * V = V * diagonal l) {dup : Fin q → Fin m} (hinj : Function.Injective dup) {sg : Fin m → ℝ}
    (hsg : ∀ a, sg (dup a) ≠ 0) (hre : ∀ a i, (V i (dup a)).im = 0) (hreal : ∀ a, (l (dup a)).im = 0)
    (hdup : ∀ k a, l (dup a) = l k → ∃ a', dup a' = k) {lg : Fin m → ℂ}
    (hlg : ∀ i j, (∀ a, dup a ≠ j) → l i = (starRingEnd ℂ) (l j) → lg i = (starRingEnd ℂ) (lg j)) :
    (((newVect V dup sg * diagonal (Sum.elim lg fun a => (starRingEnd ℂ) (lg (dup a))) * (newVect V dup sg)⁻¹).map Complex.re).map
        Complex.ofReal : Matrix (Fin m ⊕ Fin q) (Fin m ⊕ Fin q) ℂ) =
      newVect V dup sg * diagonal (Sum.elim lg fun a => (starRingEnd ℂ) (lg (dup a))) * (newVect V dup sg)⁻¹ := by
  obtain ⟨W, hW⟩ : ∃ W, W = newVect V dup sg := ⟨_, rfl⟩
  obtain ⟨D, hD⟩ : ∃ D : Fin m ⊕ Fin q → ℂ, D = Sum.elim lg fun a => (starRingEnd ℂ) (lg (dup a)) := ⟨_, rfl⟩
  rw [← hW, ← hD]
  have hu : IsUnit W.det := hW ▸ newVect_unit hV hinj hsg
  have hVi : V⁻¹ * V = 1 := nonsing_inv_mul V hV
  have hVi' : V * V⁻¹ = 1 := mul_nonsing_inv V hV
  have cJ : (J.map Complex.ofReal).map (starRingEnd ℂ) = J.map Complex.ofReal := by
    ext i j; simp
  have h1 : J.map Complex.ofReal * V.map (starRingEnd ℂ) = V.map (starRingEnd ℂ) * diagonal fun k => (starRingEnd ℂ) (l k) := by
    have := congrArg (fun M : Mat ℂ m m => M.map (starRingEnd ℂ)) hJ
    rw [Matrix.map_mul, Matrix.map_mul, cJ, diagonal_map (map_zero _)] at this
    exact this
  obtain ⟨T, hT⟩ : ∃ T : Mat ℂ m m, T = V⁻¹ * V.map (starRingEnd ℂ) := ⟨_, rfl⟩
  have hVT : V * T = V.map (starRingEnd ℂ) := by rw [hT, ← Matrix.mul_assoc, hVi', Matrix.one_mul]
  have h2 : diagonal l * T = T * diagonal fun k => (starRingEnd ℂ) (l k) := by
    rw [hT, Matrix.mul_assoc V⁻¹, ← h1, ← Matrix.mul_assoc V⁻¹, ← Matrix.mul_assoc]
    congr 1
    calc diagonal l * V⁻¹ = V⁻¹ * (V * diagonal l) * V⁻¹ := by rw [← Matrix.mul_assoc V⁻¹, hVi, Matrix.one_mul]
      _ = V⁻¹ * J.map Complex.ofReal := by rw [← hJ, Matrix.mul_assoc, Matrix.mul_assoc, hVi', Matrix.mul_one]
  have hT0 : ∀ i j, T i j ≠ 0 → l i = (starRingEnd ℂ) (l j) := by
    intro i j hne
    have := congrFun (congrFun h2 i) j
    rw [diagonal_mul, mul_diagonal, mul_comm] at this
    exact mul_left_cancel₀ hne this
  -- the columns of the conjugate in terms of the columns
  let Q : Matrix (Fin m ⊕ Fin q) (Fin m ⊕ Fin q) ℂ := fun x y => Sum.elim
    (fun k => if ∃ a, dup a = k then Sum.elim (fun _ => 0) (fun a => if dup a = k then 1 else 0) x else Sum.elim (fun i => T i k) (fun _ => 0) x)
    (fun a => Sum.elim (fun i => if dup a = i then 1 else 0) (fun _ => 0) x) y
  have hconj : ∀ a i, (starRingEnd ℂ) (V i (dup a)) = V i (dup a) := fun a i => Complex.conj_eq_iff_im.2 (hre a i)
  have hQ : W * Q = W.map (starRingEnd ℂ) := by
    ext x y
    rw [mul_apply, Fintype.sum_sum_type, map_apply]
    rcases y with k | a
    · by_cases hk : ∃ a, dup a = k
      · simp only [Q, Sum.elim_inl, Sum.elim_inr, if_pos hk, mul_zero, Finset.sum_const_zero, zero_add, mul_ite, mul_one]
        obtain ⟨a, rfl⟩ := hk
        rw [Finset.sum_eq_single a (fun a' _ hne => if_neg fun e => hne (hinj e)) (by simp), if_pos rfl, hW]
        rcases x with i | c'
        · simp [newVect_ll, newVect_lr, hconj]
        · simp only [newVect_rl, newVect_rr]
          by_cases hc : c' = a
          · subst hc; simp
          · rw [if_neg hc, if_neg (fun e => hc (hinj e).symm)]; simp
      · simp only [Q, Sum.elim_inl, Sum.elim_inr, if_neg hk, mul_zero, Finset.sum_const_zero, add_zero, hW]
        rcases x with i | c'
        · simp only [newVect_ll]
          have := congrFun (congrFun hVT i) k
          rwa [mul_apply, map_apply] at this
        · simp only [newVect_rl, ite_mul, zero_mul, Finset.sum_ite_eq', Finset.mem_univ, if_true]
          rw [if_neg (fun e => hk ⟨c', e.symm⟩), map_zero]
          by_cases hz : T (dup c') k = 0
          · rw [hz, mul_zero]
          · exfalso
            have e := hT0 _ _ hz
            have e2 : l (dup c') = l k := by
              have := congrArg (starRingEnd ℂ) e
              rw [Complex.conj_conj, Complex.conj_eq_iff_im.2 (hreal c')] at this
              exact this
            exact hk (hdup k c' e2)
    · simp only [Q, Sum.elim_inl, Sum.elim_inr, mul_zero, Finset.sum_const_zero, add_zero, mul_ite, mul_one,
        Finset.sum_ite_eq, Finset.mem_univ, if_true, hW]
      rcases x with i | c'
      · simp [newVect_ll, newVect_lr, hconj]
      · simp only [newVect_rl, newVect_rr]
        by_cases hc : c' = a
        · subst hc; simp
        · rw [if_neg hc, if_neg (fun e => hc (hinj e).symm)]; simp
  have hDQ : diagonal D * Q = Q * diagonal fun x => (starRingEnd ℂ) (D x) := by
    ext x y
    rw [diagonal_mul, mul_diagonal]
    have key : Q x y ≠ 0 → D x = (starRingEnd ℂ) (D y) := by
      intro hne
      rw [hD]
      rcases y with k | a
      · by_cases hk : ∃ a, dup a = k
        · simp only [Q, Sum.elim_inl, if_pos hk] at hne
          rcases x with i | a
          · simp at hne
          · simp only [Sum.elim_inr, ne_eq, ite_eq_right_iff, one_ne_zero, imp_false, not_not] at hne
            simp [hne]
        · simp only [Q, Sum.elim_inl, if_neg hk] at hne
          rcases x with i | a
          · exact hlg i k (fun a e => hk ⟨a, e⟩) (hT0 i k hne)
          · simp at hne
      · simp only [Q, Sum.elim_inr] at hne
        rcases x with i | a'
        · simp only [Sum.elim_inl, ne_eq, ite_eq_right_iff, one_ne_zero, imp_false, not_not] at hne
          simp [hne]
        · simp at hne
    by_cases hz : Q x y = 0
    · rw [hz]; ring
    · rw [key hz, mul_comm]
  have hcW : W.map (starRingEnd ℂ) * W⁻¹.map (starRingEnd ℂ) = 1 := by
    rw [← Matrix.map_mul, mul_nonsing_inv W hu]
    ext i j; simp only [map_apply, one_apply]; split <;> simp
  have h4 : (W * diagonal D * W⁻¹).map (starRingEnd ℂ) = W * diagonal D * W⁻¹ := by
    rw [Matrix.map_mul, Matrix.map_mul, diagonal_map (map_zero _)]
    have e : W * diagonal D * W⁻¹ * W.map (starRingEnd ℂ) = W.map (starRingEnd ℂ) * diagonal fun x => (starRingEnd ℂ) (D x) := by
      rw [← hQ, ← Matrix.mul_assoc, Matrix.mul_assoc _ W⁻¹ W, nonsing_inv_mul W hu, Matrix.mul_one, Matrix.mul_assoc, hDQ,
        Matrix.mul_assoc]
    rw [← e, Matrix.mul_assoc _ _ (W⁻¹.map _), hcW, Matrix.mul_one]
  ext i j
  have := congrFun (congrFun h4 i) j
  exact Complex.conj_eq_iff_re.1 this

section
attribute [local instance] Matrix.linftyOpNormedRing Matrix.linftyOpNormedAlgebra

/-- The exponential of a real matrix, seen as a complex one with other indices. -/
theorem exp_reindex_type {ι : Type} [Fintype ι] [DecidableEq ι] {r : ℕ} (g : Fin r ≃ ι) (A : Mat ℝ r r) (i j : Fin r) :
    (((NormedSpace.exp A : Mat ℝ r r) i j : ℝ) : ℂ) =
      (NormedSpace.exp ((A.map Complex.ofReal).submatrix g.symm g.symm) : Matrix ι ι ℂ) (g i) (g j) := by
  let f : Matrix (Fin r) (Fin r) ℝ →+* Matrix ι ι ℂ :=
    (Matrix.reindexAlgEquiv ℂ ℂ g : Matrix (Fin r) (Fin r) ℂ →+* Matrix ι ι ℂ).comp
      (RingHom.mapMatrix Complex.ofRealHom)
  have hf : Continuous f := by
    refine continuous_matrix fun i j => ?_
    exact Complex.continuous_ofReal.comp ((continuous_apply _).comp (continuous_apply _))
  have h2 := congrFun (congrFun (NormedSpace.map_exp f hf A) (g i)) (g j)
  have h3 : f (NormedSpace.exp A) (g i) (g j) = ((NormedSpace.exp A : Mat ℝ r r) i j : ℝ) := by
    show (((NormedSpace.exp A : Mat ℝ r r) (g.symm (g i)) (g.symm (g j)) : ℝ) : ℂ) = _
    simp
  exact h3.symm.trans h2

end

/-- The exponential of a matrix given by its eigenvalues. -/
theorem exp_diag_pow {ι : Type} [Fintype ι] [DecidableEq ι] {W : Matrix ι ι ℂ} (hW : IsUnit W.det) {D l : ι → ℂ} {dt : ℝ}
    (hD : ∀ x, Complex.exp (dt * D x) = l x) (k : ℕ) :
    (NormedSpace.exp (((k * dt : ℝ) : ℂ) • (W * diagonal D * W⁻¹)) : Matrix ι ι ℂ) = W * diagonal (fun x => l x ^ k) * W⁻¹ := by
  have e1 : ((k * dt : ℝ) : ℂ) • (W * diagonal D * W⁻¹) = W * diagonal (((k * dt : ℝ) : ℂ) • D) * W⁻¹ := by
    rw [diagonal_smul, Matrix.mul_smul, Matrix.smul_mul]
  rw [e1, Matrix.exp_conj _ _ ((isUnit_iff_isUnit_det W).2 hW), Matrix.exp_diagonal]
  have e2 : (NormedSpace.exp (((k * dt : ℝ) : ℂ) • D) : ι → ℂ) = fun i => l i ^ k := by
    funext i
    rw [Pi.coe_exp]
    rw [← Complex.exp_eq_exp_ℂ, ← hD i, ← Complex.exp_nat_mul]
    congr 1
    simp only [Pi.smul_apply, smul_eq_mul]
    push_cast; ring
  rw [e2]

/-- The cleaning of eigenvalues of which none has to be removed and the negative ones are duplicated: powers of the
matrix are given back by the first block of the exponential. -/
theorem clean_spec_dup {N : ℕ} (E : EigData N) (J : Mat ℝ N N) (hE : E.IsEig J) {dt : ℝ} (hdt : dt ≠ 0) (remove : Bool)
    (hlam : ∀ k, 0 < (E.lamb k).re ∨ 1e-15 ≤ |(E.lamb k).im| ∨ (E.lamb k).re < 0 ∧ (E.lamb k).im = 0 ∧ ∀ i, (E.vect i k).im = 0)
    (hcx : ∃ k, (E.lamb k).im ≠ 0) (hrem : remove = true → ∀ k, ‖E.lamb k‖ ≤ 1) :
    ∃ (m : ℕ) (A : Mat ℝ m m) (hm : N ≤ m), cleanEigenvalues E dt remove = .ok ⟨m, A⟩ ∧
      ∀ (k : ℕ) (i j : Fin N), (NormedSpace.exp ((k * dt : ℝ) • A) : Mat ℝ m m) (Fin.castLE hm i) (Fin.castLE hm j) = (J ^ k) i j := by
  have hkept : E.kept remove = List.finRange N := by
    rw [EigData.kept, List.filter_eq_self]
    intro k _
    cases remove with
    | false => rfl
    | true => simpa using hrem rfl k
  have hlen : (E.kept remove).length = N := by rw [hkept, List.length_finRange]
  have hval : ∀ k : Fin (E.kept remove).length, ((E.kept remove).get k).val = k.val := by
    rw [hkept]; intro k; simp
  let e : Fin (E.kept remove).length ≃ Fin N := finCongr hlen
  have he : ∀ k, (E.kept remove).get k = e k := fun k => Fin.ext (by rw [hval]; rfl)
  have hmem : ∀ k, k ∈ duplicated (fun k => E.lamb ((E.kept remove).get k)) ↔
      (E.lamb (e k)).re < 0 ∧ (E.lamb (e k)).im = 0 ∧ ∀ i, (E.vect i (e k)).im = 0 := by
    intro k
    rw [duplicated, List.mem_filter, decide_eq_true_eq, he]
    refine ⟨fun h => ?_, fun h => ⟨List.mem_finRange k, ?_, Or.inl h.1⟩⟩
    · rcases hlam (e k) with h' | h' | h'
      · rcases h.2.2 with h2 | h2 <;> exfalso <;> linarith [h2]
      · exact absurd h.2.1 (not_lt.2 h')
      · exact h'
    · rw [h.2.1]; norm_num
  have hnodup : (duplicated (fun k => E.lamb ((E.kept remove).get k))).Nodup := (List.nodup_finRange _).filter _
  unfold cleanEigenvalues
  simp only
  generalize hDl : duplicated (fun k => E.lamb ((E.kept remove).get k)) = Dl at hmem hnodup
  obtain ⟨sg, hsg⟩ : ∃ sg : Fin (E.kept remove).length → ℝ, sg = fun k => if ∀ k, (E.lamb k).im = 0 then 0 else
    (SignType.sign (Complex.log (E.lamb ((E.kept remove).get k)) / dt).im : ℝ) := ⟨_, rfl⟩
  rw [← hsg]
  have hV : (fun i k => if h : i.val < N then E.vect ⟨i, h⟩ ((E.kept remove).get k) else 0 :
      Mat ℂ (E.kept remove).length (E.kept remove).length) = E.vect.submatrix e e := by
    ext i k
    rw [dif_pos (by have := i.2; omega), he]
    rfl
  rw [hV]
  have hVu : IsUnit (E.vect.submatrix e e).det := by rw [det_submatrix_equiv_self]; exact hE.unit
  have hJV : ((J.submatrix e e).map Complex.ofReal) * E.vect.submatrix e e = E.vect.submatrix e e * diagonal (fun k => E.lamb (e k)) := by
    have := congrArg (fun M => M.submatrix e e) hE.eq
    rw [← submatrix_mul_equiv _ _ e e e, ← submatrix_mul_equiv _ _ e e e, submatrix_diagonal_equiv] at this
    exact this
  have hinj : Function.Injective Dl.get := List.nodup_iff_injective_get.1 hnodup
  have hdm : ∀ a, (E.lamb (e (Dl.get a))).re < 0 ∧ (E.lamb (e (Dl.get a))).im = 0 ∧ ∀ i, (E.vect i (e (Dl.get a))).im = 0 :=
    fun a => (hmem _).1 (List.get_mem _ _)
  have hpi : ∀ a, (Complex.log (E.lamb (e (Dl.get a))) / dt).im = Real.pi / dt := by
    intro a
    rw [Complex.div_ofReal_im, Complex.log_im, Complex.arg_eq_pi_iff.2 ⟨(hdm a).1, (hdm a).2.1⟩]
  have hsg0 : ∀ a, sg (Dl.get a) ≠ 0 := by
    intro a
    rw [hsg]
    simp only
    rw [if_neg (by push Not; exact hcx), he, hpi]
    have : Real.pi / dt ≠ 0 := div_ne_zero Real.pi_ne_zero hdt
    rcases this.lt_or_gt with h | h
    · rw [sign_neg h]; simp
    · rw [sign_pos h]; simp
  have hdet := newVect_unit hVu hinj hsg0
  have hlogeq : newLog (fun k => E.lamb ((E.kept remove).get k)) dt Dl.get =
      Sum.elim (fun k => Complex.log (E.lamb (e k)) / dt) fun a => (starRingEnd ℂ) (Complex.log (E.lamb (e (Dl.get a))) / dt) := by
    unfold newLog
    simp only [he]
  rw [hlogeq, if_pos hdet]
  have hreal := newVect_real hVu hJV hinj hsg0 (fun a i => (hdm a).2.2 (e i)) (fun a => (hdm a).2.1)
    (fun k a h => by
      have h1 : k ∈ Dl := (hmem k).2 (by
        rcases hlam (e k) with h' | h' | h'
        · rw [← h] at h'; linarith [(hdm a).1]
        · rw [← h, (hdm a).2.1] at h'; norm_num at h'
        · exact h')
      obtain ⟨a', ha'⟩ := List.mem_iff_get.1 h1
      exact ⟨a', ha'⟩)
    (lg := fun k => Complex.log (E.lamb (e k)) / dt) (fun i j hj hij => by
      rw [hij, Complex.log_conj, map_div₀, Complex.conj_ofReal]
      intro harg
      rw [Complex.arg_eq_pi_iff] at harg
      have h1 : j ∈ Dl := (hmem j).2 (by
        rcases hlam (e j) with h | h | h
        · linarith [harg.1]
        · rw [harg.2] at h; norm_num at h
        · exact h)
      obtain ⟨a', ha'⟩ := List.mem_iff_get.1 h1
      exact hj a' ha')
  have hne : ∀ k, E.lamb k ≠ 0 := by
    intro k hz
    rcases hlam k with h | h | h
    · rw [hz] at h; exact lt_irrefl _ h
    · rw [hz] at h; norm_num at h
    · have := h.1; rw [hz] at this; exact lt_irrefl _ this
  have hdt' : (dt : ℂ) ≠ 0 := by exact_mod_cast hdt
  have hexp : ∀ x, Complex.exp (dt * Sum.elim (fun k => Complex.log (E.lamb (e k)) / (dt : ℂ))
      (fun a => (starRingEnd ℂ) (Complex.log (E.lamb (e (Dl.get a))) / dt)) x) =
        Sum.elim (fun k => E.lamb (e k)) ((fun k => E.lamb (e k)) ∘ Dl.get) x := by
    intro x
    rcases x with k | a
    · simp only [Sum.elim_inl]
      rw [mul_div_cancel₀ _ hdt', Complex.exp_log (hne _)]
    · simp only [Sum.elim_inr, Function.comp]
      rw [map_div₀, Complex.conj_ofReal, mul_div_cancel₀ _ hdt', Complex.exp_conj, Complex.exp_log (hne _)]
      exact Complex.conj_eq_iff_im.2 (hdm a).2.1
  refine ⟨_, _, hlen.symm.le.trans (Nat.le_add_right _ _), rfl, fun k i j => ?_⟩
  apply Complex.ofReal_injective
  rw [exp_reindex_type (finSumFinEquiv (m := (E.kept remove).length) (n := Dl.length)).symm]
  obtain ⟨B, hB⟩ : ∃ B, B = newVect (E.vect.submatrix e e) Dl.get sg * diagonal (Sum.elim (fun k => Complex.log (E.lamb (e k)) / (dt : ℂ))
      fun a => (starRingEnd ℂ) (Complex.log (E.lamb (e (Dl.get a))) / dt)) * (newVect (E.vect.submatrix e e) Dl.get sg)⁻¹ := ⟨_, rfl⟩
  rw [← hB] at hreal ⊢
  have e1 : ((((k * dt : ℝ) • (B.submatrix finSumFinEquiv.symm finSumFinEquiv.symm).map Complex.re).map Complex.ofReal).submatrix
      (finSumFinEquiv (m := (E.kept remove).length) (n := Dl.length)).symm.symm
      (finSumFinEquiv (m := (E.kept remove).length) (n := Dl.length)).symm.symm) = ((k * dt : ℝ) : ℂ) • B := by
    conv_rhs => rw [← hreal]
    ext x y
    simp
  have hi : ∀ (h : N ≤ (E.kept remove).length + Dl.length) (i : Fin N),
      finSumFinEquiv.symm (Fin.castLE h i) = (Sum.inl (e.symm i) : Fin (E.kept remove).length ⊕ Fin Dl.length) := by
    intro h i
    rw [Equiv.symm_apply_eq, finSumFinEquiv_apply_left]
    ext
    rfl
  rw [e1, hB, exp_diag_pow hdet hexp, hi, hi, newVect_block hVu hJV hinj hsg0]
  have e2 : ∀ k : ℕ, ((J.submatrix e e).map Complex.ofReal : Mat ℂ _ _) ^ k = ((J ^ k).submatrix e e).map Complex.ofReal := by
    intro k
    induction k with
    | zero => 
      ext a c
      by_cases h : a = c
      · subst h; simp
      · simp [h]
    | succ k ih =>
      rw [pow_succ, ih, pow_succ, ← submatrix_mul_equiv _ _ e e e]
      exact (Matrix.map_mul (f := Complex.ofRealHom)).symm
  rw [e2]
  simp

end Verif
