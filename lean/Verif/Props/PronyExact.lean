import Verif.Props.Prony
import Verif.Lemmas.PronyExact
import Verif.Lemmas.PronyExp

/-!
# C91 to C94: what the Prony fit recovers
-/

namespace Verif

open Finset Matrix

/-- The Hankel matrix of a series. -/
def hankelOf (y : ℕ → ℝ) (n : ℕ) : Mat ℝ (n + 1) (n + 1) := fun i j => y (i.val + j.val)

theorem hankelOf_eq (y : ℕ → ℝ) (n : ℕ) : (fun i j => hankelMat y n i j : Mat ℝ (n + 1) (n + 1)) = hankelOf y n := by
  funext i j; exact hankelMat_eq y n i j

/-! ## C91 -/

/-- **C91.** When no singular value is lost by the filter and as many vectors as non-zero singular values are found,
none of them with a last entry, the powers of the Jacobi matrix give back the series: the first entry of its `k`-th
power is `y[k]`, for every point of the Hankel matrix. -/
theorem C91_moments (y : Arr ℝ) (n : ℕ) (svd : Mat ℝ (n + 1) (n + 1) → HermSvd n) (eps t : ℝ) (L : Ldl n)
    (hS : (svd (hankelOf y.get n)).IsSvd (hankelOf y.get n)) (hsep : ∀ k, (svd (hankelOf y.get n)).s k ≤ t → (svd (hankelOf y.get n)).s k = 0)
    (hrank : ∃ k, (svd (hankelOf y.get n)).s k ≤ t) (ht : 0 < t) (ht1 : t ≤ 1) (hy0 : y.get 0 = 1)
    (h : ldlHankel y n svd eps (some t) none = .ok L)
    (hsize : L.size = (univ.filter fun k => (svd (hankelOf y.get n)).s k ≠ 0).card)
    (hlast : ∀ a, L.dlu a (Fin.last n) = 0) :
    ∃ h0 : 0 < L.size, ∀ k ≤ 2 * n, (L.jacobi ^ k) ⟨0, h0⟩ ⟨0, h0⟩ = y.get k := by
  have hcard : (univ.filter fun k => (svd (hankelOf y.get n)).s k ≠ 0) = univ.filter fun k => t < (svd (hankelOf y.get n)).s k := by
    ext k
    simp only [mem_filter, mem_univ, true_and]
    exact ⟨fun hk => by by_contra hc; exact hk (hsep k (not_lt.1 hc)), fun hk => (ht.trans hk).ne'⟩
  rw [hcard] at hsize
  set S := svd (hankelOf y.get n) with hSdef
  set N := (univ.filter fun k => t < S.s k).card with hN
  have hk : pronyKeep (svd fun i j => hankelMat y.get n i j) eps (some t) none = .ok (N, t) := by
    rw [hankelOf_eq]; exact pronyKeep_eq eps hrank
  obtain ⟨-, hH, hpos, -, ho, hsg⟩ := C72_orthogonal y n svd eps (some t) none N t L hk ht h
  rw [hankelOf_eq] at hH
  have hHank : L.H = hankelOf y.get n := by rw [hH]; exact HermSvd.filtered_eq hS hsep
  have hNle : N ≤ n := HermSvd.card_le hrank
  refine ⟨hpos, ?_⟩
  -- the first vector
  have hfirst : L.dlu ⟨0, hpos⟩ = Pi.single 0 1 ∧ L.sign ⟨0, hpos⟩ = 1 := by
    unfold ldlHankel at h
    by_cases hlen : y.len < 2 * n + 1
    · rw [if_pos hlen] at h; exact absurd h (by simp)
    rw [if_neg hlen] at h
    simp only [hk] at h
    rw [hankelOf_eq, ← hSdef, ← hH, hHank] at h
    have hr : List.finRange (n + 1) = 0 :: (List.finRange n).map Fin.succ := List.finRange_succ
    have hphi : phi (hankelOf y.get n) (Pi.single 0 1) (Pi.single 0 1) = 1 := by
      rw [phi_single]; exact hy0
    have hN0 : 0 < N := by omega
    have hpre : ∀ out, ldlLoop (hankelOf y.get n) N t (List.finRange (n + 1)) [] = .ok out → [Pi.single 0 1] <+: out := by
      intro out hout
      rw [hr, ldlLoop] at hout
      have e : orthogonalise (hankelOf y.get n) [] (Pi.single 0 1) = Pi.single 0 1 := rfl
      simp only [e, hphi, abs_one, ht1, if_true, List.length_nil, hN0, zero_add, List.nil_append] at hout
      by_cases hN1 : N ≤ 1
      · rw [if_pos hN1, Except.ok.injEq] at hout; subst hout; exact List.prefix_refl _
      · rw [if_neg hN1] at hout
        have hsymm : (hankelOf y.get n).IsSymm := by rw [← hHank, hH]; exact S.filtered_symm N
        refine (ldlLoop_frame hsymm ht _ _ _ ⟨by simp, ?_⟩ (by simp; omega) hout).2.2
        intro u hu
        obtain rfl : u = Pi.single 0 1 := by simpa using hu
        rw [hphi]; exact one_ne_zero
    cases hl : ldlLoop (hankelOf y.get n) N t (List.finRange (n + 1)) [] with
    | error e => rw [hl] at h; exact absurd h (by simp)
    | ok us =>
      rw [hl] at h
      obtain ⟨r, hus⟩ := hpre us hl
      subst hus
      simp only [ldlOut] at h
      rw [if_neg (by simp), Except.ok.injEq] at h
      subst h
      simp only [List.singleton_append, List.get_eq_getElem, List.getElem_cons_zero]
      rw [hphi]
      simp
  refine fun k hk => ?_
  have hN1 : L.size ≤ n + 1 := by omega
  rw [← hsize] at hH
  refine jacobi_pow (H := L.H) (fun i j => by rw [hHank]; rfl) L.dlu L.sign ⟨0, hpos⟩ hlast hfirst.2 ?_ ?_ L.jacobi ?_ k hk
  · intro a
    rw [← hfirst.1]
    rw [show phi L.H (L.dlu a) (L.dlu ⟨0, hpos⟩) = _ from ho a ⟨0, hpos⟩]
    by_cases ha : a = ⟨0, hpos⟩
    · rw [if_pos ha, if_pos ha, ha, hfirst.2]
    · rw [if_neg ha, if_neg ha]
  · intro v w
    rw [hH]
    refine S.complete hN1 L.dlu L.sign (fun a => ?_) (fun a b => ?_) v w
    · rcases hsg a with h | h <;> rw [h] <;> norm_num
    · rw [← hH]; exact ho a b
  · intro a b
    rw [Ldl.jacobi, mul_diagonal]
    congr 1
    rw [Matrix.mul_assoc, Matrix.mul_assoc, Matrix.mul_apply]
    refine sum_congr rfl fun i _ => ?_
    congr 1

/-! ## C92 -/

/-- The cleaning of eigenvalues of which none has to be removed or duplicated: the matrix is the logarithm. -/
theorem clean_spec {N : ℕ} (E : EigData N) (J : Mat ℝ N N) (hE : E.IsEig J) (dt : ℝ) (remove : Bool)
    (hlam : ∀ k, 0 < (E.lamb k).re ∨ 1e-15 ≤ |(E.lamb k).im|) (hrem : remove = true → ∀ k, ‖E.lamb k‖ ≤ 1) :
    ∃ (m : ℕ) (g : Fin m ≃ Fin N) (A : Mat ℝ m m), (∀ i, (g i).val = i.val) ∧ cleanEigenvalues E dt remove = .ok ⟨m, A⟩ ∧
      (A.map Complex.ofReal).submatrix g.symm g.symm = E.vect * diagonal (fun k => Complex.log (E.lamb k) / dt) * E.vect⁻¹ := by
  have hkept : E.kept remove = List.finRange N := by
    rw [EigData.kept, List.filter_eq_self]
    intro k _
    cases remove with
    | false => rfl
    | true => simpa using hrem rfl k
  have hlen : (E.kept remove).length = N := by rw [hkept, List.length_finRange]
  have hval : ∀ k : Fin (E.kept remove).length, ((E.kept remove).get k).val = k.val := by
    rw [hkept]; intro k; simp
  let e : Fin (E.kept remove).length ≃ Fin N := finCongr hlen
  have he : ∀ k, (E.kept remove).get k = e k := fun k => Fin.ext (by rw [hval]; rfl)
  have hdup : duplicated (fun k => E.lamb ((E.kept remove).get k)) = [] := by
    rw [duplicated, List.filter_eq_nil_iff]
    intro k _
    simp only [decide_eq_true_eq]
    rintro ⟨h1, h2⟩
    rcases hlam ((E.kept remove).get k) with h | h
    · rcases h2 with h2 | h2
      · exact absurd h (not_lt.2 h2.le)
      · exact absurd h (by rw [h2.1]; exact lt_irrefl _)
    · exact absurd h1 (not_lt.2 h)
  unfold cleanEigenvalues
  simp only
  generalize hD : duplicated (fun k => E.lamb ((E.kept remove).get k)) = D at hdup
  have hq : D.length = 0 := by rw [hdup]; rfl
  have hemp : IsEmpty (Fin D.length) := by rw [hq]; infer_instance
  let f : Fin (E.kept remove).length ⊕ Fin D.length ≃ Fin N := (Equiv.sumEmpty _ _).trans e
  have hf : ∀ k, f (Sum.inl k) = e k := fun k => rfl
  set sg : Fin (E.kept remove).length → ℝ := fun k => if ∀ k, (E.lamb k).im = 0 then 0 else
    (SignType.sign (Complex.log (E.lamb ((E.kept remove).get k)) / dt).im : ℝ)
  set V : Mat ℂ (E.kept remove).length (E.kept remove).length :=
    fun i k => if h : i.val < N then E.vect ⟨i, h⟩ ((E.kept remove).get k) else 0
  have hW : newVect V D.get sg = E.vect.submatrix f f := by
    ext i j
    rcases i with i | i
    · rcases j with j | j
      · show V i j = E.vect (e i) (e j)
        simp only [V]
        rw [dif_pos (by have := i.2; omega), he]
        rfl
      · exact (hemp.false j).elim
    · exact (hemp.false i).elim
  have hlog : newLog (fun k => E.lamb ((E.kept remove).get k)) dt D.get = (fun k => Complex.log (E.lamb k) / dt) ∘ f := by
    funext i
    rcases i with i | i
    · show Complex.log (E.lamb ((E.kept remove).get i)) / dt = _
      rw [he]; rfl
    · exact (hemp.false i).elim
  have hdet : IsUnit (newVect V D.get sg).det := by
    rw [hW, det_submatrix_equiv_self]; exact hE.unit
  have hlr := log_real J E.vect hE.unit E.lamb (fun k => Complex.log (E.lamb k) / dt) hE.eq (fun i j hij => by
    rw [hij, Complex.log_conj, map_div₀, Complex.conj_ofReal]
    intro harg
    rw [Complex.arg_eq_pi_iff] at harg
    rcases hlam j with h | h
    · linarith [harg.1]
    · rw [harg.2] at h; norm_num at h)
  refine ⟨_, finSumFinEquiv.symm.trans f, _, fun i => ?_, if_pos hdet, ?_⟩
  · obtain ⟨x, rfl⟩ := finSumFinEquiv.surjective i
    rcases x with x | x
    · show (f (finSumFinEquiv.symm (finSumFinEquiv (Sum.inl x)))).val = _
      rw [Equiv.symm_apply_apply, hf]
      rfl
    · exact (hemp.false x).elim
  · rw [hW, hlog]
    have e1 : E.vect.submatrix f f * diagonal ((fun k => Complex.log (E.lamb k) / dt) ∘ f) * (E.vect.submatrix f f)⁻¹ =
        (E.vect * diagonal (fun k => Complex.log (E.lamb k) / dt) * E.vect⁻¹).submatrix f f := by
      rw [inv_submatrix_equiv, ← submatrix_diagonal_equiv, submatrix_mul_equiv, submatrix_mul_equiv]
    rw [e1]
    conv_rhs => rw [← hlr]
    ext i j
    simp [submatrix_apply, map_apply]

/-- **C92.** In the conditions of C91, when the eigenvectors of the Jacobi matrix are independent and no eigenvalue
has to be removed or duplicated, the fitted series goes through the data: evaluated at the times `k dt` it is
`data[k]`, for every point up to the last odd length. -/
theorem C92_interpolates (data : Arr ℝ) (hd : 1 ≤ data.len) (h0 : data.get 0 ≠ 0) (dt : ℝ) (hdt : dt ≠ 0)
    (svd : (n : ℕ) → Mat ℝ (n + 1) (n + 1) → HermSvd n) (eig : (N : ℕ) → Mat ℝ N N → EigData N) (eps t : ℝ) (remove : Bool)
    (n : ℕ) (hn : n = hankelSize data.len) (H : Mat ℝ (n + 1) (n + 1)) (hH : H = fun i j => data.get (i.val + j.val) / data.get 0)
    (hS : (svd n H).IsSvd H) (hsep : ∀ k, (svd n H).s k ≤ t → (svd n H).s k = 0) (hrank : ∃ k, (svd n H).s k ≤ t)
    (ht : 0 < t) (ht1 : t ≤ 1) (L : Ldl n)
    (hL : ldlHankel ⟨data.len, fun i => data.get i / data.get 0⟩ n (svd n) eps (some t) none = .ok L)
    (hsize : L.size = (univ.filter fun k => (svd n H).s k ≠ 0).card) (hlast : ∀ a, L.dlu a (Fin.last n) = 0)
    (hE : (eig L.size L.jacobi).IsEig L.jacobi)
    (hlam : ∀ k, 0 < ((eig L.size L.jacobi).lamb k).re ∨ 1e-15 ≤ |((eig L.size L.jacobi).lamb k).im|)
    (hrem : remove = true → ∀ k, ‖(eig L.size L.jacobi).lamb k‖ ≤ 1) :
    ∃ (m : ℕ) (A : Mat ℝ m m), pronyFit data dt svd eig eps (some t) none remove = .ok (data.get 0, ⟨m, A⟩) ∧
      ∀ ks : List ℕ, ks.length ≠ 1 → (∀ k ∈ ks, k ≤ 2 * n) →
        pronySeriesEval (ks.map fun k : ℕ => (k : ℝ) * dt) (data.get 0) m A = .ok (ks.map data.get) := by
  subst hn
  subst hH
  obtain ⟨hpos, hmom⟩ := C91_moments ⟨data.len, fun i => data.get i / data.get 0⟩ _ (svd _) eps t L hS hsep hrank ht ht1
    (div_self h0) hL hsize hlast
  obtain ⟨m, g, A, hg, hclean, hA⟩ := clean_spec (eig L.size L.jacobi) L.jacobi hE dt remove hlam hrem
  refine ⟨m, A, ?_, fun ks h1 hks => ?_⟩
  · rw [pronyFit, if_neg (by omega)]
    simp only [jacobiReduced, hL, Except.map, hclean]
  · have hm : m = L.size := by simpa using Fintype.card_congr g
    have hm0 : 0 < m := by omega
    rw [pronySeriesEval, if_neg (by simpa using h1)]
    rw [mapM_of_ok _ (fun t => data.get 0 * (NormedSpace.exp (t • A) : Mat ℝ m m) ⟨0, hm0⟩ ⟨0, hm0⟩) _
      (fun t _ => by rw [pronyTerm, dif_pos hm0])]
    rw [List.map_map]
    congr 1
    refine List.map_congr_left fun k hk => ?_
    show data.get 0 * _ = data.get k
    have hg0 : g ⟨0, hm0⟩ = ⟨0, hpos⟩ := Fin.ext (hg _)
    have key := exp_reindex g ((k * dt : ℝ) • A) ⟨0, hm0⟩ ⟨0, hm0⟩
    have e1 : ((((k * dt : ℝ) • A).map Complex.ofReal).submatrix g.symm g.symm : Mat ℂ L.size L.size) =
        ((k * dt : ℝ) : ℂ) • (A.map Complex.ofReal).submatrix g.symm g.symm := by
      ext i j; simp
    rw [e1, hA, exp_log_pow L.jacobi _ hE.unit (eig L.size L.jacobi).lamb _ hE.eq dt (fun i => ?_) k, hg0] at key
    · have h2 : (NormedSpace.exp ((k * dt : ℝ) • A) : Mat ℝ m m) ⟨0, hm0⟩ ⟨0, hm0⟩ = data.get k / data.get 0 := by
        apply Complex.ofReal_injective
        rw [key]
        exact congrArg Complex.ofReal (hmom k (hks k hk))
      rw [h2]; field_simp
    · have hne : (eig L.size L.jacobi).lamb i ≠ 0 := by
        intro hz
        rcases hlam i with h | h
        · rw [hz] at h; exact lt_irrefl _ h
        · rw [hz] at h; norm_num at h
      rw [mul_div_cancel₀, Complex.exp_log hne]
      exact_mod_cast hdt

/-! ## C93 -/

theorem newVect_zero {m q : ℕ} (V : Mat ℂ m m) (dup : Fin q → Fin m) (sg : Fin m → ℝ) (a : Fin q) (h : ∀ k, sg k = 0)
    (x : Fin m ⊕ Fin q) : newVect V dup sg (Sum.inr a) x = 0 := by
  rcases x with x | x
  · show (if x = dup a then Complex.I * (sg x : ℂ) else 0) = 0
    rw [h]; simp
  · show diagonal (fun a => -Complex.I * (sg (dup a) : ℂ)) a x = 0
    rw [diagonal_apply, h]; simp

/-- **C93.** A negative eigenvalue cannot be fitted when all the eigenvalues are real: `LinAlgError`. -/
theorem C93_negative_fails {N : ℕ} (E : EigData N) (dt : ℝ) (remove : Bool) (hreal : ∀ k, (E.lamb k).im = 0)
    (hneg : ∃ k, (E.lamb k).re < 0 ∧ (remove = true → ‖E.lamb k‖ ≤ 1)) : cleanEigenvalues E dt remove = .error .linAlg := by
  obtain ⟨k, hk, hr⟩ := hneg
  have hmem : k ∈ E.kept remove := by
    rw [EigData.kept, List.mem_filter]
    refine ⟨List.mem_finRange k, ?_⟩
    cases remove with
    | false => rfl
    | true => simpa using hr rfl
  obtain ⟨j, hj⟩ := List.mem_iff_get.1 hmem
  have hd : j ∈ duplicated (fun k => E.lamb ((E.kept remove).get k)) := by
    rw [duplicated, List.mem_filter]
    refine ⟨List.mem_finRange j, ?_⟩
    simp only [hj, hreal, abs_zero, decide_eq_true_eq]
    exact ⟨by norm_num, Or.inl hk⟩
  obtain ⟨a, -⟩ := List.mem_iff_get.1 hd
  unfold cleanEigenvalues
  simp only
  rw [if_neg]
  rw [det_eq_zero_of_row_eq_zero (Sum.inr a)]
  · simp
  · exact newVect_zero _ _ _ a fun k => if_pos hreal

/-! ## C94 -/

/-- **C94.** When every eigenvalue is removed, the fitted matrix is empty and evaluating it is an `IndexError`. -/
theorem C94_all_removed {N : ℕ} (E : EigData N) (dt : ℝ) (hbig : ∀ k, 1 < ‖E.lamb k‖) :
    ∃ A : Mat ℝ 0 0, cleanEigenvalues E dt true = .ok ⟨0, A⟩ ∧ ∀ (t : ℝ) (ts : List ℝ) (y0 : ℝ),
      pronySeriesEval (t :: ts) y0 0 A = .error .index := by
  have hk : E.kept true = [] := by
    rw [EigData.kept, List.filter_eq_nil_iff]
    intro k _
    simpa using hbig k
  have hm : (E.kept true).length = 0 := by rw [hk]; rfl
  have hemp : IsEmpty (Fin (E.kept true).length) := by rw [hm]; infer_instance
  have hq : duplicated (fun k => E.lamb ((E.kept true).get k)) = [] := by
    rw [duplicated, List.filter_eq_nil_iff]
    intro k _
    exact (hemp.false k).elim
  have hemp' : IsEmpty (Fin (duplicated (fun k => E.lamb ((E.kept true).get k))).length) := by rw [hq]; exact Fin.isEmpty
  have hp : ∀ p : Σ m : ℕ, Mat ℝ m m, p.1 = 0 → ∃ A : Mat ℝ 0 0, (Except.ok p : Except Err _) = .ok ⟨0, A⟩ := by
    rintro ⟨m, A⟩ h
    obtain rfl : m = 0 := h
    exact ⟨A, rfl⟩
  have hc : ∃ A : Mat ℝ 0 0, cleanEigenvalues E dt true = .ok ⟨0, A⟩ := by
    unfold cleanEigenvalues
    simp only
    rw [if_pos (by rw [det_isEmpty]; exact isUnit_one)]
    exact hp _ (by simp only [hq, hm]; rfl)
  obtain ⟨A, hA⟩ := hc
  refine ⟨A, hA, fun t ts y0 => ?_⟩
  unfold pronySeriesEval
  split
  · rfl
  · rw [List.mapM_cons]; rfl

/-! ## An example: the series 2, 1, 1/2 -/

namespace PronyExample

/-- The data. -/
noncomputable def data : Arr ℝ := ⟨3, fun i => 2 * (1 / 2) ^ i⟩

/-- Its Hankel matrix. -/
noncomputable def H : Mat ℝ 2 2 := fun i j => data.get (i.val + j.val) / data.get 0

/-- Its singular value decomposition. -/
noncomputable def S : HermSvd 1 := ⟨!![2 / √5, -(1 / √5); 1 / √5, 2 / √5], ![5 / 4, 0], ![1, 0]⟩

theorem sqrt5 : √5 * √5 = (5 : ℝ) := Real.mul_self_sqrt (by norm_num)

theorem S_svd : S.IsSvd H where
  orth := by
    have h := sqrt5
    have h5 : √5 ≠ (0 : ℝ) := (Real.sqrt_pos.2 (by norm_num)).ne'
    ext i j
    fin_cases i <;> fin_cases j <;> simp [S, Matrix.mul_apply, Fin.sum_univ_two] <;> field_simp <;> nlinarith [h]
  nonneg := by intro k; fin_cases k <;> norm_num [S]
  anti := by
    intro a b hab
    fin_cases a <;> fin_cases b <;> simp [S] at hab ⊢
    norm_num
  sgn := by intro k; fin_cases k <;> simp [S]
  eq := by
    have h := sqrt5
    have h5 : √5 ≠ (0 : ℝ) := (Real.sqrt_pos.2 (by norm_num)).ne'
    intro i j
    fin_cases i <;> fin_cases j <;> simp [S, H, data, Fin.sum_univ_two] <;> field_simp <;> nlinarith [h]

/-- The singular value decompositions. -/
noncomputable def svd : (n : ℕ) → Mat ℝ (n + 1) (n + 1) → HermSvd n
  | 1, _ => S
  | _, _ => ⟨0, 0, 0⟩

/-- The vectors. -/
noncomputable def L : Ldl 1 := ⟨1, fun _ => Pi.single 0 1, fun _ => 1, H⟩

theorem rank : (univ.filter fun k => S.s k ≠ 0).card = 1 := by
  have : (univ.filter fun k : Fin 2 => S.s k ≠ 0) = {0} := by
    ext k; fin_cases k <;> simp [S]
  rw [this]; rfl

theorem rank' : (univ.filter fun k => (1 / 10 : ℝ) < S.s k).card = 1 := by
  have : (univ.filter fun k : Fin 2 => (1 / 10 : ℝ) < S.s k) = {0} := by
    ext k; fin_cases k <;> norm_num [S]
  rw [this]; rfl

theorem sep (k : Fin 2) (h : S.s k ≤ 1 / 10) : S.s k = 0 := by
  fin_cases k
  · simp [S] at h; norm_num at h
  · simp [S]

theorem keep (eps : ℝ) : pronyKeep S eps (some (1 / 10)) none = .ok (1, 1 / 10) := by
  rw [pronyKeep_eq eps ⟨1, by simp [S]⟩, rank']

theorem ldl (eps : ℝ) : ldlHankel ⟨data.len, fun i => data.get i / data.get 0⟩ 1 (svd 1) eps (some (1 / 10)) none = .ok L := by
  have hf : S.filtered 1 = H := by
    have := HermSvd.filtered_eq S_svd sep
    simp only [rank'] at this
    exact this
  have hphi : phi H (Pi.single 0 1) (Pi.single 0 1) = 1 := by rw [phi_single]; simp [H, data]
  have hl : ldlLoop H 1 (1 / 10) (List.finRange (1 + 1)) [] = .ok [Pi.single 0 1] := by
    rw [show List.finRange (1 + 1) = 0 :: (List.finRange 1).map Fin.succ from List.finRange_succ, ldlLoop]
    have e : orthogonalise H [] (Pi.single 0 1) = Pi.single 0 1 := rfl
    simp only [e, hphi, abs_one]
    norm_num
  rw [ldlHankel_eq _ _ (svd 1) eps (some (1 / 10)) none (by simp [data]) (keep eps) (us := [Pi.single 0 1])
    (show ldlLoop (S.filtered 1) 1 (1 / 10) _ _ = _ by rw [hf]; exact hl)]
  rw [show (svd 1 fun i j => hankelMat (fun i => data.get i / data.get 0) 1 i j).filtered 1 = H from hf]
  simp only [ldlOut]
  rw [if_neg (by simp)]
  congr 1
  show (⟨1, _, _, _⟩ : Ldl 1) = ⟨1, _, _, _⟩
  congr 1
  · funext a
    have : [(Pi.single 0 1 : Fin 2 → ℝ)].get a = Pi.single 0 1 := by simp
    rw [this, hphi]; simp
  · funext a
    have : [(Pi.single 0 1 : Fin 2 → ℝ)].get a = Pi.single 0 1 := by simp
    rw [this, hphi]; simp

theorem jacobi : L.jacobi = fun _ _ => 1 / 2 := by
  have : ∀ a b : Fin 1, (Matrix.of (fun _ : Fin 1 => (Pi.single 0 1 : Fin 2 → ℝ)) * (H * shiftMat 1) *
      (Matrix.of (fun _ : Fin 1 => (Pi.single 0 1 : Fin 2 → ℝ)))ᵀ * diagonal fun _ : Fin 1 => (1 : ℝ)) a b = 1 / 2 := by
    intro a b
    rw [mul_diagonal]
    simp [Matrix.mul_apply, shiftMat, H, data, Fin.sum_univ_two, Pi.single_apply]
  funext a b
  exact this a b

/-- The eigenvalues. -/
noncomputable def eig (N : ℕ) (_ : Mat ℝ N N) : EigData N := ⟨fun _ => 1 / 2, 1⟩

theorem isEig : (eig L.size L.jacobi).IsEig L.jacobi := by
  have : ∀ J : Mat ℝ 1 1, (J = fun _ _ => 1 / 2) → (⟨fun _ => 1 / 2, 1⟩ : EigData 1).IsEig J := by
    rintro J rfl
    refine ⟨?_, by simp⟩
    simp only
    rw [Matrix.mul_one, Matrix.one_mul]
    ext a b
    have : a = b := Subsingleton.elim _ _
    subst this
    rw [diagonal_apply_eq]
    show ((1 / 2 : ℝ) : ℂ) = 1 / 2
    norm_num
  exact this L.jacobi jacobi

example := C72_orthogonal ⟨data.len, fun i => data.get i / data.get 0⟩ 1 (svd 1) 0 (some (1 / 10)) none 1 (1 / 10) L
  (keep 0) (by norm_num) (ldl 0)

example := C71_inspect data (by simp [data]) (by simp [data]) svd 0 (1 / 10) 1 rfl H rfl S_svd sep ⟨1, by simp [svd, S]⟩
example := C91_moments ⟨data.len, fun i => data.get i / data.get 0⟩ 1 (svd 1) 0 (1 / 10) L S_svd sep
  ⟨1, by simp [svd, S]⟩ (by norm_num) (by norm_num) (by simp [data]) (ldl 0) rank.symm (fun a => by simp [L])
example := C92_interpolates data (by simp [data]) (by simp [data]) (1 / 4) (by norm_num) svd eig 0 (1 / 10) true 1 rfl H rfl S_svd sep
  ⟨1, by simp [svd, S]⟩ (by norm_num) (by norm_num) L (ldl 0) rank.symm (fun a => by simp [L]) isEig
  (fun k => Or.inl (by simp [eig])) (fun _ k => by simp [eig]; norm_num)

example := C94_all_removed (⟨fun _ => 2, 1⟩ : EigData 1) 1 (fun k => by simp)
example := C93_negative_fails (⟨fun _ => -(1 / 2), 1⟩ : EigData 1) 1 true (fun k => by simp) ⟨0, by simp, fun _ => by simp; norm_num⟩

end PronyExample

end Verif
