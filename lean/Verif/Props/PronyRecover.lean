import Verif.Props.PronyExact
import Mathlib.LinearAlgebra.Lagrange
import Mathlib.LinearAlgebra.Matrix.Rank
import Mathlib.LinearAlgebra.Matrix.Diagonal
import Mathlib.LinearAlgebra.Vandermonde
import Mathlib.LinearAlgebra.Eigenspace.Basic
import Mathlib.LinearAlgebra.Matrix.Charpoly.Coeff
import Mathlib.Analysis.Complex.Polynomial.Basic
import Mathlib.Analysis.Matrix.PosDef

/-!
# The Prony fit of a sum of exponentials (C140)
-/

namespace Verif

open Finset Matrix

/-! ## The orthogonalisation and the leading minors -/

/-- The determinant of the Hankel matrix of size `k` of a series. -/
noncomputable def Spec.hankelDet (y : ℕ → ℝ) (k : ℕ) : ℝ := (Matrix.of fun i j : Fin k => y (i.val + j.val)).det

section
variable {n : ℕ} {H : Mat ℝ n n}

/-- The vectors are those of the standard basis plus components along previous ones. -/
def Tri (us : List (Fin n → ℝ)) : Prop :=
  ∀ (a : ℕ) (h : a < us.length) (i : Fin n), (a < i.val → us[a] i = 0) ∧ (a = i.val → us[a] i = 1)

theorem orthogonalise_apply (us : List (Fin n → ℝ)) (v : Fin n → ℝ) (i : Fin n) (h : ∀ u ∈ us, u i = 0) :
    orthogonalise H us v i = v i := by
  induction us using List.reverseRecOn with
  | nil => rfl
  | append_singleton us w ih =>
    have e : orthogonalise H (us ++ [w]) v =
        orthogonalise H us v - (phi H (orthogonalise H us v) w / phi H w w) • w := by
      simp [orthogonalise, List.foldl_append]
    rw [e, Pi.sub_apply, Pi.smul_apply, h w (by simp), ih fun u hu => h u (by simp [hu])]
    simp

theorem Tri.zero {us : List (Fin n → ℝ)} (h : Tri us) {i : Fin n} (hi : us.length ≤ i.val) : ∀ u ∈ us, u i = 0 := by
  intro u hu
  obtain ⟨a, ha, rfl⟩ := List.mem_iff_getElem.1 hu
  exact (h a ha i).1 (by omega)

theorem Tri.append {us : List (Fin n → ℝ)} (h : Tri us) {k : Fin n} (hk : k.val = us.length) :
    Tri (us ++ [orthogonalise H us (Pi.single k 1)]) := by
  intro a ha i
  rcases lt_or_ge a us.length with h1 | h1
  · rw [List.getElem_append_left h1]; exact h a h1 i
  · have ha' : a = us.length := by simp at ha; omega
    subst ha'
    rw [List.getElem_append_right le_rfl]
    have e : [orthogonalise H us (Pi.single k 1)][us.length - us.length]'(by simp) = orthogonalise H us (Pi.single k 1) := by
      simp only [Nat.sub_self, List.getElem_cons_zero]
    rw [e]
    refine ⟨fun hi => ?_, fun hi => ?_⟩
    · rw [orthogonalise_apply us _ i (h.zero hi.le), Pi.single_eq_of_ne]
      rintro rfl; omega
    · rw [orthogonalise_apply us _ i (h.zero hi.le)]
      obtain rfl : i = k := Fin.ext (by omega)
      simp

/-- The leading minor is the product of the pivots. -/
theorem Tri.det {us : List (Fin n → ℝ)} (h : Tri us) (hs : H.IsSymm) (ho : us.Pairwise fun u v => phi H u v = 0)
    {y : ℕ → ℝ} (hH : ∀ i j, H i j = y (i.val + j.val)) (hk : us.length ≤ n) :
    Spec.hankelDet y us.length = ∏ a : Fin us.length, phi H (us.get a) (us.get a) := by
  obtain ⟨T, hT⟩ : ∃ T : Mat ℝ us.length us.length, T = Matrix.of fun a i => us.get a (Fin.castLE hk i) := ⟨_, rfl⟩
  have hTd : T.det = 1 := by
    rw [det_of_isLowerTriangular]
    · refine prod_eq_one fun a _ => ?_
      rw [hT, of_apply]
      exact (h a.val a.2 (Fin.castLE hk a)).2 rfl
    · intro a i hai
      rw [hT, of_apply]
      exact (h a.val a.2 (Fin.castLE hk i)).1 (by simpa using hai)
  have hlim : ∀ (a : Fin us.length) (f : Fin n → ℝ), ∑ i, us.get a i * f i = ∑ i : Fin us.length, T a i * f (Fin.castLE hk i) := by
    intro a f
    have hinj : Function.Injective (Fin.castLE hk : Fin us.length → Fin n) := Fin.castLE_injective hk
    have : ∑ i : Fin us.length, T a i * f (Fin.castLE hk i) = ∑ i ∈ univ.image (Fin.castLE hk), us.get a i * f i := by
      rw [sum_image fun x _ y _ hxy => hinj hxy]
      simp only [hT, of_apply]
    rw [this]
    refine (sum_subset (subset_univ _) fun i _ hi => ?_).symm
    have hil : us.length ≤ i.val := by
      by_contra hc
      exact hi (mem_image.2 ⟨⟨i.val, by omega⟩, mem_univ _, Fin.ext rfl⟩)
    rw [h.zero hil _ (List.get_mem _ _), zero_mul]
  have key : T * (Matrix.of fun i j : Fin us.length => y (i.val + j.val)) * Tᵀ = diagonal fun a => phi H (us.get a) (us.get a) := by
    ext a b
    have e1 : phi H (us.get a) (us.get b) = (T * (Matrix.of fun i j : Fin us.length => y (i.val + j.val)) * Tᵀ) a b := by
      rw [phi, hlim, Matrix.mul_assoc, Matrix.mul_apply]
      refine sum_congr rfl fun i _ => ?_
      congr 1
      have : ∑ j, H (Fin.castLE hk i) j * us.get b j = ∑ j, us.get b j * H (Fin.castLE hk i) j :=
        sum_congr rfl fun j _ => mul_comm _ _
      rw [this, hlim, Matrix.mul_apply]
      refine sum_congr rfl fun j _ => ?_
      rw [hH, of_apply, transpose_apply, mul_comm]
      rfl
    rw [← e1, diagonal_apply]
    split_ifs with hab
    · rw [hab]
    · rcases lt_or_gt_of_ne hab with h | h
      · exact List.pairwise_iff_get.1 ho a b h
      · rw [phi_symm hs]; exact List.pairwise_iff_get.1 ho b a h
  have := congrArg Matrix.det key
  rw [det_mul, det_mul, det_transpose, hTd, det_diagonal] at this
  rw [Spec.hankelDet]
  linarith

/-- The pivot is the quotient of two leading minors. -/
theorem pivot_le (hs : H.IsSymm) {y : ℕ → ℝ} (hH : ∀ i j, H i j = y (i.val + j.val)) {t : ℝ} {us : List (Fin n → ℝ)}
    (hT : Tri us) (hF : Frame H us) {k : Fin n} (hk : k.val = us.length)
    (hm : t * |Spec.hankelDet y us.length| ≤ |Spec.hankelDet y (us.length + 1)|) :
    t ≤ |phi H (orthogonalise H us (Pi.single k 1)) (orthogonalise H us (Pi.single k 1))| := by
  obtain ⟨v, hv⟩ : ∃ v, v = orthogonalise H us (Pi.single k 1) := ⟨_, rfl⟩
  have hk' : us.length + 1 ≤ n := by have := k.2; omega
  have h1 := hT.det hs hF.1 hH (by omega)
  have ho : (us ++ [v]).Pairwise fun u v => phi H u v = 0 := by
    refine List.pairwise_append.2 ⟨hF.1, by simp, fun a ha b hb => ?_⟩
    obtain rfl : b = v := by simpa using hb
    rw [phi_symm hs, hv]; exact orthogonalise_spec hs _ us hF a ha
  have h2 := (hv ▸ hT.append (H := H) hk : Tri (us ++ [v])).det hs ho hH (by simp; omega)
  have h3 : ∏ a : Fin (us ++ [v]).length, phi H ((us ++ [v]).get a) ((us ++ [v]).get a) =
      (∏ a : Fin us.length, phi H (us.get a) (us.get a)) * phi H v v := by
    have e : ∀ l : List (Fin n → ℝ), ∏ a : Fin l.length, phi H (l.get a) (l.get a) = (l.map fun u => phi H u u).prod := by
      intro l
      rw [← List.prod_ofFn]
      congr 1
      exact (List.ofFn_getElem_eq_map l fun u => phi H u u)
    rw [e, e, List.map_append, List.prod_append]; simp
  rw [h3, ← h1] at h2
  have h4 : Spec.hankelDet y (us.length + 1) = Spec.hankelDet y us.length * phi H v v := by
    rw [← h2]; simp
  have hne : Spec.hankelDet y us.length ≠ 0 := by
    rw [h1]
    exact prod_ne_zero_iff.2 fun a _ => hF.2 _ (List.get_mem _ _)
  rw [h4, abs_mul, mul_comm] at hm
  rw [← hv]
  exact le_of_mul_le_mul_left hm (abs_pos.2 hne)

/-- When no leading minor is small with respect to the previous one, the loop takes the first vectors of the standard
basis. -/
theorem ldlLoop_full (hs : H.IsSymm) {y : ℕ → ℝ} (hH : ∀ i j, H i j = y (i.val + j.val)) {N : ℕ} (hN : N ≤ n) {t : ℝ} (ht : 0 < t)
    (hm : ∀ k < N, t * |Spec.hankelDet y k| ≤ |Spec.hankelDet y (k + 1)|) :
    ∀ (d : ℕ) (us : List (Fin n → ℝ)), us.length + d + 1 = N → Tri us → Frame H us →
      ∃ out, ldlLoop H N t ((List.finRange n).drop us.length) us = .ok out ∧ out.length = N ∧ Tri out := by
  intro d
  induction d with
  | zero =>
    intro us hl hT hF
    obtain ⟨k, hk⟩ : ∃ k : Fin n, k.val = us.length := ⟨⟨us.length, by omega⟩, rfl⟩
    have hp := pivot_le hs hH hT hF hk (hm _ (by omega))
    rw [List.drop_eq_getElem_cons (by simp; omega), ldlLoop]
    have hke : (List.finRange n)[us.length]'(by simp; omega) = k := by simp [Fin.ext_iff, hk]
    rw [hke]
    rw [if_pos hp, if_pos (by omega), if_pos (by omega)]
    exact ⟨_, rfl, by simp; omega, hT.append hk⟩
  | succ d ih =>
    intro us hl hT hF
    obtain ⟨k, hk⟩ : ∃ k : Fin n, k.val = us.length := ⟨⟨us.length, by omega⟩, rfl⟩
    have hp := pivot_le hs hH hT hF hk (hm _ (by omega))
    rw [List.drop_eq_getElem_cons (by simp; omega), ldlLoop]
    have hke : (List.finRange n)[us.length]'(by simp; omega) = k := by simp [Fin.ext_iff, hk]
    rw [hke]
    rw [if_pos hp, if_pos (by omega), if_neg (by omega)]
    have := ih (us ++ [orthogonalise H us (Pi.single k 1)]) (by simp; omega) (hT.append hk)
      (hF.append hs _ (abs_pos.1 (lt_of_lt_of_le ht hp)))
    simpa using this

end

/-- The decomposition succeeds with as many vectors as the rank, and does not use the last vector of the standard
basis. -/
theorem ldlHankel_full (y : Arr ℝ) (n : ℕ) (hlen : 2 * n + 1 ≤ y.len) (svd : Mat ℝ (n + 1) (n + 1) → HermSvd n) (eps t : ℝ)
    (hS : (svd (hankelOf y.get n)).IsSvd (hankelOf y.get n)) (hsep : ∀ k, (svd (hankelOf y.get n)).s k ≤ t → (svd (hankelOf y.get n)).s k = 0)
    (ht : 0 < t) {N : ℕ} (hN : N = (univ.filter fun k => (svd (hankelOf y.get n)).s k ≠ 0).card) (hN0 : 0 < N) (hNn : N ≤ n)
    (hm : ∀ k < N, t * |Spec.hankelDet y.get k| ≤ |Spec.hankelDet y.get (k + 1)|) :
    (∃ k, (svd (hankelOf y.get n)).s k ≤ t) ∧
      ∃ L, ldlHankel y n svd eps (some t) none = .ok L ∧ L.size = N ∧ ∀ a, L.dlu a (Fin.last n) = 0 := by
  have hcard : (univ.filter fun k => (svd (hankelOf y.get n)).s k ≠ 0) = univ.filter fun k => t < (svd (hankelOf y.get n)).s k := by
    ext k
    simp only [mem_filter, mem_univ, true_and]
    exact ⟨fun hk => by by_contra hc; exact hk (hsep k (not_lt.1 hc)), fun hk => (ht.trans hk).ne'⟩
  have hrank : ∃ k, (svd (hankelOf y.get n)).s k ≤ t := by
    by_contra hc
    push Not at hc
    rw [hcard, filter_true_of_mem fun k _ => hc k] at hN
    simp at hN
    omega
  refine ⟨hrank, ?_⟩
  rw [hcard] at hN
  have hk : pronyKeep (svd fun i j => hankelMat y.get n i j) eps (some t) none = .ok (N, t) := by
    rw [hankelOf_eq, hN]; exact pronyKeep_eq eps hrank
  have hfil : (svd fun i j => hankelMat y.get n i j).filtered N = hankelOf y.get n := by
    rw [hankelOf_eq, hN]; exact HermSvd.filtered_eq hS hsep
  have hsym : (hankelOf y.get n).IsSymm := by rw [← hankelOf_eq]; exact hankel_symm y.get n
  obtain ⟨us, hus, hl, hT⟩ := ldlLoop_full (H := hankelOf y.get n) hsym (y := y.get) (fun i j => rfl) (by omega : N ≤ n + 1) ht hm
    (N - 1) [] (by simp; omega) (fun a h => absurd h (by simp)) ⟨by simp, by simp⟩
  rw [List.length_nil, List.drop_zero] at hus
  have h1 := ldlHankel_eq y n svd eps (some t) none hlen hk (us := us) (by rw [hfil]; exact hus)
  rw [hfil, ldlOut, if_neg (by omega)] at h1
  refine ⟨_, h1, hl, fun a => ?_⟩
  show ((1 / √|phi (hankelOf y.get n) (us.get a) (us.get a)|) • us.get a) (Fin.last n) = 0
  rw [Pi.smul_apply, hT.zero (by rw [Fin.val_last]; omega) _ (List.get_mem _ _), smul_zero]

/-- **C91**, in terms of the data: the leading minors of the Hankel matrix tell that the decomposition finds as many
vectors as the rank. -/
theorem C91_minors (y : Arr ℝ) (n : ℕ) (hlen : 2 * n + 1 ≤ y.len) (svd : Mat ℝ (n + 1) (n + 1) → HermSvd n) (eps t : ℝ)
    (hS : (svd (hankelOf y.get n)).IsSvd (hankelOf y.get n)) (hsep : ∀ k, (svd (hankelOf y.get n)).s k ≤ t → (svd (hankelOf y.get n)).s k = 0)
    (ht : 0 < t) (ht1 : t ≤ 1) (hy0 : y.get 0 = 1) {N : ℕ} (hN : N = (univ.filter fun k => (svd (hankelOf y.get n)).s k ≠ 0).card)
    (hN0 : 0 < N) (hNn : N ≤ n) (hm : ∀ k < N, t * |Spec.hankelDet y.get k| ≤ |Spec.hankelDet y.get (k + 1)|) :
    ∃ (J : Mat ℝ N N), jacobiReduced y n svd eps (some t) none = .ok ⟨N, J⟩ ∧ ∀ k ≤ 2 * n, (J ^ k) ⟨0, hN0⟩ ⟨0, hN0⟩ = y.get k := by
  obtain ⟨hrank, L, hL, hsize, hlast⟩ := ldlHankel_full y n hlen svd eps t hS hsep ht hN hN0 hNn hm
  obtain ⟨hpos, hmom⟩ := C91_moments y n svd eps t L hS hsep hrank ht ht1 hy0 hL (hsize.trans hN) hlast
  have key : ∀ (q : ℕ) (J : Mat ℝ q q) (hq : 0 < q), q = N → jacobiReduced y n svd eps (some t) none = .ok ⟨q, J⟩ →
      (∀ k ≤ 2 * n, (J ^ k) ⟨0, hq⟩ ⟨0, hq⟩ = y.get k) →
      ∃ (J : Mat ℝ N N), jacobiReduced y n svd eps (some t) none = .ok ⟨N, J⟩ ∧ ∀ k ≤ 2 * n, (J ^ k) ⟨0, hN0⟩ ⟨0, hN0⟩ = y.get k := by
    rintro q J hq rfl h1 h2
    exact ⟨J, h1, h2⟩
  exact key L.size L.jacobi hpos hsize (by rw [jacobiReduced, hL]; rfl) hmom

open PronyExample in
example := C91_minors ⟨data.len, fun i => data.get i / data.get 0⟩ 1 (by simp [data]) (svd 1) 0 (1 / 10) S_svd sep
  (by norm_num) (by norm_num) (by simp [data]) (N := 1) rank.symm one_pos le_rfl
  (fun k hk => by interval_cases k; simp [Spec.hankelDet, data]; norm_num)

/-! ## Sums of exponentials -/

/-- Two sums of powers that agree for as many exponents as there are terms agree for every function of the bases. -/
theorem moments_unique {ι κ : Type*} [Fintype ι] [Fintype κ] (w l : ι → ℂ) (c z : κ → ℂ) (M : ℕ)
    (hM : Fintype.card ι + Fintype.card κ ≤ M) (h : ∀ k < M, ∑ a, w a * l a ^ k = ∑ j, c j * z j ^ k) (f : ℂ → ℂ) :
    ∑ a, w a * f (l a) = ∑ j, c j * f (z j) := by
  classical
  obtain ⟨s, hs⟩ : ∃ s : Finset ℂ, s = univ.image l ∪ univ.image z := ⟨_, rfl⟩
  have hcard : s.card ≤ M := by
    rw [hs]
    refine (card_union_le _ _).trans (le_trans (Nat.add_le_add card_image_le card_image_le) ?_)
    simpa using hM
  obtain ⟨p, hp⟩ : ∃ p : Polynomial ℂ, p = Lagrange.interpolate s id f := ⟨_, rfl⟩
  have hdeg : p.degree < M := by
    rw [hp]
    refine lt_of_lt_of_le (Lagrange.degree_interpolate_lt f (Set.injOn_id _)) ?_
    exact_mod_cast hcard
  have hev : ∀ x ∈ s, p.eval x = f x := fun x hx => by
    rw [hp]; exact Lagrange.eval_interpolate_at_node f (Set.injOn_id _) hx
  have hpoly : ∀ x, p.eval x = ∑ k ∈ range M, p.coeff k * x ^ k := by
    intro x
    rcases eq_or_ne p 0 with h0 | h0
    · simp [h0]
    · exact Polynomial.eval_eq_sum_range' ((Polynomial.natDegree_lt_iff_degree_lt h0).2 hdeg) x
  have hl : ∀ a, f (l a) = ∑ k ∈ range M, p.coeff k * l a ^ k := fun a => by
    rw [← hpoly, hev _ (by rw [hs]; exact mem_union_left _ (mem_image_of_mem _ (mem_univ a)))]
  have hz : ∀ j, f (z j) = ∑ k ∈ range M, p.coeff k * z j ^ k := fun j => by
    rw [← hpoly, hev _ (by rw [hs]; exact mem_union_right _ (mem_image_of_mem _ (mem_univ j)))]
  simp only [hl, hz, mul_sum]
  rw [sum_comm, sum_comm (s := univ (α := κ))]
  refine sum_congr rfl fun k hk => ?_
  have := congrArg (p.coeff k * ·) (h k (mem_range.1 hk))
  simp only [mul_sum] at this
  calc _ = ∑ a, p.coeff k * (w a * l a ^ k) := sum_congr rfl fun a _ => by ring
    _ = _ := this
    _ = _ := sum_congr rfl fun a _ => by ring

/-- The rank of a Hankel matrix of a sum of powers is at most the number of terms. -/
theorem hankel_rank_le {n : ℕ} {ι : Type*} (s : Finset ι) (w l : ι → ℂ) (H : Mat ℂ n n)
    (hH : ∀ i j, H i j = ∑ a ∈ s, w a * l a ^ (i.val + j.val)) : H.rank ≤ s.card := by
  have e : H = (Matrix.of fun (i : Fin n) (a : s) => w a * l a ^ i.val) * Matrix.of fun (a : s) (j : Fin n) => l a ^ j.val := by
    ext i j
    rw [hH, Matrix.mul_apply, ← sum_coe_sort s]
    refine sum_congr rfl fun a _ => ?_
    rw [of_apply, of_apply, pow_add]; ring
  rw [e]
  refine (Matrix.rank_mul_le_right _ _).trans ?_
  simpa using Matrix.rank_le_card_height (Matrix.of fun (a : s) (j : Fin n) => l a ^ j.val)

/-- The rank is the number of singular values that are not zero. -/
theorem HermSvd.IsSvd.rank {n : ℕ} {S : HermSvd n} {A : Mat ℝ (n + 1) (n + 1)} (h : S.IsSvd A) :
    (A.map Complex.ofReal).rank = (univ.filter fun k => S.s k ≠ 0).card := by
  have hU : (S.u.map Complex.ofReal) * (S.u.map Complex.ofReal)ᵀ = 1 := by
    rw [← Matrix.transpose_map]
    have := congrArg (fun M : Mat ℝ (n + 1) (n + 1) => M.map Complex.ofRealHom) h.orth
    simp only [Matrix.map_mul] at this
    rw [Matrix.map_one _ (map_zero _) (map_one _)] at this
    exact this
  have hdet : IsUnit (S.u.map Complex.ofReal).det := by
    have := congrArg Matrix.det hU
    rw [det_mul, det_one] at this
    exact IsUnit.of_mul_eq_one _ this
  have e : A.map Complex.ofReal = (S.u.map Complex.ofReal) * diagonal (fun k => ((S.s k * S.sgn k : ℝ) : ℂ)) *
      (S.u.map Complex.ofReal)ᵀ := by
    ext i j
    rw [Matrix.mul_apply]
    simp only [mul_diagonal, map_apply, transpose_apply, h.eq i j]
    push_cast
    exact sum_congr rfl fun k _ => by ring
  rw [e, Matrix.rank_mul_eq_left_of_isUnit_det _ _ (by rw [det_transpose]; exact hdet),
    Matrix.rank_mul_eq_right_of_isUnit_det _ _ hdet, Matrix.rank_diagonal, Fintype.card_subtype]
  congr 1
  ext k
  simp only [mem_filter, mem_univ, true_and, ne_eq, Complex.ofReal_eq_zero, mul_eq_zero, not_or]
  refine ⟨fun hk => hk.1, fun hk => ⟨hk, ?_⟩⟩
  rcases h.sgn k with h1 | h1 | h1
  · rw [h1]; norm_num
  · rw [h1]; norm_num
  · exact absurd h1.2 hk

/-- A power of a diagonalised matrix as a sum over the eigenvalues. -/
theorem pow_entry_sum {N : ℕ} {J : Mat ℝ N N} {E : EigData N} (hE : E.IsEig J) (i j : Fin N) (k : ℕ) :
    (((J ^ k) i j : ℝ) : ℂ) = ∑ a, (E.vect i a * E.vect⁻¹ a j) * E.lamb a ^ k := by
  have e : (J.map Complex.ofReal) = E.vect * diagonal E.lamb * E.vect⁻¹ := by
    rw [← hE.eq, Matrix.mul_nonsing_inv_cancel_right _ _ hE.unit]
  have e2 : ∀ k : ℕ, (E.vect * diagonal E.lamb * E.vect⁻¹) ^ k = E.vect * diagonal (fun a => E.lamb a ^ k) * E.vect⁻¹ := by
    intro k
    induction k with
    | zero => simp [Matrix.mul_nonsing_inv _ hE.unit]
    | succ k ih =>
      rw [pow_succ, ih]
      calc _ = E.vect * diagonal (fun a => E.lamb a ^ k) * (E.vect⁻¹ * E.vect) * diagonal E.lamb * E.vect⁻¹ := by
            simp only [Matrix.mul_assoc]
        _ = _ := by
            rw [Matrix.nonsing_inv_mul _ hE.unit, Matrix.mul_one, Matrix.mul_assoc E.vect, diagonal_mul_diagonal]
            simp only [pow_succ]
  have e3 : ((J ^ k).map Complex.ofReal) = (J.map Complex.ofReal) ^ k :=
    map_pow (RingHom.mapMatrix Complex.ofRealHom) J k
  have e4 := congrFun (congrFun (e3.trans ((congrArg (· ^ k) e).trans (e2 k))) i) j
  rw [map_apply] at e4
  rw [e4, Matrix.mul_apply]
  refine sum_congr rfl fun a _ => ?_
  rw [mul_diagonal]; ring

/-- **C140.** The Prony fit of a sum of exponentials `∑ c_j z_j ^ k`, sampled at enough points and with the rank found
(`hsep`, `hrank`, `hsize`, `hlast` as in C92), is that sum at all times, not only at the times of the samples. Nothing
is asked of the eigenvalues found: they are among the `z_j`. -/
theorem C140_recovers (data : Arr ℝ) (hd : 1 ≤ data.len) (h0 : data.get 0 ≠ 0) (dt : ℝ)
    (svd : (n : ℕ) → Mat ℝ (n + 1) (n + 1) → HermSvd n) (eig : (N : ℕ) → Mat ℝ N N → EigData N) (eps t : ℝ) (remove : Bool)
    (n : ℕ) (hn : n = hankelSize data.len) (H : Mat ℝ (n + 1) (n + 1)) (hH : H = fun i j => data.get (i.val + j.val) / data.get 0)
    (hS : (svd n H).IsSvd H) (hsep : ∀ k, (svd n H).s k ≤ t → (svd n H).s k = 0) (hrank : ∃ k, (svd n H).s k ≤ t)
    (ht : 0 < t) (ht1 : t ≤ 1) (L : Ldl n)
    (hL : ldlHankel ⟨data.len, fun i => data.get i / data.get 0⟩ n (svd n) eps (some t) none = .ok L)
    (hsize : L.size = (univ.filter fun k => (svd n H).s k ≠ 0).card) (hlast : ∀ a, L.dlu a (Fin.last n) = 0)
    (hE : (eig L.size L.jacobi).IsEig L.jacobi)
    (p : ℕ) (hp : p ≤ n) (c z : Fin p → ℂ) (hdata : ∀ k ≤ 2 * n, (data.get k : ℂ) = ∑ j, c j * z j ^ k)
    (hz : ∀ j, 0 < (z j).re ∨ 1e-15 ≤ |(z j).im|) (hrem : remove = true → ∀ j, ‖z j‖ ≤ 1) :
    ∃ (m : ℕ) (A : Mat ℝ m m), pronyFit data dt svd eig eps (some t) none remove = .ok (data.get 0, ⟨m, A⟩) ∧
      ∀ ts : List ℝ, ts.length ≠ 1 →
        pronySeriesEval ts (data.get 0) m A = .ok (ts.map fun s : ℝ => (∑ j, c j * Complex.exp (s * (Complex.log (z j) / dt))).re) := by
  subst hn
  subst hH
  obtain ⟨hpos, hmom⟩ := C91_moments ⟨data.len, fun i => data.get i / data.get 0⟩ _ (svd _) eps t L hS hsep hrank ht ht1
    (div_self h0) hL hsize hlast
  obtain ⟨E, hEe⟩ : ∃ E, E = eig L.size L.jacobi := ⟨_, rfl⟩
  rw [← hEe] at hE
  obtain ⟨w, hw⟩ : ∃ w : Fin L.size → ℂ, w = fun a => E.vect ⟨0, hpos⟩ a * E.vect⁻¹ a ⟨0, hpos⟩ := ⟨_, rfl⟩
  have h0' : (data.get 0 : ℂ) ≠ 0 := by exact_mod_cast h0
  have hsum : ∀ k ≤ 2 * hankelSize data.len, ∑ a, w a * E.lamb a ^ k = ∑ j, (c j / data.get 0) * z j ^ k := by
    intro k hk
    have h1 := pow_entry_sum hE ⟨0, hpos⟩ ⟨0, hpos⟩ k
    rw [hmom k hk] at h1
    simp only [hw]
    rw [← h1]
    push_cast
    rw [hdata k hk, sum_div]
    exact sum_congr rfl fun j _ => by ring
  have hcle : L.size ≤ hankelSize data.len := by
    rw [hsize]
    have := HermSvd.card_le hrank
    refine le_trans (card_le_card fun k hk => ?_) this
    simp only [mem_filter, mem_univ, true_and] at hk ⊢
    by_contra hc
    exact hk (hsep k (not_lt.1 hc))
  have huniq := moments_unique w E.lamb (fun j => c j / data.get 0) z (2 * hankelSize data.len + 1)
    (by simp only [Fintype.card_fin]; omega) (fun k hk => hsum k (by omega))
  -- every eigenvalue is one of the bases
  have hmem : ∀ a, ∃ j, z j = E.lamb a := by
    intro a0
    by_contra hno
    push Not at hno
    classical
    have hr := hS.rank
    rw [← hsize] at hr
    have hle := hankel_rank_le (univ.filter fun a => E.lamb a ≠ E.lamb a0) w E.lamb
      (Matrix.map (fun i j : Fin (hankelSize data.len + 1) => data.get (i.val + j.val) / data.get 0) Complex.ofReal) (fun i j => by
        have hk : i.val + j.val ≤ 2 * hankelSize data.len := by have := i.2; have := j.2; omega
        have := huniq fun x => if x = E.lamb a0 then 0 else x ^ (i.val + j.val)
        simp only [if_neg (hno _), mul_ite, mul_zero] at this
        show ((data.get (i.val + j.val) / data.get 0 : ℝ) : ℂ) = _
        rw [sum_filter]
        push_cast
        rw [hdata _ hk, sum_div]
        calc _ = ∑ j_1, c j_1 / data.get 0 * z j_1 ^ (i.val + j.val) := sum_congr rfl fun j _ => by ring
          _ = _ := this.symm
          _ = _ := sum_congr rfl fun a _ => by
            by_cases h : E.lamb a = E.lamb a0 <;> simp [h])
    rw [hr] at hle
    have : (univ.filter fun a => E.lamb a ≠ E.lamb a0).card < L.size := by
      have h1 : (univ.filter fun a => E.lamb a ≠ E.lamb a0) ⊂ univ := by
        rw [Finset.filter_ssubset]
        exact ⟨a0, mem_univ _, by simp⟩
      simpa using card_lt_card h1
    omega
  obtain ⟨m, g, A, hg, hclean, hA⟩ := clean_spec E L.jacobi hE dt remove
    (fun k => by obtain ⟨j, hj⟩ := hmem k; rw [← hj]; exact hz j)
    (fun hr k => by obtain ⟨j, hj⟩ := hmem k; rw [← hj]; exact hrem hr j)
  refine ⟨m, A, ?_, fun ts h1 => ?_⟩
  · rw [pronyFit, if_neg (by omega)]
    simp only [jacobiReduced, hL, Except.map, ← hEe, hclean]
  · have hm : m = L.size := by simpa using Fintype.card_congr g
    have hm0 : 0 < m := by omega
    rw [pronySeriesEval, if_neg h1]
    rw [mapM_of_ok _ (fun t => data.get 0 * (NormedSpace.exp (t • A) : Mat ℝ m m) ⟨0, hm0⟩ ⟨0, hm0⟩) _
      (fun t _ => by rw [pronyTerm, dif_pos hm0])]
    congr 1
    refine List.map_congr_left fun s _ => ?_
    have hg0 : g ⟨0, hm0⟩ = ⟨0, hpos⟩ := Fin.ext (hg _)
    have key := exp_reindex g (s • A) ⟨0, hm0⟩ ⟨0, hm0⟩
    have e1 : (((s • A).map Complex.ofReal).submatrix g.symm g.symm : Mat ℂ L.size L.size) =
        E.vect * diagonal ((s : ℂ) • fun k => Complex.log (E.lamb k) / dt) * E.vect⁻¹ := by
      rw [diagonal_smul, Matrix.mul_smul, Matrix.smul_mul, ← hA]
      ext i j; simp
    rw [e1, Matrix.exp_conj _ _ ((isUnit_iff_isUnit_det _).2 hE.unit), Matrix.exp_diagonal, hg0, Matrix.mul_apply] at key
    have e2 : (((NormedSpace.exp (s • A) : Mat ℝ m m) ⟨0, hm0⟩ ⟨0, hm0⟩ : ℝ) : ℂ) =
        ∑ j, c j / data.get 0 * Complex.exp (s * (Complex.log (z j) / dt)) := by
      rw [key, ← huniq fun x => Complex.exp (s * (Complex.log x / dt))]
      refine sum_congr rfl fun a _ => ?_
      rw [mul_diagonal, hw, Pi.coe_exp, ← Complex.exp_eq_exp_ℂ]
      simp only [Pi.smul_apply, smul_eq_mul]
      ring
    have e3 : ((data.get 0 * (NormedSpace.exp (s • A) : Mat ℝ m m) ⟨0, hm0⟩ ⟨0, hm0⟩ : ℝ) : ℂ) =
        ∑ j, c j * Complex.exp (s * (Complex.log (z j) / dt)) := by
      rw [Complex.ofReal_mul, e2, mul_sum]
      refine sum_congr rfl fun j _ => ?_
      field_simp
    rw [← e3, Complex.ofReal_re]

/-! ## The eigenvalues -/

/-- The contract of `np.linalg.eig` for any matrix: eigenvectors that are not zero, and the eigenvalues with their
multiplicities. -/
structure EigData.IsNumpyEig {N : ℕ} (E : EigData N) (J : Mat ℝ N N) : Prop where
  eq : (J.map Complex.ofReal) * E.vect = E.vect * Matrix.diagonal E.lamb
  nonzero : ∀ a, ∃ i, E.vect i a ≠ 0
  roots : (J.map Complex.ofReal).charpoly = ∏ a, (Polynomial.X - Polynomial.C (E.lamb a))

/-- Simple eigenvalues have independent eigenvectors. -/
theorem EigData.IsNumpyEig.isEig {N : ℕ} {E : EigData N} {J : Mat ℝ N N} (h : E.IsNumpyEig J) {z : Fin N → ℂ}
    (hz : Function.Injective z) (hJ : (J.map Complex.ofReal).charpoly = ∏ a, (Polynomial.X - Polynomial.C (z a))) : E.IsEig J := by
  have hinj : Function.Injective E.lamb := by
    have e := h.roots.symm.trans hJ
    have h1 : ∀ f : Fin N → ℂ, (∏ a, (Polynomial.X - Polynomial.C (f a))).roots = univ.val.map f := by
      intro f
      have := Polynomial.roots_multiset_prod_X_sub_C (univ.val.map f)
      rwa [Multiset.map_map] at this
    have h2 := (h1 E.lamb).symm.trans ((congrArg Polynomial.roots e).trans (h1 z))
    have h3 : (univ.val.map E.lamb).Nodup := by
      rw [h2]; exact univ.nodup.map hz
    intro a b hab
    exact Multiset.inj_on_of_nodup_map h3 a (mem_univ a) b (mem_univ b) hab
  refine ⟨h.eq, (isUnit_iff_isUnit_det _).1 (linearIndependent_cols_iff_isUnit.1 ?_)⟩
  refine Module.End.eigenvectors_linearIndependent' (Matrix.mulVecLin (J.map Complex.ofReal)) E.lamb hinj E.vect.col fun a => ?_
  rw [Module.End.hasEigenvector_iff, Module.End.mem_eigenspace_iff]
  refine ⟨?_, fun h0 => ?_⟩
  · funext i
    have := congrFun (congrFun h.eq i) a
    rw [mul_diagonal] at this
    rw [Pi.smul_apply, smul_eq_mul, mul_comm]
    exact this
  · obtain ⟨i, hi⟩ := h.nonzero a
    exact hi (congrFun h0 i)

/-- A matrix whose moments are a sum of as many powers as its size, with a regular Hankel matrix, has the bases as
simple eigenvalues. -/
theorem charpoly_of_moments {N : ℕ} (J : Mat ℂ N N) (o : Fin N) (c z : Fin N → ℂ)
    (hmom : ∀ k < 2 * N, (J ^ k) o o = ∑ j, c j * z j ^ k)
    (hdet : (Matrix.of fun i j : Fin N => ∑ a, c a * z a ^ (i.val + j.val)).det ≠ 0) :
    Function.Injective z ∧ J.charpoly = ∏ a, (Polynomial.X - Polynomial.C (z a)) := by
  obtain ⟨V, hV⟩ : ∃ V, V = vandermonde z := ⟨_, rfl⟩
  obtain ⟨R, hR⟩ : ∃ R : Mat ℂ N N, R = Matrix.of fun i b => (J ^ i.val) o b := ⟨_, rfl⟩
  obtain ⟨Q, hQ⟩ : ∃ Q : Mat ℂ N N, Q = Matrix.of fun a j => (J ^ j.val) a o := ⟨_, rfl⟩
  have e1 : (Matrix.of fun i j : Fin N => ∑ a, c a * z a ^ (i.val + j.val)) = Vᵀ * diagonal c * V := by
    ext i j
    rw [Matrix.mul_apply, of_apply]
    refine sum_congr rfl fun a _ => ?_
    rw [mul_diagonal, hV, transpose_apply, vandermonde_apply, vandermonde_apply, pow_add]; ring
  have e2 : R * Q = Vᵀ * diagonal c * V := by
    rw [← e1]
    ext i j
    rw [of_apply, ← hmom _ (by have := i.2; have := j.2; omega), pow_add, Matrix.mul_apply, Matrix.mul_apply, hR, hQ]
    rfl
  have e3 : R * (J * Q) = Vᵀ * diagonal c * diagonal z * V := by
    ext i j
    have : (R * (J * Q)) i j = (J ^ (i.val + j.val + 1)) o o := by
      rw [show i.val + j.val + 1 = i.val + (1 + j.val) by ring, pow_add, pow_add, pow_one, Matrix.mul_apply, Matrix.mul_apply, hR, hQ]
      rfl
    rw [this, hmom _ (by have := i.2; have := j.2; omega), Matrix.mul_apply]
    refine sum_congr rfl fun a _ => ?_
    rw [mul_diagonal, mul_diagonal, hV, transpose_apply, vandermonde_apply, vandermonde_apply, pow_add, pow_add]; ring
  rw [e1, det_mul, det_mul, det_transpose] at hdet
  have hVd : V.det ≠ 0 := right_ne_zero_of_mul hdet
  have hVu : IsUnit V.det := isUnit_iff_ne_zero.2 hVd
  have hRQ : R.det * Q.det ≠ 0 := by
    rw [← det_mul, e2, det_mul, det_mul, det_transpose]; exact hdet
  have hRu : IsUnit R.det := isUnit_iff_ne_zero.2 (left_ne_zero_of_mul hRQ)
  have hQu : IsUnit Q.det := isUnit_iff_ne_zero.2 (right_ne_zero_of_mul hRQ)
  have hsim : J * (Q * V⁻¹) = Q * V⁻¹ * diagonal z := by
    have : R * (J * (Q * V⁻¹)) = R * (Q * V⁻¹ * diagonal z) := by
      calc _ = R * (J * Q) * V⁻¹ := by simp only [Matrix.mul_assoc]
        _ = Vᵀ * diagonal c * diagonal z := by rw [e3, Matrix.mul_nonsing_inv_cancel_right _ _ hVu]
        _ = R * Q * V⁻¹ * diagonal z := by rw [e2, Matrix.mul_nonsing_inv_cancel_right _ _ hVu]
        _ = _ := by simp only [Matrix.mul_assoc]
    have := congrArg (R⁻¹ * ·) this
    simpa only [Matrix.nonsing_inv_mul_cancel_left _ _ hRu] using this
  have hPu : IsUnit (Q * V⁻¹) := by
    rw [isUnit_iff_isUnit_det, det_mul]
    exact hQu.mul ((isUnit_iff_isUnit_det _).1 (isUnit_nonsing_inv_iff.2 ((isUnit_iff_isUnit_det _).2 hVu)))
  refine ⟨det_vandermonde_ne_zero_iff.1 (hV ▸ hVd), ?_⟩
  obtain ⟨P, hP⟩ := hPu
  have : J = P.val * diagonal z * P.val⁻¹ := by
    rw [hP, ← hsim, Matrix.mul_nonsing_inv_cancel_right _ _ (by rw [← hP]; exact (isUnit_iff_isUnit_det _).1 P.isUnit)]
  rw [this, charpoly_units_conj, charpoly_diagonal]

/-- **C140.** The Prony fit of a sum of `p` exponentials sampled at `2 p + 1` points or more is that sum, at all times.
The bases `z_j` must have a logarithm that the code finds, the singular values of the Hankel matrix that are not zero
must be above the threshold, and no leading minor may be smaller than the threshold times the previous one. -/
theorem C140_exponentials (data : Arr ℝ) (dt : ℝ) (svd : (n : ℕ) → Mat ℝ (n + 1) (n + 1) → HermSvd n)
    (eig : (N : ℕ) → Mat ℝ N N → EigData N) (hE : ∀ N J, (eig N J).IsNumpyEig J) (eps t : ℝ) (ht : 0 < t) (remove : Bool)
    (p : ℕ) (hp : 0 < p) (hlen : 2 * p + 1 ≤ data.len) (c z : Fin p → ℂ)
    (hdata : ∀ k < data.len, (data.get k : ℂ) = ∑ j, c j * z j ^ k)
    (hz : ∀ j, 0 < (z j).re ∨ 1e-15 ≤ |(z j).im|) (hrem : remove = true → ∀ j, ‖z j‖ ≤ 1)
    (n : ℕ) (hn : n = (data.len - 1) / 2) (H : Mat ℝ (n + 1) (n + 1)) (hH : H = fun i j => data.get (i.val + j.val) / data.get 0)
    (hS : (svd n H).IsSvd H) (hsep : ∀ k, (svd n H).s k ≤ t → (svd n H).s k = 0)
    (hminor : ∀ k < p, t * |Spec.hankelDet (fun i => data.get i / data.get 0) k| ≤
      |Spec.hankelDet (fun i => data.get i / data.get 0) (k + 1)|) :
    ∃ (m : ℕ) (A : Mat ℝ m m), pronyFit data dt svd eig eps (some t) none remove = .ok (data.get 0, ⟨m, A⟩) ∧
      ∀ ts : List ℝ, ts.length ≠ 1 →
        pronySeriesEval ts (data.get 0) m A = .ok (ts.map fun s : ℝ => (∑ j, c j * Complex.exp (s * (Complex.log (z j) / dt))).re) := by
  have hmin0 := hminor 0 hp
  have hD0 : Spec.hankelDet (fun i => data.get i / data.get 0) 0 = 1 := by simp [Spec.hankelDet]
  have hD1 : Spec.hankelDet (fun i => data.get i / data.get 0) 1 = data.get 0 / data.get 0 := by simp [Spec.hankelDet]
  have h0 : data.get 0 ≠ 0 := by
    intro h0
    rw [hD0, hD1, h0, div_zero] at hmin0
    simp at hmin0
    linarith
  have ht1 : t ≤ 1 := by
    rw [hD0, hD1, div_self h0] at hmin0
    simpa using hmin0
  have h0' : (data.get 0 : ℂ) ≠ 0 := by exact_mod_cast h0
  have hne : ∀ k ≤ p, Spec.hankelDet (fun i => data.get i / data.get 0) k ≠ 0 := by
    intro k
    induction k with
    | zero => intro _; rw [hD0]; norm_num
    | succ k ih =>
      intro hk
      have h1 := hminor k (by omega)
      exact abs_pos.1 (lt_of_lt_of_le (mul_pos ht (abs_pos.2 (ih (by omega)))) h1)
  have hpn : p ≤ n := by omega
  have hy : ∀ k ≤ 2 * n, ((data.get k / data.get 0 : ℝ) : ℂ) = ∑ j, (c j / data.get 0) * z j ^ k := by
    intro k hk
    push_cast
    rw [hdata k (by omega), sum_div]
    exact sum_congr rfl fun j _ => by ring
  -- the Hankel matrix of size `p`
  have hdet : (Matrix.of fun i j : Fin p => ∑ a, c a / data.get 0 * z a ^ (i.val + j.val)).det ≠ 0 := by
    have e : (Matrix.of fun i j : Fin p => ∑ a, c a / data.get 0 * z a ^ (i.val + j.val)) =
        (Matrix.of fun i j : Fin p => data.get (i.val + j.val) / data.get 0).map Complex.ofRealHom := by
      ext i j
      rw [of_apply, map_apply, of_apply]
      exact (hy _ (by have := i.2; have := j.2; omega)).symm
    rw [e, ← RingHom.mapMatrix_apply, ← RingHom.map_det]
    exact (map_ne_zero _).2 (hne p le_rfl)
  -- the rank
  have hrk : (univ.filter fun k => (svd n H).s k ≠ 0).card = p := by
    rw [← hS.rank]
    refine le_antisymm ?_ ?_
    · have := hankel_rank_le univ (fun j => c j / (data.get 0 : ℂ)) z (H.map Complex.ofReal) (fun i j => by
        rw [map_apply, hH]
        exact hy _ (by have := i.2; have := j.2; omega))
      simpa using this
    · have h1 := Matrix.rank_submatrix_le (H.map Complex.ofReal) (Fin.castLE (by omega : p ≤ n + 1)) (Fin.castLE (by omega : p ≤ n + 1))
      have h2 : (H.map Complex.ofReal).submatrix (Fin.castLE (by omega : p ≤ n + 1)) (Fin.castLE (by omega : p ≤ n + 1)) =
          Matrix.of fun i j : Fin p => ∑ a, c a / data.get 0 * z a ^ (i.val + j.val) := by
        ext i j
        rw [submatrix_apply, map_apply, hH, of_apply]
        exact hy _ (by have := i.2; have := j.2; omega)
      rw [h2, Matrix.rank_of_isUnit _ ((isUnit_iff_isUnit_det _).2 (isUnit_iff_ne_zero.2 hdet)), Fintype.card_fin] at h1
      exact h1
  subst hH
  obtain ⟨hrank, L, hL, hsize, hlast⟩ := ldlHankel_full ⟨data.len, fun i => data.get i / data.get 0⟩ n (by show _ ≤ data.len; omega)
    (svd n) eps t hS hsep ht hrk.symm hp hpn hminor
  obtain ⟨hpos, hmom⟩ := C91_moments ⟨data.len, fun i => data.get i / data.get 0⟩ _ (svd _) eps t L hS hsep hrank ht ht1
    (div_self h0) hL (hsize.trans hrk.symm) hlast
  refine C140_recovers data (by omega) h0 dt svd eig eps t remove n hn _ rfl hS hsep hrank ht ht1 L hL (hsize.trans hrk.symm) hlast ?_
    p hpn c z (fun k hk => hdata k (by omega)) hz hrem
  obtain ⟨e, he⟩ : ∃ e : Fin L.size ≃ Fin p, e = finCongr hsize := ⟨_, rfl⟩
  have hkey := charpoly_of_moments (L.jacobi.map Complex.ofReal) ⟨0, hpos⟩ (fun a => c (e a) / data.get 0) (fun a => z (e a))
    (fun k hk => by
      have e3 : (L.jacobi.map Complex.ofReal) ^ k = ((L.jacobi ^ k).map Complex.ofReal) :=
        (map_pow (RingHom.mapMatrix Complex.ofRealHom) L.jacobi k).symm
      rw [e3, map_apply, hmom k (by omega)]
      rw [hy k (by omega)]
      exact (Equiv.sum_comp e fun j => c j / (data.get 0 : ℂ) * z j ^ k).symm)
    (by
      have : ∀ (q : ℕ) (h : q = p), (Matrix.of fun i j : Fin q => ∑ a : Fin q, c (finCongr h a) / (data.get 0 : ℂ) *
          z (finCongr h a) ^ (i.val + j.val)).det ≠ 0 := by
        rintro q rfl
        exact hdet
      rw [he]
      exact this _ hsize)
  exact (hE _ _).isEig hkey.1 hkey.2

/-- The Hankel determinants of a sum of powers of distinct numbers with positive weights are positive. -/
theorem hankelDet_pos {p : ℕ} (c z : Fin p → ℝ) (hc : ∀ j, 0 < c j) (hz : Function.Injective z) {k : ℕ} (hk : k ≤ p) :
    0 < Spec.hankelDet (fun i => ∑ j, c j * z j ^ i) k := by
  obtain ⟨M, hM⟩ : ∃ M : Mat ℝ k k, M = Matrix.of fun i j : Fin k => ∑ a, c a * z a ^ (i.val + j.val) := ⟨_, rfl⟩
  have hq : ∀ x : Fin k → ℝ, x ⬝ᵥ (M *ᵥ x) = ∑ a, c a * (∑ i, x i * z a ^ i.val) ^ 2 := by
    intro x
    have e1 : x ⬝ᵥ (M *ᵥ x) = ∑ i, ∑ j, ∑ a, c a * ((x i * z a ^ i.val) * (x j * z a ^ j.val)) := by
      rw [dotProduct]
      refine sum_congr rfl fun i _ => ?_
      rw [mulVec, dotProduct, mul_sum]
      refine sum_congr rfl fun j _ => ?_
      rw [hM, of_apply, sum_mul, mul_sum]
      exact sum_congr rfl fun a _ => by rw [pow_add]; ring
    rw [e1]
    have e2 : ∀ a, c a * (∑ i : Fin k, x i * z a ^ i.val) ^ 2 = ∑ i, ∑ j, c a * ((x i * z a ^ i.val) * (x j * z a ^ j.val)) := by
      intro a
      rw [sq, sum_mul_sum, mul_sum]
      exact sum_congr rfl fun i _ => by rw [mul_sum]
    simp only [e2]
    rw [sum_comm (s := univ (α := Fin p))]
    refine sum_congr rfl fun i _ => ?_
    rw [sum_comm]
  have hpd : M.PosDef := by
    refine Matrix.PosDef.of_dotProduct_mulVec_pos ?_ fun {x} hx => ?_
    · ext i j
      rw [conjTranspose_apply, hM, of_apply, of_apply, star_trivial]
      exact sum_congr rfl fun a _ => by rw [add_comm]
    · rw [star_trivial, hq]
      refine lt_of_le_of_ne (sum_nonneg fun a _ => mul_nonneg (hc a).le (sq_nonneg _)) fun h0 => hx ?_
      have h1 := (sum_eq_zero_iff_of_nonneg fun a _ => mul_nonneg (hc a).le (sq_nonneg _)).1 h0.symm
      have h2 : ∀ a, ∑ i : Fin k, x i * z a ^ i.val = 0 := fun a => by
        have := h1 a (mem_univ a)
        rcases mul_eq_zero.1 this with h | h
        · exact absurd h (hc a).ne'
        · exact pow_eq_zero_iff (two_ne_zero) |>.1 h
      have h3 : (vandermonde fun i : Fin k => z (Fin.castLE hk i)) *ᵥ x = 0 := by
        funext i
        refine Eq.trans ?_ (h2 (Fin.castLE hk i))
        show ∑ j, vandermonde (fun i : Fin k => z (Fin.castLE hk i)) i j * x j = _
        exact sum_congr rfl fun j _ => by rw [mul_comm, vandermonde_apply]
      by_contra hx0
      have := exists_mulVec_eq_zero_iff.1 ⟨x, hx0, h3⟩
      exact (det_vandermonde_ne_zero_iff.2 fun i j hij => Fin.castLE_injective hk (hz hij)) this
  rw [Spec.hankelDet, ← hM]
  exact hpd.det_pos

/-- **C140.** A sum of `p` distinct decaying exponentials with positive weights, sampled at `2 p + 1` points or more, is
recovered at all times, for all thresholds that are small enough. -/
theorem C140_relaxation (data : Arr ℝ) (dt : ℝ) (hdt : 0 < dt) (svd : (n : ℕ) → Mat ℝ (n + 1) (n + 1) → HermSvd n)
    (eig : (N : ℕ) → Mat ℝ N N → EigData N) (hE : ∀ N J, (eig N J).IsNumpyEig J) (eps : ℝ) (remove : Bool)
    (p : ℕ) (hp : 0 < p) (hlen : 2 * p + 1 ≤ data.len) (c r : Fin p → ℝ) (hc : ∀ j, 0 < c j) (hr : ∀ j, 0 ≤ r j)
    (hinj : Function.Injective r) (hdata : ∀ k < data.len, data.get k = ∑ j, c j * Real.exp (-r j * (k * dt)))
    (n : ℕ) (hn : n = (data.len - 1) / 2) (H : Mat ℝ (n + 1) (n + 1)) (hH : H = fun i j => data.get (i.val + j.val) / data.get 0)
    (hS : (svd n H).IsSvd H) :
    ∃ t0 > 0, ∀ t, 0 < t → t ≤ t0 →
      ∃ (m : ℕ) (A : Mat ℝ m m), pronyFit data dt svd eig eps (some t) none remove = .ok (data.get 0, ⟨m, A⟩) ∧
        ∀ ts : List ℝ, ts.length ≠ 1 →
          pronySeriesEval ts (data.get 0) m A = .ok (ts.map fun s => ∑ j, c j * Real.exp (-r j * s)) := by
  have h0 : 0 < data.get 0 := by
    rw [hdata 0 (by omega)]
    have : Nonempty (Fin p) := ⟨⟨0, hp⟩⟩
    exact sum_pos (fun j _ => mul_pos (hc j) (Real.exp_pos _)) univ_nonempty
  have hpow : ∀ (k : ℕ) (j : Fin p), Real.exp (-r j * (k * dt)) = Real.exp (-r j * dt) ^ k := fun k j => by
    rw [← Real.exp_nat_mul]; congr 1; ring
  have hzinj : Function.Injective fun j => Real.exp (-r j * dt) := by
    intro i j hij
    have h1 : -r i * dt = -r j * dt := Real.exp_injective hij
    have h2 : -r i = -r j := mul_right_cancel₀ hdt.ne' h1
    exact hinj (neg_injective h2)
  have hD : ∀ k ≤ p, 0 < Spec.hankelDet (fun i => data.get i / data.get 0) k := by
    intro k hk
    have h1 := hankelDet_pos (fun j => c j / data.get 0) (fun j => Real.exp (-r j * dt)) (fun j => div_pos (hc j) h0) hzinj hk
    have e : Spec.hankelDet (fun i => data.get i / data.get 0) k =
        Spec.hankelDet (fun i => ∑ j, c j / data.get 0 * Real.exp (-r j * dt) ^ i) k := by
      rw [Spec.hankelDet, Spec.hankelDet]
      congr 1
      ext i j
      rw [of_apply, of_apply]
      rw [hdata _ (by have := i.2; have := j.2; omega), sum_div]
      exact sum_congr rfl fun a _ => by rw [hpow]; ring
    rw [e]; exact h1
  have hev : ∀ᶠ t in nhdsWithin (0 : ℝ) (Set.Ioi 0), (∀ k, (svd n H).s k ≤ t → (svd n H).s k = 0) ∧
      ∀ k : Fin p, t * |Spec.hankelDet (fun i => data.get i / data.get 0) k| ≤ |Spec.hankelDet (fun i => data.get i / data.get 0) (k + 1)| := by
    refine (Filter.eventually_all.2 fun k => ?_).and (Filter.eventually_all.2 fun k => ?_)
    · rcases eq_or_ne ((svd n H).s k) 0 with h | h
      · exact Filter.Eventually.of_forall fun t _ => h
      · have hpos : 0 < (svd n H).s k := lt_of_le_of_ne (hS.nonneg k) h.symm
        filter_upwards [Ioo_mem_nhdsGT hpos] with t ht hle
        exact absurd hle (not_le.2 ht.2)
    · have h1 := hD k k.2.le
      have h2 := hD (k + 1) k.2
      filter_upwards [Ioo_mem_nhdsGT (div_pos h2 h1)] with t ht
      rw [abs_of_pos h1, abs_of_pos h2]
      exact ((lt_div_iff₀ h1).1 ht.2).le
  obtain ⟨t0, ht0, hsub⟩ := mem_nhdsGT_iff_exists_Ioc_subset.1 hev
  refine ⟨t0, ht0, fun t ht hle => ?_⟩
  obtain ⟨hsep, hminor⟩ := hsub ⟨ht, hle⟩
  obtain ⟨m, A, hfit, heval⟩ := C140_exponentials data dt svd eig hE eps t ht remove p hp hlen (fun j => (c j : ℂ))
    (fun j => (Real.exp (-r j * dt) : ℂ)) (fun k hk => by
      rw [hdata k hk]
      push_cast
      refine sum_congr rfl fun j _ => ?_
      rw [← Complex.exp_nat_mul]; congr 2; ring)
    (fun j => Or.inl (by rw [Complex.ofReal_re]; exact Real.exp_pos _))
    (fun _ j => by
      rw [Complex.norm_real, Real.norm_of_nonneg (Real.exp_pos _).le, Real.exp_le_one_iff]
      have := mul_nonneg (hr j) hdt.le
      linarith)
    n hn H hH hS hsep (fun k hk => hminor ⟨k, hk⟩)
  refine ⟨m, A, hfit, fun ts h1 => ?_⟩
  rw [heval ts h1]
  congr 1
  refine List.map_congr_left fun s _ => ?_
  have e : (∑ j, (c j : ℂ) * Complex.exp (s * (Complex.log (Real.exp (-r j * dt) : ℂ) / dt))) = ((∑ j, c j * Real.exp (-r j * s) : ℝ) : ℂ) := by
    push_cast
    refine sum_congr rfl fun j _ => ?_
    have hl : Complex.log (Complex.exp (-(r j : ℂ) * dt)) = -(r j : ℂ) * dt := by
      have : Complex.exp (-(r j : ℂ) * dt) = ((Real.exp (-r j * dt) : ℝ) : ℂ) := by push_cast; rfl
      rw [this, ← Complex.ofReal_log (Real.exp_pos _).le, Real.log_exp]
      push_cast; rfl
    rw [hl]
    congr 2
    have : (dt : ℂ) ≠ 0 := by exact_mod_cast hdt.ne'
    field_simp
  exact (congrArg Complex.re e).trans (Complex.ofReal_re _)

/-! ## An example: a cosine sampled four times a period -/

/-- The contract of `np.linalg.eig` can be met for every matrix. -/
theorem exists_numpyEig (N : ℕ) (J : Mat ℝ N N) : ∃ E : EigData N, E.IsNumpyEig J := by
  obtain ⟨P, hP⟩ : ∃ P, P = (J.map Complex.ofReal).charpoly := ⟨_, rfl⟩
  have hmon : P.Monic := hP ▸ charpoly_monic _
  have hspl := IsAlgClosed.splits P
  have hcard : P.roots.card = N := by
    rw [← hspl.natDegree_eq_card_roots, hP, charpoly_natDegree_eq_dim, Fintype.card_fin]
  obtain ⟨l, hl⟩ : ∃ l : List ℂ, (l : Multiset ℂ) = P.roots := ⟨P.roots.toList, P.roots.coe_toList⟩
  have hlen : l.length = N := by rw [← hcard, ← hl, Multiset.coe_card]
  subst hlen
  have hvec : ∀ a : Fin l.length, ∃ v : Fin l.length → ℂ, v ≠ 0 ∧ (J.map Complex.ofReal) *ᵥ v = l.get a • v := by
    intro a
    have hroot : P.IsRoot (l.get a) := by
      have : l.get a ∈ P.roots := by rw [← hl]; exact List.get_mem _ _
      exact (Polynomial.mem_roots'.1 this).2
    have hdet : (scalar (Fin l.length) (l.get a) - J.map Complex.ofReal).det = 0 := by
      rw [hP, Polynomial.IsRoot, eval_charpoly] at hroot
      exact hroot
    obtain ⟨v, hv, hv0⟩ := exists_mulVec_eq_zero_iff.2 hdet
    refine ⟨v, hv, ?_⟩
    rw [sub_mulVec, sub_eq_zero] at hv0
    rw [← hv0, scalar_apply, diagonal_const_mulVec]
  choose v hv hev using hvec
  refine ⟨⟨fun a => l.get a, Matrix.of fun i a => v a i⟩, ⟨?_, fun a => ?_, ?_⟩⟩
  · ext i a
    rw [mul_diagonal]
    have := congrFun (hev a) i
    rw [Pi.smul_apply, smul_eq_mul, mul_comm] at this
    exact this
  · by_contra hc
    push Not at hc
    exact hv a (funext fun i => hc i)
  · rw [← hP]
    have h1 := hspl.eq_prod_roots_of_monic hmon
    rw [h1, ← hl, Multiset.map_coe, Multiset.prod_coe, ← List.prod_ofFn]
    congr 1
    exact (List.ofFn_getElem_eq_map l fun x => Polynomial.X - Polynomial.C x).symm

namespace PronyExample4

/-- The data: a cosine. -/
noncomputable def data : Arr ℝ := ⟨5, fun i => if i % 2 = 1 then 0 else if i % 4 = 0 then 1 else -1⟩

/-- Its Hankel matrix. -/
noncomputable def H : Mat ℝ 3 3 := fun i j => data.get (i.val + j.val) / data.get 0

/-- Its singular value decomposition. -/
noncomputable def S : HermSvd 2 := ⟨!![1 / √2, 0, 1 / √2; 0, 1, 0; -(1 / √2), 0, 1 / √2], ![2, 1, 0], ![1, -1, 0]⟩

theorem S_svd : S.IsSvd H where
  orth := by
    have h : √2 * √2 = (2 : ℝ) := Real.mul_self_sqrt (by norm_num)
    have h2 : √2 ≠ (0 : ℝ) := (Real.sqrt_pos.2 (by norm_num)).ne'
    ext i j
    fin_cases i <;> fin_cases j <;> simp [S, Matrix.mul_apply, Fin.sum_univ_three] <;> field_simp <;> nlinarith [h]
  nonneg := by intro k; fin_cases k <;> norm_num [S]
  anti := by
    intro a b hab
    fin_cases a <;> fin_cases b <;> simp [S] at hab ⊢
  sgn := by intro k; fin_cases k <;> simp [S]
  eq := by
    have h : √2 * √2 = (2 : ℝ) := Real.mul_self_sqrt (by norm_num)
    have h2 : √2 ≠ (0 : ℝ) := (Real.sqrt_pos.2 (by norm_num)).ne'
    intro i j
    fin_cases i <;> fin_cases j <;> simp [S, H, data, Fin.sum_univ_three] <;> field_simp <;> nlinarith [h]

/-- The singular value decompositions. -/
noncomputable def svd : (n : ℕ) → Mat ℝ (n + 1) (n + 1) → HermSvd n
  | 2, _ => S
  | _, _ => ⟨0, 0, 0⟩

theorem cosine (k : ℕ) : (data.get k : ℂ) = ∑ j : Fin 2, (fun _ => 1 / 2 : Fin 2 → ℂ) j * (![Complex.I, -Complex.I] : Fin 2 → ℂ) j ^ k := by
  rw [Fin.sum_univ_two]
  have h4 : Complex.I ^ 4 = 1 := Complex.I_pow_four
  obtain ⟨q, r, hr, rfl⟩ : ∃ q r, r < 4 ∧ k = 4 * q + r := ⟨k / 4, k % 4, Nat.mod_lt _ (by norm_num), (Nat.div_add_mod k 4).symm⟩
  simp only [cons_val_zero, cons_val_one, pow_add, pow_mul, neg_pow Complex.I, h4, one_pow, one_mul]
  interval_cases r <;> simp [data, Nat.add_mod, Nat.mul_mod, pow_succ]
  all_goals norm_num

example := C140_exponentials data (1 / 4) svd (fun N J => (exists_numpyEig N J).choose) (fun N J => (exists_numpyEig N J).choose_spec)
  0 (1 / 10) (by norm_num) true 2 (by norm_num) (by simp [data]) (fun _ => 1 / 2) ![Complex.I, -Complex.I] (fun k _ => cosine k)
  (fun j => Or.inr (by fin_cases j <;> norm_num)) (fun _ j => by fin_cases j <;> simp) 2 rfl H rfl S_svd
  (fun k h => by fin_cases k <;> simp [svd, S] at h ⊢ <;> norm_num at h)
  (fun k hk => by interval_cases k <;> simp [Spec.hankelDet, data, det_fin_two] <;> norm_num)

end PronyExample4

open PronyExample in
example := C140_relaxation data (1 / 4) (by norm_num) svd (fun N J => (exists_numpyEig N J).choose)
  (fun N J => (exists_numpyEig N J).choose_spec) 0 true 1 one_pos (by simp [data]) (fun _ => 2) (fun _ => 4 * Real.log 2)
  (fun _ => by norm_num) (fun _ => by positivity) (fun i j _ => Subsingleton.elim i j)
  (fun k _ => by
    have : -(4 * Real.log 2) * (k * (1 / 4)) = k * Real.log (1 / 2) := by
      rw [one_div (2 : ℝ), Real.log_inv]; ring
    simp only [data, univ_unique, sum_const, card_singleton, one_smul, this]
    rw [Real.exp_nat_mul, Real.exp_log (by norm_num)])
  1 rfl H rfl S_svd

end Verif
