import Verif.Model.Prony
import Mathlib.Order.Interval.Finset.Fin

/-!
# Facts about the forms, the orthogonalisation and its loop
-/

namespace Verif

open Finset

variable {n : ℕ} {H : Mat ℝ n n}

theorem phi_eq (H : Mat ℝ n n) (u v : Fin n → ℝ) : phi H u v = u ⬝ᵥ H.mulVec v := rfl

theorem phi_symm (h : H.IsSymm) (u v : Fin n → ℝ) : phi H u v = phi H v u := by
  rw [phi_eq, phi_eq, Matrix.dotProduct_mulVec, ← Matrix.mulVec_transpose, h.eq, dotProduct_comm]

theorem phi_sub_left (u u' v : Fin n → ℝ) : phi H (u - u') v = phi H u v - phi H u' v := by
  simp [phi_eq, sub_dotProduct]

theorem phi_smul_left (c : ℝ) (u v : Fin n → ℝ) : phi H (c • u) v = c * phi H u v := by
  simp [phi_eq, smul_dotProduct]

theorem phi_smul_right (c : ℝ) (u v : Fin n → ℝ) : phi H u (c • v) = c * phi H u v := by
  simp [phi_eq, Matrix.mulVec_smul]

theorem phi_sub_right (u v v' : Fin n → ℝ) : phi H u (v - v') = phi H u v - phi H u v' := by
  simp [phi_eq, Matrix.mulVec_sub]

theorem phi_sum_right {ι : Type*} (s : Finset ι) (u : Fin n → ℝ) (f : ι → Fin n → ℝ) :
    phi H u (∑ i ∈ s, f i) = ∑ i ∈ s, phi H u (f i) := by
  simp [phi_eq, Matrix.mulVec_sum, dotProduct_sum]

theorem phi_single (i j : Fin n) : phi H (Pi.single i 1) (Pi.single j 1) = H i j := by
  simp [phi_eq]

/-- Pairwise orthogonal for `H`, none of them isotropic. -/
def Frame (H : Mat ℝ n n) (us : List (Fin n → ℝ)) : Prop :=
  us.Pairwise (fun u v => phi H u v = 0) ∧ ∀ u ∈ us, phi H u u ≠ 0

theorem orthogonalise_spec (hs : H.IsSymm) (v : Fin n → ℝ) : ∀ us : List (Fin n → ℝ), Frame H us →
    ∀ u ∈ us, phi H (orthogonalise H us v) u = 0 := by
  intro us
  induction us using List.reverseRecOn with
  | nil => intro _ u hu; exact absurd hu (by simp)
  | append_singleton us w ih =>
    rintro ⟨hp, hn⟩ u hu
    rw [List.pairwise_append] at hp
    have hfr : Frame H us := ⟨hp.1, fun u hu => hn u (by simp [hu])⟩
    have hw : phi H w w ≠ 0 := hn w (by simp)
    have e : orthogonalise H (us ++ [w]) v =
        orthogonalise H us v - (phi H (orthogonalise H us v) w / phi H w w) • w := by
      simp [orthogonalise, List.foldl_append]
    rw [e, phi_sub_left, phi_smul_left]
    rcases List.mem_append.1 hu with hu | hu
    · have h1 : phi H w u = 0 := by rw [phi_symm hs]; exact hp.2.2 u hu w (by simp)
      rw [ih hfr u hu, h1]; ring
    · obtain rfl : u = w := by simpa using hu
      field_simp; ring

theorem Frame.append (hs : H.IsSymm) {us : List (Fin n → ℝ)} (hf : Frame H us) (v : Fin n → ℝ)
    (h : phi H (orthogonalise H us v) (orthogonalise H us v) ≠ 0) : Frame H (us ++ [orthogonalise H us v]) := by
  refine ⟨List.pairwise_append.2 ⟨hf.1, by simp, ?_⟩, ?_⟩
  · intro a ha b hb
    obtain rfl : b = orthogonalise H us v := by simpa using hb
    rw [phi_symm hs]; exact orthogonalise_spec hs v us hf a ha
  · intro u hu
    rcases List.mem_append.1 hu with hu | hu
    · exact hf.2 u hu
    · obtain rfl : u = orthogonalise H us v := by simpa using hu
      exact h

theorem ldlLoop_frame (hs : H.IsSymm) {N : ℕ} {t : ℝ} (ht : 0 < t) : ∀ (is : List (Fin n)) (us out : List (Fin n → ℝ)),
    Frame H us → us.length ≤ N → ldlLoop H N t is us = .ok out →
      Frame H out ∧ out.length ≤ N ∧ us <+: out := by
  intro is
  induction is with
  | nil =>
    intro us out hf hl h
    simp only [ldlLoop, Except.ok.injEq] at h
    subst h; exact ⟨hf, hl, List.prefix_refl _⟩
  | cons i is ih =>
    intro us out hf hl h
    rw [ldlLoop] at h
    by_cases h1 : t ≤ |phi H (orthogonalise H us (Pi.single i 1)) (orthogonalise H us (Pi.single i 1))|
    · rw [if_pos h1] at h
      have hne : phi H (orthogonalise H us (Pi.single i 1)) (orthogonalise H us (Pi.single i 1)) ≠ 0 :=
        abs_pos.1 (lt_of_lt_of_le ht h1)
      have hf' := hf.append hs _ hne
      by_cases h2 : us.length < N
      · rw [if_pos h2] at h
        by_cases h3 : N ≤ us.length + 1
        · rw [if_pos h3, Except.ok.injEq] at h
          subst h
          exact ⟨hf', by simp; omega, List.prefix_append _ _⟩
        · rw [if_neg h3] at h
          obtain ⟨a, b, c⟩ := ih _ _ hf' (by simp; omega) h
          exact ⟨a, b, (List.prefix_append _ _).trans c⟩
      · rw [if_neg h2] at h; exact absurd h (by simp)
    · rw [if_neg h1] at h
      by_cases h3 : N ≤ us.length
      · rw [if_pos h3, Except.ok.injEq] at h
        subst h; exact ⟨hf, hl, List.prefix_refl _⟩
      · rw [if_neg h3] at h; exact ih _ _ hf hl h

/-- The normalised vectors of a frame. -/
theorem Frame.normalised (hs : H.IsSymm) {us : List (Fin n → ℝ)} (hf : Frame H us) (a b : Fin us.length) :
    phi H ((1 / √|phi H (us.get a) (us.get a)|) • us.get a) ((1 / √|phi H (us.get b) (us.get b)|) • us.get b) =
      if a = b then (SignType.sign (phi H (us.get a) (us.get a)) : ℝ) else 0 := by
  rw [phi_smul_left, phi_smul_right]
  by_cases h : a = b
  · subst h
    rw [if_pos rfl]
    have hne := hf.2 (us.get a) (List.get_mem _ _)
    generalize phi H (us.get a) (us.get a) = x at hne
    have hx : 0 < |x| := abs_pos.2 hne
    have h2 : √|x| * √|x| = |x| := Real.mul_self_sqrt hx.le
    have h3 : √|x| ≠ 0 := (Real.sqrt_pos.2 hx).ne'
    have h4 : x = (SignType.sign x : ℝ) * |x| := (sign_mul_abs x).symm
    have h5 : 1 / √|x| * (1 / √|x| * x) = x / |x| := by
      have : x / |x| = x / (√|x| * √|x|) := by rw [h2]
      rw [this]; field_simp
    rw [h5]
    rw [div_eq_iff hx.ne']; exact h4
  · rw [if_neg h]
    have : phi H (us.get a) (us.get b) = 0 := by
      rcases lt_or_gt_of_ne h with h | h
      · exact List.pairwise_iff_get.1 hf.1 a b h
      · rw [phi_symm hs]; exact List.pairwise_iff_get.1 hf.1 b a h
    rw [this]; ring

theorem HermSvd.filtered_symm {n : ℕ} (S : HermSvd n) (N : ℕ) : (S.filtered N).IsSymm := by
  ext i j
  simp only [Matrix.transpose_apply, HermSvd.filtered]
  refine sum_congr rfl fun k _ => ?_
  split
  · ring
  · rfl

theorem HermSvd.card_filter {n : ℕ} {S : HermSvd n} (ha : Antitone S.s) (t : ℝ) (k : Fin (n + 1)) :
    k.val < (univ.filter fun k => t < S.s k).card ↔ t < S.s k := by
  constructor
  · intro h
    by_contra hk
    have : (univ.filter fun k => t < S.s k) ⊆ univ.filter fun j => j < k := by
      intro j hj
      simp only [mem_filter, mem_univ, true_and] at hj ⊢
      by_contra hjk
      exact hk (hj.trans_le (ha (not_lt.1 hjk)))
    have := card_le_card this
    have e : (univ.filter fun j : Fin (n + 1) => j < k).card = k.val := by
      rw [show (univ.filter fun j : Fin (n + 1) => j < k) = Finset.Iio k by ext; simp, Fin.card_Iio]
    omega
  · intro h
    have : (univ.filter fun j => j ≤ k) ⊆ univ.filter fun k => t < S.s k := by
      intro j hj
      simp only [mem_filter, mem_univ, true_and] at hj ⊢
      exact h.trans_le (ha hj)
    have := card_le_card this
    have e : (univ.filter fun j : Fin (n + 1) => j ≤ k).card = k.val + 1 := by
      rw [show (univ.filter fun j : Fin (n + 1) => j ≤ k) = Finset.Iic k by ext; simp, Fin.card_Iic]
    omega

/-- Nothing is lost when the values under the threshold are zeros. -/
theorem HermSvd.filtered_eq {n : ℕ} {S : HermSvd n} {A : Mat ℝ (n + 1) (n + 1)} (h : S.IsSvd A) {t : ℝ}
    (hsep : ∀ k, S.s k ≤ t → S.s k = 0) : S.filtered (univ.filter fun k => t < S.s k).card = A := by
  ext i j
  rw [h.eq, HermSvd.filtered]
  refine sum_congr rfl fun k _ => ?_
  by_cases hk : t < S.s k
  · rw [if_pos ((HermSvd.card_filter h.anti t k).2 hk)]
  · rw [if_neg fun h' => hk ((HermSvd.card_filter h.anti t k).1 h'), hsep k (not_lt.1 hk)]; ring

theorem HermSvd.card_le {n : ℕ} {S : HermSvd n} {t : ℝ} (hrank : ∃ k, S.s k ≤ t) :
    (univ.filter fun k => t < S.s k).card ≤ n := by
  obtain ⟨k, hk⟩ := hrank
  have : (univ.filter fun k => t < S.s k) ⊆ univ.erase k := by
    intro j hj
    simp only [mem_filter, mem_univ, true_and] at hj
    simp only [mem_erase, mem_univ, and_true]
    rintro rfl; exact absurd hj (not_lt.2 hk)
  simpa using card_le_card this

theorem hankelMat_eq {K : Type*} (y : ℕ → K) (n i j : ℕ) : hankelMat y n i j = y (i + j) := by
  simp only [hankelMat]
  split
  · rfl
  · congr 1; omega

theorem hankel_symm (y : ℕ → ℝ) (n : ℕ) : Matrix.IsSymm (fun i j => hankelMat y n i j : Mat ℝ (n + 1) (n + 1)) := by
  ext i j
  show hankelMat y n j i = hankelMat y n i j
  rw [hankelMat_eq, hankelMat_eq, add_comm]

theorem pronyKeep_eq {n : ℕ} {S : HermSvd n} {t : ℝ} (eps : ℝ) (hrank : ∃ k, S.s k ≤ t) :
    pronyKeep S eps (some t) none = .ok ((univ.filter fun k => t < S.s k).card, t) := by
  simp only [pronyKeep, Option.getD_some, min_eq_left (HermSvd.card_le hrank)]

theorem ldlHankel_eq (y : Arr ℝ) (n : ℕ) (svd : Mat ℝ (n + 1) (n + 1) → HermSvd n) (eps : ℝ) (thres : Option ℝ)
    (nKeep : Option ℕ) (hlen : 2 * n + 1 ≤ y.len) {N : ℕ} {t : ℝ}
    (hk : pronyKeep (svd fun i j => hankelMat y.get n i j) eps thres nKeep = .ok (N, t)) {us : List (Fin (n + 1) → ℝ)}
    (hl : ldlLoop ((svd fun i j => hankelMat y.get n i j).filtered N) N t (List.finRange (n + 1)) [] = .ok us) :
    ldlHankel y n svd eps thres nKeep = ldlOut ((svd fun i j => hankelMat y.get n i j).filtered N) us := by
  rw [ldlHankel, if_neg (by omega)]
  simp only [hk, hl]

theorem mapM_ok {α β : Type*} (f : α → Except Err β) : ∀ (l : List α) (out : List β), l.mapM f = .ok out →
    out.length = l.length ∧ ∀ i : ℕ, ∀ a, l[i]? = some a → ∃ b, f a = .ok b ∧ out[i]? = some b := by
  intro l
  induction l with
  | nil =>
    intro out h
    simp only [List.mapM_nil, pure, Except.pure, Except.ok.injEq] at h
    subst h; simp
  | cons a l ih =>
    intro out h
    rw [List.mapM_cons] at h
    cases ha : f a with
    | error e => simp [ha, bind, Except.bind] at h
    | ok b =>
      cases hl : l.mapM f with
      | error e => simp [ha, hl, bind, Except.bind] at h
      | ok bs =>
        simp only [ha, hl, bind, Except.bind, pure, Except.pure, Except.ok.injEq] at h
        subst h
        obtain ⟨h1, h2⟩ := ih bs hl
        refine ⟨by simp [h1], fun i x hx => ?_⟩
        cases i with
        | zero => simp only [List.getElem?_cons_zero, Option.some.injEq] at hx; subst hx; exact ⟨b, ha, by simp⟩
        | succ i => simp only [List.getElem?_cons_succ] at hx ⊢; exact h2 i x hx

theorem mapM_of_ok {α β : Type*} (f : α → Except Err β) (g : α → β) (l : List α) (h : ∀ a ∈ l, f a = .ok (g a)) :
    l.mapM f = .ok (l.map g) := by
  induction l with
  | nil => rfl
  | cons a l ih =>
    rw [List.mapM_cons, h a (by simp), ih fun a ha => h a (by simp [ha])]; rfl

end Verif
