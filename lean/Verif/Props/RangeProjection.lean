import Verif.Props.Corrs
import Mathlib.LinearAlgebra.Matrix.NonsingularInverse
import Mathlib.Data.Fintype.Fin

/-!
# The projection on the range of the basis: C44
-/

namespace Verif

set_option linter.unusedSectionVars false

open LArr Finset

section
variable {K : Type*} [Field K] [LinearOrder K] [IsStrictOrderedRing K]

/-- What numpy guarantees for `np.linalg.svd(B, hermitian=True)`: `U` is orthogonal, the singular values are
non-negative and decreasing, and `B = U diag(±S) Uᵀ`. -/
def IsSvdOf {n : ℕ} (B : Mat K n n) (US : Mat K n n × (Fin n → K)) : Prop :=
  US.1 * US.1.transpose = 1 ∧ (∀ i, 0 ≤ US.2 i) ∧ Antitone US.2 ∧
  ∃ σ : Fin n → K, (∀ i, σ i = 1 ∨ σ i = -1) ∧
    B = US.1 * Matrix.diagonal (fun i => σ i * US.2 i) * US.1.transpose

/-- The tolerance used for the rank. -/
def rankTolerance {n : ℕ} (eps : K) (rankTol : Option K) (S : Fin n → K) : K :=
  rankTol.getD ((List.ofFn S).foldl max ((List.ofFn S).headD 0) * (n : K) * eps)

/-- The kept singular values are the first ones. -/
theorem lt_rank_iff {n : ℕ} {eps : K} {rankTol : Option K} {S : Fin n → K} (hS : Antitone S) (i : Fin n) :
    (i : ℕ) < numericalRank eps rankTol S ↔ rankTolerance eps rankTol S < S i := by
  unfold numericalRank
  change (i : ℕ) < (univ.filter fun i => rankTolerance eps rankTol S < S i).card ↔ _
  constructor
  · intro h
    by_contra hc
    have : (univ.filter fun j => rankTolerance eps rankTol S < S j) ⊆ univ.filter fun j : Fin n => (j : ℕ) < i := by
      intro j hj
      rw [mem_filter] at hj ⊢
      refine ⟨mem_univ _, ?_⟩
      by_contra hij
      exact hc (hj.2.trans_le (hS (by rw [Fin.le_def]; omega)))
    have h2 := card_le_card this
    rw [show (univ.filter fun j : Fin n => (j : ℕ) < i) = Finset.Iio i by ext j; simp, Fin.card_Iio] at h2
    omega
  · intro h
    have : Finset.Iic i ⊆ univ.filter fun j => rankTolerance eps rankTol S < S j := by
      intro j hj
      rw [mem_Iic] at hj
      rw [mem_filter]
      exact ⟨mem_univ _, h.trans_le (hS hj)⟩
    have h2 := card_le_card this
    rw [Fin.card_Iic] at h2
    omega

theorem rank_le {n : ℕ} (eps : K) (rankTol : Option K) (S : Fin n → K) : numericalRank eps rankTol S ≤ n := by
  unfold numericalRank
  exact (card_filter_le _ _).trans (by simp)

/-- **C44.** `P_range` has orthonormal rows, as many as the numerical rank; when the rank is not full the
projected matrix is diagonal, with the kept singular values (those above the tolerance), up to a sign that is
`+` for positive semi-definite matrices; when it is full `P_range` is the identity. -/
theorem C44_range_projection {svd : Svd K} {eps : K} {rankTol : Option K} {b dimx : ℕ} {B0 P : LArr K}
    (hsvd : IsSvdOf (B0.toMatrix b b) (svd b (B0.toMatrix b b)))
    (h : setRangeProjection svd eps rankTol b dimx B0 = .ok P) :
    let S := (svd b (B0.toMatrix b b)).2
    let r := numericalRank eps rankTol S
    P.dims = ["dim_basis", "dim_basis_old"] ∧ P.shape = [r, b] ∧ r ≤ b ∧
    (∀ i : Fin b, (i : ℕ) < r ↔ rankTolerance eps rankTol S < S i) ∧
    (∀ i < r, ∀ j < r, ∑ k ∈ range b, P.get [i, k] * P.get [j, k] = if i = j then 1 else 0) ∧
    (r < b → ∃ σ : ℕ → K, (∀ i, σ i = 1 ∨ σ i = -1) ∧
      ((∀ v : Fin b → K, 0 ≤ v ⬝ᵥ (B0.toMatrix b b).mulVec v) → 0 ≤ rankTolerance eps rankTol S →
        ∀ i < r, σ i = 1) ∧
      ∀ (i j : ℕ) (hi : i < r) (_ : j < r),
        ∑ k ∈ range b, ∑ l ∈ range b, P.get [i, k] * B0.get [k, l] * P.get [j, l] =
          if i = j then σ i * S ⟨i, hi.trans_le (rank_le _ _ _)⟩ else 0) ∧
    (r = b → ∀ i < b, ∀ j < b, P.get [i, j] = if i = j then 1 else 0) := by
  intro S r
  obtain ⟨hU, hS0, hSa, σ, hσ, hB⟩ := hsvd
  have hr : r ≤ b := rank_le _ _ _
  set U := (svd b (B0.toMatrix b b)).1 with hUdef
  have hU' : U.transpose * U = 1 := mul_eq_one_comm.1 hU
  unfold setRangeProjection at h
  dsimp only at h
  by_cases hb : b = 0
  · rw [if_pos hb] at h; cases h
  rw [if_neg hb] at h
  by_cases hrb : r < b
  · rw [if_pos hrb] at h
    split_ifs at h with h0
    simp only [Except.ok.injEq] at h
    have hP : ∀ i (hi : i < b) k (hk : k < b), P.get [i, k] = U ⟨k, hk⟩ ⟨i, hi⟩ := by
      intro i hi k hk
      rw [← h]
      simp [mk2, hi, hk, hUdef]
    have hort : ∀ i (hi : i < b) j (hj : j < b), ∑ k ∈ range b, P.get [i, k] * P.get [j, k] =
        if i = j then 1 else 0 := by
      intro i hi j hj
      have e := congrFun (congrFun hU' ⟨i, hi⟩) ⟨j, hj⟩
      rw [Matrix.mul_apply, Matrix.one_apply] at e
      rw [sum_range]
      simp only [Fin.mk.injEq] at e
      rw [← e]
      exact sum_congr rfl fun k _ => by rw [hP i hi k k.2, hP j hj k k.2]; rfl
    refine ⟨by rw [← h]; rfl, by rw [← h]; rfl, hr, fun i => lt_rank_iff hSa i, fun i hi j hj =>
      hort i (hi.trans_le hr) j (hj.trans_le hr), fun _ => ?_, fun hc => absurd hc (by omega)⟩
    have hdiag : ∀ (i j : ℕ) (hi : i < b) (hj : j < b), ∑ k ∈ range b, ∑ l ∈ range b,
        P.get [i, k] * B0.get [k, l] * P.get [j, l] = if i = j then σ ⟨i, hi⟩ * S ⟨i, hi⟩ else 0 := by
      intro i j hi hj
      have e : U.transpose * B0.toMatrix b b * U = Matrix.diagonal (fun i => σ i * S i) := by
        rw [hB, ← Matrix.mul_assoc, ← Matrix.mul_assoc, hU', Matrix.one_mul, Matrix.mul_assoc, hU', Matrix.mul_one]
      have e' := congrFun (congrFun e ⟨i, hi⟩) ⟨j, hj⟩
      rw [Matrix.mul_apply, Matrix.diagonal_apply] at e'
      simp only [Fin.mk.injEq] at e'
      rw [← e', sum_comm, sum_range]
      refine sum_congr rfl fun l _ => ?_
      rw [Matrix.mul_apply, sum_mul, sum_range]
      refine sum_congr rfl fun k _ => ?_
      rw [hP i hi k k.2, hP j hj l l.2]
      rfl
    refine ⟨fun i => if hi : i < b then σ ⟨i, hi⟩ else 1, fun i => ?_, fun hpsd htol i hi => ?_, fun i j hi hj => ?_⟩
    · by_cases hi : i < b
      · simp only [hi, dite_true]; exact hσ _
      · simp [hi]
    · have hib := hi.trans_le hr
      simp only [hib, dite_true]
      rcases hσ ⟨i, hib⟩ with h1 | h1
      · exact h1
      · exfalso
        have hpos : 0 < S ⟨i, hib⟩ := htol.trans_lt ((lt_rank_iff hSa ⟨i, hib⟩).1 hi)
        have hv := hpsd (fun k => U k ⟨i, hib⟩)
        have e := hdiag i i hib hib
        rw [if_pos rfl, h1] at e
        have e2 : (fun k => U k ⟨i, hib⟩) ⬝ᵥ (B0.toMatrix b b).mulVec (fun k => U k ⟨i, hib⟩) =
            ∑ k ∈ range b, ∑ l ∈ range b, P.get [i, k] * B0.get [k, l] * P.get [i, l] := by
          rw [dotProduct, sum_range]
          refine sum_congr rfl fun k _ => ?_
          rw [Matrix.mulVec, dotProduct, mul_sum, sum_range]
          refine sum_congr rfl fun l _ => ?_
          rw [hP i hib k k.2, hP i hib l l.2, mul_assoc]
          rfl
        rw [e2, e] at hv
        linarith
    · rw [hdiag i j (hi.trans_le hr) (hj.trans_le hr)]
      simp [hi.trans_le hr]
  · have hrb' : r = b := le_antisymm hr (not_lt.1 hrb)
    rw [if_neg hrb] at h
    simp only [Except.ok.injEq] at h
    have hP : ∀ i j, P.get [i, j] = if i = j then 1 else 0 := by
      intro i j; rw [← h]; rfl
    refine ⟨by rw [← h]; rfl, by rw [← h, hrb']; rfl, hr, fun i => lt_rank_iff hSa i, fun i hi j hj => ?_,
      fun hc => absurd hc hrb, fun _ i _ j _ => hP i j⟩
    simp only [hP]
    rw [sum_eq_single i]
    · simp [eq_comm]
    · intro k _ hk
      rw [if_neg hk.symm, zero_mul]
    · intro hk
      exact absurd (mem_range.2 (hi.trans_le hr)) hk

/-- Lag zero is an average over all frames. -/
theorem meanCorr_zero [CharZero K] {xvas : List (Xva K)} (hn : ∀ xva ∈ xvas, 1 ≤ xva.n) (f g : Xva K → ℕ → K) :
    Spec.meanCorr xvas f g 0 = Spec.pooledMean (xvas.map fun x => (x.n, fun t => f x t * g x t)) := by
  rw [← pooled_sum hn, Spec.meanCorr, ← weighted_sum]
  simp [Spec.corr]

/-- The quadratic form of the correlations at lag zero is an average of squares. -/
theorem meanCorr_zero_quad {xvas : List (Xva K)} (hn : ∀ xva ∈ xvas, 1 ≤ xva.n) {b : ℕ} (f : ℕ → Xva K → ℕ → K)
    {v : Fin b → K} {w : ℕ → K} (hw : ∀ k : Fin b, v k = w k) :
    v ⬝ᵥ (Matrix.of fun k l : Fin b => Spec.meanCorr xvas (f k) (f l) 0).mulVec v =
      Spec.pooledSum (xvas.map fun x => (x.n, fun t => (∑ k ∈ range b, f k x t * w k) ^ 2)) /
        ((xvas.map fun x => x.n).sum : ℕ) := by
  have h1 : (fun x : Xva K => (x.n, fun t => (∑ k ∈ range b, f k x t * w k) ^ 2)) =
      fun x => (x.n, fun t => ∑ k ∈ range b, ∑ l ∈ range b, (f k x t * f l x t) * (w k * w l)) := by
    funext x
    congr 1
    funext t
    rw [pow_two, sum_mul_sum]
    exact sum_congr rfl fun i _ => sum_congr rfl fun j _ => by ring
  rw [h1, pooled_fsum, sum_div, dotProduct, sum_range]
  refine sum_congr rfl fun k _ => ?_
  rw [Matrix.mulVec, dotProduct, mul_sum, pooled_fsum, sum_div, sum_range]
  refine sum_congr rfl fun l _ => ?_
  rw [pooled_mul, Matrix.of_apply, meanCorr_zero hn, pooledMean_eq, hw, hw]
  ring

/-- The matrix of the correlations at lag zero is positive semi-definite. -/
theorem meanCorr_zero_psd {xvas : List (Xva K)} (hn : ∀ xva ∈ xvas, 1 ≤ xva.n) {b : ℕ} (f : ℕ → Xva K → ℕ → K)
    (v : Fin b → K) : 0 ≤ v ⬝ᵥ (Matrix.of fun k l : Fin b => Spec.meanCorr xvas (f k) (f l) 0).mulVec v := by
  obtain ⟨w, hw⟩ : ∃ w : ℕ → K, ∀ k : Fin b, v k = w k :=
    ⟨fun k => if h : k < b then v ⟨k, h⟩ else 0, fun k => by simp⟩
  rw [meanCorr_zero_quad hn f hw]
  exact div_nonneg (pooled_nonneg fun _ _ => sq_nonneg _) (Nat.cast_nonneg _)

/-- **C44** through the estimator: after `compute_corrs` with a projection that drops some directions, the
stored correlations at lag zero are a diagonal matrix with positive entries, the kept singular values of the
matrix before projection. -/
theorem C44_projected_gram {env : Env K} {method : String} {vectorize second : Bool} {rankTol : Option K}
    {s s' : EstState K} {d : String} {x : ℕ} {fc : LArr K} (h : CorrReady env method vectorize s d x fc)
    (hr : s.model.rankProjection = true) (hk : Spec.nCorr s.model.bm = s.model.bm.nKernel)
    (hok : computeCorrs env method vectorize second rankTol s = (s', none)) {M : Mat K (Spec.nCorr s.model.bm) (Spec.nCorr s.model.bm)}
    (hM : M = Matrix.of fun k l : Fin (Spec.nCorr s.model.bm) => Spec.meanCorr s.xvas (fun xva t => Spec.corrFeature s.model.bm xva t k)
            (fun xva t => Spec.corrFeature s.model.bm xva t l) 0)
    (hsvd : IsSvdOf M (env.svd _ M)) (htol : 0 ≤ rankTolerance env.eps rankTol (env.svd _ M).2)
    (hdef : numericalRank env.eps rankTol (env.svd _ M).2 < Spec.nCorr s.model.bm) :
    ∃ c, s'.corrs = some c ∧ ∀ (p q : ℕ) (hp : p < numericalRank env.eps rankTol (env.svd _ M).2)
      (_ : q < numericalRank env.eps rankTol (env.svd _ M).2),
      0 < (env.svd _ M).2 ⟨p, hp.trans hdef⟩ ∧
      c.bkbk.get [p, q, 0] = if p = q then (env.svd _ M).2 ⟨p, hp.trans hdef⟩ else 0 := by
  obtain ⟨c, P, r, h1, h2, p1, p2, -, -, -, -, h3, -⟩ := C43_projected h hr hk hok
  refine ⟨c, h1, ?_⟩
  -- the projection was computed from the matrix `M`
  obtain ⟨A, A', B, B', e, -, ⟨b1, b2, b3⟩, -⟩ := h.loop_ok second
  have hP : setRangeProjection env.svd env.eps rankTol s.model.bm.nKernel s.model.bm.dimx (B.isel "time_trunc" 0) =
      .ok P := by
    unfold computeCorrs at hok
    rw [h.force] at hok
    dsimp only at hok
    rw [e] at hok
    simp only [hr, if_true] at hok
    cases hP : setRangeProjection env.svd env.eps rankTol s.model.bm.nKernel s.model.bm.dimx (B.isel "time_trunc" 0) with
    | error er => rw [hP] at hok; simp [raises] at hok
    | ok P' =>
      rw [hP] at hok
      dsimp only at hok
      have : s'.model.Prange = some P' := by
        split_ifs at hok with hc hc' <;>
          first
          | (simp [raises] at hok; done)
          | (simp only [Prod.mk.injEq, and_true] at hok; rw [← hok])
      rw [h2] at this
      rw [Option.some.inj this]
  rw [← hk] at hP
  have hBM : (B.isel "time_trunc" 0).toMatrix (Spec.nCorr s.model.bm) (Spec.nCorr s.model.bm) = M := by
    rw [hM]
    ext k l
    simp only [toMatrix, Matrix.of_apply]
    rw [isel_trunc b1 b2, b3 k k.2 l l.2 0 h.tpos]
  have key := C44_range_projection (by rw [hBM]; exact hsvd) hP
  simp only [hBM] at key
  obtain ⟨-, k2, -, k4, -, k6, -⟩ := key
  rw [p2] at k2
  simp only [List.cons.injEq, and_true] at k2
  subst k2
  obtain ⟨σ, -, hσ, hd⟩ := k6 hdef
  have hn : ∀ xva ∈ s.xvas, 1 ≤ xva.n := fun xva hx => h.tpos.trans (h.tle xva hx)
  have hσ1 := hσ (fun v => by rw [hM]; exact meanCorr_zero_psd hn (fun k xva t => Spec.corrFeature s.model.bm xva t k) v) htol
  intro p q hp hq
  refine ⟨htol.trans_lt ((k4 ⟨p, hp.trans hdef⟩).1 hp), ?_⟩
  rw [h3 p hp q hq 0 h.tpos]
  have := hd p q hp hq
  rw [hσ1 p hp, one_mul] at this
  rw [← this]
  refine sum_congr rfl fun k hk => sum_congr rfl fun l hl => ?_
  rw [isel_trunc b1 b2, b3 k (mem_range.1 hk) l (mem_range.1 hl) 0 h.tpos]
  ring

end

end Verif
