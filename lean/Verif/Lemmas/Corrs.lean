import Verif.Lemmas.Estimator
import Verif.Spec.Correlation
import Verif.Props.Correlation

/-!
# The correlations of one trajectory, entry by entry
-/

set_option linter.unusedSimpArgs false
set_option linter.unusedSectionVars false

namespace Verif

open LArr Finset

section
variable {K : Type*} [CommRing K]

theorem dEPos_is (m : BasisModel K) (xva : Xva K) : ∃ A, m.dEPos xva = .ok A ∧
    A.Is ["time", "dim_basis"] [xva.n, m.nDeriv] (at2 fun t k =>
      (∑ d ∈ range xva.dimx, m.basis.deriv (xva.data "x" t) k d * xva.data "a" t d) +
      ∑ d ∈ range xva.dimx, ∑ d' ∈ range xva.dimx,
        m.basis.hessian (xva.data "x" t) k d d' * xva.data "v" t d * xva.data "v" t d') := by
  unfold BasisModel.dEPos
  obtain ⟨h1, h2, h3⟩ := alongVar_is m xva (name := "a") (by decide)
  have hA : (m.alongVar xva "a").Is ["time", "dim_basis"] [xva.n, m.nDeriv] (at2 fun t k =>
      ∑ d ∈ range xva.dimx, m.basis.deriv (xva.data "x" t) k d * xva.data "a" t d) := by
    refine ⟨h1, h2, fun is his => ?_⟩
    obtain ⟨i, j, rfl, -, -⟩ := inRange2 his
    rw [h3]; rfl
  have hB : (LArr.dot [m.ddbk xva, xva.var "v", (xva.var "v").rename1 "dim_x" "dim_x'"] (some ["dim_x", "dim_x'"])).Is
      ["time", "dim_basis"] [xva.n, m.nDeriv] (at2 fun t k => ∑ d ∈ range xva.dimx, ∑ d' ∈ range xva.dimx,
        m.basis.hessian (xva.data "x" t) k d d' * xva.data "v" t d * xva.data "v" t d') := by
    refine ⟨?_, ?_, fun is his => ?_⟩
    · simp [BasisModel.ddbk, Xva.var, mk2, mk4, dot, rename1, rename, unionDims]
    · simp [BasisModel.ddbk, Xva.var, mk2, mk4, dot, rename1, rename, unionDims, sizeIn, size, env, List.lookup]
    · obtain ⟨i, j, rfl, -, -⟩ := inRange2 his
      simp [BasisModel.ddbk, Xva.var, mk2, mk4, dot, rename1, rename, unionDims, sizeIn, size, env, List.lookup,
        LArr.val, sumOver, at2, mul_assoc]
  obtain ⟨C, e, hC⟩ := binop_same (· + ·) (by simp) (by simp) hA hB
  exact ⟨C, e, hC.congr fun is his => by obtain ⟨i, j, rfl, -, -⟩ := inRange2 his; rfl⟩

/-- The third array returned by `basis_vector`. -/
def codeDot (m : BasisModel K) (xva : Xva K) (t k : ℕ) : K :=
  match m.cls with
  | .hybrid => if k < m.dimx then xva.data "a" t k else ∑ t ∈ range xva.n, ∑ d ∈ range xva.dimx,
      m.basis.deriv (xva.data "x" t) (k - m.dimx) d * xva.data "v" t d
  | _ => Spec.corrFeatureDot m xva t k

theorem corrsVector_is (m : BasisModel K) (hm : m.WF) (xva : Xva K) (hx : xva.dimx = m.dimx) :
    ∃ F E D, m.corrsVector xva = .ok (F, E, D) ∧
      F.Is ["time", "dim_basis"] [xva.n, m.nForce] (at2 (Spec.forceFeature m xva)) ∧
      E.Is ["time", "dim_basis"] [xva.n, Spec.nCorr m] (at2 (Spec.corrFeature m xva)) ∧
      D.Is ["time", "dim_basis"] [xva.n, Spec.nCorr m] (at2 (codeDot m xva)) := by
  obtain ⟨f1, f2, f3⟩ := forceVector_is m hm xva
  have hF : (m.forceVector xva).Is ["time", "dim_basis"] [xva.n, m.nForce] (at2 (Spec.forceFeature m xva)) := by
    refine ⟨f1, f2, fun is his => ?_⟩
    obtain ⟨i, j, rfl, -, -⟩ := inRange2 his
    rw [f3]; rfl
  obtain ⟨v1, v2, v3⟩ := alongVar_is m xva (name := "v") (by decide)
  obtain ⟨D, hD, hD'⟩ := dEPos_is m xva
  unfold BasisModel.forceVector at hF
  unfold BasisModel.corrsVector
  cases hc : m.cls <;> simp only [hc] at hF ⊢
  · rw [hD]
    refine ⟨_, _, _, rfl, hF, ⟨v1, ?_, fun is his => ?_⟩, hD'.1, ?_, fun is his => ?_⟩
    · rw [v2]; simp [BasisModel.nDeriv, Spec.nCorr, hc]
    · obtain ⟨i, j, rfl, -, -⟩ := inRange2 his
      rw [v3]; simp [at2, Spec.corrFeature, hc]
    · rw [hD'.2.1]; simp [BasisModel.nDeriv, Spec.nCorr, hc]
    · rw [hD'.2.2 is (by simpa [BasisModel.nDeriv, Spec.nCorr, hc] using his)]
      simp [at2, codeDot, Spec.corrFeatureDot, hc]
  · rw [hD]
    refine ⟨_, _, _, rfl, hF, ⟨v1, ?_, fun is his => ?_⟩, hD'.1, ?_, fun is his => ?_⟩
    · rw [v2]; simp [BasisModel.nDeriv, Spec.nCorr, hc]
    · obtain ⟨i, j, rfl, -, -⟩ := inRange2 his
      rw [v3]; simp [at2, Spec.corrFeature, hc]
    · rw [hD'.2.1]; simp [BasisModel.nDeriv, Spec.nCorr, hc]
    · rw [hD'.2.2 is (by simpa [BasisModel.nDeriv, Spec.nCorr, hc] using his)]
      simp [at2, codeDot, Spec.corrFeatureDot, hc]
  · refine ⟨_, _, _, rfl, hF, ⟨rfl, ?_, fun is his => ?_⟩, v1, ?_, fun is his => ?_⟩
    · simp [BasisModel.bk, mk2, Spec.nCorr, hc]
    · obtain ⟨i, j, rfl, -, -⟩ := inRange2 his
      simp [BasisModel.bk, mk2, at2, Spec.corrFeature, hc]
    · rw [v2]; simp [BasisModel.nDeriv, Spec.nCorr, hc]
    · obtain ⟨i, j, rfl, -, -⟩ := inRange2 his
      rw [v3]; simp [at2, codeDot, Spec.corrFeatureDot, hc]
  · refine ⟨_, _, _, rfl, hF, ⟨?_, ?_, fun is his => ?_⟩, ?_, ?_, fun is his => ?_⟩
    · simp [Xva.var, mk2, rename1, rename]
    · simp [Xva.var, mk2, rename1, rename, Spec.nCorr, hc, hx]
    · obtain ⟨i, j, rfl, -, -⟩ := inRange2 his
      simp [Xva.var, mk2, rename1, rename, at2, Spec.corrFeature, hc]
    · simp [Xva.var, mk2, rename1, rename]
    · simp [Xva.var, mk2, rename1, rename, Spec.nCorr, hc, hx]
    · obtain ⟨i, j, rfl, -, -⟩ := inRange2 his
      simp [Xva.var, mk2, rename1, rename, at2, codeDot, Spec.corrFeatureDot, hc]
  · refine ⟨_, _, _, rfl, hF, ⟨rfl, ?_, fun is his => ?_⟩, rfl, ?_, fun is his => ?_⟩
    · simp [LArr.concat, BasisModel.bk, Xva.var, mk2, rename1, rename, size, env, List.lookup, Spec.nCorr, hc, hx]
    · obtain ⟨i, j, rfl, -, -⟩ := inRange2 his
      simp [LArr.concat, BasisModel.bk, Xva.var, mk2, rename1, rename, size, env, List.lookup, at2, Spec.corrFeature, hc, hx]
    · simp [BasisModel.corrsVector.concatScalarRow, BasisModel.dbk, Xva.var, mk2, mk3, rename1, rename, size, env,
        List.lookup, Spec.nCorr, hc, hx, dot, dotDims, unionDims, List.countP_cons, sizeIn, BasisModel.nDeriv]
    · obtain ⟨i, j, rfl, -, -⟩ := inRange2 his
      simp [BasisModel.corrsVector.concatScalarRow, BasisModel.dbk, Xva.var, mk2, mk3, rename1, rename, size, env,
        List.lookup, Spec.nCorr, hc, hx, dot, dotDims, unionDims, List.countP_cons, sizeIn, BasisModel.nDeriv, at2,
        codeDot, LArr.val, sumOver]
  · refine ⟨_, _, _, rfl, hF, ⟨rfl, ?_, fun is his => ?_⟩, v1, ?_, fun is his => ?_⟩
    · simp [BasisModel.bk, mk2, Spec.nCorr, hc]
    · obtain ⟨i, j, rfl, -, -⟩ := inRange2 his
      simp [BasisModel.bk, mk2, at2, Spec.corrFeature, hc]
    · rw [v2]; simp [BasisModel.nDeriv, Spec.nCorr, hc]
    · obtain ⟨i, j, rfl, -, -⟩ := inRange2 his
      rw [v3]; simp [at2, codeDot, Spec.corrFeatureDot, hc]

end

section
variable {K : Type*} [Field K]

/-- `func` returns the correlations of all pairs of components. -/
def IsCorrFn (func : CorrFn K) : Prop :=
  ∀ (p q N : ℕ) (a : Fin p → ℕ → K) (b : Fin q → ℕ → K) (trunc : ℕ), 1 ≤ p → 1 ≤ q → 1 ≤ N → 1 ≤ trunc →
    ∃ r, func p q N a b (some trunc) = .ok r ∧ r.len = min N trunc ∧
      ∀ n < r.len, ∀ i j, r.get n i j = Spec.corr N (a i) (b j) n

theorem corr_congr {N : ℕ} {a a' b b' : ℕ → K} (ha : ∀ t < N, a t = a' t) (hb : ∀ t < N, b t = b' t) (n : ℕ) :
    Spec.corr N a b n = Spec.corr N a' b' n := by
  unfold Spec.corr
  congr 1
  refine sum_congr rfl fun t ht => ?_
  have := mem_range.1 ht
  rw [ha t (by omega), hb (t + n) (by omega)]

theorem applyCorr_is {func : CorrFn K} (hf : IsCorrFn func) {A B : LArr K} {dA dB : String} {N p q trunc : ℕ}
    {f g : ℕ → ℕ → K} (hA : A.Is ["time", dA] [N, p] (at2 f)) (hB : B.Is ["time", dB] [N, q] (at2 g))
    (hd : dA ≠ dB) (hdA : dA ≠ "time") (hdB : dB ≠ "time") (hp : 1 ≤ p) (hq : 1 ≤ q) (ht : 1 ≤ trunc) (hN : trunc ≤ N) :
    ∃ C, applyCorr func A B trunc = .ok C ∧ C.Is [dA, dB, "time_trunc"] [p, q, trunc]
      (at3 fun i j n => Spec.corr N (fun t => f t i) (fun t => g t j) n) := by
  obtain ⟨A, sA, gA⟩ := A
  obtain ⟨B, sB, gB⟩ := B
  obtain ⟨a1, a2, a3⟩ := hA
  obtain ⟨b1, b2, b3⟩ := hB
  simp only at a1 a2 a3 b1 b2 b3
  subst a1 a2 b1 b2
  have s1 : size (⟨["time", dA], [N, p], gA⟩ : LArr K) dA = p := by rw [size, env_cons_ne hdA, env_cons_self]
  have s2 : size (⟨["time", dB], [N, q], gB⟩ : LArr K) dB = q := by rw [size, env_cons_ne hdB, env_cons_self]
  have s3 : size (⟨["time", dA], [N, p], gA⟩ : LArr K) "time" = N := by simp [size, env, List.lookup]
  unfold applyCorr
  dsimp only
  rw [if_neg (by simpa using hd), s1, s2, s3]
  unfold applyCorr.corrDims
  dsimp only
  obtain ⟨r, hr, hl, hv⟩ := hf p q N (fun i t => gA [t, i]) (fun j t => gB [t, j]) trunc hp hq (by omega) ht
  rw [hr]
  rw [min_eq_right hN] at hl
  refine ⟨_, rfl, rfl, by simp [mk3, hl], fun is his => ?_⟩
  obtain ⟨i, j, n, rfl, hi, hj, hn⟩ := inRange3 his
  simp only [mk3, hi, hj, and_self, dite_true]
  rw [hv n (by omega)]
  simp only [at3, List.getD_cons_zero, List.getD_cons_succ]
  refine corr_congr (fun t h => ?_) (fun t h => ?_) n
  · rw [a3 _ (inRange2_mk h hi)]; rfl
  · rw [b3 _ (inRange2_mk h hj)]; rfl

/-- The observable without the mean force. -/
def Spec.ortho (m : BasisModel K) (L : String) (fc : ℕ → ℕ → K) (xva : Xva K) (t j : ℕ) : K :=
  xva.data L t j - ∑ k ∈ range m.nForce, Spec.forceFeature m xva t k * fc k j

theorem ortho_is {E F C : LArr K} {n p x : ℕ} {d : String} (h1 : d ≠ "time") (h2 : d ≠ "dim_basis")
    {f o c : ℕ → ℕ → K} (hE : E.Is ["time", "dim_basis"] [n, p] (at2 f)) (hO : F.Is ["time", d] [n, x] (at2 o))
    (hC : C.Is ["dim_basis", d] [p, x] (at2 c)) :
    ∃ A, LArr.binop (· - ·) F (LArr.dot [E, C]) = .ok A ∧
      A.Is ["time", d] [n, x] (at2 fun t j => o t j - ∑ k ∈ range p, f t k * c k j) := by
  obtain ⟨d1, d2, d3⟩ := dot_force h1 h2 hE.1 hE.2.1 hC.1 hC.2.1
  have hD : (LArr.dot [E, C]).Is ["time", d] [n, x] (at2 fun t j => ∑ k ∈ range p, f t k * c k j) := by
    refine ⟨d1, d2, fun is his => ?_⟩
    obtain ⟨i, j, rfl, hi, hj⟩ := inRange2 his
    rw [d3]
    refine sum_congr rfl fun k hk => ?_
    rw [hE.2.2 _ (inRange2_mk hi (mem_range.1 hk)), hC.2.2 _ (inRange2_mk (mem_range.1 hk) hj)]
    rfl
  obtain ⟨A, e, hA⟩ := binop_same (· - ·) (by simp [h1.symm]) (by simp) hO hD
  exact ⟨A, e, hA.congr fun is his => by obtain ⟨i, j, rfl, -, -⟩ := inRange2 his; rfl⟩

theorem rename1_is {E : LArr K} {n p : ℕ} {f : ℕ → ℕ → K} (h : E.Is ["time", "dim_basis"] [n, p] (at2 f)) :
    (E.rename1 "dim_basis" "dim_basis'").Is ["time", "dim_basis'"] [n, p] (at2 f) := by
  refine ⟨?_, h.2.1, h.2.2⟩
  simp [rename1, rename, h.1]

/-- The layouts of the four arrays. -/
def corrLay (p : ℕ) (d : String) (x trunc : ℕ) (second : Bool) (i : ℕ) : List String × List ℕ :=
  match i with
  | 0 => (["dim_basis", d, "time_trunc"], [p, x, trunc])
  | 1 => if second then (["dim_basis", d, "time_trunc"], [p, x, trunc])
      else (["time_trunc", "dim_basis", d], [1, p, x])
  | 2 => (["dim_basis'", "dim_basis", "time_trunc"], [p, p, trunc])
  | _ => if second then (["dim_basis'", "dim_basis", "time_trunc"], [p, p, trunc]) else ([], [])

/-- The entries of the four arrays. -/
def corrVal (m : BasisModel K) (L : String) (fc : ℕ → ℕ → K) (second : Bool) (xva : Xva K) (i : ℕ) : List ℕ → K :=
  match i with
  | 0 => at3 fun p j n => Spec.corr xva.n (fun t => Spec.corrFeature m xva t p) (fun t => Spec.ortho m L fc xva t j) n
  | 1 => if second then at3 fun p j n =>
        Spec.corr xva.n (fun t => codeDot m xva t p) (fun t => Spec.ortho m L fc xva t j) n
      else at3 fun _ p j => Spec.corr xva.n (fun t => codeDot m xva t p) (fun t => Spec.ortho m L fc xva t j) 0
  | 2 => at3 fun p q n => Spec.corr xva.n (fun t => Spec.corrFeature m xva t p) (fun t => Spec.corrFeature m xva t q) n
  | _ => if second then at3 fun p q n =>
        Spec.corr xva.n (fun t => codeDot m xva t p) (fun t => Spec.corrFeature m xva t q) n
      else fun _ => 0

theorem corrLay_ok {p x trunc : ℕ} {d : String} (h2 : d ≠ "dim_basis") (h3 : d ≠ "time_trunc") (second : Bool) :
    ∀ i < 4, (corrLay p d x trunc second i).1.Nodup ∧
      (corrLay p d x trunc second i).2.length = (corrLay p d x trunc second i).1.length := by
  intro i hi
  interval_cases i <;> cases second <;> simp [corrLay, h2.symm, h3, h3.symm]

theorem correlation_res {func : CorrFn K} (hf : IsCorrFn func) {m : BasisModel K} (hm : m.WF)
    {xvas : List (Xva K)} {L d : String} {x trunc : ℕ} (hs : SameObs xvas L d x) {xva : Xva K} (hx : xva ∈ xvas)
    (hdx : xva.dimx = m.dimx) {fc : LArr K} {c : ℕ → ℕ → K} (hfc : fc.Is ["dim_basis", d] [m.nForce, x] (at2 c))
    (hp : 1 ≤ Spec.nCorr m) (hx1 : 1 ≤ x) (ht : 1 ≤ trunc) (hN : trunc ≤ xva.n) (second : Bool) :
    ∃ rs, correlationTraj func m L fc trunc second xva.n xva = .ok rs ∧
      Res 4 (corrLay (Spec.nCorr m) d x trunc second) (corrVal m L c second xva) rs := by
  obtain ⟨F, E, D, e, hF, hE, hD⟩ := corrsVector_is m hm xva hdx
  have hO : (xva.var L).Is ["time", d] [xva.n, x] (at2 (xva.data L)) := by
    obtain ⟨o1, o2⟩ := hs.2.2 xva hx
    refine ⟨o1, o2, fun is his => ?_⟩
    obtain ⟨i, j, rfl, -, -⟩ := inRange2 his
    rw [var_get]; rfl
  obtain ⟨O, eO, hO'⟩ := ortho_is hs.1 hs.2.1 hF hO hfc
  obtain ⟨A, eA, hA⟩ := applyCorr_is hf hE hO' hs.2.1.symm (by decide) hs.1 hp hx1 ht hN
  obtain ⟨B, eB, hB⟩ := applyCorr_is hf (rename1_is hE) hE (by decide) (by decide) (by decide) hp hp ht hN
  obtain ⟨A', eA', hA'⟩ := applyCorr_is hf hD hO' hs.2.1.symm (by decide) hs.1 hp hx1 ht hN
  obtain ⟨B', eB', hB'⟩ := applyCorr_is hf (rename1_is hD) hE (by decide) (by decide) (by decide) hp hp ht hN
  unfold correlationTraj
  rw [e]
  simp only [bind, Except.bind, pure, Except.pure, eO, eA, eB, eA', eB']
  cases second
  · refine ⟨_, rfl, rfl, fun i hi => ?_⟩
    interval_cases i
    · exact ⟨A, rfl, hA⟩
    · refine ⟨_, rfl, ?_⟩
      obtain ⟨d1, d2, d3⟩ := dot_obs hs.1 hs.2.1 hD.1 hD.2.1 hO'.1 hO'.2.1
      refine ⟨?_, ?_, fun is his => ?_⟩
      · simp [corrLay, divNat, LArr.map, expandFirst, d1]
      · simp [corrLay, divNat, LArr.map, expandFirst, d2]
      · obtain ⟨i, j, k, rfl, hi, hj, hk⟩ := inRange3 his
        simp only [divNat, LArr.map, expandFirst, List.tail_cons, d3]
        simp only [corrVal, at3, Spec.corr, List.getD_cons_zero, List.getD_cons_succ, if_false, Nat.sub_zero,
          Nat.add_zero, Bool.false_eq_true]
        congr 1
        refine sum_congr rfl fun t ht => ?_
        rw [hD.2.2 _ (inRange2_mk (mem_range.1 ht) hj), hO'.2.2 _ (inRange2_mk (mem_range.1 ht) hk)]
        rfl
    · exact ⟨B, rfl, hB⟩
    · exact ⟨_, rfl, rfl, rfl, fun is _ => rfl⟩
  · refine ⟨_, rfl, rfl, fun i hi => ?_⟩
    interval_cases i
    · exact ⟨A, rfl, hA⟩
    · exact ⟨A', rfl, hA'⟩
    · exact ⟨B, rfl, hB⟩
    · exact ⟨B', rfl, hB'⟩

theorem vectorizePair_is {f : ℕ → (ℕ → K) → Option (ℕ → K) → Option ℕ → Except Err (Arr K)}
    (hf : ∀ (N : ℕ) (a b : ℕ → K) (trunc : ℕ), 1 ≤ N → 1 ≤ trunc → ∃ r, f N a (some b) (some trunc) = .ok r ∧
      r.len = min N trunc ∧ ∀ n < r.len, r.get n = Spec.corr N a b n) : IsCorrFn (vectorizePair f) := by
  intro p q N a b trunc hp hq hN ht
  obtain ⟨r, e, hl, hv⟩ := hf N (a ⟨0, hp⟩) (b ⟨0, hq⟩) trunc hN ht
  unfold vectorizePair
  rw [dif_pos ⟨hp, hq⟩, e]
  refine ⟨_, rfl, hl, fun n hn i j => ?_⟩
  obtain ⟨r', e', hl', hv'⟩ := hf N (a i) (b j) trunc hN ht
  simp only [Matrix.of_apply, e']
  exact hv' n (by rw [hl', ← hl]; exact hn)

end

section
variable {K : Type*} [Field K]

theorem project_obs {P A : LArr K} {r b x T : ℕ} {d : String} (h1 : d ≠ "dim_basis") (h2 : d ≠ "dim_basis_old")
    (h3 : d ≠ "time_trunc") (hP : P.dims = ["dim_basis", "dim_basis_old"]) (hPs : P.shape = [r, b])
    (hA : A.dims = ["dim_basis", d, "time_trunc"]) (hAs : A.shape = [b, x, T]) :
    (LArr.dot [P, A.rename1 "dim_basis" "dim_basis_old"]).dims = ["dim_basis", d, "time_trunc"] ∧
    (LArr.dot [P, A.rename1 "dim_basis" "dim_basis_old"]).shape = [r, x, T] ∧
    ∀ p j n, (LArr.dot [P, A.rename1 "dim_basis" "dim_basis_old"]).get [p, j, n] =
      ∑ k ∈ range b, P.get [p, k] * A.get [k, j, n] := by
  obtain ⟨ds, sh, g⟩ := P
  obtain ⟨ds', sh', g'⟩ := A
  simp only at hP hPs hA hAs
  subst hP hPs hA hAs
  have e1 : (d == "dim_basis") = false := by simpa using h1
  have e2 : (d == "dim_basis_old") = false := by simpa using h2
  have e3 : (d == "time_trunc") = false := by simpa using h3
  have e1' : ("dim_basis" == d) = false := by simpa using h1.symm
  have e2' : ("dim_basis_old" == d) = false := by simpa using h2.symm
  have e3' : ("time_trunc" == d) = false := by simpa using h3.symm
  refine ⟨?_, ?_, fun i j n => ?_⟩
  · simp [dot, rename1, rename, dotDims, unionDims, h1, h2, h3, h1.symm, h2.symm, h3.symm, List.countP_cons]
  · simp [dot, rename1, rename, dotDims, unionDims, sizeIn, size, env, h1, h2, h3, h1.symm, h2.symm, h3.symm, List.countP_cons, List.lookup, e1, e2, e3, e1', e2', e3']
  · simp [dot, rename1, rename, dotDims, unionDims, sizeIn, size, env, LArr.val, sumOver, h1, h2, h3, h1.symm, h2.symm, h3.symm, List.countP_cons, List.lookup, e1, e2, e3, e1', e2', e3', Function.update]

theorem project_gram {P A : LArr K} {r b T : ℕ} (hP : P.dims = ["dim_basis", "dim_basis_old"]) (hPs : P.shape = [r, b])
    (hA : A.dims = ["dim_basis'", "dim_basis", "time_trunc"]) (hAs : A.shape = [b, b, T]) :
    (LArr.dot [P, A.rename1 "dim_basis" "dim_basis_old"]).dims = ["dim_basis", "dim_basis'", "time_trunc"] ∧
    (LArr.dot [P, A.rename1 "dim_basis" "dim_basis_old"]).shape = [r, b, T] ∧
    ∀ q p n, (LArr.dot [P, A.rename1 "dim_basis" "dim_basis_old"]).get [q, p, n] =
      ∑ k ∈ range b, P.get [q, k] * A.get [p, k, n] := by
  obtain ⟨ds, sh, g⟩ := P
  obtain ⟨ds', sh', g'⟩ := A
  simp only at hP hPs hA hAs
  subst hP hPs hA hAs
  simp [dot, rename1, rename, dotDims, unionDims, sizeIn, size, env, LArr.val, sumOver, List.countP_cons, List.lookup]

/-- The projection matrix with renamed axes. -/
def primed (P : LArr K) : LArr K :=
  P.rename fun d => if d = "dim_basis_old" then "dim_basis_old'" else if d = "dim_basis" then "dim_basis'" else d

theorem project_gram2 {P A : LArr K} {r b T : ℕ} (hP : P.dims = ["dim_basis", "dim_basis_old"]) (hPs : P.shape = [r, b])
    (hA : A.dims = ["dim_basis", "dim_basis'", "time_trunc"]) (hAs : A.shape = [r, b, T]) :
    (LArr.dot [primed P, A.rename1 "dim_basis'" "dim_basis_old'"]).dims = ["dim_basis'", "dim_basis", "time_trunc"] ∧
    (LArr.dot [primed P, A.rename1 "dim_basis'" "dim_basis_old'"]).shape = [r, r, T] ∧
    ∀ p q n, (LArr.dot [primed P, A.rename1 "dim_basis'" "dim_basis_old'"]).get [p, q, n] =
      ∑ k ∈ range b, P.get [p, k] * A.get [q, k, n] := by
  obtain ⟨ds, sh, g⟩ := P
  obtain ⟨ds', sh', g'⟩ := A
  simp only at hP hPs hA hAs
  subst hP hPs hA hAs
  simp [primed, dot, rename1, rename, dotDims, unionDims, sizeIn, size, env, LArr.val, sumOver, List.countP_cons, List.lookup]

theorem project_dot {P A : LArr K} {r b T : ℕ} (hP : P.dims = ["dim_basis", "dim_basis_old"]) (hPs : P.shape = [r, b])
    (hA : A.dims = ["dim_basis'", "dim_basis", "time_trunc"]) (hAs : A.shape = [b, b, T]) :
    (LArr.dot [primed P, P, A.rename fun d => if d = "dim_basis" then "dim_basis_old" else
      if d = "dim_basis'" then "dim_basis_old'" else d]).dims = ["dim_basis'", "dim_basis", "time_trunc"] ∧
    (LArr.dot [primed P, P, A.rename fun d => if d = "dim_basis" then "dim_basis_old" else
      if d = "dim_basis'" then "dim_basis_old'" else d]).shape = [r, r, T] ∧
    ∀ p q n, (LArr.dot [primed P, P, A.rename fun d => if d = "dim_basis" then "dim_basis_old" else
      if d = "dim_basis'" then "dim_basis_old'" else d]).get [p, q, n] =
      ∑ k ∈ range b, ∑ l ∈ range b, P.get [p, k] * (P.get [q, l] * A.get [k, l, n]) := by
  obtain ⟨ds, sh, g⟩ := P
  obtain ⟨ds', sh', g'⟩ := A
  simp only at hP hPs hA hAs
  subst hP hPs hA hAs
  simp [primed, dot, rename1, rename, dotDims, unionDims, sizeIn, size, env, LArr.val, sumOver, List.countP_cons, List.lookup]

theorem isel_trunc {A : LArr K} {b T : ℕ} (hA : A.dims = ["dim_basis'", "dim_basis", "time_trunc"])
    (hAs : A.shape = [b, b, T]) (p q n : ℕ) : (A.isel "time_trunc" n).get [p, q] = A.get [p, q, n] := by
  obtain ⟨ds', sh', g'⟩ := A
  simp only at hA hAs
  subst hA hAs
  simp [isel, env, LArr.val, List.lookup, List.erase_cons]

theorem isel_obs {A : LArr K} {b x T : ℕ} {d : String} (h1 : d ≠ "dim_basis") (h2 : d ≠ "time_trunc")
    (hA : A.dims = ["dim_basis", d, "time_trunc"]) (hAs : A.shape = [b, x, T]) (p j n : ℕ) :
    (A.isel "time_trunc" n).get [p, j] = A.get [p, j, n] := by
  obtain ⟨_, _, g⟩ := A
  simp only at hA hAs
  subst hA hAs
  have e1 : ("time_trunc" == d) = false := by simpa using h2.symm
  have e2 : (d == "dim_basis") = false := by simpa using h1
  have e3 : (d == "time_trunc") = false := by simpa using h2
  simp [isel, env, LArr.val, List.lookup, List.erase_cons, e1, e2, e3, h1, h2, h2.symm, Function.update]

theorem weighted_sum (xvas : List (Xva K)) (F : Xva K → K) :
    (xvas.map fun x => F x * x.n / ((xvas.map (·.n)).sum : ℕ)).sum =
      Spec.weightedMean (xvas.map fun x => (x.n, F x)) := by
  rw [Spec.weightedMean, div_eq_mul_inv, List.map_map, List.map_map, ← List.sum_map_mul_right]
  refine congrArg List.sum (List.map_congr_left fun x _ => ?_)
  simp only [Function.comp, div_eq_mul_inv, mul_comm (F x)]
  rfl
end

/-- The four functions of correlation.py compute the correlations. -/
theorem selectCorr_is (method : String) (vectorize : Bool) : IsCorrFn (selectCorr method vectorize) := by
  unfold selectCorr
  split_ifs
  · refine vectorizePair_is fun N a b trunc hN ht => ?_
    obtain ⟨r, hr⟩ := (C31_defined hN a (some b) (trunc := some trunc) (by simpa using ht)).1
    exact ⟨r, hr, (fft1D_spec hr).1, (fft1D_spec hr).2⟩
  · intro p q N a b trunc _ _ hN ht
    obtain ⟨r, hr⟩ := (C32_defined hN a b (trunc := some trunc) (by simpa using ht)).2
    exact ⟨r, hr, (directND_spec hr).1, (directND_spec hr).2⟩
  · refine vectorizePair_is fun N a b trunc hN ht => ?_
    obtain ⟨r, hr⟩ := (C31_defined hN a (some b) (trunc := some trunc) (by simpa using ht)).2
    exact ⟨r, hr, (direct1D_spec hr).1, (direct1D_spec hr).2⟩
  · intro p q N a b trunc _ _ hN ht
    obtain ⟨r, hr⟩ := (C32_defined hN a b (trunc := some trunc) (by simpa using ht)).1
    exact ⟨r, hr, (fftND_spec hr).1, (fftND_spec hr).2⟩

end Verif
