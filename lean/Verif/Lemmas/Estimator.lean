import Verif.Lemmas.Labelled
import Verif.Spec.Pooled
import Mathlib.Tactic.FieldSimp

/-!
# The functions applied to each trajectory, entry by entry
-/

set_option linter.unusedSimpArgs false
set_option linter.unusedSectionVars false

namespace Verif

open LArr Finset

theorem inRange2 {is : List ℕ} {a b : ℕ} (h : InRange is [a, b]) : ∃ i j, is = [i, j] ∧ i < a ∧ j < b := by
  cases h with
  | cons h1 h2 => cases h2 with
    | cons h3 h4 => cases h4; exact ⟨_, _, rfl, h1, h3⟩

theorem inRange1 {is : List ℕ} {a : ℕ} (h : InRange is [a]) : ∃ i, is = [i] ∧ i < a := by
  cases h with
  | cons h1 h2 => cases h2; exact ⟨_, rfl, h1⟩

theorem inRange3 {is : List ℕ} {a b c : ℕ} (h : InRange is [a, b, c]) :
    ∃ i j k, is = [i, j, k] ∧ i < a ∧ j < b ∧ k < c := by
  cases h with
  | cons h1 h2 => cases h2 with
    | cons h3 h4 => cases h4 with
      | cons h5 h6 => cases h6; exact ⟨_, _, _, rfl, h1, h3, h5⟩

theorem inRange2_mk {a b i j : ℕ} (h1 : i < a) (h2 : j < b) : InRange [i, j] [a, b] :=
  .cons h1 (.cons h2 .nil)

theorem inRange3_mk {a b c i j k : ℕ} (h1 : i < a) (h2 : j < b) (h3 : k < c) : InRange [i, j, k] [a, b, c] :=
  .cons h1 (.cons h2 (.cons h3 .nil))

/-- A function of one, two or three indices as a function of a list. -/
def at1 {K : Type*} (F : ℕ → K) (is : List ℕ) : K := F (is.getD 0 0)
def at2 {K : Type*} (F : ℕ → ℕ → K) (is : List ℕ) : K := F (is.getD 0 0) (is.getD 1 0)
def at3 {K : Type*} (F : ℕ → ℕ → ℕ → K) (is : List ℕ) : K := F (is.getD 0 0) (is.getD 1 0) (is.getD 2 0)

section
variable {K : Type*} [CommRing K]

/-- Bases with the constant removed have at least one function per coordinate. -/
def BasisModel.WF (m : BasisModel K) : Prop := m.basis.constRemoved = true → m.dimx ≤ m.basis.nOut

theorem alongVar_is (m : BasisModel K) (xva : Xva K) {name : String} (hn : name ∈ ["x", "v", "a"]) :
    (m.alongVar xva name).dims = ["time", "dim_basis"] ∧ (m.alongVar xva name).shape = [xva.n, m.nDeriv] ∧
    ∀ t k, (m.alongVar xva name).get [t, k] =
      ∑ d ∈ range xva.dimx, m.basis.deriv (xva.data "x" t) k d * xva.data name t d := by
  unfold BasisModel.alongVar BasisModel.dbk Xva.var
  rw [if_pos hn]
  simp [mk2, mk3, dot, unionDims, sizeIn, size, env, LArr.val, sumOver, List.lookup]

theorem forceVector_is (m : BasisModel K) (hm : m.WF) (xva : Xva K) :
    (m.forceVector xva).dims = ["time", "dim_basis"] ∧ (m.forceVector xva).shape = [xva.n, m.nForce] ∧
    ∀ t k, (m.forceVector xva).get [t, k] = Spec.forceFeature m xva t k := by
  have main : m.cls ≠ .withFriction → m.forceVector xva = m.bk xva ∧ m.nForce = m.basis.nOut := by
    intro h
    unfold BasisModel.forceVector BasisModel.nForce
    cases hc : m.cls <;> simp_all
  by_cases h : m.cls = .withFriction
  · obtain ⟨h1, h2, h3⟩ := alongVar_is m xva (name := "v") (by decide)
    have e : m.forceVector xva = LArr.concat (m.bk xva) (m.alongVar xva "v") "dim_basis" := by
      simp only [BasisModel.forceVector, h]
    have s1 : (m.bk xva).size "time" = xva.n := by simp [BasisModel.bk, mk2, size, env, List.lookup]
    have s2 : (m.bk xva).size "dim_basis" = m.basis.nOut := by simp [BasisModel.bk, mk2, size, env, List.lookup]
    have s3 : (m.alongVar xva "v").size "dim_basis" = m.nDeriv := by
      simp [size, env, List.lookup, h1, h2]
    rw [e]
    unfold LArr.concat
    rw [s1, s2, s3]
    refine ⟨rfl, ?_, fun t k => ?_⟩
    · simp only [mk2, BasisModel.nForce, BasisModel.nDeriv, h]
      congr 2
      unfold BasisModel.WF at hm
      split_ifs with hc
      · have := hm hc; omega
      · omega
    · simp only [mk2, Spec.forceFeature, h, true_and]
      by_cases hk : k < m.basis.nOut
      · rw [if_pos hk, if_neg (by omega)]; rfl
      · rw [if_neg hk, if_pos (by omega), h3]
  · obtain ⟨e1, e2⟩ := main h
    rw [e1, e2]
    refine ⟨rfl, rfl, fun t k => ?_⟩
    simp [Spec.forceFeature, h, BasisModel.bk, mk2]

/-- Number of kernel functions used by `kernelVector`. -/
def BasisModel.nKernelEval (m : BasisModel K) : ℕ :=
  match m.cls with
  | .posGle | .withFriction => m.nDeriv
  | .noVelBasis | .hybrid | .overdamped => m.basis.nOut
  | .constKernel => m.dimObs

/-- Size of the axis `dim_x` of `kernelVector`. -/
def BasisModel.kernelDim (m : BasisModel K) (xva : Xva K) : ℕ :=
  match m.cls with
  | .posGle | .withFriction => xva.dimx
  | .noVelBasis | .hybrid | .overdamped => m.dimx
  | .constKernel => m.dimObs

theorem kernelVector_is (m : BasisModel K) (xva : Xva K) :
    (m.kernelVector xva).dims = ["time", "dim_basis", "dim_x"] ∧
    (m.kernelVector xva).shape = [xva.n, m.nKernelEval, m.kernelDim xva] ∧
    ∀ t k d, (m.kernelVector xva).get [t, k, d] = Spec.kernelFeature m xva t k d := by
  unfold BasisModel.kernelVector BasisModel.nKernelEval BasisModel.kernelDim
  simp only [Spec.kernelFeature]
  cases m.cls <;> simp [BasisModel.dbk, BasisModel.bk, mk2, mk3, expandLast]

/-- All trajectories have the observable `L` with axes `(time, d)` and `x` components. -/
def SameObs (xvas : List (Xva K)) (L d : String) (x : ℕ) : Prop :=
  d ≠ "time" ∧ d ≠ "dim_basis" ∧ ∀ xva ∈ xvas, (xva.var L).dims = ["time", d] ∧ (xva.var L).shape = [xva.n, x]

theorem var_get (xva : Xva K) (L : String) (t j : ℕ) : (xva.var L).get [t, j] = xva.data L t j := by
  unfold Xva.var
  split_ifs <;> rfl

end

section
variable {K : Type*} [Field K]

theorem Is.div {A : LArr K} {ds : List String} {sh : List ℕ} {f : List ℕ → K} (h : A.Is ds sh f) (w : ℕ) :
    (A.divNat w).Is ds sh fun is => f is / w := h.map _

def projLay (m : BasisModel K) (d : String) (x : ℕ) (i : ℕ) : List String × List ℕ :=
  if i = 0 then (["dim_basis", d], [m.nForce, x]) else (["dim_basis", "dim_basis'"], [m.nForce, m.nForce])

def projVal (m : BasisModel K) (L : String) (xva : Xva K) (i : ℕ) : List ℕ → K :=
  if i = 0 then at2 fun k j => (∑ t ∈ range xva.n, Spec.forceFeature m xva t k * xva.data L t j) / xva.n
  else at2 fun k j => (∑ t ∈ range xva.n, Spec.forceFeature m xva t k * Spec.forceFeature m xva t j) / xva.n

theorem projection_res {m : BasisModel K} (hm : m.WF) {xvas : List (Xva K)} {L d : String} {x : ℕ}
    (hs : SameObs xvas L d x) {xva : Xva K} (hx : xva ∈ xvas) :
    ∃ rs, projectionOnBasis m L xva.n xva = .ok rs ∧ Res 2 (projLay m d x) (projVal m L xva) rs := by
  obtain ⟨e1, e2, e3⟩ := forceVector_is m hm xva
  obtain ⟨o1, o2⟩ := hs.2.2 xva hx
  obtain ⟨g1, g2, g3⟩ := dot_gram e1 e2
  obtain ⟨d1, d2, d3⟩ := dot_obs hs.1 hs.2.1 e1 e2 o1 o2
  refine ⟨_, rfl, rfl, fun i hi => ?_⟩
  obtain rfl | rfl : i = 0 ∨ i = 1 := by omega
  · refine ⟨_, rfl, d1, d2, fun is h => ?_⟩
    obtain ⟨i, j, rfl, -, -⟩ := inRange2 h
    change (dot _).get [i, j] / _ = _
    rw [d3]
    simp [e3, var_get, projVal, at2]
  · refine ⟨_, rfl, g1, g2, fun is h => ?_⟩
    obtain ⟨i, j, rfl, -, -⟩ := inRange2 h
    change (dot _).get [i, j] / _ = _
    rw [g3]
    simp [e3, projVal, at2]

theorem projLay_ok (m : BasisModel K) {d : String} (hd : d ≠ "dim_basis") (x : ℕ) :
    ∀ i < 2, (projLay m d x i).1.Nodup ∧ (projLay m d x i).2.length = (projLay m d x i).1.length := by
  intro i hi
  unfold projLay
  split_ifs
  · simp [hd.symm]
  · simp

def gramLay (p : ℕ) (_ : ℕ) : List String × List ℕ := (["dim_basis", "dim_basis'"], [p, p])

theorem gramLay_ok (p : ℕ) : ∀ i < 1, (gramLay p i).1.Nodup ∧ (gramLay p i).2.length = (gramLay p i).1.length := by
  intro i _
  simp [gramLay]

theorem gramForce_res {m : BasisModel K} (hm : m.WF) (xva : Xva K) :
    ∃ rs, gramTraj m "force" xva.n xva = .ok rs ∧ Res 1 (gramLay m.nForce) (fun _ => at2 fun k j =>
      (∑ t ∈ range xva.n, Spec.forceFeature m xva t k * Spec.forceFeature m xva t j) / xva.n) rs := by
  obtain ⟨e1, e2, e3⟩ := forceVector_is m hm xva
  obtain ⟨g1, g2, g3⟩ := dot_gram e1 e2
  refine ⟨_, rfl, rfl, fun i hi => ?_⟩
  obtain rfl : i = 0 := by omega
  refine ⟨_, rfl, g1, g2, fun is h => ?_⟩
  obtain ⟨i, j, rfl, -, -⟩ := inRange2 h
  change (dot _).get [i, j] / _ = _
  rw [g3]
  simp only [e3, at2]
  simp

theorem gramKernel_res (m : BasisModel K) (xva : Xva K) :
    ∃ rs, gramTraj m "kernel" xva.n xva = .ok rs ∧ Res 1 (gramLay m.nKernelEval) (fun _ => at2 fun k j =>
      (∑ t ∈ range xva.n, ∑ d ∈ range (m.kernelDim xva),
        Spec.kernelFeature m xva t k d * Spec.kernelFeature m xva t j d) / xva.n) rs := by
  obtain ⟨e1, e2, e3⟩ := kernelVector_is m xva
  obtain ⟨g1, g2, g3⟩ := dot_gram3 e1 e2
  refine ⟨_, rfl, rfl, fun i hi => ?_⟩
  obtain rfl : i = 0 := by omega
  refine ⟨_, rfl, g1, g2, fun is h => ?_⟩
  obtain ⟨i, j, rfl, -, -⟩ := inRange2 h
  change (dot _).get [i, j] / _ = _
  rw [g3]
  simp only [e3, at2]
  simp

theorem basisMeanForce_res {m : BasisModel K} (hm : m.WF) (xva : Xva K) :
    ∃ rs, basisMeanTraj m "force" xva.n xva = .ok rs ∧ Res 1 (fun _ => (["dim_basis"], [m.nForce])) (fun _ =>
      at1 fun k => (∑ t ∈ range xva.n, Spec.forceFeature m xva t k) / xva.n) rs := by
  obtain ⟨e1, e2, e3⟩ := forceVector_is m hm xva
  refine ⟨_, rfl, rfl, fun i hi => ?_⟩
  obtain rfl : i = 0 := by omega
  refine ⟨_, rfl, ?_, ?_, fun is h => ?_⟩
  · simp [LArr.mean, e1, List.erase_cons]
  · simp [LArr.mean, e1, e2, List.erase_cons, size, env, List.lookup]
  · obtain ⟨i, rfl, -⟩ := inRange1 h
    simp [LArr.mean, e1, e2, e3, List.erase_cons, size, env, LArr.val, List.lookup, at1]

def velLay (x : ℕ) (_ : ℕ) : List String × List ℕ := (["dim_x", "dim_x'"], [x, x])

theorem squareVel_res {xvas : List (Xva K)} {x : ℕ} (hs : ∀ xva ∈ xvas, xva.dimx = x) {xva : Xva K} (hx : xva ∈ xvas) :
    ∃ rs, squareVelTraj xva.n xva = .ok rs ∧ Res 1 (velLay x) (fun _ => at2 fun i j =>
      (∑ t ∈ range xva.n, xva.data "v" t i * xva.data "v" t j) / xva.n) rs := by
  refine ⟨_, rfl, rfl, fun i hi => ?_⟩
  obtain rfl : i = 0 := by omega
  have hx' := hs xva hx
  refine ⟨_, rfl, ?_, ?_, fun is h => ?_⟩
  · simp [Xva.var, mk2, divNat, LArr.map, dot, rename1, rename, dotDims, unionDims, velLay, List.countP_cons]
  · simp [Xva.var, mk2, divNat, LArr.map, dot, rename1, rename, dotDims, unionDims, velLay, List.countP_cons, sizeIn, size, env,
      List.lookup, hx']
  · obtain ⟨i, j, rfl, -, -⟩ := inRange2 h
    simp [Xva.var, mk2, divNat, LArr.map, dot, rename1, rename, dotDims, unionDims, List.countP_cons, sizeIn, size, env,
      List.lookup, LArr.val, sumOver, at2]

/-- `(S/n) n / W` summed over the trajectories is the pooled mean. -/
theorem pooled_sum [CharZero K] {xvas : List (Xva K)} (hn : ∀ xva ∈ xvas, 1 ≤ xva.n) (F : Xva K → ℕ → K) :
    (xvas.map fun x => (∑ t ∈ range x.n, F x t) / (x.n : K) * x.n / ((xvas.map (·.n)).sum : ℕ)).sum =
      Spec.pooledMean (xvas.map fun x => (x.n, F x)) := by
  have e : xvas.map (fun x => (∑ t ∈ range x.n, F x t) / (x.n : K) * x.n / ((xvas.map (·.n)).sum : ℕ)) =
      xvas.map fun x => (∑ t ∈ range x.n, F x t) * (((xvas.map (·.n)).sum : ℕ) : K)⁻¹ := by
    refine List.map_congr_left fun x hx => ?_
    have : (x.n : K) ≠ 0 := by
      have := hn x hx
      exact_mod_cast (by omega : x.n ≠ 0)
    rw [div_mul_cancel₀ _ this, div_eq_mul_inv]
  rw [e, List.sum_map_mul_right, Spec.pooledMean, Spec.pooledSum, div_eq_mul_inv, List.map_map, List.map_map]
  rfl

/-- The loops the estimator can use: serial, or parallel with the tasks executed in any order
(gle_estimation.py:77-81). -/
def IsLoop (loop : (ℕ → Xva K → Except Err (List (LArr K))) → List (Xva K) → Except Err (List (LArr K))) : Prop :=
  loop = loopSerial ∨ ∃ order : ℕ → List ℕ, (∀ n, (order n).Perm (List.range n)) ∧
    loop = fun f xs => loopParallel (order xs.length) f xs

theorem IsLoop.eq {loop : (ℕ → Xva K → Except Err (List (LArr K))) → List (Xva K) → Except Err (List (LArr K))}
    (h : IsLoop loop) : loop = loopSerial := by
  rcases h with h | ⟨order, hp, h⟩
  · exact h
  · rw [h]
    funext f xs
    exact loopParallel_eq f xs fun i hi => (hp _).symm.subset (List.mem_range.2 hi)

end

end Verif
