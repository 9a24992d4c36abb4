import Verif.Lemmas.Corrs
import Mathlib.Analysis.Calculus.FDeriv.Pi
import Mathlib.Analysis.Calculus.FDeriv.Prod
import Mathlib.Analysis.Calculus.FDeriv.Add
import Mathlib.Analysis.Calculus.FDeriv.Mul
import Mathlib.Analysis.Calculus.FDeriv.Pow
import Mathlib.Analysis.Calculus.Deriv.Comp
import Mathlib.Analysis.Calculus.Deriv.Prod
import Mathlib.Analysis.Calculus.Deriv.Add
import Mathlib.Analysis.Calculus.Deriv.Mul
import Mathlib.Analysis.Calculus.Deriv.Pow

/-!
# `basis_vector` returns the time derivative of the basis functions along the trajectory: C80
-/

namespace Verif

set_option linter.unusedSectionVars false
set_option linter.unusedSimpArgs false

open LArr Finset

namespace Spec

/-- A point of `ℝ^d` as the row of a data array. -/
def row {d : ℕ} (y : Fin d → ℝ) (i : ℕ) : ℝ := if h : i < d then y ⟨i, h⟩ else 0

/-- `g` is the gradient of `f` at `y`. -/
def HasGradient {d : ℕ} (f : (Fin d → ℝ) → ℝ) (g : ℕ → ℝ) (y : Fin d → ℝ) : Prop :=
  HasFDerivAt f (∑ i : Fin d, g i • (ContinuousLinearMap.proj i : (Fin d → ℝ) →L[ℝ] ℝ)) y

/-- The functions returned by `deriv` and `hessian` are what their names say. The first condition is only
asked when the constant is not removed (then the columns of `deriv` and `basis` are the same functions). -/
structure IsSmoothBasis (b : PointBasis ℝ) (d : ℕ) : Prop where
  deriv : b.constRemoved = false → ∀ k < b.nOut, ∀ y : Fin d → ℝ,
    HasGradient (fun y => b.basis (row y) k) (b.deriv (row y) k) y
  hessian : ∀ k < b.nOut - (if b.constRemoved then d else 0), ∀ i : Fin d, ∀ y : Fin d → ℝ,
    HasGradient (fun y => b.deriv (row y) k i) (b.hessian (row y) k i) y

/-- A trajectory with velocity and acceleration. -/
structure IsMotion {d : ℕ} (q v a : ℝ → Fin d → ℝ) : Prop where
  vel : ∀ s, HasDerivAt q (v s) s
  acc : ∀ s, HasDerivAt v (a s) s

/-- The dataset of `n` frames of a motion at the times `τ 0, τ 1, ...` -/
def sample {d : ℕ} (q v a : ℝ → Fin d → ℝ) (n : ℕ) (τ : ℕ → ℝ) : Xva ℝ where
  n := n
  dimx := d
  time := τ
  data := fun name t => if name = "x" then row (q (τ t)) else if name = "v" then row (v (τ t)) else row (a (τ t))
  extraDim := fun _ => "dim_x"
  extraSize := fun _ => d

/-- `dE` is the time derivative of `E`: there are differentiable functions of time whose values are `E` and
whose derivatives are `dE`, whatever the frames. -/
def TimeDerivative (m : BasisModel ℝ) {d : ℕ} (q v a : ℝ → Fin d → ℝ) : Prop :=
  ∃ e e' : ℕ → ℝ → ℝ, (∀ k < nCorr m, ∀ s, HasDerivAt (e k) (e' k s) s) ∧
    ∀ n τ, ∃ F E D, m.corrsVector (sample q v a n τ) = .ok (F, E, D) ∧
      E.dims = ["time", "dim_basis"] ∧ E.shape = [n, nCorr m] ∧ D.dims = ["time", "dim_basis"] ∧ D.shape = [n, nCorr m] ∧
      ∀ t < n, ∀ k < nCorr m, E.get [t, k] = e k (τ t) ∧ D.get [t, k] = e' k (τ t)

end Spec

open Spec

theorem row_fin {d : ℕ} (y : Fin d → ℝ) (i : Fin d) : row y i = y i := by simp [row]

theorem sum_row {d : ℕ} (f : ℕ → ℝ) (y : Fin d → ℝ) : ∑ i ∈ range d, f i * row y i = ∑ i : Fin d, f i * y i := by
  rw [Finset.sum_range]
  exact Finset.sum_congr rfl fun i _ => by rw [row_fin]

/-- The chain rule. -/
theorem HasGradient.along {d : ℕ} {f : (Fin d → ℝ) → ℝ} {g : ℕ → ℝ} {q : ℝ → Fin d → ℝ} {v : Fin d → ℝ} {s : ℝ}
    (hf : HasGradient f g (q s)) (hq : HasDerivAt q v s) : HasDerivAt (fun s => f (q s)) (∑ i : Fin d, g i * v i) s := by
  refine (HasFDerivAt.comp_hasDerivAt s hf hq).congr_deriv ?_
  simp 

theorem at2_get {K : Type*} [Zero K] {A : LArr K} {n p : ℕ} {f : ℕ → ℕ → K} {ds : List String}
    (h : A.Is ds [n, p] (at2 f)) {t k : ℕ} (ht : t < n) (hk : k < p) : A.get [t, k] = f t k := by
  rw [h.2.2 [t, k] (List.Forall₂.cons ht (List.Forall₂.cons hk List.Forall₂.nil))]
  rfl

/-- **C80**, for every class but the hybrid one: for a basis whose `deriv` and `hessian` are the derivatives,
`dE` is the time derivative of `E` along every motion. (The overdamped class and the one without velocity set
`basis.const_removed = False`, hence the hypothesis.) The full statement includes the hybrid class, for which
it is false (`C80_hybrid_fails`). -/
theorem C80_derivative_partial {m : BasisModel ℝ} (hm : m.WF) (hb : IsSmoothBasis m.basis m.dimx)
    (hc : m.cls ≠ .hybrid) (hrem : m.cls = .noVelBasis ∨ m.cls = .overdamped → m.basis.constRemoved = false)
    {q v a : ℝ → Fin m.dimx → ℝ} (hq : IsMotion q v a) : TimeDerivative m q v a := by
  have key : ∀ e e' : ℕ → ℝ → ℝ, (∀ k < nCorr m, ∀ s, HasDerivAt (e k) (e' k s) s) →
      (∀ n τ, ∀ t, ∀ k < nCorr m, corrFeature m (sample q v a n τ) t k = e k (τ t)) →
      (∀ n τ, ∀ t, ∀ k < nCorr m, codeDot m (sample q v a n τ) t k = e' k (τ t)) →
      TimeDerivative m q v a := by
    intro e e' h1 h2 h3
    refine ⟨e, e', h1, fun n τ => ?_⟩
    obtain ⟨F, E, D, h4, -, h5, h6⟩ := corrsVector_is m hm (sample q v a n τ) rfl
    refine ⟨F, E, D, h4, h5.1, h5.2.1, h6.1, h6.2.1, fun t ht k hk => ⟨?_, ?_⟩⟩
    · rw [at2_get h5 ht hk, h2 n τ t k hk]
    · rw [at2_get h6 ht hk, h3 n τ t k hk]
  cases h : m.cls with
  | posGle | withFriction =>
    refine key (fun k s => ∑ i : Fin m.dimx, m.basis.deriv (row (q s)) k i * v s i)
      (fun k s => (∑ i : Fin m.dimx, m.basis.deriv (row (q s)) k i * a s i) +
        ∑ i : Fin m.dimx, ∑ j : Fin m.dimx, m.basis.hessian (row (q s)) k i j * v s i * v s j) ?_ ?_ ?_
    · intro k hk s
      have hk' : k < m.basis.nOut - (if m.basis.constRemoved then m.dimx else 0) := by
        simpa [nCorr, h] using hk
      have h1 : ∀ i : Fin m.dimx, HasDerivAt (fun s => m.basis.deriv (row (q s)) k i * v s i)
          ((∑ j : Fin m.dimx, m.basis.hessian (row (q s)) k i j * v s j) * v s i +
            m.basis.deriv (row (q s)) k i * a s i) s := fun i =>
        (HasGradient.along (hb.hessian k hk' i (q s)) (hq.vel s)).mul ((hasDerivAt_pi.1 (hq.acc s)) i)
      refine (HasDerivAt.fun_sum fun i _ => h1 i).congr_deriv ?_
      rw [Finset.sum_add_distrib, add_comm]
      congr 1
      refine Finset.sum_congr rfl fun i _ => ?_
      rw [Finset.sum_mul]
      refine Finset.sum_congr rfl fun j _ => by ring
    · intro n τ t k _
      simp only [corrFeature, h, sample, if_true, String.reduceEq, if_false]
      exact sum_row _ _
    · intro n τ t k _
      simp only [codeDot, h, corrFeatureDot, sample, if_true, String.reduceEq, if_false]
      rw [sum_row]
      congr 1
      rw [Finset.sum_range]
      refine Finset.sum_congr rfl fun i _ => ?_
      rw [Finset.sum_range]
      exact Finset.sum_congr rfl fun j _ => by rw [row_fin, row_fin]
  | noVelBasis | overdamped =>
    refine key (fun k s => m.basis.basis (row (q s)) k)
      (fun k s => ∑ i : Fin m.dimx, m.basis.deriv (row (q s)) k i * v s i) ?_ ?_ ?_
    · intro k hk s
      have hk' : k < m.basis.nOut := by simpa [nCorr, h] using hk
      exact HasGradient.along (hb.deriv (hrem (by simp [h])) k hk' (q s)) (hq.vel s)
    · intro n τ t k _
      simp [corrFeature, h, sample]
    · intro n τ t k _
      simp only [codeDot, h, corrFeatureDot, sample, if_true, String.reduceEq, if_false]
      exact sum_row _ _
  | constKernel =>
    refine key (fun k s => row (v s) k) (fun k s => row (a s) k) ?_ ?_ ?_
    · intro k hk s
      have hk' : k < m.dimx := by simpa [nCorr, h] using hk
      simpa [row, hk'] using (hasDerivAt_pi.1 (hq.acc s)) ⟨k, hk'⟩
    · intro n τ t k _
      simp [corrFeature, h, sample]
    · intro n τ t k _
      simp [codeDot, h, corrFeatureDot, sample]
  | hybrid => exact absurd h hc

/-- The functions `1, x, x^2` in one dimension. -/
noncomputable def exampleSmooth : PointBasis ℝ :=
  ⟨3, false, fun p k => p 0 ^ k, fun p k _ => k * p 0 ^ (k - 1), fun p k _ _ => k * ((k - 1 : ℕ) * p 0 ^ (k - 1 - 1)), fun _ _ => 0⟩

theorem hasGradient_pow (n : ℕ) (y : Fin 1 → ℝ) : HasGradient (fun y : Fin 1 → ℝ => row y 0 ^ n)
    (fun _ => n * row y 0 ^ (n - 1)) y := by
  have h0 : HasFDerivAt (fun y : Fin 1 → ℝ => y 0) (ContinuousLinearMap.proj (R := ℝ) (φ := fun _ : Fin 1 => ℝ) 0) y :=
    hasFDerivAt_apply 0 y
  have h := (hasDerivAt_pow n (y 0)).comp_hasFDerivAt y h0
  have e : (fun y : Fin 1 → ℝ => row y 0 ^ n) = (fun x => x ^ n) ∘ fun y : Fin 1 → ℝ => y 0 := by
    funext y; simp [row]
  unfold HasGradient
  rw [e]
  refine h.congr_fderiv ?_
  simp [row]

theorem exampleSmooth_ok : IsSmoothBasis exampleSmooth 1 where
  deriv := fun _ k _ y => hasGradient_pow k y
  hessian := fun k _ _ y => by
    have h := (hasGradient_pow (k - 1) y)
    unfold HasGradient at h ⊢
    refine (h.const_mul (k : ℝ)).congr_fderiv ?_
    simp [exampleSmooth, smul_smul]

/-- Uniformly accelerated motion. -/
noncomputable def exampleMotion_q (s : ℝ) : Fin 1 → ℝ := fun _ => s ^ 2
noncomputable def exampleMotion_v (s : ℝ) : Fin 1 → ℝ := fun _ => 2 * s
noncomputable def exampleMotion_a (_ : ℝ) : Fin 1 → ℝ := fun _ => 2

theorem exampleMotion : IsMotion exampleMotion_q exampleMotion_v exampleMotion_a where
  vel := fun s => hasDerivAt_pi.2 fun _ => (hasDerivAt_pow 2 s).congr_deriv (by simp [exampleMotion_v])
  acc := fun s => hasDerivAt_pi.2 fun _ => ((hasDerivAt_id s).const_mul 2).congr_deriv (by simp [exampleMotion_a])

example (cls : ModelClass) (h : cls ≠ .hybrid) : TimeDerivative ⟨cls, exampleSmooth, 1, 1⟩ exampleMotion_q exampleMotion_v
    exampleMotion_a :=
  C80_derivative_partial (m := ⟨cls, exampleSmooth, 1, 1⟩) (fun h => by cases h) exampleSmooth_ok h (fun _ => rfl)
    exampleMotion

/-- C80 is false for the hybrid class: `dE` of the position dependent functions is summed over the frames,
so that its value at a given time depends on the other frames. -/
theorem C80_hybrid_fails : ∃ (m : BasisModel ℝ) (q v a : ℝ → Fin m.dimx → ℝ), m.cls = .hybrid ∧ m.WF ∧
    m.basis.constRemoved = false ∧ IsSmoothBasis m.basis m.dimx ∧ IsMotion q v a ∧ ¬ TimeDerivative m q v a := by
  refine ⟨⟨.hybrid, exampleSmooth, 1, 1⟩, exampleMotion_q, exampleMotion_v, exampleMotion_a, rfl, (fun h => by cases h),
    rfl, exampleSmooth_ok, exampleMotion, ?_⟩
  rintro ⟨e, e', -, h⟩
  have hm : (⟨.hybrid, exampleSmooth, 1, 1⟩ : BasisModel ℝ).WF := fun h => by cases h
  have key : ∀ n τ, 0 < n → codeDot ⟨.hybrid, exampleSmooth, 1, 1⟩
      (sample exampleMotion_q exampleMotion_v exampleMotion_a n τ) 0 2 = e' 2 (τ 0) := by
    intro n τ hn
    obtain ⟨F, E, D, h1, -, -, -, -, h2⟩ := h n τ
    obtain ⟨F', E', D', h3, -, -, h4⟩ := corrsVector_is ⟨.hybrid, exampleSmooth, 1, 1⟩ hm
      (sample exampleMotion_q exampleMotion_v exampleMotion_a n τ) rfl
    rw [h1] at h3
    cases h3
    have hk : 2 < nCorr (K := ℝ) ⟨.hybrid, exampleSmooth, 1, 1⟩ := by simp [nCorr, exampleSmooth]
    rw [← (h2 0 hn 2 hk).2]
    exact (at2_get h4 hn hk).symm
  have e1 := key 1 (fun _ => 1) (by norm_num)
  have e2 := key 2 (fun _ => 1) (by norm_num)
  rw [← e1] at e2
  norm_num [codeDot, exampleSmooth, sample, exampleMotion_q, exampleMotion_v, row, Finset.sum_range_succ] at e2
  rw [if_neg (by decide)] at e2
  norm_num [row, exampleMotion_v] at e2

/-- C80, hybrid class: it holds for datasets of a single frame. -/
theorem C80_hybrid_one_frame {m : BasisModel ℝ} (hm : m.WF) (hc : m.cls = .hybrid) {xva : Xva ℝ} (hx : xva.dimx = m.dimx)
    (h1 : xva.n = 1) : ∃ F E D, m.corrsVector xva = .ok (F, E, D) ∧
      ∀ k < nCorr m, D.get [0, k] = corrFeatureDot m xva 0 k := by
  obtain ⟨F, E, D, h4, -, -, h6⟩ := corrsVector_is m hm xva hx
  refine ⟨F, E, D, h4, fun k hk => ?_⟩
  rw [at2_get h6 (by omega) hk]
  simp [codeDot, corrFeatureDot, hc, h1]

example := C80_hybrid_one_frame (m := ⟨.hybrid, exampleSmooth, 1, 1⟩) (fun h => by cases h) rfl
  (xva := sample exampleMotion_q exampleMotion_v exampleMotion_a 1 fun _ => 1) rfl rfl

end Verif
