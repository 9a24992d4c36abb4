import Verif.Props.FitMemory
import Verif.Props.PronyRecover
import Mathlib.Analysis.Convex.Deriv
import Mathlib.Analysis.SpecialFunctions.Log.Deriv
import Mathlib.Analysis.SpecialFunctions.Trigonometric.DerivHyp

/-!
# C181: a fit that goes through exact data is the function itself
-/

namespace Verif

open Finset

/-- The functions `2 e^{2 w} - 1` in the logarithm: strictly concave. -/
theorem log_double_concave : StrictConcaveOn ℝ (Set.Ici 0) fun w : ℝ => Real.log (2 * Real.exp (2 * w) - 1) := by
  have hpos : ∀ w : ℝ, 0 ≤ w → 0 < 2 * Real.exp (2 * w) - 1 := fun w hw => by
    have := Real.one_le_exp (by linarith : 0 ≤ 2 * w)
    linarith
  have hd : ∀ w : ℝ, 0 ≤ w → HasDerivAt (fun w : ℝ => Real.log (2 * Real.exp (2 * w) - 1)) (2 + 2 / (2 * Real.exp (2 * w) - 1)) w := fun w hw => by
    have h1 : HasDerivAt (fun w : ℝ => 2 * Real.exp (2 * w) - 1) (2 * (Real.exp (2 * w) * 2)) w := by
      simpa using ((((hasDerivAt_id w).const_mul 2).exp).const_mul 2).sub_const 1
    refine (h1.log (hpos w hw).ne').congr_deriv ?_
    have := (hpos w hw).ne'
    field_simp
    ring
  refine StrictAntiOn.strictConcaveOn_of_deriv (convex_Ici 0) (fun w hw => (hd w hw).continuousAt.continuousWithinAt) ?_
  rw [interior_Ici]
  intro x hx y hy hxy
  rw [Set.mem_Ioi] at hx hy
  rw [(hd x hx.le).deriv, (hd y hy.le).deriv]
  have h1 : Real.exp (2 * x) < Real.exp (2 * y) := Real.exp_lt_exp.2 (by linarith)
  have := div_lt_div_of_pos_left two_pos (hpos x hx.le) (by linarith : 2 * Real.exp (2 * x) - 1 < 2 * Real.exp (2 * y) - 1)
  linarith

/-- The ratio of the logarithms of `cosh (2 x)` and `cosh x` determines `cosh x`. -/
theorem cosh_ratio_inj {u v : ℝ} (hu : 1 < u) (hv : 1 < v)
    (h : Real.log (2 * u ^ 2 - 1) * Real.log v = Real.log (2 * v ^ 2 - 1) * Real.log u) : u = v := by
  have key : ∀ a b : ℝ, 1 < a → a < b → Real.log (2 * b ^ 2 - 1) * Real.log a < Real.log (2 * a ^ 2 - 1) * Real.log b := by
    intro a b ha hab
    have la : 0 < Real.log a := Real.log_pos ha
    have lb : Real.log a < Real.log b := Real.log_lt_log (by linarith) hab
    have lb0 := la.trans lb
    have e : ∀ c : ℝ, 1 < c → Real.exp (2 * Real.log c) = c ^ 2 := fun c hc => by
      rw [two_mul, Real.exp_add, Real.exp_log (by linarith), sq]
    have := log_double_concave.2 (Set.mem_Ici.2 le_rfl) (Set.mem_Ici.2 lb0.le) lb0.ne
      (by rw [sub_pos, div_lt_one lb0]; exact lb : 0 < 1 - Real.log a / Real.log b) (div_pos la lb0) (by ring)
    simp only [mul_zero, Real.exp_zero, smul_eq_mul, zero_add] at this
    rw [div_mul_cancel₀ _ lb0.ne', e a ha, e b (ha.trans hab)] at this
    norm_num at this
    rwa [div_mul_eq_mul_div, div_lt_iff₀ lb0, mul_comm (Real.log a)] at this
  rcases lt_trichotomy u v with huv | huv | huv
  · exact absurd h (key u v hu huv).ne'
  · exact huv
  · exact absurd h.symm (key v u hv huv).ne'

theorem cosh_mul_eq {b c d : ℝ} (hd : 0 < d) (h : Real.cosh (b * d) = Real.cosh (c * d)) (t : ℝ) : Real.cosh (b * t) = Real.cosh (c * t) := by
  have h1 : |b * d| = |c * d| := by
    apply le_antisymm
    · exact Real.cosh_le_cosh.1 h.le
    · exact Real.cosh_le_cosh.1 h.ge
  rw [abs_mul, abs_mul, abs_of_pos hd] at h1
  rw [← Real.cosh_abs (b * t), ← Real.cosh_abs (c * t), abs_mul, abs_mul, mul_right_cancel₀ hd.ne' h1]

/-- **C181**: two functions of a family with the same values at four times `0, dt, 2 dt, 3 dt` are equal. -/
theorem C181_identified {name : String} {m : ℕ} {f : List ℝ → ℝ → ℝ} (hname : (name, m, f) ∈ Spec.fitFamily) {p q : List ℝ} {dt : ℝ}
    (hdt : 0 < dt) {n : ℕ} (hn : 4 ≤ n) (h : ∀ i < n, f q (i * dt) = f p (i * dt)) (t : ℝ) : f q t = f p t := by
  have h0 := h 0 (by omega)
  have h1 := h 1 (by omega)
  have h2 := h 2 (by omega)
  have hexp : ∀ {x y : ℝ}, Real.exp (-(x * dt)) = Real.exp (-(y * dt)) → x = y := fun e =>
    mul_right_cancel₀ hdt.ne' (neg_injective (Real.exp_injective e))
  have single : ∀ a b c d : ℝ, a * Real.exp (-(b * ((0 : ℕ) * dt))) = c * Real.exp (-(d * ((0 : ℕ) * dt))) →
      a * Real.exp (-(b * ((1 : ℕ) * dt))) = c * Real.exp (-(d * ((1 : ℕ) * dt))) → a * Real.exp (-(b * t)) = c * Real.exp (-(d * t)) := by
    intro a b c d e0 e1
    simp only [Nat.cast_zero, zero_mul, mul_zero, neg_zero, Real.exp_zero, mul_one] at e0
    rw [← e0, Nat.cast_one, one_mul] at e1
    rw [← e0]
    rcases mul_eq_mul_left_iff.1 e1 with e | e
    · rw [hexp e]
    · rw [e, zero_mul, zero_mul]
  have gauss : ∀ a b c d : ℝ, a * Real.exp (-(b * ((0 : ℕ) * dt) ^ 2)) = c * Real.exp (-(d * ((0 : ℕ) * dt) ^ 2)) →
      a * Real.exp (-(b * ((1 : ℕ) * dt) ^ 2)) = c * Real.exp (-(d * ((1 : ℕ) * dt) ^ 2)) →
      a * Real.exp (-(b * t ^ 2)) = c * Real.exp (-(d * t ^ 2)) := by
    intro a b c d e0 e1
    simp only [Nat.cast_zero, zero_mul, mul_zero, neg_zero, Real.exp_zero, mul_one, zero_pow two_ne_zero] at e0
    rw [← e0, Nat.cast_one, one_mul] at e1
    rw [← e0]
    rcases mul_eq_mul_left_iff.1 e1 with e | e
    · rw [mul_right_cancel₀ (pow_ne_zero 2 hdt.ne') (neg_injective (Real.exp_injective e))]
    · rw [e, zero_mul, zero_mul]
  have hc : ∀ x : ℝ, 0 < Real.cosh x := Real.cosh_pos
  have sechp : ∀ (r : ℕ), r ≠ 0 → ∀ a b c d : ℝ, a / Real.cosh (b * ((0 : ℕ) * dt)) ^ r = c / Real.cosh (d * ((0 : ℕ) * dt)) ^ r →
      a / Real.cosh (b * ((1 : ℕ) * dt)) ^ r = c / Real.cosh (d * ((1 : ℕ) * dt)) ^ r →
      a / Real.cosh (b * t) ^ r = c / Real.cosh (d * t) ^ r := by
    intro r hr a b c d e0 e1
    simp only [Nat.cast_zero, zero_mul, mul_zero, Real.cosh_zero, one_pow, div_one] at e0
    rw [← e0, Nat.cast_one, one_mul] at e1
    rw [← e0]
    rcases eq_or_ne a 0 with e | e
    · rw [e, zero_div, zero_div]
    · rw [div_eq_div_iff (pow_pos (hc _) _).ne' (pow_pos (hc _) _).ne'] at e1
      have := (pow_left_inj₀ (hc _).le (hc _).le hr).1 (mul_left_cancel₀ e e1)
      rw [cosh_mul_eq hdt this.symm]
  have sech : ∀ a b r c d r' : ℝ, a / Real.cosh (b * ((0 : ℕ) * dt)) ^ r = c / Real.cosh (d * ((0 : ℕ) * dt)) ^ r' →
      a / Real.cosh (b * ((1 : ℕ) * dt)) ^ r = c / Real.cosh (d * ((1 : ℕ) * dt)) ^ r' →
      a / Real.cosh (b * ((2 : ℕ) * dt)) ^ r = c / Real.cosh (d * ((2 : ℕ) * dt)) ^ r' →
      a / Real.cosh (b * t) ^ r = c / Real.cosh (d * t) ^ r' := by
    intro a b r c d r' e0 e1 e2
    simp only [Nat.cast_zero, zero_mul, mul_zero, Real.cosh_zero, Real.one_rpow, div_one] at e0
    have hdbl : ∀ x : ℝ, Real.cosh (x * ((2 : ℕ) * dt)) = 2 * Real.cosh (x * dt) ^ 2 - 1 := fun x => by
      rw [show x * ((2 : ℕ) * dt) = 2 * (x * dt) by push_cast; ring, Real.cosh_two_mul, Real.sinh_sq]; ring
    rw [← e0, Nat.cast_one, one_mul] at e1
    rw [← e0, hdbl, hdbl] at e2
    rw [← e0]
    rcases eq_or_ne a 0 with e | e
    · rw [e, zero_div, zero_div]
    have hb := Real.one_le_cosh (b * dt)
    have hd := Real.one_le_cosh (d * dt)
    have hb2 : 0 < 2 * Real.cosh (b * dt) ^ 2 - 1 := by nlinarith
    have hd2 : 0 < 2 * Real.cosh (d * dt) ^ 2 - 1 := by nlinarith
    have l1 : r * Real.log (Real.cosh (b * dt)) = r' * Real.log (Real.cosh (d * dt)) := by
      rw [div_eq_div_iff (Real.rpow_pos_of_pos (hc _) _).ne' (Real.rpow_pos_of_pos (hc _) _).ne'] at e1
      rw [← Real.log_rpow (hc _), ← Real.log_rpow (hc _), mul_left_cancel₀ e e1]
    have l2 : r * Real.log (2 * Real.cosh (b * dt) ^ 2 - 1) = r' * Real.log (2 * Real.cosh (d * dt) ^ 2 - 1) := by
      rw [div_eq_div_iff (Real.rpow_pos_of_pos hb2 _).ne' (Real.rpow_pos_of_pos hd2 _).ne'] at e2
      rw [← Real.log_rpow hb2, ← Real.log_rpow hd2, mul_left_cancel₀ e e2]
    have const : ∀ x y : ℝ, x * Real.log (Real.cosh (y * dt)) = 0 → Real.cosh (y * t) ^ x = 1 := fun x y exy => by
      rcases mul_eq_zero.1 exy with e | e
      · rw [e, Real.rpow_zero]
      · have h1 : Real.cosh (y * dt) = Real.cosh (0 * dt) := by
          rw [zero_mul, Real.cosh_zero]
          exact Real.eq_one_of_pos_of_log_eq_zero (hc _) e
        rw [cosh_mul_eq hdt h1, zero_mul, Real.cosh_zero, Real.one_rpow]
    by_cases hz : r * Real.log (Real.cosh (b * dt)) = 0
    · rw [const _ _ hz, const _ _ (l1 ▸ hz)]
    · have hz' : r' * Real.log (Real.cosh (d * dt)) ≠ 0 := l1 ▸ hz
      have r0 := left_ne_zero_of_mul hz
      have r0' := left_ne_zero_of_mul hz'
      have g : ∀ x : ℝ, Real.log (Real.cosh x) ≠ 0 → 1 < Real.cosh x := fun x hx =>
        lt_of_le_of_ne (Real.one_le_cosh x) fun e => hx (by rw [← e, Real.log_one])
      have hcosh := cosh_ratio_inj (g _ (right_ne_zero_of_mul hz)) (g _ (right_ne_zero_of_mul hz')) (by
        apply mul_left_cancel₀ (mul_ne_zero r0 r0')
        linear_combination (r' * Real.log (Real.cosh (d * dt))) * l2 - (r' * Real.log (2 * Real.cosh (d * dt) ^ 2 - 1)) * l1)
      rw [← hcosh] at l1
      rw [cosh_mul_eq hdt hcosh, mul_right_cancel₀ (right_ne_zero_of_mul hz) l1]
  simp only [Spec.fitFamily, List.mem_cons, Prod.mk.injEq, List.not_mem_nil, or_false] at hname
  have double : ∀ a b c a' b' c' : ℝ,
      (∀ i < n, c * Real.exp (-(a * (i * dt))) + (1 - c) * Real.exp (-(b * (i * dt))) =
        c' * Real.exp (-(a' * (i * dt))) + (1 - c') * Real.exp (-(b' * (i * dt)))) →
      c * Real.exp (-(a * t)) + (1 - c) * Real.exp (-(b * t)) = c' * Real.exp (-(a' * t)) + (1 - c') * Real.exp (-(b' * t)) := by
    intro a b c a' b' c' e
    have hpow : ∀ (x : ℝ) (i : ℕ), Real.exp (-(x * (i * dt))) = Real.exp (-(x * dt)) ^ i := fun x i => by
      rw [← Real.exp_nat_mul]; congr 1; ring
    have hrp : ∀ x : ℝ, Real.exp (-(x * t)) = Real.exp (-(x * dt)) ^ (t / dt) := fun x => by
      rw [← Real.exp_mul]; congr 1; field_simp
    have := moments_unique (ι := Fin 2) (κ := Fin 2) ![(c : ℂ), 1 - c] ![(Real.exp (-(a * dt)) : ℂ), Real.exp (-(b * dt))]
      ![(c' : ℂ), 1 - c'] ![(Real.exp (-(a' * dt)) : ℂ), Real.exp (-(b' * dt))] n (by simpa using hn) (fun i hi => by
        have := congrArg (fun x : ℝ => (x : ℂ)) (e i hi)
        simp only [hpow] at this
        push_cast at this
        simpa [Fin.sum_univ_two] using this) (fun z => ((z.re ^ (t / dt) : ℝ) : ℂ))
    simp only [Fin.sum_univ_two, Matrix.cons_val_zero, Matrix.cons_val_one, Complex.ofReal_re] at this
    rw [hrp a, hrp b, hrp a', hrp b']
    exact_mod_cast this
  rcases hname with e | e | e | e | e | e | e | e | e | e <;> obtain ⟨rfl, rfl, rfl⟩ := e <;> beta_reduce at h h0 h1 h2 ⊢
  · exact single _ _ _ _ h0 h1
  · exact single _ _ _ _ h0 h1
  · rw [hexp (x := q.getD 0 0) (y := p.getD 0 0) (by simpa using h1)]
  · rw [hexp (x := q.getD 0 0) (y := p.getD 0 0) (by simpa using h1)]
  · exact double _ _ _ _ _ _ h
  · exact double _ _ _ _ _ _ h
  · exact sech _ _ _ _ _ _ h0 h1 h2
  · simpa only [pow_one] using sechp 1 one_ne_zero _ _ _ _ (by simpa only [pow_one] using h0) (by simpa only [pow_one] using h1)
  · exact sechp 2 two_ne_zero _ _ _ _ h0 h1
  · exact gauss _ _ _ _ h0 h1

/-- **C181**: if the data are those of a function of the family, and the fit goes through the data, then `memory_fit_eval` of the fit
returns the function at all times, between and beyond the data. -/
theorem C181_fit (F : Fitters) (hF : F.IsFit) {name : String} {m : ℕ} {f : List ℝ → ℝ → ℝ} (hname : (name, m, f) ∈ Spec.fitFamily)
    {p : List ℝ} {dt : ℝ} (hdt : 0 < dt) {n : ℕ} (hn : 4 ≤ n) {x y : ℕ → ℝ} (hx : ∀ i < n, x i = i * dt) (hy : ∀ i < n, y i = f p (i * dt))
    {tDim dDim : ℕ} {r : String × FitParam} (h : memoryFit F tDim dDim ⟨n, x⟩ ⟨n, y⟩ name = .ok r)
    (hthrough : memoryFitEval ((List.range n).map x) r.2 r.1 = .ok ((List.range n).map y)) (ts : List ℝ) :
    memoryFitEval ts r.2 r.1 = .ok (ts.map (f p)) := by
  obtain ⟨func, p0, q, -, -, rfl, hq, -, hev⟩ := C74_same_function F hF tDim dDim _ _ hname r h
  rw [hev] at hthrough ⊢
  rw [Except.ok.injEq, List.map_map] at hthrough
  refine congrArg Except.ok (List.map_congr_left fun t _ => C181_identified hname hdt hn (fun i hi => ?_) t)
  have := List.map_inj_left.1 hthrough i (List.mem_range.2 hi)
  rw [Function.comp_apply, hx i hi, hy i hi] at this
  exact this

/-- A fitter that knows the answer. -/
noncomputable def exKnown (q : List ℝ) : Fitters := ⟨fun _ _ _ p0 => if q.length = p0.length then .ok q else .error .type, fun _ _ => .error .value⟩

theorem exKnown_isFit (q : List ℝ) : (exKnown q).IsFit := fun func t d p0 r h => by
  simp only [exKnown] at h
  split_ifs at h with e
  cases h
  exact e

/-- The fit finds `3 / cosh (2 t) ^ 5` with the other sign of the rate. -/
example := C181_fit (exKnown [3, -2, 5]) (exKnown_isFit _) (name := "sech") (m := 3) (by simp [Spec.fitFamily]; rfl) (p := [3, 2, 5])
  (dt := 1 / 4) (by norm_num) (n := 6) (by norm_num) (x := fun i => i * (1 / 4)) (y := fun i => 3 / Real.cosh (2 * (i * (1 / 4))) ^ (5 : ℝ))
  (fun _ _ => rfl) (fun i _ => by simp) (tDim := 1) (dDim := 1) (r := ("sech", .popt [3, -2, 5]))
  (by simp [memoryFit, fitDispatch, exKnown, Except.map])
  (by
    simp only [memoryFitEval, evalDispatch]
    simp [sechFct, List.range_succ, List.mapM_cons, bind, Except.bind, pure, Except.pure])

end Verif
