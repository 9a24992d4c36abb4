import Verif.Props.Consistent
import Verif.Props.Asymptotic
import Verif.Model.FitMemory

/-!
# C180: the friction of an estimated model

`markovian_friction` and `asymptotic_fit_integral` of the kernel of an estimated model give the integral of the kernel of the process.
-/

namespace Verif

open Finset Set
open Spec (Averages NearAverages Estimates)

/-- The contract of `scipy.integrate.simpson(y, times)` for an odd number of points at equal distances: Simpson's rule. -/
def Spec.IsSimpson (simpson : Arr ℝ → Arr ℝ → ℝ) : Prop :=
  ∀ (M : ℕ) (dt : ℝ) (y x : ℕ → ℝ), (∀ i ≤ 2 * M, x i = i * dt) →
    simpson ⟨2 * M + 1, y⟩ ⟨2 * M + 1, x⟩ = ∑ j ∈ Finset.range M, dt / 3 * (y (2 * j) + 4 * y (2 * j + 1) + y (2 * j + 2))

/-- A rule that takes numbers `q j` close to the function in the panels is close to the integral. -/
theorem composite_rule {k : ℝ → ℝ} {h e : ℝ} (hh : 0 < h) {n : ℕ} (hk : ContinuousOn k (Icc 0 (n * h))) {q : ℕ → ℝ}
    (hq : ∀ j < n, ∀ s ∈ Icc (j * h) ((j + 1 : ℕ) * h), |q j - k s| ≤ e) :
    |∑ j ∈ Finset.range n, h * q j - ∫ s in (0 : ℝ)..(n * h), k s| ≤ e * (n * h) := by
  induction n with
  | zero => simp
  | succ n ih =>
    have hn : (n : ℝ) * h ≤ (n + 1 : ℕ) * h := by push_cast; nlinarith
    have h0 : 0 ≤ (n : ℝ) * h := by positivity
    have ih := ih (hk.mono (Icc_subset_Icc_right hn)) fun j hj => hq j (hj.trans n.lt_succ_self)
    have i1 : IntervalIntegrable k MeasureTheory.volume 0 (n * h) :=
      (hk.mono (by rw [uIcc_of_le h0]; exact Icc_subset_Icc_right hn)).intervalIntegrable
    have i2 : IntervalIntegrable k MeasureTheory.volume (n * h) ((n + 1 : ℕ) * h) :=
      (hk.mono (by rw [uIcc_of_le hn]; exact Icc_subset_Icc_left h0)).intervalIntegrable
    have hw : ((n + 1 : ℕ) : ℝ) * h - n * h = h := by push_cast; ring
    have step : |h * q n - ∫ s in (n * h)..((n + 1 : ℕ) * h), k s| ≤ e * h := by
      have e1 : h * q n - ∫ s in (n * h)..((n + 1 : ℕ) * h), k s = ∫ s in (n * h)..((n + 1 : ℕ) * h), (q n - k s) := by
        rw [intervalIntegral.integral_sub intervalIntegrable_const i2, intervalIntegral.integral_const, hw, smul_eq_mul]
      have e2 := intervalIntegral.norm_integral_le_of_norm_le_const (a := n * h) (b := (n + 1 : ℕ) * h) (f := fun s => q n - k s) (C := e)
        fun s hs => by
          rw [uIoc_of_le hn] at hs
          exact hq n n.lt_succ_self s ⟨hs.1.le, hs.2⟩
      rw [hw, abs_of_pos hh, Real.norm_eq_abs] at e2
      rwa [e1]
    rw [sum_range_succ, ← intervalIntegral.integral_add_adjacent_intervals i1 i2]
    have : e * ((n + 1 : ℕ) * h) = e * (n * h) + e * h := by push_cast; ring
    rw [this]
    rw [abs_le] at *
    constructor <;> linarith [ih.1, ih.2, step.1, step.2]

section
variable {m : BasisModel ℝ} {F : Mat ℝ m.nForce m.dimObs} {k : ℝ → Mat ℝ (Spec.nCorr m) m.dimObs} {N : ℕ} {T dt eF eK L : ℝ}
  {s : ModelState ℝ}

theorem entry_fin {p x : ℕ} (A : Mat ℝ p x) (i : Fin p) (j : Fin x) : Spec.entry A i j = A i j := by
  simp [Spec.entry]

/-- A value of the estimated kernel and one of the kernel of the process at a time close to it. -/
theorem kernel_close {κ : ℝ → ℝ} (hL0 : 0 ≤ L) (hL : ∀ s ∈ Icc 0 T, ∀ t ∈ Icc 0 T, |κ s - κ t| ≤ L * |s - t|) {y u t w : ℝ}
    (hy : |y - κ u| ≤ eK) (hu : u ∈ Icc 0 T) (ht : t ∈ Icc 0 T) (hw : |u - t| ≤ w) : |y - κ t| ≤ L * w + eK :=
  calc |y - κ t| = |(y - κ u) + (κ u - κ t)| := by ring_nf
    _ ≤ eK + L * w := (abs_add_le _ _).trans (add_le_add hy ((hL u hu t ht).trans (mul_le_mul_of_nonneg_left hw hL0)))
    _ = _ := add_comm _ _

theorem lip_continuousOn {κ : ℝ → ℝ} (hL0 : 0 ≤ L) (hL : ∀ s ∈ Icc 0 T, ∀ t ∈ Icc 0 T, |κ s - κ t| ≤ L * |s - t|) : ContinuousOn κ (Icc 0 T) :=
  LipschitzOnWith.continuousOn (K := ⟨L, hL0⟩) (LipschitzOnWith.of_dist_le_mul fun s hs t ht => by
    rw [Real.dist_eq, Real.dist_eq]
    exact hL s hs t ht)

/-- **C180**: the integrals `markovian_friction` finds for the kernel of an estimated model, for an odd number of points. -/
theorem C180_markovian {simpson : Arr ℝ → Arr ℝ → ℝ} (hS : Spec.IsSimpson simpson) (hE : Estimates m F k N dt eF eK s) (hdt : 0 < dt)
    (hL0 : 0 ≤ L) (hL : ∀ s ∈ Icc 0 T, ∀ t ∈ Icc 0 T, ∀ i j, |k s i j - k t i j| ≤ L * |s - t|) {M : ℕ} (hM : 2 * M + 1 ≤ N)
    (hT : (2 * M : ℕ) * dt ≤ T) :
    ∃ r, s.kernel = some ⟨Spec.nCorr m, m.dimObs, r⟩ ∧ ∀ (i : Fin (Spec.nCorr m)) (j : Fin m.dimObs), ∃ v,
      ((markovianFriction simpson ⟨2 * M + 1, r.time.get⟩ (2 * M + 1) (Spec.nCorr m) m.dimObs
        fun t q l => Spec.entry (r.kernel.get t) q l).2[j.val]?.bind fun R => R[i.val]?) = some v ∧
      |v - ∫ t in (0 : ℝ)..((2 * M : ℕ) * dt), k t i j| ≤ (L * (2 * dt) + eK) * ((2 * M : ℕ) * dt) := by
  obtain ⟨r, hr, -, -, hN⟩ := hE.kernel
  refine ⟨r, hr, fun i j => ⟨simpson ⟨2 * M + 1, fun t => r.kernel.get t i j⟩ ⟨2 * M + 1, r.time.get⟩, ?_, ?_⟩⟩
  · simp [markovianFriction, entry_fin]
  · rw [hS M dt _ _ fun t ht => (hN t (by omega)).1]
    have hLij : ∀ s ∈ Icc 0 T, ∀ t ∈ Icc 0 T, |k s i j - k t i j| ≤ L * |s - t| := fun s hs t ht => hL s hs t ht i j
    have hMh : ((2 * M : ℕ) : ℝ) * dt = M * (2 * dt) := by push_cast; ring
    rw [hMh] at hT ⊢
    have key := composite_rule (k := fun t => k t i j) (h := 2 * dt) (e := L * (2 * dt) + eK) (n := M)
      (q := fun a => (r.kernel.get (2 * a) i j + 4 * r.kernel.get (2 * a + 1) i j + r.kernel.get (2 * a + 2) i j) / 6) (by positivity)
      ((lip_continuousOn hL0 hLij).mono (Icc_subset_Icc_right hT)) fun a ha t ht => ?_
    · convert key using 3
      exact sum_congr rfl fun a _ => by ring
    · have haM : ((a + 1 : ℕ) : ℝ) * (2 * dt) ≤ M * (2 * dt) := mul_le_mul_of_nonneg_right (by exact_mod_cast ha) (by positivity)
      have ha0 : 0 ≤ (a : ℝ) * (2 * dt) := by positivity
      have htT : t ∈ Icc 0 T := ⟨ha0.trans ht.1, ht.2.trans (haM.trans hT)⟩
      push_cast at haM ht
      have near (p : ℕ) (hp : p ≤ 2) : |r.kernel.get (2 * a + p) i j - k t i j| ≤ L * (2 * dt) + eK := by
        have hp0 : (0 : ℝ) ≤ p := p.cast_nonneg
        have hp2 : (p : ℝ) ≤ 2 := by exact_mod_cast hp
        have h1 : 0 ≤ (p : ℝ) * dt := by positivity
        have h2 : (p : ℝ) * dt ≤ 2 * dt := mul_le_mul_of_nonneg_right hp2 hdt.le
        refine kernel_close hL0 hLij ((hN (2 * a + p) (by omega)).2 i j) ⟨by positivity, ?_⟩ htT ?_
        · push_cast
          linarith
        · push_cast
          rw [abs_le]
          constructor <;> linarith [ht.1, ht.2]
      have n0 := near 0 (by norm_num)
      have n1 := near 1 (by norm_num)
      have n2 := near 2 le_rfl
      rw [add_zero] at n0
      rw [abs_le] at *
      constructor <;> linarith [n0.1, n0.2, n1.1, n1.2, n2.1, n2.2]

/-- `C137_limit` for an array of times of which only the entries within the array are known. -/
theorem fit_limit {A : Fitters} (hA : A.SolvesAsymptotic) {n : ℕ} (hn : 3 ≤ n) (hdt : 0 < dt) {x y : ℕ → ℝ} (hx : ∀ i < n, x i = i * dt)
    {p : List ℝ} (h : asymptoticFitIntegral A ⟨n, x⟩ ⟨n, y⟩ = .ok p) {lim eps : ℝ}
    (hlim : ∀ i, n / 2 ≤ i → i < n → |Spec.runningIntegral (fun i => i * dt) y i - lim| ≤ eps) :
    ∃ a b, p = [a, b] ∧ |a - lim| ≤ 512 * eps := by
  obtain ⟨-, -, a, b, rfl, hbest⟩ := asymptoticFit_ok hA h
  refine ⟨a, b, rfl, ?_⟩
  obtain ⟨e1, e2⟩ := asymptote_normal hbest
  dsimp only at e1 e2
  have hsum (i : ℕ) (hi : i < n) :
      ∑ k ∈ Finset.range i, (x (k + 1) - x k) * (y (k + 1) + y k) / 2 = Spec.runningIntegral (fun i => i * dt) y i :=
    sum_congr rfl fun k hk => by
      have := Finset.mem_range.1 hk
      rw [hx (k + 1) (by omega), hx k (by omega)]
  refine asymptote_bound (N := n - n / 2) (h := n / 2) (b := b) (dt := dt)
    (q := fun i => Spec.runningIntegral (fun i => i * dt) y (n / 2 + i) - lim) (by omega) hdt (by omega) (by omega) (by omega)
    (fun i hi => hlim (n / 2 + i) (by omega) (by omega)) ?_ ?_
  · rw [← e1]
    refine sum_congr rfl fun i hi => ?_
    have := Finset.mem_range.1 hi
    rw [hsum _ (by omega), hx _ (by omega)]
    ring
  · rw [← e2]
    refine sum_congr rfl fun i hi => ?_
    have := Finset.mem_range.1 hi
    rw [hsum _ (by omega), hx _ (by omega)]
    ring

/-- **C180**: the limit `asymptotic_fit_integral` finds for a component of the kernel of an estimated model: the integral of the
kernel of the process over all times, up to what is left after half of the times. -/
theorem C180_asymptotic {A : Fitters} (hA : A.SolvesAsymptotic) (hE : Estimates m F k N dt eF eK s) (hdt : 0 < dt)
    (hL0 : 0 ≤ L) (hL : ∀ s ∈ Icc 0 T, ∀ t ∈ Icc 0 T, ∀ i j, |k s i j - k t i j| ≤ L * |s - t|) {n : ℕ} (hn : 3 ≤ n) (hnN : n ≤ N)
    (hT : (n - 1 : ℕ) * dt ≤ T) :
    ∃ r, s.kernel = some ⟨Spec.nCorr m, m.dimObs, r⟩ ∧ ∀ (i : Fin (Spec.nCorr m)) (j : Fin m.dimObs) (lim delta : ℝ) (p : List ℝ),
      (∀ t ∈ Icc ((n / 2 : ℕ) * dt) ((n - 1 : ℕ) * dt), |(∫ u in (0 : ℝ)..t, k u i j) - lim| ≤ delta) →
      asymptoticFitIntegral A ⟨n, r.time.get⟩ ⟨n, fun t => r.kernel.get t i j⟩ = .ok p →
      ∃ a b, p = [a, b] ∧ |a - lim| ≤ 512 * ((L * dt + eK) * T + delta) := by
  obtain ⟨r, hr, -, -, hN⟩ := hE.kernel
  refine ⟨r, hr, fun i j lim delta p hlim hp => fit_limit hA hn hdt (fun t ht => (hN t (by omega)).1) hp fun t ht1 ht2 => ?_⟩
  have hLij : ∀ s ∈ Icc 0 T, ∀ t ∈ Icc 0 T, |k s i j - k t i j| ≤ L * |s - t| := fun s hs t ht => hL s hs t ht i j
  have heK : 0 ≤ eK := (abs_nonneg _).trans ((hN 0 (by omega)).2 i j)
  have htn : (t : ℝ) * dt ≤ (n - 1 : ℕ) * dt := mul_le_mul_of_nonneg_right (by exact_mod_cast Nat.le_sub_one_of_lt ht2) hdt.le
  have key := composite_rule (k := fun t => k t i j) (h := dt) (e := L * dt + eK) (n := t)
    (q := fun a => (r.kernel.get (a + 1) i j + r.kernel.get a i j) / 2) hdt
    ((lip_continuousOn hL0 hLij).mono (Icc_subset_Icc_right (htn.trans hT))) fun a ha u hu => ?_
  · have e1 : Spec.runningIntegral (fun i => i * dt) (fun t => r.kernel.get t i j) t =
        ∑ a ∈ Finset.range t, dt * ((r.kernel.get (a + 1) i j + r.kernel.get a i j) / 2) :=
      sum_congr rfl fun a _ => by push_cast; ring
    rw [e1]
    have e2 := hlim (t * dt) ⟨mul_le_mul_of_nonneg_right (by exact_mod_cast ht1) hdt.le, htn⟩
    have e3 : (L * dt + eK) * (t * dt) ≤ (L * dt + eK) * T := mul_le_mul_of_nonneg_left (htn.trans hT) (by positivity)
    rw [abs_le] at *
    constructor <;> linarith [key.1, key.2, e2.1, e2.2]
  · have hat : ((a + 1 : ℕ) : ℝ) * dt ≤ t * dt := mul_le_mul_of_nonneg_right (by exact_mod_cast ha) hdt.le
    have ha0 : 0 ≤ (a : ℝ) * dt := by positivity
    have huT : u ∈ Icc 0 T := ⟨ha0.trans hu.1, hu.2.trans (hat.trans (htn.trans hT))⟩
    push_cast at hat hu
    have n0 : |r.kernel.get a i j - k u i j| ≤ L * dt + eK :=
      kernel_close hL0 hLij ((hN a (by omega)).2 i j) ⟨ha0, by linarith⟩ huT (by rw [abs_le]; constructor <;> linarith [hu.1, hu.2])
    have n1 : |r.kernel.get (a + 1) i j - k u i j| ≤ L * dt + eK :=
      kernel_close hL0 hLij ((hN (a + 1) (by omega)).2 i j) ⟨by positivity, by push_cast; linarith⟩ huT
        (by push_cast; rw [abs_le]; constructor <;> linarith [hu.1, hu.2])
    rw [abs_le] at *
    constructor <;> linarith [n0.1, n0.2, n1.1, n1.2]

variable {μ : Averages m.nForce (Spec.nCorr m) m.dimObs} {MW : ℝ}

/-- **C180**: estimate a model with the rectangle rule of the second kind and integrate its kernel. -/
theorem C180_second_kind_rect {simpson : Arr ℝ → Arr ℝ → ℝ} (hS : Spec.IsSimpson simpson) {A : Fitters} (hA : A.SolvesAsymptotic)
    (hT0 : 0 ≤ T) (hG : μ.gram.det ≠ 0) (hF : μ.gram * F = μ.proj)
    (hW : ∀ t ∈ Set.Icc 0 T, ∀ i j, |μ.cross t i j| ≤ MW ∧ |μ.dcross t i j| ≤ MW) (hm : m.WF) (hx1 : 1 ≤ m.dimx)
    (hh : m.cls ≠ .hybrid) (hB0 : (μ.corr 0).det ≠ 0)
    (hB : Spec.Lip T μ.dcorr) (hk : Spec.Lip T k) (heq : Spec.SecondKind T (μ.corr 0) μ.dcorr (μ.dresidual F) k) :
    ∃ C δ : ℝ, 0 < δ ∧ ∀ (env : Env ℝ) (method : String) (vectorize : Bool) (rankTol : Option ℝ) (d : String)
      (s : EstState ℝ) (ε : ℝ), Setup env method vectorize m d s →
      NearAverages m s.model.Lobs μ s.xvas s.model.truncInd s.model.dt ε → 0 < s.model.dt → s.model.dt ≤ δ → 0 ≤ ε →
      ε ≤ δ → ((s.model.truncInd - 1 : ℕ) : ℝ) * s.model.dt ≤ T →
      ∃ s1 s2 s3, computeMeanForce env s = (s1, none) ∧ computeCorrs env method vectorize true rankTol s1 = (s2, none) ∧
        computeKernelStep "second_kind_rect" (fun _ _ => none) s2 = (s3, none) ∧
        ∃ r, s3.model.kernel = some ⟨Spec.nCorr m, m.dimObs, r⟩ ∧ ∀ (i : Fin (Spec.nCorr m)) (j : Fin m.dimObs),
          (∀ M, 2 * M + 1 ≤ s.model.truncInd → ∃ v,
            ((markovianFriction simpson ⟨2 * M + 1, r.time.get⟩ (2 * M + 1) (Spec.nCorr m) m.dimObs
              fun t q l => Spec.entry (r.kernel.get t) q l).2[j.val]?.bind fun R => R[i.val]?) = some v ∧
            |v - ∫ t in (0 : ℝ)..((2 * M : ℕ) * s.model.dt), k t i j| ≤ C * (s.model.dt + ε)) ∧
          ∀ n, 3 ≤ n → n ≤ s.model.truncInd → ∀ (lim delta : ℝ) (p : List ℝ),
            (∀ t ∈ Icc ((n / 2 : ℕ) * s.model.dt) ((n - 1 : ℕ) * s.model.dt), |(∫ u in (0 : ℝ)..t, k u i j) - lim| ≤ delta) →
            asymptoticFitIntegral A ⟨n, r.time.get⟩ ⟨n, fun t => r.kernel.get t i j⟩ = .ok p →
            ∃ a b, p = [a, b] ∧ |a - lim| ≤ C * (s.model.dt + ε) + 512 * delta := by
  obtain ⟨C, δ, hδ, H⟩ := C142_second_kind_rect hG hF hW hm hx1 hh hB0 hB hk heq
  obtain ⟨L, hL⟩ := hk
  have hL' : ∀ s ∈ Icc 0 T, ∀ t ∈ Icc 0 T, ∀ i j, |k s i j - k t i j| ≤ |L| * |s - t| := fun s hs t ht i j =>
    (hL s hs t ht i j).trans (mul_le_mul_of_nonneg_right (le_abs_self L) (abs_nonneg _))
  refine ⟨512 * ((2 * |L| + |C|) * T), δ, hδ, fun env method vectorize rankTol d s ε hs hn hdt hdtδ hε hεδ hT => ?_⟩
  obtain ⟨s1, s2, s3, h1, h2, h3, hE⟩ := H env method vectorize rankTol d s ε hs hn hdt hdtδ hε hεδ hT
  refine ⟨s1, s2, s3, h1, h2, h3, ?_⟩
  obtain ⟨r, hr, hrest⟩ := hE.kernel
  have hle (n : ℕ) (hn : n ≤ s.model.truncInd - 1) : (n : ℝ) * s.model.dt ≤ T :=
    (mul_le_mul_of_nonneg_right (by exact_mod_cast hn) hdt.le).trans hT
  have hCb : C * (s.model.dt + ε) ≤ |C| * (s.model.dt + ε) := mul_le_mul_of_nonneg_right (le_abs_self C) (by positivity)
  have hLe : 0 ≤ |L| * ε := by positivity
  refine ⟨r, hr, fun i j => ⟨fun M hM => ?_, fun n hn3 hnN lim delta p hlim hp => ?_⟩⟩
  · obtain ⟨r', hr', hv⟩ := C180_markovian hS hE hdt (abs_nonneg L) hL' hM (hle _ (by omega))
    rw [hr] at hr'
    cases hr'
    obtain ⟨v, hv1, hv2⟩ := hv i j
    refine ⟨v, hv1, hv2.trans ?_⟩
    have b1 : |L| * (2 * s.model.dt) + C * (s.model.dt + ε) ≤ (2 * |L| + |C|) * (s.model.dt + ε) := by linarith
    have b2 : 0 ≤ (2 * |L| + |C|) * (s.model.dt + ε) := by positivity
    have b3 : 0 ≤ ((2 * M : ℕ) : ℝ) * s.model.dt := by positivity
    calc _ ≤ (2 * |L| + |C|) * (s.model.dt + ε) * T := mul_le_mul b1 (hle _ (by omega)) b3 b2
      _ ≤ _ := by nlinarith [mul_nonneg b2 hT0]
  · obtain ⟨r', hr', hv⟩ := C180_asymptotic hA hE hdt (abs_nonneg L) hL' hn3 hnN (hle _ (by omega))
    rw [hr] at hr'
    cases hr'
    obtain ⟨a, b, rfl, hab⟩ := hv i j lim delta p hlim hp
    refine ⟨a, b, rfl, hab.trans ?_⟩
    have b1 : |L| * s.model.dt + C * (s.model.dt + ε) ≤ (2 * |L| + |C|) * (s.model.dt + ε) := by
      have : 0 ≤ |L| * s.model.dt := by positivity
      linarith
    have := mul_le_mul_of_nonneg_right b1 hT0
    linarith

end

/-- Simpson's rule with the distance of the first two points. -/
noncomputable def exSimpson (y x : Arr ℝ) : ℝ :=
  ∑ j ∈ Finset.range ((y.len - 1) / 2), (x.get 1 - x.get 0) / 3 * (y.get (2 * j) + 4 * y.get (2 * j + 1) + y.get (2 * j + 2))

theorem exSimpson_spec : Spec.IsSimpson exSimpson := by
  intro M dt y x hx
  simp only [exSimpson, Nat.add_sub_cancel, Nat.mul_div_cancel_left M two_pos]
  refine sum_congr rfl fun j hj => ?_
  have := Finset.mem_range.1 hj
  rw [hx 1 (by omega), hx 0 (by omega)]
  simp

namespace TwoOscillators

open Spec

example := C180_second_kind_rect exSimpson_spec leastSquaresFitters_solves zero_le_one gram_det force cross_le (fun h => by cases h) le_rfl
  (by decide) corr_det (lip_of (fun t => W_deriv (1 / 2) (343 / 2) t) (U_le _ _)) (lip_of kt_deriv kt1_le) secondKind

theorem kt_integral (t : ℝ) : ∫ u in (0 : ℝ)..t, kt u = 576 / 35 * Real.sin (7 / 5 * t) := by
  have h : ∀ u ∈ Set.uIcc 0 t, HasDerivAt (fun u => 576 / 35 * Real.sin (7 / 5 * u)) (kt u) u := fun u _ =>
    ((((hasDerivAt_id u).const_mul (7 / 5)).sin).const_mul (576 / 35)).congr_deriv (by simp only [kt, id]; ring)
  rw [intervalIntegral.integral_eq_sub_of_hasDerivAt h
    ((continuous_iff_continuousAt.2 fun u => (kt_deriv u).continuousAt).intervalIntegrable _ _)]
  simp

/-- The integral of the kernel estimated from the trajectories of the two oscillators. -/
theorem friction : ∃ C δ : ℝ, 0 < δ ∧ ∀ (dt : ℝ) (M extra : ℕ), 0 < dt → dt ≤ δ → (2 * M : ℕ) * dt ≤ 1 →
    ∃ s1 s2 s3, computeMeanForce env (state dt (2 * M + 1) extra) = (s1, none) ∧ computeCorrs env "direct" false true none s1 = (s2, none) ∧
      computeKernelStep "second_kind_trapz" (fun _ _ => none) s2 = (s3, none) ∧
      ∃ r, s3.model.kernel = some ⟨Spec.nCorr model, model.dimObs, r⟩ ∧ ∀ (i : Fin (Spec.nCorr model)) (j : Fin model.dimObs), ∃ v,
        ((markovianFriction exSimpson ⟨2 * M + 1, r.time.get⟩ (2 * M + 1) (Spec.nCorr model) model.dimObs
          fun t q l => Spec.entry (r.kernel.get t) q l).2[j.val]?.bind fun R => R[i.val]?) = some v ∧
        |v - 576 / 35 * Real.sin (7 / 5 * ((2 * M : ℕ) * dt))| ≤ C * dt := by
  obtain ⟨C, δ, hδ, H⟩ := converges
  obtain ⟨L, hL⟩ : Spec.Lip 1 k := lip_of kt_deriv kt1_le
  refine ⟨2 * |L| + |C|, min δ 1, by positivity, fun dt M extra hdt hdtδ hT => ?_⟩
  obtain ⟨s1, s2, s3, h1, h2, h3, hE⟩ := H dt (2 * M + 1) extra hdt (hdtδ.trans (min_le_left _ _)) (by omega) hT
  obtain ⟨r, hr, hv⟩ := C180_markovian exSimpson_spec hE hdt (abs_nonneg L) (fun s hs t ht i j =>
    (hL s hs t ht i j).trans (mul_le_mul_of_nonneg_right (le_abs_self L) (abs_nonneg _))) le_rfl hT
  refine ⟨s1, s2, s3, h1, h2, h3, r, hr, fun i j => ?_⟩
  obtain ⟨v, hv1, hv2⟩ := hv i j
  refine ⟨v, hv1, ?_⟩
  rw [← kt_integral]
  have b1 : |L| * (2 * dt) + C * dt ^ 2 ≤ (2 * |L| + |C|) * dt := by
    have a1 : C * dt ^ 2 ≤ |C| * dt ^ 2 := mul_le_mul_of_nonneg_right (le_abs_self C) (by positivity)
    have a2 : dt ^ 2 ≤ dt := by nlinarith [hdtδ.trans (min_le_right _ _)]
    have a3 := mul_le_mul_of_nonneg_left a2 (abs_nonneg C)
    linarith
  have b2 : 0 ≤ (2 * |L| + |C|) * dt := by positivity
  calc _ ≤ _ := hv2
    _ ≤ (2 * |L| + |C|) * dt * 1 := mul_le_mul b1 hT (by positivity) b2
    _ = _ := mul_one _

example {dt : ℝ} {s : ModelState ℝ} (hdt : 0 < dt) (hT : (8 : ℕ) * dt ≤ 1) (hE : Estimates model F k 9 dt 0 dt s) {L : ℝ} (hL0 : 0 ≤ L)
    (hL : ∀ s ∈ Set.Icc (0 : ℝ) 1, ∀ t ∈ Set.Icc (0 : ℝ) 1, ∀ i j, |k s i j - k t i j| ≤ L * |s - t|) :=
  C180_asymptotic leastSquaresFitters_solves hE hdt hL0 hL (n := 9) (by norm_num) le_rfl hT

end TwoOscillators

end Verif
