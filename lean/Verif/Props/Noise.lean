import Verif.Lemmas.Noise
import Verif.Props.VolterraMore
import Mathlib.Tactic.LinearCombination

/-!
# Properties of `compute_noise` and `compute_corrs_w_noise`: C17 - C23
-/

namespace Verif

open Finset

section
variable {K : Type*} [Field K] {bf b x o : ℕ}

/-- The number of kernel points used by `compute_noise`. -/
def usedPoints (m : NoiseModel K bf b x) (k : KernelData K b x) (trunc : Option ℕ) : ℕ :=
  min (trunc.getD m.truncInd) k.kernel.len

/-- What a successful run of `compute_noise` consists of. -/
theorem computeNoise_ok {m : NoiseModel K bf b x} {xva : Traj K bf b x} {trunc : Option ℕ}
    {start : ℕ} {stop : Option ℕ} {r : NoiseOut K x}
    (h : computeNoise m xva trunc start stop = .ok r) :
    ∃ c k, m.forceCoeff = some c ∧ m.kernel = some k ∧ 0 < usedPoints m k trunc ∧
      2 ≤ (xva.isel start stop).len ∧ r.len = (xva.isel start stop).len ∧
      r.time = (fun t => xva.time (start + t) - xva.time 0) ∧
      r.obs = (fun t => xva.obs (start + t)) ∧
      r.force = noiseForce xva.obsDim c (xva.isel start stop).Eforce ∧
      r.noise = (fun t => r.obs t - r.force t - r.memory t) ∧
      ((isRectMethod m.method ∧ r.memory = FKernel.memoryRect (r.len - 1) (usedPoints m k trunc - 1)
          k.kernel.get (fun t => xva.E (start + t)) (xva.time (start + 1) - xva.time start)) ∨
        (¬ isRectMethod m.method ∧ isTrapzMethod m.method ∧
          r.memory = FKernel.memoryTrapz (r.len - 1) (usedPoints m k trunc - 1)
          k.kernel.get (fun t => xva.E (start + t)) (xva.time (start + 1) - xva.time start))) := by
  unfold computeNoise at h
  cases hc : m.forceCoeff with
  | none => simp [hc, bind, Except.bind] at h
  | some c =>
    simp only [hc, bind, Except.bind, pure, Except.pure, throw, throwThe, MonadExceptOf.throw] at h
    by_cases h0 : xva.len = 0
    · simp [h0] at h
    · simp only [h0, if_false] at h
      by_cases h2 : (xva.isel start stop).len < 2
      · simp [h2] at h
      · simp only [h2, if_false] at h
        have edt : ((xva.isel start stop).time 1 - xva.time 0) - ((xva.isel start stop).time 0 - xva.time 0) =
            xva.time (start + 1) - xva.time start := by simp [Traj.isel]
        simp only [edt] at h
        cases hk : m.kernel with
        | none => by_cases hr : isRectMethod m.method <;> by_cases ht : isTrapzMethod m.method <;>
            simp [hr, ht, hk] at h
        | some k =>
          simp only [hk] at h
          by_cases hz : min (trunc.getD m.truncInd) k.kernel.len = 0
          · by_cases hr : isRectMethod m.method <;> by_cases ht : isTrapzMethod m.method <;>
              simp [hr, ht, hz] at h
          · refine ⟨c, k, rfl, rfl, Nat.pos_of_ne_zero hz, by omega, ?_⟩
            by_cases hr : isRectMethod m.method
            · simp only [hr, hz, if_true, if_false, Except.ok.injEq] at h
              subst h
              exact ⟨rfl, rfl, rfl, rfl, rfl, Or.inl ⟨hr, rfl⟩⟩
            · by_cases ht : isTrapzMethod m.method
              · simp only [hr, ht, hz, if_true, if_false, Except.ok.injEq] at h
                subst h
                exact ⟨rfl, rfl, rfl, rfl, rfl, Or.inr ⟨hr, ht, rfl⟩⟩
              · simp [hr, ht] at h

/-- What a successful run of `compute_corrs_w_noise` consists of. -/
theorem computeCorrsWNoise_ok {m : NoiseModel K bf b x} {xva : Traj K bf b x} {left : LeftOp K x o}
    {r : Arr K × Arr (Mat K o x)} (h : computeCorrsWNoise m xva left = .ok r) :
    ∃ c k, m.forceCoeff = some c ∧ m.kernel = some k ∧ 2 ≤ xva.len ∧
      ((isRectMethod m.method ∧ r = (k.time, ⟨k.kernel.len, FKernel.corrsRect (xva.len - 1)
          (k.kernel.len - 1) (Spec.instantNoise xva.obs xva.Eforce c) k.kernel.get xva.E
          (left.values (Spec.instantNoise xva.obs xva.Eforce c)) (xva.time 1 - xva.time 0)⟩)) ∨
        (¬ isRectMethod m.method ∧ isTrapzMethod m.method ∧
          r = (⟨k.time.len - 1, k.time.get⟩, ⟨k.kernel.len - 1, FKernel.corrsTrapz (xva.len - 1)
          (k.kernel.len - 1) (Spec.instantNoise xva.obs xva.Eforce c) k.kernel.get xva.E
          (left.values (Spec.instantNoise xva.obs xva.Eforce c)) (xva.time 1 - xva.time 0)⟩))) := by
  unfold computeCorrsWNoise at h
  cases hc : m.forceCoeff with
  | none => simp [hc, bind, Except.bind] at h
  | some c =>
    cases hk : m.kernel with
    | none => simp [hc, hk, bind, Except.bind] at h
    | some k =>
      simp only [hc, hk, bind, Except.bind, pure, Except.pure, throw, throwThe, MonadExceptOf.throw] at h
      refine ⟨c, k, rfl, rfl, ?_⟩
      by_cases h2 : xva.len < 2
      · simp [h2] at h
      · simp only [h2, if_false] at h
        refine ⟨by omega, ?_⟩
        by_cases hr : isRectMethod m.method
        · simp only [hr, if_true, Except.ok.injEq] at h
          exact Or.inl ⟨hr, h.symm⟩
        · by_cases ht : isTrapzMethod m.method
          · simp only [hr, ht, if_true, if_false, Except.ok.injEq] at h
            exact Or.inr ⟨hr, ht, h.symm⟩
          · simp [hr, ht] at h

/-! ### Example data -/

/-- A trajectory with five points, two basis functions and a scalar observable. -/
def exTraj : Traj ℚ 2 2 1 where
  len := 5
  time := fun k => 1 + k / 2
  obs := fun k _ => k ^ 2
  Eforce := fun k => ![1, k]
  E := fun k => ![1, k]
  obsDim := "dim_x"

/-- A kernel with three points. -/
def exKer : KernelData ℚ 2 1 where
  kernel := ⟨3, fun k => !![1; k + 1]⟩
  time := ⟨3, fun k => k / 2⟩

def exNoiseModel (method : String) : NoiseModel ℚ 2 2 1 where
  forceCoeff := some !![1; -1]
  kernel := some exKer
  method := some method
  truncInd := 3

def dfltNoise (x : ℕ) : NoiseOut ℚ x := ⟨0, 0, 0, 0, 0, 0⟩

/-! ### C17, C18: the memory term -/

/-- **C17.** Memory term of `compute_noise` for the rectangle methods: at step `i ≥ 1` minus the sum
over the lags `0, ..., min i (L-1)`, where `L` is the number of kernel points used; zero at step 0. -/
theorem C17_memory_rect {m : NoiseModel K bf b x} {xva : Traj K bf b x} {trunc : Option ℕ}
    {start : ℕ} {stop : Option ℕ} {r : NoiseOut K x} {k : KernelData K b x}
    (hm : isRectMethod m.method) (hk : m.kernel = some k)
    (h : computeNoise m xva trunc start stop = .ok r) :
    r.memory 0 = 0 ∧ ∀ i, 1 ≤ i → i < r.len → ∀ l,
      r.memory i l = -∑ j ∈ range (min (i + 1) (usedPoints m k trunc)),
        (xva.time (start + 1) - xva.time start) *
          ∑ a, xva.E (start + (i - j)) a * k.kernel.get j a l := by
  obtain ⟨c, k', -, hk', hp, -, -, -, -, -, -, hmem⟩ := computeNoise_ok h
  obtain rfl : k' = k := by rw [hk] at hk'; simpa using hk'.symm
  rcases hmem with ⟨-, hmem⟩ | ⟨hn, -⟩
  · rw [hmem]
    constructor
    · rw [FKernel.memoryRect_eq]; simp
    · intro i h1 h2 l
      rw [FKernel.memoryRect_spec _ _ _ _ _ h1 (by omega),
        show min i (usedPoints m k' trunc - 1) + 1 = min (i + 1) (usedPoints m k' trunc) by omega]
      simp [Spec.rectRule, Spec.memIntegrand, Finset.sum_apply]
  · exact absurd hm hn

example : ∃ r, computeNoise (exNoiseModel "rect") exTraj none 1 none = .ok r ∧ 3 < r.len ∧
    usedPoints (exNoiseModel "rect") exKer none = 3 ∧ r.memory 3 0 = -19 / 2 :=
  ⟨_, eq_getOk (by decide +kernel) (dfltNoise 1), by decide +kernel, by decide +kernel, by decide +kernel⟩

/-- **C18.** Memory term for the trapezoid methods, inside the kernel window. *Missing*: steps beyond
the last kernel point (`i ≥ L`), where the code departs from the trapezoidal rule, see
`C18_trapz_fails` and `C18_memory_trapz_late`. -/
theorem C18_memory_trapz_partial [CharZero K] {m : NoiseModel K bf b x} {xva : Traj K bf b x}
    {trunc : Option ℕ} {start : ℕ} {stop : Option ℕ} {r : NoiseOut K x} {k : KernelData K b x}
    (hm : isTrapzMethod m.method) (hk : m.kernel = some k)
    (h : computeNoise m xva trunc start stop = .ok r) :
    r.memory 0 = 0 ∧ ∀ i, 1 ≤ i → i < r.len → i < usedPoints m k trunc →
      r.memory i = -Spec.trapzRule (xva.time (start + 1) - xva.time start)
        (fun s l => ∑ a, xva.E (start + (i - s)) a * k.kernel.get s a l) i := by
  obtain ⟨c, k', -, hk', hp, -, -, -, -, -, -, hmem⟩ := computeNoise_ok h
  obtain rfl : k' = k := by rw [hk] at hk'; simpa using hk'.symm
  rcases hmem with ⟨hr, -⟩ | ⟨-, -, hmem⟩
  · exfalso
    rcases hm with h | h <;> rw [h] at hr <;> revert hr <;> simp [isRectMethod]
  · rw [hmem]
    constructor
    · rw [FKernel.memoryTrapz_eq]; simp
    · intro i h1 h2 h3
      rw [FKernel.memoryTrapz_spec _ _ _ _ _ h1 (by omega) (by omega)]
      rfl

/-- The memory term of the trapezoid methods beyond the window: the trapezoidal rule over the window
*plus* a full-weight term for the last kernel point. -/
theorem C18_memory_trapz_late [CharZero K] {m : NoiseModel K bf b x} {xva : Traj K bf b x}
    {trunc : Option ℕ} {start : ℕ} {stop : Option ℕ} {r : NoiseOut K x} {k : KernelData K b x}
    (hm : isTrapzMethod m.method) (hk : m.kernel = some k)
    (h : computeNoise m xva trunc start stop = .ok r) (i L : ℕ) (h1 : i < r.len)
    (hL : usedPoints m k trunc = L + 1) (h2 : L < i) :
    r.memory i = -(Spec.trapzRule (xva.time (start + 1) - xva.time start)
        (fun s l => ∑ a, xva.E (start + (i - s)) a * k.kernel.get s a l) L +
        (xva.time (start + 1) - xva.time start) •
          fun l => ∑ a, xva.E (start + (i - L)) a * k.kernel.get L a l) := by
  obtain ⟨c, k', -, hk', hp, -, -, -, -, -, -, hmem⟩ := computeNoise_ok h
  obtain rfl : k' = k := by rw [hk] at hk'; simpa using hk'.symm
  rcases hmem with ⟨hr, -⟩ | ⟨-, -, hmem⟩
  · exfalso
    rcases hm with h | h <;> rw [h] at hr <;> revert hr <;> simp [isRectMethod]
  · rw [hmem, hL, FKernel.memoryTrapz_late _ _ _ _ _ (by omega) (by omega)]
    rfl

example : ∃ r, computeNoise (exNoiseModel "trapz") exTraj none 0 none = .ok r ∧ 2 < r.len ∧
    usedPoints (exNoiseModel "trapz") exKer none = 3 ∧ r.memory 2 0 = -5 / 2 :=
  ⟨_, eq_getOk (by decide +kernel) (dfltNoise 1), by decide +kernel, by decide +kernel, by decide +kernel⟩

/-- The full statement of C18 is false: beyond the kernel window the memory term is not the
trapezoidal rule over the window. -/
theorem C18_trapz_fails : ¬ ∀ (m : NoiseModel ℚ 2 2 1) (xva : Traj ℚ 2 2 1) (r : NoiseOut ℚ 1)
    (k : KernelData ℚ 2 1) (i : ℕ), isTrapzMethod m.method → m.kernel = some k →
    computeNoise m xva none 0 none = .ok r → 1 ≤ i → i < r.len →
    r.memory i = -Spec.trapzRule (xva.time 1 - xva.time 0)
      (fun s l => ∑ a, xva.E (i - s) a * k.kernel.get s a l) (min i (usedPoints m k none - 1)) := by
  intro h
  have := congrFun (h (exNoiseModel "trapz") exTraj _ exKer 3 (by decide) rfl
    (eq_getOk (by decide +kernel) (dfltNoise 1)) (by decide) (by decide +kernel)) 0
  revert this
  decide +kernel

/-! ### C19: decomposition of the observable -/

/-- **C19.** Observable = force + memory + noise, and the force is the mean force. *Missing*: an
observable with several components whose dimension is called `dim_x`; there the code adds up the
components of the force, see `C19_fails`. -/
theorem C19_decomposition_partial {m : NoiseModel K bf b x} {xva : Traj K bf b x}
    {trunc : Option ℕ} {start : ℕ} {stop : Option ℕ} {r : NoiseOut K x} {c : Mat K bf x}
    (hc : m.forceCoeff = some c) (hdim : x = 1 ∨ xva.obsDim ≠ "dim_x")
    (h : computeNoise m xva trunc start stop = .ok r) :
    (∀ t, xva.obs (start + t) = r.force t + r.memory t + r.noise t) ∧ r.obs = (fun t => xva.obs (start + t)) ∧
      ∀ t l, r.force t l = ∑ k, xva.Eforce (start + t) k * c k l := by
  obtain ⟨c', k', hc', -, -, -, -, -, hobs, hf, hn, -⟩ := computeNoise_ok h
  obtain rfl : c' = c := by rw [hc] at hc'; simpa using hc'.symm
  refine ⟨fun t => ?_, hobs, fun t l => ?_⟩
  · rw [hn, hobs]; beta_reduce; abel
  · rw [hf]
    unfold noiseForce
    rcases hdim with rfl | hd
    · split_ifs
      · refine sum_congr rfl fun k _ => ?_
        rw [Fin.sum_univ_one, Subsingleton.elim l 0]
        rfl
      · rfl
    · simp only [hd, if_false]; rfl

/-- The first half of C19 holds without restriction. -/
theorem C19_sum {m : NoiseModel K bf b x} {xva : Traj K bf b x}
    {trunc : Option ℕ} {start : ℕ} {stop : Option ℕ} {r : NoiseOut K x}
    (h : computeNoise m xva trunc start stop = .ok r) (t : ℕ) :
    xva.obs (start + t) = r.force t + r.memory t + r.noise t := by
  obtain ⟨c', k', hc', -, -, -, -, -, hobs, hf, hn, -⟩ := computeNoise_ok h
  rw [hn, hobs]; beta_reduce; abel

example : ∃ r, computeNoise (exNoiseModel "rect") exTraj none 1 none = .ok r ∧
    r.force 1 0 = -1 ∧ r.noise 1 0 ≠ 0 ∧ r.memory 1 0 ≠ 0 :=
  ⟨_, eq_getOk (by decide +kernel) (dfltNoise 1), by decide +kernel, by decide +kernel, by decide +kernel⟩

/-- Two components, one force basis function, constant in time. -/
def exTraj2 : Traj ℚ 1 1 2 where
  len := 3
  time := fun k => k
  obs := fun _ => ![1, 2]
  Eforce := fun _ => ![1]
  E := fun _ => ![1]
  obsDim := "dim_x"

def exNoiseModel2 : NoiseModel ℚ 1 1 2 where
  forceCoeff := some !![1, 2]
  kernel := some ⟨⟨2, fun _ => 0⟩, ⟨2, fun k => k⟩⟩
  method := some "rect"
  truncInd := 2

/-- The full statement of C19 is false for two components: the returned force is not the mean
force, and even the noise of a trajectory without any noise is non-zero. -/
theorem C19_fails : ∃ (m : NoiseModel ℚ 1 1 2) (xva : Traj ℚ 1 1 2) (c : Mat ℚ 1 2)
    (r : NoiseOut ℚ 2), m.forceCoeff = some c ∧ computeNoise m xva none 0 none = .ok r ∧
    (∀ t l, xva.obs t l = ∑ k, xva.Eforce t k * c k l) ∧
    r.force 0 0 ≠ ∑ k, xva.Eforce 0 k * c k 0 ∧ r.noise 0 0 ≠ 0 := by
  refine ⟨exNoiseModel2, exTraj2, _, _, rfl, eq_getOk (by decide +kernel) (dfltNoise 2), ?_,
    by decide +kernel, by decide +kernel⟩
  intro t l
  fin_cases l <;> simp [exTraj2]

/-! ### C20: the projected noise -/

/-- **C20**, rectangle methods. Times are those of the kernel, and the value at lag `n` is the
average over `t = 0, ..., T-1-n` of the left operator at `t` times the projected noise. -/
theorem C20_rect {m : NoiseModel K bf b x} {xva : Traj K bf b x} {left : LeftOp K x o}
    {r : Arr K × Arr (Mat K o x)} {c : Mat K bf x} {k : KernelData K b x}
    (hm : isRectMethod m.method) (hc : m.forceCoeff = some c) (hk : m.kernel = some k)
    (h : computeCorrsWNoise m xva left = .ok r) :
    r.1 = k.time ∧ r.2.len = k.kernel.len ∧ ∀ n, n < r.2.len → n < xva.len → ∀ i l,
      r.2.get n i l = Spec.lagAverage xva.len n
        (left.values (Spec.instantNoise xva.obs xva.Eforce c))
        (fun t => Spec.instantNoise xva.obs xva.Eforce c (t + n) +
          Spec.rectRule (xva.time 1 - xva.time 0) (Spec.memIntegrand xva.E k.kernel.get (t + n)) n)
        i l := by
  obtain ⟨c', k', hc', hk', h2, hres⟩ := computeCorrsWNoise_ok h
  obtain rfl : c' = c := by rw [hc] at hc'; simpa using hc'.symm
  obtain rfl : k' = k := by rw [hk] at hk'; simpa using hk'.symm
  rcases hres with ⟨-, rfl⟩ | ⟨hr, -⟩
  · refine ⟨rfl, rfl, fun n hn hT i l => ?_⟩
    change n < k'.kernel.len at hn
    dsimp only
    rw [FKernel.corrsRect_spec _ _ _ _ _ (by omega), FKernel.noiseCorr_spec (by omega),
      show xva.len - 1 + 1 = xva.len by omega]
  · exact absurd hm hr

theorem not_rect_of_trapz {method : Option String} (hm : isTrapzMethod method) : ¬ isRectMethod method := by
  intro hr
  rcases hm with h | h <;> rw [h] at hr <;> revert hr <;> simp [isRectMethod]

/-- **C20**, trapezoid methods: the last time of the kernel is dropped. -/
theorem C20_trapz [CharZero K] {m : NoiseModel K bf b x} {xva : Traj K bf b x} {left : LeftOp K x o}
    {r : Arr K × Arr (Mat K o x)} {c : Mat K bf x} {k : KernelData K b x}
    (hm : isTrapzMethod m.method) (hc : m.forceCoeff = some c) (hk : m.kernel = some k)
    (h : computeCorrsWNoise m xva left = .ok r) :
    r.1 = ⟨k.time.len - 1, k.time.get⟩ ∧ r.2.len = k.kernel.len - 1 ∧
      ∀ n, n < r.2.len → n < xva.len → ∀ i l,
      r.2.get n i l = Spec.lagAverage xva.len n
        (left.values (Spec.instantNoise xva.obs xva.Eforce c))
        (fun t => Spec.instantNoise xva.obs xva.Eforce c (t + n) +
          Spec.trapzRule (xva.time 1 - xva.time 0) (Spec.memIntegrand xva.E k.kernel.get (t + n)) n)
        i l := by
  obtain ⟨c', k', hc', hk', h2, hres⟩ := computeCorrsWNoise_ok h
  obtain rfl : c' = c := by rw [hc] at hc'; simpa using hc'.symm
  obtain rfl : k' = k := by rw [hk] at hk'; simpa using hk'.symm
  rcases hres with ⟨hr, -⟩ | ⟨-, -, rfl⟩
  · exact absurd hr (not_rect_of_trapz hm)
  · refine ⟨rfl, rfl, fun n hn hT i l => ?_⟩
    change n < k'.kernel.len - 1 at hn
    dsimp only
    rw [FKernel.corrsTrapz_spec _ _ _ _ _ (by omega), FKernel.noiseCorr_spec (by omega),
      show xva.len - 1 + 1 = xva.len by omega]

omit [Field K] in
/-- The left operator that defaults to the noise (`left_op=None`) is the instantaneous noise. -/
theorem C20_default_left (f : ℕ → Fin x → K) : (LeftOp.noise rfl : LeftOp K x x).values f = f := rfl

example : ∃ r, computeCorrsWNoise (exNoiseModel "rect") exTraj (LeftOp.noise rfl : LeftOp ℚ 1 1) = .ok r ∧
    2 < r.2.len ∧ r.2.get 2 0 0 = 265 / 6 :=
  ⟨_, eq_getOk (by decide +kernel) (⟨0, 0⟩, ⟨0, 0⟩), by decide +kernel, by decide +kernel⟩

example : ∃ r, computeCorrsWNoise (exNoiseModel "trapz") exTraj (LeftOp.noise rfl : LeftOp ℚ 1 1) = .ok r ∧
    1 < r.2.len ∧ r.2.get 1 0 0 = 313 / 4 :=
  ⟨_, eq_getOk (by decide +kernel) (⟨0, 0⟩, ⟨0, 0⟩), by decide +kernel, by decide +kernel⟩

/-! ### C21: the two noises -/

/-- The left operator which selects the start time 0. -/
def startZero : LeftOp K x 1 := .array fun t _ => if t = 0 then 1 else 0

theorem lagAverage_startZero [CharZero K] {T n : ℕ} (hn : n < T) (g f : ℕ → Fin x → K) (l : Fin x) :
    ((T - n : ℕ) : K) * Spec.lagAverage T n ((startZero : LeftOp K x 1).values g) f 0 l = f 0 l := by
  have hne : ((T - n : ℕ) : K) ≠ 0 := by
    rw [Nat.cast_ne_zero]; omega
  rw [Spec.lagAverage, mul_div_cancel₀ _ hne, Finset.sum_eq_single 0]
  · simp [startZero, LeftOp.values]
  · intro t _ ht; simp [startZero, LeftOp.values, ht]
  · intro h; exact absurd (mem_range.2 (by omega)) h

/-- **C21** for the trapezoid methods: the noise of `compute_noise` at step `n` inside the window is
the projected noise of `compute_corrs_w_noise` at lag `n` and start time 0. The latter is read off by
correlating with the indicator of time 0 and multiplying by the number of terms. *Missing*: the
rectangle methods, for which the statement is false (`C21_rect_fails`, `C21_rect_difference`), and
several components with dimension `dim_x`. -/
theorem C21_trapz_partial [CharZero K] {m : NoiseModel K bf b x} {xva : Traj K bf b x}
    {k : KernelData K b x} {r : NoiseOut K x} {s : Arr K × Arr (Mat K 1 x)}
    (hm : isTrapzMethod m.method) (hdim : x = 1 ∨ xva.obsDim ≠ "dim_x") (hk : m.kernel = some k)
    (h : computeNoise m xva none 0 none = .ok r) (hs : computeCorrsWNoise m xva startZero = .ok s)
    (n : ℕ) (hn : n < r.len) (hn' : n < s.2.len) (hu : n < usedPoints m k none) (l : Fin x) :
    r.noise n l = ((xva.len - n : ℕ) : K) * s.2.get n 0 l := by
  obtain ⟨c, k', hc, hk', hp, -, hl, -, hobs, -, hnoise, -⟩ := computeNoise_ok h
  have hlen : r.len = xva.len := by rw [hl]; simp [Traj.isel]
  obtain ⟨-, -, hf⟩ := C19_decomposition_partial hc hdim h
  obtain ⟨h0, hmem⟩ := C18_memory_trapz_partial hm hk h
  obtain ⟨-, -, hval⟩ := C20_trapz hm hc hk hs
  rw [hval n hn' (by omega), lagAverage_startZero (by omega), hnoise, hobs]
  simp only [Pi.sub_apply, Pi.add_apply, zero_add, Spec.instantNoise] at *
  rw [hf]
  rcases Nat.eq_zero_or_pos n with rfl | hpos
  · rw [h0]; simp [Spec.trapzRule]
  · rw [hmem n hpos hn hu]
    simp only [Pi.neg_apply, sub_neg_eq_add]
    rfl

/-- For the rectangle methods the two noises differ exactly by the term `dt E(0) K(n)`. -/
theorem C21_rect_difference [CharZero K] {m : NoiseModel K bf b x} {xva : Traj K bf b x}
    {k : KernelData K b x} {r : NoiseOut K x} {s : Arr K × Arr (Mat K 1 x)}
    (hm : isRectMethod m.method) (hdim : x = 1 ∨ xva.obsDim ≠ "dim_x") (hk : m.kernel = some k)
    (h : computeNoise m xva none 0 none = .ok r) (hs : computeCorrsWNoise m xva startZero = .ok s)
    (n : ℕ) (hpos : 1 ≤ n) (hn : n < r.len) (hn' : n < s.2.len) (hu : n < usedPoints m k none)
    (l : Fin x) :
    r.noise n l = ((xva.len - n : ℕ) : K) * s.2.get n 0 l +
      (xva.time 1 - xva.time 0) * ∑ a, xva.E 0 a * k.kernel.get n a l := by
  obtain ⟨c, k', hc, hk', hp, -, hl, -, hobs, -, hnoise, -⟩ := computeNoise_ok h
  have hlen : r.len = xva.len := by rw [hl]; simp [Traj.isel]
  obtain ⟨-, -, hf⟩ := C19_decomposition_partial hc hdim h
  obtain ⟨h0, hmem⟩ := C17_memory_rect hm hk h
  obtain ⟨-, -, hval⟩ := C20_rect hm hc hk hs
  rw [hval n hn' (by omega), lagAverage_startZero (by omega), hnoise, hobs]
  simp only [Pi.sub_apply, Pi.add_apply, zero_add, Spec.instantNoise] at *
  rw [hf, hmem n hpos hn, min_eq_left (by omega), sum_range_succ]
  simp only [Spec.rectRule, Spec.memIntegrand, Finset.sum_apply, Pi.smul_apply, smul_eq_mul, Nat.sub_self]
  ring

/-- The full statement of C21 is false for the rectangle methods. -/
theorem C21_rect_fails : ∃ (m : NoiseModel ℚ 2 2 1) (xva : Traj ℚ 2 2 1) (r : NoiseOut ℚ 1)
    (s : Arr ℚ × Arr (Mat ℚ 1 1)), isRectMethod m.method ∧
    computeNoise m xva none 0 none = .ok r ∧ computeCorrsWNoise m xva startZero = .ok s ∧
    1 < r.len ∧ 1 < s.2.len ∧ r.noise 1 0 ≠ ((xva.len - 1 : ℕ) : ℚ) * s.2.get 1 0 0 :=
  ⟨exNoiseModel "rect", exTraj, _, _, by decide, eq_getOk (by decide +kernel) (dfltNoise 1),
    eq_getOk (by decide +kernel) (⟨0, 0⟩, ⟨0, 0⟩), by decide +kernel, by decide +kernel,
    by decide +kernel⟩

example : ∃ r s, computeNoise (exNoiseModel "trapz") exTraj none 0 none = .ok r ∧
    computeCorrsWNoise (exNoiseModel "trapz") exTraj (startZero : LeftOp ℚ 1 1) = .ok s ∧
    1 < r.len ∧ 1 < s.2.len ∧ r.noise 1 0 = 7 / 4 :=
  ⟨_, _, eq_getOk (by decide +kernel) (dfltNoise 1), eq_getOk (by decide +kernel) (⟨0, 0⟩, ⟨0, 0⟩),
    by decide +kernel, by decide +kernel, by decide +kernel⟩

/-! ### C22: causality -/

/-- **C22.** Two runs on trajectories that agree up to step `i` with kernels that agree up to lag `i`
have the same memory and noise up to step `i`. -/
theorem C22_causal {m m' : NoiseModel K bf b x} {xva xva' : Traj K bf b x} {trunc : Option ℕ}
    {start : ℕ} {stop : Option ℕ} {r r' : NoiseOut K x} {k k' : KernelData K b x}
    (hc : m'.forceCoeff = m.forceCoeff) (hme : m'.method = m.method)
    (hk : m.kernel = some k) (hk' : m'.kernel = some k') (i : ℕ)
    (hlen : usedPoints m' k' trunc = usedPoints m k trunc)
    (hker : ∀ j ≤ i, k'.kernel.get j = k.kernel.get j) (hdim : xva'.obsDim = xva.obsDim)
    (hi1 : 1 ≤ i)
    (htime : ∀ j ≤ start + i, xva'.time j = xva.time j) (hobs : ∀ j ≤ start + i, xva'.obs j = xva.obs j)
    (hEf : ∀ j ≤ start + i, xva'.Eforce j = xva.Eforce j) (hE : ∀ j ≤ start + i, xva'.E j = xva.E j)
    (h : computeNoise m xva trunc start stop = .ok r) (h' : computeNoise m' xva' trunc start stop = .ok r') :
    ∀ t ≤ i, t < r.len → t < r'.len →
      r'.memory t = r.memory t ∧ r'.noise t = r.noise t ∧ r'.force t = r.force t := by
  obtain ⟨c, k₁, e1, e2, -, -, -, -, e3, e4, e5, e6⟩ := computeNoise_ok h
  obtain ⟨c', k₁', f1, f2, -, -, -, -, f3, f4, f5, f6⟩ := computeNoise_ok h'
  obtain rfl : k₁ = k := by rw [hk] at e2; simpa using e2.symm
  obtain rfl : k₁' = k' := by rw [hk'] at f2; simpa using f2.symm
  obtain rfl : c' = c := by rw [hc, e1] at f1; simpa using f1.symm
  intro t ht hl hl'
  have hdt : xva'.time (start + 1) - xva'.time start = xva.time (start + 1) - xva.time start := by
    rw [htime _ (by omega), htime _ (by omega)]
  have hforce : r'.force t = r.force t := by
    rw [e4, f4]
    unfold noiseForce
    simp only [Traj.isel, hdim, hEf _ (show start + t ≤ start + i by omega)]
  have hmem : r'.memory t = r.memory t := by
    rcases e6 with ⟨g1, g2⟩ | ⟨g1, g1', g2⟩
    · rcases f6 with ⟨-, g4⟩ | ⟨g3, -⟩
      · rw [g2, g4, FKernel.memoryRect_eq, FKernel.memoryRect_eq, hdt, hlen]
        beta_reduce
        by_cases h0 : 1 ≤ t
        · rw [if_pos ⟨h0, by omega⟩, if_pos ⟨h0, by omega⟩]
          congr 1
          refine sum_congr rfl fun j hj => ?_
          have hj' := mem_range.1 hj
          rw [hE _ (by omega), hker j (by omega)]
        · rw [if_neg (by omega), if_neg (by omega)]
      · rw [hme] at g3; exact absurd g1 g3
    · rcases f6 with ⟨g3, -⟩ | ⟨-, -, g4⟩
      · rw [hme] at g3; exact absurd g3 g1
      · rw [g2, g4, FKernel.memoryTrapz_eq, FKernel.memoryTrapz_eq, hdt, hlen]
        beta_reduce
        by_cases h0 : 1 ≤ t
        · rw [if_pos ⟨h0, by omega⟩, if_pos ⟨h0, by omega⟩]
          congr 1
          rw [hE _ (by omega), hE _ (by omega), hker _ (by omega), hker _ (by omega)]
          congr 2
          refine sum_congr rfl fun j hj => ?_
          have hj' := mem_range.1 hj
          rw [hE _ (by omega), hker _ (by omega)]
        · rw [if_neg (by omega), if_neg (by omega)]
  refine ⟨hmem, ?_, hforce⟩
  rw [e5, f5, e3, f3]
  beta_reduce
  rw [hmem, hforce, hobs _ (by omega)]

/-- Two different trajectories that agree up to step 2. -/
example : ∃ (r r' : NoiseOut ℚ 1) (xva' : Traj ℚ 2 2 1),
    computeNoise (exNoiseModel "trapz") exTraj none 0 none = .ok r ∧
    computeNoise (exNoiseModel "trapz") xva' none 0 none = .ok r' ∧
    (∀ j ≤ 2, xva'.E j = exTraj.E j) ∧ xva'.E 3 ≠ exTraj.E 3 ∧
    r'.memory 2 0 = r.memory 2 0 ∧ r'.memory 3 0 ≠ r.memory 3 0 := by
  refine ⟨_, _, { exTraj with E := fun k => if k ≤ 2 then ![1, k] else ![5, 7] },
    eq_getOk (by decide +kernel) (dfltNoise 1), eq_getOk (by decide +kernel) (dfltNoise 1),
    ?_, by decide +kernel, by decide +kernel, by decide +kernel⟩
  intro j hj
  simp [exTraj, hj]

/-! ### C23: truncation of the kernel -/

/-- The kernel with the values from index `n` on set to zero. -/
def KernelData.zeroFrom (k : KernelData K b x) (n : ℕ) : KernelData K b x :=
  { k with kernel := ⟨k.kernel.len, fun j => if j < n then k.kernel.get j else 0⟩ }

/-- **C23.** With the rectangle methods `compute_noise(trunc_kernel=n)` gives the same memory and
noise as using the kernel with its tail set to zero (all of it, `trunc_kernel` = kernel length). -/
theorem C23_trunc_zero {m : NoiseModel K bf b x} {xva : Traj K bf b x} {n : ℕ} {start : ℕ}
    {stop : Option ℕ} {r r' : NoiseOut K x} {k : KernelData K b x}
    (hm : isRectMethod m.method) (hk : m.kernel = some k)
    (h : computeNoise m xva (some n) start stop = .ok r)
    (h' : computeNoise { m with kernel := some (k.zeroFrom n) } xva (some k.kernel.len) start stop = .ok r') :
    ∀ t < r.len, r'.memory t = r.memory t ∧ r'.noise t = r.noise t := by
  have key : ∀ t < r.len, r'.memory t = r.memory t := by
    intro t ht
    obtain ⟨a0, a1⟩ := C17_memory_rect hm hk h
    obtain ⟨b0, b1⟩ := C17_memory_rect (m := { m with kernel := some (k.zeroFrom n) }) hm rfl h'
    obtain ⟨-, -, -, -, -, -, e, -⟩ := computeNoise_ok h
    obtain ⟨-, -, -, -, -, -, f, -⟩ := computeNoise_ok h'
    rcases Nat.eq_zero_or_pos t with rfl | hpos
    · rw [a0, b0]
    · funext l
      rw [a1 t hpos ht l, b1 t hpos (by omega) l]
      congr 1
      simp only [usedPoints, Option.getD_some, KernelData.zeroFrom, min_self]
      rw [← sum_filter_add_sum_filter_not (range (min (t + 1) k.kernel.len)) (fun j => j < n)]
      rw [show (∑ j ∈ (range (min (t + 1) k.kernel.len)).filter (fun j => ¬ j < n), _) = (0 : K) from
        sum_eq_zero fun j hj => by simp [(mem_filter.1 hj).2], add_zero]
      have : (range (min (t + 1) k.kernel.len)).filter (fun j => j < n) =
          range (min (t + 1) (min n k.kernel.len)) := by
        ext j; simp only [mem_filter, mem_range]; omega
      rw [this]
      refine sum_congr rfl fun j hj => ?_
      have : j < n := by have := mem_range.1 hj; omega
      simp [this]
  intro t ht
  refine ⟨key t ht, ?_⟩
  obtain ⟨c, -, e1, -, -, -, -, -, e3, e4, e5, -⟩ := computeNoise_ok h
  obtain ⟨c', -, f1, -, -, -, -, -, f3, f4, f5, -⟩ := computeNoise_ok h'
  obtain rfl : c' = c := by rw [show m.forceCoeff = some c' from f1] at e1; simpa using e1
  rw [e5, f5, e3, f3, e4, f4]
  beta_reduce
  rw [key t ht]

/-- **C23**, second half: truncation at `n` does not change the steps below `n`. -/
theorem C23_trunc_early {m : NoiseModel K bf b x} {xva : Traj K bf b x} {n : ℕ} {trunc : Option ℕ}
    {start : ℕ} {stop : Option ℕ} {r r' : NoiseOut K x} {k : KernelData K b x}
    (hm : isRectMethod m.method) (hk : m.kernel = some k)
    (hn : n ≤ trunc.getD m.truncInd)
    (h : computeNoise m xva (some n) start stop = .ok r)
    (h' : computeNoise m xva trunc start stop = .ok r') :
    ∀ t < r.len, t < n → r'.memory t = r.memory t ∧ r'.noise t = r.noise t := by
  have key : ∀ t < r.len, t < n → r'.memory t = r.memory t := by
    intro t ht htn
    obtain ⟨a0, a1⟩ := C17_memory_rect hm hk h
    obtain ⟨b0, b1⟩ := C17_memory_rect hm hk h'
    obtain ⟨-, -, -, -, -, -, e, -⟩ := computeNoise_ok h
    obtain ⟨-, -, -, -, -, -, f, -⟩ := computeNoise_ok h'
    rcases Nat.eq_zero_or_pos t with rfl | hpos
    · rw [a0, b0]
    · funext l
      rw [a1 t hpos ht l, b1 t hpos (by omega) l]
      simp only [usedPoints, Option.getD_some]
      rw [show min (t + 1) (min (trunc.getD m.truncInd) k.kernel.len) = min (t + 1) (min n k.kernel.len)
        by omega]
  intro t ht htn
  refine ⟨key t ht htn, ?_⟩
  obtain ⟨c, -, e1, -, -, -, -, -, e3, e4, e5, -⟩ := computeNoise_ok h
  obtain ⟨c', -, f1, -, -, -, -, -, f3, f4, f5, -⟩ := computeNoise_ok h'
  obtain rfl : c' = c := by rw [f1] at e1; simpa using e1
  rw [e5, f5, e3, f3, e4, f4]
  beta_reduce
  rw [key t ht htn]

example : ∃ r r', computeNoise (exNoiseModel "rect") exTraj (some 2) 0 none = .ok r ∧
    computeNoise { exNoiseModel "rect" with kernel := some (exKer.zeroFrom 2) } exTraj (some 3) 0 none = .ok r' ∧
    r'.memory 3 0 = r.memory 3 0 ∧ r.memory 3 0 = -9 / 2 :=
  ⟨_, _, eq_getOk (by decide +kernel) (dfltNoise 1), eq_getOk (by decide +kernel) (dfltNoise 1),
    by decide +kernel, by decide +kernel⟩

example : ∃ r r', computeNoise (exNoiseModel "rect") exTraj (some 2) 0 none = .ok r ∧
    computeNoise (exNoiseModel "rect") exTraj none 0 none = .ok r' ∧
    r'.memory 3 0 ≠ r.memory 3 0 ∧ r'.memory 1 0 = r.memory 1 0 :=
  ⟨_, _, eq_getOk (by decide +kernel) (dfltNoise 1), eq_getOk (by decide +kernel) (dfltNoise 1),
    by decide +kernel, by decide +kernel⟩

end

end Verif
