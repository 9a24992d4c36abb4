import Verif.Props.Volterra

/-!
# Properties of the Volterra inversion: C05 - C09
-/

namespace Verif

open Finset

section
variable {K : Type*} [Field K] [DecidableEq K] {b x : ℕ}

/-- The value of a run which did not fail. -/
def getOk {α : Type*} (r : Except Err α) (dflt : α) : α :=
  match r with
  | .ok a => a
  | .error _ => dflt

theorem eq_getOk {α : Type*} {r : Except Err α} (h : r.isOk = true) (dflt : α) :
    r = .ok (getOk r dflt) := by
  cases r with
  | ok a => rfl
  | error e => cases h

/-! ### C05: Simpson -/

/-- **C05, first kind.** The Simpson solver starts at `k0`, satisfies the trapezoidal equation at
lag one and the Simpson-rule equation from lag two on. The missing part of C05 is the second kind
solver, which does not satisfy its equation: see `C05_second_kind_simpson_fails`. -/
theorem C05_simpson_solves_partial [CharZero K] {L : ℕ} {k0 : Mat K b x} {B : ℕ → Mat K b b}
    {D : ℕ → Mat K b x} {dt : K} {ker : ℕ → Mat K b x}
    (h : FKernel.firstKindSimpson L k0 B D dt = .ok ker) :
    ker 0 = k0 ∧ Spec.FirstKindTrapzAt dt B D ker 1 ∧
      ∀ m, 2 ≤ m → m ≤ L → Spec.FirstKindSimpsonAt dt B D ker m :=
  FKernel.firstKindSimpson_solves h

/-- Some entry of a solver's output. -/
def solverEntry {b x : ℕ} (r : Except Err (ℕ → Mat ℚ b x)) (i : ℕ) (p : Fin b) (q : Fin x) : Option ℚ :=
  match r with
  | .ok k => some (k i p q)
  | .error _ => none

example : solverEntry (FKernel.firstKindSimpson 4 !![1] exCorrs.bkbk exCorrs.bkdx (1 / 2)) 3 0 0 =
    some (-53 / 8) := by decide +kernel

/-- **C05 is false for the second kind solver** (wrong sign in front of `Bdot(0)`): for the data
`B0 = 1`, `Bdot = 1`, `DxBdot = 1`, `dt = 1`, `k0 = 0`, the result violates the Simpson equation at
lag two. -/
theorem C05_second_kind_simpson_fails :
    ∃ (B0 : Mat ℚ 1 1) (Bd : ℕ → Mat ℚ 1 1) (D ker : ℕ → Mat ℚ 1 1) (k0 : Mat ℚ 1 1),
      FKernel.secondKindSimpson 3 k0 B0 Bd D 1 = .ok ker ∧
      ¬ Spec.SecondKindSimpsonAt 1 B0 Bd D ker 2 := by
  refine ⟨!![1], fun _ => !![1], fun _ => !![1], _, !![0],
    eq_getOk (by decide +kernel : (FKernel.secondKindSimpson 3 !![0] !![1] (fun _ => !![1])
      (fun _ => !![1]) (1 : ℚ)).isOk = true) 0, ?_⟩
  intro h
  have := congrFun (congrFun h 0) 0
  revert this
  decide +kernel

/-! ### C06: midpoint -/

/-- **C06, partial.** What the midpoint method guarantees: the first equation is the midpoint
equation, and for `0 < i < (N-1)/2` the kernel solves the equation in which the previous kernel
values are convolved with the correlation at the *even* lags `2(i-j)` instead of the odd lags
`2(i-j)+1`. The full statement (all equations are midpoint equations) is false, see
`C06_midpoint_fails`. -/
theorem C06_midpoint_solves_partial {c : Corrs K b x} {n : ℕ} {dt : K}
    {k0 : Option (Mat K b x)} {r : KernelData K b x}
    (h : computeKernel (some c) n dt "midpoint" k0 = .ok r) :
    r.kernel.len = midpointLen c.N ∧
    Spec.FirstKindMidpointAt dt c.bkbk c.bkdx r.kernel.get 0 ∧
    ∀ i, 1 ≤ i → i < (c.N - 1) / 2 →
      (2 * dt) • (c.bkbk 1 * r.kernel.get i) +
        ∑ j ∈ range i, (2 * dt) • (c.bkbk (2 * (i - j)) * r.kernel.get j) = -c.bkdx (2 * i + 1) := by
  obtain ⟨ker, hker, -, rfl⟩ := computeKernel_midpoint_ok h
  refine ⟨rfl, ?_, fun i _ hi => FKernel.firstKindMidpoint_solves hker i (Or.inr hi)⟩
  have := FKernel.firstKindMidpoint_solves hker 0 (Or.inl rfl)
  unfold Spec.FirstKindMidpointAt
  simpa using this

/-- The midpoint equations do hold when the correlation function is constant on each pair of lags
`{2k, 2k+1}`, `k ≥ 1`, i.e. when the shift by one lag does not matter. -/
theorem C06_midpoint_solves_if_paired_partial {c : Corrs K b x} {n : ℕ} {dt : K}
    {k0 : Option (Mat K b x)} {r : KernelData K b x}
    (h : computeKernel (some c) n dt "midpoint" k0 = .ok r)
    (hp : ∀ k, 1 ≤ k → c.bkbk (2 * k) = c.bkbk (2 * k + 1)) :
    ∀ i, i < (c.N - 1) / 2 → Spec.FirstKindMidpointAt dt c.bkbk c.bkdx r.kernel.get i := by
  obtain ⟨ker, hker, -, rfl⟩ := computeKernel_midpoint_ok h
  intro i hi
  have := FKernel.firstKindMidpoint_solves hker i (Or.inr hi)
  unfold Spec.FirstKindMidpointAt
  rw [sum_range_succ, ← this, add_comm]
  simp only [Nat.sub_self, mul_zero, zero_add]
  congr 1
  refine sum_congr rfl fun j hj => ?_
  have := mem_range.1 hj
  rw [hp _ (by omega)]

/-- **C06 is false for the code**: with the data `exCorrs` the kernel returned by the midpoint
method violates the midpoint equation at `i = 1`. -/
theorem C06_midpoint_fails :
    ∃ (c : Corrs ℚ 1 1) (r : KernelData ℚ 1 1), computeKernel (some c) c.N 1 "midpoint" none = .ok r ∧
      ∃ i, i < r.kernel.len ∧ ¬ Spec.FirstKindMidpointAt 1 c.bkbk c.bkdx r.kernel.get i := by
  refine ⟨exCorrs, _, eq_getOk (by decide +kernel :
    (computeKernel (some exCorrs) exCorrs.N 1 "midpoint" none).isOk = true) ⟨⟨0, 0⟩, ⟨0, 0⟩⟩, 1,
    by decide +kernel, ?_⟩
  intro h
  have := congrFun (congrFun h 0) 0
  revert this
  decide +kernel

/-- For an even number of lags the last entry of the midpoint kernel is never computed, it stays
zero. -/
theorem C06_midpoint_last_zero_partial {c : Corrs K b x} {n : ℕ} {dt : K}
    {k0 : Option (Mat K b x)} {r : KernelData K b x}
    (h : computeKernel (some c) n dt "midpoint" k0 = .ok r) (hN : Even c.N) (h4 : 4 ≤ c.N) :
    r.kernel.get (r.kernel.len - 1) = 0 := by
  obtain ⟨ker, hker, -, rfl⟩ := computeKernel_midpoint_ok h
  obtain ⟨-, -, -, -, -, hz⟩ := FKernel.firstKindMidpoint_ok hker
  obtain ⟨q, hq⟩ := hN
  apply hz <;> simp only [midpointLen] <;> omega

example : entry (computeKernel (some exCorrs) 6 1 "midpoint" none) 1 0 0 = some (-23 / 3) := by
  decide +kernel

/-! ### C07: recovery -/

/-- **C07, rect.** If some kernel `ks` solves the discretised equation, the method returns it (the
last stored entry is not determined by the equations). -/
theorem C07_rect_recovers {c : Corrs K b x} {n : ℕ} {dt : K} {method : String}
    {k0 : Option (Mat K b x)} {r : KernelData K b x} {ks : ℕ → Mat K b x}
    (hm : method ∈ ["rect", "rectangular"])
    (h : computeKernel (some c) n dt method k0 = .ok r)
    (hs : ∀ m, 1 ≤ m → m ≤ c.N - 1 → Spec.FirstKindRectAt dt c.bkbk c.bkdx ks m) :
    ∀ i, i + 1 < c.N → r.kernel.get i = ks i := by
  obtain ⟨-, ker, hker, rfl⟩ := computeKernel_rect_ok hm h
  obtain ⟨-, M, hM, -⟩ := FKernel.firstKindRect_ok hker
  intro i hi
  exact rect_unique (lapackInv_ok hM).1 (fun _ _ => rfl) (fun _ _ => rfl)
    (FKernel.firstKindRect_solves hker) hs i (by omega)

/-- **C07, trapz.** The raw trapezoidal solver, started from the true initial value, returns the
true kernel. -/
theorem C07_trapz_recovers [CharZero K] {L : ℕ} {B : ℕ → Mat K b b} {D : ℕ → Mat K b x} {dt : K}
    {raw ks : ℕ → Mat K b x} (h : FKernel.firstKindTrapz L (ks 0) B D dt = .ok raw)
    (hs : ∀ m, 1 ≤ m → m ≤ L → Spec.FirstKindTrapzAt dt B D ks m) :
    ∀ i, i ≤ L → raw i = ks i := by
  obtain ⟨M, hM, -⟩ := FKernel.firstKindTrapz_ok h
  obtain ⟨h0, h1⟩ := FKernel.firstKindTrapz_solves h
  intro i hi
  exact trapz_unique (lapackInv_ok hM).1 (fun _ _ => rfl) (fun _ _ => rfl) h0 h1 hs i (by omega)

/-- **C07, second_kind_rect.** -/
theorem C07_second_rect_recovers {c : Corrs K b x} {n : ℕ} {dt : K} {r : KernelData K b x}
    {ks d : ℕ → Mat K b x} {bd : ℕ → Mat K b b}
    (h : computeKernel (some c) n dt "second_kind_rect" (some (ks 0)) = .ok r)
    (hd : c.dotbkdx = some d) (hbd : c.dotbkbk = .arr bd)
    (hs : ∀ m, 1 ≤ m → m ≤ c.N - 1 → Spec.SecondKindRectAt dt (c.bkbk 0) bd d ks m) :
    ∀ i, i < c.N → r.kernel.get i = ks i := by
  obtain ⟨-, d', bd', k, ker, hd', hbd', hk, hker, rfl⟩ := computeKernel_secondRect_ok h
  rw [hd] at hd'; cases hd'
  rw [hbd] at hbd'; cases hbd'
  simp [effectiveK0] at hk
  subst hk
  obtain ⟨M, hM, -⟩ := FKernel.secondKindRect_ok hker
  obtain ⟨h0, h1⟩ := FKernel.secondKindRect_solves hker
  intro i hi
  exact secondRect_unique (lapackInv_ok hM).1 (fun _ _ => rfl) (fun _ _ => rfl) h0 h1 hs i (by omega)

/-- **C07, second_kind_trapz.** -/
theorem C07_second_trapz_recovers [CharZero K] {c : Corrs K b x} {n : ℕ} {dt : K}
    {r : KernelData K b x} {ks d : ℕ → Mat K b x} {bd : ℕ → Mat K b b}
    (h : computeKernel (some c) n dt "second_kind_trapz" (some (ks 0)) = .ok r)
    (hd : c.dotbkdx = some d) (hbd : c.dotbkbk = .arr bd)
    (hs : ∀ m, 1 ≤ m → m ≤ c.N - 1 → Spec.SecondKindTrapzAt dt (c.bkbk 0) bd d ks m) :
    ∀ i, i < c.N → r.kernel.get i = ks i := by
  obtain ⟨-, d', bd', k, ker, hd', hbd', hk, hker, rfl⟩ := computeKernel_secondTrapz_ok h
  rw [hd] at hd'; cases hd'
  rw [hbd] at hbd'; cases hbd'
  simp [effectiveK0] at hk
  subst hk
  obtain ⟨M, hM, -⟩ := FKernel.secondKindTrapz_ok hker
  obtain ⟨h0, h1⟩ := FKernel.secondKindTrapz_solves hker
  intro i hi
  exact secondTrapz_unique (lapackInv_ok hM).1 (fun _ _ => rfl) (fun _ _ => rfl) h0 h1 hs i (by omega)

/-- Correlations generated by the kernel `K(j) = 1/(j+1)` (zero at the last lag) in the rectangle
discretisation with `bkbk = 1`, `dt = 1`: the hypotheses of `C07_rect_recovers` can be met. -/
def exGen : Corrs ℚ 1 1 where
  N := 4
  bkbk := fun _ => !![1]
  bkdx := fun m => !![-∑ j ∈ range m, (1 / (j + 1) : ℚ)]
  dotbkdx := none
  dotbkbk := .none

example : (∀ m, 1 ≤ m → m ≤ exGen.N - 1 →
      Spec.FirstKindRectAt 1 exGen.bkbk exGen.bkdx (fun j => !![(1 / (j + 1) : ℚ)]) m) ∧
    entry (computeKernel (some exGen) 4 1 "rect" none) 2 0 0 = some (1 / 3) := by
  refine ⟨?_, by decide +kernel⟩
  intro m _ _
  unfold Spec.FirstKindRectAt Spec.rectRule Spec.convIntegrand
  ext p q
  fin_cases p; fin_cases q
  simp [exGen, Matrix.sum_apply]

/-! ### C08: causality -/

/-- **C08, rect.** The kernel at lag `i` only depends on the correlations up to lag `i+1`; the
lengths of the two sets of correlations (the truncations) may differ. -/
theorem C08_rect_causal {c c' : Corrs K b x} {n n' : ℕ} {dt : K} {method : String}
    {k0 k0' : Option (Mat K b x)} {r r' : KernelData K b x} (hm : method ∈ ["rect", "rectangular"])
    (h : computeKernel (some c) n dt method k0 = .ok r)
    (h' : computeKernel (some c') n' dt method k0' = .ok r') {i : ℕ}
    (hi : i + 1 < c.N) (hi' : i + 1 < c'.N)
    (hB : ∀ j ≤ i + 1, c.bkbk j = c'.bkbk j) (hD : ∀ j ≤ i + 1, c.bkdx j = c'.bkdx j) :
    ∀ j ≤ i, r.kernel.get j = r'.kernel.get j := by
  obtain ⟨-, ker, hker, rfl⟩ := computeKernel_rect_ok hm h
  obtain ⟨-, ker', hker', rfl⟩ := computeKernel_rect_ok hm h'
  obtain ⟨-, M, hM, -⟩ := FKernel.firstKindRect_ok hker
  intro j hj
  exact rect_unique (L := i + 1) (lapackInv_ok hM).1 hB hD
    (fun m h1 h2 => FKernel.firstKindRect_solves hker m h1 (by omega))
    (fun m h1 h2 => FKernel.firstKindRect_solves hker' m h1 (by omega)) j (by omega)

/-- **C08, midpoint.** The kernel entry `i` (time `2 i dt`) only depends on the correlations up to
lag `2i+1`, as long as the entry is computed at all in both runs. -/
theorem C08_midpoint_causal {c c' : Corrs K b x} {n n' : ℕ} {dt : K}
    {k0 k0' : Option (Mat K b x)} {r r' : KernelData K b x}
    (h : computeKernel (some c) n dt "midpoint" k0 = .ok r)
    (h' : computeKernel (some c') n' dt "midpoint" k0' = .ok r') {i : ℕ}
    (hi : i < max 1 ((c.N - 1) / 2)) (hi' : i < max 1 ((c'.N - 1) / 2))
    (hB : ∀ j ≤ 2 * i + 1, c.bkbk j = c'.bkbk j) (hD : ∀ j ≤ 2 * i + 1, c.bkdx j = c'.bkdx j) :
    ∀ j ≤ i, r.kernel.get j = r'.kernel.get j := by
  obtain ⟨ker, hker, -, rfl⟩ := computeKernel_midpoint_ok h
  obtain ⟨ker', hker', -, rfl⟩ := computeKernel_midpoint_ok h'
  obtain ⟨-, M, hM, -⟩ := FKernel.firstKindMidpoint_ok hker
  intro j hj
  exact mid_unique (n := i + 1) (lapackInv_ok hM).1 (fun j hj => hB j (by omega))
    (fun j hj => hD j (by omega))
    (fun m h1 => FKernel.firstKindMidpoint_code hker m (by omega))
    (fun m h1 => FKernel.firstKindMidpoint_code hker' m (by omega)) j (by omega)

/-- **C08, trapz solver.** The raw kernel at lag `i` only depends on correlations up to lag `i`. -/
theorem C08_trapz_causal [CharZero K] {L L' : ℕ} {k0 : Mat K b x} {B B' : ℕ → Mat K b b}
    {D D' k k' : ℕ → Mat K b x} {dt : K}
    (h : FKernel.firstKindTrapz L k0 B D dt = .ok k)
    (h' : FKernel.firstKindTrapz L' k0 B' D' dt = .ok k') {i : ℕ} (hi : i ≤ L) (hi' : i ≤ L')
    (hB : ∀ j ≤ i, B j = B' j) (hD : ∀ j ≤ i, D j = D' j) :
    ∀ j ≤ i, k j = k' j := by
  obtain ⟨M, hM, -⟩ := FKernel.firstKindTrapz_ok h
  obtain ⟨h0, h1⟩ := FKernel.firstKindTrapz_solves h
  obtain ⟨h0', h1'⟩ := FKernel.firstKindTrapz_solves h'
  intro j hj
  exact trapz_unique (L := i) (lapackInv_ok hM).1 hB hD (h0.trans h0'.symm)
    (fun m e1 e2 => h1 m e1 (by omega)) (fun m e1 e2 => h1' m e1 (by omega)) j (by omega)

/-- **C08, second_kind_rect.** -/
theorem C08_second_rect_causal {c c' : Corrs K b x} {n n' : ℕ} {dt : K}
    {k0 : Mat K b x} {r r' : KernelData K b x} {d d' : ℕ → Mat K b x} {bd bd' : ℕ → Mat K b b}
    (h : computeKernel (some c) n dt "second_kind_rect" (some k0) = .ok r)
    (h' : computeKernel (some c') n' dt "second_kind_rect" (some k0) = .ok r') {i : ℕ}
    (hi : i < c.N) (hi' : i < c'.N)
    (hd : c.dotbkdx = some d) (hbd : c.dotbkbk = .arr bd)
    (hd' : c'.dotbkdx = some d') (hbd' : c'.dotbkbk = .arr bd')
    (h0 : c.bkbk 0 = c'.bkbk 0)
    (hB : ∀ j ≤ i, bd j = bd' j) (hD : ∀ j ≤ i, d j = d' j) :
    ∀ j ≤ i, r.kernel.get j = r'.kernel.get j := by
  obtain ⟨d1, bd1, k, e1, e2, e3, -, e4, e5⟩ := C03_second_kind_rect_solves h
  obtain ⟨d2, bd2, k', f1, f2, f3, -, f4, f5⟩ := C03_second_kind_rect_solves h'
  obtain ⟨-, d3, bd3, k3, ker, -, -, -, hker, -⟩ := computeKernel_secondRect_ok h
  obtain ⟨M, hM, -⟩ := FKernel.secondKindRect_ok hker
  rw [hd] at e1; cases e1
  rw [hbd] at e2; cases e2
  rw [hd'] at f1; cases f1
  rw [hbd'] at f2; cases f2
  simp [effectiveK0] at e3 f3
  intro j hj
  refine secondRect_unique (L := i) (lapackInv_ok hM).1 hB hD ?_
    (fun m a1 a2 => e5 m a1 (by omega)) (fun m a1 a2 => ?_) j (by omega)
  · rw [e4, f4, ← e3, ← f3]
  · rw [h0]; exact f5 m a1 (by omega)

/-- **C08, second_kind_trapz.** -/
theorem C08_second_trapz_causal [CharZero K] {c c' : Corrs K b x} {n n' : ℕ} {dt : K}
    {k0 : Mat K b x} {r r' : KernelData K b x} {d d' : ℕ → Mat K b x} {bd bd' : ℕ → Mat K b b}
    (h : computeKernel (some c) n dt "second_kind_trapz" (some k0) = .ok r)
    (h' : computeKernel (some c') n' dt "second_kind_trapz" (some k0) = .ok r') {i : ℕ}
    (hi : i < c.N) (hi' : i < c'.N)
    (hd : c.dotbkdx = some d) (hbd : c.dotbkbk = .arr bd)
    (hd' : c'.dotbkdx = some d') (hbd' : c'.dotbkbk = .arr bd')
    (h0 : c.bkbk 0 = c'.bkbk 0)
    (hB : ∀ j ≤ i, bd j = bd' j) (hD : ∀ j ≤ i, d j = d' j) :
    ∀ j ≤ i, r.kernel.get j = r'.kernel.get j := by
  obtain ⟨d1, bd1, k, e1, e2, e3, -, e4, e5⟩ := C04_second_kind_trapz_solves h
  obtain ⟨d2, bd2, k', f1, f2, f3, -, f4, f5⟩ := C04_second_kind_trapz_solves h'
  obtain ⟨-, d3, bd3, k3, ker, -, hb3, -, hker, -⟩ := computeKernel_secondTrapz_ok h
  obtain ⟨M, hM, -⟩ := FKernel.secondKindTrapz_ok hker
  rw [hbd] at hb3; cases hb3
  rw [hd] at e1; cases e1
  rw [hbd] at e2; cases e2
  rw [hd'] at f1; cases f1
  rw [hbd'] at f2; cases f2
  simp [effectiveK0] at e3 f3
  intro j hj
  refine secondTrapz_unique (L := i) (lapackInv_ok hM).1 hB hD ?_
    (fun m a1 a2 => e5 m a1 (by omega)) (fun m a1 a2 => ?_) j (by omega)
  · rw [e4, f4, ← e3, ← f3]
  · rw [h0]; exact f5 m a1 (by omega)

/-- `exCorrs` with a longer truncation and different late values. -/
def exCorrsLong : Corrs ℚ 1 1 where
  N := 8
  bkbk := fun n => if n < 4 then exCorrs.bkbk n else !![5]
  bkdx := fun n => if n < 4 then exCorrs.bkdx n else !![9]
  dotbkdx := none
  dotbkbk := .none

example : (∀ j ≤ 2 + 1, exCorrs.bkbk j = exCorrsLong.bkbk j) ∧
    entry (computeKernel (some exCorrsLong) 8 (1 / 2) "rect" none) 2 0 0 =
      entry (computeKernel (some exCorrs) 6 (1 / 2) "rect" none) 2 0 0 ∧
    entry (computeKernel (some exCorrsLong) 8 (1 / 2) "rect" none) 3 0 0 ≠
      entry (computeKernel (some exCorrs) 6 (1 / 2) "rect" none) 3 0 0 := by
  refine ⟨?_, by decide +kernel, by decide +kernel⟩
  intro j hj
  simp [exCorrsLong, show j < 4 by omega]

end

end Verif
