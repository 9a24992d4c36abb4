import Verif.Props.FiniteDiff

/-!
# C182: finite differences of a motion in a periodic coordinate

With `correct_jumps` the velocities and accelerations of positions that are wrapped into one period converge to those of the motion.
-/

namespace Verif

open Spec

/-- The image of `y` in the period `[c, c + jump)`. -/
noncomputable def Spec.wrap (c jump y : ℝ) : ℝ := y - jump * ⌊(y - c) / jump⌋

theorem wrap_mem {c jump : ℝ} (hj : 0 < jump) (y : ℝ) : Spec.wrap c jump y ∈ Set.Ico c (c + jump) := by
  have h1 := Int.floor_le ((y - c) / jump)
  have h2 := Int.lt_floor_add_one ((y - c) / jump)
  rw [le_div_iff₀ hj] at h1
  rw [div_lt_iff₀ hj] at h2
  constructor <;> unfold Spec.wrap <;> nlinarith

section
variable {ds : Dataset ℝ} {d : ℕ} {t0 dt L M S c jump thr : ℝ} {q v a b : ℝ → ℕ → ℝ}

/-- The steps of a motion whose speed is at most `S`. -/
theorem step_le (hq : Moves d L q v a) (hS : ∀ s, ∀ k < d, |v s k| ≤ S) {k : ℕ} (hk : k < d) {dt : ℝ} (hdt : 0 < dt) (s : ℝ) :
    |q (s + dt) k - q s k| ≤ S * dt := by
  have := Convex.norm_image_sub_le_of_norm_hasDerivWithin_le (f := fun s => q s k) (f' := fun s => v s k) (s := Set.univ) (C := S)
    (fun x _ => (hq.vel k hk x).hasDerivWithinAt) (fun x _ => hS x k hk) convex_univ (Set.mem_univ s) (Set.mem_univ (s + dt))
  rwa [add_sub_cancel_left, Real.norm_eq_abs, Real.norm_eq_abs, abs_of_pos hdt] at this

theorem wrapped_small (hu : Uniform ds t0 dt) (hq : Moves d L q v a) (hS : ∀ s, ∀ k < d, |v s k| ≤ S) (h1 : S * dt < thr)
    (h2 : S * dt ≤ jump - thr) (hj : 0 < jump) (hlt : S * dt < jump) :
    IsWrapped ds.n d jump (fun i k => Spec.wrap c jump (q (ds.time i) k)) (fun i k => q (ds.time i) k) ∧
      SmallSteps ds.n d jump thr fun i k => q (ds.time i) k := by
  have ht : ∀ i, ds.time (i + 1) = ds.time i + dt := fun i => by
    rw [hu.time, hu.time]
    push_cast
    ring
  have step : ∀ i k, k < d → |q (ds.time (i + 1)) k - q (ds.time i) k| ≤ S * dt := fun i k hk => by
    rw [ht]
    exact step_le hq hS hk hu.pos _
  refine ⟨⟨fun i k => ⌊(q (ds.time i) k - c) / jump⌋, fun i k => rfl, fun i _ k hk => ?_⟩, fun i _ k hk =>
    ⟨(step i k hk).trans_lt h1, (step i k hk).trans h2⟩⟩
  have hs := (step i k hk).trans_lt hlt
  rw [abs_lt] at hs
  have e : (q (ds.time (i + 1)) k - c) / jump = (q (ds.time i) k - c) / jump + (q (ds.time (i + 1)) k - q (ds.time i) k) / jump := by
    ring
  have f1 : (q (ds.time (i + 1)) k - q (ds.time i) k) / jump < 1 := by rw [div_lt_one hj]; exact hs.2
  have f2 : -1 < (q (ds.time (i + 1)) k - q (ds.time i) k) / jump := by rw [lt_div_iff₀ hj]; linarith [hs.1]
  have a1 := Int.floor_le ((q (ds.time i) k - c) / jump)
  have a2 := Int.lt_floor_add_one ((q (ds.time i) k - c) / jump)
  have b1 := Int.floor_le ((q (ds.time (i + 1)) k - c) / jump)
  have b2 := Int.lt_floor_add_one ((q (ds.time (i + 1)) k - c) / jump)
  have g1 : ((⌊(q (ds.time (i + 1)) k - c) / jump⌋ - ⌊(q (ds.time i) k - c) / jump⌋ : ℤ) : ℝ) < 2 := by
    push_cast; linarith
  have g2 : (-2 : ℝ) < ((⌊(q (ds.time (i + 1)) k - c) / jump⌋ - ⌊(q (ds.time i) k - c) / jump⌋ : ℤ) : ℝ) := by
    push_cast; linarith
  have g1' : ⌊(q (ds.time (i + 1)) k - c) / jump⌋ - ⌊(q (ds.time i) k - c) / jump⌋ < 2 := by exact_mod_cast g1
  have g2' : -2 < ⌊(q (ds.time (i + 1)) k - c) / jump⌋ - ⌊(q (ds.time i) k - c) / jump⌋ := by exact_mod_cast g2
  rw [abs_le]
  constructor <;> linarith

/-- The dataset with the positions of the motion itself. -/
noncomputable def unwrapped (ds : Dataset ℝ) (d : ℕ) (q : ℝ → ℕ → ℝ) : Dataset ℝ :=
  { ds with vars := [("x", ⟨d, fun i k => some (q (ds.time i) k)⟩)] }

theorem approx_of {r rU : Dataset ℝ} (hI : IsInterior ds r) (hIU : IsInterior ds rU) {name : String} {V : ℕ → ℕ → ℝ} (h : r.Has name d V)
    (hU : rU.Has name d V) {g : ℝ → ℕ → ℝ} {e : ℝ} (ha : Approximates rU name d g e) : Approximates r name d g e := by
  obtain ⟨Y, hY, hb⟩ := ha
  refine ⟨V, h, fun i hi k hk => ?_⟩
  have hiU : i < rU.n := by rw [hIU.1, ← hI.1]; exact hi
  obtain ⟨w, w1, w2, w3⟩ := hY
  obtain ⟨w', u1, u2, u3⟩ := hU
  rw [w1] at u1
  cases u1
  have e1 := w3 i hiU k hk
  rw [u3 i hiU k hk, Option.some.injEq] at e1
  rw [e1, hI.2.2 i hi, ← hIU.2.2 i hiU]
  exact hb i hiU k hk

/-- **C182** for `compute_va`: positions wrapped into a period of length `jump`, of a motion with a speed of at most `S`, with a
time step in which it moves by less than `jump_thr` and not by more than `jump - jump_thr`. -/
theorem C182_compute_va (hd : 0 < d) (hu : Uniform ds t0 dt) (hq : Moves d L q v a) (hS : ∀ s, ∀ k < d, |v s k| ≤ S)
    (h1 : S * dt < thr) (h2 : S * dt ≤ jump - thr) (hx : Samples ds "x" d fun s k => Spec.wrap c jump (q s k)) (lamb : ℝ) :
    ∃ r, computeVa ds (some (jump, thr)) lamb = .ok r ∧ IsInterior ds r ∧ Samples r "x" d (fun s k => Spec.wrap c jump (q s k)) ∧
      Approximates r "v" d (fun s k => v s k + (lamb - 1 / 2) * dt * a s k) ((|lamb| + |1 - lamb|) * (L / 6 * dt ^ 2)) ∧
      (lamb = 1 / 2 → Approximates r "v" d v (L / 6 * dt ^ 2)) ∧
      Approximates r "a" d a (L / 3 * dt) ∧ (Jerks d M a b → Approximates r "a" d a (M / 12 * dt ^ 2)) := by
  have hS0 : 0 ≤ S * dt := mul_nonneg ((abs_nonneg _).trans (hS 0 0 hd)) hu.pos.le
  obtain ⟨hw, hs⟩ := wrapped_small (c := c) hu hq hS h1 h2 (by linarith) (by linarith)
  have hU : Uniform (unwrapped ds d q) t0 dt := ⟨hu.pos, hu.dt, hu.time⟩
  have hxU : Samples (unwrapped ds d q) "x" d q := ⟨_, rfl, rfl, fun _ _ _ _ => rfl⟩
  obtain ⟨r, h, hI, -⟩ := computeVa_spec ds (some (jump, thr)) lamb dt d _ hd hu.dt hx
  obtain ⟨r', rU, e, eU, -, hX, V, A, hV, hVU, hA, hAU⟩ :=
    C47_compute_va ds (unwrapped ds d q) jump thr lamb dt d _ _ hd rfl hu.dt hu.dt hx hxU hw hs
  obtain rfl : r = r' := by rw [h] at e; cases e; rfl
  obtain ⟨rU', eU', hIU, -, b1, b2, b3, b4⟩ := C168_compute_va (M := M) (b := b) hd hU hq hxU lamb
  obtain rfl : rU = rU' := by rw [eU] at eU'; cases eU'; rfl
  have hIU : IsInterior ds rU := hIU
  exact ⟨r, h, hI, hX.congr' fun i hi k _ => by rw [hI.2.2 i hi], approx_of hI hIU hV hVU b1, fun hl => approx_of hI hIU hV hVU (b2 hl),
    approx_of hI hIU hA hAU b3, fun hj => approx_of hI hIU hA hAU (b4 hj)⟩

/-- **C182** for `compute_va_gjf`. -/
theorem C182_compute_va_gjf (hd : 0 < d) (hu : Uniform ds t0 dt) (hq : Moves d L q v a) (hS : ∀ s, ∀ k < d, |v s k| ≤ S)
    (h1 : S * dt < thr) (h2 : S * dt ≤ jump - thr) (hx : Samples ds "x" d fun s k => Spec.wrap c jump (q s k)) :
    ∃ r, computeVaGjf ds (some (jump, thr)) = .ok r ∧ IsInterior ds r ∧ Samples r "x" d (fun s k => Spec.wrap c jump (q s k)) ∧
      Approximates r "v" d (fun s => v (s - dt / 2)) (L / 24 * dt ^ 2) ∧
      Approximates r "a" d a (L / 3 * dt) ∧ (Jerks d M a b → Approximates r "a" d a (M / 12 * dt ^ 2)) := by
  have hS0 : 0 ≤ S * dt := mul_nonneg ((abs_nonneg _).trans (hS 0 0 hd)) hu.pos.le
  obtain ⟨hw, hs⟩ := wrapped_small (c := c) hu hq hS h1 h2 (by linarith) (by linarith)
  have hU : Uniform (unwrapped ds d q) t0 dt := ⟨hu.pos, hu.dt, hu.time⟩
  have hxU : Samples (unwrapped ds d q) "x" d q := ⟨_, rfl, rfl, fun _ _ _ _ => rfl⟩
  obtain ⟨r, h, hI, -⟩ := computeVaGjf_spec ds (some (jump, thr)) dt d _ hd hu.dt hx
  obtain ⟨r', rU, e, eU, -, hX, V, A, hV, hVU, hA, hAU⟩ :=
    C47_compute_va_gjf ds (unwrapped ds d q) jump thr dt d _ _ hd rfl hu.dt hu.dt hx hxU hw hs
  obtain rfl : r = r' := by rw [h] at e; cases e; rfl
  obtain ⟨rU', eU', hIU, -, b1, b3, b4⟩ := C168_compute_va_gjf (M := M) (b := b) hd hU hq hxU
  obtain rfl : rU = rU' := by rw [eU] at eU'; cases eU'; rfl
  have hIU : IsInterior ds rU := hIU
  exact ⟨r, h, hI, hX.congr' fun i hi k _ => by rw [hI.2.2 i hi], approx_of hI hIU hV hVU b1,
    approx_of hI hIU hA hAU b3, fun hj => approx_of hI hIU hA hAU (b4 hj)⟩

end

/-! ### Example: a pendulum that turns over -/

namespace Turns

theorem moves : Moves 1 1 (fun s _ => 2 * s + Real.sin s) (fun s _ => 2 + Real.cos s) (fun s _ => -Real.sin s) where
  vel := fun _ _ s => (((hasDerivAt_id s).const_mul 2).add (Real.hasDerivAt_sin s)).congr_deriv (by simp)
  acc := fun _ _ s => by simpa using (Real.hasDerivAt_cos s).const_add 2
  lip := Oscillates.moves.lip

/-- Forty frames of the angle. -/
noncomputable def ds : Dataset ℝ := ⟨40, fun i => 3 + i * (1 / 5),
  [("x", ⟨1, fun i _ => some (wrap (-3) 6 (2 * (3 + i * (1 / 5)) + Real.sin (3 + i * (1 / 5))))⟩)], some (1 / 5)⟩

theorem uniform : Uniform ds 3 (1 / 5) := ⟨by norm_num, rfl, fun _ => rfl⟩

theorem has_x : Samples ds "x" 1 (fun s _ => wrap (-3) 6 (2 * s + Real.sin s)) := ⟨_, rfl, rfl, fun _ _ _ _ => rfl⟩

theorem speed (s : ℝ) (k : ℕ) (_ : k < 1) : |2 + Real.cos s| ≤ 3 := by
  rw [abs_le]
  constructor <;> linarith [Real.neg_one_le_cos s, Real.cos_le_one s]

example := C182_compute_va (M := 1) (b := fun s _ => -Real.cos s) (thr := 3) (by decide) uniform moves speed (by norm_num) (by norm_num) has_x (1 / 2)
example := C182_compute_va_gjf (M := 1) (b := fun s _ => -Real.cos s) (thr := 3) (by decide) uniform moves speed (by norm_num) (by norm_num) has_x

end Turns

end Verif
