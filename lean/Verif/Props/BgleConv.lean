import Verif.Props.ConvergeNoisy
import Verif.Props.Bgle

/-!
# Convergence of `BGLEIntegrator.integrate` (C173)
-/

namespace Verif

open Finset Set

namespace Spec

/-- `x` and `v` solve on `[0, T]` the scalar equation `x' = v`, `v'(t) = F(x(t)) - ∫_0^t κ(s) v(t-s) ds + ξ(t)`. -/
structure ScalarGle (T : ℝ) (F κ ξ x v : ℝ → ℝ) : Prop where
  pos : ∀ t ∈ Icc 0 T, HasDerivWithinAt x (v t) (Icc 0 T) t
  vel : ∀ t ∈ Icc 0 T, HasDerivWithinAt v (F (x t) - (∫ s in (0 : ℝ)..t, κ s * v (t - s)) + ξ t) (Icc 0 T) t

/-- `f` is Lipschitz on `[0, T]`. -/
def ScalarLip (T : ℝ) (f : ℝ → ℝ) : Prop := ∃ L, ∀ s ∈ Icc 0 T, ∀ t ∈ Icc 0 T, |f s - f t| ≤ L * |s - t|

end Spec

/-- The scalar integrator holds the terms of the equation up to errors `ε`: the force at distance at most one of the solution, and the values
of the kernel on its grid, which covers `[0, T]` or goes up to a time after which `κ` is at most `ε`. -/
structure NearScalar (T ε : ℝ) (F κ x : ℝ → ℝ) (B : Bgle ℝ) : Prop where
  force : ∀ t ∈ Icc 0 T, ∀ y, |y - x t| ≤ 1 → |B.force y - F y| ≤ ε
  len : 2 ≤ B.kernel.len
  kernel : ∀ j < B.kernel.len, j * B.dt ≤ T → |B.kernel.get j - κ (j * B.dt)| ≤ ε
  cover : T ≤ (B.kernel.len - 1 : ℕ) * B.dt ∨ ∀ s ∈ Icc 0 T, (B.kernel.len - 1 : ℕ) * B.dt ≤ s → |κ s| ≤ ε

section
variable {d b : ℕ}

set_option maxHeartbeats 1000000 in
/-- Rows computed by Runge-Kutta steps with memory forces, a force and a noise that are near those of the equation are near the solution. -/
theorem rows_near {T R L M LF c0 c1 : ℝ} {F : (Fin d → ℝ) → Fin d → ℝ} {E : (Fin d → ℝ) → (Fin d → ℝ) → Fin b → ℝ}
    {κ : ℝ → Matrix (Fin b) (Fin d) ℝ} {ξ x v : ℝ → Fin d → ℝ} (hT : 0 ≤ T) (hg : Spec.NoisyGle T F E κ ξ x v)
    (hr : NoisyRegular T R L M F E κ ξ x v) (hR : 0 ≤ R) (hL : 0 ≤ L) (hLF0 : 0 ≤ LF) (hc00 : 0 ≤ c0) (hc10 : 0 ≤ c1)
    (hLF : ∀ y z : Fin d → ℝ, ‖y‖ ≤ R + 1 → ‖z‖ ≤ R + 1 → ‖F y - F z‖ ≤ LF * ‖y - z‖) :
    ∃ C δ : ℝ, 0 < δ ∧ ∀ (rows : ℕ → (Fin d → ℝ) × (Fin d → ℝ)) (nSteps : ℕ) (h ε : ℝ) (F' : (Fin d → ℝ) → Fin d → ℝ) (noise : ℕ → Fin d → ℝ),
      0 < h → h ≤ δ → 0 ≤ ε → ε ≤ δ → (nSteps - 1 : ℕ) * h ≤ T →
      (∀ τ ∈ Icc 0 T, ∀ y, ‖y - x τ‖ ≤ 1 → ‖F' y - F y‖ ≤ ε) → (∀ n < nSteps, ‖noise n - ξ (n * h)‖ ≤ ε) → ‖rows 0 - (x 0, v 0)‖ ≤ ε →
      (∀ n, n + 1 < nSteps → ∀ m, 0 ≤ m → m ≤ 1 → (∀ j ≤ n, ‖rows j - (x (j * h), v (j * h))‖ ≤ m) →
        ∃ (A : Fin d → ℝ) (B : (Fin d → ℝ) × (Fin d → ℝ) → Fin d → ℝ), ‖A - memForce E κ x v (n * h)‖ ≤ c0 * m + c1 * (h + ε) ∧
          (∀ τ ∈ Icc 0 T, ∀ z : (Fin d → ℝ) × (Fin d → ℝ), ‖z - (x τ, v τ)‖ ≤ 1 →
            ‖B z - memForce E κ x v (n * h + h)‖ ≤ c0 * m + c1 * (h + ε)) ∧
          rows (n + 1) = Spec.rk4 h (fun c (y : (Fin d → ℝ) × (Fin d → ℝ)) => (y.2, F' y.1 + noise (n + 1) - ((1 - c) • A + c • B y))) (rows n)) →
      ∀ n < nSteps, ‖rows n - (x (n * h), v (n * h))‖ ≤ C * (h + ε) := by
  obtain ⟨G, hG⟩ : ∃ G : ℝ, G = 1 + (1 + LF) := ⟨_, rfl⟩
  have hG0 : 0 ≤ G := by rw [hG]; positivity
  obtain ⟨c2, hc2⟩ : ∃ c2 : ℝ, c2 = 2 * c1 + 2 + 4 * L := ⟨_, rfl⟩
  have hc20 : 0 ≤ c2 := by rw [hc2]; positivity
  obtain ⟨g, hgr⟩ : ∃ g : ℝ, g = G ^ 4 * (1 + 2 * c0) := ⟨_, rfl⟩
  have hg0 : 0 ≤ g := by rw [hgr]; positivity
  obtain ⟨γ, hγ⟩ : ∃ γ : ℝ, γ = G ^ 4 * c2 + L := ⟨_, rfl⟩
  have hγ0 : 0 ≤ γ := by rw [hγ]; positivity
  obtain ⟨C, hC⟩ : ∃ C : ℝ, C = (1 + T * γ) * Real.exp (g * T) := ⟨_, rfl⟩
  have hC0 : 0 ≤ C := by rw [hC]; positivity
  obtain ⟨K, hK⟩ : ∃ K : ℝ, K = 1 + G ^ 3 * ((1 + 2 * c0) * C + c2) + C := ⟨_, rfl⟩
  have hK1 : 1 ≤ K := by
    have : 0 ≤ G ^ 3 * ((1 + 2 * c0) * C + c2) := by positivity
    rw [hK]
    linarith
  refine ⟨C, 1 / (2 * K), by positivity, fun rows nSteps h ε F' noise hdt hδ hε hεδ hTn hF' hno h0 hstep => ?_⟩
  have hKs : K * (h + ε) ≤ 1 := by
    rw [le_div_iff₀ (by linarith)] at hδ hεδ
    linarith
  have hs1 : h + ε ≤ 1 := (le_mul_of_one_le_left (by linarith) hK1).trans hKs
  have hh1 : h ≤ 1 := by linarith
  have hh2 : h ^ 2 ≤ h := by
    rw [sq]
    exact mul_le_of_le_one_left hdt.le hh1
  have hCs : C * (h + ε) ≤ 1 := by
    have : C ≤ K := by
      have : 0 ≤ G ^ 3 * ((1 + 2 * c0) * C + c2) := by positivity
      rw [hK]
      linarith
    exact le_trans (by gcongr) hKs
  obtain ⟨e, he⟩ : ∃ e : ℕ → ℝ, e = fun n : ℕ => ‖rows n - (x (n * h), v (n * h))‖ := ⟨_, rfl⟩
  have hbound : (ε + (nSteps - 1 : ℕ) * (γ * h * (h + ε))) * Real.exp (g * h * (nSteps - 1 : ℕ)) ≤ C * (h + ε) := by
    have h1 : ((nSteps - 1 : ℕ) : ℝ) * (γ * h * (h + ε)) ≤ T * γ * (h + ε) := by
      have : ((nSteps - 1 : ℕ) : ℝ) * (γ * h * (h + ε)) = ((nSteps - 1 : ℕ) : ℝ) * h * (γ * (h + ε)) := by ring
      rw [this, mul_assoc T]
      gcongr
    have h2 : Real.exp (g * h * (nSteps - 1 : ℕ)) ≤ Real.exp (g * T) := by
      refine Real.exp_le_exp.2 ?_
      rw [mul_assoc, mul_comm h]
      gcongr
    calc _ ≤ ((h + ε) + T * γ * (h + ε)) * Real.exp (g * T) := by gcongr; linarith
      _ = C * (h + ε) := by rw [hC]; ring
  have growth := error_growth_one (e := e) (N := nSteps - 1) (c := g * h) (β := ε) (γ := γ * h * (h + ε)) (ρ := C * (h + ε))
    (by positivity) hε (by positivity) (by rw [he]; simpa using h0) hbound ?_
  · intro n hn
    have := (growth n (by omega)).trans hbound
    rw [he] at this
    exact this
  intro n hnN m hβm hm hmρ
  have hm0 : 0 ≤ m := hε.trans hβm
  have hm1 : m ≤ 1 := hmρ.trans hCs
  obtain ⟨A, B, hA, hB, hs⟩ := hstep n (by omega) m hm0 hm1 (fun j hj => by have := hm j hj; rw [he] at this; exact this)
  have hy0 : ‖rows n - (x (n * h), v (n * h))‖ = e n := by rw [he]
  have henM := hm n le_rfl
  have hin : e n + (2 * (c0 * m + c1 * (h + ε)) + 2 * ε + 3 * L * h) + L * h ^ 2 ≤ (1 + 2 * c0) * m + c2 * (h + ε) := by
    have a1 : L * h ^ 2 ≤ L * h := by gcongr
    have a2 : c2 * (h + ε) = 2 * (c1 * (h + ε)) + 2 * ε + 3 * L * h + L * h + (2 * h + 4 * L * ε) := by rw [hc2]; ring
    have a3 : 0 ≤ L * ε := by positivity
    linarith
  have hsmall : (1 + (1 + LF)) ^ 3 * (‖rows n - (x (n * h), v (n * h))‖ +
      (2 * (c0 * m + c1 * (h + ε)) + 2 * ε + 3 * L * h) + L * h ^ 2) ≤ 1 := by
    rw [← hG, hy0]
    have h2 : (1 + 2 * c0) * m + c2 * (h + ε) ≤ ((1 + 2 * c0) * C + c2) * (h + ε) := by
      have : (1 + 2 * c0) * m ≤ (1 + 2 * c0) * (C * (h + ε)) := by gcongr
      linarith
    have h3 : G ^ 3 * ((1 + 2 * c0) * C + c2) ≤ K := by rw [hK]; linarith
    calc _ ≤ G ^ 3 * (((1 + 2 * c0) * C + c2) * (h + ε)) := by gcongr; exact hin.trans h2
      _ = G ^ 3 * ((1 + 2 * c0) * C + c2) * (h + ε) := by ring
      _ ≤ K * (h + ε) := by gcongr
      _ ≤ 1 := hKs
  have hn1h : ((n + 1 : ℕ) : ℝ) * h = n * h + h := by push_cast; ring
  have hTn1 : (n : ℝ) * h + h ≤ T := by
    rw [← hn1h]
    have : ((n + 1 : ℕ) : ℝ) ≤ (nSteps - 1 : ℕ) := by exact_mod_cast (by omega)
    exact le_trans (by gcongr) hTn
  have hst := noisy_step (T := T) (t := n * h) (h := h) (a := c0 * m + c1 * (h + ε)) (ε := ε)
    (F' := F') hg hr hR hL hLF0 (by positivity) hε hdt.le hh1 (by positivity) hTn1 hLF hF'
    (w := noise (n + 1)) (by rw [← hn1h]; exact hno (n + 1) (by omega)) hA hB hsmall
  rw [← hs, ← hG, hy0] at hst
  have : e (n + 1) = ‖rows (n + 1) - (x (n * h + h), v (n * h + h))‖ := by
    rw [he]
    simp only
    rw [hn1h]
  rw [this]
  refine hst.trans ?_
  have k1 : h * (G ^ 4 * (e n + (2 * (c0 * m + c1 * (h + ε)) + 2 * ε + 3 * L * h) + L * h ^ 2)) ≤
      h * (G ^ 4 * ((1 + 2 * c0) * m + c2 * (h + ε))) := by gcongr
  have k2 : L * h ^ 2 ≤ L * h * (h + ε) := by
    have : 0 ≤ L * h * ε := by positivity
    nlinarith
  have k3 : m * (1 + g * h) + γ * h * (h + ε) = m + h * (G ^ 4 * ((1 + 2 * c0) * m + c2 * (h + ε))) + L * h * (h + ε) := by
    rw [hgr, hγ]; ring
  rw [k3]
  linarith

end

/-- The general integrator with the force and the kernel of a scalar one. -/
noncomputable def Bgle.lift (B : Bgle ℝ) : Integrator ℝ 1 1 1 1 where
  basis x _ := B.force (x 0)
  vec := constVec
  proj := 1
  forceCoeff := 1
  kernel := ⟨B.kernel.len, fun j => Matrix.of fun _ _ => B.kernel.get j⟩
  dt := B.dt

theorem Bgle.lift_toBgle (B : Bgle ℝ) : B.lift.toBgle = B := by
  cases B
  simp [Bgle.lift, Integrator.toBgle]

/-- The memory of the scalar integrator, with full weight for the first velocity while that is in reach. -/
theorem lift_memory (B : Bgle ℝ) (hT : 2 ≤ B.kernel.len) (v : ℕ → ℝ) {n : ℕ} (hn : 1 ≤ n) (u : ℝ) :
    B.memVal v n + 1 / 2 * B.dt * (u * B.kernel.get 0) =
      Spec.memory B.dt B.kernel.len B.lift.kernel.get (Function.update (fun j _ => v j) n fun _ => u) n 0 +
        (if n < B.kernel.len - 1 then B.dt / 2 * (B.kernel.get n * v 0) else 0) := by
  have h1 := congrFun (B.lift.memTail_trapz hT (fun j _ => v j) hn fun _ => u) 0
  have h2 : Spec.memory B.dt B.kernel.len B.lift.kernel.get (Function.update (fun j _ => v j) n fun _ => u) n 0 =
      B.lift.memTail (fun j _ => v j) n 0 + 1 / 2 * B.dt * (u * B.kernel.get 0) := by
    refine h1.symm.trans ?_
    simp [Bgle.lift, Matrix.vecMul, dotProduct]
  rw [h2]
  have hz := toBgle_memVal B.lift hT (E := Function.update (fun j _ => v j) 0 0) (by simp) hn
  rw [B.lift_toBgle] at hz
  -- the part of the first velocity
  have h3 : B.memVal v n = B.memVal (fun t => Function.update (fun j (_ : Fin 1) => v j) 0 0 t 0) n +
      (if n < B.kernel.len - 1 then B.dt * (B.kernel.get n * v 0) else if n = B.kernel.len - 1 then B.dt / 2 * (B.kernel.get n * v 0) else 0) := by
    have hx : ∀ i : ℕ, Spec.extendZero v ((n : ℤ) - (1 + i : ℕ)) =
        Spec.extendZero (fun t => Function.update (fun j (_ : Fin 1) => v j) 0 0 t 0) ((n : ℤ) - (1 + i : ℕ)) + if n - 1 = i then v 0 else 0 := by
      intro i
      unfold Spec.extendZero
      rcases lt_trichotomy n (1 + i) with c | c | c
      · rw [if_pos (by omega), if_pos (by omega), if_neg (by omega), add_zero]
      · rw [if_neg (by omega), if_neg (by omega), if_pos (by omega), show ((n : ℤ) - (1 + i : ℕ)).toNat = 0 by omega]
        simp
      · rw [if_neg (by omega), if_neg (by omega), if_neg (by omega), add_zero]
        beta_reduce
        rw [Function.update_of_ne (by omega)]
    unfold Bgle.memVal
    simp only [hx, mul_add, Finset.sum_add_distrib, mul_ite, mul_zero, Finset.sum_ite_eq, Finset.mem_range]
    rcases lt_trichotomy n (B.kernel.len - 1) with c | c | c
    · rw [if_neg (by omega), if_pos (by omega), if_pos c, show 1 + (n - 1) = n by omega]
      ring
    · rw [if_pos (by omega), if_neg (by omega), if_neg (by omega), if_pos c, show 1 + (B.kernel.len - 2) = n by omega]
      ring
    · rw [if_neg (by omega), if_neg (by omega), if_neg (by omega), if_neg (by omega)]
      ring
  have h4 : B.lift.memTail (fun j _ => v j) n 0 = B.lift.memTail (Function.update (fun j _ => v j) 0 0) n 0 +
      (if n ≤ B.kernel.len - 1 then B.dt / 2 * (B.kernel.get n * v 0) else 0) := by
    have e1 : ∀ i < min n (B.kernel.len - 1) - 1, Function.update (fun j (_ : Fin 1) => v j) 0 0 (n - 1 - i) = fun _ => v (n - 1 - i) :=
      fun i hi => Function.update_of_ne (by omega) ..
    have e0 : B.lift.kernel.len = B.kernel.len := rfl
    unfold Integrator.memTail
    rw [e0, Finset.sum_congr (s₁ := range (min n (B.kernel.len - 1) - 1)) rfl fun i hi => congrArg (Matrix.vecMul · (B.lift.kernel.get (1 + i)))
      (e1 i (Finset.mem_range.1 hi))]
    rcases Nat.lt_or_ge (B.kernel.len - 1) n with c | c
    · rw [if_neg (by omega), Function.update_of_ne (show n - min n (B.kernel.len - 1) ≠ 0 by omega), add_zero]
    · rw [if_pos c, min_eq_left c, Nat.sub_self, Function.update_self]
      simp only [Pi.add_apply, Pi.smul_apply, smul_eq_mul, Matrix.zero_vecMul, Pi.zero_apply, mul_zero, add_zero]
      simp [Bgle.lift, Matrix.vecMul, dotProduct]
      ring
  rw [h3, h4, hz]
  split_ifs <;> first | omega | ring

theorem Bgle.lift_force (B : Bgle ℝ) (y : Fin 1 → ℝ) (i : Fin 1) : Matrix.vecMul (B.lift.basis y) B.lift.forceCoeff i = B.force (y 0) := by
  rw [Subsingleton.elim i 0]
  simp [Bgle.lift, Matrix.vecMul, dotProduct]

/-- The memory force of a scalar curve. -/
noncomputable abbrev scalarMem (κ x v : ℝ → ℝ) (t : ℝ) : Fin 1 → ℝ :=
  memForce (d := 1) (b := 1) (fun _ w => w) (fun t => Matrix.of fun _ _ => κ t) (fun t _ => x t) (fun t _ => v t) t

theorem norm_one_le {u : Fin 1 → ℝ} {c : ℝ} (h : |u 0| ≤ c) : ‖u‖ ≤ c :=
  (pi_norm_le_iff_of_nonneg ((abs_nonneg _).trans h)).2 fun i => by rw [Subsingleton.elim i 0]; exact h

theorem noisy_of_scalar {T : ℝ} {F κ ξ x v : ℝ → ℝ} (hg : Spec.ScalarGle T F κ ξ x v) :
    Spec.NoisyGle (d := 1) (b := 1) T (fun y _ => F (y 0)) (fun _ w => w) (fun t => Matrix.of fun _ _ => κ t) (fun t _ => ξ t)
      (fun t _ => x t) (fun t _ => v t) := by
  refine ⟨fun t ht _ => hg.pos t ht, fun t ht _ => ?_⟩
  have : ∀ s : ℝ, Matrix.vecMul (fun _ : Fin 1 => v (t - s)) (Matrix.of fun _ _ : Fin 1 => κ s) = fun _ => κ s * v (t - s) := fun s => by
    funext i
    simp [Matrix.vecMul, dotProduct, mul_comm]
  simp only [this]
  exact hg.vel t ht

set_option maxHeartbeats 1000000 in
/-- **C173** If the force, the kernel, the start and the values of the noise of the scalar integrator are within `ε` of those of a generalised
Langevin equation, `integrate` succeeds and all its rows are within `C (dt + ε)` of the solution, with the same `C` for all small `dt`
and `ε`. -/
theorem C173_integrate {T : ℝ} {F κ ξ x v : ℝ → ℝ} (hg : Spec.ScalarGle T F κ ξ x v) (hF : ContDiff ℝ 1 F) (hκ : Spec.ScalarLip T κ)
    (hξ : Spec.ScalarLip T ξ) : ∃ C δ : ℝ, 0 < δ ∧ ∀ (B : Bgle ℝ) (nSteps : ℕ) (x0 v0 : ℝ) (noise : ℕ → ℝ) (ε : ℝ),
      0 < B.dt → B.dt ≤ δ → 0 ≤ ε → ε ≤ δ → 1 ≤ nSteps → (nSteps - 1 : ℕ) * B.dt ≤ T → NearScalar T ε F κ x B →
      |x0 - x 0| ≤ ε → |v0 - v 0| ≤ ε → (∀ n < nSteps, |noise n - ξ (n * B.dt)| ≤ ε) →
      ∃ trj, B.integrate nSteps (.numpy x0) v0 nSteps noise = .ok trj ∧ trj.n = nSteps ∧ ∀ n < nSteps, trj.time n = n * B.dt ∧
        |trj.x n - x (n * B.dt)| ≤ C * (B.dt + ε) ∧ |trj.v n - v (n * B.dt)| ≤ C * (B.dt + ε) := by
  rcases lt_or_ge T 0 with hT | hT
  · refine ⟨0, 1, one_pos, fun B nSteps x0 v0 noise ε h1 _ _ _ _ h3 _ _ _ _ => ?_⟩
    have : 0 ≤ ((nSteps - 1 : ℕ) : ℝ) * B.dt := by positivity
    linarith
  have hg1 := noisy_of_scalar hg
  have hF1 : ContDiff ℝ 1 (fun (y : Fin 1 → ℝ) (_ : Fin 1) => F (y 0)) := contDiff_pi.2 fun _ => hF.comp (contDiff_apply ℝ ℝ 0)
  have hE1 : ContDiff ℝ 1 (fun y : (Fin 1 → ℝ) × (Fin 1 → ℝ) => y.2) := contDiff_snd
  obtain ⟨Lξ, hLξ0, hLξ⟩ : ∃ L, 0 ≤ L ∧ LipOn T L ξ := by
    obtain ⟨L, hL⟩ := hξ
    exact ⟨|L|, abs_nonneg _, fun s hs t ht => (hL s hs t ht).trans (by gcongr; exact le_abs_self L)⟩
  obtain ⟨R, L, M, hR, hL, hM, hr⟩ := noisy_regular hT hg1 hF1 hE1 (hκ.imp fun L hL s hs t ht _ _ => hL s hs t ht) hLξ0 fun _ => hLξ
  obtain ⟨LF, hLF0, hLF⟩ := lip_ball hF1 (R + 1)
  obtain ⟨c0, hc0⟩ : ∃ c0 : ℝ, c0 = T * M := ⟨_, rfl⟩
  have hc00 : 0 ≤ c0 := by rw [hc0]; positivity
  obtain ⟨c1, hc1⟩ : ∃ c1 : ℝ, c1 = T * (2 * M + 1) + T * (2 * (L * M)) + (M + 1) * (R + 1) + (M + 1) * (2 * R + 1) + L := ⟨_, rfl⟩
  have hc10 : 0 ≤ c1 := by rw [hc1]; positivity
  obtain ⟨C, δ, hδ, H⟩ := rows_near hT hg1 hr hR hL hLF0 hc00 hc10 hLF
  refine ⟨C, min δ 1, by positivity, fun B nSteps x0 v0 noise ε hdt hdδ hε hεδ hn1 hTn hB hx0 hv0 hno => ?_⟩
  have hε1 : ε ≤ 1 := hεδ.trans (min_le_right _ _)
  obtain ⟨trj, htrj, hI⟩ := B.integrate_ok hB.len hn1 x0 v0 noise
  refine ⟨trj, htrj, hI.hn, ?_⟩
  obtain ⟨h, hh⟩ : ∃ h, h = B.dt := ⟨_, rfl⟩
  have hker : ∀ j < B.kernel.len, (j : ℝ) * h ≤ T → |B.kernel.get j - κ (j * h)| ≤ ε := by rw [hh]; exact hB.kernel
  have hcov : T ≤ (B.kernel.len - 1 : ℕ) * h ∨ ∀ s ∈ Icc 0 T, (B.kernel.len - 1 : ℕ) * h ≤ s → |κ s| ≤ ε := by rw [hh]; exact hB.cover
  rw [← hh] at hdt hdδ hTn hno ⊢
  have hNT : ∀ n < nSteps, (n : ℝ) * h ≤ T := by
    intro n hn
    have : (n : ℝ) ≤ (nSteps - 1 : ℕ) := by exact_mod_cast (by omega)
    exact le_trans (by gcongr) hTn
  have hmem : ∀ n < nSteps, (n : ℝ) * h ∈ Icc 0 T := fun n hn => ⟨by positivity, hNT n hn⟩
  have h0T : (0 : ℝ) ∈ Icc 0 T := ⟨le_rfl, hT⟩
  have hkM : ∀ n < nSteps, n < B.kernel.len → |B.kernel.get n| ≤ M + 1 := by
    intro n hn hl
    have h1 := hker n hl (hNT n hn)
    have h2 := hr.κM _ (hmem n hn) 0 0
    have h3 := abs_add_le (B.kernel.get n - κ (n * h)) (κ (n * h))
    rw [sub_add_cancel] at h3
    simp only [Matrix.of_apply] at h2
    linarith
  have hk0 : |B.kernel.get 0| ≤ M + 1 := hkM 0 (by omega) (by have := hB.len; omega)
  have hv0R : |v0| ≤ R + 1 := by
    have h1 := hr.vR 0 h0T 0
    have h2 := abs_add_le (v0 - v 0) (v 0)
    rw [sub_add_cancel] at h2
    linarith
  -- memory of a history with errors
  have memH : ∀ n < nSteps, ∀ m, 0 ≤ m → m ≤ 1 → ∀ H : ℕ → Fin 1 → ℝ, (∀ j ≤ n, ‖H j - fun _ => v (j * h)‖ ≤ m) →
      |Spec.memory h B.kernel.len B.lift.kernel.get H n 0 - scalarMem κ x v (n * h) 0| ≤
        c0 * m + (T * (2 * M + 1) + T * (2 * (L * M))) * (h + ε) := by
    intro n hn m hm0 hm1 H hH
    have h1 := mem_error_near hr hL hM hdt (by have := hB.len; omega) (ker := B.lift.kernel.get) hε (fun j hj hjT _ _ => hker j hj hjT)
      (hcov.imp id fun c s hs hl _ _ => c s hs hl) (hNT n hn) hH
    refine (norm_le_pi_norm (Spec.memory h B.kernel.len B.lift.kernel.get H n - _) 0).trans (h1.trans ?_)
    have k2 : T * (ε * m) ≤ T * (ε * 1) := by gcongr
    have k3 : T * (2 * (L * M)) * h ≤ T * (2 * (L * M)) * (h + ε) := by
      gcongr
      linarith
    have k4 : T * (2 * M + 1) * ε ≤ T * (2 * M + 1) * (h + ε) := by
      gcongr
      linarith
    have k5 : T * (((1 : ℕ) : ℝ) * M * m + ((1 : ℕ) : ℝ) * ε * (M + m)) + T * (((1 : ℕ) : ℝ) * ε * M) + T * (((1 : ℕ) : ℝ) * (2 * (L * M))) * h =
        c0 * m + T * (ε * m) + T * (2 * M) * ε + T * (2 * (L * M)) * h := by rw [hc0]; push_cast; ring
    rw [k5]
    linarith
  have extra : ∀ n < nSteps, |if n < B.kernel.len - 1 then h / 2 * (B.kernel.get n * v0) else 0| ≤ (M + 1) * (R + 1) * (h + ε) := by
    intro n hn
    split_ifs with c
    · rw [abs_mul, abs_mul, abs_of_nonneg (by linarith)]
      have : |B.kernel.get n| * |v0| ≤ (M + 1) * (R + 1) := mul_le_mul (hkM n hn (by omega)) hv0R (abs_nonneg _) (by linarith)
      calc _ ≤ (h + ε) * ((M + 1) * (R + 1)) := mul_le_mul (by linarith) this (by positivity) (by linarith)
        _ = _ := by ring
    · rw [abs_zero]
      positivity
  have first : ∀ u : ℝ, |u| ≤ R + 1 → 0 < nSteps - 1 →
      |1 / 2 * h * (u * B.kernel.get 0) - scalarMem κ x v h (0 : Fin 1)| ≤
        ((M + 1) * (R + 1) + L) * (h + ε) := by
    intro u hu hn
    have hhT : h ∈ Icc 0 T := by simpa using hmem 1 (by omega)
    have h1 := hr.mL 0 h hhT 0 h0T
    have h2 : scalarMem κ x v 0 (0 : Fin 1) = 0 := by simp [memForce]
    simp only [h2, sub_zero, abs_of_pos hdt] at h1
    have h3 : |1 / 2 * h * (u * B.kernel.get 0)| ≤ (h + ε) * ((R + 1) * (M + 1)) := by
      rw [abs_mul, abs_mul u, abs_of_nonneg (by linarith)]
      exact mul_le_mul (by linarith) (mul_le_mul hu hk0 (abs_nonneg _) (by linarith)) (by positivity) (by linarith)
    have h4 : L * h ≤ L * (h + ε) := by gcongr; linarith
    refine (abs_sub _ _).trans ?_
    linarith
  have final := H (fun n => (fun _ => trj.x n, fun _ => trj.v n)) nSteps h ε (fun y => Matrix.vecMul (B.lift.basis y) B.lift.forceCoeff) (fun n _ => noise n)
    hdt (hdδ.trans (min_le_left _ _)) hε (hεδ.trans (min_le_left _ _)) hTn
    (fun τ hτ y hy => norm_one_le (by
      rw [Pi.sub_apply, B.lift_force]
      exact hB.force τ hτ (y 0) ((norm_le_pi_norm (y - fun _ => x τ) 0).trans hy)))
    (fun n hn => norm_one_le (hno n hn))
    (norm_prod_le_iff.2 ⟨norm_one_le (by simpa [hI.hx0] using hx0), norm_one_le (by simpa [hI.hv0] using hv0)⟩) ?_
  · intro n hn
    have := norm_prod_le_iff.1 (final n hn)
    refine ⟨by rw [hI.time, ← hh], ?_, ?_⟩
    · exact (norm_le_pi_norm ((fun _ : Fin 1 => trj.x n) - fun _ => x (n * h)) 0).trans this.1
    · exact (norm_le_pi_norm ((fun _ : Fin 1 => trj.v n) - fun _ => v (n * h)) 0).trans this.2
  intro n hn m hm0 hm1 hm
  have hmv : ∀ j ≤ n, ‖(fun _ : Fin 1 => trj.v j) - fun _ => v (j * h)‖ ≤ m := fun j hj => (norm_prod_le_iff.1 (hm j hj)).2
  have hn1h : ((n + 1 : ℕ) : ℝ) * h = n * h + h := by push_cast; ring
  have close : ∀ p q : ℝ, p ≤ c0 * m + (T * (2 * M + 1) + T * (2 * (L * M))) * (h + ε) →
      q ≤ ((M + 1) * (R + 1) + (M + 1) * (2 * R + 1)) * (h + ε) → p + q ≤ c0 * m + c1 * (h + ε) := by
    intro p q hp hq
    have : c1 * (h + ε) = (T * (2 * M + 1) + T * (2 * (L * M))) * (h + ε) + ((M + 1) * (R + 1) + (M + 1) * (2 * R + 1)) * (h + ε) + L * (h + ε) := by
      rw [hc1]; ring
    have : 0 ≤ L * (h + ε) := by positivity
    linarith
  have close1 : ((M + 1) * (R + 1) + L) * (h + ε) ≤ c0 * m + c1 * (h + ε) := by
    have : c1 * (h + ε) = (T * (2 * M + 1) + T * (2 * (L * M)) + (M + 1) * (2 * R + 1)) * (h + ε) + ((M + 1) * (R + 1) + L) * (h + ε) := by
      rw [hc1]; ring
    have : 0 ≤ (T * (2 * M + 1) + T * (2 * (L * M)) + (M + 1) * (2 * R + 1)) * (h + ε) := by positivity
    have : 0 ≤ c0 * m := by positivity
    linarith
  -- the step
  have hstep := hI.step (n + 1) (by omega) hn
  rw [Bgle.stepAt, Nat.add_sub_cancel] at hstep
  obtain ⟨lv, hlv⟩ : ∃ lv, lv = (if 1 < n + 1 then trj.v n else 0) := ⟨_, rfl⟩
  obtain ⟨lr, hlr⟩ : ∃ lr, lr = (if 1 < n + 1 then B.rmiAt trj.v n else 0) := ⟨_, rfl⟩
  rw [← hlv, ← hlr] at hstep
  have hs := toBgle_rkStep B.lift rfl rfl (fun _ => trj.x n) (fun _ => trj.v n) (fun _ => B.rmiAt trj.v (n + 1)) (fun _ => noise (n + 1)) (fun _ => lv) fun _ => lr
  rw [B.lift_toBgle, ← hstep] at hs
  rw [rkStep_eq] at hs
  obtain ⟨A, hA⟩ : ∃ A : Fin 1 → ℝ, A = (fun _ => lr) + ((1 / 2 : ℝ) * B.lift.dt) • Matrix.vecMul (fun _ => lv) (B.lift.kernel.get 0) := ⟨_, rfl⟩
  obtain ⟨Q, hQ⟩ : ∃ Q : (Fin 1 → ℝ) × (Fin 1 → ℝ) → Fin 1 → ℝ, Q = fun y => (fun _ => B.rmiAt trj.v (n + 1)) +
    ((1 / 2 : ℝ) * B.lift.dt) • Matrix.vecMul (B.lift.E y.1 y.2) (B.lift.kernel.get 0) := ⟨_, rfl⟩
  refine ⟨A, Q, ?_, ?_, ?_⟩
  · refine norm_one_le ?_
    have e : A 0 = lr + 1 / 2 * h * (lv * B.kernel.get 0) := by
      simp [hA, Bgle.lift, Matrix.vecMul, dotProduct, hh]
    rw [Pi.sub_apply, e]
    rcases Nat.eq_zero_or_pos n with rfl | hn0
    · rw [hlv, hlr]
      simp [memForce]
      positivity
    · rw [if_pos (by omega)] at hlv hlr
      rw [hlv, hlr]
      unfold Bgle.rmiAt
      by_cases c : 1 < n
      · rw [if_pos c, hh, lift_memory B hB.len _ (by omega), ← hh]
        have e2 : Function.update (fun j (_ : Fin 1) => trj.v j) n (fun _ => trj.v n) = fun j _ => trj.v j := Function.update_eq_self n fun j (_ : Fin 1) => trj.v j
        rw [e2, hI.hv0, add_sub_right_comm]
        refine (abs_add_le _ _).trans (close _ _ (memH n (by omega) m hm0 hm1 _ hmv) ((extra n (by omega)).trans ?_))
        have : 0 ≤ (M + 1) * (2 * R + 1) * (h + ε) := by positivity
        linarith
      · obtain rfl : n = 1 := by omega
        rw [if_neg c, zero_add]
        have hR1 : |trj.v 1| ≤ R + 1 := by
          have h1 := hr.vR _ (hmem 1 (by omega)) 0
          have h2 := abs_add_le (trj.v 1 - v ((1 : ℕ) * h)) (v ((1 : ℕ) * h))
          have h3 := (norm_le_pi_norm ((fun _ : Fin 1 => trj.v 1) - fun _ => v ((1 : ℕ) * h)) 0).trans (hmv 1 le_rfl)
          rw [sub_add_cancel] at h2
          rw [Real.norm_eq_abs, Pi.sub_apply] at h3
          linarith
        have := first _ hR1 (by omega)
        rw [show ((1 : ℕ) : ℝ) * h = h by simp]
        exact this.trans close1
  · intro τ hτ z hz
    refine norm_one_le ?_
    have e : Q z 0 = B.rmiAt trj.v (n + 1) + 1 / 2 * h * (z.2 0 * B.kernel.get 0) := by
      simp [hQ, Bgle.lift, Matrix.vecMul, dotProduct, hh, Integrator.E, constVec]
    rw [Pi.sub_apply, e]
    have hzR : |z.2 0 - v τ| ≤ 1 := (norm_le_pi_norm (z.2 - fun _ => v τ) 0).trans (norm_prod_le_iff.1 hz).2
    have hzR' : |z.2 0| ≤ R + 1 := by
      have h1 := hr.vR τ hτ 0
      have h2 := abs_add_le (z.2 0 - v τ) (v τ)
      rw [sub_add_cancel] at h2
      linarith
    unfold Bgle.rmiAt
    rcases Nat.eq_zero_or_pos n with rfl | hn0
    · rw [if_neg (by omega), zero_add]
      have := first _ hzR' (by omega)
      rw [show ((0 : ℕ) : ℝ) * h + h = h by simp]
      exact this.trans close1
    · rw [if_pos (by omega), hh, lift_memory B hB.len _ (by omega), ← hh, hI.hv0,
        memory_update (by exact hB.len) (by omega) _ (fun _ => v ((n + 1 : ℕ) * h)), Pi.add_apply]
      have h1 := memH (n + 1) hn m hm0 hm1 (Function.update (fun j (_ : Fin 1) => trj.v j) (n + 1) fun _ => v ((n + 1 : ℕ) * h)) (fun j hj => by
        rcases Nat.lt_or_ge j (n + 1) with c | c
        · rw [Function.update_of_ne (by omega)]
          exact hmv j (by omega)
        · obtain rfl : j = n + 1 := by omega
          rw [Function.update_self, sub_self, norm_zero]
          exact hm0)
      rw [hn1h] at h1 ⊢
      have h2 : |((h / 2) • Matrix.vecMul ((fun _ => z.2 0) - fun _ => v (n * h + h)) (B.lift.kernel.get 0)) (0 : Fin 1)| ≤ (M + 1) * (2 * R + 1) * (h + ε) := by
        have e3 : ((h / 2) • Matrix.vecMul ((fun _ => z.2 0) - fun _ => v (n * h + h)) (B.lift.kernel.get 0)) (0 : Fin 1) =
            h / 2 * ((z.2 0 - v (n * h + h)) * B.kernel.get 0) := by simp [Bgle.lift, Matrix.vecMul, dotProduct]
        rw [e3, abs_mul, abs_mul, abs_of_nonneg (by linarith)]
        have k1 : |z.2 0 - v (n * h + h)| ≤ 2 * R + 1 := by
          have a1 := hr.vR _ (hmem (n + 1) hn) 0
          rw [hn1h] at a1
          have a2 := abs_sub (z.2 0) (v (n * h + h))
          linarith
        calc _ ≤ (h + ε) * ((2 * R + 1) * (M + 1)) :=
              mul_le_mul (by linarith) (mul_le_mul k1 hk0 (abs_nonneg _) (by linarith)) (by positivity) (by linarith)
          _ = _ := by ring
      have h3 := extra (n + 1) hn
      rw [add_assoc, add_sub_right_comm]
      refine (abs_add_le _ _).trans (close _ _ h1 ((abs_add_le _ _).trans ?_))
      linarith
  · have hdt' : B.lift.dt = h := hh.symm
    rw [hdt'] at hs hA hQ
    refine Prod.ext (funext fun i => ?_) (funext fun i => ?_)
    · rw [Subsingleton.elim i 0, hA, hQ]
      exact hs.1.symm
    · rw [Subsingleton.elim i 0, hA, hQ]
      exact hs.2.symm

/-- The scalar integrator of a model whose constant kernel integrator holds the equation up to `ε` holds it up to `ε`. -/
theorem NearGle.scalar {T ε : ℝ} {F κ x v : ℝ → ℝ} {E : (Fin 1 → ℝ) → (Fin 1 → ℝ) → Fin 1 → ℝ} {nB : ℕ} {I : Integrator ℝ 1 nB 1 1}
    (h : NearGle T ε (fun y _ => F (y 0)) E (fun t => Matrix.of fun _ _ => κ t) (fun t _ => x t) (fun t _ => v t) I) :
    NearScalar T ε F κ x I.toBgle where
  force t ht y hy := h.force t ht (fun _ => y) (fun _ => hy) 0
  len := h.len
  kernel j hj hT := h.kernel j hj hT 0 0
  cover := h.cover.imp id fun c s hs hl => c s hs hl 0 0

/-- **C173** `BGLEIntegrator` and `Integrator_gle_const_kernel` of the same model, near an equation, started at any velocity, have the same limit: their
rows differ by at most `C (dt + ε)`. -/
theorem C173_same_limit {T : ℝ} {F κ ξ x v : ℝ → ℝ} (hg : Spec.ScalarGle T F κ ξ x v) (hF : ContDiff ℝ 1 F) (hκ : Spec.ScalarLip T κ)
    (hξ : Spec.ScalarLip T ξ) : ∃ C δ : ℝ, 0 < δ ∧ ∀ (nB : ℕ) (I : Integrator ℝ 1 nB 1 1) (nSteps : ℕ) (x0 v0 : ℝ) (noise : ℕ → ℝ) (ε : ℝ),
      0 < I.dt → I.dt ≤ δ → 0 ≤ ε → ε ≤ δ → 1 ≤ nSteps → (nSteps - 1 : ℕ) * I.dt ≤ T →
      NearGle T ε (fun y _ => F (y 0)) (fun _ w => w) (fun t => Matrix.of fun _ _ => κ t) (fun t _ => x t) (fun t _ => v t) I →
      |x0 - x 0| ≤ ε → |v0 - v 0| ≤ ε → (∀ n < nSteps, |noise n - ξ (n * I.dt)| ≤ ε) →
      ∃ trj trj', I.toBgle.integrate nSteps (.numpy x0) v0 nSteps noise = .ok trj ∧
        I.run nSteps (some ⟨1, fun _ => 0, fun _ _ => x0, fun _ _ => v0⟩) (fun t _ => noise t) = .ok trj' ∧
        ∀ n < nSteps, |trj.x n - trj'.x n 0| ≤ C * (I.dt + ε) ∧ |trj.v n - trj'.v n 0| ≤ C * (I.dt + ε) := by
  obtain ⟨C1, δ1, hδ1, H1⟩ := C173_integrate hg hF hκ hξ
  have hg1 : Spec.NoisyGle (d := 1) (b := 1) T (fun y _ => F (y 0)) (fun _ w => w) (fun t => Matrix.of fun _ _ => κ t) (fun t _ => ξ t)
      (fun t _ => x t) (fun t _ => v t) := noisy_of_scalar hg
  obtain ⟨C2, δ2, hδ2, H2⟩ := C148_run_noise hg1 (contDiff_pi.2 fun _ => hF.comp (contDiff_apply ℝ ℝ 0)) contDiff_snd
    (hκ.imp fun L hL s hs t ht _ _ => hL s hs t ht) (hξ.imp fun L hL s hs t ht _ _ => hL s hs t ht)
  refine ⟨C1 + C2, min δ1 δ2, by positivity, fun nB I nSteps x0 v0 noise ε hdt hdδ hε hεδ hn hT hI hx0 hv0 hno => ?_⟩
  obtain ⟨trj, t1, -, t2⟩ := H1 I.toBgle nSteps x0 v0 noise ε hdt (hdδ.trans (min_le_left _ _)) hε (hεδ.trans (min_le_left _ _)) hn hT hI.scalar hx0 hv0 hno
  obtain ⟨trj', t3, t4⟩ := H2 nB 1 I nSteps ⟨1, fun _ => 0, fun _ _ => x0, fun _ _ => v0⟩ (fun t _ => noise t) ε hdt (hdδ.trans (min_le_right _ _)) hε
    (hεδ.trans (min_le_right _ _)) hT hI le_rfl hn (fun t ht => by
      obtain rfl : t = 0 := by simpa using ht
      simpa using ⟨hx0, hv0⟩) (fun n hn _ => hno n hn)
  refine ⟨trj, trj', t1, t3, fun n hn => ?_⟩
  obtain ⟨-, a1, a2⟩ := t2 n hn
  obtain ⟨b1, b2⟩ := t4 n hn 0
  have e : I.toBgle.dt = I.dt := rfl
  rw [e] at a1 a2
  rw [abs_le] at a1 a2 b1 b2 ⊢
  rw [abs_le]
  refine ⟨⟨?_, ?_⟩, ?_, ?_⟩ <;> linarith

/-! ### Examples: `v' = x - ∫ v`, and `v' = t` -/

/-- `x = t`, `v = 1` solve `v' = x - ∫ v`. -/
theorem exScalar (T : ℝ) : Spec.ScalarGle T id (fun _ => 1) (fun _ => 0) id (fun _ => 1) where
  pos := fun t _ => (hasDerivAt_id t).hasDerivWithinAt
  vel := fun t _ => by simpa using hasDerivWithinAt_const t (Icc 0 T) (1 : ℝ)

noncomputable def exScalarInt (dt : ℝ) (len : ℕ) : Bgle ℝ := ⟨id, ⟨len, fun _ => 1⟩, dt⟩

theorem exScalar_converges : ∃ C δ : ℝ, 0 < δ ∧ ∀ N : ℕ, 1 ≤ N → 1 / (N : ℝ) ≤ δ →
    ∃ trj, (exScalarInt (1 / N) (N + 1)).integrate (N + 1) (.numpy 0) 1 (N + 1) 0 = .ok trj ∧ |trj.v N - 1| ≤ C * (1 / N + 0) := by
  obtain ⟨C, δ, hδ, H⟩ := C173_integrate (exScalar 1) contDiff_id ⟨0, by simp⟩ ⟨0, by simp⟩
  refine ⟨C, δ, hδ, fun N hN h => ?_⟩
  have hN0 : (0 : ℝ) < N := by exact_mod_cast hN
  have hN1 : ((N + 1 - 1 : ℕ) : ℝ) * (1 / N) = 1 := by
    rw [Nat.add_sub_cancel]
    field_simp
  obtain ⟨trj, h1, -, h2⟩ := H (exScalarInt (1 / N) (N + 1)) (N + 1) 0 1 0 0 (by simp [exScalarInt]; omega) h le_rfl hδ.le (by omega) hN1.le
    ⟨fun t _ y _ => by simp [exScalarInt], by simp [exScalarInt]; omega, fun j _ _ => by simp [exScalarInt], .inl hN1.ge⟩ (by simp) (by simp) (by simp)
  exact ⟨trj, h1, (h2 N (by omega)).2.2⟩

/-- **C173** The order one cannot be improved: for the noise `t`, without force and memory, the velocity at time one is too large by `dt/2`. -/
theorem C173_order_sharp {N len : ℕ} (hN : 1 ≤ N) (hl : 2 ≤ len) :
    ∃ trj, (exFreeInt (1 / N) len).toBgle.integrate (N + 1) (.numpy 0) 0 (N + 1) (fun n => n * (1 / N)) = .ok trj ∧
      trj.v N = 1 / 2 + 1 / N / 2 := by
  obtain ⟨trj', h1, h2⟩ := C148_order_sharp hN hl
  obtain ⟨trj, trj'', h3, h4, -, h5⟩ := C119_at_rest (I := exFreeInt (1 / N) len) rfl rfl hl (nSteps := N + 1) (by omega) 0 (fun n => n * (1 / N))
    (D := ⟨1, fun _ => 0, 0, 0⟩) rfl rfl rfl rfl
  rw [h1] at h4
  cases h4
  exact ⟨trj, h3, by rw [(h5 N (by omega)).2.1, h2]⟩

example := C173_same_limit (exScalar 1) contDiff_id ⟨0, by simp⟩ ⟨0, by simp⟩
example := C173_order_sharp (N := 10) (len := 3) (by norm_num) (by norm_num)

end Verif
