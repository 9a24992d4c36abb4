import Verif.Props.Noise
import Verif.Props.Converge

/-!
# `compute_noise` and `compute_corrs_w_noise` find the noise of the generalised Langevin equation (C146, C147)
-/

namespace Verif

open Finset Set

namespace Spec

variable {b x o : ℕ}

/-- A vector as a matrix with one row. -/
def rowMat (e : ℝ → Fin b → ℝ) : ℝ → Matrix (Fin 1) (Fin b) ℝ := fun t _ a => e t a

/-- `∫_0^τ e(t-s) κ(s) ds`, component `l`. -/
noncomputable def memoryInt (e : ℝ → Fin b → ℝ) (κ : ℝ → Matrix (Fin b) (Fin x) ℝ) (t τ : ℝ) (l : Fin x) : ℝ :=
  ∫ s in (0 : ℝ)..τ, ∑ a, e (t - s) a * κ s a l

/-- `ξ` is the noise of the observable: `obs(t) = f(t) - ∫_0^t e(t-s) κ(s) ds + ξ(t)` on `[0, T]`. -/
def Driven (T : ℝ) (obs f : ℝ → Fin x → ℝ) (e : ℝ → Fin b → ℝ) (κ : ℝ → Matrix (Fin b) (Fin x) ℝ)
    (ξ : ℝ → Fin x → ℝ) : Prop :=
  ∀ t ∈ Icc 0 T, ∀ l, obs t l = f t l - memoryInt e κ t t l + ξ t l

/-- The noise at time `t + τ` of the dynamics whose memory begins at time `t`. -/
noncomputable def noiseFrom (obs f : ℝ → Fin x → ℝ) (e : ℝ → Fin b → ℝ) (κ : ℝ → Matrix (Fin b) (Fin x) ℝ)
    (t τ : ℝ) (l : Fin x) : ℝ :=
  obs (t + τ) l - f (t + τ) l + memoryInt e κ (t + τ) τ l

end Spec

section
variable {bf b x o : ℕ}

theorem entry_row_mul (e : ℝ → Fin b → ℝ) (A : Mat ℝ b x) (t : ℝ) (l : Fin x) :
    (Spec.rowMat e t * A) 0 l = ∑ a, e t a * A a l := by
  simp [Spec.rowMat, Matrix.mul_apply]

section
open scoped Matrix.Norms.Operator

/-- The rectangle rule for the memory, with an approximate kernel. -/
theorem rect_memory {S T : ℝ} {e : ℝ → Fin b → ℝ} {κ : ℝ → Mat ℝ b x} (he : Spec.Lip S (Spec.rowMat e))
    (hκ : Spec.Lip T κ) : ∃ Q : ℝ, 0 ≤ Q ∧ ∀ (h u ε : ℝ) (N : ℕ) (g : ℕ → Mat ℝ b x), 0 ≤ h → N * h ≤ T →
      N * h ≤ u → u ≤ S → 0 ≤ ε → (∀ j < N, ∀ a l, |g j a l - κ (j * h) a l| ≤ ε) → ∀ l,
      |∑ j ∈ range N, h * ∑ a, e (u - j * h) a * g j a l - Spec.memoryInt e κ u (N * h) l| ≤ Q * (h + ε) := by
  obtain ⟨LA, hLA0, hLA⟩ := lip_norm he
  obtain ⟨MA, hMA0, hMA⟩ := lip_bound he
  obtain ⟨LB, hLB0, hLB⟩ := lip_norm hκ
  obtain ⟨MB, hMB0, hMB⟩ := lip_bound hκ
  refine ⟨|T| * (LA * MB + MA * LB) + |T| * (b * MA), by positivity, fun h u ε N g hh hT hu hS hε hg l => ?_⟩
  have hmap : ∀ τ ∈ Icc 0 (N * h), u - N * h + τ ∈ Icc 0 S := fun τ hτ => ⟨by linarith [hτ.1], by linarith [hτ.2]⟩
  have hsub : Icc 0 (N * h) ⊆ Icc 0 T := Icc_subset_Icc le_rfl hT
  have hconv := conv_lip (T := N * h) (A := fun τ => Spec.rowMat e (u - N * h + τ)) (B := κ) (t := N * h) le_rfl hLA0
    (LB := LB) (MB := MB) (MA := MA)
    (fun s hs t ht => by
      have := hLA _ (hmap s hs) _ (hmap t ht)
      rwa [add_sub_add_left_eq_sub] at this)
    (fun t ht => hMA _ (hmap t ht)) (fun s hs t ht => hLB s (hsub hs) t (hsub ht)) (fun t ht => hMB t (hsub ht)) 0 l
  have es : ∀ s, (Spec.rowMat e (u - N * h + (N * h - s)) * κ s) 0 l = ∑ a, e (u - s) a * κ s a l := fun s => by
    rw [entry_row_mul, show u - N * h + (N * h - s) = u - s by ring]
  simp only [es] at hconv
  have hquad := rect_quad (n := N) hh (by positivity) hconv
  have hT' : N * h ≤ |T| := hT.trans (le_abs_self T)
  have hpert : |∑ j ∈ range N, h * ∑ a, e (u - j * h) a * g j a l -
      ∑ j ∈ range N, h * ∑ a, e (u - j * h) a * κ (j * h) a l| ≤ |T| * (b * MA) * ε := by
    rw [← sum_sub_distrib]
    refine (abs_sum_le_sum_abs _ _).trans ?_
    refine (sum_le_card_nsmul _ _ (h * (b * (MA * ε))) fun j hj => ?_).trans ?_
    · have hj' := Finset.mem_range.1 hj
      have hjN : (j : ℝ) * h ≤ N * h := by gcongr
      have hj0 : (0 : ℝ) ≤ j * h := by positivity
      rw [← mul_sub, ← sum_sub_distrib, abs_mul, abs_of_nonneg hh]
      gcongr
      refine (abs_sum_le_sum_abs _ _).trans ?_
      refine (sum_le_card_nsmul _ _ (MA * ε) fun a _ => ?_).trans (by simp)
      rw [← mul_sub, abs_mul]
      refine mul_le_mul ?_ (hg j hj' a l) (abs_nonneg _) hMA0
      exact (entry_le_norm (Spec.rowMat e (u - j * h)) 0 a).trans (hMA _ ⟨by linarith, by linarith⟩)
    · rw [card_range, nsmul_eq_mul]
      calc (N : ℝ) * (h * (b * (MA * ε))) = (N * h) * (b * MA) * ε := by ring
        _ ≤ |T| * (b * MA) * ε := by gcongr
  unfold Spec.memoryInt
  refine (abs_sub_le _ (∑ j ∈ range N, h * ∑ a, e (u - j * h) a * κ (j * h) a l) _).trans ?_
  have h1 : (N : ℝ) * ((LA * MB + MA * LB) * h ^ 2) ≤ |T| * (LA * MB + MA * LB) * h := by
    calc (N : ℝ) * ((LA * MB + MA * LB) * h ^ 2) = (N * h) * (LA * MB + MA * LB) * h := by ring
      _ ≤ _ := by gcongr
  have h2 : 0 ≤ |T| * (LA * MB + MA * LB) * ε := by positivity
  have h3 : 0 ≤ |T| * (b * MA) * h := by positivity
  linarith [hquad, hpert]

/-- The trapezoidal rule for the memory, with an approximate kernel. -/
theorem trapz_memory {S T : ℝ} {e e' : ℝ → Fin b → ℝ} {κ κ' : ℝ → Mat ℝ b x}
    (he : Spec.DerivOn S (Spec.rowMat e) (Spec.rowMat e')) (he' : Spec.Lip S (Spec.rowMat e'))
    (hκ : Spec.DerivOn T κ κ') (hκ' : Spec.Lip T κ') :
    ∃ Q : ℝ, 0 ≤ Q ∧ ∀ (h u ε : ℝ) (N : ℕ) (g : ℕ → Mat ℝ b x), 0 ≤ h → N * h ≤ T →
      N * h ≤ u → u ≤ S → 0 ≤ ε → (∀ j ≤ N, ∀ a l, |g j a l - κ (j * h) a l| ≤ ε) → ∀ l,
      |Spec.trapzRule h (fun j => ∑ a, e (u - j * h) a * g j a l) N - Spec.memoryInt e κ u (N * h) l| ≤
        Q * (h ^ 2 + ε) := by
  obtain ⟨LA, hLA0, hLA⟩ := lip_norm (lip_of_deriv he he')
  obtain ⟨MA, hMA0, hMA⟩ := lip_bound (lip_of_deriv he he')
  obtain ⟨LB, hLB0, hLB⟩ := lip_norm (lip_of_deriv hκ hκ')
  obtain ⟨MB, hMB0, hMB⟩ := lip_bound (lip_of_deriv hκ hκ')
  obtain ⟨LA', hLA0', hLA'⟩ := lip_norm he'
  obtain ⟨MA', hMA0', hMA'⟩ := lip_bound he'
  obtain ⟨LB', hLB0', hLB'⟩ := lip_norm hκ'
  obtain ⟨MB', hMB0', hMB'⟩ := lip_bound hκ'
  obtain ⟨X, hX⟩ : ∃ X, X = (LA * MB' + MA * LB') + (LA' * MB + MA' * LB) := ⟨_, rfl⟩
  have hX0 : 0 ≤ X := by rw [hX]; positivity
  refine ⟨2 * |T| * X + |T| * (b * MA), by positivity, fun h u ε N g hh hT hu hS hε hg l => ?_⟩
  have hmap : ∀ τ ∈ Icc 0 (N * h), u - N * h + τ ∈ Icc 0 S := fun τ hτ => ⟨by linarith [hτ.1], by linarith [hτ.2]⟩
  have hsub : Icc 0 (N * h) ⊆ Icc 0 T := Icc_subset_Icc le_rfl hT
  have dA : Spec.DerivOn (N * h) (fun τ => Spec.rowMat e (u - N * h + τ)) (fun τ => Spec.rowMat e' (u - N * h + τ)) := by
    intro t ht i j
    have := (he (u - N * h + t) (hmap t ht) i j).comp (h := fun s => u - N * h + s) t
      ((hasDerivWithinAt_id t (Icc 0 (N * h))).const_add (u - N * h)) hmap
    exact this.congr_deriv (mul_one _)
  have dB : Spec.DerivOn (N * h) κ κ' := fun t ht i j => (hκ t (hsub ht) i j).mono hsub
  have lA : ∀ s ∈ Icc 0 (N * h), ∀ t ∈ Icc 0 (N * h),
      ‖Spec.rowMat e (u - N * h + s) - Spec.rowMat e (u - N * h + t)‖ ≤ LA * |s - t| := fun s hs t ht => by
    have := hLA _ (hmap s hs) _ (hmap t ht)
    rwa [add_sub_add_left_eq_sub] at this
  have lA' : ∀ s ∈ Icc 0 (N * h), ∀ t ∈ Icc 0 (N * h),
      ‖Spec.rowMat e' (u - N * h + s) - Spec.rowMat e' (u - N * h + t)‖ ≤ LA' * |s - t| := fun s hs t ht => by
    have := hLA' _ (hmap s hs) _ (hmap t ht)
    rwa [add_sub_add_left_eq_sub] at this
  have c1 := conv_lip (T := N * h) (A := fun τ => Spec.rowMat e (u - N * h + τ)) (B := κ') (t := N * h) le_rfl hLA0
    (LB := LB') (MB := MB') (MA := MA) lA (fun t ht => hMA _ (hmap t ht))
    (fun s hs t ht => hLB' s (hsub hs) t (hsub ht)) (fun t ht => hMB' t (hsub ht)) 0 l
  have c2 := conv_lip (T := N * h) (A := fun τ => Spec.rowMat e' (u - N * h + τ)) (B := κ) (t := N * h) le_rfl hLA0'
    (LB := LB) (MB := MB) (MA := MA') lA' (fun t ht => hMA' _ (hmap t ht))
    (fun s hs t ht => hLB s (hsub hs) t (hsub ht)) (fun t ht => hMB t (hsub ht)) 0 l
  have hd := conv_deriv (T := N * h) (t := N * h) le_rfl dA dB 0 l
  have es : ∀ s, (Spec.rowMat e (u - N * h + (N * h - s)) * κ s) 0 l = ∑ a, e (u - s) a * κ s a l := fun s => by
    rw [entry_row_mul, show u - N * h + (N * h - s) = u - s by ring]
  simp only [es] at hd
  have hquad := trapz_quad (n := N) hh hX0 hd (fun s hs t ht => by
      have h1 := c1 s hs t ht
      have h2 := c2 s hs t ht
      have e : ∀ a b c d : ℝ, |a - b - (c - d)| ≤ |a - c| + |b - d| := fun a b c d => by
        rw [show a - b - (c - d) = (a - c) - (b - d) by ring]
        exact abs_sub _ _
      refine (e _ _ _ _).trans ?_
      rw [hX, add_mul]
      exact add_le_add h1 h2)
  have hT' : N * h ≤ |T| := hT.trans (le_abs_self T)
  have hterm : ∀ j ≤ N, |(∑ a, e (u - j * h) a * g j a l) - ∑ a, e (u - j * h) a * κ (j * h) a l| ≤
      b * (MA * ε) := by
    intro j hj
    have hjN : (j : ℝ) * h ≤ N * h := by gcongr
    have hj0 : (0 : ℝ) ≤ j * h := by positivity
    rw [← sum_sub_distrib]
    refine (abs_sum_le_sum_abs _ _).trans ?_
    refine (sum_le_card_nsmul _ _ (MA * ε) fun a _ => ?_).trans (by simp)
    rw [← mul_sub, abs_mul]
    refine mul_le_mul ?_ (hg j hj a l) (abs_nonneg _) hMA0
    exact (entry_le_norm (Spec.rowMat e (u - j * h)) 0 a).trans (hMA _ ⟨by linarith, by linarith⟩)
  have hpert : |Spec.trapzRule h (fun j => ∑ a, e (u - j * h) a * g j a l) N -
      ∑ j ∈ range N, h / 2 * ((∑ a, e (u - j * h) a * κ (j * h) a l) +
        ∑ a, e (u - (j + 1 : ℕ) * h) a * κ ((j + 1 : ℕ) * h) a l)| ≤ |T| * (b * MA) * ε := by
    unfold Spec.trapzRule
    rw [← sum_sub_distrib]
    refine (abs_sum_le_sum_abs _ _).trans ?_
    refine (sum_le_card_nsmul _ _ (h * (b * (MA * ε))) fun j hj => ?_).trans ?_
    · have hj' := Finset.mem_range.1 hj
      rw [smul_eq_mul, ← mul_sub, abs_mul, abs_of_nonneg (by positivity : 0 ≤ h / 2)]
      have h1 := hterm j hj'.le
      have h2 := hterm (j + 1) hj'
      rw [add_sub_add_comm]
      have h3 := (abs_add_le _ _).trans (add_le_add h1 h2)
      calc _ ≤ h / 2 * (b * (MA * ε) + b * (MA * ε)) := by gcongr
        _ = _ := by ring
    · rw [card_range, nsmul_eq_mul]
      calc (N : ℝ) * (h * (b * (MA * ε))) = (N * h) * (b * MA) * ε := by ring
        _ ≤ |T| * (b * MA) * ε := by gcongr
  unfold Spec.memoryInt
  refine (abs_sub_le _ (∑ j ∈ range N, h / 2 * ((∑ a, e (u - j * h) a * κ (j * h) a l) +
        ∑ a, e (u - (j + 1 : ℕ) * h) a * κ ((j + 1 : ℕ) * h) a l)) _).trans ?_
  have h1 : (N : ℝ) * (2 * X * h ^ 3) ≤ 2 * |T| * X * h ^ 2 := by
    calc (N : ℝ) * (2 * X * h ^ 3) = 2 * (N * h) * X * h ^ 2 := by ring
      _ ≤ _ := by gcongr
  have h2 : 0 ≤ 2 * |T| * X * ε := by positivity
  have h3 : 0 ≤ |T| * (b * MA) * h ^ 2 := by positivity
  linarith [hquad, hpert]

end

/-- The trajectory is sampled with the step `h` from the row `start` on: the observable and the functions of the memory
exactly, the mean force and the first `L` points of the kernel up to `ε`. `S` bounds the times of the trajectory and
`T` those of the kernel. -/
structure NoiseData (S T h ε : ℝ) (obs f : ℝ → Fin x → ℝ) (e : ℝ → Fin b → ℝ) (κ : ℝ → Mat ℝ b x)
    (m : NoiseModel ℝ bf b x) (k : KernelData ℝ b x) (xva : Traj ℝ bf b x) (start L : ℕ) : Prop where
  step : xva.time (start + 1) - xva.time start = h
  obs : ∀ i : ℕ, i * h ≤ S → ∀ l, xva.obs (start + i) l = obs (i * h) l
  funs : ∀ i : ℕ, i * h ≤ S → ∀ a, xva.E (start + i) a = e (i * h) a
  force : ∃ c, m.forceCoeff = some c ∧
    ∀ i : ℕ, i * h ≤ S → ∀ l, |∑ p, xva.Eforce (start + i) p * c p l - f (i * h) l| ≤ ε
  kernelSet : m.kernel = some k
  kernel : ∀ j < L, j * h ≤ T → ∀ a l, |k.kernel.get j a l - κ (j * h) a l| ≤ ε

/-- The first `L` points of the kernel reach the end of the interval, or a time from which the kernel is zero. -/
def CoversMemory (T h : ℝ) (κ : ℝ → Mat ℝ b x) (L : ℕ) : Prop :=
  T ≤ (L - 1 : ℕ) * h ∨ ∀ s ∈ Icc 0 T, (L - 1 : ℕ) * h ≤ s → κ s = 0

/-- The kernel used by the loops, extended by zero, is near the true one. -/
theorem covers_near {S T h ε : ℝ} {obs f : ℝ → Fin x → ℝ} {e : ℝ → Fin b → ℝ} {κ : ℝ → Mat ℝ b x}
    {m : NoiseModel ℝ bf b x} {k : KernelData ℝ b x} {xva : Traj ℝ bf b x} {start L : ℕ} (hh : 0 < h) (hε : 0 ≤ ε)
    (hL : 0 < L) (D : NoiseData S T h ε obs f e κ m k xva start L) (hcov : CoversMemory T h κ L) (j : ℕ)
    (hj : j * h ≤ T) (a : Fin b) (l : Fin x) :
    |(if j < L then k.kernel.get j else 0) a l - κ (j * h) a l| ≤ ε := by
  split_ifs with hjL
  · exact D.kernel j hjL hj a l
  · rcases hcov with hc | hc
    · have : (j : ℝ) * h ≤ (L - 1 : ℕ) * h := hj.trans hc
      have : (j : ℝ) ≤ (L - 1 : ℕ) := le_of_mul_le_mul_right this hh
      have : j ≤ L - 1 := by exact_mod_cast this
      omega
    · rw [hc (j * h) ⟨by positivity, hj⟩ (by gcongr; omega)]
      simpa using hε

/-- **C146**, rectangle methods: along an observable of the generalised Langevin equation, the noise computed by
`compute_noise` is within `C (dt + ε)` of the noise of the equation, `ε` being the error of the force and of the
kernel. -/
theorem C146_noise_rect {T : ℝ} {obs f ξ : ℝ → Fin x → ℝ} {e : ℝ → Fin b → ℝ} {κ : ℝ → Mat ℝ b x}
    (hd : Spec.Driven T obs f e κ ξ) (he : Spec.Lip T (Spec.rowMat e)) (hκ : Spec.Lip T κ) :
    ∃ C : ℝ, ∀ (bf : ℕ) (m : NoiseModel ℝ bf b x) (k : KernelData ℝ b x) (xva : Traj ℝ bf b x) (trunc : Option ℕ)
      (start : ℕ) (stop : Option ℕ) (h ε : ℝ) (r : NoiseOut ℝ x), isRectMethod m.method →
      (x = 1 ∨ xva.obsDim ≠ "dim_x") → 0 < h → 0 ≤ ε →
      NoiseData T T h ε obs f e κ m k xva start (usedPoints m k trunc) →
      CoversMemory T h κ (usedPoints m k trunc) → computeNoise m xva trunc start stop = .ok r →
      ∀ i < r.len, i * h ≤ T → ∀ l, |r.noise i l - ξ (i * h) l| ≤ C * (h + ε) := by
  obtain ⟨Q, hQ0, hQ⟩ := rect_memory he hκ
  obtain ⟨MA, hMA0, hMA⟩ := lip_bound he
  obtain ⟨MB, hMB0, hMB⟩ := lip_bound hκ
  refine ⟨1 + Q + b * (MA * (MB + |T|)),
    fun bf m k xva trunc start stop h ε r hm hdim hh hε D hcov hr i hi hiT l => ?_⟩
  obtain ⟨c, hc, hforce⟩ := D.force
  obtain ⟨hsum, -, hf⟩ := C19_decomposition_partial hc hdim hr
  obtain ⟨hm0, hmem⟩ := C17_memory_rect hm D.kernelSet hr
  have hused : 0 < usedPoints m k trunc := by
    obtain ⟨c', k', -, hk', hp, -⟩ := computeNoise_ok hr
    obtain rfl : k' = k := by rw [D.kernelSet] at hk'; simpa using hk'.symm
    exact hp
  generalize usedPoints m k trunc = L at *
  have hT0 : 0 ≤ T := le_trans (by positivity) hiT
  have e1 := congrFun (hsum i) l
  simp only [Pi.add_apply] at e1
  rw [D.obs i hiT, hd _ ⟨by positivity, hiT⟩] at e1
  have e2 : r.noise i l - ξ (i * h) l = -(r.force i l - f (i * h) l) -
      (Spec.memoryInt e κ (i * h) (i * h) l + r.memory i l) := by linarith
  have e3 : |r.force i l - f (i * h) l| ≤ ε := by rw [hf]; exact hforce i hiT l
  have e4 : |Spec.memoryInt e κ (i * h) (i * h) l + r.memory i l| ≤ (Q + b * (MA * (MB + |T|))) * (h + ε) := by
    rcases Nat.eq_zero_or_pos i with rfl | hi1
    · rw [hm0]
      simp only [Spec.memoryInt, CharP.cast_eq_zero, zero_mul, intervalIntegral.integral_same, Pi.zero_apply, add_zero,
        abs_zero]
      positivity
    have hhT : h ≤ |T| := by
      refine le_trans ?_ (hiT.trans (le_abs_self T))
      have : (1 : ℝ) ≤ i := by exact_mod_cast hi1
      nlinarith
    have hnear := covers_near hh hε hused D hcov
    obtain ⟨g, hg⟩ : ∃ g : ℕ → Mat ℝ b x, g = fun j => if j < L then k.kernel.get j else 0 := ⟨_, rfl⟩
    have hnear' : ∀ j : ℕ, j * h ≤ T → ∀ a l, |g j a l - κ (j * h) a l| ≤ ε := by
      intro j hj a l
      rw [hg]
      exact hnear j hj a l
    have hjT : ∀ j ≤ i, (j : ℝ) * h ≤ T := fun j hj => le_trans (by gcongr) hiT
    have e5 : r.memory i l = -(∑ j ∈ range i, h * ∑ a, e (i * h - j * h) a * g j a l) -
        h * ∑ a, e 0 a * g i a l := by
      rw [hmem i hi1 hi l, D.step]
      have : ∑ j ∈ range (min (i + 1) L), h * ∑ a, xva.E (start + (i - j)) a * k.kernel.get j a l =
          ∑ j ∈ range (i + 1), h * ∑ a, e (i * h - j * h) a * g j a l := by
        have hsub : range (min (i + 1) L) ⊆ range (i + 1) := range_subset_range.2 (min_le_left _ _)
        rw [← sum_subset hsub]
        · refine sum_congr rfl fun j hj => ?_
          have hj' := Finset.mem_range.1 hj
          have hjL : j < L := by omega
          have hji : j ≤ i := by omega
          rw [hg]
          simp only [hjL, if_true]
          congr 1
          refine sum_congr rfl fun a _ => ?_
          rw [D.funs (i - j) (hjT _ (by omega)), Nat.cast_sub hji, sub_mul]
        · intro j hj hj'
          have h1 := Finset.mem_range.1 hj
          have h2 : ¬ j < L := fun h => hj' (Finset.mem_range.2 (by omega))
          rw [hg]
          simp [h2]
      rw [this, sum_range_succ, sub_self]
      ring
    have e6 := hQ h (i * h) ε i g hh.le hiT le_rfl hiT hε (fun j hj => hnear' j (hjT j hj.le)) l
    have e7 : |h * ∑ a, e 0 a * g i a l| ≤ b * (MA * (MB + |T|)) * (h + ε) := by
      rw [abs_mul, abs_of_nonneg hh.le]
      have : |∑ a, e 0 a * g i a l| ≤ b * (MA * (MB + ε)) := by
        refine (abs_sum_le_sum_abs _ _).trans ?_
        refine (sum_le_card_nsmul _ _ (MA * (MB + ε)) fun a _ => ?_).trans (by simp)
        rw [abs_mul]
        refine mul_le_mul ((entry_le_norm (Spec.rowMat e 0) 0 a).trans (hMA 0 ⟨le_rfl, hT0⟩)) ?_ (abs_nonneg _) hMA0
        have h1 := hnear' i hiT a l
        have h2 := (entry_le_norm (κ (i * h)) a l).trans (hMB _ ⟨by positivity, hiT⟩)
        calc |g i a l| = |(g i a l - κ (i * h) a l) + κ (i * h) a l| := by rw [sub_add_cancel]
          _ ≤ _ := (abs_add_le _ _).trans (by linarith)
      calc h * |∑ a, e 0 a * g i a l| ≤ h * (b * (MA * (MB + ε))) := by gcongr
        _ = b * MA * (MB * h + h * ε) := by ring
        _ ≤ b * MA * (MB * h + |T| * ε + (MB * ε + |T| * h)) := by
          refine mul_le_mul_of_nonneg_left ?_ (by positivity)
          have : 0 ≤ MB * ε + |T| * h := by positivity
          have : h * ε ≤ |T| * ε := by gcongr
          linarith
        _ = _ := by ring
    have e8 : Spec.memoryInt e κ (i * h) (i * h) l + r.memory i l =
        -(∑ j ∈ range i, h * ∑ a, e (i * h - j * h) a * g j a l - Spec.memoryInt e κ (i * h) (i * h) l) -
          h * ∑ a, e 0 a * g i a l := by rw [e5]; ring
    rw [e8, add_mul]
    refine (abs_sub _ _).trans ?_
    rw [abs_neg]
    exact add_le_add e6 e7
  rw [e2]
  refine (abs_sub _ _).trans ?_
  rw [abs_neg]
  have : (1 + Q + b * (MA * (MB + |T|))) * (h + ε) = h + ε + (Q + b * (MA * (MB + |T|))) * (h + ε) := by ring
  rw [this]
  linarith

/-- **C146**, trapezoid methods: the noise is within `C (dt² + ε)` of the noise of the equation. -/
theorem C146_noise_trapz {T : ℝ} {obs f ξ : ℝ → Fin x → ℝ} {e e' : ℝ → Fin b → ℝ} {κ κ' : ℝ → Mat ℝ b x}
    (hd : Spec.Driven T obs f e κ ξ) (he : Spec.DerivOn T (Spec.rowMat e) (Spec.rowMat e')) (he' : Spec.Lip T (Spec.rowMat e'))
    (hκ : Spec.DerivOn T κ κ') (hκ' : Spec.Lip T κ') :
    ∃ C : ℝ, ∀ (bf : ℕ) (m : NoiseModel ℝ bf b x) (k : KernelData ℝ b x) (xva : Traj ℝ bf b x) (trunc : Option ℕ)
      (start : ℕ) (stop : Option ℕ) (h ε : ℝ) (r : NoiseOut ℝ x), isTrapzMethod m.method →
      (x = 1 ∨ xva.obsDim ≠ "dim_x") → 0 < h → 0 ≤ ε →
      NoiseData T T h ε obs f e κ m k xva start (usedPoints m k trunc) →
      CoversMemory T h κ (usedPoints m k trunc) → computeNoise m xva trunc start stop = .ok r →
      ∀ i < r.len, i * h ≤ T → ∀ l, |r.noise i l - ξ (i * h) l| ≤ C * (h ^ 2 + ε) := by
  obtain ⟨Q, hQ0, hQ⟩ := trapz_memory he he' hκ hκ'
  obtain ⟨MA, hMA0, hMA⟩ := lip_bound (lip_of_deriv he he')
  refine ⟨1 + Q + 2 * (b * MA * |T|),
    fun bf m k xva trunc start stop h ε r hm hdim hh hε D hcov hr i hi hiT l => ?_⟩
  obtain ⟨c, hc, hforce⟩ := D.force
  obtain ⟨hsum, -, hf⟩ := C19_decomposition_partial hc hdim hr
  obtain ⟨hm0, hmem⟩ := C18_memory_trapz_partial hm D.kernelSet hr
  have hlate := fun i L => C18_memory_trapz_late hm D.kernelSet hr i L
  have hused : 0 < usedPoints m k trunc := by
    obtain ⟨c', k', -, hk', hp, -⟩ := computeNoise_ok hr
    obtain rfl : k' = k := by rw [D.kernelSet] at hk'; simpa using hk'.symm
    exact hp
  generalize usedPoints m k trunc = L at *
  have hT0 : 0 ≤ T := le_trans (by positivity) hiT
  have e1 := congrFun (hsum i) l
  simp only [Pi.add_apply] at e1
  rw [D.obs i hiT, hd _ ⟨by positivity, hiT⟩] at e1
  have e2 : r.noise i l - ξ (i * h) l = -(r.force i l - f (i * h) l) -
      (Spec.memoryInt e κ (i * h) (i * h) l + r.memory i l) := by linarith
  have e3 : |r.force i l - f (i * h) l| ≤ ε := by rw [hf]; exact hforce i hiT l
  have e4 : |Spec.memoryInt e κ (i * h) (i * h) l + r.memory i l| ≤ (Q + 2 * (b * MA * |T|)) * (h ^ 2 + ε) := by
    rcases Nat.eq_zero_or_pos i with rfl | hi1
    · rw [hm0]
      simp only [Spec.memoryInt, CharP.cast_eq_zero, zero_mul, intervalIntegral.integral_same, Pi.zero_apply, add_zero,
        abs_zero]
      positivity
    have hhT : h ≤ |T| := by
      refine le_trans ?_ (hiT.trans (le_abs_self T))
      have : (1 : ℝ) ≤ i := by exact_mod_cast hi1
      nlinarith
    have hjT : ∀ j ≤ i, (j : ℝ) * h ≤ T := fun j hj => le_trans (by gcongr) hiT
    have hE : ∀ s ≤ i, ∀ a, xva.E (start + (i - s)) a = e (i * h - s * h) a := fun s hs a => by
      rw [D.funs (i - s) (hjT _ (by omega)), Nat.cast_sub hs, sub_mul]
    obtain ⟨g, hg⟩ : ∃ g : ℕ → Mat ℝ b x, g = fun j => if j < L then k.kernel.get j else 0 := ⟨_, rfl⟩
    have hnear' : ∀ j : ℕ, j * h ≤ T → ∀ a l, |g j a l - κ (j * h) a l| ≤ ε := by
      intro j hj a l
      rw [hg]
      exact covers_near hh hε hused D hcov j hj a l
    have e6 := hQ h (i * h) ε i g hh.le hiT le_rfl hiT hε (fun j hj => hnear' j (hjT j hj)) l
    have e7 : ∃ η, r.memory i l = -Spec.trapzRule h (fun j => ∑ a, e (i * h - j * h) a * g j a l) i + η ∧
        |η| ≤ 2 * (b * MA * |T|) * (h ^ 2 + ε) := by
      rcases lt_or_ge i L with hiL | hiL
      · refine ⟨0, ?_, by rw [abs_zero]; positivity⟩
        rw [hmem i hi1 hi hiL, D.step, add_zero]
        simp only [Pi.neg_apply, Spec.trapzRule, Finset.sum_apply, Pi.smul_apply, Pi.add_apply]
        congr 1
        refine sum_congr rfl fun j hj => ?_
        have hj' := Finset.mem_range.1 hj
        have h1 : j < L := by omega
        have h2 : j + 1 < L := by omega
        rw [hg]
        simp only [h1, h2, if_true, hE j hj'.le, hE (j + 1) hj']
      · obtain ⟨M, rfl⟩ : ∃ M, L = M + 1 := ⟨L - 1, by omega⟩
        -- the kernel is zero from the last point on
        have hz : ∀ s ∈ Icc 0 T, (M : ℝ) * h ≤ s → κ s = 0 := by
          rcases hcov with hc | hc
          · have h1 : (i : ℝ) * h ≤ (M + 1 - 1 : ℕ) * h := hiT.trans hc
            have h2 : (i : ℝ) ≤ (M + 1 - 1 : ℕ) := le_of_mul_le_mul_right h1 hh
            have h3 : i ≤ M + 1 - 1 := by exact_mod_cast h2
            omega
          · simpa using hc
        have hlast : ∀ a l, |k.kernel.get M a l| ≤ ε := by
          intro a l
          have h1 := D.kernel M (by omega) (hjT M (by omega)) a l
          rwa [hz (M * h) ⟨by positivity, hjT M (by omega)⟩ le_rfl, Matrix.zero_apply, sub_zero] at h1
        obtain ⟨w, hw⟩ : ∃ w, w = ∑ a, e (i * h - M * h) a * k.kernel.get M a l := ⟨_, rfl⟩
        have hwb : |w| ≤ b * MA * ε := by
          rw [hw, mul_assoc]
          refine (abs_sum_le_sum_abs _ _).trans ?_
          refine (sum_le_card_nsmul _ _ (MA * ε) fun a _ => ?_).trans (by simp)
          rw [abs_mul]
          have h1 : (M : ℝ) * h ≤ i * h := by gcongr; omega
          have h2 : (0 : ℝ) ≤ M * h := by positivity
          exact mul_le_mul ((entry_le_norm (Spec.rowMat e (i * h - M * h)) 0 a).trans
            (hMA _ ⟨by linarith, by linarith⟩)) (hlast a l) (abs_nonneg _) hMA0
        have htr : Spec.trapzRule h (fun j => ∑ a, e (i * h - j * h) a * g j a l) i =
            Spec.trapzRule h (fun j => ∑ a, e (i * h - j * h) a * k.kernel.get j a l) M + h / 2 * w := by
          obtain ⟨n, rfl⟩ : ∃ n, i = M + 1 + n := ⟨i - (M + 1), by omega⟩
          unfold Spec.trapzRule
          rw [sum_range_add, sum_range_succ]
          beta_reduce
          have h1 : ∀ j, M < j → g j = 0 := fun j hj => by
            rw [hg]
            simp only [if_neg (by omega : ¬ j < M + 1)]
          have h2 : ∀ j ≤ M, g j = k.kernel.get j := fun j hj => by
            rw [hg]
            simp only [if_pos (by omega : j < M + 1)]
          have h3 : ∑ j ∈ range n, (h / 2) • ((∑ a, e ((M + 1 + n : ℕ) * h - (M + 1 + j : ℕ) * h) a * g (M + 1 + j) a l) +
              ∑ a, e ((M + 1 + n : ℕ) * h - (M + 1 + j + 1 : ℕ) * h) a * g (M + 1 + j + 1) a l) = 0 := by
            refine sum_eq_zero fun j _ => ?_
            rw [h1 _ (by omega), h1 _ (by omega)]
            simp
          rw [h3, add_zero, h1 (M + 1) (by omega), h2 M le_rfl, ← hw]
          simp only [Matrix.zero_apply, mul_zero, sum_const_zero, add_zero, smul_eq_mul]
          congr 1
          refine sum_congr rfl fun j hj => ?_
          have hj' := Finset.mem_range.1 hj
          rw [h2 j (by omega), h2 (j + 1) (by omega)]
        refine ⟨-(h / 2 * w), ?_, ?_⟩
        · have h4 := congrFun (hlate i M hi rfl (by omega)) l
          rw [D.step] at h4
          rw [h4, htr]
          simp only [Pi.neg_apply, Pi.add_apply, Pi.smul_apply, Spec.trapzRule, Finset.sum_apply, smul_eq_mul]
          have h5 : ∑ a, xva.E (start + (i - M)) a * k.kernel.get M a l = w := by
            rw [hw]
            exact sum_congr rfl fun a _ => by rw [hE M (by omega)]
          have h6 : ∀ j ∈ range M, h / 2 * ((∑ a, xva.E (start + (i - j)) a * k.kernel.get j a l) +
              ∑ a, xva.E (start + (i - (j + 1))) a * k.kernel.get (j + 1) a l) =
              h / 2 * ((∑ a, e (i * h - j * h) a * k.kernel.get j a l) +
              ∑ a, e (i * h - (j + 1 : ℕ) * h) a * k.kernel.get (j + 1) a l) := by
            intro j hj
            have hj' := Finset.mem_range.1 hj
            simp only [hE j (by omega), hE (j + 1) (by omega)]
          rw [sum_congr rfl h6, h5]
          ring
        · rw [abs_neg, abs_mul, abs_of_nonneg (by positivity : 0 ≤ h / 2)]
          calc h / 2 * |w| ≤ |T| * (b * MA * ε) := by
                gcongr
                linarith
            _ ≤ |T| * (b * MA * ε) + (|T| * (b * MA * ε) + 2 * (b * MA * |T|) * h ^ 2) := by
                have : 0 ≤ |T| * (b * MA * ε) + 2 * (b * MA * |T|) * h ^ 2 := by positivity
                linarith
            _ = _ := by ring
    obtain ⟨η, hη, hηb⟩ := e7
    have e8 : Spec.memoryInt e κ (i * h) (i * h) l + r.memory i l =
        -(Spec.trapzRule h (fun j => ∑ a, e (i * h - j * h) a * g j a l) i - Spec.memoryInt e κ (i * h) (i * h) l) + η := by
      rw [hη]; ring
    rw [e8, add_mul]
    refine (abs_add_le _ _).trans ?_
    rw [abs_neg]
    exact add_le_add e6 hηb
  rw [e2]
  refine (abs_sub _ _).trans ?_
  rw [abs_neg]
  have : (1 + Q + 2 * (b * MA * |T|)) * (h ^ 2 + ε) = h ^ 2 + ε + (Q + 2 * (b * MA * |T|)) * (h ^ 2 + ε) := by ring
  rw [this]
  have := sq_nonneg h
  linarith

theorem memoryInt_bound {S T : ℝ} {e : ℝ → Fin b → ℝ} {κ : ℝ → Mat ℝ b x} {MA MB : ℝ} (hMA0 : 0 ≤ MA) (hMB0 : 0 ≤ MB)
    (hMA : ∀ t ∈ Icc 0 S, ∀ a, |e t a| ≤ MA) (hMB : ∀ t ∈ Icc 0 T, ∀ a l, |κ t a l| ≤ MB) {u τ : ℝ} (h0 : 0 ≤ τ) (hT : τ ≤ T)
    (hu : τ ≤ u) (hS : u ≤ S) (l : Fin x) : |Spec.memoryInt e κ u τ l| ≤ b * (MA * MB) * |T| := by
  unfold Spec.memoryInt
  have := intervalIntegral.norm_integral_le_of_norm_le_const (a := 0) (b := τ) (C := b * (MA * MB))
    (f := fun s => ∑ a, e (u - s) a * κ s a l) (fun s hs => by
      rw [Set.uIoc_of_le h0] at hs
      rw [Real.norm_eq_abs]
      refine (abs_sum_le_sum_abs _ _).trans ?_
      refine (sum_le_card_nsmul _ _ (MA * MB) fun a _ => ?_).trans (by simp)
      rw [abs_mul]
      exact mul_le_mul (hMA _ ⟨by linarith [hs.2], by linarith [hs.1]⟩ a) (hMB s ⟨hs.1.le, hs.2.trans hT⟩ a l)
        (abs_nonneg _) hMA0)
  rw [Real.norm_eq_abs, sub_zero, abs_of_nonneg h0] at this
  refine this.trans ?_
  have : τ ≤ |T| := hT.trans (le_abs_self T)
  gcongr

/-- Averages of products of nearby series are near. -/
theorem lagAverage_near {len n : ℕ} {left left' : ℕ → Fin o → ℝ} {q q' : ℕ → Fin x → ℝ} {k : Fin o} {l : Fin x}
    {M R B ε : ℝ} (hM : 0 ≤ M) (hε : 0 ≤ ε) (hε1 : ε ≤ 1) (h1 : ∀ t, t + n < len → |left' t k| ≤ M)
    (h2 : ∀ t, t + n < len → |left t k - left' t k| ≤ ε) (h3 : ∀ t, t + n < len → |q' t l| ≤ R)
    (h4 : ∀ t, t + n < len → |q t l - q' t l| ≤ B) (hn : n < len) :
    |Spec.lagAverage len n left q k l - Spec.lagAverage len n left' q' k l| ≤ (M + 1) * B + ε * R := by
  unfold Spec.lagAverage
  have hpos : (0 : ℝ) < ((len - n : ℕ) : ℝ) := by exact_mod_cast (by omega : 0 < len - n)
  rw [← sub_div, ← sum_sub_distrib, abs_div, abs_of_pos hpos, div_le_iff₀ hpos]
  refine (abs_sum_le_sum_abs _ _).trans ?_
  refine (sum_le_card_nsmul _ _ ((M + 1) * B + ε * R) fun t ht => ?_).trans
    (by rw [card_range, nsmul_eq_mul, mul_comm])
  have ht' : t + n < len := by have := Finset.mem_range.1 ht; omega
  have e : left t k * q t l - left' t k * q' t l =
      left t k * (q t l - q' t l) + (left t k - left' t k) * q' t l := by ring
  have hl : |left t k| ≤ M + 1 := by
    calc |left t k| = |left' t k + (left t k - left' t k)| := by rw [add_sub_cancel]
      _ ≤ _ := (abs_add_le _ _).trans (by linarith [h1 t ht', h2 t ht'])
  rw [e]
  refine (abs_add_le _ _).trans ?_
  rw [abs_mul, abs_mul]
  have := h4 t ht'
  have := h2 t ht'
  have := h3 t ht'
  gcongr

/-- **C147**, rectangle methods: the correlation computed by `compute_corrs_w_noise` at the lag `n` is within
`C (dt + ε)` of the average over the starting times `t` of the product of the left observable at `t` with the noise at
`t + n dt` of the dynamics whose memory begins at `t`. -/
theorem C147_corrs_rect {S T M : ℝ} {obs f : ℝ → Fin x → ℝ} {e : ℝ → Fin b → ℝ} {κ : ℝ → Mat ℝ b x} {ψ : ℝ → Fin o → ℝ}
    (hM : ∀ t ∈ Icc 0 S, ∀ l, |obs t l - f t l| ≤ M) (hψ : ∀ t ∈ Icc 0 S, ∀ i, |ψ t i| ≤ M)
    (he : Spec.Lip S (Spec.rowMat e)) (hκ : Spec.Lip T κ) :
    ∃ C : ℝ, ∀ (bf : ℕ) (m : NoiseModel ℝ bf b x) (k : KernelData ℝ b x) (xva : Traj ℝ bf b x) (left : LeftOp ℝ x o)
      (h ε : ℝ) (c : Mat ℝ bf x) (r : Arr ℝ × Arr (Mat ℝ o x)), isRectMethod m.method → 0 < h → 0 ≤ ε → ε ≤ 1 →
      NoiseData S T h ε obs f e κ m k xva 0 k.kernel.len → (xva.len - 1 : ℕ) * h ≤ S → m.forceCoeff = some c →
      (∀ t < xva.len, ∀ i, |left.values (Spec.instantNoise xva.obs xva.Eforce c) t i - ψ (t * h) i| ≤ ε) →
      computeCorrsWNoise m xva left = .ok r →
      ∀ n < r.2.len, n < xva.len → n * h ≤ T → ∀ i l,
        |r.2.get n i l - Spec.lagAverage xva.len n (fun t => ψ (t * h))
          (fun t => Spec.noiseFrom obs f e κ (t * h) (n * h)) i l| ≤ C * (h + ε) := by
  obtain ⟨Q, hQ0, hQ⟩ := rect_memory he hκ
  obtain ⟨MA, hMA0, hMA⟩ := lip_bound he
  obtain ⟨MB, hMB0, hMB⟩ := lip_bound hκ
  refine ⟨(|M| + 1) * (1 + Q) + (|M| + b * (MA * MB) * |T|),
    fun bf m k xva left h ε c r hm hh hε hε1 D hS hc hleft hr n hn hnl hnT i l => ?_⟩
  obtain ⟨-, hlen, hget⟩ := C20_rect hm hc D.kernelSet hr
  rw [hget n hn hnl]
  obtain ⟨c', hc', hforce⟩ := D.force
  obtain rfl : c' = c := by rw [hc] at hc'; simpa using hc'.symm
  have hstep := D.step
  simp only [zero_add] at hstep hforce
  rw [hstep]
  have htS : ∀ t, t < xva.len → (t : ℝ) * h ≤ S := fun t ht =>
    le_trans (by gcongr; omega) hS
  have hn0 : (0 : ℝ) ≤ n * h := by positivity
  refine (lagAverage_near (M := |M|) (R := |M| + b * (MA * MB) * |T|) (B := (1 + Q) * (h + ε)) (ε := ε) (abs_nonneg _)
    hε hε1 (fun t ht => ?_) (fun t ht => hleft t (by omega) i) (fun t ht => ?_) (fun t ht => ?_) hnl).trans ?_
  · exact (hψ _ ⟨by positivity, htS t (by omega)⟩ i).trans (le_abs_self M)
  · have h1 := htS (t + n) ht
    rw [Nat.cast_add, add_mul] at h1
    have h0 : (0 : ℝ) ≤ t * h := by positivity
    unfold Spec.noiseFrom
    refine (abs_add_le _ _).trans (add_le_add ((hM _ ⟨by positivity, h1⟩ l).trans (le_abs_self M)) ?_)
    exact memoryInt_bound hMA0 hMB0 (fun t ht a => (entry_le_norm (Spec.rowMat e t) 0 a).trans (hMA t ht))
      (fun t ht a l => (entry_le_norm (κ t) a l).trans (hMB t ht)) hn0 hnT (by linarith) h1 l
  · have h1 := htS (t + n) ht
    have h1' := h1
    rw [Nat.cast_add, add_mul] at h1'
    have h0 : (0 : ℝ) ≤ t * h := by positivity
    have q := hQ h (t * h + n * h) ε n k.kernel.get hh.le hnT (by linarith) h1' hε
      (fun j hj => D.kernel j (by omega) (le_trans (by gcongr) hnT)) l
    have ho := D.obs (t + n) h1 l
    have hf := hforce (t + n) h1 l
    rw [Nat.cast_add, add_mul] at ho hf
    rw [zero_add] at ho
    have e1 : Spec.rectRule h (Spec.memIntegrand xva.E k.kernel.get (t + n)) n l =
        ∑ j ∈ range n, h * ∑ a, e (t * h + n * h - j * h) a * k.kernel.get j a l := by
      simp only [Spec.rectRule, Spec.memIntegrand, Finset.sum_apply, Pi.smul_apply, smul_eq_mul]
      refine sum_congr rfl fun j hj => ?_
      have hj' := Finset.mem_range.1 hj
      congr 1
      refine sum_congr rfl fun a _ => ?_
      have := D.funs (t + n - j) (le_trans (by gcongr; omega) h1) a
      rw [zero_add] at this
      rw [this, Nat.cast_sub (by omega), Nat.cast_add, sub_mul, add_mul]
    simp only [Pi.add_apply, Spec.noiseFrom, Spec.instantNoise]
    rw [e1, ho]
    have e2 : ∀ A B C D E : ℝ, A - B + C - (A - D + E) = -(B - D) + (C - E) := fun A B C D E => by ring
    rw [e2]
    refine (abs_add_le _ _).trans ?_
    rw [abs_neg, add_mul, one_mul]
    linarith
  · have : 0 ≤ (|M| + b * (MA * MB) * |T|) * h := by positivity
    nlinarith

/-- **C147**, trapezoid methods, with the error `C (dt² + ε)`. -/
theorem C147_corrs_trapz {S T M : ℝ} {obs f : ℝ → Fin x → ℝ} {e e' : ℝ → Fin b → ℝ} {κ κ' : ℝ → Mat ℝ b x}
    {ψ : ℝ → Fin o → ℝ} (hM : ∀ t ∈ Icc 0 S, ∀ l, |obs t l - f t l| ≤ M) (hψ : ∀ t ∈ Icc 0 S, ∀ i, |ψ t i| ≤ M)
    (he : Spec.DerivOn S (Spec.rowMat e) (Spec.rowMat e')) (he' : Spec.Lip S (Spec.rowMat e'))
    (hκ : Spec.DerivOn T κ κ') (hκ' : Spec.Lip T κ') :
    ∃ C : ℝ, ∀ (bf : ℕ) (m : NoiseModel ℝ bf b x) (k : KernelData ℝ b x) (xva : Traj ℝ bf b x) (left : LeftOp ℝ x o)
      (h ε : ℝ) (c : Mat ℝ bf x) (r : Arr ℝ × Arr (Mat ℝ o x)), isTrapzMethod m.method → 0 < h → 0 ≤ ε → ε ≤ 1 →
      NoiseData S T h ε obs f e κ m k xva 0 k.kernel.len → (xva.len - 1 : ℕ) * h ≤ S → m.forceCoeff = some c →
      (∀ t < xva.len, ∀ i, |left.values (Spec.instantNoise xva.obs xva.Eforce c) t i - ψ (t * h) i| ≤ ε) →
      computeCorrsWNoise m xva left = .ok r →
      ∀ n < r.2.len, n < xva.len → n * h ≤ T → ∀ i l,
        |r.2.get n i l - Spec.lagAverage xva.len n (fun t => ψ (t * h))
          (fun t => Spec.noiseFrom obs f e κ (t * h) (n * h)) i l| ≤ C * (h ^ 2 + ε) := by
  obtain ⟨Q, hQ0, hQ⟩ := trapz_memory he he' hκ hκ'
  obtain ⟨MA, hMA0, hMA⟩ := lip_bound (lip_of_deriv he he')
  obtain ⟨MB, hMB0, hMB⟩ := lip_bound (lip_of_deriv hκ hκ')
  refine ⟨(|M| + 1) * (1 + Q) + (|M| + b * (MA * MB) * |T|),
    fun bf m k xva left h ε c r hm hh hε hε1 D hS hc hleft hr n hn hnl hnT i l => ?_⟩
  obtain ⟨-, hlen, hget⟩ := C20_trapz hm hc D.kernelSet hr
  rw [hget n hn hnl]
  obtain ⟨c', hc', hforce⟩ := D.force
  obtain rfl : c' = c := by rw [hc] at hc'; simpa using hc'.symm
  have hstep := D.step
  simp only [zero_add] at hstep hforce
  rw [hstep]
  have htS : ∀ t, t < xva.len → (t : ℝ) * h ≤ S := fun t ht =>
    le_trans (by gcongr; omega) hS
  have hn0 : (0 : ℝ) ≤ n * h := by positivity
  refine (lagAverage_near (M := |M|) (R := |M| + b * (MA * MB) * |T|) (B := (1 + Q) * (h ^ 2 + ε)) (ε := ε) (abs_nonneg _)
    hε hε1 (fun t ht => ?_) (fun t ht => hleft t (by omega) i) (fun t ht => ?_) (fun t ht => ?_) hnl).trans ?_
  · exact (hψ _ ⟨by positivity, htS t (by omega)⟩ i).trans (le_abs_self M)
  · have h1 := htS (t + n) ht
    rw [Nat.cast_add, add_mul] at h1
    have h0 : (0 : ℝ) ≤ t * h := by positivity
    unfold Spec.noiseFrom
    refine (abs_add_le _ _).trans (add_le_add ((hM _ ⟨by positivity, h1⟩ l).trans (le_abs_self M)) ?_)
    exact memoryInt_bound hMA0 hMB0 (fun t ht a => (entry_le_norm (Spec.rowMat e t) 0 a).trans (hMA t ht))
      (fun t ht a l => (entry_le_norm (κ t) a l).trans (hMB t ht)) hn0 hnT (by linarith) h1 l
  · have h1 := htS (t + n) ht
    have h1' := h1
    rw [Nat.cast_add, add_mul] at h1'
    have h0 : (0 : ℝ) ≤ t * h := by positivity
    have q := hQ h (t * h + n * h) ε n k.kernel.get hh.le hnT (by linarith) h1' hε
      (fun j hj => D.kernel j (by omega) (le_trans (by gcongr) hnT)) l
    have ho := D.obs (t + n) h1 l
    have hf := hforce (t + n) h1 l
    rw [Nat.cast_add, add_mul] at ho hf
    rw [zero_add] at ho
    have hE : ∀ j ≤ n, ∀ a, xva.E (t + n - j) a = e (t * h + n * h - j * h) a := by
      intro j hj a
      have := D.funs (t + n - j) (le_trans (by gcongr; omega) h1) a
      rw [zero_add] at this
      rw [this, Nat.cast_sub (by omega), Nat.cast_add, sub_mul, add_mul]
    have e1 : Spec.trapzRule h (Spec.memIntegrand xva.E k.kernel.get (t + n)) n l =
        Spec.trapzRule h (fun j => ∑ a, e (t * h + n * h - j * h) a * k.kernel.get j a l) n := by
      simp only [Spec.trapzRule, Spec.memIntegrand, Finset.sum_apply, Pi.smul_apply, Pi.add_apply]
      refine sum_congr rfl fun j hj => ?_
      have hj' := Finset.mem_range.1 hj
      simp only [hE j hj'.le, hE (j + 1) hj']
    simp only [Pi.add_apply, Spec.noiseFrom, Spec.instantNoise]
    rw [e1, ho]
    have e2 : ∀ A B C D E : ℝ, A - B + C - (A - D + E) = -(B - D) + (C - E) := fun A B C D E => by ring
    rw [e2]
    refine (abs_add_le _ _).trans ?_
    rw [abs_neg, add_mul, one_mul]
    have := sq_nonneg h
    linarith
  · have : 0 ≤ (|M| + b * (MA * MB) * |T|) * h ^ 2 := by positivity
    nlinarith

end

/-! ### Example: `obs(t) = t = -∫_0^t ds + 2 t` -/

namespace TrueNoiseEx

/-- `N + 1` rows at the times `0, 1/N, ..., 1`, with the observable equal to the time. -/
noncomputable def traj (N : ℕ) : Traj ℝ 1 1 1 where
  len := N + 1
  time := fun i => i * (1 / (N : ℝ))
  obs := fun i _ => i * (1 / (N : ℝ))
  Eforce := fun _ _ => 1
  E := fun _ _ => 1
  obsDim := "dim_x"

noncomputable def ker (N : ℕ) : KernelData ℝ 1 1 where
  kernel := ⟨N + 1, fun _ => !![1]⟩
  time := ⟨N + 1, fun i => i * (1 / (N : ℝ))⟩

noncomputable def model (method : String) (N : ℕ) : NoiseModel ℝ 1 1 1 where
  forceCoeff := some 0
  kernel := some (ker N)
  method := some method
  truncInd := N + 1

theorem used (method : String) (N : ℕ) : usedPoints (model method N) (ker N) none = N + 1 := by
  simp [usedPoints, model, ker]

theorem driven : Spec.Driven 1 (fun t _ => t) (fun _ _ => 0) (fun _ (_ : Fin 1) => 1) (fun _ => (!![1] : Mat ℝ 1 1))
    (fun t (_ : Fin 1) => 2 * t) := by
  intro t _ l
  simp [Spec.memoryInt]
  ring

theorem data (method : String) (N : ℕ) :
    NoiseData 1 1 (1 / (N : ℝ)) 0 (fun t _ => t) (fun _ _ => 0) (fun _ (_ : Fin 1) => 1)
      (fun _ => (!![1] : Mat ℝ 1 1)) (model method N) (ker N) (traj N) 0 (N + 1) where
  step := by simp [traj]
  obs := fun i _ l => by simp [traj]
  funs := fun i _ a => rfl
  force := ⟨0, rfl, fun i _ l => by simp⟩
  kernelSet := rfl
  kernel := fun j _ _ a l => by simp [ker]

theorem covers {N : ℕ} (hN : 1 ≤ N) : CoversMemory 1 (1 / (N : ℝ)) (fun _ => (!![1] : Mat ℝ 1 1)) (N + 1) := by
  left
  have : (N : ℝ) ≠ 0 := by exact_mod_cast (by omega : N ≠ 0)
  simp [this]

theorem noise_ok {method : String} (hm : isRectMethod (some method) ∨ isTrapzMethod (some method)) {N : ℕ} (hN : 1 ≤ N) :
    ∃ r, computeNoise (model method N) (traj N) none 0 none = .ok r ∧ r.len = N + 1 := by
  have h1 : ¬ (N + 1 < 2) := by omega
  by_cases hr : isRectMethod (some method)
  · refine ⟨_, by
      simp only [computeNoise, model, traj, ker, Traj.isel, bind, Except.bind, pure, Except.pure, throw, throwThe,
        MonadExceptOf.throw, hr, h1, Option.getD, min_self, Nat.sub_zero, if_true, if_false, Nat.add_one_ne_zero]; rfl, rfl⟩
  · have ht := hm.resolve_left hr
    refine ⟨_, by
      simp only [computeNoise, model, traj, ker, Traj.isel, bind, Except.bind, pure, Except.pure, throw, throwThe,
        MonadExceptOf.throw, hr, ht, h1, Option.getD, min_self, Nat.sub_zero, if_true, if_false, Nat.add_one_ne_zero]; rfl, rfl⟩

theorem corrs_ok {method : String} (hm : isRectMethod (some method) ∨ isTrapzMethod (some method)) {N : ℕ} (hN : 1 ≤ N) :
    ∃ r, computeCorrsWNoise (model method N) (traj N) (LeftOp.noise rfl : LeftOp ℝ 1 1) = .ok r ∧ N ≤ r.2.len := by
  have h1 : ¬ (N + 1 < 2) := by omega
  by_cases hr : isRectMethod (some method)
  · refine ⟨_, by
      simp only [computeCorrsWNoise, model, traj, ker, bind, Except.bind, pure, Except.pure, throw, throwThe,
        MonadExceptOf.throw, hr, h1, if_true, if_false]; rfl, by simp⟩
  · have ht := hm.resolve_left hr
    refine ⟨_, by
      simp only [computeCorrsWNoise, model, traj, ker, bind, Except.bind, pure, Except.pure, throw, throwThe,
        MonadExceptOf.throw, hr, ht, h1, if_true, if_false]; rfl, by simp⟩

theorem grid {N i : ℕ} (hN : 1 ≤ N) (hi : i < N + 1) : (i : ℝ) * (1 / (N : ℝ)) ≤ 1 := by
  have : (0 : ℝ) < N := by exact_mod_cast hN
  rw [mul_one_div, div_le_one this]
  exact_mod_cast (by omega : i ≤ N)

theorem lip_row (T : ℝ) : Spec.Lip T (Spec.rowMat fun _ (_ : Fin 1) => (1 : ℝ)) :=
  ⟨0, fun s _ t _ i j => by simp [Spec.rowMat]⟩

theorem deriv_row (T : ℝ) : Spec.DerivOn T (Spec.rowMat fun _ (_ : Fin 1) => (1 : ℝ)) (Spec.rowMat fun _ _ => 0) :=
  fun _ _ _ _ => hasDerivWithinAt_const _ _ _

theorem lip_row' (T : ℝ) : Spec.Lip T (Spec.rowMat fun _ (_ : Fin 1) => (0 : ℝ)) :=
  ⟨0, fun s _ t _ i j => by simp [Spec.rowMat]⟩

theorem deriv_ker (T : ℝ) : Spec.DerivOn T (fun _ => (!![1] : Mat ℝ 1 1)) (fun _ => 0) :=
  fun _ _ _ _ => hasDerivWithinAt_const _ _ _

/-- The noise computed with the rectangle rule converges to `2 t`. -/
example : ∃ C : ℝ, ∀ N : ℕ, 1 ≤ N → ∃ r, computeNoise (model "rect" N) (traj N) none 0 none = .ok r ∧ r.len = N + 1 ∧
    ∀ i < N + 1, |r.noise i 0 - 2 * (i * (1 / (N : ℝ)))| ≤ C * (1 / N + 0) := by
  obtain ⟨C, hC⟩ := C146_noise_rect driven (lip_row 1) (lip_const 1 _)
  refine ⟨C, fun N hN => ?_⟩
  obtain ⟨r, hr, hl⟩ := noise_ok (method := "rect") (by decide) hN
  refine ⟨r, hr, hl, fun i hi => ?_⟩
  have hu := used "rect" N
  exact hC 1 _ (ker N) _ none 0 none _ 0 r (by show isRectMethod (some "rect"); decide) (Or.inl rfl)
    (by positivity) le_rfl (hu ▸ data "rect" N) (hu ▸ covers hN) hr i (by omega) (grid hN hi) 0

example : ∃ C : ℝ, ∀ N : ℕ, 1 ≤ N → ∃ r, computeNoise (model "trapz" N) (traj N) none 0 none = .ok r ∧ r.len = N + 1 ∧
    ∀ i < N + 1, |r.noise i 0 - 2 * (i * (1 / (N : ℝ)))| ≤ C * ((1 / (N : ℝ)) ^ 2 + 0) := by
  obtain ⟨C, hC⟩ := C146_noise_trapz driven (deriv_row 1) (lip_row' 1) (deriv_ker 1) (lip_const 1 0)
  refine ⟨C, fun N hN => ?_⟩
  obtain ⟨r, hr, hl⟩ := noise_ok (method := "trapz") (by decide) hN
  refine ⟨r, hr, hl, fun i hi => ?_⟩
  have hu := used "trapz" N
  exact hC 1 _ (ker N) _ none 0 none _ 0 r (by show isTrapzMethod (some "trapz"); decide) (Or.inl rfl)
    (by positivity) le_rfl (hu ▸ data "trapz" N) (hu ▸ covers hN) hr i (by omega) (grid hN hi) 0

theorem left_ok (N : ℕ) : ∀ t < (traj N).len, ∀ i, |(LeftOp.noise rfl : LeftOp ℝ 1 1).values
    (Spec.instantNoise (traj N).obs (traj N).Eforce (0 : Mat ℝ 1 1)) t i - (t * (1 / (N : ℝ)))| ≤ 0 := by
  intro t _ i
  simp [LeftOp.values, Spec.instantNoise, traj]

theorem bounded : ∀ t ∈ Icc (0 : ℝ) 1, ∀ _ : Fin 1, |t - 0| ≤ 1 := fun t ht _ => by
  rw [sub_zero, abs_of_nonneg ht.1]
  exact ht.2

example : ∃ C : ℝ, ∀ N : ℕ, 1 ≤ N → ∃ r,
    computeCorrsWNoise (model "rect" N) (traj N) (LeftOp.noise rfl : LeftOp ℝ 1 1) = .ok r ∧ N ≤ r.2.len ∧
    ∀ n < r.2.len, n < N + 1 → |r.2.get n 0 0 - Spec.lagAverage (N + 1) n (fun t _ => t * (1 / (N : ℝ)))
      (fun t => Spec.noiseFrom (fun t _ => t) (fun _ _ => 0) (fun _ (_ : Fin 1) => 1) (fun _ => (!![1] : Mat ℝ 1 1))
        (t * (1 / (N : ℝ))) (n * (1 / (N : ℝ)))) (0 : Fin 1) (0 : Fin 1)| ≤ C * (1 / N + 0) := by
  obtain ⟨C, hC⟩ := C147_corrs_rect (S := 1) (T := 1) (M := 1) (ψ := fun t (_ : Fin 1) => t) bounded
    (fun t ht i => by simpa using bounded t ht i) (lip_row 1) (lip_const 1 (!![1] : Mat ℝ 1 1))
  refine ⟨C, fun N hN => ?_⟩
  obtain ⟨r, hr, hl⟩ := corrs_ok (method := "rect") (by decide) hN
  refine ⟨r, hr, hl, fun n hn hn' => ?_⟩
  exact hC 1 _ (ker N) _ _ _ 0 0 r (by show isRectMethod (some "rect"); decide) (by positivity) le_rfl zero_le_one (data "rect" N)
    (grid hN (by simp [traj])) rfl (left_ok N) hr n hn hn' (grid hN hn') 0 0

example : ∃ C : ℝ, ∀ N : ℕ, 1 ≤ N → ∃ r,
    computeCorrsWNoise (model "trapz" N) (traj N) (LeftOp.noise rfl : LeftOp ℝ 1 1) = .ok r ∧ N ≤ r.2.len ∧
    ∀ n < r.2.len, n < N + 1 → |r.2.get n 0 0 - Spec.lagAverage (N + 1) n (fun t _ => t * (1 / (N : ℝ)))
      (fun t => Spec.noiseFrom (fun t _ => t) (fun _ _ => 0) (fun _ (_ : Fin 1) => 1) (fun _ => (!![1] : Mat ℝ 1 1))
        (t * (1 / (N : ℝ))) (n * (1 / (N : ℝ)))) (0 : Fin 1) (0 : Fin 1)| ≤ C * ((1 / (N : ℝ)) ^ 2 + 0) := by
  obtain ⟨C, hC⟩ := C147_corrs_trapz (S := 1) (T := 1) (M := 1) (ψ := fun t (_ : Fin 1) => t) bounded
    (fun t ht i => by simpa using bounded t ht i) (deriv_row 1) (lip_row' 1) (deriv_ker 1) (lip_const 1 0)
  refine ⟨C, fun N hN => ?_⟩
  obtain ⟨r, hr, hl⟩ := corrs_ok (method := "trapz") (by decide) hN
  refine ⟨r, hr, hl, fun n hn hn' => ?_⟩
  exact hC 1 _ (ker N) _ _ _ 0 0 r (by show isTrapzMethod (some "trapz"); decide) (by positivity) le_rfl zero_le_one (data "trapz" N)
    (grid hN (by simp [traj])) rfl (left_ok N) hr n hn hn' (grid hN hn') 0 0

end TrueNoiseEx

end Verif
