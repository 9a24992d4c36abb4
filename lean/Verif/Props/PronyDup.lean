import Verif.Props.PronyExact
import Verif.Lemmas.PronyDup

/-!
# C92 and C93 with negative eigenvalues
-/

namespace Verif

open Finset Matrix

/-- **C93.** When some eigenvalue is not real, the negative ones are treated as intended: the exponential of the matrix
has the powers of `J` in its first block. The eigenvectors of negative eigenvalues are real, which is what
`np.linalg.eig` returns. -/
theorem C93_negative_partial {N : ℕ} (E : EigData N) (J : Mat ℝ N N) (hE : E.IsEig J) {dt : ℝ} (hdt : dt ≠ 0) (remove : Bool)
    (hlam : ∀ k, 0 < (E.lamb k).re ∨ 1e-15 ≤ |(E.lamb k).im| ∨ (E.lamb k).re < 0 ∧ (E.lamb k).im = 0 ∧ ∀ i, (E.vect i k).im = 0)
    (hcx : ∃ k, (E.lamb k).im ≠ 0) (hrem : remove = true → ∀ k, ‖E.lamb k‖ ≤ 1) :
    ∃ (m : ℕ) (A : Mat ℝ m m) (hm : N ≤ m), cleanEigenvalues E dt remove = .ok ⟨m, A⟩ ∧
      ∀ (k : ℕ) (i j : Fin N), (NormedSpace.exp ((k * dt : ℝ) • A) : Mat ℝ m m) (Fin.castLE hm i) (Fin.castLE hm j) = (J ^ k) i j :=
  clean_spec_dup E J hE hdt remove hlam hcx hrem

/-- **C92** with negative eigenvalues, when some eigenvalue is not real. -/
theorem C92_interpolates_negative (data : Arr ℝ) (hd : 1 ≤ data.len) (h0 : data.get 0 ≠ 0) (dt : ℝ) (hdt : dt ≠ 0)
    (svd : (n : ℕ) → Mat ℝ (n + 1) (n + 1) → HermSvd n) (eig : (N : ℕ) → Mat ℝ N N → EigData N) (eps t : ℝ) (remove : Bool)
    (n : ℕ) (hn : n = hankelSize data.len) (H : Mat ℝ (n + 1) (n + 1)) (hH : H = fun i j => data.get (i.val + j.val) / data.get 0)
    (hS : (svd n H).IsSvd H) (hsep : ∀ k, (svd n H).s k ≤ t → (svd n H).s k = 0) (hrank : ∃ k, (svd n H).s k ≤ t)
    (ht : 0 < t) (ht1 : t ≤ 1) (L : Ldl n)
    (hL : ldlHankel ⟨data.len, fun i => data.get i / data.get 0⟩ n (svd n) eps (some t) none = .ok L)
    (hsize : L.size = (univ.filter fun k => (svd n H).s k ≠ 0).card) (hlast : ∀ a, L.dlu a (Fin.last n) = 0)
    (E : EigData L.size) (hEe : E = eig L.size L.jacobi) (hE : E.IsEig L.jacobi)
    (hlam : ∀ k, 0 < (E.lamb k).re ∨ 1e-15 ≤ |(E.lamb k).im| ∨ (E.lamb k).re < 0 ∧ (E.lamb k).im = 0 ∧ ∀ i, (E.vect i k).im = 0)
    (hcx : ∃ k, (E.lamb k).im ≠ 0) (hrem : remove = true → ∀ k, ‖E.lamb k‖ ≤ 1) :
    ∃ (m : ℕ) (A : Mat ℝ m m), pronyFit data dt svd eig eps (some t) none remove = .ok (data.get 0, ⟨m, A⟩) ∧
      ∀ ks : List ℕ, ks.length ≠ 1 → (∀ k ∈ ks, k ≤ 2 * n) →
        pronySeriesEval (ks.map fun k : ℕ => (k : ℝ) * dt) (data.get 0) m A = .ok (ks.map data.get) := by
  subst hn
  subst hH
  obtain ⟨hpos, hmom⟩ := C91_moments ⟨data.len, fun i => data.get i / data.get 0⟩ _ (svd _) eps t L hS hsep hrank ht ht1
    (div_self h0) hL hsize hlast
  obtain ⟨m, A, hm, hclean, hA⟩ := C93_negative_partial E L.jacobi hE hdt remove hlam hcx hrem
  refine ⟨m, A, ?_, fun ks h1 hks => ?_⟩
  · rw [pronyFit, if_neg (by omega)]
    simp only [jacobiReduced, hL, Except.map, ← hEe, hclean]
  · have hm0 : 0 < m := by omega
    rw [pronySeriesEval, if_neg (by simpa using h1)]
    rw [mapM_of_ok _ (fun t => data.get 0 * (NormedSpace.exp (t • A) : Mat ℝ m m) ⟨0, hm0⟩ ⟨0, hm0⟩) _
      (fun t _ => by rw [pronyTerm, dif_pos hm0])]
    rw [List.map_map]
    congr 1
    refine List.map_congr_left fun k hk => ?_
    show data.get 0 * _ = data.get k
    have h2 := hA k ⟨0, hpos⟩ ⟨0, hpos⟩
    rw [hmom k (hks k hk)] at h2
    rw [show (NormedSpace.exp ((k * dt : ℝ) • A) : Mat ℝ m m) ⟨0, hm0⟩ ⟨0, hm0⟩ = data.get k / data.get 0 from h2]
    field_simp

/-! ## An example: the series 3, -1, -1, -1, 3, -1, -1, of the eigenvalues -1, i and -i -/

namespace PronyExample2

/-- The data. -/
noncomputable def data : Arr ℝ := ⟨7, fun i => if i % 4 = 0 then 3 else -1⟩

/-- Its Hankel matrix. -/
noncomputable def H : Mat ℝ 4 4 := fun i j => data.get (i.val + j.val) / data.get 0

theorem H_eq : H = !![1, -(1 / 3), -(1 / 3), -(1 / 3); -(1 / 3), -(1 / 3), -(1 / 3), 1; -(1 / 3), -(1 / 3), 1, -(1 / 3);
    -(1 / 3), 1, -(1 / 3), -(1 / 3)] := by
  ext i j
  fin_cases i <;> fin_cases j <;> norm_num [H, data]

/-- Its singular value decomposition. -/
noncomputable def S : HermSvd 3 := ⟨!![1 / 2, 1 / √2, 0, 1 / 2; -(1 / 2), 0, 1 / √2, 1 / 2; 1 / 2, -(1 / √2), 0, 1 / 2;
  -(1 / 2), 0, -(1 / √2), 1 / 2], ![4 / 3, 4 / 3, 4 / 3, 0], ![1, 1, -1, 0]⟩

theorem sqrt2 : (√2)⁻¹ * (√2)⁻¹ = (1 / 2 : ℝ) := by
  rw [← mul_inv, Real.mul_self_sqrt (by norm_num)]; norm_num

theorem S_svd : S.IsSvd H where
  orth := by
    have h := sqrt2
    ext i j
    fin_cases i <;> fin_cases j <;> simp [S, Matrix.mul_apply, Fin.sum_univ_four] <;> linarith [h]
  nonneg := by intro k; fin_cases k <;> norm_num [S]
  anti := by
    intro a b hab
    fin_cases a <;> fin_cases b <;> simp [S] at hab ⊢ <;> norm_num
  sgn := by intro k; fin_cases k <;> simp [S]
  eq := by
    have h := sqrt2
    rw [H_eq]
    intro i j
    fin_cases i <;> fin_cases j <;> simp [S, Fin.sum_univ_four] <;> linarith [h]

/-- The singular value decompositions. -/
noncomputable def svd : (n : ℕ) → Mat ℝ (n + 1) (n + 1) → HermSvd n
  | 3, _ => S
  | _, _ => ⟨0, 0, 0⟩

theorem rank' : (univ.filter fun k => (1 / 10 : ℝ) < S.s k) = {0, 1, 2} := by
  ext k; fin_cases k <;> simp [S, Fin.ext_iff] <;> norm_num

theorem rank : (univ.filter fun k => S.s k ≠ 0) = {0, 1, 2} := by
  ext k; fin_cases k <;> simp [S, Fin.ext_iff]

theorem sep (k : Fin 4) (h : S.s k ≤ 1 / 10) : S.s k = 0 := by
  fin_cases k
  · norm_num [S] at h
  · norm_num [S] at h
  · norm_num [S] at h
  · simp [S]

theorem keep (eps : ℝ) : pronyKeep S eps (some (1 / 10)) none = .ok (3, 1 / 10) := by
  rw [pronyKeep_eq eps ⟨3, by simp [S]⟩, rank']; rfl

/-- The vectors, before they are normalised. -/
noncomputable def us : List (Fin 4 → ℝ) := [![1, 0, 0, 0], ![1 / 3, 1, 0, 0], ![0, -1, 1, 0]]

theorem phi_eq (u v : Fin 4 → ℝ) : phi H u v = u 0 * (v 0 - (v 1 + v 2 + v 3) / 3) + u 1 * (v 3 - (v 0 + v 1 + v 2) / 3) +
    u 2 * (v 2 - (v 0 + v 1 + v 3) / 3) + u 3 * (v 1 - (v 0 + v 2 + v 3) / 3) := by
  rw [phi, H_eq]
  simp [Fin.sum_univ_four]
  ring

theorem p0 : phi H ![1, 0, 0, 0] ![1, 0, 0, 0] = 1 := by simp [phi_eq]

theorem p1 : phi H ![1 / 3, 1, 0, 0] ![1 / 3, 1, 0, 0] = -(4 / 9) := by simp [phi_eq]; norm_num

theorem p2 : phi H ![0, -1, 1, 0] ![0, -1, 1, 0] = 4 / 3 := by simp [phi_eq]; norm_num

theorem loop : ldlLoop H 3 (1 / 10) (List.finRange 4) [] = .ok us := by
  have hr : List.finRange 4 = [0, 1, 2, 3] := by decide
  have s0 : (Pi.single 0 1 : Fin 4 → ℝ) = ![1, 0, 0, 0] := by ext i; fin_cases i <;> simp
  have s1 : (Pi.single 1 1 : Fin 4 → ℝ) = ![0, 1, 0, 0] := by ext i; fin_cases i <;> simp
  have s2 : (Pi.single 2 1 : Fin 4 → ℝ) = ![0, 0, 1, 0] := by ext i; fin_cases i <;> simp
  have o0 : orthogonalise H [] (Pi.single 0 1) = ![1, 0, 0, 0] := s0
  have o1 : orthogonalise H [![1, 0, 0, 0]] (Pi.single 1 1) = ![1 / 3, 1, 0, 0] := by
    rw [s1]
    simp only [orthogonalise, List.foldl, phi_eq]
    ext i; fin_cases i <;> simp
  have o2 : orthogonalise H [![1, 0, 0, 0], ![1 / 3, 1, 0, 0]] (Pi.single 2 1) = ![0, -1, 1, 0] := by
    rw [s2]
    simp only [orthogonalise, List.foldl, phi_eq]
    ext i; fin_cases i <;> simp <;> norm_num
  rw [hr]
  simp only [ldlLoop, o0, List.nil_append, List.length_nil, List.length_cons, o1, List.cons_append, o2, p0, p1, p2, abs_neg]
  norm_num [us]

/-- The vectors. -/
noncomputable def L : Ldl 3 := ⟨3, ![![1, 0, 0, 0], ![1 / 2, 3 / 2, 0, 0], ![0, -(√3 / 2), √3 / 2, 0]], ![1, -1, 1], H⟩

theorem ldl (eps : ℝ) : ldlHankel ⟨data.len, fun i => data.get i / data.get 0⟩ 3 (svd 3) eps (some (1 / 10)) none = .ok L := by
  have hf : S.filtered 3 = H := by
    have := HermSvd.filtered_eq S_svd sep
    simp only [rank'] at this
    exact this
  rw [ldlHankel_eq _ _ (svd 3) eps (some (1 / 10)) none (by simp [data]) (keep eps) (us := us)
    (show ldlLoop (S.filtered 3) 3 (1 / 10) _ _ = _ by rw [hf]; exact loop)]
  rw [show (svd 3 fun i j => hankelMat (fun i => data.get i / data.get 0) 3 i j).filtered 3 = H from hf]
  simp only [ldlOut]
  rw [if_neg (by simp [us])]
  congr 1
  show (⟨3, _, _, _⟩ : Ldl 3) = ⟨3, _, _, _⟩
  have q1 : √(4 / 9 : ℝ) = 2 / 3 := by
    rw [show (4 / 9 : ℝ) = (2 / 3) ^ 2 by norm_num, Real.sqrt_sq (by norm_num)]
  have q2 : √(4 / 3 : ℝ) = 2 / √3 := by
    rw [show (4 / 3 : ℝ) = 2 ^ 2 / 3 by norm_num, Real.sqrt_div (by norm_num), Real.sqrt_sq (by norm_num)]
  congr 1
  · funext (a : Fin 3)
    fin_cases a
    · show (1 / √|phi H ![1, 0, 0, 0] ![1, 0, 0, 0]|) • (![1, 0, 0, 0] : Fin 4 → ℝ) = ![1, 0, 0, 0]
      rw [p0]; simp
    · show (1 / √|phi H ![1 / 3, 1, 0, 0] ![1 / 3, 1, 0, 0]|) • (![1 / 3, 1, 0, 0] : Fin 4 → ℝ) = ![1 / 2, 3 / 2, 0, 0]
      rw [p1, abs_neg, abs_of_pos (by norm_num), q1]
      ext i; fin_cases i <;> simp
      norm_num
    · show (1 / √|phi H ![0, -1, 1, 0] ![0, -1, 1, 0]|) • (![0, -1, 1, 0] : Fin 4 → ℝ) = ![0, -(√3 / 2), √3 / 2, 0]
      rw [p2, abs_of_pos (by norm_num), q2]
      ext i; fin_cases i <;> simp
  · funext (a : Fin 3)
    fin_cases a
    · show ((SignType.sign (phi H ![1, 0, 0, 0] ![1, 0, 0, 0]) : SignType) : ℝ) = 1
      rw [p0]; simp
    · show ((SignType.sign (phi H ![1 / 3, 1, 0, 0] ![1 / 3, 1, 0, 0]) : SignType) : ℝ) = -1
      rw [p1, sign_neg (by norm_num)]; simp
    · show ((SignType.sign (phi H ![0, -1, 1, 0] ![0, -1, 1, 0]) : SignType) : ℝ) = 1
      rw [p2, sign_pos (by norm_num)]; simp

theorem sqrt3 : √3 * √3 = (3 : ℝ) := Real.mul_self_sqrt (by norm_num)

theorem jacobi : L.jacobi = !![-(1 / 3), 2 / 3, 0; -(2 / 3), 4 / 3, √3; 0, -√3, -2] := by
  have h := sqrt3
  have hs : H * shiftMat 3 = !![-(1 / 3), -(1 / 3), -(1 / 3), 0; -(1 / 3), -(1 / 3), 1, 0; -(1 / 3), 1, -(1 / 3), 0; 1, -(1 / 3), -(1 / 3), 0] := by
    rw [H_eq]
    ext i j
    fin_cases i <;> fin_cases j <;> simp [Matrix.mul_apply, shiftMat, Fin.sum_univ_four]
  have : ∀ D : Matrix (Fin 3) (Fin 4) ℝ, D = !![1, 0, 0, 0; 1 / 2, 3 / 2, 0, 0; 0, -(√3 / 2), √3 / 2, 0] → ∀ M : Mat ℝ 4 4, M = H * shiftMat 3 →
      ∀ g : Fin 3 → ℝ, g = ![1, -1, 1] → D * M * Dᵀ * diagonal g = !![-(1 / 3), 2 / 3, 0; -(2 / 3), 4 / 3, √3; 0, -√3, -2] := by
    rintro D rfl M rfl g rfl
    rw [hs]
    ext a b
    rw [mul_diagonal]
    fin_cases a <;> fin_cases b <;> simp [Matrix.mul_apply, Fin.sum_univ_four] <;> nlinarith [h]
  exact this _ rfl _ rfl _ rfl

/-- The eigenvalues and eigenvectors. -/
noncomputable def E : EigData 3 := ⟨![-1, Complex.I, -Complex.I],
  !![1, 2, 2; -1, 1 + 3 * Complex.I, 1 - 3 * Complex.I; √3, -√3 * (1 + Complex.I), -√3 * (1 - Complex.I)]⟩

theorem isEig : E.IsEig L.jacobi := by
  have h : (√3 : ℂ) * √3 = 3 := by exact_mod_cast sqrt3
  have hI := Complex.I_mul_I
  have : ∀ J : Mat ℝ 3 3, J = !![-(1 / 3), 2 / 3, 0; -(2 / 3), 4 / 3, √3; 0, -√3, -2] → E.IsEig J := by
    rintro J rfl
    refine ⟨?_, ?_⟩
    · ext i j
      fin_cases i <;> fin_cases j <;> simp [E, Matrix.mul_apply, Fin.sum_univ_three] <;>
        first
        | ring1
        | linear_combination h
        | linear_combination (-Complex.I - 1) * h - 3 * hI
        | linear_combination (Complex.I - 1) * h - 3 * hI
        | linear_combination (√3 : ℂ) * hI
    · rw [isUnit_iff_ne_zero, det_fin_three]
      simp only [E, of_apply, cons_val', cons_val_zero, cons_val_one, Matrix.cons_val]
      have h3 : (√3 : ℂ) ≠ 0 := by
        intro h0; rw [h0] at h; norm_num at h
      have : -12 * Complex.I * √3 ≠ 0 := by simp [h3]
      convert this using 1
      ring
  exact this L.jacobi jacobi

theorem lam (k : Fin 3) : 0 < (E.lamb k).re ∨ 1e-15 ≤ |(E.lamb k).im| ∨
    (E.lamb k).re < 0 ∧ (E.lamb k).im = 0 ∧ ∀ i, (E.vect i k).im = 0 := by
  fin_cases k
  · refine .inr (.inr ⟨by simp [E], by simp [E], fun i => ?_⟩)
    fin_cases i <;> simp [E]
  · exact .inr (.inl (by simp [E]; norm_num))
  · exact .inr (.inl (by simp [E]; norm_num))

theorem norm_le (k : Fin 3) : ‖E.lamb k‖ ≤ 1 := by fin_cases k <;> simp [E]

/-- What `np.linalg.eig` returns. -/
noncomputable def eig : (N : ℕ) → Mat ℝ N N → EigData N
  | 3, _ => E
  | _, _ => ⟨0, 0⟩

example := C93_negative_partial E L.jacobi isEig (dt := 1 / 2) (by norm_num) true lam ⟨1, by simp [E]⟩ (fun _ => norm_le)

example := C92_interpolates_negative data (by simp [data]) (by simp [data]) (1 / 2) (by norm_num) svd eig 0 (1 / 10) true 3 rfl H rfl S_svd sep
  ⟨3, by simp [svd, S]⟩ (by norm_num) (by norm_num) L (ldl 0) (by show 3 = (univ.filter fun k => S.s k ≠ 0).card; rw [rank]; rfl)
  (fun (a : Fin 3) => by fin_cases a <;> simp [L]) E rfl isEig lam ⟨(1 : Fin 3), by simp [E]⟩ (fun _ => norm_le)

end PronyExample2

end Verif
