import Verif.Model.Ide
import Verif.Model.Noise

/-!
# A second model of `fkernel.f90`, with every access to an array checked

The model in `FKernel.lean`, `Noise.lean` and `Ide.lean` takes arrays as total functions. Here an array has bounds and elements that may not be
defined yet, and every access is checked as `-fcheck=bounds` would do, and also for undefined elements. Only the axis of time is checked: the other
axes are used as a whole (`:`) or in loops over their whole length, which the types `Fin` express. Exact arithmetic.
-/

namespace Verif

/-- Ways in which a Fortran program can go wrong. -/
inductive Fault
  /-- An element or a section outside of the bounds. -/
  | bounds
  /-- The value of an element that has not been assigned is used. -/
  | undefined
  /-- The shapes of an argument and of the declaration, or of the two sides of an assignment, differ. -/
  | shape
  /-- `stop`. -/
  | stop
  deriving DecidableEq, Repr

/-- An array over the indices `lo:hi`. -/
structure FArr (A : Type*) where
  lo : ℤ
  hi : ℤ
  val : ℤ → Option A

namespace FArr

variable {A : Type*}

/-- An array that has just been declared. -/
def undef (lo hi : ℤ) : FArr A := ⟨lo, hi, fun _ => none⟩

/-- An array `0:hi` with all elements defined. -/
def full (hi : ℤ) (f : ℕ → A) : FArr A := ⟨0, hi, fun i => if 0 ≤ i then some (f i.toNat) else none⟩

/-- `a(i)` in an expression. -/
def get (a : FArr A) (i : ℤ) : Except Fault A :=
  if a.lo ≤ i ∧ i ≤ a.hi then
    match a.val i with
    | some x => .ok x
    | none => .error .undefined
  else .error .bounds

/-- `a(i) = x`. -/
def set (a : FArr A) (i : ℤ) (x : A) : Except Fault (FArr A) :=
  if a.lo ≤ i ∧ i ≤ a.hi then .ok { a with val := Function.update a.val i (some x) } else .error .bounds

/-- `a(i:j)` as an argument that is declared with `0:n`. A section without elements may have any bounds. Elements that are not defined may be
passed as long as they are not used. -/
def pass (a : FArr A) (i j n : ℤ) : Except Fault (FArr A) :=
  if i ≤ j ∧ ¬ (a.lo ≤ i ∧ j ≤ a.hi) then .error .bounds
  else if max (j - i + 1) 0 ≠ max (n + 1) 0 then .error .shape
  else .ok ⟨0, n, fun m => a.val (i + m)⟩

/-- `a(i:j)` in an expression: the number of elements and the elements. -/
def sec [Zero A] (a : FArr A) (i j : ℤ) : Except Fault (ℕ × (ℕ → A)) :=
  if i ≤ j ∧ ¬ (a.lo ≤ i ∧ j ≤ a.hi) then .error .bounds
  else if ∀ m < (j - i + 1).toNat, (a.val (i + m)).isSome then .ok ((j - i + 1).toNat, fun m => (a.val (i + m)).getD 0)
  else .error .undefined

/-- `a(i:j) = x` for an expression with `n` elements. -/
def setSec (a : FArr A) (i j : ℤ) (n : ℕ) (x : ℕ → A) : Except Fault (FArr A) :=
  if i ≤ j ∧ ¬ (a.lo ≤ i ∧ j ≤ a.hi) then .error .bounds
  else if (j - i + 1).toNat ≠ n then .error .shape
  else .ok { a with val := fun t => if i ≤ t ∧ t ≤ j then some (x (t - i).toNat) else a.val t }

end FArr

/-- `do i = lo, hi-1`. -/
def doLoop {σ : Type*} (lo hi : ℕ) (body : ℕ → σ → Except Fault σ) (s : σ) : Except Fault σ :=
  (List.range' lo (hi - lo)).foldlM (fun s i => body i s) s

/-- `do i = lo, hi-1, 2`. -/
def doLoop2 {σ : Type*} (lo hi : ℕ) (body : ℕ → σ → Except Fault σ) (s : σ) : Except Fault σ :=
  (List.range' lo ((hi - lo + 1) / 2) 2).foldlM (fun s i => body i s) s

namespace Checked

variable {K : Type*} [Field K] {o b x : ℕ}

/-- fkernel.f90:12-30 `inv`. -/
def inv [DecidableEq K] {n : ℕ} (A : Mat K n n) : Except Fault (Mat K n n) :=
  if A.det = 0 then .error .stop else .ok (A.det⁻¹ • A.adjugate)

/-- fkernel.f90:34-46 `rect_integral`. `solve_ide_rect` may call it with `n = -1`. -/
def rectIntegral (dt : K) (n : ℤ) (B : FArr (Mat K o b)) (ker : FArr (Mat K b x)) : Except Fault (Mat K o x) :=
  doLoop 0 n.toNat (fun j res => do return res + dt • ((← B.get (n - j)) * (← ker.get j))) 0

/-- fkernel.f90:49-61 `midpoint_integral`. -/
def midpointIntegral (dt : K) (n : ℕ) (B : FArr (Mat K o b)) (ker : FArr (Mat K b x)) : Except Fault (Mat K o x) :=
  doLoop 0 n (fun j res => do return res + dt • ((← B.get (2 * ((n : ℤ) - j))) * (← ker.get j))) 0

/-- fkernel.f90:65-77 `trapz_integral`. -/
def trapzIntegral (dt : K) (n : ℕ) (B : FArr (Mat K o b)) (ker : FArr (Mat K b x)) : Except Fault (Mat K o x) := do
  let res := ((1 / 2 : K) * dt) • ((← B.get n) * (← ker.get 0))
  doLoop 1 n (fun j res => do return res + dt • ((← B.get ((n : ℤ) - j)) * (← ker.get j))) res

/-- fkernel.f90:80-105 `simpson_integral`. -/
def simpsonIntegral (dt : K) (n : ℕ) (B : FArr (Mat K o b)) (ker : FArr (Mat K b x)) : Except Fault (Mat K o x) := do
  let h := dt / 3
  let start : Mat K o x × ℕ ← (
    if n % 2 = 1 then do
      return (((1 / 2 : K) * dt) • ((← B.get n) * (← ker.get 0)) + ((1 / 2 : K) * dt + h) • ((← B.get ((n : ℤ) - 1)) * (← ker.get 1)), 2)
    else do return (h • ((← B.get n) * (← ker.get 0)), 1))
  let res ← doLoop2 start.2 (n - 1) (fun j res => do
    return res + (4 * h) • ((← B.get ((n : ℤ) - j)) * (← ker.get j)) + (2 * h) • ((← B.get ((n : ℤ) - j - 1)) * (← ker.get (j + 1)))) start.1
  return res + (4 * h) • ((← B.get 1) * (← ker.get ((n : ℤ) - 1)))

section
variable [DecidableEq K]

/-- fkernel.f90:108-130 `kernel_first_kind_rect`; `L` is `lenTraj`. -/
def firstKindRect (L : ℕ) (B : FArr (Mat K b b)) (DxB : FArr (Mat K b x)) (dt : K) : Except Fault (FArr (Mat K b x)) := do
  let invB0 ← inv (dt • (← B.get 1))
  let ker ← (FArr.undef 0 L).set 0 ((-1 : K) • (invB0 * (← DxB.get 1)))
  doLoop 1 L (fun i ker => do
    let num ← rectIntegral dt i (← B.pass 1 (i + 1) i) (← ker.pass 0 i i)
    ker.set i ((-1 : K) • (invB0 * (num + (← DxB.get (i + 1)))))) ker

/-- fkernel.f90:132-154 `kernel_first_kind_midpoint`. The division in `(lenTraj-1)/2` truncates towards zero. -/
def firstKindMidpoint (L : ℕ) (B : FArr (Mat K b b)) (DxB : FArr (Mat K b x)) (dt : K) : Except Fault (FArr (Mat K b x)) := do
  let invB0 ← inv ((2 * dt) • (← B.get 1))
  let ker ← (FArr.undef 0 (((L : ℤ) - 1).tdiv 2)).set 0 ((-1 : K) • (invB0 * (← DxB.get 1)))
  doLoop 1 (L / 2) (fun i ker => do
    let num ← midpointIntegral (2 * dt) i (← B.pass 0 (2 * i) (2 * i)) (← ker.pass 0 i i)
    ker.set i ((-1 : K) • (invB0 * (num + (← DxB.get (2 * i + 1)))))) ker

/-- fkernel.f90:156-179 `kernel_first_kind_trapz`. -/
def firstKindTrapz (L : ℕ) (k0 : Mat K b x) (B : FArr (Mat K b b)) (DxB : FArr (Mat K b x)) (dt : K) : Except Fault (FArr (Mat K b x)) := do
  let invB0 ← inv (((1 / 2 : K) * dt) • (← B.get 0))
  let ker ← (FArr.undef 0 L).set 0 k0
  doLoop 1 (L + 1) (fun i ker => do
    let num ← trapzIntegral dt i (← B.pass 0 i i) (← ker.pass 0 i i)
    ker.set i ((-1 : K) • (invB0 * (num + (← DxB.get i))))) ker

/-- fkernel.f90:181-208 `kernel_first_kind_simpson`. -/
def firstKindSimpson (L : ℕ) (k0 : Mat K b x) (B : FArr (Mat K b b)) (DxB : FArr (Mat K b x)) (dt : K) : Except Fault (FArr (Mat K b x)) := do
  let invB0 ← inv (((1 / 2 : K) * dt) • (← B.get 0))
  let ker ← (FArr.undef 0 L).set 0 k0
  let ker ← ker.set 1 (invB0 * ((-1 : K) • (← DxB.get 1) - ((1 / 2 : K) * dt) • ((← B.get 1) * (← ker.get 0))))
  let invB0 ← inv ((dt / 3) • (← B.get 0))
  doLoop 2 (L + 1) (fun i ker => do
    let num ← simpsonIntegral dt i (← B.pass 0 i i) (← ker.pass 0 i i)
    ker.set i ((-1 : K) • (invB0 * (num + (← DxB.get i))))) ker

/-- fkernel.f90:211-235 `kernel_second_kind_rect`. -/
def secondKindRect (L : ℕ) (k0 : Mat K b x) (B0 : Mat K b b) (Bdot : FArr (Mat K b b)) (DxBdot : FArr (Mat K b x)) (dt : K) :
    Except Fault (FArr (Mat K b x)) := do
  let invB0 ← inv B0
  let ker ← (FArr.undef 0 L).set 0 k0
  doLoop 1 (L + 1) (fun i ker => do
    let num ← rectIntegral dt i (← Bdot.pass 0 i i) (← ker.pass 0 i i)
    ker.set i (invB0 * (num + (← DxBdot.get i)))) ker

/-- fkernel.f90:238-262 `kernel_second_kind_trapz`. -/
def secondKindTrapz (L : ℕ) (k0 : Mat K b x) (B0 : Mat K b b) (Bdot : FArr (Mat K b b)) (DxBdot : FArr (Mat K b x)) (dt : K) :
    Except Fault (FArr (Mat K b x)) := do
  let invB0 ← inv (B0 - ((1 / 2 : K) * dt) • (← Bdot.get 0))
  let ker ← (FArr.undef 0 L).set 0 k0
  doLoop 1 (L + 1) (fun i ker => do
    let num ← trapzIntegral dt i (← Bdot.pass 0 i i) (← ker.pass 0 i i)
    ker.set i (invB0 * (num + (← DxBdot.get i)))) ker

/-- fkernel.f90:265-290 `kernel_second_kind_simpson`. -/
def secondKindSimpson (L : ℕ) (k0 : Mat K b x) (B0 : Mat K b b) (Bdot : FArr (Mat K b b)) (DxBdot : FArr (Mat K b x)) (dt : K) :
    Except Fault (FArr (Mat K b x)) := do
  let invB0 ← inv (B0 + ((1 / 2 : K) * dt) • (← Bdot.get 0))
  let ker ← (FArr.undef 0 L).set 0 k0
  let ker ← ker.set 1 (invB0 * ((← DxBdot.get 1) + ((1 / 2 : K) * dt) • ((← Bdot.get 1) * (← ker.get 0))))
  let invB0 ← inv (B0 + (dt / 3) • (← Bdot.get 0))
  doLoop 2 (L + 1) (fun i ker => do
    let num ← simpsonIntegral dt i (← Bdot.pass 0 i i) (← ker.pass 0 i i)
    ker.set i (invB0 * (num + (← DxBdot.get i)))) ker

end

/-- fkernel.f90:296-314 `memory_rect`; `L` is `lenTraj` and `M` is `len_mem`. -/
def memoryRect (L M : ℕ) (kernel : FArr (Mat K b x)) (E : FArr (Fin b → K)) (dt : K) : Except Fault (FArr (Fin x → K)) :=
  doLoop 1 (L + 1) (fun i memory =>
    doLoop 0 (min i M + 1) (fun j memory => do
      memory.set i ((← memory.get i) - dt • Matrix.vecMul (← E.get ((i : ℤ) - j)) (← kernel.get j))) memory) (FArr.full L 0)

/-- fkernel.f90:316-336 `memory_trapz`. -/
def memoryTrapz (L M : ℕ) (kernel : FArr (Mat K b x)) (E : FArr (Fin b → K)) (dt : K) : Except Fault (FArr (Fin x → K)) := do
  let memory ← (FArr.undef 0 L).set 0 0
  doLoop 1 (L + 1) (fun i memory => do
    let memory ← memory.set i (-((1 / 2 : K) * dt) • Matrix.vecMul (← E.get i) (← kernel.get 0))
    let memory ← doLoop 1 (min (i - 1) M + 1) (fun j memory => do
      memory.set i ((← memory.get i) - dt • Matrix.vecMul (← E.get ((i : ℤ) - j)) (← kernel.get j))) memory
    memory.set i ((← memory.get i) - ((1 / 2 : K) * dt) • Matrix.vecMul (← E.get ((i : ℤ) - min i M)) (← kernel.get (min i M : ℕ)))) memory

/-- fkernel.f90:354-358 and 382-386: the correlations of the step `n`. -/
def noiseCorr (L n : ℕ) (left : FArr (Fin o → K)) (noise : FArr (Fin x → K)) : Except Fault (Mat K o x) := do
  let (n1, f) ← left.sec 0 ((L : ℤ) - n)
  let (n2, g) ← noise.sec 0 ((L : ℤ) - n)
  if n1 ≠ n2 then throw .shape
  return Matrix.of fun k l => (∑ t ∈ Finset.range n1, f t k * g t l) / ((L : K) - n + 1)

/-- fkernel.f90:338-363 `corrs_rect`. -/
def corrsRect (L M : ℕ) (noiseInit : FArr (Fin x → K)) (kernel : FArr (Mat K b x)) (E : FArr (Fin b → K)) (left : FArr (Fin o → K)) (dt : K) :
    Except Fault (FArr (Mat K o x)) := do
  let s ← doLoop 0 (M + 1) (fun n (s : FArr (Mat K o x) × FArr (Fin x → K)) => do
    let corrs ← s.1.set n (← noiseCorr L n left s.2)
    let (n1, f) ← s.2.sec 1 ((L : ℤ) - n)
    let (n2, g) ← E.sec 1 ((L : ℤ) - n)
    if n1 ≠ n2 then throw .shape
    let ker ← kernel.get n
    return (corrs, ← s.2.setSec 0 ((L : ℤ) - n - 1) n1 fun t => f t + dt • Matrix.vecMul (g t) ker)) (FArr.full M 0, noiseInit)
  return s.1

/-- fkernel.f90:365-391 `corrs_trapz`. -/
def corrsTrapz (L M : ℕ) (noiseInit : FArr (Fin x → K)) (kernel : FArr (Mat K b x)) (E : FArr (Fin b → K)) (left : FArr (Fin o → K)) (dt : K) :
    Except Fault (FArr (Mat K o x)) := do
  let s ← doLoop 0 M (fun n (s : FArr (Mat K o x) × FArr (Fin x → K)) => do
    let corrs ← s.1.set n (← noiseCorr L n left s.2)
    let (n1, f) ← s.2.sec 1 ((L : ℤ) - n)
    let (n2, g) ← E.sec 1 ((L : ℤ) - n)
    let (n3, g') ← E.sec 0 ((L : ℤ) - n - 1)
    if n1 ≠ n2 ∨ n1 ≠ n3 then throw .shape
    let ker ← kernel.get n
    let ker' ← kernel.get (n + 1)
    return (corrs, ← s.2.setSec 0 ((L : ℤ) - n - 1) n1 fun t =>
      f t + ((1 / 2 : K) * dt) • Matrix.vecMul (g t) ker + ((1 / 2 : K) * dt) • Matrix.vecMul (g' t) ker')) (FArr.full ((M : ℤ) - 1) 0, noiseInit)
  return s.1

section
variable [DecidableEq K]

/-- fkernel.f90:395-423 `solve_ide_rect`; `E` is the array for the result as the caller provides it. -/
def solveIdeRect (M : ℕ) (kernel : FArr (Mat K b b)) (E0 : Mat K o b) (F : Mat K b b) (T : ℕ) (dt : K) (E : FArr (Mat K o b)) :
    Except Fault (FArr (Mat K o b)) := do
  let E ← E.set 0 E0
  let invK0 ← inv (1 + dt ^ 2 • (← kernel.get 0))
  doLoop 1 T (fun i E => do
    let maxLen : ℤ := min (i : ℤ) M - 1
    let memory ← rectIntegral dt maxLen (← E.pass (i - maxLen) i maxLen) (← kernel.pass 0 maxLen maxLen)
    E.set i (((← E.get ((i : ℤ) - 1)) - dt • memory + dt • ((← E.get ((i : ℤ) - 1)) * F)) * invK0)) E

/-- fkernel.f90:425-454 `solve_ide_trapz`. -/
def solveIdeTrapz (M : ℕ) (kernel : FArr (Mat K b b)) (E0 : Mat K o b) (F : Mat K b b) (T : ℕ) (dt : K) (E : FArr (Mat K o b)) :
    Except Fault (FArr (Mat K o b)) := do
  let E ← E.set 0 E0
  let invK0 ← inv (1 + ((1 / 2 : K) * dt ^ 2) • (← kernel.get 0))
  doLoop 1 T (fun i E => do
    let maxLen := min i M
    let memory ← trapzIntegral dt maxLen (← E.pass ((i : ℤ) - maxLen) i maxLen) (← kernel.pass 0 maxLen maxLen)
    E.set i (((← E.get ((i : ℤ) - 1)) - dt • memory + dt • ((← E.get ((i : ℤ) - 1)) * F)) * invK0)) E

/-- fkernel.f90:481: the argument `E(i-max_len:i,:,:)` of `trapz_integral` is a section of the first axis, `1:dim_other`. When it is within the
bounds, its elements in the order of the memory become those of the array `dim_other, dim_basis, 0:max_len`. -/
def stabArg (i maxLen T : ℕ) (E : FArr (Mat K o b)) : Except Fault (FArr (Mat K o b)) :=
  if ¬ (1 ≤ (i : ℤ) - maxLen ∧ i ≤ o) then .error .bounds
  else if (maxLen + 1) * b * T < o * b * (maxLen + 1) then .error .shape
  else .ok ⟨0, maxLen, fun m => some (Matrix.of fun k l =>
    let r := k.val + o * (l.val + b * m.toNat)
    let s := r / (maxLen + 1)
    match E.val (s / b : ℕ) with
    | some e => if h : i - maxLen + r % (maxLen + 1) - 1 < o ∧ s % b < b then e ⟨_, h.1⟩ ⟨_, h.2⟩ else 0
    | none => 0)⟩

/-- fkernel.f90:457-489 `solve_ide_trapz_stab`. -/
def solveIdeTrapzStab [LinearOrder K] (M : ℕ) (kernel : FArr (Mat K b b)) (E0 : Mat K o b) (F : Mat K b b) (T : ℕ) (dt : K) (E : FArr (Mat K o b)) :
    Except Fault (FArr (Mat K o b)) := do
  let E ← E.set 0 E0
  let invK0 ← inv (1 + ((1 / 2 : K) * dt ^ 2) • (← kernel.get 0))
  doLoop 1 T (fun i E => do
    let maxLen := min i M
    let memory ← trapzIntegral dt maxLen (← stabArg i maxLen T E) (← kernel.pass 0 maxLen maxLen)
    let Ei := ((← E.get ((i : ℤ) - 1)) - dt • memory + dt • ((← E.get ((i : ℤ) - 1)) * F)) * invK0
    let Ei : Mat K o b := Matrix.of fun k l => max (Ei k l) 0
    E.set i (Matrix.of fun k l => Ei k l / ∑ k', ∑ l', Ei k' l')) E

end

/-- models.py:333-345: the memory term of `flux_from_volterra` with one of the quadratures of fkernel.f90, for a kernel of `len` points and
correlations at `T` times. f2py takes `n` from the arrays. -/
def fluxMemory (integral : K → ℕ → FArr (Mat K b b) → FArr (Mat K b b) → Except Fault (Mat K b b)) (dt : K) (len : ℕ) (kernel : ℕ → Mat K b b)
    (T : ℕ) (G : ℕ → Mat K b b) : Except Fault (FArr (Mat K b b)) :=
  doLoop 1 T (fun n res => do
    let maxLen := min n len
    res.set n (-(← integral dt (maxLen - 1) (FArr.full ((maxLen : ℤ) - 1) fun k => G (n - maxLen + k)) (FArr.full ((maxLen : ℤ) - 1) kernel))))
    (FArr.full ((T : ℤ) - 1) 0)

end Checked

end Verif
