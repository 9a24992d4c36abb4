import Verif.Model.Prony
import Mathlib.Analysis.SpecialFunctions.Pow.Real
import Mathlib.Analysis.Complex.Trigonometric

/-!
# Model of fit_memory.py
-/

namespace Verif

open Finset

/-- A function of a list of parameters and of the time; a wrong number of parameters is a `TypeError`. -/
abbrev FitFun := List ℝ → ℝ → Except Err ℝ

/-- fit_memory.py:43-44. -/
noncomputable def expFct : FitFun
  | [a, b], t => .ok (a * Real.exp (-b * t))
  | _, _ => .error .type

/-- fit_memory.py:47-48. -/
noncomputable def expnormFct : FitFun
  | [b], t => .ok (Real.exp (-b * t))
  | _, _ => .error .type

/-- fit_memory.py:51-52. -/
noncomputable def doubleExpnormFct : FitFun
  | [b, c, alpha], t => .ok (alpha * Real.exp (-b * t) + (1 - alpha) * Real.exp (-c * t))
  | _, _ => .error .type

/-- fit_memory.py:55-56. -/
noncomputable def sechFct : FitFun
  | [a, b, nu], t => .ok (a / Real.cosh (b * t) ^ nu)
  | _, _ => .error .type

/-- fit_memory.py:59-60. -/
noncomputable def sechOneFct : FitFun
  | [a, b], t => .ok (a / Real.cosh (b * t))
  | _, _ => .error .type

/-- fit_memory.py:63-64. -/
noncomputable def sechTwoFct : FitFun
  | [a, b], t => .ok (a / Real.cosh (b * t) ^ 2)
  | _, _ => .error .type

/-- fit_memory.py:67-68. -/
noncomputable def gaussianFct : FitFun
  | [a, b], t => .ok (a * Real.exp (-b * t ^ 2))
  | _, _ => .error .type

/-- The fitted parameters: those of `curve_fit`, or the pair of `prony_fit_times_serie`. -/
inductive FitParam
  | popt (p : List ℝ)
  | prony (y0 : ℝ) (A : Σ m : ℕ, Mat ℝ m m)

/-- What the fits call: `scipy.optimize.curve_fit(func, times, data, p0)` and `prony_fit_times_serie(data, dt)`, with
the keyword arguments of the caller. -/
structure Fitters where
  curveFit : FitFun → Arr ℝ → Arr ℝ → List ℝ → Except Err (List ℝ)
  prony : Arr ℝ → ℝ → Except Err (ℝ × Σ m : ℕ, Mat ℝ m m)

/-- fit_memory.py:79-103: the function and the first guess for a type, the Prony fit being `.inl`. The value of
`data[0]` and the time step are given. -/
noncomputable def fitDispatch (type : String) (d0 dt : ℝ) : Except Err (Unit ⊕ (FitFun × List ℝ)) :=
  if type ∈ ["exp", "exponential"] then .ok (.inr (expFct, [d0, 0.1 / dt]))
  else if type ∈ ["expnorm", "exp_norm"] then .ok (.inr (expnormFct, [0.1 / dt]))
  else if type ∈ ["doubleexpnorm", "double_exp_norm"] then .ok (.inr (doubleExpnormFct, [0.001 / dt, 0.1 / dt, 0.5]))
  else if type ∈ ["sech"] then .ok (.inr (sechFct, [d0, 0.1 / √dt, 1.5]))
  else if type ∈ ["sech_one"] then .ok (.inr (sechOneFct, [d0, 0.1 / √dt]))
  else if type ∈ ["sech_two"] then .ok (.inr (sechTwoFct, [d0, 0.1 / √dt]))
  else if type ∈ ["gaussian"] then .ok (.inr (gaussianFct, [d0, 0.1 / √dt]))
  else if type ∈ ["prony"] then .ok (.inl ())
  else .error .value

/-- fit_memory.py:71-105 `memory_fit(times, data, type)`; `tDim` and `dDim` are the dimensions of the arrays (after
the squeeze). `times[1]` and `data[0]` are read by the branches; the model reads both of them in every branch. -/
noncomputable def memoryFit (F : Fitters) (tDim dDim : ℕ) (times data : Arr ℝ) (type : String) : Except Err (String × FitParam) :=
  if 1 < tDim ∨ 1 < dDim then .error .value
  else
    match fitDispatch type (data.get 0) (times.get 1 - times.get 0) with
    | .error e => .error e
    | .ok branch =>
      if times.len < 2 ∨ data.len < 1 then .error .index
      else
        match branch with
        | .inl _ => (F.prony data (times.get 1 - times.get 0)).map fun r => (type, .prony r.1 r.2)
        | .inr (func, p0) => (F.curveFit func times data p0).map fun popt => (type, .popt popt)

/-- fit_memory.py:116-133: the function for a type, `.inl` for `prony_series_eval`. -/
noncomputable def evalDispatch (type : String) : Except Err (Unit ⊕ FitFun) :=
  if type ∈ ["exp", "exponential"] then .ok (.inr expFct)
  else if type ∈ ["expnorm", "exp_norm"] then .ok (.inr expnormFct)
  else if type ∈ ["doubleexpnorm", "double_exp_norm"] then .ok (.inr doubleExpnormFct)
  else if type ∈ ["sech"] then .ok (.inr sechFct)
  else if type ∈ ["sech_one"] then .ok (.inr sechOneFct)
  else if type ∈ ["sech_two"] then .ok (.inr sechTwoFct)
  else if type ∈ ["gaussian"] then .ok (.inr gaussianFct)
  else if type ∈ ["prony"] then .ok (.inl ())
  else .error .value

/-- fit_memory.py:108-135 `memory_fit_eval(times, popt, type)`, one dimensional times. Parameters of the other kind are a
`TypeError`. -/
noncomputable def memoryFitEval (times : List ℝ) (popt : FitParam) (type : String) : Except Err (List ℝ) :=
  match evalDispatch type with
  | .error e => .error e
  | .ok (.inl _) => match popt with
    | .prony y0 A => pronySeriesEval times y0 A.1 A.2
    | .popt _ => .error .type
  | .ok (.inr f) => match popt with
    | .popt p => times.mapM (f p)
    | .prony _ _ => .error .type

/-- fit_memory.py:138-161 `memory_fit_kernel(times, kernel, type)`, for a kernel of shape `(len, dimB, dimX)`: the type
and `popt[d][k]`. -/
noncomputable def memoryFitKernel (F : Fitters) (times : Arr ℝ) (len dimB dimX : ℕ) (kernel : ℕ → ℕ → ℕ → ℝ) (type : String) :
    Except Err (String × List (List FitParam)) :=
  ((List.range dimX).mapM fun d => (List.range dimB).mapM fun k =>
    (memoryFit F 1 1 times ⟨len, fun i => kernel i k d⟩ type).map Prod.snd).map fun popt => (type, popt)

/-- fit_memory.py:164-188 `memory_kernel_eval(times, (type, popt))`: the array as nested lists, `out[d][k][i]` being
`fit[i, k, d]`. `IndexError` from `popt[0]`, and from `popt[d][k]` for a shorter row. -/
noncomputable def memoryKernelEval (times : List ℝ) (params : String × List (List FitParam)) : Except Err (List (List (List ℝ))) :=
  let dimX := params.2.length
  match params.2 with
  | [] => .error .index
  | first :: _ =>
    (List.range dimX).mapM fun d => (List.range first.length).mapM fun k =>
      match params.2[d]? with
      | none => .error .index
      | some row => match row[k]? with
        | none => .error .index
        | some p => memoryFitEval times p params.1

/-- fit_memory.py:29-40 `markovian_friction(times, kernel)`: it returns the builtin `type`, which is none of the names,
written `none` here, and the integrals of the components. -/
def markovianFriction (simpson : Arr ℝ → Arr ℝ → ℝ) (times : Arr ℝ) (len dimB dimX : ℕ) (kernel : ℕ → ℕ → ℕ → ℝ) :
    Option String × List (List ℝ) :=
  (none, (List.range dimX).map fun d => (List.range dimB).map fun k => simpson ⟨len, fun i => kernel i k d⟩ times)

end Verif
