import Verif.Model.FitMemory

/-!
# Model of `asymptotic_fit_integral` (fit_memory.py)
-/

namespace Verif

open Finset

/-- fit_memory.py:15-16 `asymptotic(x, a, b)`. -/
noncomputable def asymptoticFct : FitFun
  | [a, b], x => .ok (a + b / x)
  | _, _ => .error .type

/-- `scipy.integrate.cumulative_trapezoid(y, x, initial=0)` for one dimensional arrays: `ValueError` for different
lengths; without points there is a `ValueError` as well, here or later. -/
noncomputable def cumulativeTrapezoid (y x : Arr ℝ) : Except Err (Arr ℝ) :=
  if y.len = x.len ∧ y.len ≠ 0 then
    .ok ⟨y.len, fun i => ∑ k ∈ range i, (x.get (k + 1) - x.get k) * (y.get (k + 1) + y.get k) / 2⟩
  else .error .value

/-- fit_memory.py:19-26 `asymptotic_fit_integral(times, data)`. Without a first guess `curve_fit` takes ones. -/
noncomputable def asymptoticFitIntegral (F : Fitters) (times data : Arr ℝ) : Except Err (List ℝ) := do
  let integral ← cumulativeTrapezoid data times
  let h := times.len / 2
  F.curveFit asymptoticFct (times.slice h times.len 1) (integral.slice h integral.len 1) [1, 1]

end Verif
