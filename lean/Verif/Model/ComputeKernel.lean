import Verif.Model.FKernel

/-!
# Model of `Estimator_gle.compute_kernel` (gle_estimation.py:290-348)
-/

namespace Verif

/-- A one-dimensional (in time) numpy array: its length and its entries. Entries beyond the length
are meaningless. -/
structure Arr (α : Type*) where
  len : ℕ
  get : ℕ → α

namespace Arr

variable {α : Type*}

/-- numpy slicing `a[start:stop:step]` along the first axis, with `start`, `stop` already
non-negative (a negative Python bound `-k` is `len - k`) and `step ≥ 1`. -/
def slice (a : Arr α) (start stop step : ℕ) : Arr α where
  len := (min stop a.len - start + (step - 1)) / step
  get := fun k => a.get (start + step * k)

/-- `np.insert(a, 0, v, axis=0)`. -/
def insert0 (a : Arr α) (v : α) : Arr α where
  len := a.len + 1
  get := fun k => if k = 0 then v else a.get (k - 1)

/-- Elementwise operation on two arrays of the same length; numpy raises `ValueError` if the
lengths differ (the broadcasting of length one arrays is not modelled). -/
def zipWith {β γ : Type*} (f : α → β → γ) (a : Arr α) (b : Arr β) : Except Err (Arr γ) :=
  if a.len = b.len then .ok ⟨a.len, fun k => f (a.get k) (b.get k)⟩ else .error .value

end Arr

/-- The content of `self.dotbkbkcorrw` after `compute_corrs` (gle_estimation.py:465-494). -/
inductive DotCorr (V : Type*)
  /-- Never computed. -/
  | none
  /-- `np.array([[0.0]])`, the value with `second_order_method=False`; a plain numpy array, which
  has no method `to_numpy`. -/
  | placeholder
  /-- A correlation function. -/
  | arr (a : ℕ → V)

/-- The correlation functions held by the estimator. `N` is the number of lags. -/
structure Corrs (K : Type*) (b x : ℕ) where
  N : ℕ
  bkbk : ℕ → Mat K b b
  bkdx : ℕ → Mat K b x
  dotbkdx : Option (ℕ → Mat K b x)
  dotbkbk : DotCorr (Mat K b b)

/-- `self.model.kernel`: the values with the coordinate `time_kernel`. -/
structure KernelData (K : Type*) (b x : ℕ) where
  kernel : Arr (Mat K b x)
  time : Arr K

section
variable {K : Type*} [Field K] [DecidableEq K] {b x : ℕ}

/-- gle_estimation.py:311-314: the value of `k0` used, given the user's `k0`.
`solve_linear` is gle_estimation.py:13-18. -/
def effectiveK0 (c : Corrs K b x) (method : String) (k0 : Option (Mat K b x)) :
    Except Err (Option (Mat K b x)) :=
  if k0.isNone ∧ method ∈ ["trapz", "second_kind_rect", "second_kind_trapz"] then
    match c.dotbkdx with
    | none => .error (.exception "Need correlation with derivative functions to compute the kernel using this method or provide initial value.")
    | some d => do
      let inv ← npInv (c.bkbk 0)
      return some (inv * d 0)
  else .ok k0

/-- gle_estimation.py:331: `0.5 * (ker[1:-1] + 0.5 * (ker[:-2] + ker[2:]))`. -/
def smooth (ker : Arr (Mat K b x)) : Except Err (Arr (Mat K b x)) := do
  let mid := ker.slice 1 (ker.len - 1) 1
  let left := ker.slice 0 (ker.len - 2) 1
  let right := ker.slice 2 ker.len 1
  let s ← Arr.zipWith (fun l r => (1 / 2 : K) • (l + r)) left right
  Arr.zipWith (fun m s => (1 / 2 : K) • (m + s)) mid s

/-- gle_estimation.py:327: `(9 * ker[::3][: ker_3.shape[0]] - ker_3) / 8`. -/
def richardson (ker ker3 : Arr (Mat K b x)) : Except Err (Arr (Mat K b x)) :=
  Arr.zipWith (fun a b => (1 / 8 : K) • ((9 : K) • a - b))
    ((ker.slice 0 ker.len 3).slice 0 ker3.len 1) ker3

/-- The number of points of the array returned by `kernel_first_kind_midpoint` for `N` lags,
`0:(lenTraj-1)/2` with `lenTraj = N-1`, fkernel.f90:136. -/
def midpointLen (N : ℕ) : ℕ := (N - 1 - 1) / 2 + 1

/-- gle_estimation.py:290-348 `compute_kernel`, without printing and saving to disk. The argument
`c` is `none` when `compute_corrs` has not been called: the attribute does not exist and Python
raises `AttributeError`. `lenTraj` is derived by f2py as `N-1`. The last test is the one made by
the constructor of `xr.DataArray`. -/
def computeKernel (c : Option (Corrs K b x)) (truncInd : ℕ) (dt : K) (method : String)
    (k0 : Option (Mat K b x)) : Except Err (KernelData K b x) := do
  let c ← (match c with
    | none => .error .attribute
    | some c => .ok c : Except Err (Corrs K b x))
  if truncInd = 0 then throw .index
  let time : Arr K := ⟨truncInd, fun k => (k : K) * dt⟩
  let timeKer : Arr K := ⟨truncInd, fun k => time.get k - time.get 0⟩
  let k0 ← effectiveK0 c method k0
  let L := c.N - 1
  let res : Arr (Mat K b x) × Arr K ←
    if method ∈ ["rect", "rectangular"] then do
      let ker ← FKernel.firstKindRect L c.bkbk c.bkdx dt
      pure (⟨c.N, ker⟩, timeKer)
    else if method = "midpoint" then do
      let ker ← FKernel.firstKindMidpoint L c.bkbk c.bkdx dt
      pure (⟨midpointLen c.N, ker⟩, timeKer.slice 0 (truncInd - 1) 2)
    else if method = "midpoint_w_richardson" then do
      let ker ← FKernel.firstKindMidpoint L c.bkbk c.bkdx dt
      let bb3 := (Arr.mk c.N c.bkbk).slice 0 c.N 3
      let bx3 := (Arr.mk c.N c.bkdx).slice 0 c.N 3
      let ker3 ← FKernel.firstKindMidpoint (bb3.len - 1) bb3.get bx3.get (3 * dt)
      let kernel ← richardson ⟨midpointLen c.N, ker⟩ ⟨midpointLen bb3.len, ker3⟩
      pure (kernel, timeKer.slice 0 (truncInd - 3) 6)
    else if method = "trapz" then
      match k0 with
      | none => throw .value
      | some k0 => do
        let ker ← FKernel.firstKindTrapz L k0 c.bkbk c.bkdx dt
        let kernel ← smooth ⟨c.N, ker⟩
        pure (kernel.insert0 k0, timeKer.slice 0 (truncInd - 1) 1)
    else if method = "second_kind_rect" then
      match c.dotbkdx, c.dotbkbk, k0 with
      | none, _, _ | _, .none, _ => throw (.exception "Need correlation with derivative functions to compute the kernel using this method, please use other method.")
      | _, .placeholder, _ => throw .attribute
      | some d, .arr bd, some k0 => do
        let ker ← FKernel.secondKindRect L k0 (c.bkbk 0) bd d dt
        pure (⟨c.N, ker⟩, timeKer)
      | _, _, none => throw .value
    else if method = "second_kind_trapz" then
      match c.dotbkdx, c.dotbkbk, k0 with
      | none, _, _ | _, .none, _ => throw (.exception "Need correlation with derivative functions to compute the kernel using this method, please use other method.")
      | _, .placeholder, _ => throw .attribute
      | some d, .arr bd, some k0 => do
        let ker ← FKernel.secondKindTrapz L k0 (c.bkbk 0) bd d dt
        pure (⟨c.N, ker⟩, timeKer)
      | _, _, none => throw .value
    else throw (.exception "Method for volterra inversion is not in  {rectangular, midpoint, midpoint_w_richardson,trapz,second_kind_rect,second_kind_trapz}")
  if res.1.len ≠ res.2.len then throw .value
  return ⟨res.1, res.2⟩

end

end Verif
