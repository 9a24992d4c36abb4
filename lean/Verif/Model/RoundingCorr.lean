import Verif.Model.Rounding
import Verif.Model.Correlation

/-!
# The direct correlations in floating point arithmetic

As in `Verif.Model.Rounding`, every operation has a relative error of at most `u`. numpy does not promise an order of the sums.
-/

namespace Verif

namespace Rounded

/-- `y` is the sum of some numbers, added in any order and grouped in any way (one after the other, pairwise, with several accumulators that start
from zero), with at most `d` roundings on the way from any of the numbers to the result. -/
inductive Sum (u : ℝ) : ℕ → Multiset ℝ → ℝ → Prop
  | zero (d : ℕ) : Sum u d 0 0
  | single (d : ℕ) (x : ℝ) : Sum u d {x} x
  | add {d : ℕ} {s t : Multiset ℝ} {x y z : ℝ} (hs : Sum u d s x) (ht : Sum u d t y) (h : Fl u (x + y) z) : Sum u (d + 1) (s + t) z

/-- A product followed by a sum: `np.dot(a, b)` and `(a * b).sum()` for `n` points. -/
def dot (u : ℝ) (d n : ℕ) (a b : ℕ → ℝ) (y : ℝ) : Prop := ∃ p : ℕ → ℝ, (∀ i < n, Fl u (a i * b i) (p i)) ∧ Sum u d ((Multiset.range n).map p) y

/-- correlation.py:50-52 and correlation.py:70-72: the value at lag `n` of `correlation_direct_1D` and of an element of `correlation_direct_ND`. -/
def corr (u : ℝ) (d N : ℕ) (a b : ℕ → ℝ) (n : ℕ) (r : ℝ) : Prop := ∃ y, dot u d (N - n) a (fun t => b (n + t)) y ∧ Fl u (y / ((N : ℝ) - n)) r

/-- correlation.py:41-53 `correlation_direct_1D`. -/
def correlationDirect1D (u : ℝ) (d N : ℕ) (a : ℕ → ℝ) (b : Option (ℕ → ℝ)) (trunc : Option ℕ) (r : Arr ℝ) : Prop :=
  r.len = lenTrunc N trunc ∧ ∀ n < r.len, corr u d N a (b.getD a) n (r.get n)

/-- correlation.py:57-73 `correlation_direct_ND` with `a` of shape `(p, 1, N)` and `b` of shape `(q, N)`. -/
def correlationDirectND {p q : ℕ} (u : ℝ) (d N : ℕ) (a : Fin p → ℕ → ℝ) (b : Fin q → ℕ → ℝ) (trunc : Option ℕ) (r : Arr (Mat ℝ p q)) : Prop :=
  r.len = lenTrunc N trunc ∧ ∀ n < r.len, ∀ i j, corr u d N (a i) (b j) n (r.get n i j)

end Rounded

end Verif
