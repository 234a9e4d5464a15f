import Verif.Model.Pdlp
import Verif.Spec.LinearProgram

/-! # Specification: what is assumed of the functions and options of PDLP, and points within bounds -/

namespace Printemps.Spec
open Lp Pdlp

/-- What is used of the mathematical functions.  `sqrtf` is nonnegative, positive for positive numbers, and the square of
the root is at least `κ` times the number (rounding; `κ = 1` for the exact root).  The weight of a restart is positive.
`reduce n` lies between `1 / (n + 1)` and 1, which is so for `std::pow(n + 1.0, e)` with `-1 ≤ e < 0` (the default is
`-0.3`); `extend n` is nonnegative, as every power. -/
structure FnOK (f : Fn) (κ : ℚ) : Prop where
  pos : 0 < κ
  sqrtNonneg : ∀ v, 0 ≤ f.sqrtf v
  sqrtPos : ∀ v, 0 < v → 0 < f.sqrtf v
  square : ∀ v, 0 ≤ v → κ * v ≤ f.sqrtf v * f.sqrtf v
  weight : ∀ d p w, 0 < d → 0 < p → 0 < w → 0 < f.weight d p w
  reduceLt : ∀ n, 1 ≤ n → f.reduce n < 1
  reduceGe : ∀ n : ℕ, 1 ≤ n → 1 / ((n : ℚ) + 1) ≤ f.reduce n
  extend : ∀ n, 0 ≤ f.extend n

/-- No interval is 0, and the largest number is positive. -/
structure OptOK (o : Opt) : Prop where
  restart : o.restartInterval ≠ 0
  convergence : o.convergenceInterval ≠ 0
  log : o.logInterval ≠ 0
  big : 0 < o.big

/-- `x` has one entry per column, each within its bounds. -/
def Box (lp : LP) (x : List ℚ) : Prop :=
  x.length = lp.cols ∧ ∀ j < lp.cols, lp.lb.getD j 0 ≤ x.getD j 0 ∧ x.getD j 0 ≤ lp.ub.getD j 0

/-- The rows of the LP are the "less" rows (turned around), the equality rows, the "greater" rows, in this order. -/
def Ranges (lp : LP) : Prop :=
  lp.less = (0, lp.equal.1) ∧ lp.greater = (lp.equal.2, lp.rows) ∧ lp.equal.1 ≤ lp.equal.2 ∧ lp.equal.2 ≤ lp.rows

end Printemps.Spec
