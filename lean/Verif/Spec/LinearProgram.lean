import Verif.Model.LinearProgram
import Verif.Spec.Matrix

/-! # Specification: points of an LP and their objective value -/

namespace Printemps.Spec
open Lp

/-- The coefficient of column `j` in row `i`. -/
def LP.coef (lp : LP) (i j : ℕ) : ℚ := matrixOf (lp.A.entries.map (fun e => (e.row, e.col, e.value))) i j

/-- `x` is a feasible point of the LP: within the bounds, equal to the right hand side in the equality rows and at
least the right hand side in the others. -/
structure PrimalFeasible (lp : LP) (x : ℕ → ℚ) : Prop where
  bounds : ∀ j < lp.cols, lp.lb.getD j 0 ≤ x j ∧ x j ≤ lp.ub.getD j 0
  equal : ∀ i < lp.rows, lp.equal.1 ≤ i → i < lp.equal.2 → mulVec (LP.coef lp) lp.cols x i = lp.b.getD i 0
  atLeast : ∀ i < lp.rows, (i < lp.equal.1 ∨ lp.equal.2 ≤ i) → lp.b.getD i 0 ≤ mulVec (LP.coef lp) lp.cols x i

/-- The objective value of a point. -/
def primalObjective (lp : LP) (x : ℕ → ℚ) : ℚ := ∑ j ∈ Finset.range lp.cols, lp.c.getD j 0 * x j + lp.offset

/-- A dual vector of the right size that is nonnegative outside the equality rows. -/
def DualFeasible (lp : LP) (y : List ℚ) : Prop :=
  y.length = lp.rows ∧ ∀ i < lp.rows, (i < lp.equal.1 ∨ lp.equal.2 ≤ i) → 0 ≤ y.getD i 0

end Printemps.Spec
