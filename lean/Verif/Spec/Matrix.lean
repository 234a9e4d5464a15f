import Mathlib.Algebra.Order.Field.Rat
import Mathlib.Algebra.BigOperators.Group.Finset.Basic

/-! # Matrices as functions: the specification of sparse matrix operations -/

namespace Printemps.Spec

/-- The matrix described by a list of (row, column, value): equal positions add up. -/
def matrixOf (es : List (ℕ × ℕ × ℚ)) (i j : ℕ) : ℚ := ((es.filter (fun e => e.1 = i ∧ e.2.1 = j)).map (fun e => e.2.2)).sum

/-- Matrix times vector for `n` columns. -/
def mulVec (A : ℕ → ℕ → ℚ) (n : ℕ) (x : ℕ → ℚ) (i : ℕ) : ℚ := ∑ j ∈ Finset.range n, A i j * x j

end Printemps.Spec
