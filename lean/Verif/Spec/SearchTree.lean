import Verif.Spec.Graph
import Mathlib.Algebra.BigOperators.Group.List.Basic
import Mathlib.Algebra.Order.Group.Int

/-! # Specification vocabulary for the tree of the solutions found (C95)

The points `0, …, n - 1` are the solutions in the order in which they were found.  Nothing here refers to the model of the
code. -/

namespace Printemps.Spec

/-- The two points are joined by a line. -/
def Joined (T : List (ℕ × ℕ)) (i j : ℕ) : Prop := (i, j) ∈ T ∨ (j, i) ∈ T

/-- The lines make a tree on the points `0, …, n - 1`. -/
structure SpanningTree (n : ℕ) (T : List (ℕ × ℕ)) : Prop where
  inside : ∀ e ∈ T, e.1 < n ∧ e.2 < n
  acyclic : Forest [] T
  joins : ∀ i j, i < n → j < n → Conn T i j

/-- The total length of the lines. -/
def treeLength (d : ℕ → ℕ → ℤ) (T : List (ℕ × ℕ)) : ℤ := (T.map fun e => d e.1 e.2).sum

/-- A tree of the least total length. -/
structure ShortestTree (n : ℕ) (d : ℕ → ℕ → ℤ) (T : List (ℕ × ℕ)) : Prop extends SpanningTree n T where
  shortest : ∀ T', SpanningTree n T' → treeLength d T ≤ treeLength d T'

/-- The point is joined to exactly one other point. -/
def Leaf (T : List (ℕ × ℕ)) (i : ℕ) : Prop := ∃! j, Joined T i j

/-- No point joined to this one has a lower height. -/
def Lowest (height : ℕ → ℚ) (T : List (ℕ × ℕ)) (i : ℕ) : Prop := ∀ j, Joined T i j → height i ≤ height j

open Classical in
/-- The points with a property, in order. -/
noncomputable def pointsWith (P : ℕ → Prop) (n : ℕ) : List ℕ := (List.range n).filter (fun i => decide (P i))

end Printemps.Spec
