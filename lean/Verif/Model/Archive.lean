import Verif.Prelude

/-! # Model of `solution/solution_archive.h` -/

namespace Printemps

/-- The fields of `SparseSolution` used by the archive (solution/sparse_solution.h:15-40).
Simplification: the map `variables` is an abstract value with decidable equality. -/
structure ArchSol (V : Type) where
  vars : V
  objective : ℚ
  feasible : Bool := false
  violation : ℚ := 0
deriving DecidableEq, Repr

/-- `enum class SortMode`, solution/solution_archive.h:11. -/
inductive SortMode where
  | off | ascending | descending
deriving DecidableEq, Repr

/-- `std::unique` after its first element: drop elements equal (by `variables`) to the last kept one. -/
def uniqFrom {V} [DecidableEq V] (k : V) : List (ArchSol V) → List (ArchSol V)
  | [] => []
  | b :: l => if k = b.vars then uniqFrom k l else b :: uniqFrom b.vars l

/-- `std::unique` with the comparison of solution_archive.h:106-111. -/
def uniqAdj {V} [DecidableEq V] : List (ArchSol V) → List (ArchSol V)
  | [] => []
  | a :: l => a :: uniqFrom a.vars l

/-- `std::stable_sort` with the comparisons of solution_archive.h:87-104 (a merge sort by the
non-strict order is the stable sort by the strict one). -/
def archSort {V} (mode : SortMode) (l : List (ArchSol V)) : List (ArchSol V) :=
  match mode with
  | .ascending => l.mergeSort (fun a b => decide (a.objective ≤ b.objective))
  | .descending => l.mergeSort (fun a b => decide (b.objective ≤ a.objective))
  | .off => l

/-- The capacity cut of solution_archive.h:113-124. -/
def archCut {V} (mode : SortMode) (cap : ℤ) (l : List (ArchSol V)) : List (ArchSol V) :=
  if cap > 0 ∧ (l.length : ℤ) > cap then
    match mode with
    | .off => l.drop ((l.length : ℤ) - cap).toNat
    | _ => l.take cap.toNat
  else l

/-- `SolutionArchive::push(solutions)`, solution_archive.h:82-125. -/
def archPush {V} [DecidableEq V] (mode : SortMode) (cap : ℤ) (a : List (ArchSol V))
    (batch : List (ArchSol V)) : List (ArchSol V) :=
  archCut mode cap (uniqAdj (archSort mode (a ++ batch)))

/-- `remove_infeasible_solutions`, solution_archive.h:128-134. -/
def archRemoveInfeasible {V} (a : List (ArchSol V)) : List (ArchSol V) := a.filter (·.feasible)

end Printemps
