import Verif.Model.Graph
import Verif.Model.Archive
import Verif.Model.SearchReport

/-! # Model of the incumbent archive and the search tree

solver/search_tree.h, solver/abstract_solver_controller.h:123-150, solver/solver.h:387-392, 403-409. -/

namespace Printemps.Tree
open Graph

/-- The members of `SearchTree`, solver/search_tree.h:14-20. -/
structure State (V : Type) where
  tree : G := G.empty
  frontier : List (ArchSol V × ℤ) := []
  optimal : List (ArchSol V × ℤ) := []

section
variable {V : Type}

/-- `global_augmented_objective` of an exported solution, model/model.h:3241-3242, 3272-3273: the objective without the sign of the
sense of optimization.  `g` is the global penalty coefficient. -/
def aug (g : ℚ) (s : ArchSol V) : ℚ := s.objective + g * s.violation

/-- The nodes added for the new solutions, search_tree.h:63-65. -/
def addNodes (old new : ℕ) (t : G) : G := (List.range' old (new - old)).foldl G.addNode t

/-- The pairs of an old and a new solution, search_tree.h:67-71. -/
def pairsOld (old new : ℕ) : List (ℕ × ℕ) :=
  (List.range old).flatMap fun i => (List.range' old (new - old)).map fun j => (i, j)

/-- The pairs of new solutions, search_tree.h:73-77. -/
def pairsNew (old new : ℕ) : List (ℕ × ℕ) :=
  (List.range' old (new - old)).flatMap fun i => (List.range' (i + 1) (new - (i + 1))).map fun j => (i, j)

/-- `m_tree.add_edge(i, j, solutions[i].distance(solutions[j]))`, search_tree.h:69, 75.  `none` is an index out of range. -/
def link (dist : V → V → ℤ) (sols : List (ArchSol V)) (t : G) (p : ℕ × ℕ) : Option G :=
  match sols[p.1]?, sols[p.2]? with
  | some a, some b => some (t.addEdge ⟨p.1, p.2, dist a.vars b.vars⟩)
  | _, _ => none

/-- The growth of `m_tree`, search_tree.h:59-77. -/
def grow (dist : V → V → ℤ) (sols : List (ArchSol V)) (t : G) : Option G :=
  (pairsOld t.nodes.length sols.length ++ pairsNew t.nodes.length sols.length).foldlM (link dist sols)
    (addNodes t.nodes.length sols.length t)

/-- The edges whose indices are in `edge_indices()` of the node, graph/graph.h:60-77, 95-140: `minimum_spanning_tree` adds all
nodes before the first edge, and every edge enters its index at both ends.  Simplification: in the order of the edges (the code
has an unordered set). -/
def edgesAt (m : G) (i : ℕ) : List Edge := m.edges.filter fun e => e.first == i || e.second == i

/-- One of the two comparisons with a neighbour, search_tree.h:97-103, 105-111.  `none` is an index out of range. -/
def lower (g : ℚ) (sols : List (ArchSol V)) (i : ℕ) (s : ArchSol V) (j : ℕ) : Option Bool :=
  if j ≠ i then (sols[j]?).map fun b => decide (aug g s > aug g b) else some false

/-- The loop over the edges of a node, search_tree.h:91-112: whether some neighbour is better. -/
def anyLower (g : ℚ) (sols : List (ArchSol V)) (i : ℕ) (s : ArchSol V) : List Edge → Option Bool
  | [] => some false
  | e :: es =>
    (lower g sols i s e.first).bind fun b => if b then some true else
      (lower g sols i s e.second).bind fun c => if c then some true else anyLower g sols i s es

/-- The loop over the solutions, search_tree.h:83-118.  `none` is an index out of range or a missing node. -/
def scan (dist : V → V → ℤ) (g : ℚ) (sols : List (ArchSol V)) (incumbent : ArchSol V) (m : G) :
    List ℕ → State V → Option (State V)
  | [], st => some st
  | i :: is, st =>
    (sols[i]?).bind fun s =>
      if i ∈ m.nodes then
        let d := dist s.vars incumbent.vars
        let st1 := if (edgesAt m i).length = 1 then { st with frontier := st.frontier ++ [(s, d)] } else st
        (anyLower g sols i s (edgesAt m i)).bind fun b =>
          scan dist g sols incumbent m is (if b then st1 else { st1 with optimal := st1.optimal ++ [(s, d)] })
      else none

/-- `SearchTree::setup` / `update`, search_tree.h:45-119. -/
def State.update (dist : V → V → ℤ) (g : ℚ) (sols : List (ArchSol V)) (incumbent : ArchSol V) (st : State V) :
    Option (State V) :=
  (grow dist sols st.tree).bind fun t => t.mst.bind fun m =>
    scan dist g sols incumbent m (List.range sols.length) { tree := t }

/-- The incumbent archive (`m_solutions`, `m_has_feasible_solution`, solution/solution_archive.h:20-27) and the search tree,
solver/global_state.h:22-25. -/
structure Record (V : Type) where
  archive : List (ArchSol V)
  has : Bool := false
  tree : State V := {}

variable [DecidableEq V]

/-- The archive after the preparation of a call, solver/solver.h:387-392, 408-409: no capacity, not sorted, the initial solution
pushed.  `m_global_state.initialize()` (solver.h:216, from every `setup`) leaves the tree empty. -/
def Record.start (initial : ArchSol V) : Record V := { archive := archPush .off (-1) [] [initial] }

/-- `update_incumbent_solution_archive_and_search_tree`, abstract_solver_controller.h:123-150. -/
def Record.update (dist : V → V → ℤ) (g : ℚ) (incumbent : ArchSol V) (batch : List (ArchSol V)) (r : Record V) :
    Option (Record V) :=
  if batch.isEmpty then some r else
    let pushed := archPush .off (-1) r.archive batch
    let first := !r.has && batch.any (·.feasible)
    let archive := if first then archRemoveInfeasible pushed else pushed
    let tree := if first then {} else r.tree
    (tree.update dist g archive incumbent).map fun t => ⟨archive, r.has || batch.any (·.feasible), t⟩

/-- One search of a call followed by the update of the archive, tabu_search_controller.h:977-978 (local_search_controller.h:129-130
and lagrange_dual_controller.h:155-156 alike).  A search offers its start, so there is an incumbent. -/
def Record.search (dist : V → V → ℤ) (g : ℚ) (log : ℤ) (s : Report.Search (ArchSol V)) (hr : Holder (ArchSol V) × Record V) :
    Option (Holder (ArchSol V) × Record V) :=
  let t := Report.tally log hr.1 s
  match t.holder.globalSol with
  | none => none
  | some x => (hr.2.update dist g x (Report.incumbentSolutions t)).map fun r => (t.holder, r)

/-- The searches of a call, one after the other. -/
def Record.searches (dist : V → V → ℤ) (g : ℚ) (log : ℤ) :
    List (Report.Search (ArchSol V)) → Holder (ArchSol V) × Record V → Option (Holder (ArchSol V) × Record V)
  | [], hr => some hr
  | s :: ss, hr => (Record.search dist g log s hr).bind (Record.searches dist g log ss)

/-- A call: the initial solution is offered to the holder and archived (solver.h:403-409), then the searches run. -/
def record (dist : V → V → ℤ) (g : ℚ) (log : ℤ) (initial : ArchSol V) (score : Score)
    (searches : List (Report.Search (ArchSol V))) : Option (Holder (ArchSol V) × Record V) :=
  Record.searches dist g log searches ((Holder.init.tryUpdate initial score).1, Record.start initial)

end
end Printemps.Tree
