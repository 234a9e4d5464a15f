import Verif.Model.Search
import Verif.Model.SearchReport

/-! # Model of the tables that the searches print while they run

solver/tabu_search/core/tabu_search_core.h, solver/local_search/core/local_search_core.h,
solver/lagrange_dual/core/lagrange_dual_core.h.  Not modelled: headers, footers, colors, widths and digits of the numbers, the
columns with the numbers of neighborhoods, the step size and the Lagrangian, the mark of special moves. -/

namespace Printemps.Table
open Search Sol

/-- The searches that print a table. -/
inductive Kind where
  | tabu | localSearch | dual
deriving DecidableEq, Repr

/-- What is printed after an event: nothing, the first row of a table, or the row of an iteration. -/
inductive Shows where
  | nothing | first | iteration
deriving DecidableEq, Repr

/-- One event of a search with what its printing depends on: the search, `log_interval`, `is_aspirated`.  The first row of
a table is printed after the start of the search (local_search_core.h:488, lagrange_dual_core.h:386), in tabu search after
the moves of `initial_modification` that follow it (tabu_search_core.h:79, 243-344, 862); these moves print nothing else. -/
structure Entry where
  event : Event
  kind : Kind
  interval : ℤ
  shows : Shows
  aspirated : Bool := false

/-- A row: marks, objective and violation of the current solution and of the incumbent. -/
structure Row where
  markCurrent : Char := ' '
  markIncumbent : Char := ' '
  objective : ℚ
  violation : ℚ
  incObjective : ℚ
  incViolation : ℚ
deriving DecidableEq, Repr

/-- `Model::sign`, model/model.h:4027-4034: 1 for a minimization, -1 for a maximization. -/
def sign (m : MState) : ℚ := if m.isMin then 1 else -1

/-- The numbers of a row: the arguments of `printf` at tabu_search_core.h:620-632 and 715-741,
local_search_core.h:279-291 and 357-376, lagrange_dual_core.h:191-204 and 270-289; the incumbent is
`global_augmented_incumbent_score()`. -/
def plain (s : St) : Row :=
  let inc := s.holder.globalScore.getD {}
  { objective := s.cur.objective * sign s.model
    violation := if s.cur.isFeasible then 0 else s.cur.totalViolation
    incObjective := inc.objective * sign s.model
    incViolation := inc.totalViolation * sign s.model }

/-- The marks, tabu_search_core.h:650-676, local_search_core.h:308-321, lagrange_dual_core.h:221-234: of the current solution
and of the incumbent. -/
def marks (kind : Kind) (aspirated : Bool) (status : ℕ) : Char × Char :=
  if Report.bit 4 status then ('*', '*')
  else if Report.bit 2 status then
    if kind = .tabu ∧ aspirated = true then ('@', '@') else ('#', '#')
  else if kind = .tabu ∧ Report.bit 1 status = true then ('!', ' ')
  else (' ', ' ')

/-- `update_status` of an event, as set by `try_update_incumbent` in the state managers (see `Search.offer`). -/
def statusOf (cfg : Cfg) (s : St) : Event → ℕ
  | .move mv renewed =>
      (s.holder.tryUpdateModel refresh exportDense (afterMove s.model mv) (acceptedScore cfg s.model mv renewed s.cur)).2.2
  | .relax lower =>
      let m := (relaxed s.model lower).update
      (s.holder.tryUpdateModel refresh exportDense m (m.evaluateFull { alterations := [] })).2.2
  | .start _ => 0
  | .penalties _ _ => 0

/-- Whether an iteration is printed, tabu_search_core.h:1093-1099, local_search_core.h:707-713, lagrange_dual_core.h:484-490. -/
def due (e : Entry) (iteration : ℕ) (status : ℕ) : Bool :=
  decide ((iteration : ℤ) % max e.interval 1 = 0) || decide (status > (if e.kind = .tabu then 0 else 1))

/-- The row printed when an event leads from the state `s` to the state `s'`. -/
def rowOf (cfg : Cfg) (iteration : ℕ) (s : St) (e : Entry) (s' : St) : Option Row :=
  match e.shows with
  | .nothing => none
  | .first => some (plain s')
  | .iteration =>
    if due e iteration (statusOf cfg s e.event) then
      let k := marks e.kind e.aspirated (statusOf cfg s e.event)
      some { plain s' with markCurrent := k.1, markIncumbent := k.2 }
    else none

/-- The number of iterations made in the present search, tabu_search_core.h:867, 1112; local_search_core.h:494, 714;
lagrange_dual_core.h:394, 499. -/
def nextIteration (iteration : ℕ) (e : Entry) : ℕ :=
  match e.shows with
  | .nothing => iteration
  | .first => 0
  | .iteration => iteration + 1

/-- The tables of a whole run: for every event the row it prints, if any. -/
def table (cfg : Cfg) : List Entry → ℕ → St → Option (List (Option Row))
  | [], _, _ => some []
  | e :: es, it, s => (step cfg s e.event).bind fun s' =>
      (table cfg es (nextIteration it e) s').map (rowOf cfg it s e s' :: ·)

end Printemps.Table
