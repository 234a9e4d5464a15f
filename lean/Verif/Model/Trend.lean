import Verif.Model.Search

/-! # Model of the file `trend.txt`

solver/tabu_search/controller/tabu_search_controller_logger.h, called at solver/tabu_search/controller/tabu_search_controller.h:71-75
and 1003-1007.  Modelled are the columns for the number of the search, the objectives and the violations; the others (times,
speeds, penalties, threads) and the text are not. -/

namespace Printemps.Trend
open Search

/-- The columns 1 and 5 to 8, tabu_search_controller_logger.h:77-85 and 123-131. -/
structure Row where
  iteration : ℕ
  localObjective : ℚ
  localViolation : ℚ
  globalObjective : ℚ
  globalViolation : ℚ
deriving DecidableEq, Repr

/-- `write_log`, tabu_search_controller_logger.h:109-156: the scores are those held by the incumbent holder. -/
def row (k : ℕ) (s : St) : Row :=
  let l := s.holder.localScore.getD {}
  let g := s.holder.globalScore.getD {}
  { iteration := k
    localObjective := l.objective
    localViolation := l.totalViolation
    globalObjective := g.objective
    globalViolation := g.totalViolation }

/-- One row after each pass of the loop, tabu_search_controller.h:1003-1015; a pass is the list of its events (changes of the
penalty coefficients, the start of the tabu search and its moves). -/
def rows (cfg : Cfg) : ℕ → List (List Event) → St → Option (List Row)
  | _, [], _ => some []
  | k, lap :: laps, s => (run cfg lap s).bind fun s' => (rows cfg (k + 1) laps s').map (row k s' :: ·)

/-- The rows of a call: `before` are the events of the Lagrange dual and of the local search, solver/solver.h:430-450. -/
def file (cfg : Cfg) (m : MState) (before : List Event) (laps : List (List Event)) : Option (List Row) :=
  (run cfg before (begin m)).bind (rows cfg 0 laps)

end Printemps.Trend
