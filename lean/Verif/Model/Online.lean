import Verif.Model.Presolve
import Verif.Model.Constraint

/-! # Model of the bounding of variables during the search, model/model.h:1678-1713

The controller of tabu search calls it when the best feasible solution has just been improved
(solver/tabu_search/controller/tabu_search_controller.h:955-964). -/

namespace Printemps.Online
open Presolve

/-- The constraint that is built from the objective function and a value: `objective <= value` when minimising and the
value belongs to a solution, `objective >= value` otherwise, model/model.h:1681-1686. -/
def objectiveCon (m : MState) (z : ℚ) (primal : Bool) : Con :=
  Con.setup (m.obj.subValue z) (if m.isMin && primal then .less else .greater) (fun v => (m.var v).sense)

/-- `is_variable_bound_updated` of preprocess/problem_size_reducer.h:223-509: some bound was replaced (a new bound always
differs from the old one). -/
def boundsChanged (c : Con) (old new : VarId → Var) : Bool :=
  c.expr.terms.any (fun t => decide ((old t.1).lb ≠ (new t.1).lb) || decide ((old t.1).ub ≠ (new t.1).ub))

/-- `update_variable_bounds`, model/model.h:1678-1713.
Simplification: the lists of variables by sense and the generators of moves, which are set up again in 1699-1712 when a
variable was fixed, are computed on demand in Model/Neighborhood; messages and counters are dropped. -/
def updateBounds (z : ℚ) (primal : Bool) (m : MState) : Outcome MState :=
  (tightenConstraint (objectiveCon m z primal) m.var).bind fun r =>
    if boundsChanged (objectiveCon m z primal) m.var r.1 then .ok { m with var := (fixImplicitAll m.varIds r.1).1 }
    else .ok { m with var := r.1 }

/-- The call in the controller, solver/tabu_search/controller/tabu_search_controller.h:955-964: `updated` and
`updatedBefore` are the flags `current_is_feasible_incumbent_updated` and `previous_is_feasible_incumbent_updated`, which
still belong to the two tabu searches before the one that has just ended; `z` is the objective value, as minimised, of
the best feasible solution. -/
def onlineBounding (enabled updated updatedBefore : Bool) (z : ℚ) (m : MState) : Outcome MState :=
  if enabled && updated && !updatedBefore then updateBounds z true m else .ok m

end Printemps.Online
