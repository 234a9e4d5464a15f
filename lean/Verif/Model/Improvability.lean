import Verif.Model.Moves
import Verif.Model.SearchLoop

/-! # Model of the improvability flags, the screening of the moves and the "optimal" verdict

model/model.h, solver/tabu_search/core/tabu_search_core.h, solver/local_search/core/local_search_core.h.
Simplification: `mutable_variable_ptrs` and the lists of mutable variables of an expression are read off the
current `is_fixed` flags (the code collects them in `setup`; nothing is fixed or unfixed during a search). -/

namespace Printemps

namespace MState

/-- `mutable_variable_ptrs`, model/model.h:1029-1058. -/
def mutableIds (m : MState) : List VarId := m.varIds.filter (fun v => !(m.var v).fixed)

/-- `reset_variable_objective_improvabilities`, model/model.h:2462-2475. -/
def resetObjFlags (m : MState) : MState :=
  { m with var := fun v => if v ∈ m.varIds then { m.var v with objImprovable := false } else m.var v }

/-- `reset_variable_feasibility_improvabilities` for variables, model/model.h:2478-2485, 2502-2505. -/
def resetFeasFlags (m : MState) : MState :=
  { m with var := fun v => if v ∈ m.varIds then { m.var v with feasImprovable := false } else m.var v }

/-- `reset_variable_feasibility_improvabilities` for the variables of enabled constraints, model/model.h:2488-2500. -/
def resetFeasFlagsOf (m : MState) (cs : List ConId) : MState :=
  { m with var := fun v =>
      if cs.any (fun c => (m.con c).enabled && decide (v ∈ (m.con c).expr.vars)) then
        { m.var v with feasImprovable := false } else m.var v }

/-- The flag computed by `update_variable_objective_improvabilities`, model/model.h:2518-2526. -/
def objFlag (m : MState) (v : VarId) : Bool :=
  let coefficient := m.objSens v * m.sign
  (decide (coefficient > 0) && (m.var v).hasLowerMargin) || (decide (coefficient < 0) && (m.var v).hasUpperMargin)

/-- `update_variable_objective_improvabilities(variables)`, model/model.h:2514-2530. -/
def updateObjFlags (m : MState) (vs : List VarId) : MState :=
  { m with var := fun v => if v ∈ vs then { m.var v with objImprovable := m.objFlag v } else m.var v }

/-- Whether a violated constraint of value `x` switches on the flag of a variable with coefficient `a`,
model/model.h:2551-2580, model_component/variable.h:378-387, model_component/expression.h:215-226. -/
def feasFlagOf (x a : ℚ) (v : Var) : Bool :=
  if v.fixed then false
  else if x > 0 then (if a > 0 then v.hasLowerMargin else v.hasUpperMargin)
  else (if a > 0 then v.hasUpperMargin else v.hasLowerMargin)

/-- The inner loops over the variables of one constraint, model/model.h:2551-2580. -/
def markCon (x : ℚ) (terms : List (VarId × ℚ)) (var : VarId → Var) : VarId → Var :=
  terms.foldl (fun var t => Function.update var t.1
    { var t.1 with feasImprovable := (var t.1).feasImprovable || feasFlagOf x t.2 (var t.1) }) var

/-- `update_variable_feasibility_improvabilities(constraints)`, model/model.h:2539-2583. -/
def updateFeasFlags (m : MState) (cs : List ConId) : MState :=
  { m with var := cs.foldl (fun var c =>
      if (m.con c).isFeasible then var
      else if !(m.con c).enabled then var
      else markCon (m.con c).value (m.con c).expr.terms var) m.var }

end MState

namespace Screen
open Moves Loop

/-- `option::improvability_screening_mode`, option/enumerate/improvability_screening_mode.h (the value
`Automatic` is replaced by `Intensive`, solver/tabu_search/controller/tabu_search_controller_state_manager.h:89-95). -/
inductive Mode where
  | off | soft | aggressive | intensive
deriving DecidableEq, Repr

/-- The flags after the reset in the constructor of a search, tabu_search_core.h:71-75, local_search_core.h:67-71. -/
def reset (m : MState) : MState := m.resetObjFlags.resetFeasFlags

/-- The update of the objective flags in `update_moves`, tabu_search_core.h:372-377, local_search_core.h:186-191:
all mutable variables first, later those of the last move. -/
def objectiveStep (iteration : ℕ) (mv : Move) (m : MState) : MState :=
  if iteration = 0 then m.updateObjFlags m.mutableIds else m.updateObjFlags (mv.alterations.map Prod.fst)

/-- The update of the feasibility flags in an infeasible state, tabu_search_core.h:386-388, 402-417, 431-443.
`previous` is `previous_is_feasible`. -/
def feasibilityStep (mode : Mode) (iteration : ℕ) (previous : Bool) (mv : Move) (m : MState) : MState :=
  match mode with
  | .off => m
  | .soft => m.resetFeasFlags.updateFeasFlags m.violative
  | .aggressive =>
    if previous || decide (iteration = 0) then m.resetFeasFlags.updateFeasFlags m.violative
    else (m.resetFeasFlagsOf mv.related).updateFeasFlags m.violative
  | .intensive =>
    if iteration = 0 then m.resetFeasFlags.updateFeasFlags m.enabledIds
    else (m.resetFeasFlagsOf mv.related).updateFeasFlags mv.related

/-- The flags of tabu search at one iteration, `update_moves`, tabu_search_core.h:347-453. -/
def tabuFlags (mode : Mode) (iteration : ℕ) (previous : Bool) (mv : Move) (m : MState) : MState :=
  match mode with
  | .off => m
  | mode =>
    let m1 := objectiveStep iteration mv m
    if m1.feasible then m1 else feasibilityStep mode iteration previous mv m1

/-- The three switches that tabu search passes to the neighborhood, tabu_search_core.h:350-452. -/
def tabuAccept (mode : Mode) (feasible : Bool) : Accept :=
  match mode, feasible with
  | .off, _ => ⟨true, true, true⟩
  | _, true => ⟨false, true, false⟩
  | .soft, false => ⟨false, true, true⟩
  | _, false => ⟨false, false, true⟩

/-- The flags of local search at one iteration, local_search_core.h:186-207. -/
def localFlags (iteration : ℕ) (mv : Move) (m : MState) : MState :=
  let m1 := objectiveStep iteration mv m
  if m1.feasible then m1 else m1.resetFeasFlags.updateFeasFlags m1.enabledIds

/-- The switches of local search, local_search_core.h:193-207. -/
def localAccept (feasible : Bool) : Accept := if feasible then ⟨false, true, false⟩ else ⟨false, false, true⟩

/-- A tabu search seen by the flags: the moves made so far and the flags before each choice.  At iteration `k`
the flags are refreshed, then move `k` is executed (tabu_search_core.h:869-1113). -/
def trace (mode : Mode) : ℕ → Bool → Move → MState → List Move → MState
  | k, previous, last, m, [] => tabuFlags mode k previous last m
  | k, previous, last, m, mv :: rest =>
    let m1 := tabuFlags mode k previous last m
    trace mode (k + 1) m1.feasible mv (m1.updateMove mv) rest

/-- The same for local search (local_search_core.h:449-740; simplification: the merging of several moves into one
is part of the choice of the move). -/
def localTrace : ℕ → Move → MState → List Move → MState
  | k, last, m, [] => localFlags k last m
  | k, last, m, mv :: rest => localTrace (k + 1) mv ((localFlags k last m).updateMove mv) rest

/-- `curtail_moves`, tabu_search_core.h:476-480. -/
def curtail (rate : ℚ) (moves : ℕ) : ℤ := ⌊rate * moves⌋

/-- `satisfy_optimal_or_no_move_terminate_condition` of tabu search, tabu_search_core.h:149-189.  The incumbent
objective and the dual bound are `none` while infinite. -/
def tabuVerdict (moves : ℤ) (m : MState) (incumbent bound : Option ℚ) : Option Status :=
  if moves > 0 then
    match incumbent, bound with
    | some f, some d => if |f - d| < EPSILON then some .optimal else none
    | _, _ => none
  else if m.feasible then
    if m.varIds.any (fun v => (m.var v).objImprovable) then some .noMove else some .optimal
  else some .noMove

/-- `satisfy_optimal_or_no_move_terminate_condition` of local search, local_search_core.h:129-160. -/
def localVerdict (moves : ℤ) (m : MState) : Option Status :=
  if moves > 0 then none
  else if m.feasible then
    if m.varIds.any (fun v => (m.var v).objImprovable) then some .noMove else some .optimal
  else some .noMove

end Screen
end Printemps
