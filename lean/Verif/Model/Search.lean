import Verif.Model.Selection
import Verif.Model.Solution

/-! # Model of a whole search: the states that tabu search, local search and Lagrange dual run through

solver/tabu_search/core/tabu_search_core.h, solver/local_search/core/local_search_core.h,
solver/lagrange_dual/core/lagrange_dual_core.h and their state managers, solver/solver.h.

Simplification: which moves are proposed and chosen, when a search ends, where the next one starts and what the
penalty coefficients are is left open: a search is any list of events.  Tabu search and local search differ only
in how the accepted move is found, so they have the same events here.  Memory, tenure, logging and statistics do
not change what is modelled here. -/

namespace Printemps.Search
open Sol

/-- The options and data that do not change during a search: `general.is_enabled_fast_evaluation`, the selections,
and for each variable the related constraints of its selection (`selection_ptr()->related_constraint_ptrs`). -/
structure Cfg where
  fast : Bool
  sels : List ConId
  selRel : VarId → List ConId

/-- `update_dependent_variables_and_disabled_constraints`, model/model.h:2389-2414. -/
def refresh (m : MState) : MState :=
  let m1 := m.updateExprs.updateDependents
  { m1 with con := fun c =>
      if c ∈ m1.conIds ∧ (m1.con c).enabled = false then (m1.con c).update m1.vals else m1.con c }

/-- `move.alterations.front().first->selection_ptr()->related_constraint_ptrs`, model/model.h:2792-2794 (nothing for
the empty move, which is undefined behaviour). -/
def Cfg.relOf (cfg : Cfg) : List (VarId × ℤ) → List ConId
  | a :: _ => cfg.selRel a.1
  | [] => []

/-- The evaluation of one trial move, tabu_search_core.h:953-981, local_search_core.h:552-570 (there always fast). -/
def trialScore (cfg : Cfg) (m : MState) (mv : Move) (cur : Score) : Score :=
  if cfg.fast then
    if mv.isUnivariable then m.evaluateSingle mv cur
    else if mv.isSelection then
      m.evaluateSelection (cfg.relOf mv.alterations) mv cur
    else m.evaluateMulti mv cur
  else m.evaluateFull mv

/-- The score with which a move is accepted: that of the trial, or a new evaluation of the move after an adjusted
step (tabu_search_core.h:1033-1045) or of a merged move (local_search_core.h:661-665). -/
def acceptedScore (cfg : Cfg) (m : MState) (mv : Move) (renewed : Bool) (cur : Score) : Score :=
  if renewed then m.evaluateMulti mv cur else trialScore cfg m mv cur

/-- What the searches carry along: the model, the score of the current solution (`current_solution_score`), the
incumbents. -/
structure St where
  model : MState
  cur : Score
  holder : Holder Dense

/-- `try_update_incumbent(m_model_ptr, score)` in the state managers: `update_update_status`,
tabu_search_core_state_manager.h:254-260, local_search_core_state_manager.h:117-123,
lagrange_dual_core_state_manager.h:145-151, and in their `setup`. -/
def offer (h : Holder Dense) (m : MState) (sc : Score) : St :=
  let r := h.tryUpdateModel refresh exportDense m sc
  ⟨r.2.1, sc, r.1⟩

/-- What happens during a search. -/
inductive Event where
  /-- a tabu search, local search or Lagrange dual starts from a solution -/
  | start (d : Dense)
  /-- a move is accepted -/
  | move (mv : Move) (renewed : Bool)
  /-- Lagrange dual sets every variable to its lower (`true`) or upper bound -/
  | relax (lower : VarId → Bool)
  /-- the controller changes the local penalty coefficients -/
  | penalties (less greater : ConId → ℚ)

/-- Change of the local penalty coefficients, tabu_search_controller_state_manager.h (see Model/Penalty). -/
def setPenalties (m : MState) (less greater : ConId → ℚ) : MState :=
  { m with con := fun c => { m.con c with penLess := less c, penGreater := greater c } }

/-- The variables of the Lagrange dual, lagrange_dual_core.h:420-455 (the coefficients decide which bound). -/
def relaxed (m : MState) (lower : VarId → Bool) : MState :=
  { m with var := fun v => if v ∈ m.varIds then (m.var v).setLowerOrUpper (lower v) else m.var v }

/-- The loop after a merged move of local search, local_search_core.h:672-678 with `select`, model_component/variable.h:485-487:
a selection variable that became 1 is the selected one (through a null pointer if it belongs to no selection; here
nothing happens). -/
def selectMarked (m : MState) (alts : List (VarId × ℤ)) : MState :=
  { m with selected := alts.foldl (fun (sel : ConId → Option VarId) (a : VarId × ℤ) =>
      if (m.var a.1).sense = .selection ∧ a.2 = 1 then
        match (m.var a.1).selection with
        | some s => Function.update sel s (some a.1)
        | none => sel
      else sel) m.selected }

/-- The model after an accepted move.  The merged moves of local search are the moves of the kind `General`
(neighborhood/move.h:45-55), which no generator makes. -/
def afterMove (m : MState) (mv : Move) : MState :=
  if mv.sense = .general then selectMarked (m.updateMove mv) mv.alterations else m.updateMove mv

/-- One event; `none` is a thrown error.
`start`: `preprocess` of the three cores, tabu_search_core.h:40-77, local_search_core.h:34-72,
lagrange_dual_core.h:34-60, with the `setup` of their state managers.
`move`: tabu_search_core.h:1047-1061, local_search_core.h:661-691.
`relax`: lagrange_dual_core.h:420-466. -/
def step (cfg : Cfg) (s : St) : Event → Option St
  | .start d => (importDense cfg.sels d s.model).map fun m =>
      offer s.holder.resetLocal m.update (m.update.evaluateFull { alterations := [] })
  | .move mv renewed =>
      some (offer s.holder (afterMove s.model mv) (acceptedScore cfg s.model mv renewed s.cur))
  | .relax lower =>
      let m := (relaxed s.model lower).update
      some (offer s.holder m (m.evaluateFull { alterations := [] }))
  | .penalties less greater => some { s with model := setPenalties s.model less greater }

/-- The events one after the other. -/
def run (cfg : Cfg) : List Event → St → Option St
  | [], s => some s
  | e :: es, s => (step cfg s e).bind (run cfg es)

/-- The end of `Solver::preprocess`, solver/solver.h:393-406: the model is updated and its solution is the first
incumbent. -/
def begin (m : MState) : St :=
  ⟨m.update, m.update.evaluateFull { alterations := [] },
    (Holder.init.tryUpdate (exportDense m.update) (m.update.evaluateFull { alterations := [] })).1⟩

/-- `Solver::solve` after the setup of the model, solver/solver.h:393-457: search, then report. -/
def solve (cfg : Cfg) (m : MState) (es : List Event) : Option (Named × MState) :=
  (run cfg es (begin m)).bind fun s => postprocess cfg.sels s.holder s.model

end Printemps.Search
