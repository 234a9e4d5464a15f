import Verif.Model.Offered
import Verif.Model.Online
import Verif.Model.Whole

/-! # Model of how the searches are put together: the phases of `solve` and the restarts of tabu search

solver/solver.h, solver/lagrange_dual/controller, solver/local_search/controller, solver/tabu_search/controller.

What the searches do between their start and their end, when they end, how many there are, and the values of the penalty
coefficients (see Model/Penalty) are left open (`Plan`); from which solution each of them starts is computed as in the code.
`none` is a thrown error or undefined behaviour. -/

namespace Printemps.Ctl
open Sol Search

/-- `restart.restart_mode`, option/option_utility (`Simple`, `Smart`). -/
inductive Mode where
  | simple | smart
deriving DecidableEq, Repr

/-- The options read here: `restart.restart_mode`, `penalty.is_enabled_inner_stagnation_breaker`,
`penalty.inner_stagnation_threshold`, `penalty.outer_stagnation_threshold`, and `preprocess.is_enabled_presolve` together with
`preprocess.is_enabled_online_bounding`. -/
structure Opt where
  mode : Mode
  innerBreaker : Bool
  innerThreshold : ℤ
  outerThreshold : ℤ
  bounding : Bool := false

/-- The flags for the next search, tabu_search_controller_state_manager.h:535-544. -/
structure Flags where
  useLocal : Bool := false
  useGlobal : Bool := false
  usePrevious : Bool := false
  tighten : Bool := false
  relax : Bool := false
  forced : Bool := false
  reset : Bool := false
deriving DecidableEq, Repr

/-- What the rules for the flags look at: did the last search improve the global augmented incumbent; did it improve no
incumbent at all; is the local augmented incumbent feasible; is `GAP` below its tolerance; is `RELATIVE_RANGE` below its
threshold; was a feasible solution found so far; is the local augmented incumbent better than the last start. -/
structure Facts where
  globalUpdated : Bool
  notUpdated : Bool
  localFeasible : Bool
  gapSmall : Bool
  rangeSmall : Bool
  found : Bool
  improved : Bool
deriving DecidableEq, Repr

/-- `update_initial_solution_and_penalty_coefficient_flags_simple`, tabu_search_controller_state_manager.h:605-636. -/
def flagsSimple (f : Facts) : Flags :=
  if f.globalUpdated then { useLocal := true, relax := true }
  else if f.notUpdated then { useLocal := true, relax := true }
  else if f.localFeasible then { useLocal := true, relax := true }
  else if f.rangeSmall then { useLocal := true, relax := true }
  else { useLocal := true, tighten := true }

/-- `update_initial_solution_and_penalty_coefficient_flags_smart`, tabu_search_controller_state_manager.h:639-760. -/
def flagsSmart (f : Facts) : Flags :=
  if f.globalUpdated then { useGlobal := true, relax := true }
  else if f.notUpdated then { useGlobal := true, forced := true, relax := true }
  else if f.gapSmall then
    if f.localFeasible then { useGlobal := true, forced := true, relax := true }
    else { useGlobal := true, forced := true, tighten := true }
  else if f.localFeasible then { useLocal := true, relax := true }
  else if f.rangeSmall then { useGlobal := true, forced := true, relax := true }
  else if f.found then
    if f.improved then { useLocal := true, tighten := true } else { usePrevious := true, tighten := true }
  else { useLocal := true, forced := true, tighten := true }

/-- `update_penalty_coefficient_reset_flag` with its condition, tabu_search_controller_state_manager.h:282-285, 817-823. -/
def withReset (o : Opt) (outer inner : Bool) (f : Flags) : Flags :=
  if o.innerBreaker && f.tighten then
    if outer && inner then { f with reset := true, useGlobal := true, forced := true } else f
  else f

/-- What the controller of tabu search keeps: the solution from which the next search starts (`current_solution`),
`iteration_after_global_augmented_incumbent_update`, `iteration_after_relaxation`,
`current_is_feasible_incumbent_updated`, `previous_is_feasible_incumbent_updated`. -/
structure State where
  current : Sparse
  sinceGlobal : ℤ := 0
  sinceRelax : ℤ := 0
  feasNow : Bool := false
  feasBefore : Bool := false

/-- `update_current_solution`, tabu_search_controller_state_manager.h:1323-1344 (`previous_solution` is the last start, see
487-489); `none` is the thrown error or a solution that was never stored. -/
def nextSolution (name : VarId → String) (vs : List VarId) (h : Holder Dense) (previous : Sparse) (f : Flags) : Option Sparse :=
  if f.useGlobal then h.globalSol.map (Dense.toSparse name vs)
  else if f.useLocal then h.localSol.map (Dense.toSparse name vs)
  else if f.usePrevious then some previous
  else none

/-- What is left open in one tabu search: what it does after its start, the range of the augmented objective it reports, if
a penalty coefficient exceeded its initial value when last tightened, and the penalty coefficients for the next one. -/
structure Lap where
  body : List Event
  range : ℚ
  exceeded : Bool
  less : ConId → ℚ
  greater : ConId → ℚ

/-- The facts for the rules, tabu_search_controller_state_manager.h:406-420, 519-532, 607-610, 645-659; `status` is
`total_update_status`, `start` the solution from which the search started.  `none` if an incumbent was never stored
(objective `HUGE_VALF`). -/
def facts (h : Holder Dense) (status : ℕ) (range : ℚ) (start : Sparse) : Option Facts :=
  h.globalObj.bind fun g => h.localObj.bind fun l => h.localScore.bind fun sc => h.localSol.map fun d =>
    { globalUpdated := status.testBit 1
      notUpdated := status == 0
      localFeasible := sc.isFeasible
      gapSmall := decide (g - l < EPSILON)
      rangeSmall := decide (range / max 1 |g| < 1 / 100)
      found := h.found
      improved := decide (d.objective < start.objective) || decide (d.totalViolation < start.totalViolation) }

/-- `TabuSearchControllerStateManager::update` as far as the next start is concerned,
tabu_search_controller_state_manager.h:192-396: the flags and the next state. -/
def update (name : VarId → String) (vs : List VarId) (o : Opt) (h : Holder Dense) (status : ℕ) (lap : Lap) (c : State) :
    Option (Flags × State) :=
  (facts h status lap.range c.current).bind fun f =>
    let sinceGlobal := if f.globalUpdated then 0 else c.sinceGlobal + 1
    let outer := !f.found && decide (sinceGlobal ≥ o.outerThreshold)
    let inner := (lap.exceeded || !f.improved) && decide (c.sinceRelax > o.innerThreshold)
    let flags := withReset o outer inner (match o.mode with | .simple => flagsSimple f | .smart => flagsSmart f)
    (nextSolution name vs h c.current flags).map fun d =>
      (flags, ⟨d, sinceGlobal, if flags.relax then 0 else c.sinceRelax + 1, status.testBit 2, c.feasNow⟩)

/-- The status that `try_update_incumbent` returns for the move of an event, tabu_search_core_state_manager.h:254-260
(`1`: local, `2`: global, `4`: feasible incumbent). -/
def statusOf (cfg : Cfg) (s : St) : Event → ℕ
  | .move mv renewed => (s.holder.tryUpdateModel refresh exportDense (afterMove s.model mv)
      (acceptedScore cfg s.model mv renewed s.cur)).2.2
  | _ => 0

/-- A search after its start, with `total_update_status`, tabu_search_core_state_manager.h:62-63, 254-260. -/
def runStatus (cfg : Cfg) : List Event → St → ℕ → Option (St × ℕ)
  | [], s, t => some (s, t)
  | e :: es, s, t => (step cfg s e).bind fun s1 => runStatus cfg es s1 (statusOf cfg s e ||| t)

/-- The start of a search: `setup` of the three cores imports the given solution and exports it again
(tabu_search_core.h:812-813, local_search_core.h:440-441, lagrange_dual_core.h:352-353), and `preprocess` imports the
export.  The first component is the export. -/
def startFrom (name : VarId → String) (cfg : Cfg) (cur : Sparse) (s : St) : Option (Dense × St) :=
  (importSparse name cfg.sels cur s.model).bind fun m =>
    (step cfg { s with model := m } (.start (exportDense m))).map fun s1 => (exportDense m, s1)

/-- The state of the searches, and the events so far. -/
structure Sofar where
  st : St
  done : List Event

/-- One Lagrange dual or local search, lagrange_dual_controller.h:133-140, local_search_controller.h:107-114, and the
solution that the solver keeps afterwards, solver/solver.h:156-179. -/
def phase (name : VarId → String) (cfg : Cfg) (cur : Sparse) (body : List Event) (x : Sofar) : Option (Sparse × Sofar) :=
  (startFrom name cfg cur x.st).bind fun p => (run cfg body p.2).bind fun s =>
    s.holder.globalSol.map fun d => (d.toSparse name s.model.varIds, ⟨s, x.done ++ (.start p.1 :: body)⟩)

/-- The bounding of variables after a tabu search, tabu_search_controller.h:955-964 (the objective value is never missing when
the flags are set). -/
def bound (o : Opt) (c : State) (s : St) : Option St :=
  match Online.onlineBounding o.bounding c.feasNow c.feasBefore (s.holder.feasObj.getD 0) s.model with
  | .ok m => some { s with model := m }
  | _ => none

/-- One round of the controller of tabu search, tabu_search_controller.h:928-1015: a tabu search, the bounding of variables,
the decision about the next start, the new penalty coefficients. -/
def lapStep (name : VarId → String) (cfg : Cfg) (o : Opt) (lap : Lap) (c : State) (x : Sofar) : Option (State × Sofar) :=
  (startFrom name cfg c.current x.st).bind fun p => (runStatus cfg lap.body p.2 0).bind fun q =>
    (bound o c q.1).bind fun b => (update name b.model.varIds o b.holder q.2 lap c).bind fun u =>
      (step cfg b (.penalties lap.less lap.greater)).map fun s =>
        (u.2, ⟨s, x.done ++ (.start p.1 :: lap.body) ++ [.penalties lap.less lap.greater]⟩)

/-- The loop of the controller of tabu search, tabu_search_controller.h:893-1019; the list has one entry for each search. -/
def laps (name : VarId → String) (cfg : Cfg) (o : Opt) : List Lap → State → Sofar → Option Sofar
  | [], _, x => some x
  | lap :: rest, c, x => (lapStep name cfg o lap c x).bind fun r => laps name cfg o rest r.1 r.2

/-- What is left open in a call: what Lagrange dual and local search do (`none`: not enabled or skipped because of time or
target); the tabu searches. -/
structure Plan where
  lagrange : Option (List Event)
  localSearch : Option (List Event)
  laps : List Lap

/-- `satisfy_not_applicable_skip_condition` is false, lagrange_dual_controller.h:50-63. -/
def applicable (m : MState) : Bool :=
  m.varIds.all fun v => decide ((m.var v).sense = .binary ∨ (m.var v).sense = .integer)

/-- The optional phase before tabu search; after a skipped phase the solver's solution is the global incumbent, which it was
before, solver/solver.h:156-179. -/
def optional (name : VarId → String) (cfg : Cfg) (cur : Sparse) (body : Option (List Event)) (x : Sofar) :
    Option (Sparse × Sofar) :=
  match body with
  | some b => phase name cfg cur b x
  | none => some (cur, x)

/-- The solution with which the searches begin, solver/solver.h:403-406. -/
def firstSolution (name : VarId → String) (m : MState) : Sparse := (exportDense m.update).toSparse name m.varIds

/-- The searches of a call, solver/solver.h:393-450.  Simplification: PDLP (432-434) is left out; it imports the first
solution (pdlp_controller.h:157-158), which the next search or the report does again, and changes no incumbent. -/
def searches (name : VarId → String) (cfg : Cfg) (o : Opt) (m : MState) (pl : Plan) : Option Sofar :=
  (optional name cfg (firstSolution name m) (if applicable m then pl.lagrange else none) ⟨begin m, []⟩).bind fun p =>
  (optional name cfg p.1 pl.localSearch p.2).bind fun q =>
  laps name cfg o pl.laps { current := q.1 } q.2

/-- `Solver::solve` after the setup of the model, solver/solver.h:393-457. -/
def solve (name : VarId → String) (cfg : Cfg) (o : Opt) (m : MState) (pl : Plan) : Option (Named × MState) :=
  (searches name cfg o m pl).bind fun x => postprocess cfg.sels x.st.holder x.st.model

/-- `Solver::solve`, solver/solver.h:413-457, for a model of the user. -/
def call (i : Whole.Input) (fast : Bool) (selRel : VarId → List ConId) (name : VarId → String) (o : Opt) (O : MState) (pl : Plan) :
    Option (Named × MState) :=
  (Whole.started i O).bind fun m => solve name (Whole.cfg i fast selRel O) o m pl

/-! ## What the searches do of their own accord -/

variable {ν μ : Type} [LinearOrder ν] [LinearOrder μ]

/-- The moves accepted so far, the last one first. -/
def pastOf (es : List Event) : List Move := es.foldl (fun p e => Nbhd.movesOf e ++ p) []

/-- Tabu search and local search accept moves, and nothing else. -/
def OnlyMoves (es : List Event) : Prop := ∀ e ∈ es, ∃ mv r, e = .move mv r

/-- Lagrange dual sets variables to bounds, and nothing else. -/
def OnlyRelaxes (es : List Event) : Prop := ∀ e ∈ es, ∃ low, e = .relax low

/-- A search that starts from `cur` takes its moves from the neighbourhood. -/
def PhaseObeys (C : Nbhd.Config ν μ) (name : VarId → String) (cfg : Cfg) (cur : Sparse) (body : List Event) (x : Sofar) : Prop :=
  ∀ d s, startFrom name cfg cur x.st = some (d, s) → Nbhd.Follows C cfg (pastOf x.done) s body

/-- The variables with which the generators of 0/1, integer and selection moves were set up last, model/model.h:1699-1711: if a
bounding has fixed variables, they are set up again with the variables after it. -/
def renew (recent : VarId → Var) (m : MState) : VarId → Var :=
  if m.varIds.any (fun v => (m.var v).fixed && !(recent v).fixed) then m.var else recent

/-- The tabu searches take their moves from the neighbourhood, which is set up again as above; penalty coefficients are not
negative (see Model/Penalty). -/
def LapsObey (name : VarId → String) (cfg : Cfg) (o : Opt) : Nbhd.Config ν μ → List Lap → State → Sofar → Prop
  | _, [], _, _ => True
  | C, lap :: rest, c, x => OnlyMoves lap.body ∧ (∀ i, 0 ≤ lap.less i ∧ 0 ≤ lap.greater i) ∧
      PhaseObeys C name cfg c.current lap.body x ∧
      ∀ r, lapStep name cfg o lap c x = some r →
        LapsObey name cfg o { C with recent := renew C.recent r.2.st.model } rest r.1 r.2

/-- All searches of a call take their moves from the neighbourhood. -/
def Obeys (C : Nbhd.Config ν μ) (name : VarId → String) (cfg : Cfg) (o : Opt) (m : MState) (pl : Plan) : Prop :=
  (∀ b, pl.lagrange = some b → OnlyRelaxes b) ∧
  ∀ p, optional name cfg (firstSolution name m) (if applicable m then pl.lagrange else none) ⟨begin m, []⟩ = some p →
    (∀ b, pl.localSearch = some b → OnlyMoves b ∧ PhaseObeys C name cfg p.1 b p.2) ∧
    ∀ q, optional name cfg p.1 pl.localSearch p.2 = some q → LapsObey name cfg o C pl.laps { current := q.1 } q.2

end Printemps.Ctl
