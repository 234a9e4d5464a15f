import Verif.Model.TabuSearch

/-! # Model of the search loops

Everything that is not control flow (the model, the clock, the incumbents, the random generator) is an
arbitrary world `W` that the steps of the loops read and change. -/

namespace Printemps.Loop

/-- The termination statuses of tabu search, local search and Lagrange dual,
solver/tabu_search/core/tabu_search_core_termination_status.h:11-19,
solver/local_search/core/local_search_core_termination_status.h:11-18,
solver/lagrange_dual/core/lagrange_dual_core_termination_status.h:11-16. -/
inductive Status where
  | timeOver | iterationOver | noMove | reachTarget | earlyStop | optimal | penaltyTooLarge | localOptimal | converge
deriving DecidableEq, Repr

/-- How a loop ended: status, value of the iteration counter, number of times the body was executed, world. -/
structure Result (W : Type) where
  status : Status
  iteration : ℤ
  runs : ℕ
  world : W

/-- The common shape of the three loops: tests at the top, preparation of the moves, tests of the moves, body,
test at the end; solver/tabu_search/core/tabu_search_core.h:869-1113,
solver/local_search/core/local_search_core.h:495-715, solver/lagrange_dual/core/lagrange_dual_core.h:396-499.
`none` is a loop that needs more than `fuel` rounds. -/
def loop {W : Type} (test : ℤ → W → Option Status) (prepare : ℤ → W → W) (verdict : W → Option Status)
    (body : ℤ → W → W) (after : ℤ → W → Option Status) : ℕ → ℤ → ℕ → W → Option (Result W)
  | 0, _, _, _ => none
  | fuel + 1, it, runs, w =>
    match test it w with
    | some s => some ⟨s, it, runs, w⟩
    | none =>
      let w1 := prepare it w
      match verdict w1 with
      | some s => some ⟨s, it, runs, w1⟩
      | none =>
        let w2 := body it w1
        match after it w2 with
        | some s => some ⟨s, it, runs + 1, w2⟩
        | none => loop test prepare verdict body after fuel (it + 1) (runs + 1) w2

/-- The options of one loop: `time_max`, `time_offset`, `general.time_max`, `iteration_max`,
`general.target_objective_value` (`none` is the default `-HUGE_VALF`), `pruning_rate_threshold`. -/
structure Opt where
  timeMax : ℚ
  timeOffset : ℚ
  generalTimeMax : ℚ
  iterationMax : ℤ
  target : Option ℚ
  pruningRate : ℚ := 1

/-- What the loops read from the world: clock, feasible incumbent objective (`none` is `HUGE_VALF`), number of
ineffective updates. -/
structure Reads (W : Type) where
  clock : W → ℚ
  feasibleIncumbent : W → Option ℚ
  ineffective : W → ℕ

/-- `satisfy_time_over_terminate_condition`, tabu_search_core.h:92-108, local_search_core.h:86-102,
lagrange_dual_core.h:74-91. -/
def timeOver {W : Type} (o : Opt) (r : Reads W) (w : W) : Bool :=
  decide (r.clock w > o.timeMax) || decide (r.clock w + o.timeOffset > o.generalTimeMax)

/-- `satisfy_iteration_over_terminate_condition`, tabu_search_core.h:111-120, local_search_core.h:105-114,
lagrange_dual_core.h:94-104. -/
def iterationOver (o : Opt) (it : ℤ) : Bool := decide (it ≥ o.iterationMax)

/-- `satisfy_reach_target_terminate_condition`, tabu_search_core.h:123-132, local_search_core.h:117-126,
lagrange_dual_core.h:107-118. -/
def reachTarget {W : Type} (o : Opt) (r : Reads W) (w : W) : Bool :=
  match r.feasibleIncumbent w, o.target with
  | some f, some t => decide (f ≤ t)
  | _, _ => false

/-- `satisfy_early_stop_terminate_condition`, tabu_search_core.h:135-146. -/
def earlyStop {W : Type} (o : Opt) (r : Reads W) (w : W) : Bool :=
  decide ((r.ineffective w : ℚ) > o.pruningRate * o.iterationMax)

/-- The tests at the top of the local search and Lagrange dual loops, local_search_core.h:496-518,
lagrange_dual_core.h:397-418. -/
def basicTest {W : Type} (o : Opt) (r : Reads W) (it : ℤ) (w : W) : Option Status :=
  if timeOver o r w then some .timeOver
  else if iterationOver o it then some .iterationOver
  else if reachTarget o r w then some .reachTarget
  else none

/-- The tests at the top of the tabu search loop, tabu_search_core.h:870-899. -/
def tabuTest {W : Type} (o : Opt) (r : Reads W) (it : ℤ) (w : W) : Option Status :=
  match basicTest o r it w with
  | some s => some s
  | none => if earlyStop o r w then some .earlyStop else none

/-- The body of the tabu search loop as far as the control flow needs it: preparation (update, shuffle and
curtail the moves), the optimal / no-move test, the rest of the body, and the test of the penalty
coefficients, tabu_search_core.h:901-1110. -/
structure TabuSteps (W : Type) where
  prepare : ℤ → W → W
  verdict : W → Option Status
  body : ℤ → W → W
  tooLarge : ℤ → W → Bool

/-- `TabuSearchCore::run`, tabu_search_core.h:821-1136; `autoBreak` is `is_enabled_automatic_break`. -/
def tabuRun {W : Type} (o : Opt) (autoBreak : Bool) (r : Reads W) (s : TabuSteps W) (fuel : ℕ) (w : W) : Option (Result W) :=
  loop (tabuTest o r) s.prepare s.verdict s.body
    (fun it w => if autoBreak && s.tooLarge it w then some .penaltyTooLarge else none) fuel 0 0 w

/-- The steps of the local search loop: update of the moves, optimal / no-move test and local optimality test,
rest of the body, local_search_core.h:520-713. -/
structure LocalSteps (W : Type) where
  prepare : ℤ → W → W
  verdict : W → Option Status
  body : ℤ → W → W

/-- `LocalSearchCore::run`, local_search_core.h:449-740. -/
def localRun {W : Type} (o : Opt) (r : Reads W) (s : LocalSteps W) (fuel : ℕ) (w : W) : Option (Result W) :=
  loop (basicTest o r) s.prepare s.verdict s.body (fun _ _ => none) fuel 0 0 w

/-- `LagrangeDualCore::run`, lagrange_dual_core.h:361-524: body and convergence test. -/
def lagrangeRun {W : Type} (o : Opt) (r : Reads W) (body : ℤ → W → W) (converged : W → Bool) (fuel : ℕ) (w : W) :
    Option (Result W) :=
  loop (basicTest o r) (fun _ w => w) (fun _ => none) body (fun _ w => if converged w then some .converge else none) fuel 0 0 w

/-- What the tabu search controller keeps between loops: the iteration limit of the next tabu search, the
status of the last one, and the total number of inner iterations (a ghost counter). -/
structure Outer (W : Type) where
  world : W
  iterationMax : ℤ
  last : Option Status
  total : ℕ

/-- The options of the controller: the options of the tabu search, `general.iteration_max`,
`initial_tabu_tenure`, `iteration_increase_rate`, `is_enabled_automatic_iteration_adjustment`. -/
structure OuterOpt where
  inner : Opt
  iterationMax : ℤ
  tenure : ℤ
  rate : ℚ
  adjust : Bool

/-- Reads of the controller from a finished tabu search: whether the global incumbent was updated and the last
iteration that updated the local incumbent. -/
structure OuterReads (W : Type) where
  globalUpdated : W → Bool
  lastUpdate : W → ℤ

/-- One round of the controller loop, solver/tabu_search/controller/tabu_search_controller.h:936-1015: run the
tabu search with the current limit, then adjust the limit (the rest of the update is `finish`). -/
def outerRound {W : Type} (o : OuterOpt) (autoBreak : Bool) (r : Reads W) (s : TabuSteps W) (q : OuterReads W)
    (finish : W → W) (st : Outer W) : Option (Outer W) :=
  (tabuRun { o.inner with iterationMax := st.iterationMax } autoBreak r s (st.iterationMax.toNat + 1) st.world).map fun res =>
    { world := finish res.world
      iterationMax := if o.adjust then
          Tabu.nextIterationMax o.inner.iterationMax o.tenure o.rate (q.globalUpdated res.world) res.iteration
            (q.lastUpdate res.world) st.iterationMax
        else st.iterationMax
      last := some res.status
      total := st.total + res.runs }

/-- `TabuSearchController::run`, tabu_search_controller.h:893-1019.  Returns the number of rounds and the state. -/
def outerLoop {W : Type} (o : OuterOpt) (autoBreak : Bool) (r : Reads W) (s : TabuSteps W) (q : OuterReads W)
    (finish : W → W) : ℕ → ℕ → Outer W → Option (ℕ × Outer W)
  | 0, _, _ => none
  | fuel + 1, it, st =>
    if r.clock st.world > o.inner.generalTimeMax then some (it, st)
    else if (it : ℤ) ≥ o.iterationMax then some (it, st)
    else if reachTarget o.inner r st.world then some (it, st)
    else if it > 0 ∧ st.last = some .optimal then some (it, st)
    else (outerRound o autoBreak r s q finish st).bind (outerLoop o autoBreak r s q finish fuel (it + 1))

end Printemps.Loop
