import Verif.Model.Learner
import Verif.Model.Model
import Verif.Model.TabuSearch

/-! # Model of how the options of the tabu searches of a call are chosen

solver/tabu_search/controller/tabu_search_controller_state_manager.h (what is not in Model/Controller and Model/Penalty),
solver/solver.h:80-102, 320-345.

What a search found is left open (`Lap`), and so are the flags computed in Model/Controller.  Arithmetic on `int` is that of
ℤ. -/

namespace Printemps.Tuning
open Ucb1

/-- `option::improvability_screening_mode`, option/option_utility. -/
inductive Screening where
  | off | soft | aggressive | intensive | automatic
deriving DecidableEq, Repr

/-- The options of one of the two parallel stages (updating and evaluating moves), option/parallel_option.h:36-45. -/
structure Par where
  enabled : Bool
  automatic : Bool
  decay : ℚ
  threads : ℤ
deriving DecidableEq, Repr

/-- The machine: compiled with OpenMP or not, and the number of threads (`omp_get_max_threads()`). -/
structure Machine where
  openMP : Bool
  threads : ℕ
deriving DecidableEq, Repr

/-- The options read or written here, option/tabu_search_option.h:43-72, option/neighborhood_option.h,
option/parallel_option.h.  `special` are the options `is_enabled_..._move` of the special kinds of moves. -/
structure Opt where
  screening : Screening
  iterationMax : ℤ
  timeOffset : ℚ
  tenure : ℤ
  fixedRate : ℚ
  randomRate : ℚ
  pruning : ℚ
  increaseRate : ℚ
  autoTenure : Bool
  autoIteration : Bool
  modification : Bool
  modifications : ℤ
  seed : ℤ
  special : MoveSense → Bool
  update : Par
  evaluation : Par

/-- The adjustment of the number of threads at the beginning of a call, solver/solver.h:320-345. -/
def adjustThreads (w : Machine) (p : Par) : Par :=
  if w.openMP then if p.threads ≤ 0 then { p with threads := w.threads } else p
  else { p with threads := 1 }

/-- `thread_patterns`, tabu_search_controller_state_manager.h:114-124; the first argument bounds the number of rounds. -/
def patterns (max : ℕ) : ℕ → ℕ → Option (List ℕ)
  | 0, _ => none
  | fuel + 1, n => if n < max then (patterns max fuel (n * 2)).map (n :: ·) else some [max]

/-- What the controller keeps for one parallel stage: `is_enabled_..._parallelization`, `number_of_threads_...`,
`parallelization_controller_...`, `total_number_of_threads_...`, `averaged_number_of_threads_...`. -/
structure ParState where
  enabled : Bool
  threads : ℤ
  learner : Learner
  total : ℤ := 0
  averaged : ℚ := 0

/-- The setup of one parallel stage, tabu_search_controller_state_manager.h:97-159. -/
def setupPar (w : Machine) (p : Par) : Option ParState :=
  if w.openMP && (p.enabled && p.automatic) then
    (patterns w.threads (w.threads + 1) 1).bind fun l =>
      let learner := Ucb1.setup (l.map fun n : ℕ => ({ body := (n : ℤ) } : Action)) p.decay
      learner.bestBody.map fun t => { enabled := p.enabled, threads := t, learner := learner }
  else some { enabled := p.enabled, threads := p.threads, learner := Ucb1.setup [] 0 }

/-- `update_parallelization_controllers` and `update_move_..._parallelization` for one stage,
tabu_search_controller_state_manager.h:1370-1459; `score` is the number of moves per second, `iteration` the number of the
search. -/
def updatePar (w : Machine) (bonus : ℕ → ℕ → ℚ) (p : Par) (score : ℚ) (iteration : ℤ) (s : ParState) : Option ParState :=
  let learner := if w.openMP && (p.enabled && p.automatic) then s.learner.learn bonus score else some s.learner
  learner.bind fun L =>
    let total := s.total + if s.enabled then s.threads else 1
    let averaged : ℚ := total / ((iteration : ℚ) + 1)
    if w.openMP then
      if p.enabled && p.automatic then
        L.bestBody.map fun t => ⟨decide (t > 1), t, L, total, averaged⟩
      else some ⟨p.enabled, w.threads, L, total, averaged⟩
    else some ⟨p.enabled, s.threads, L, total, averaged⟩

/-- What the controller keeps: `improvability_screening_mode`, `initial_tabu_tenure`, `pruning_rate_threshold`,
`number_of_initial_modification`, `iteration_max`, the two parallel stages, which generators are enabled
(neighborhood/abstract_move_generator.h:21), `iteration`, `relaxation_count`, `total_elapsed_time`. -/
structure State where
  screening : Screening
  tenure : ℤ
  pruning : ℚ
  modifications : ℤ := 0
  iterationMax : ℤ
  update : ParState
  evaluation : ParState
  kinds : MoveSense → Bool
  iteration : ℤ := 0
  relaxations : ℤ := 0
  elapsed : ℚ := 0

/-- What a search found, and what else the update reads: `is_global_augmented_incumbent_updated`, `is_not_updated`,
termination with `NO_MOVE`, `is_few_permissible_neighborhood`, `is_found_new_feasible_solution`, `is_outer_stagnation`,
`is_enabled_forcibly_initial_modification`, `is_enabled_penalty_coefficient_relaxing` (Model/Controller), the test of the
intensities, `number_of_iterations`, `last_local_augmented_incumbent_update_iteration`, `tabu_tenure`, the clock when
the next search begins, the moves per second of the two stages, the next random number, the
number of mutable variables and which generators have moves. -/
structure Lap where
  globalUpdated : Bool
  notUpdated : Bool
  noMove : Bool
  fewPermissible : Bool
  foundFeasible : Bool
  outer : Bool
  forced : Bool
  relax : Bool
  busy : Bool
  iterations : ℤ
  lastLocal : ℤ
  tenure : ℤ
  clock : ℚ
  updateScore : ℚ
  evaluationScore : ℚ
  random : ℕ
  mutableVars : ℕ
  hasMoves : MoveSense → Bool

/-- `setup`, tabu_search_controller_state_manager.h:48-161, with the generators as `enable_default_neighborhood` leaves them,
solver/solver.h:80-102 (`base`: the options of the kinds binary, integer, selection and user-defined with the condition that
there are moves).  `none`: access through a null pointer. -/
def setup (w : Machine) (o : Opt) (base : MoveSense → Bool) (clock : ℚ) : Option State :=
  (setupPar w o.update).bind fun u => (setupPar w o.evaluation).map fun e =>
    { screening := if o.screening = .automatic then .intensive else o.screening
      tenure := o.tenure
      pruning := o.pruning
      iterationMax := o.iterationMax
      update := u
      evaluation := e
      kinds := base
      elapsed := clock }

/-- `create_option`, tabu_search_controller_state_manager.h:164-189. -/
def createOption (o : Opt) (s : State) : Opt :=
  { o with
    update := { o.update with enabled := s.update.enabled, threads := s.update.threads }
    evaluation := { o.evaluation with enabled := s.evaluation.enabled, threads := s.evaluation.threads }
    screening := s.screening
    iterationMax := s.iterationMax
    timeOffset := s.elapsed
    seed := s.iteration
    modifications := s.modifications
    tenure := s.tenure
    pruning := s.pruning }

/-- `update_improvability_screening_mode`, tabu_search_controller_state_manager.h:547-603; `relaxations` is
`relaxation_count`. -/
def nextScreening (l : Lap) (relaxations : ℤ) : Screening :=
  if l.noMove then .soft
  else if l.globalUpdated then .intensive
  else if l.fewPermissible then .soft
  else if !l.foundFeasible then
    if l.outer then if relaxations.tmod 2 = 0 then .intensive else .aggressive else .aggressive
  else .soft

/-- `static_cast<int>` of a double: truncation towards zero (outside the range of `int` this is undefined, which is not
modelled), as in tabu_search_controller_state_manager.h:1058, 1062. -/
def toInt (x : ℚ) : ℤ := if 0 ≤ x then ⌊x⌋ else ⌈x⌉

/-- `update_number_of_initial_modification`, tabu_search_controller_state_manager.h:1045-1075; the sum of unsigned numbers is
converted to `int` and so is that of ℤ. -/
def nextModifications (o : Opt) (l : Lap) (tenure : ℤ) : ℤ :=
  if l.globalUpdated then 0
  else if !l.forced then 0
  else
    let n := toInt ⌊o.fixedRate * tenure⌋
    let width := toInt (o.randomRate * n)
    let n := if width > 0 then n + ((l.random : ℤ) % (2 * width) - width) else n
    max 1 n

/-- `update_pruning_rate_threshold`, tabu_search_controller_state_manager.h:1104-1109. -/
def nextPruning (o : Opt) (iterationMax : ℤ) : ℚ := if iterationMax = o.iterationMax then o.pruning else 1

/-- The special kinds of moves, tabu_search_controller_state_manager.h:1112-1186. -/
def isSpecial : MoveSense → Bool
  | .exclusiveOr | .exclusiveNor | .invertedIntegers | .balancedIntegers | .constantSum | .constantDifference
  | .constantRatio | .aggregation | .precedence | .variableBound | .trinomialExclusiveNor | .softSelection | .chain
  | .twoFlip => true
  | _ => false

/-- `disable_special_neighborhood_moves`, tabu_search_controller_state_manager.h:1112-1186. -/
def disableSpecial (o : Opt) (kinds : MoveSense → Bool) : MoveSense → Bool := fun k =>
  if isSpecial k && o.special k then false else kinds k

/-- `enable_special_neighborhood_moves`, tabu_search_controller_state_manager.h:1189-1286. -/
def enableSpecial (o : Opt) (hasMoves kinds : MoveSense → Bool) : MoveSense → Bool := fun k =>
  if isSpecial k && (o.special k && hasMoves k) then true else kinds k

/-- The update of the enabled generators, tabu_search_controller_state_manager.h:329-345. -/
def nextKinds (o : Opt) (l : Lap) (kinds : MoveSense → Bool) : MoveSense → Bool :=
  if l.globalUpdated then disableSpecial o kinds
  else if l.iterations = o.iterationMax then enableSpecial o l.hasMoves kinds
  else kinds

/-- `update` as far as the options of the next search are concerned, tabu_search_controller_state_manager.h:192-396, with
`next_iteration` and `set_total_elapsed_time` after it, tabu_search_controller.h:902, 983-1015. -/
def update (w : Machine) (bonus : ℕ → ℕ → ℚ) (o : Opt) (l : Lap) (s : State) : Option State :=
  let screening := if o.screening = .automatic then nextScreening l s.relaxations else s.screening
  let tenure := if o.autoTenure then
      Tabu.nextInitialTenure o.tenure l.mutableVars l.globalUpdated l.notUpdated l.busy l.tenure s.tenure
    else s.tenure
  let iterationMax := if o.autoIteration then
      Tabu.nextIterationMax o.iterationMax o.tenure o.increaseRate l.globalUpdated l.iterations l.lastLocal s.iterationMax
    else s.iterationMax
  (updatePar w bonus o.update l.updateScore s.iteration s.update).bind fun u =>
    (updatePar w bonus o.evaluation l.evaluationScore s.iteration s.evaluation).map fun e =>
      { screening := screening
        tenure := tenure
        modifications := if o.modification then nextModifications o l tenure else s.modifications
        iterationMax := iterationMax
        pruning := if o.autoIteration then nextPruning o iterationMax else s.pruning
        update := u
        evaluation := e
        kinds := nextKinds o l s.kinds
        iteration := s.iteration + 1
        relaxations := if l.relax then s.relaxations + 1 else s.relaxations
        elapsed := l.clock }

/-- The states of the controller before each search of a call, tabu_search_controller.h:893-1016. -/
def states (w : Machine) (bonus : ℕ → ℕ → ℚ) (o : Opt) : List Lap → State → Option (List State)
  | [], s => some [s]
  | l :: ls, s => (update w bonus o l s).bind fun s1 => (states w bonus o ls s1).map (s :: ·)

/-- The options as the searches see them: `m_option` of the controller is that of the call with the number of threads
adjusted. -/
def adjusted (w : Machine) (o : Opt) : Opt :=
  { o with update := adjustThreads w o.update, evaluation := adjustThreads w o.evaluation }

/-- All searches of a call: the state of the controller and the options for each of them, solver/solver.h:320-345,
tabu_search_controller.h:60-76, 893-1016. -/
def searches (w : Machine) (bonus : ℕ → ℕ → ℚ) (o : Opt) (base : MoveSense → Bool) (clock : ℚ) (laps : List Lap) :
    Option (List (State × Opt)) :=
  (setup w (adjusted w o) base clock).bind fun s0 => (states w bonus (adjusted w o) laps s0).map fun l =>
    l.map fun s => (s, createOption (adjusted w o) s)

end Printemps.Tuning
