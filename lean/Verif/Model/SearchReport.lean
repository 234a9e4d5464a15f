import Verif.Model.Archive
import Verif.Model.Incumbent

/-! # Model of what a tabu search reports about itself

solver/tabu_search/core/tabu_search_core_state_manager.h:45-390, tabu_search_core_result.h:81-125, and the parts of
tabu_search_core.h that call them.  What a search visits is left open (`Visit`); tabu tenures are in Model/TabuSearch. -/

namespace Printemps.Report

/-- One visited solution: the solution, its score, the flags `is_permissible` of all trial moves and the scores of all trial
solutions of the iteration. -/
structure Visit (α : Type) where
  sol : α
  score : Score
  permissible : List Bool
  trials : List Score

/-- `utility::Range`, utility/range.h:12-56; before the first value it is not read. -/
structure Range where
  lo : ℚ
  hi : ℚ
deriving DecidableEq, Repr

/-- `Range::update`, utility/range.h:24-27. -/
def Range.update (x : ℚ) (r : Range) : Range := ⟨min r.lo x, max r.hi x⟩

/-- `Range::max_abs`, utility/range.h:46-48. -/
def Range.maxAbs (r : Range) : ℚ := max |r.hi| |r.lo|

/-- `Range::range`, utility/range.h:51-53. -/
def Range.range (r : Range) : ℚ := r.hi - r.lo

/-- The part of `TabuSearchCoreState` (tabu_search_core_state.h:14-91) kept here, with the incumbents it writes to;
`penaltyMin` is the minimum of `local_penalty_range`, `none` is `HUGE_VALF`. -/
structure Tally (α : Type) where
  holder : Holder α
  current : Score
  previous : Score
  status : ℕ
  total : ℕ := 0
  effective : ℕ := 0
  ineffective : ℕ := 0
  objective : Range
  localAug : Range
  globalAug : Range
  penaltyMin : Option ℚ
  found : Bool := false
  lastLocal : ℤ := -1
  lastGlobal : ℤ := -1
  lastFeasible : ℤ := -1
  few : Bool := false
  iteration : ℤ := 0
  evaluated : ℕ := 0

variable {α : Type}

/-- `min` of a possibly infinite number with a finite one, utility/range.h:25. -/
def minWith (a : Option ℚ) (x : ℚ) : Option ℚ := some (match a with | none => x | some y => min y x)

/-- `setup`, tabu_search_core_state_manager.h:45-122, after `reset_local_augmented_incumbent`, tabu_search_core.h:43, 77. -/
def begin_ (h : Holder α) (sol : α) (sc : Score) : Tally α :=
  let r := h.resetLocal.tryUpdate sol sc
  { holder := r.1
    current := sc
    previous := sc
    status := r.2
    objective := ⟨sc.objective, sc.objective⟩
    localAug := ⟨sc.localAug, sc.localAug⟩
    globalAug := ⟨sc.globalAug, sc.globalAug⟩
    penaltyMin := if sc.isFeasible then none else some sc.localPenalty }

/-- Test of a status bit, solution/incumbent_holder.h:16-22. -/
def bit (b status : ℕ) : Bool := decide (status &&& b ≠ 0)

/-- `update_number_of_effective_updates`, tabu_search_core_state_manager.h:224-232. -/
def nextEffective (status : ℕ) (cur prev : Score) (n : ℕ) : ℕ :=
  if bit 1 status && decide (cur.globalAug < prev.globalAug) then n + 1 else n

/-- `update_number_of_ineffective_updates`, tabu_search_core_state_manager.h:235-251. -/
def nextIneffective (status : ℕ) (cur prev : Score) (n : ℕ) : ℕ :=
  if decide (status = 1) && decide (cur.globalAug > prev.globalAug) then n + 1
  else if bit 2 status then 0 else n

/-- `update_number_of_neighborhoods` as far as `is_few_permissible_neighborhood` is concerned,
tabu_search_core_state_manager.h:347-390. -/
def nextFew (logInterval : ℤ) (iteration : ℤ) (status : ℕ) (permissible : List Bool) (few : Bool) : Bool :=
  if decide (iteration.tmod (max logInterval 1) = 0) || decide (status > 0) then
    if permissible.countP id = 0 then true else few
  else if !permissible.any id then true else few

/-- `update`, tabu_search_core_state_manager.h:125-207, without the tabu tenure. -/
def visit (logInterval : ℤ) (v : Visit α) (t : Tally α) : Tally α :=
  let r := t.holder.tryUpdate v.sol v.score
  { t with
    holder := r.1
    previous := t.current
    current := v.score
    status := r.2
    total := r.2 ||| t.total
    effective := nextEffective r.2 v.score t.current t.effective
    ineffective := nextIneffective r.2 v.score t.current t.ineffective
    objective := t.objective.update v.score.objective
    localAug := t.localAug.update v.score.localAug
    globalAug := t.globalAug.update v.score.globalAug
    penaltyMin := if v.score.isFeasible then t.penaltyMin else minWith t.penaltyMin v.score.localPenalty
    found := if v.score.isFeasible then true else t.found
    lastLocal := if bit 1 r.2 then t.iteration else t.lastLocal
    lastGlobal := if bit 2 r.2 then t.iteration else t.lastGlobal
    lastFeasible := if bit 4 r.2 then t.iteration else t.lastFeasible
    few := nextFew logInterval t.iteration r.2 v.permissible t.few }

/-- One round of the loop, tabu_search_core.h:1010-1112: `update_move_evaluation_statistics`
(tabu_search_core_state_manager.h:499-503), `update`, and `next_iteration` (487-489) unless the loop is left. -/
def round (logInterval : ℤ) (leave : Bool) (v : Visit α) (t : Tally α) : Tally α :=
  let t1 := visit logInterval v { t with evaluated := t.evaluated + v.trials.length }
  if leave then t1 else { t1 with iteration := t1.iteration + 1 }

/-- The rounds of the loop, tabu_search_core.h:869-1113; `broken`: the last one leaves the loop. -/
def rounds (logInterval : ℤ) (broken : Bool) : List (Visit α) → Tally α → Tally α
  | [], t => t
  | [v], t => round logInterval broken v t
  | v :: vs, t => rounds logInterval broken vs (round logInterval false v t)

/-- A search: where it starts, what it visits in the initial modification and in the rounds of its loop. -/
structure Search (α : Type) where
  start : α
  startScore : Score
  modifications : List (Visit α)
  iterations : List (Visit α)
  broken : Bool

/-- The state at the end of a search: `preprocess` (tabu_search_core.h:39-80) with `initial_modification` (243-344),
`reset_iteration` and the loop (867-1113). -/
def tally (logInterval : ℤ) (h : Holder α) (s : Search α) : Tally α :=
  let t0 := begin_ h s.start s.startScore
  let t1 := s.modifications.foldl (fun t v => visit logInterval v t) t0
  rounds logInterval s.broken s.iterations { t1 with iteration := 0 }

/-- `OBJECTIVE_CONSTRAINT_RATE`, tabu_search_core_result.h:110-113; dividing by `HUGE_VALF` gives 0. -/
def rate (t : Tally α) : ℚ :=
  match t.penaltyMin with
  | none => 0
  | some p => max 1 (max t.objective.maxAbs t.objective.range) / max 1 p

/-- `PERFORMANCE`, tabu_search_core_result.h:115-117; `none`: division by zero. -/
def performance (t : Tally α) : Option ℚ :=
  if t.iteration = 0 then none else some ((t.effective : ℚ) / t.iteration)

/-- `satisfy_early_stop_terminate_condition`, tabu_search_core.h:135-146. -/
def earlyStop (threshold : ℚ) (iterationMax : ℤ) (t : Tally α) : Bool :=
  decide ((t.ineffective : ℚ) > threshold * iterationMax)

/-- The smallest local penalty among infeasible trial solutions, tabu_search_core.h:207-220. -/
def minInfeasible : List Score → Option ℚ
  | [] => none
  | s :: l => if s.isFeasible then minInfeasible l else some (match minInfeasible l with
    | none => s.localPenalty
    | some p => min s.localPenalty p)

/-- `MAX_OBJECTIVE_SENSITIVITY`, tabu_search_core.h:222-231: the larger one of the largest improvement and the negated
smallest one. -/
def sensitivity : List Score → Option (ℚ × ℚ)
  | [] => none
  | s :: l => some (match sensitivity l with
    | none => (s.objectiveImprovement, s.objectiveImprovement)
    | some (lo, hi) => (min s.objectiveImprovement lo, max s.objectiveImprovement hi))

/-- `satisfy_penalty_coefficient_too_large_terminate_condition`, tabu_search_core.h:192-240. -/
def tooLarge (trials : List Score) (t : Tally α) : Bool :=
  if t.iteration ≤ 10 then false
  else if !t.current.isFeasible then false
  else match minInfeasible trials, sensitivity trials with
    | some p, some (lo, hi) => decide (max hi (-lo) * 100 < p)
    | _, _ => false

/-- The feasible solutions stored by a search, tabu_search_core.h:1082-1088 (the start and the initial modification are not
stored, 39-80). -/
def feasibleSolutions (s : Search α) : List α := (s.iterations.filter (fun v => v.score.isFeasible)).map Visit.sol

/-- The incumbent solutions stored by a search, tabu_search_core.h:1123-1130. -/
def incumbentSolutions (t : Tally α) : List α := if bit 2 t.total then t.holder.globalSol.toList else []

end Printemps.Report
