import Verif.Model.Incumbent
import Verif.Model.Memory

/-! # Model of the tabu search core: permissibility, tenure, total scores and the choice of a move

solver/tabu_search/core/*.h.  `int` does not overflow. -/

namespace Printemps.Tabu

/-- `option::tabu_mode`, option/enumerate/tabu_mode.h. -/
inductive Mode where
  | all | any
deriving DecidableEq, Repr

/-- `VariableConstant::INITIAL_LOCAL_LAST_UPDATE_ITERATION`, model_component/variable.h:29-31. -/
def INITIAL_LAST_UPDATE : ℤ := -1000

/-- `compute_permissibility`, solver/tabu_search/core/tabu_search_core_move_evaluator.h:50-84.  `last` gives
`local_last_update_iteration` of each variable. -/
def permissible (mode : Mode) (sense : MoveSense) (last : VarId → ℤ) (alts : List (VarId × ℤ)) (duration : ℤ) : Bool :=
  if mode = .all ∧ sense ≠ .selection then alts.any (fun a => decide (duration ≥ last a.1))
  else alts.all (fun a => !decide (duration < last a.1))

/-- `DURATION` of `run`, solver/tabu_search/core/tabu_search_core.h:941-943. -/
def duration (iteration tenure : ℤ) : ℤ := iteration - tenure

/-- `compute_frequency_penalty`, tabu_search_core_move_evaluator.h:113-128. -/
def frequencyPenalty (mem : Memory.Mem) (coefficient : ℚ) (alts : List (VarId × ℤ)) (iteration : ℤ) : ℚ :=
  if iteration = 0 then 0
  else ((alts.map (fun a => (mem.updateCount a.1 : ℚ))).foldl (fun s x => s + x) 0) * mem.totalReciprocal * coefficient

/-- `compute_lagrangian_penalty`, tabu_search_core_move_evaluator.h:131-141; `enabled` is
`lagrange_dual.is_enabled` (tabu_search_core_move_evaluator.h:163-170). -/
def lagrangianPenalty (enabled : Bool) (lag : VarId → ℚ) (coefficient : ℚ) (alts : List (VarId × ℤ)) : ℚ :=
  if enabled then ((alts.map (fun a => lag a.1 * (a.2 : ℚ))).foldl (fun s x => s + x) 0) * coefficient else 0

/-- What is known of one trial move after evaluation (`TabuSearchCoreMoveScore`, `SolutionScore` and the flag
of the move), tabu_search_core_move_score.h:11-15, solution/solution_score.h, neighborhood/move.h. -/
structure Trial where
  localAug : ℚ
  globalAug : ℚ
  frequency : ℚ
  lagrangian : ℚ
  permissible : Bool
  special : Bool
  objImprovable : Bool
  feasImprovable : Bool
deriving Repr, DecidableEq

/-- `constant::LARGE_VALUE_50`, constant/constant.h:14. -/
def LARGE_VALUE_50 : ℚ := 10 ^ 50

/-- `constant::LARGE_VALUE_100`, constant/constant.h:15. -/
def LARGE_VALUE_100 : ℚ := 10 ^ 100

/-- The sum of the three parts of a score, tabu_search_core.h:987-990. -/
def Trial.base (t : Trial) : ℚ := t.localAug + t.frequency + t.lagrangian

/-- `total_scores[i]`, tabu_search_core.h:987-1008.  `fl` is the rounding of `double` in the additions of the
large constants (the identity for exact arithmetic). -/
def Trial.total (fl : ℚ → ℚ) (t : Trial) : ℚ :=
  let s := if t.permissible then t.base else fl (t.base + LARGE_VALUE_50)
  if t.special && !(t.objImprovable || t.feasImprovable) then fl (s + LARGE_VALUE_100) else s

/-- The loop of `std::min_element` (used by `utility::argmin`, utility/vector_utility.h:43-46) and of
`argmin_index_global_augmented_objective`, solution/solution_score.h:102-114: `best` at index `idx` so far, the
rest starts at index `i`. -/
def argminFrom (best : ℚ) (idx i : ℕ) : List ℚ → ℕ
  | [] => idx
  | x :: xs => if x < best then argminFrom x i (i + 1) xs else argminFrom best idx (i + 1) xs

/-- Index of the first smallest element; `none` for the empty vector (whose use would be undefined). -/
def argmin : List ℚ → Option ℕ
  | [] => none
  | x :: xs => some (argminFrom x 0 1 xs)

/-- `select_move`, tabu_search_core.h:483-516.  `aspiration` is `ignore_tabu_if_global_incumbent`, `incumbent`
the global augmented incumbent objective. -/
def selectMove (fl : ℚ → ℚ) (aspiration : Bool) (incumbent : Option ℚ) (ts : List Trial) : Option (ℕ × Bool) :=
  (argmin (ts.map (Trial.total fl))).bind fun i =>
    if !aspiration then some (i, false)
    else
      (argmin (ts.map Trial.globalAug)).bind fun j =>
        (ts[j]?).map fun t =>
          if beats t.globalAug incumbent then (j, !t.permissible) else (i, false)

/-- Tabu tenure and related states, tabu_search_core_state.h:64-75. -/
structure Tenure where
  original : ℤ
  current : ℤ
  lastUpdated : ℤ := 0
  intensity : ℚ
  increases : ℕ := 0
  decreases : ℕ := 0

/-- The tenure part of `setup`, tabu_search_core_state_manager.h:99-117. -/
def setupTenure (initial : ℤ) (mutableVars : ℕ) (intensity : ℚ) : Tenure :=
  { original := min initial mutableVars, current := min initial mutableVars, intensity := intensity }

/-- The thresholds of the options, option/tabu_search_option.h. -/
structure TenureOption where
  increaseThreshold : ℤ
  decreaseThreshold : ℤ

/-- The increasing branch of `update_tabu_tenure`, tabu_search_core_state_manager.h:425-442. -/
def increaseTenure (o : TenureOption) (mutableVars : ℕ) (iteration : ℤ) (intensity : ℚ) (s : Tenure) : Tenure :=
  if ((s.increases + 1 : ℕ) : ℤ) > o.increaseThreshold then
    { s with intensity := intensity, increases := 0, decreases := 0,
             current := min (s.current + 1) mutableVars, lastUpdated := iteration }
  else { s with intensity := intensity, increases := s.increases + 1, decreases := 0 }

/-- The decreasing branch of `update_tabu_tenure`, tabu_search_core_state_manager.h:443-461. -/
def decreaseTenure (o : TenureOption) (iteration : ℤ) (intensity : ℚ) (s : Tenure) : Tenure :=
  if ((s.decreases + 1 : ℕ) : ℤ) > o.decreaseThreshold then
    { s with intensity := intensity, increases := 0, decreases := 0,
             current := max (s.current - 1) (max 1 (s.original.tdiv 2)), lastUpdated := iteration }
  else { s with intensity := intensity, decreases := s.decreases + 1, increases := 0 }

/-- `update_tabu_tenure`, tabu_search_core_state_manager.h:393-463.  `updated` tells whether the global
incumbent was updated.  `none` is the division by zero in `%`. -/
def updateTenure (o : TenureOption) (mutableVars : ℕ) (iteration : ℤ) (updated : Bool) (intensity : ℚ) (s : Tenure) :
    Option Tenure :=
  if updated ∧ s.current > s.original then
    some { s with current := s.original, lastUpdated := iteration, decreases := 0, increases := 0 }
  else if s.current + 1 = 0 then none
  else if (iteration - s.lastUpdated).tmod (s.current + 1) = 0 then
    if intensity > s.intensity then some (increaseTenure o mutableVars iteration intensity s)
    else some (decreaseTenure o iteration intensity s)
  else some s

/-- `RANDOM_WIDTH` of `update_memory`, tabu_search_core.h:519-531. -/
def randomWidth (rate : ℚ) (tenure : ℤ) : ℤ := if rate * tenure ≥ 0 then ⌊rate * (tenure : ℚ)⌋ else ⌈rate * (tenure : ℚ)⌉

/-- `update_initial_tabu_tenure`, solver/tabu_search/controller/tabu_search_controller_state_manager.h:1006-1042.
`option` is the configured initial tenure, `last` the tenure at the end of the last tabu search, `busy` the
test of the intensities. -/
def nextInitialTenure (option : ℤ) (mutableVars : ℕ) (globalUpdated notUpdated busy : Bool) (last cur : ℤ) : ℤ :=
  if globalUpdated then min option mutableVars
  else if notUpdated then max (cur - 1) (min option mutableVars)
  else if last > cur then min (cur + 1) mutableVars
  else if last = cur ∧ busy = true then cur
  else max (cur - 1) (min option mutableVars)

/-- `update_iteration_max`, tabu_search_controller_state_manager.h:1078-1102. -/
def nextIterationMax (optionMax optionTenure : ℤ) (rate : ℚ) (globalUpdated : Bool) (performed lastUpdate cur : ℤ) : ℤ :=
  if performed ≠ cur then cur
  else
    let x : ℤ := if globalUpdated then ⌈(lastUpdate : ℚ) * rate⌉ else ⌈(cur : ℚ) * rate⌉
    max optionTenure (min optionMax x)

end Printemps.Tabu
