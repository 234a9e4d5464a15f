import Verif.Model.Json

/-! # Model of the options: option/*.h

A struct of options is the list of its sections, each the list of its members with their values.  Simplification:
`print` is not modelled. -/

namespace Printemps.Opt
open Json

/-- `c!"abc"` is the list of the characters of the literal. -/
macro:max "c!" s:str : term => do
  let nil ← `(([] : List Char))
  s.getString.toList.foldrM (fun c r => do
    let c : Lean.TSyntax `term := ⟨Lean.Syntax.mkCharLit c⟩
    `(List.cons $c $r)) nil

/-- The value of a member.  Enumerations (option/enumerate/*.h) are given by the names of their elements, in order, and
the number of the element; they have the underlying type `int`, so any number is possible. -/
inductive OVal where
  | bool (b : Bool) | int (n : ℤ) | real (q : ℚ) | mode (names : List Str) (n : ℤ)
deriving DecidableEq

/-- The type of a member. -/
inductive Kind where
  | bool | int | double | mode (names : List Str)
deriving DecidableEq

/-- A member: its name (also its key in `to_json`), the key it is read from in `setup`, type and default value. -/
structure Field where
  name : Str
  key : Str
  kind : Kind
  default : OVal

/-- A member that is read from the key with its own name. -/
def fld (name : Str) (kind : Kind) (default : OVal) : Field := ⟨name, name, kind, default⟩

/-- A section of the options: its name and its members. -/
structure Section where
  name : Str
  fields : List Field

/-- option/enumerate/chain_move_reduce_mode.h:11-26. -/
def chainMoveReduceModeNames : List Str := [c!"OverlapRate", c!"Shuffle"]
/-- option/enumerate/improvability_screening_mode.h:11-35. -/
def improvabilityScreeningModeNames : List Str := [c!"Off", c!"Soft", c!"Aggressive", c!"Intensive", c!"Automatic"]
/-- option/enumerate/restart_mode.h:11-24. -/
def restartModeNames : List Str := [c!"Simple", c!"Smart"]
/-- option/enumerate/selection_mode.h:11-36. -/
def selectionModeNames : List Str := [c!"Off", c!"Defined", c!"Smaller", c!"Larger", c!"Independent", c!"UserDefined"]
/-- option/enumerate/tabu_mode.h:11-25. -/
def tabuModeNames : List Str := [c!"All", c!"Any"]
/-- option/enumerate/verbose.h:11-37. -/
def verboseNames : List Str := [c!"Off", c!"Warning", c!"Outer", c!"Inner", c!"Full", c!"Debug"]

/-- `general`: `initialize`, `setup`, `to_json`, option/general_option.h:40, 85, 114 and the lines after. -/
def generalSection : Section := ⟨c!"general", [
  fld c!"iteration_max" .int (.int 100),
  fld c!"time_offset" .double (.real 0),
  fld c!"time_max" .double (.real 120),
  fld c!"target_objective_value" .double (.real (-10 ^ 100)),
  fld c!"seed" .int (.int 1),
  fld c!"is_enabled_fast_evaluation" .bool (.bool true)]⟩

/-- `penalty`: `initialize`, `setup`, `to_json`, option/penalty_option.h:64, 192, 253 and the lines after. -/
def penaltySection : Section := ⟨c!"penalty", [
  fld c!"penalty_coefficient_relaxing_rate" .double (.real (9 / 10)),
  fld c!"penalty_coefficient_tightening_rate" .double (.real 1),
  fld c!"penalty_coefficient_updating_balance" .double (.real 0),
  fld c!"initial_penalty_coefficient" .double (.real 10000000),
  fld c!"penalty_coefficient_relaxing_rate_min" .double (.real (3 / 10)),
  fld c!"penalty_coefficient_relaxing_rate_max" .double (.real (9999 / 10000)),
  fld c!"penalty_coefficient_relaxing_rate_increase_rate" .double (.real (1 / 10)),
  fld c!"penalty_coefficient_relaxing_rate_decrease_rate" .double (.real (9 / 10)),
  fld c!"inner_stagnation_threshold" .int (.int 20),
  fld c!"outer_stagnation_threshold" .int (.int 80),
  fld c!"is_enabled_inner_stagnation_breaker" .bool (.bool true),
  fld c!"is_enabled_outer_stagnation_breaker" .bool (.bool true),
  fld c!"is_enabled_group_penalty_coefficient" .bool (.bool false),
  fld c!"is_enabled_shrink_penalty_coefficient" .bool (.bool true)]⟩

/-- `parallel`: `initialize`, `setup`, `to_json`, option/parallel_option.h:58, 134, 179 and the lines after. -/
def parallelSection : Section := ⟨c!"parallel", [
  fld c!"is_enabled_move_update_parallelization" .bool (.bool true),
  fld c!"is_enabled_move_evaluation_parallelization" .bool (.bool true),
  fld c!"is_enabled_automatic_move_update_parallelization" .bool (.bool true),
  fld c!"is_enabled_automatic_move_evaluation_parallelization" .bool (.bool true),
  fld c!"decay_factor_move_update" .double (.real (1 / 2)),
  fld c!"decay_factor_move_evaluation" .double (.real (1 / 2)),
  ⟨c!"number_of_threads_move_update", c!"number_of_threads_move_update;", .int, .int (-1)⟩,
  fld c!"number_of_threads_move_evaluation" .int (.int (-1))]⟩

/-- `preprocess`: `initialize`, `setup`, `to_json`, option/preprocess_option.h:74, 220, 315 and the lines after. -/
def preprocessSection : Section := ⟨c!"preprocess", [
  fld c!"is_enabled_presolve" .bool (.bool true),
  fld c!"is_enabled_remove_duplicated_constraints" .bool (.bool true),
  fld c!"is_enabled_remove_redundant_set_variables" .bool (.bool true),
  fld c!"is_enabled_remove_redundant_set_constraints" .bool (.bool true),
  fld c!"is_enabled_extract_implicit_equality_constraints" .bool (.bool true),
  fld c!"is_enabled_online_bounding" .bool (.bool true),
  fld c!"is_enabled_initial_value_correction" .bool (.bool true),
  fld c!"is_enabled_extract_dependent_exclusive_or" .bool (.bool true),
  fld c!"is_enabled_extract_dependent_exclusive_nor" .bool (.bool false),
  fld c!"is_enabled_extract_dependent_inverted_integers" .bool (.bool true),
  fld c!"is_enabled_extract_dependent_balanced_integers" .bool (.bool false),
  fld c!"is_enabled_extract_dependent_constant_sum_integers" .bool (.bool true),
  fld c!"is_enabled_extract_dependent_constant_difference_integers" .bool (.bool true),
  fld c!"is_enabled_extract_dependent_constant_ratio_integers" .bool (.bool true),
  fld c!"is_enabled_extract_dependent_intermediate" .bool (.bool true)]⟩

/-- `restart`: `initialize`, `setup`, `to_json`, option/restart_option.h:31, 44, 50 and the lines after. -/
def restartSection : Section := ⟨c!"restart", [
  fld c!"restart_mode" (.mode restartModeNames) (.mode restartModeNames 1)]⟩

/-- `neighborhood`: `initialize`, `setup`, `to_json`, option/neighborhood_option.h:88, 260, 357 and the lines after. -/
def neighborhoodSection : Section := ⟨c!"neighborhood", [
  fld c!"is_enabled_binary_move" .bool (.bool true),
  fld c!"is_enabled_integer_move" .bool (.bool true),
  fld c!"is_enabled_exclusive_or_move" .bool (.bool true),
  fld c!"is_enabled_exclusive_nor_move" .bool (.bool true),
  fld c!"is_enabled_inverted_integers_move" .bool (.bool true),
  fld c!"is_enabled_balanced_integers_move" .bool (.bool true),
  fld c!"is_enabled_constant_sum_integers_move" .bool (.bool true),
  fld c!"is_enabled_constant_difference_integers_move" .bool (.bool true),
  fld c!"is_enabled_constant_ratio_integers_move" .bool (.bool true),
  fld c!"is_enabled_aggregation_move" .bool (.bool true),
  fld c!"is_enabled_precedence_move" .bool (.bool false),
  fld c!"is_enabled_variable_bound_move" .bool (.bool false),
  fld c!"is_enabled_trinomial_exclusive_nor_move" .bool (.bool false),
  fld c!"is_enabled_soft_selection_move" .bool (.bool false),
  fld c!"is_enabled_chain_move" .bool (.bool true),
  fld c!"is_enabled_two_flip_move" .bool (.bool false),
  fld c!"is_enabled_user_defined_move" .bool (.bool false),
  fld c!"chain_move_capacity" .int (.int 100000),
  fld c!"chain_move_reduce_mode" (.mode chainMoveReduceModeNames) (.mode chainMoveReduceModeNames 0),
  fld c!"chain_move_overlap_rate_threshold" .double (.real (1 / 5)),
  fld c!"selection_mode" (.mode selectionModeNames) (.mode selectionModeNames 4),
  fld c!"improvability_screening_mode" (.mode improvabilityScreeningModeNames) (.mode improvabilityScreeningModeNames 4),
  fld c!"is_enabled_integer_step_size_adjuster" .bool (.bool false)]⟩

/-- `output`: `initialize`, `setup`, `to_json`, option/output_option.h:65, 159, 208 and the lines after. -/
def outputSection : Section := ⟨c!"output", [
  fld c!"verbose" (.mode verboseNames) (.mode verboseNames 0),
  fld c!"is_enabled_write_trend" .bool (.bool false),
  fld c!"is_enabled_store_feasible_solutions" .bool (.bool false),
  fld c!"feasible_solutions_capacity" .int (.int 1000),
  fld c!"is_enabled_print_search_behavior_summary" .bool (.bool true),
  fld c!"is_enabled_print_tree_summary" .bool (.bool true),
  fld c!"is_enabled_print_parallelization_controller_summary" .bool (.bool true),
  fld c!"is_enabled_print_variable_update_summary" .bool (.bool true),
  fld c!"is_enabled_print_constraint_violation_summary" .bool (.bool true),
  fld c!"is_enabled_print_violation_and_penalty_summary" .bool (.bool true),
  fld c!"is_enabled_print_tabu_search_parameter" .bool (.bool true)]⟩

/-- `pdlp`: `initialize`, `setup`, `to_json`, option/pdlp_option.h:58, 164, 229 and the lines after. -/
def pdlpSection : Section := ⟨c!"pdlp", [
  fld c!"is_enabled" .bool (.bool false),
  fld c!"iteration_max" .int (.int 100000),
  fld c!"time_max" .double (.real 120),
  fld c!"time_offset" .double (.real 0),
  fld c!"tolerance" .double (.real (1 / 100000)),
  fld c!"step_size_extend_exponent" .double (.real (-3 / 5)),
  fld c!"step_size_reduce_exponent" .double (.real (-3 / 10)),
  fld c!"restart_threshold_sufficient" .double (.real (1 / 10)),
  fld c!"restart_threshold_necessary" .double (.real (9 / 10)),
  fld c!"restart_threshold_artificial" .double (.real (1 / 2)),
  fld c!"restart_check_interval" .int (.int 10),
  fld c!"convergence_check_interval" .int (.int 10),
  fld c!"counts_of_ruiz_scaling" .int (.int 10),
  fld c!"is_enabled_pock_chambolle_scaling" .bool (.bool true),
  fld c!"log_interval" .int (.int 10)]⟩

/-- `lagrange_dual`: `initialize`, `setup`, `to_json`, option/lagrange_dual_option.h:46, 109, 150 and the lines after. -/
def lagrangeDualSection : Section := ⟨c!"lagrange_dual", [
  fld c!"is_enabled" .bool (.bool false),
  fld c!"iteration_max" .int (.int 10000),
  fld c!"time_max" .double (.real 120),
  fld c!"time_offset" .double (.real 0),
  fld c!"step_size_extend_rate" .double (.real (21 / 20)),
  fld c!"step_size_reduce_rate" .double (.real (19 / 20)),
  fld c!"tolerance" .double (.real (1 / 100000)),
  fld c!"queue_size" .int (.int 100),
  fld c!"log_interval" .int (.int 10)]⟩

/-- `local_search`: `initialize`, `setup`, `to_json`, option/local_search_option.h:40, 83, 112 and the lines after. -/
def localSearchSection : Section := ⟨c!"local_search", [
  fld c!"is_enabled" .bool (.bool true),
  fld c!"iteration_max" .int (.int 10000),
  fld c!"time_max" .double (.real 120),
  fld c!"time_offset" .double (.real 0),
  fld c!"log_interval" .int (.int 10),
  fld c!"seed" .int (.int 1)]⟩

/-- `tabu_search`: `initialize`, `setup`, `to_json`, option/tabu_search_option.h:83, 267, 376 and the lines after. -/
def tabuSearchSection : Section := ⟨c!"tabu_search", [
  fld c!"iteration_max" .int (.int 200),
  fld c!"time_max" .double (.real 120),
  fld c!"time_offset" .double (.real 0),
  fld c!"log_interval" .int (.int 10),
  fld c!"initial_tabu_tenure" .int (.int 10),
  fld c!"tabu_tenure_randomize_rate" .double (.real (3 / 10)),
  fld c!"initial_modification_fixed_rate" .double (.real (1 / 2)),
  fld c!"initial_modification_randomize_rate" .double (.real (1 / 2)),
  fld c!"tabu_mode" (.mode tabuModeNames) (.mode tabuModeNames 0),
  fld c!"move_preserve_rate" .double (.real 1),
  fld c!"frequency_penalty_coefficient" .double (.real (1 / 10000)),
  fld c!"lagrangian_penalty_coefficient" .double (.real 1),
  fld c!"pruning_rate_threshold" .double (.real 1),
  fld c!"is_enabled_shuffle" .bool (.bool true),
  fld c!"is_enabled_move_curtail" .bool (.bool false),
  fld c!"is_enabled_automatic_break" .bool (.bool true),
  fld c!"is_enabled_automatic_tabu_tenure_adjustment" .bool (.bool true),
  fld c!"is_enabled_automatic_iteration_adjustment" .bool (.bool true),
  fld c!"is_enabled_initial_modification" .bool (.bool true),
  fld c!"intensity_increase_count_threshold" .int (.int 10),
  fld c!"intensity_decrease_count_threshold" .int (.int 10),
  fld c!"iteration_increase_rate" .double (.real (3 / 2)),
  fld c!"iteration_decrease_rate" .double (.real (9 / 10)),
  fld c!"ignore_tabu_if_global_incumbent" .bool (.bool true),
  fld c!"number_of_initial_modification" .int (.int 0),
  fld c!"seed" .int (.int 1)]⟩

/-- The sections in the order of `to_json`, option/option.h:158-173. -/
def sections : List Section := [generalSection, penaltySection, parallelSection, preprocessSection, restartSection,
  neighborhoodSection, outputSection, pdlpSection, lagrangeDualSection, localSearchSection, tabuSearchSection]

/-- The options: sections with their members. -/
abbrev Options := List (Str × List (Str × OVal))

/-- `read_json`, option/read_json.h:11-161, for a key that is in the object; `none` is a thrown exception.  The last case
of an enumeration: the value is ignored. -/
def convert (k : Kind) (old : OVal) : Val → Option OVal
  | .bool b => match k with
    | .bool => some (.bool b)
    | .mode _ => some old
    | _ => none
  | .int n => match k with
    | .int => some (.int n)
    | .double => some (.real n)
    | .mode names => some (.mode names n)
    | .bool => none
  | .real q => match k with
    | .double => some (.real q)
    | .mode _ => some old
    | _ => none
  | .str s => match k with
    | .mode names => (names.findIdx? (fun x => x = s)).map fun (i : ℕ) => OVal.mode names (i : ℤ)
    | _ => none
  | _ => match k with
    | .mode _ => some old
    | _ => none

/-- One call of `read_json`, option/read_json.h:11-161. -/
def readField (f : Field) (ms : Members) : Option OVal :=
  match ms.get f.key with
  | none => some f.default
  | some v => convert f.kind f.default v

/-- All results, or `none` if one of the calls throws. -/
def collect {α β : Type} (f : α → Option β) : List α → Option (List β)
  | [] => some []
  | a :: as => (f a).bind fun b => (collect f as).map (b :: ·)

/-- The constructor of a section from an object: `initialize`, then `setup` (e.g. option/general_option.h:85-111). -/
def readSection (s : Section) (ms : Members) : Option (List (Str × OVal)) :=
  collect (fun f => (readField f ms).map fun v => (f.name, v)) s.fields

/-- `initialize` of a section (e.g. option/general_option.h:40-50). -/
def initSection (s : Section) : List (Str × OVal) := s.fields.map fun f => (f.name, f.default)

/-- `Option::initialize`, option/option.h:50-62. -/
def init : Options := sections.map fun s => (s.name, initSection s)

/-- The object of a section in `Option::setup`, option/option.h:85-153: `std::any_cast` throws for other types. -/
def setupSection (s : Section) (ms : Members) : Option (List (Str × OVal)) :=
  match ms.get s.name with
  | none => some (initSection s)
  | some (.obj m) => readSection s m
  | some _ => none

/-- `Option::setup`, option/option.h:85-156, on the object read from the file. -/
def setup (ms : Members) : Option Options :=
  collect (fun s => (setupSection s ms).map fun l => (s.name, l)) sections

/-- The value of one member in `to_json`; `none` is the exception of `...InverseMap.at` for a number that is no element
of the enumeration (e.g. option/restart_option.h:50-57). -/
def toVal : OVal → Option Val
  | .bool b => some (.bool b)
  | .int n => some (.int n)
  | .real q => some (.real q)
  | .mode names n => if 0 ≤ n then (names[n.toNat]?).map .str else none

/-- `to_json` of a section (e.g. option/general_option.h:114-141). -/
def sectionJson : List (Str × OVal) → Option Members
  | [] => some .nil
  | (k, v) :: r => (toVal v).bind fun x => (sectionJson r).map (Members.cons k x)

/-- `Option::to_json`, option/option.h:158-173. -/
def toJson : Options → Option Members
  | [] => some .nil
  | (k, l) :: r => (sectionJson l).bind fun x => (toJson r).map (Members.cons k (.obj x))

/-- `Option::setup` on a file, option/option.h:85-156; the first argument bounds the steps of the parser. -/
def setupFile (fuel : ℕ) (file : List Char) : Option Options := (readObject fuel file).bind setup

end Printemps.Opt
