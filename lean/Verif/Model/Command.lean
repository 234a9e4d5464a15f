import Verif.Model.Standalone
import Verif.Model.Import
import Verif.Model.Controller
import Verif.Model.Neighborhood
import Mathlib.Data.List.Lex
import Mathlib.Data.Char

/-! # Model of a whole run of the command line program: standalone/mps_solver.h

From the arguments and the contents of the files to the content of `incumbent.sol`. -/

namespace Printemps.Cmd
open Json Opt Sol Text

/-- The value of an option, option/option.h:26-37. -/
def option (o : Options) (s k : Str) : Option OVal := (o.lookup s).bind fun l => l.lookup k

/-- An option of type `bool` (used e.g. in model/model.h:676). -/
def flag (o : Options) (s k : Str) : Bool :=
  match option o s k with
  | some (.bool b) => b
  | _ => false

/-- An option of type `int` (used e.g. in tabu_search_controller_state_manager.h:501). -/
def number (o : Options) (s k : Str) : ℤ :=
  match option o s k with
  | some (.int n) => n
  | _ => 0

/-- An option that is an element of an enumeration (used e.g. in model/model.h:758). -/
def element (o : Options) (s k : Str) : ℤ :=
  match option o s k with
  | some (.mode _ n) => n
  | _ => 0

/-- The modes of `SelectionExtractor::extract`, preprocess/selection_extractor.h:73-107; `none` is the exception for other
numbers. -/
def selectionMode : ℤ → Option SelectionExtract.Mode
  | 0 => some .off
  | 1 => some .defined
  | 2 => some .smaller
  | 3 => some .larger
  | 4 => some .independent
  | 5 => some .userDefined
  | _ => none

/-- The options `Model::setup` reads, model/model.h:676-765, preprocess/dependent_variable_extractor.h.  Simplification: an
invalid mode of the selections throws even if no selections are extracted. -/
def setupOptions (o : Options) : Option Setup.Options :=
  (selectionMode (element o c!"neighborhood" c!"selection_mode")).map fun s =>
  { presolve := flag o c!"preprocess" c!"is_enabled_presolve"
    implicitEqualities := flag o c!"preprocess" c!"is_enabled_extract_implicit_equality_constraints"
    setConstraints := flag o c!"preprocess" c!"is_enabled_remove_redundant_set_constraints"
    setVariables := flag o c!"preprocess" c!"is_enabled_remove_redundant_set_variables"
    duplicates := flag o c!"preprocess" c!"is_enabled_remove_duplicated_constraints"
    exclusiveOr := flag o c!"preprocess" c!"is_enabled_extract_dependent_exclusive_or"
    exclusiveNor := flag o c!"preprocess" c!"is_enabled_extract_dependent_exclusive_nor"
    inverted := flag o c!"preprocess" c!"is_enabled_extract_dependent_inverted_integers"
    balanced := flag o c!"preprocess" c!"is_enabled_extract_dependent_balanced_integers"
    constantSum := flag o c!"preprocess" c!"is_enabled_extract_dependent_constant_sum_integers"
    constantDifference := flag o c!"preprocess" c!"is_enabled_extract_dependent_constant_difference_integers"
    constantRatio := flag o c!"preprocess" c!"is_enabled_extract_dependent_constant_ratio_integers"
    intermediate := flag o c!"preprocess" c!"is_enabled_extract_dependent_intermediate"
    selection := s }

/-- The modes of restarting, tabu_search_controller_state_manager.h:246-261; `none` is the exception for other numbers. -/
def restartMode : ℤ → Option Ctl.Mode
  | 0 => some .simple
  | 1 => some .smart
  | _ => none

/-- The options the controller of the tabu searches reads, tabu_search_controller_state_manager.h:246-300, 492-516,
tabu_search_controller.h:950-960.  Simplification: an invalid mode of restarting throws even if there is no search. -/
def searchOptions (o : Options) : Option Ctl.Opt :=
  (restartMode (element o c!"restart" c!"restart_mode")).map fun r =>
  { mode := r
    innerBreaker := flag o c!"penalty" c!"is_enabled_inner_stagnation_breaker"
    innerThreshold := number o c!"penalty" c!"inner_stagnation_threshold"
    outerThreshold := number o c!"penalty" c!"outer_stagnation_threshold"
    bounding := flag o c!"preprocess" c!"is_enabled_presolve" && flag o c!"preprocess" c!"is_enabled_online_bounding" }

/-- The name of the element with this number in the array created by `import_mps`, model/model.h:3459-3567. -/
def nameOf (names : List Str) (k : ℕ) : Str := names.getD k []

/-- What a run is not determined by: the names of the constraints after the setup (those that are added included), the
global penalty coefficient after `shrink_global_penalty_coefficient`, the order of iteration over the 0/1 variables of GF(2)
equations, and what the searches do (model/model.h:775-856, solver/solver.h:413-457). -/
structure World where
  conName : ConId → Str
  pen : ℚ
  bins : List VarId
  plan : Ctl.Plan

/-- What the call of the solver is given, standalone/mps_solver.h:293-305. -/
def input (w : World) (names : List Str) (s : Setup.Options) (r : Ready) : Whole.Input where
  options := s
  lt := fun v u => decide (nameOf names v < nameOf names u)
  user := fun c => decide (c ∈ r.selections)
  correct := flag r.options c!"preprocess" c!"is_enabled_initial_value_correction"
  pen := w.pen
  bins := w.bins

/-- The neighbourhood of a call, with the pairs of variables of the file, model/model.h:775-790. -/
def neighbourhood (w : World) (names : List Str) (r : Ready) (m1 : MState) : Nbhd.Config Str Str where
  setup := m1
  name := w.conName
  vname := nameOf names
  lt := fun v u => decide (nameOf names v < nameOf names u)
  pairs := r.pairs

/-- The related constraints stored with the selection of a variable, model_component/selection.h:55-138; `m1` is the model
after the transformation. -/
def selectionRel (w : World) (names : List Str) (m1 : MState) (v : VarId) : List ConId :=
  match (m1.var v).selection with
  | some s => Nbhd.selectionRelated w.conName (nameOf names) m1 s
  | none => []

/-- The model after the transformation (model/model.h:644-775). -/
def transformed (i : Whole.Input) (m : MState) : MState :=
  match Setup.prepare i.options i.lt i.user m with
  | some (.ok m1) => m1
  | _ => m

/-- `MPSSolver::solve`, standalone/mps_solver.h:293-335: the content of `incumbent.sol`.  The variables are in one array, so
they are written in their order. -/
def solveAndWrite (w : World) (names : List Str) (r : Ready) : Outcome (List Char) :=
  match setupOptions r.options, searchOptions r.options with
  | some s, some t =>
    match Ctl.call (input w names s r) (flag r.options c!"general" c!"is_enabled_fast_evaluation")
        (selectionRel w names (transformed (input w names s r) r.model)) (fun v => String.ofList (nameOf names v)) t r.model w.plan with
    | some (sol, _) => .ok (writeSolution (nameOf names) r.model.varIds sol)
    | none => .thrown
  | _, _ => .thrown

/-- The constructor and `MPSSolver::run`, standalone/mps_solver.h:115-118, 190-290, 293-335, 354-360: the content of
`incumbent.sol`, if it is written (not when pairs of variables are extracted).  Simplifications: a file that cannot be
imported throws; without arguments the program exits. -/
def run (fs : Str → Option (List Char)) (fuel : ℕ) (args : List Str) (w : World) : Outcome (Option (List Char)) :=
  if args = [] then .thrown else
  match parse args {} with
  | none => .undefined
  | some a =>
    match fs a.mps with
    | none => .thrown
    | some text =>
      match Mps.load a.accept (lines text) with
      | none => .thrown
      | some (m, names, cnames) =>
        (setup fs fuel (nameOf names) (nameOf cnames) a m).bind fun r =>
          if a.extract then .ok none else (solveAndWrite w names r).bind fun t => .ok (some t)

end Printemps.Cmd
