import Verif.Model.Archive
import Verif.Model.ModelFile
import Verif.Model.Solution

/-! # Model of the file with the feasible solutions of a call

solution/solution_archive.h:203-232, solver/solver.h:376-382, solver/abstract_solver_controller.h:113-120. -/

namespace Printemps.SolutionFile
open Json Text ArrayFile ModelFile

/-- A stored solution, solution/sparse_solution.h:15-20: the variables with other values than zero, and their values.
Simplification: the entries of the map are kept by variable and not by name, and in the order of the variables, so that
two maps are equal if and only if the lists are; in which order a map is written is left open (`order` below). -/
abbrev Stored := ArchSol (List (VarId × ℤ))

/-- `export_sparse_solution`, model/model.h:3249-3277.  Simplification: `global_augmented_objective` is not kept, as it is
not written. -/
def stored (m : MState) : Stored :=
  { vars := m.varIds.filterMap fun v => if m.vals v ≠ 0 then some (v, m.vals v) else none
    objective := m.objValue
    feasible := m.feasible
    violation := Sol.sumViolation m }

/-- `update_feasible_solution_archive` after each search, solver/abstract_solver_controller.h:113-120, with the archive as
set up in solver/solver.h:376-382. -/
def collect (isMin : Bool) (capacity : ℤ) (batches : List (List Stored)) : List Stored :=
  batches.foldl (fun a b => if b = [] then a else archPush (if isMin then .ascending else .descending) capacity a b) []

/-- The keys of the file, solution/solution_archive.h:207-230. -/
def kVersion : Str := "version".toList
/-- As `kVersion`. -/
def kNumberOfVariables : Str := "number_of_variables".toList
/-- As `kVersion`. -/
def kNumberOfConstraints : Str := "number_of_constraints".toList
/-- As `kVersion`. -/
def kSolutions : Str := "solutions".toList
/-- As `kVersion`. -/
def kIsFeasible : Str := "is_feasible".toList
/-- As `kVersion`. -/
def kViolation : Str := "total_violation".toList

/-- One solution, solution/solution_archive.h:216-228; `order` is the order of iteration of the map. -/
def solution (order : List (VarId × ℤ) → List (VarId × ℤ)) (vname : VarId → Str) (s : Stored) : Val :=
  .obj (members [(kIsFeasible, .bool s.feasible), (kObjective, .real s.objective), (kViolation, .real s.violation),
    (kVariables, .obj (members ((order s.vars).map fun e => (vname e.1, .int e.2))))])

/-- The members of the object, solution/solution_archive.h:206-230. -/
def parts (order : List (VarId × ℤ) → List (VarId × ℤ)) (name : Str) (variables_ constraints : ℤ) (vname : VarId → Str)
    (ss : List Stored) : List (Str × Val) :=
  [(kVersion, .str version), (kName, .str name), (kNumberOfVariables, .int variables_),
   (kNumberOfConstraints, .int constraints), (kSolutions, .arr (array (ss.map (solution order vname))))]

/-- `write_solutions_json`, solution/solution_archive.h:203-232: the content of the file. -/
def file (order : List (VarId × ℤ) → List (VarId × ℤ)) (name : Str) (variables_ constraints : ℤ) (vname : VarId → Str)
    (ss : List Stored) : List Char :=
  write 0 (.obj (members (parts order name variables_ constraints vname ss)))

end Printemps.SolutionFile
