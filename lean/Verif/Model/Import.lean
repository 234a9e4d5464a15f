import Verif.Model.Mps
import Verif.Model.Program

/-! # The model an MPS file becomes -/

namespace Printemps.Mps
open Program

/-- The model that `import_mps` leaves behind, model/model.h:3459-3567, as `solve` receives it: one array of variables, one
of constraints, no expressions, the objective is minimised (3566).  Nothing has been computed yet.  `noVar` lies behind
the variables (as in `Program.model`). -/
def problem (p : Imported) : MState where
  var := fun v => p.vars.getD v noVar
  varIds := List.range p.vars.length
  con := fun c => p.cons.getD c blank
  conIds := List.range p.cons.length
  uexpr := fun _ => { expr := Expr.create [] 0 }
  uexprIds := []
  dependents := []
  obj := p.obj
  objValue := 0
  objDefined := true
  isMin := true
  globalPen := 0
  userDefinedMoves := false
  sens := fun _ => []
  objSens := fun _ => 0
  selected := fun _ => none
  violative := []
  feasible := false

/-- Reading a file and creating the model, standalone/mps_solver.h:221-225, with the names of the variables and of the
constraints: `none` is a thrown exception or undefined behaviour. -/
def load (acceptContinuous : Bool) (lines : List (List Char)) : Option (MState × List Name × List Name) :=
  (readMps lines).bind fun f => (importMps acceptContinuous f).map fun p => (problem p, p.names, p.conNames)

end Printemps.Mps
