import Verif.Model.Setup
import Verif.Model.Search
import Verif.Model.GF2

/-! # Model of a whole call of the solver: setup of the model, search, report

The search is any list of events (`Model/Search`). -/

namespace Printemps.Whole
open Setup

/-- What the setup is given besides the model: options, comparison of variable names, the constraints declared as
selections, whether initial values are corrected (`is_enabled_initial_value_correction`), the global penalty
coefficient after `shrink_global_penalty_coefficient`, and the order of iteration over the 0/1 variables of the GF(2)
equations. -/
structure Input where
  options : Options
  lt : VarId → VarId → Bool
  user : ConId → Bool
  correct : Bool
  pen : ℚ
  bins : List VarId

/-- The block of the GF(2) equations, model/model.h:792-806; `m0` is the model the types were computed for. -/
def gf2Stage (i : Input) (m0 m : MState) : Option MState :=
  if i.options.presolve && !(ofType i.lt m0 .gf2).isEmpty then
    (Gf2.solve m (ofType i.lt m0 .gf2) (keyOf i.lt m0) i.bins).map Prod.snd
  else some m

/-- The rest of `Model::setup` after the transformation, model/model.h:777-856, and the reset of the local penalty
coefficients at the beginning of the solver, solver/solver.h:353-360.  `none`: the verification of the initial values
throws.  Simplifications: neighborhoods, fixed sensitivities, the lists of mutable variables and the marks "integer" are
not part of the state; the global penalty coefficient is given. -/
def launch (i : Input) (sels : List ConId) (m : MState) : Option MState :=
  (Verifier.verifyAll i.correct sels m).bind fun m1 =>
    (gf2Stage i m m1).map fun m2 =>
      Search.setPenalties { m2.setupSens with globalPen := i.pen } (fun _ => i.pen) (fun _ => i.pen)

/-- The model as it is when the search begins: `Model::setup`, model/model.h:644-856. -/
def started (i : Input) (m : MState) : Option MState :=
  match prepare i.options i.lt i.user m with
  | some (.ok m1) => launch i (selections i.options i.lt i.user m) m1
  | _ => none

/-- The configuration of the search; `selRel` are the related constraints stored with the selections. -/
def cfg (i : Input) (fast : Bool) (selRel : VarId → List ConId) (m : MState) : Search.Cfg :=
  ⟨fast, selections i.options i.lt i.user m, selRel⟩

/-- `Solver::solve`, solver/solver.h:413-457, for a model of the user. -/
def solve (i : Input) (fast : Bool) (selRel : VarId → List ConId) (m : MState) (es : List Search.Event) :
    Option (Sol.Named × MState) :=
  (started i m).bind fun m0 => Search.solve (cfg i fast selRel m) m0 es

end Printemps.Whole
