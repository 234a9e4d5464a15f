import Verif.Model.Model
import Verif.Model.Queue

/-! # Model of the dual bounds: the naive bound, the shrunken penalty coefficient and Lagrange dual -/

namespace Printemps
namespace MState

/-- `Model::compute_naive_dual_bound`, model/model.h:3041-3063. -/
def naiveDualBound (m : MState) : ℚ :=
  m.obj.terms.foldl (fun acc t =>
    if (m.var t.1).fixed then acc + ((m.var t.1).value : ℚ) * t.2
    else if m.isMin == decide (t.2 > 0) then acc + ((m.var t.1).lb : ℚ) * t.2
    else acc + ((m.var t.1).ub : ℚ) * t.2) m.obj.const

/-- The variable bounds as read by the bound functions of an expression
(model_component/expression.h:360-391). -/
def boxes (m : MState) : VarId → Expr.Box := fun v => (m.var v).box

/-- `Model::shrink_global_penalty_coefficient`, model/model.h:1632-1657. -/
def shrinkPenalty (m : MState) : MState :=
  let modified := min m.globalPen (m.obj.upperBound m.boxes - m.obj.lowerBound m.boxes + 1)
  if modified < m.globalPen then { m with globalPen := modified } else m

/-- The penalty part at the end of `Model::setup`, model/model.h:832-853: store the initial coefficient,
shrink it if all constraints are integer (`setup_is_integer`, model/model.h:923-938, over disabled
constraints too) and the option is on, and copy it to all constraints. -/
def setupPenalty (m : MState) (initial : ℚ) (shrink : Bool) : MState :=
  let m1 := { m with globalPen := initial }
  let m2 := if m.conIds.all (fun c => (m.con c).isInteger) && shrink then m1.shrinkPenalty else m1
  { m2 with con := fun c => if c ∈ m.conIds then { m.con c with penGlobal := m2.globalPen } else m.con c }

/-- `Model::compute_lagrangian`, model/model.h:3023-3038.  Simplification: multipliers are indexed by
constraint instead of proxy and flat index. -/
def computeLagrangian (m : MState) (dual : ConId → ℚ) : ℚ :=
  m.conIds.foldl (fun acc c => acc + dual c * (m.con c).value) m.objValue

end MState

namespace Lagrange
open Queue

/-- The part of `LagrangeDualCoreState` (solver/lagrange_dual/core/lagrange_dual_core_state.h:15-40) that
determines the bound.  The initial value `-HUGE_VALF` of the two Lagrangians is `none`. -/
structure LState where
  dual : ConId → ℚ
  stepSize : ℚ
  lagrangian : Option ℚ
  lagrangianIncumbent : Option ℚ
  queue : FQ

/-- `bound_dual` for one multiplier, lagrange_dual_core_state_manager.h:216-251. -/
def boundDual1 (s : Sense) (x : ℚ) : ℚ :=
  match s with
  | .equal => x
  | .less => max x 0
  | .greater => min x 0

/-- `bound_dual`, lagrange_dual_core_state_manager.h:216-251. -/
def boundDual (m : MState) (dual : ConId → ℚ) : ConId → ℚ :=
  fun c => if c ∈ m.conIds then boundDual1 (m.con c).sense (dual c) else dual c

/-- `update_dual`, lagrange_dual_core_state_manager.h:187-213. -/
def updateDual (m : MState) (s : LState) : LState :=
  { s with
    dual := boundDual m (fun c => if c ∈ m.conIds then s.dual c + s.stepSize * (m.con c).value else s.dual c) }

/-- `setup`, lagrange_dual_core_state_manager.h:44-103.  `1.0 / number_of_variables()`; a model without
variables gives infinity in C++ and 0 here. -/
def setup (m : MState) (queueSize : ℤ) : LState :=
  { dual := boundDual m (fun _ => 0)
    stepSize := 1 / m.varIds.length
    lagrangian := none
    lagrangianIncumbent := none
    queue := FQ.setup queueSize }

/-- The coefficient of a variable in the Lagrangian, lagrange_dual_core.h:417-431. -/
def coefficient (m : MState) (dual : ConId → ℚ) (v : VarId) : ℚ :=
  (m.sens v).foldl (fun acc it => acc + dual it.1 * it.2 * m.sign) (m.objSens v)

/-- The loop moving each unfixed variable to one of its bounds, lagrange_dual_core.h:413-436.  The loop
may run in parallel; its iterations touch different variables. -/
def moveToBounds (m : MState) (dual : ConId → ℚ) : MState :=
  { m with
    var := fun v =>
      if v ∈ m.varIds then
        if (m.var v).fixed then m.var v
        else (m.var v).setLowerOrUpper (decide (coefficient m dual v > 0) == m.isMin)
      else m.var v }

/-- Order of a double against `-HUGE_VALF` (`none`). -/
def above (x : ℚ) : Option ℚ → Bool
  | none => true
  | some y => decide (y < x)

/-- `update_lagrangian`, lagrange_dual_core_state_manager.h:154-172 (the stored primal and dual
incumbents are not modelled). -/
def updateLagrangian (m : MState) (s : LState) : Option LState :=
  let l := m.computeLagrangian s.dual * m.sign
  (s.queue.push l).map fun q =>
    { s with
      lagrangian := some l
      lagrangianIncumbent := if above l s.lagrangianIncumbent then some l else s.lagrangianIncumbent
      queue := q }

/-- `update_step_size`, lagrange_dual_core_state_manager.h:175-185. -/
def updateStepSize (extend reduce : ℚ) (s : LState) : LState :=
  match s.lagrangian, s.queue.average, s.queue.max with
  | some l, some a, some b =>
    let s1 := if l > a then s.stepSize * extend else s.stepSize
    { s with stepSize := if l < b then s1 * reduce else s1 }
  | _, _, _ => s

/-- One iteration of the loop of `run`, lagrange_dual_core.h:397-480 (termination tests are modelled
separately). -/
def step (extend reduce : ℚ) (p : MState × LState) : Option (MState × LState) :=
  let s1 := updateDual p.1 p.2
  let m1 := (moveToBounds p.1 s1.dual).update
  (updateLagrangian m1 s1).map fun s2 => (m1, updateStepSize extend reduce s2)

/-- `n` iterations, lagrange_dual_core.h:376-480. -/
def run (extend reduce : ℚ) : ℕ → MState × LState → Option (MState × LState)
  | 0, p => some p
  | n + 1, p => (step extend reduce p).bind (run extend reduce n)

/-- Dual bound update by the controller, lagrange_dual_controller.h:165-180, from the Lagrangian of the
last iteration; the bound is in the user's direction. -/
def updateDualBound (isMin : Bool) (lagrangian : Option ℚ) (bound : ℚ) : ℚ :=
  match lagrangian with
  | none => bound
  | some l => if isMin then (if l > bound then l else bound) else (if -l < bound then -l else bound)

end Lagrange
end Printemps
