import Verif.Model.Expression

/-! # Model of `printemps/model_component/variable.h` -/

namespace Printemps

/-- `constant::INT_HALF_MIN = INT_MIN / 2 + 1`, constant/constant.h:12. -/
def INT_HALF_MIN : ℤ := -1073741823

/-- `constant::INT_HALF_MAX = (INT_MAX - 1) / 2`, constant/constant.h:13. -/
def INT_HALF_MAX : ℤ := 1073741823

/-- `enum class VariableSense`, model_component/variable_sense.h:11-17. -/
inductive VarSense where
  | binary | integer | selection | dependentBinary | dependentInteger
deriving Repr, DecidableEq

/-- The members of `Variable` (model_component/variable.h:57-100) that are modelled.
Simplification: the back references to constraints are computed on demand (`Model/Model.lean`). -/
structure Var where
  value : ℤ
  lb : ℤ
  ub : ℤ
  hasBounds : Bool
  fixed : Bool
  sense : VarSense
  hasLowerMargin : Bool
  hasUpperMargin : Bool
  objImprovable : Bool
  feasImprovable : Bool
  localLastUpdate : ℤ
  globalLastUpdate : ℤ
  updateCount : ℕ
  selection : Option ℕ
deriving Repr, DecidableEq

namespace Var

/-- `Variable::initialize()`, model_component/variable.h:121-156. -/
def init : Var :=
  { value := 0, lb := INT_HALF_MIN, ub := INT_HALF_MAX, hasBounds := false, fixed := false,
    sense := .integer, hasLowerMargin := true, hasUpperMargin := true,
    objImprovable := false, feasImprovable := false,
    localLastUpdate := -1000, globalLastUpdate := 0, updateCount := 0, selection := none }

/-- `update_margin()`, model_component/variable.h:400-403. -/
def updateMargin (v : Var) : Var :=
  { v with hasLowerMargin := decide (v.value > v.lb), hasUpperMargin := decide (v.value < v.ub) }

/-- `set_value_force`, model_component/variable.h:160-163. -/
def setValueForce (v : Var) (x : ℤ) : Var := { v with value := x }.updateMargin

/-- `set_value_if_mutable`, model_component/variable.h:166-171. -/
def setValueIfMutable (v : Var) (x : ℤ) : Var :=
  if v.fixed then v else { v with value := x }.updateMargin

/-- `set_value` (model_component/variable.h:179-187) and `operator=` (748-758).
`none` models the thrown `std::logic_error`. -/
def setValue (v : Var) (x : ℤ) : Option Var :=
  if v.value ≠ x ∧ v.fixed = true then none else some { v with value := x }.updateMargin

/-- `setup_sense_binary_or_integer`, model_component/variable.h:421-429. -/
def setupSense (v : Var) : Var :=
  if (v.lb = 0 ∧ v.ub = 1) ∨ (v.lb = 0 ∧ v.ub = 0) ∨ (v.lb = 1 ∧ v.ub = 1)
  then { v with sense := .binary } else { v with sense := .integer }

/-- `set_bound`, model_component/variable.h:211-229.  `none` models the thrown error. -/
def setBound (v : Var) (l u : ℤ) : Option Var :=
  if l > u then none
  else some
    ({ v with lb := l, ub := u, hasBounds := true, value := max (min v.value u) l }.setupSense).updateMargin

/-- `reset_bound`, model_component/variable.h:232-239. -/
def resetBound (v : Var) : Var :=
  { v with lb := INT_HALF_MIN, ub := INT_HALF_MAX, hasBounds := false, sense := .integer,
           selection := none }.updateMargin

/-- `set_lower_or_upper_bound`, model_component/variable.h:257-259. -/
def setLowerOrUpper (v : Var) (isLower : Bool) : Var :=
  v.setValueIfMutable (if isLower then v.lb else v.ub)

/-- `fix()`, model_component/variable.h:315-317. -/
def fix (v : Var) : Var := { v with fixed := true }

/-- `unfix()`, model_component/variable.h:320-322. -/
def unfix (v : Var) : Var := { v with fixed := false }

/-- `fix_by`, model_component/variable.h:330-334. -/
def fixBy (v : Var) (x : ℤ) : Var := { v with value := x, fixed := true }.updateMargin

/-- `Variable::update()` for a dependent variable (double to int conversion, margins not refreshed),
model_component/variable.h:490-492. -/
def updateDependent (v : Var) (x : ℚ) : Var := { v with value := Expr.truncQ x }

/-- `set_selection_ptr`, model_component/variable.h:473-477. -/
def setSelection (v : Var) (s : ℕ) : Var := { v with selection := some s, sense := .selection }

/-- The view of a variable that `Expression::lower_bound` reads, model_component/expression.h:360-391. -/
def box (v : Var) : Expr.Box := { value := v.value, lb := v.lb, ub := v.ub, fixed := v.fixed }

end Var
end Printemps
