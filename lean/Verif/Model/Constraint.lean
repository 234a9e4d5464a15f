import Verif.Model.Variable

/-! # Model of `printemps/model_component/constraint.h` (evaluation) and of the comparison operators -/

namespace Printemps

/-- `enum class ConstraintSense`, model_component/constraint_sense.h. -/
inductive Sense where
  | less | equal | greater
deriving Repr, DecidableEq

/-- The evaluation state of `Constraint` (model_component/constraint.h:36-120).
A constraint object means `expression (≤,=,≥) 0`. -/
structure Con where
  expr : Expr
  sense : Sense
  enabled : Bool := true
  value : ℚ := 0
  violation : ℚ := 0
  margin : ℚ := 0
  pos : ℚ := 0
  neg : ℚ := 0
  hasMargin : Bool := false
  isInteger : Bool := false
  maxAbs : ℚ := 0
  onlyBinaryCoef : Bool := false
  onlyBinaryVar : Bool := false
  penLess : ℚ := 0
  penGreater : ℚ := 0
  penGlobal : ℚ := 0
deriving Repr, DecidableEq

/-- The lambda `is_integer` of `Constraint::setup`, model_component/constraint.h:238-240. -/
def isIntegerQ (q : ℚ) : Bool := decide (|q - (⌊q⌋ : ℚ)| < EPSILON_10)

namespace Con

/-- `m_is_less_or_equal`, model_component/constraint.h:275-298. -/
def isLe (c : Con) : Bool := c.sense != .greater

/-- `m_is_greater_or_equal`, model_component/constraint.h:275-298. -/
def isGe (c : Con) : Bool := c.sense != .less

/-- `Constraint::setup(expression, sense)`, model_component/constraint.h:226-300.
`senseOf` gives the sense each variable has at that moment. -/
def setup (e : Expr) (s : Sense) (senseOf : VarId → VarSense) : Con :=
  { expr := e, sense := s
    isInteger := isIntegerQ e.const && e.terms.all (fun t => isIntegerQ t.2)
    maxAbs := e.terms.foldl (fun m t => max m |t.2|) 0
    onlyBinaryCoef := e.terms.all (fun t => decide (t.2 = 1))
    onlyBinaryVar := e.terms.all (fun t => senseOf t.1 == .binary || senseOf t.1 == .selection) }

/-- The part shared by `update()` and `update(move)`: set value, positive and negative part,
violation and margin from the constraint value, model_component/constraint.h:914-935, 947-975. -/
def setValue (c : Con) (x : ℚ) : Con :=
  { c with
    value := x
    pos := max x 0
    neg := - min x 0
    violation := match c.sense with
      | .less => max x 0
      | .equal => max x 0 + - min x 0
      | .greater => - min x 0
    margin := match c.sense with
      | .less => - min x 0
      | .equal => 0
      | .greater => max x 0 }

/-- `Constraint::update()`, model_component/constraint.h:907-938. The expression is refreshed first. -/
def update (c : Con) (σ : VarId → ℤ) : Con :=
  let e := c.expr.update σ
  let d := { c with expr := e }.setValue e.value
  { d with hasMargin := d.onlyBinaryVar && decide (d.margin ≥ d.maxAbs - EPSILON_10) }

/-- `Constraint::update(move)`, model_component/constraint.h:941-977. -/
def updateMove (c : Con) (σ : VarId → ℤ) (alts : List (VarId × ℤ)) : Con :=
  let d := c.setValue (c.expr.evaluateMove σ alts)
  let d := { d with hasMargin := d.onlyBinaryVar && decide (d.margin ≥ d.maxAbs) }
  { d with expr := d.expr.updateMove σ alts }

/-- `is_feasible()`, model_component/constraint.h:1026-1028. -/
def isFeasible (c : Con) : Bool := decide (c.violation < EPSILON)

/-- `is_evaluation_ignorable()`, model_component/constraint.h:1116-1118. -/
def ignorable (c : Con) : Bool := !c.enabled || c.hasMargin

/-- `reset_local_penalty_coefficient`, model_component/constraint.h:1060-1063. -/
def resetPenalty (c : Con) : Con := { c with penLess := c.penGlobal, penGreater := c.penGlobal }

/-- `limit_local_penalty_coefficient`, model_component/constraint.h:1066-1071. -/
def limitPenalty (c : Con) : Con :=
  { c with penLess := min c.penLess c.penGlobal, penGreater := min c.penGreater c.penGlobal }

end Con

/-- One operand of a comparison: an expression (variables and proxies convert through
`to_expression()`) or a plain number; overloads of model_component/constraint_binary_operator.h:20-330. -/
inductive Side where
  | expr (e : Expr)
  | num (c : ℚ)
deriving Repr

/-- Number/expression combination used by all nine overloads of
model_component/constraint_binary_operator.h: `e - value` (58-65, 159-166, 261-268),
`-e + value` (68-75, 169-176, 271-278), `l - r` (121-128, 222-229, 324-331).  Comparing two plain
numbers is a C++ `bool`, not a constraint: `none`. -/
def sideDiff : Side → Side → Option Expr
  | .expr e, .num c => some (e.subValue c)
  | .num c, .expr e => some (e.neg.addValue c)
  | .expr l, .expr r => some (l.sub r)
  | .num _, .num _ => none

/-- `operator<=`, `operator==`, `operator>=` of model_component/constraint_binary_operator.h. -/
def compareOp (s : Sense) (l r : Side) (senseOf : VarId → VarSense) : Option Con :=
  (sideDiff l r).map (fun e => Con.setup e s senseOf)

end Printemps
