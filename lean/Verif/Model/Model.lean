import Verif.Model.Constraint

/-! # Model of the evaluation core of `printemps/model/model.h` -/

namespace Printemps

/-- A constraint pointer.  Simplification: natural numbers. -/
abbrev ConId := Nat

/-- `enum class MoveSense`, neighborhood/move_sense.h:11-33. -/
inductive MoveSense where
  | binary | integer | selection | exclusiveOr | exclusiveNor | invertedIntegers | balancedIntegers
  | constantSum | constantDifference | constantRatio | aggregation | precedence | variableBound
  | softSelection | trinomialExclusiveNor | chain | twoFlip | userDefined | general
deriving Repr, DecidableEq

/-- `struct Move`, neighborhood/move.h:20-62 (hash and overlap rate are modelled with the chain moves). -/
structure Move where
  alterations : List (VarId × ℤ)
  sense : MoveSense := .general
  related : List ConId := []
  isUnivariable : Bool := false
  isSelection : Bool := false
  isSpecial : Bool := false
  isAvailable : Bool := true
deriving Repr, DecidableEq

/-- `struct SolutionScore`, solution/solution_score.h:12-80. -/
structure Score where
  objective : ℚ := 0
  objectiveImprovement : ℚ := 0
  totalViolation : ℚ := 0
  localPenalty : ℚ := 0
  globalPenalty : ℚ := 0
  localAug : ℚ := 0
  globalAug : ℚ := 0
  isFeasible : Bool := false
  isObjectiveImprovable : Bool := false
  isFeasibilityImprovable : Bool := false
deriving Repr, DecidableEq

/-- A user expression or the defining expression of a dependent variable held in
`m_expression_proxies` (model/model.h:60-75), with its `is_enabled` flag. -/
structure UserExpr where
  expr : Expr
  enabled : Bool := true
deriving Repr, DecidableEq

/-- The state of `Model<int,double>` (model/model.h:25-110) used by evaluation and update.
Simplification: proxies are flattened; `conIds` lists all constraints in proxy order. -/
structure MState where
  var : VarId → Var
  varIds : List VarId
  con : ConId → Con
  conIds : List ConId
  uexpr : ℕ → UserExpr
  uexprIds : List ℕ
  /-- dependent variables with the expression defining them -/
  dependents : List (VarId × ℕ)
  obj : Expr
  objValue : ℚ
  objDefined : Bool
  isMin : Bool
  globalPen : ℚ
  userDefinedMoves : Bool
  /-- `constraint_sensitivities()` of each variable -/
  sens : VarId → List (ConId × ℚ)
  /-- `objective_sensitivity()` of each variable -/
  objSens : VarId → ℚ
  /-- `selected_variable_ptr` of each selection (`none` is the null pointer) -/
  selected : ℕ → Option VarId
  violative : List ConId
  feasible : Bool

namespace MState

/-- The variable values, read through `Variable::value()` (model_component/variable.h:174). -/
def vals (m : MState) : VarId → ℤ := fun v => (m.var v).value

/-- `Model::sign()`, model/model.h:4027-4034. -/
def sign (m : MState) : ℚ := if m.isMin then 1 else -1

/-- `m_constraint_reference.enabled_constraint_ptrs`, model/model.h:1078-1100. -/
def enabledIds (m : MState) : List ConId := m.conIds.filter (fun c => (m.con c).enabled)

/-- `setup_variable_constraint_sensitivities`, model/model.h:978-1008.
Simplification: the final sort by constraint name is not modelled (order does not matter below:
theorems are stated for any permutation). -/
def setupSens (m : MState) : MState :=
  { m with
    sens := fun v =>
      (m.conIds.filter (fun c => decide (v ∈ (m.con c).expr.vars))).map
        (fun c => (c, Expr.lookup (m.con c).expr.terms v)) }

/-- `setup_variable_objective_sensitivities`, model/model.h:971-975 (never resets). -/
def setupObjSens (m : MState) : MState :=
  { m with
    objSens := fun v => if v ∈ m.obj.vars then Expr.lookup m.obj.terms v else m.objSens v }

/-- `update_violative_constraint_ptrs_and_feasibility`, model/model.h:2585-2599. -/
def updateFeasibility (m : MState) : MState :=
  let vs := m.enabledIds.filter (fun c => !(m.con c).isFeasible)
  { m with violative := vs, feasible := decide (vs.length = 0) }

/-- First loop of `update()`, model/model.h:2359-2363. -/
def updateExprs (m : MState) : MState :=
  { m with
    uexpr := fun i =>
      if i ∈ m.uexprIds then { m.uexpr i with expr := (m.uexpr i).expr.update m.vals } else m.uexpr i }

/-- Loops over dependent variables of `update()`, model/model.h:2365-2373. -/
def updateDependents (m : MState) : MState :=
  { m with
    var := m.dependents.foldl
      (fun var d => Function.update var d.1 ((var d.1).updateDependent (m.uexpr d.2).expr.value)) m.var }

/-- Loop over all constraints of `update()`, model/model.h:2375-2379. -/
def updateCons (m : MState) : MState :=
  { m with con := fun c => if c ∈ m.conIds then (m.con c).update m.vals else m.con c }

/-- Objective part of `update()`, model/model.h:2381-2383 and model_component/objective.h:122-125. -/
def updateObj (m : MState) : MState :=
  if m.objDefined then
    { m with obj := m.obj.update m.vals, objValue := (m.obj.update m.vals).value } else m

/-- `Model::update()`, model/model.h:2353-2386. -/
def update (m : MState) : MState :=
  m.updateExprs.updateDependents.updateCons.updateObj.updateFeasibility

/-- Objective part of `update(move)`, model/model.h:2425-2427. -/
def updateObjMove (m : MState) (alts : List (VarId × ℤ)) : MState :=
  if m.objDefined then
    { m with obj := m.obj.updateMove m.vals alts, objValue := (m.obj.updateMove m.vals alts).value }
  else m

/-- Constraint part of `update(move)`, model/model.h:2429-2441. -/
def updateConsMove (m : MState) (mv : Move) : MState :=
  let ids := if m.userDefinedMoves then m.enabledIds else mv.related
  { m with
    con := ids.foldl
      (fun con c => Function.update con c ((con c).updateMove m.vals mv.alterations)) m.con }

/-- Expression part of `update(move)`, model/model.h:2443-2449. -/
def updateExprsMove (m : MState) (alts : List (VarId × ℤ)) : MState :=
  { m with
    uexpr := fun i =>
      if i ∈ m.uexprIds ∧ (m.uexpr i).enabled = true then
        { m.uexpr i with expr := (m.uexpr i).expr.updateMove m.vals alts } else m.uexpr i }

/-- Variable part of `update(move)`, model/model.h:2451-2453. -/
def updateVarsMove (m : MState) (alts : List (VarId × ℤ)) : MState :=
  { m with
    var := alts.foldl
      (fun var a => Function.update var a.1 ((var a.1).setValueIfMutable a.2)) m.var }

/-- `alterations[1].first->select()` for selection moves, model/model.h:2455-2457 and
model_component/variable.h:485-487.  Undefined behaviour (no second alteration, no selection) leaves
the state unchanged in the model. -/
def updateSelected (m : MState) (mv : Move) : MState :=
  if mv.sense = .selection then
    match mv.alterations with
    | _ :: a :: _ =>
      match (m.var a.1).selection with
      | some s => { m with selected := Function.update m.selected s (some a.1) }
      | none => m
    | _ => m
  else m

/-- `Model::update(move)`, model/model.h:2417-2460. -/
def updateMove (m : MState) (mv : Move) : MState :=
  (((((m.updateObjMove mv.alterations).updateConsMove mv).updateExprsMove mv.alterations).updateVarsMove
    mv.alterations).updateSelected mv).updateFeasibility

/-- Common tail of the four evaluation functions, model/model.h:2675-2702 (identical in 2752-2778,
2917-2943, 2994-3019); the `_PRINTEMPS_MPS_SOLVER` variant differs only for maximisation and is not
modelled. -/
def finishScore (m : MState) (alts : List (VarId × ℤ)) (tv lp : ℚ) (feasImp : Bool) : Score :=
  let o := if m.objDefined then m.obj.evaluateMove m.vals alts * m.sign else 0
  let oi := if m.objDefined then m.objValue * m.sign - o else 0
  { objective := o
    objectiveImprovement := oi
    totalViolation := tv
    localPenalty := lp
    globalPenalty := tv * m.globalPen
    localAug := o + lp
    globalAug := o + tv * m.globalPen
    isFeasible := !decide (tv > EPSILON)
    isObjectiveImprovable := decide (oi > EPSILON)
    isFeasibilityImprovable := feasImp }

/-- Loop body of the full evaluation, model/model.h:2640-2671.
Accumulator: (total violation, local penalty, feasibility improvable). -/
def evalFullStep (m : MState) (alts : List (VarId × ℤ)) (acc : ℚ × ℚ × Bool) (c : ConId) :
    ℚ × ℚ × Bool :=
  let k := m.con c
  if !k.enabled then acc
  else
    let x := k.expr.evaluateMove m.vals alts
    let p := max x 0
    let n := max (-x) 0
    let a1 := if k.isLe then
        (acc.1 + p, acc.2.1 + p * k.penLess, acc.2.2 || decide (p + EPSILON < k.pos)) else acc
    if k.isGe then
        (a1.1 + n, a1.2.1 + n * k.penGreater, a1.2.2 || decide (n + EPSILON < k.neg)) else a1

/-- `Model::evaluate(score, move)`, model/model.h:2624-2703. -/
def evaluateFull (m : MState) (mv : Move) : Score :=
  let r := m.conIds.foldl (m.evalFullStep mv.alterations) (0, 0, false)
  m.finishScore mv.alterations r.1 r.2.1 r.2.2

/-- Loop body of `evaluate_single` for one `(constraint, sensitivity)` pair and a value change `d`,
model/model.h:2721-2749.  Accumulator: (total violation, local penalty). -/
def evalSensStep (m : MState) (skip : Con → Bool) (d : ℤ) (acc : ℚ × ℚ) (s : ConId × ℚ) : ℚ × ℚ :=
  let k := m.con s.1
  if skip k then acc
  else
    let x := k.value + s.2 * (d : ℚ)
    let a1 := if k.isLe then
        (acc.1 + (max x 0 - k.pos), acc.2 + (max x 0 - k.pos) * k.penLess) else acc
    if k.isGe then
        (a1.1 - (min x 0 + k.neg), a1.2 - (min x 0 + k.neg) * k.penGreater) else a1

/-- `Model::evaluate_single`, model/model.h:2706-2779.  The empty move is undefined behaviour in C++
(`front()`), the model keeps the current numbers. -/
def evaluateSingle (m : MState) (mv : Move) (cur : Score) : Score :=
  match mv.alterations with
  | [] => m.finishScore [] cur.totalViolation cur.localPenalty true
  | a :: _ =>
    let r := (m.sens a.1).foldl (m.evalSensStep Con.ignorable (a.2 - m.vals a.1))
      (cur.totalViolation, cur.localPenalty)
    m.finishScore mv.alterations r.1 r.2 true

/-- Loop body of `evaluate_multi`, model/model.h:2960-2991. -/
def evalMultiStep (m : MState) (alts : List (VarId × ℤ)) (acc : ℚ × ℚ × Bool) (c : ConId) :
    ℚ × ℚ × Bool :=
  let k := m.con c
  if !k.enabled then acc
  else
    let x := k.expr.evaluateMove m.vals alts
    if |x - k.value| < EPSILON_10 then acc
    else
      let dp := if k.isLe then max x 0 - k.pos else 0
      let dn := if k.isGe then max (-x) 0 - k.neg else 0
      (acc.1 + (dp + dn), acc.2.1 + (dp * k.penLess + dn * k.penGreater),
        acc.2.2 || decide (dp + dn < -EPSILON))

/-- `Model::evaluate_multi`, model/model.h:2947-3020. -/
def evaluateMulti (m : MState) (mv : Move) (cur : Score) : Score :=
  let r := mv.related.foldl (m.evalMultiStep mv.alterations) (cur.totalViolation, cur.localPenalty, false)
  m.finishScore mv.alterations r.1 r.2.1 r.2.2

/-- Dispatch of `Model::evaluate(move, current score)`, model/model.h:2611-2621. -/
def evaluateDispatch (m : MState) (mv : Move) (cur : Score) : Score :=
  if mv.alterations.length = 1 then m.evaluateSingle mv cur else m.evaluateMulti mv cur

end MState
end Printemps
