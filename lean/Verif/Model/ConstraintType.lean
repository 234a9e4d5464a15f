import Verif.Model.Constraint

/-! # Model of `Constraint::setup_constraint_type`, model_component/constraint.h:303-892

The function is a decision list: every branch sets one of the flags `m_is_...` and returns.  The model
returns the flag that is set together with the key variable.  The sensitivities are visited in the order of
the list of terms. -/

namespace Printemps

/-- The flags `m_is_singleton`, `m_is_exclusive_or`, ... of `Constraint`, model_component/constraint.h:72-110;
exactly one is set. -/
inductive ConType where
  | singleton | exclusiveOr | exclusiveNor | invertedIntegers | balancedIntegers | constantSum
  | constantDifference | constantRatio | aggregation | precedence | variableBound | trinomialExclusiveNor
  | setPartitioning | setPacking | setCovering | cardinality | invariantKnapsack | multipleCovering
  | binaryFlow | integerFlow | softSelection | minMax | maxMin | intermediate | equationKnapsack
  | binPacking | knapsack | integerKnapsack | gf2 | generalLinear
deriving Repr, DecidableEq

namespace ConType

/-- A classification result: the type and `m_key_variable_ptr`. -/
abbrev Result := ConType × Option VarId

/-- `sense() == Binary || sense() == DependentBinary`, model_component/constraint.h:334-339. -/
def isBin (v : Var) : Bool := v.sense == .binary || v.sense == .dependentBinary

/-- `sense() == Integer || sense() == DependentInteger`, model_component/constraint.h:369-374. -/
def isInt (v : Var) : Bool := v.sense == .integer || v.sense == .dependentInteger

/-- `sense() == Binary || sense() == Selection`, model_component/constraint.h:614-618, 752-754. -/
def isBinSel (v : Var) : Bool := v.sense == .binary || v.sense == .selection

/-- The variable with the smaller name, model_component/constraint.h:340-344, 375-379. -/
def smaller (lt : VarId → VarId → Bool) (x y : VarId) : VarId := if lt x y then x else y

/-- Two 0/1 variables: exclusive or / exclusive nor, model_component/constraint.h:334-367. -/
def pairBinary (var : VarId → Var) (lt : VarId → VarId → Bool) (k : ℚ) (x : VarId) (a : ℚ) (y : VarId)
    (b : ℚ) : Option Result :=
  if isBin (var x) = true ∧ isBin (var y) = true then
    if a = 1 ∧ b = 1 ∧ k = -1 then some (.exclusiveOr, some (smaller lt x y))
    else if a = -1 ∧ b = -1 ∧ k = 1 then some (.exclusiveOr, some (smaller lt x y))
    else if a = 1 ∧ b = -1 ∧ k = 0 then some (.exclusiveNor, some (smaller lt x y))
    else if a = -1 ∧ b = 1 ∧ k = 0 then some (.exclusiveNor, some (smaller lt x y))
    else none
  else none

/-- Two integer variables, coefficients 1 or -1 for both, model_component/constraint.h:380-412. -/
def pairUnit (lt : VarId → VarId → Bool) (k : ℚ) (x : VarId) (a : ℚ) (y : VarId) (b : ℚ) : Option Result :=
  if a = 1 ∧ b = 1 ∧ k = 0 then some (.invertedIntegers, some (smaller lt x y))
  else if a = -1 ∧ b = -1 ∧ k = 0 then some (.invertedIntegers, some (smaller lt x y))
  else if a = 1 ∧ b = -1 ∧ k = 0 then some (.balancedIntegers, some (smaller lt x y))
  else if a = -1 ∧ b = 1 ∧ k = 0 then some (.balancedIntegers, some (smaller lt x y))
  else if a = 1 ∧ b = 1 ∧ k ≠ 0 then some (.constantSum, some (smaller lt x y))
  else if a = -1 ∧ b = -1 ∧ k ≠ 0 then some (.constantSum, some (smaller lt x y))
  else if a = 1 ∧ b = -1 ∧ k ≠ 0 then some (.constantDifference, some (smaller lt x y))
  else if a = -1 ∧ b = 1 ∧ k ≠ 0 then some (.constantDifference, some (smaller lt x y))
  else none

/-- Two integer variables, one coefficient 1 or -1, model_component/constraint.h:413-439. -/
def pairHalf (isInteger : Bool) (k : ℚ) (x : VarId) (a : ℚ) (y : VarId) (b : ℚ) : Option Result :=
  if |a| = 1 ∧ |b| ≠ 1 ∧ k = 0 then some (.constantRatio, some x)
  else if |a| ≠ 1 ∧ |b| = 1 ∧ k = 0 then some (.constantRatio, some y)
  else if |a| = 1 ∧ |b| ≠ 1 ∧ isInteger = true then some (.intermediate, some x)
  else if |a| ≠ 1 ∧ |b| = 1 ∧ isInteger = true then some (.intermediate, some y)
  else none

/-- Two terms, equality, nothing fixed: model_component/constraint.h:311-446. -/
def pairEqual (var : VarId → Var) (lt : VarId → VarId → Bool) (c : Con) (x : VarId) (a : ℚ) (y : VarId)
    (b : ℚ) : Result :=
  match pairBinary var lt c.expr.const x a y b with
  | some r => r
  | none =>
    if isInt (var x) = true ∧ isInt (var y) = true then
      match pairUnit lt c.expr.const x a y b with
      | some r => r
      | none =>
        match pairHalf c.isInteger c.expr.const x a y b with
        | some r => r
        | none => (.aggregation, none)
    else (.aggregation, none)

/-- Two terms, inequality, nothing fixed: model_component/constraint.h:449-492. -/
def pairInequality (var : VarId → Var) (x : VarId) (a : ℚ) (y : VarId) (b : ℚ) : Result :=
  if (var x).sense = (var y).sense ∧ a = -b then (.precedence, none) else (.variableBound, none)

/-- Three terms, equality, nothing fixed: model_component/constraint.h:494-552. -/
def trinomial (var : VarId → Var) (ts : List (VarId × ℚ)) : Option Result :=
  if ts.all (fun t => isBin (var t.1)) then
    let p1 := ts.filter (fun t => t.2 = 1)
    let m1 := ts.filter (fun t => t.2 = -1)
    let p2 := ts.filter (fun t => t.2 = 2)
    let m2 := ts.filter (fun t => t.2 = -2)
    if p1.length = 2 ∧ m2.length = 1 then some (.trinomialExclusiveNor, m2.head?.map Prod.fst)
    else if m1.length = 2 ∧ p2.length = 1 then some (.trinomialExclusiveNor, p2.head?.map Prod.fst)
    else none
  else none

/-- Set partitioning, packing, covering, cardinality, invariant knapsack, multiple covering:
model_component/constraint.h:538-584.  The two flags are the ones stored by `Constraint::setup`. -/
def setTypes (c : Con) : Option Result :=
  if c.onlyBinaryCoef = true ∧ c.onlyBinaryVar = true then
    if c.expr.const = -1 ∧ c.sense = .equal then some (.setPartitioning, none)
    else if c.expr.const = -1 ∧ c.sense = .less then some (.setPacking, none)
    else if c.expr.const = -1 ∧ c.sense = .greater then some (.setCovering, none)
    else if c.expr.const ≤ -2 ∧ c.sense = .equal then some (.cardinality, none)
    else if c.expr.const ≤ -2 ∧ c.sense = .less then some (.invariantKnapsack, none)
    else if c.expr.const ≤ -2 ∧ c.sense = .greater then some (.multipleCovering, none)
    else none
  else none

/-- Binary flow, integer flow, soft selection: model_component/constraint.h:587-659. -/
def flowTypes (var : VarId → Var) (c : Con) : Option Result :=
  let ts := c.expr.terms
  if c.sense = .equal ∧ ts.all (fun t => decide (|t.2| = 1)) = true then
    let p := ts.filter (fun t => t.2 = 1)
    let m := ts.filter (fun t => ¬ t.2 = 1)
    if ts.all (fun t => isBinSel (var t.1)) = true then
      match p, m with
      | [x], _ :: _ =>
        if (var x.1).fixed = false ∧ c.expr.const = 0 then some (.softSelection, some x.1)
        else match m with
          | [y] => if (var y.1).fixed = false ∧ c.expr.const = 0 then some (.softSelection, some y.1)
                   else some (.binaryFlow, none)
          | _ => some (.binaryFlow, none)
      | _ :: _, [y] => if (var y.1).fixed = false ∧ c.expr.const = 0 then some (.softSelection, some y.1)
                   else some (.binaryFlow, none)
      | _, _ => some (.binaryFlow, none)
    else if ts.all (fun t => (var t.1).sense == .integer) = true ∧ 1 < p.length ∧ 1 < m.length then
      some (.integerFlow, none)
    else none
  else none

/-- Min-max, max-min, intermediate: model_component/constraint.h:662-741. -/
def boundTypes (var : VarId → Var) (c : Con) : Option Result :=
  if c.isInteger = true then
    let cand := c.expr.terms.filter (fun t => isInt (var t.1) && !(var t.1).fixed)
    let p := cand.filter (fun t => t.2 = 1)
    let m := cand.filter (fun t => t.2 = -1)
    if c.sense = .less ∧ m.length = 1 ∧ p.length = 0 then some (.minMax, m.head?.map Prod.fst)
    else if c.sense = .greater ∧ p.length = 1 ∧ m.length = 0 then some (.minMax, p.head?.map Prod.fst)
    else if c.sense = .greater ∧ m.length = 1 ∧ p.length = 0 then some (.maxMin, m.head?.map Prod.fst)
    else if c.sense = .less ∧ p.length = 1 ∧ m.length = 0 then some (.maxMin, p.head?.map Prod.fst)
    else if c.sense = .equal ∧ m.length = 1 ∧ p.length ≠ 1 then some (.intermediate, m.head?.map Prod.fst)
    else if c.sense = .equal ∧ p.length = 1 ∧ m.length ≠ 1 then some (.intermediate, p.head?.map Prod.fst)
    else none
  else none

/-- Equation knapsack, bin packing, knapsack, integer knapsack: model_component/constraint.h:744-806. -/
def knapsackTypes (var : VarId → Var) (c : Con) : Option Result :=
  let ts := c.expr.terms
  let onlyPos := ts.all (fun t => !decide (t.2 < 0))
  let onlyNeg := ts.all (fun t => !decide (t.2 > 0))
  let le := (onlyPos && c.sense == .less) || (onlyNeg && c.sense == .greater)
  if ts.all (fun t => isBinSel (var t.1)) = true then
    if c.sense = .equal ∧ (onlyPos || onlyNeg) = true then some (.equationKnapsack, none)
    else if ts.any (fun t => decide (t.2 = -c.expr.const)) = true ∧ le = true then some (.binPacking, none)
    else if le = true then some (.knapsack, none)
    else none
  else if le = true then some (.integerKnapsack, none)
  else none

/-- A variable that can be the key variable of a GF(2) constraint, model_component/constraint.h:836-838. -/
def gf2Key (var : VarId → Var) (t : VarId × ℚ) : Bool :=
  ((var t.1).sense == .integer || (var t.1).sense == .binary) && decide (|t.2| = 2)

/-- GF(2): model_component/constraint.h:809-889. -/
def gf2Type (var : VarId → Var) (c : Con) : Option Result :=
  let ts := c.expr.terms
  if (c.expr.const = 0 ∨ |c.expr.const| = 1) ∧ c.sense = .equal ∧
      ts.all (fun t => !(var t.1).fixed && (gf2Key var t || ((var t.1).sense == .binary && decide (|t.2| = 1)))) = true then
    match ts.filter (gf2Key var) with
    | [k] =>
      let rest := c.expr.erase k.1
      let boxes : VarId → Expr.Box := fun v => (var v).box
      let lo := if k.2 > 0 then -rest.upperBound boxes else rest.lowerBound boxes
      let hi := if k.2 > 0 then -rest.lowerBound boxes else rest.upperBound boxes
      if ((var k.1).lb ≠ INT_HALF_MIN ∧ (var k.1).lb > ⌈lo * (1/2)⌉) ∨
         ((var k.1).ub ≠ INT_HALF_MAX ∧ (var k.1).ub < ⌊hi * (1/2)⌋) then none
      else some (.gf2, some k.1)
    | _ => none
  else none

/-- The branches after the ones for two and three variables, model_component/constraint.h:538-892. -/
def general (var : VarId → Var) (c : Con) : Result :=
  ((((setTypes c).orElse (fun _ => flowTypes var c)).orElse (fun _ => boundTypes var c)).orElse
    (fun _ => knapsackTypes var c)).orElse (fun _ => gf2Type var c) |>.getD (.generalLinear, none)

/-- `setup_constraint_type`, model_component/constraint.h:303-892.  `lt` compares variable names. -/
def classify (var : VarId → Var) (lt : VarId → VarId → Bool) (c : Con) : Result :=
  match c.expr.terms with
  | [_] => (.singleton, none)
  | [t, u] =>
    if (var t.1).fixed = false ∧ (var u.1).fixed = false then
      if c.sense = .equal then pairEqual var lt c t.1 t.2 u.1 u.2 else pairInequality var t.1 t.2 u.1 u.2
    else general var c
  | [t, u, w] =>
    if c.sense = .equal ∧ (var t.1).fixed = false ∧ (var u.1).fixed = false ∧ (var w.1).fixed = false then
      (trinomial var [t, u, w]).getD (general var c)
    else general var c
  | _ => general var c

end ConType
end Printemps
