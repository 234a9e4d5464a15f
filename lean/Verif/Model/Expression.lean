import Verif.Prelude

/-!
# Model of `printemps/model_component/expression.h` and of the tolerances

`double` is modelled by `ℚ`, `int` by `ℤ`, `Variable*` by a natural number.
-/

namespace Printemps

/-- A variable pointer (`Variable<int,double>*`, model_component/variable.h:33-80).
Simplification: pointers are natural numbers. -/
abbrev VarId := Nat

/-- `constant::EPSILON = 1E-5`, constant/constant.h:10-13. -/
def EPSILON : ℚ := 1 / 100000

/-- `constant::EPSILON_10 = 1E-10`, constant/constant.h:11. -/
def EPSILON_10 : ℚ := 1 / 10000000000

/-- `Expression::m_sensitivities`, `m_constant_value`, `m_value`
(model_component/expression.h:57-62).
Simplification: the unordered map is an association list (in iteration order);
distinctness of keys is the predicate `Expr.WF`. -/
structure Expr where
  terms : List (VarId × ℚ)
  const : ℚ
  value : ℚ := 0
deriving Repr, DecidableEq

namespace Expr

/-- The keys of `m_sensitivities` (model_component/expression.h:57-62). -/
def vars (e : Expr) : List VarId := e.terms.map Prod.fst

/-- An `unordered_map` holds each key at most once (model_component/expression.h:57-62). -/
def WF (e : Expr) : Prop := e.vars.Nodup

/-- `create_instance(sensitivities, constant)`, model_component/expression.h:133-145. -/
def create (terms : List (VarId × ℚ)) (c : ℚ) : Expr := { terms := terms, const := c }

/-- `m_sensitivities[v]` when present, `0` otherwise: the specification-level behaviour of
`FixedSizeHashMap::at` (utility/fixed_size_hash_map.h:120-140) on the table built by
`setup_fixed_sensitivities` (model_component/expression.h:230-239).  That the open-addressing table
really behaves like this is property C15. -/
def lookup : List (VarId × ℚ) → VarId → ℚ
  | [], _ => 0
  | (w, d) :: rest, v => if w = v then d else lookup rest v

/-- `Expression::evaluate()`, model_component/expression.h:271-278. -/
def evaluate (e : Expr) (σ : VarId → ℤ) : ℚ :=
  e.terms.foldl (fun v t => v + (σ t.1 : ℚ) * t.2) e.const

/-- `Expression::evaluate(move)`, model_component/expression.h:281-290:
stored value plus coefficient times value change, for each alteration. -/
def evaluateMove (e : Expr) (σ : VarId → ℤ) (alts : List (VarId × ℤ)) : ℚ :=
  alts.foldl (fun v a => v + lookup e.terms a.1 * (((a.2 - σ a.1 : ℤ)) : ℚ)) e.value

/-- `Expression::update()`, model_component/expression.h:293-295. -/
def update (e : Expr) (σ : VarId → ℤ) : Expr := { e with value := e.evaluate σ }

/-- `Expression::update(move)`, model_component/expression.h:298-301. -/
def updateMove (e : Expr) (σ : VarId → ℤ) (alts : List (VarId × ℤ)) : Expr :=
  { e with value := e.evaluateMove σ alts }

/-- `Expression::copy()`, model_component/expression.h:314-316. -/
def copy (e : Expr) : Expr := create e.terms e.const

/-- One iteration of the loop in `operator+=`, model_component/expression.h:536-542:
add to the existing key or insert.  Simplification: a new key goes to the end of the list. -/
def upsert : List (VarId × ℚ) → VarId → ℚ → List (VarId × ℚ)
  | [], v, c => [(v, c)]
  | (w, d) :: rest, v, c => if w = v then (w, d + c) :: rest else (w, d) :: upsert rest v c

/-- `operator+=(const Expression&)`, model_component/expression.h:534-546. -/
def addAssign (e f : Expr) : Expr :=
  { e with terms := f.terms.foldl (fun ts t => upsert ts t.1 t.2) e.terms
           const := e.const + f.const }

/-- `operator+=(T_Value)`, model_component/expression.h:519-523. -/
def addAssignValue (e : Expr) (c : ℚ) : Expr := { e with const := e.const + c }

/-- unary `operator-`, model_component/expression.h:479-488 (built from `create_instance`). -/
def neg (e : Expr) : Expr :=
  { terms := e.terms.map (fun t => (t.1, t.2 * (-1))), const := e.const * (-1), value := 0 * (-1) }

/-- `operator-=(const Expression&)`, model_component/expression.h:565-569. -/
def subAssign (e f : Expr) : Expr := e.addAssign f.neg

/-- `operator-=(T_Value)`, model_component/expression.h:550-554. -/
def subAssignValue (e : Expr) (c : ℚ) : Expr := { e with const := e.const - c }

/-- `operator*=(T_Value)`, model_component/expression.h:573-580. -/
def mulAssign (e : Expr) (c : ℚ) : Expr :=
  { e with terms := e.terms.map (fun t => (t.1, t.2 * c)), const := e.const * c }

/-- `operator/=(T_Value)`, model_component/expression.h:584-591. -/
def divAssign (e : Expr) (c : ℚ) : Expr :=
  { e with terms := e.terms.map (fun t => (t.1, t.2 / c)), const := e.const / c }

/-- `operator+(Expression, Expression)`, model_component/expression_binary_operator.h:183-190. -/
def add (e f : Expr) : Expr := e.copy.addAssign f.copy

/-- `operator+(Expression, T_Value)` and `operator+(T_Value, Expression)`,
model_component/expression_binary_operator.h:163-180. -/
def addValue (e : Expr) (c : ℚ) : Expr := e.copy.addAssignValue c

/-- `operator-(Expression, Expression)`, model_component/expression_binary_operator.h:212-219. -/
def sub (e f : Expr) : Expr := e.copy.subAssign f.copy

/-- `operator-(Expression, T_Value)`, model_component/expression_binary_operator.h:193-200. -/
def subValue (e : Expr) (c : ℚ) : Expr := e.copy.subAssignValue c

/-- `operator-(T_Value, Expression)`, model_component/expression_binary_operator.h:202-209. -/
def valueSub (c : ℚ) (e : Expr) : Expr := e.copy.neg.addAssignValue c

/-- `operator*(Expression, T_Value)`, `operator*(T_Value, Expression)`,
model_component/expression_binary_operator.h:222-239. -/
def mul (e : Expr) (c : ℚ) : Expr := e.copy.mulAssign c

/-- `operator/(Expression, T_Value)`, model_component/expression_binary_operator.h:242-249. -/
def div (e : Expr) (c : ℚ) : Expr := e.copy.divAssign c

/-- `Variable::to_expression()`, model_component/variable.h:723-728. -/
def ofVar (v : VarId) : Expr := create [(v, 1)] 0

/-- `Expression::operator=(T_ExpressionLike)`, model_component/expression.h:500-506: copies the
sensitivities of the right-hand side but sets the constant to zero. -/
def assignLike (e f : Expr) : Expr := { e with terms := f.terms, const := 0 }

/-- `Expression::erase`, model_component/expression.h:347-349. -/
def erase (e : Expr) (v : VarId) : Expr := { e with terms := e.terms.filter (fun t => t.1 ≠ v) }

/-- `Expression::solve(variable)`, model_component/expression.h:334-344.  `none` models
`m_sensitivities.at` throwing `std::out_of_range`. -/
def solve (e : Expr) (v : VarId) : Option Expr :=
  if v ∈ e.vars then
    let r := 1 / lookup e.terms v
    let f := e.copy.erase v
    some { f with terms := f.terms.map (fun t => (t.1, t.2 * (-r))), const := f.const * (-r) }
  else none

/-- `Expression::substitute(variable, expression)`, model_component/expression.h:352-357.
`m_sensitivities[v]` inserts a zero entry when absent; it is erased afterwards, so `lookup` suffices. -/
def substitute (e : Expr) (v : VarId) (f : Expr) : Expr :=
  (e.addAssign (f.mul (lookup e.terms v))).erase v

/-- Bounds, value and fixed flag of a variable as read by `lower_bound`/`upper_bound`
(model_component/variable.h:33-80). -/
structure Box where
  value : ℤ
  lb : ℤ
  ub : ℤ
  fixed : Bool
deriving Repr, DecidableEq

/-- `Expression::lower_bound()`, model_component/expression.h:360-374. -/
def lowerBound (e : Expr) (b : VarId → Box) : ℚ :=
  e.terms.foldl (fun acc t =>
    if (b t.1).fixed then acc + t.2 * ((b t.1).value : ℚ)
    else acc + t.2 * (((if t.2 > 0 then (b t.1).lb else (b t.1).ub) : ℤ) : ℚ)) e.const

/-- `Expression::upper_bound()`, model_component/expression.h:377-391. -/
def upperBound (e : Expr) (b : VarId → Box) : ℚ :=
  e.terms.foldl (fun acc t =>
    if (b t.1).fixed then acc + t.2 * ((b t.1).value : ℚ)
    else acc + t.2 * (((if t.2 > 0 then (b t.1).ub else (b t.1).lb) : ℤ) : ℚ)) e.const

/-- Conversion `double → int` (truncation toward zero); used where C++ assigns a `double` to an `int`,
e.g. model_component/expression.h:398.  Overflow is not modelled. -/
def truncQ (q : ℚ) : ℤ := if 0 ≤ q then ⌊q⌋ else ⌈q⌉

/-- `Expression::fixed_term_value()`, model_component/expression.h:394-403.  The accumulator is an
`int`, so each partial sum is truncated. -/
def fixedTermValue (e : Expr) (b : VarId → Box) : ℚ :=
  ((e.terms.foldl (fun (acc : ℤ) t =>
    if (b t.1).fixed then truncQ ((acc : ℚ) + t.2 * ((b t.1).value : ℚ)) else acc) 0 : ℤ) : ℚ)

/-- `setup_mutable_variable_sensitivities`, positive part, model_component/expression.h:186-207. -/
def positiveMutable (e : Expr) (b : VarId → Box) : List VarId :=
  (e.terms.filter (fun t => !(b t.1).fixed && decide (t.2 > 0))).map Prod.fst

/-- `setup_mutable_variable_sensitivities`, negative part (includes zero coefficients),
model_component/expression.h:186-207. -/
def negativeMutable (e : Expr) (b : VarId → Box) : List VarId :=
  (e.terms.filter (fun t => !(b t.1).fixed && !decide (t.2 > 0))).map Prod.fst

end Expr
end Printemps
