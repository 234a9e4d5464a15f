import Verif.Model.Proxy
import Verif.Model.Names
import Verif.Model.Model

/-! # Model of the programs that state a problem

A program creates arrays of variables, expressions and constraints (`create_variables` etc., model/model.h:171-560),
builds expressions from them with the overloaded operators, assigns to elements, and states the objective.

The syntax lists what a program can write.  Arrays are referred to by their number in the order of creation: the
references returned by `create_variables` etc. stay valid, since the vectors are reserved for the largest number of
arrays (model/model.h:111-120) and more are refused.  Simplifications: the coordinates of an element are natural numbers
(a slice is given by integers); numbers are rationals; a division by zero, which gives infinite coefficients, is treated
as undefined; fixing of variables is left out. -/

namespace Printemps.Program
open MultiArray Proxy

/-! ## Syntax -/

/-- What can be written as a linear term: elements and arrays of variables (model_component/variable_proxy.h:342-349,
569-620) and expressions (model_component/expression_proxy.h:259-266, 622-670), sums and scalar products over whole
arrays or slices, and the operators of model_component/expression_binary_operator.h and the unary ones. -/
inductive Term where
  | var (k : ℕ) (idx : List ℕ)
  | varArr (k : ℕ)
  | expr (k : ℕ) (idx : List ℕ)
  | exprArr (k : ℕ)
  | sumVar (k : ℕ) (pattern : Option (List ℤ))
  | dotVar (k : ℕ) (pattern : Option (List ℤ)) (coefs : List ℚ)
  | sumExpr (k : ℕ) (pattern : Option (List ℤ))
  | dotExpr (k : ℕ) (pattern : Option (List ℤ)) (coefs : List ℚ)
  | pos (a : Term)
  | neg (a : Term)
  | add (a b : Term)
  | sub (a b : Term)
  /-- `a + c` and `c + a` -/
  | addNum (a : Term) (c : ℚ)
  | subNum (a : Term) (c : ℚ)
  | numSub (c : ℚ) (a : Term)
  /-- `a * c` and `c * a` -/
  | mulNum (a : Term) (c : ℚ)
  | divNum (a : Term) (c : ℚ)

/-- A side of a comparison: a term or a number (model_component/constraint_binary_operator.h:30-331). -/
inductive Part where
  | term (t : Term)
  | num (c : ℚ)

/-- What can be written as a constraint: a comparison (model_component/constraint_binary_operator.h:30-331), or the
selection of one of the variables of an array or slice (model_component/variable_proxy.h:514-522). -/
inductive Relation where
  | compare (s : Sense) (l r : Part)
  | select (k : ℕ) (pattern : Option (List ℤ))

/-- The object a statement applies to: the array itself, or one of its elements. -/
inductive Target where
  | whole
  | elem (idx : List ℕ)

/-- `=`, `+=`, `-=`, `*=` and `/=` on expressions (model_component/expression.h:489-591,
model_component/expression_proxy.h:457-605). -/
inductive Op where
  | set (t : Term)
  | setNum (c : ℚ)
  | add (t : Term)
  | sub (t : Term)
  | addNum (c : ℚ)
  | subNum (c : ℚ)
  | mulNum (c : ℚ)
  | divNum (c : ℚ)

/-- A statement (model/model.h:171-643; `set_bound`, `reset_bound`, `=` of variables,
model_component/variable_proxy.h:222-241, 544-554; `=`, `enable`, `disable` of constraints,
model_component/constraint_proxy.h:232-247, 306-316).  A single variable, expression or constraint is an array of shape
`[1]` (multi_array/abstract_multi_array.h:40-48). -/
inductive Stmt where
  | variables_ (name : Names.Name) (shape : List ℕ) (range : Option (ℤ × ℤ))
  | expressions (name : Names.Name) (shape : List ℕ)
  | expressionOf (name : Names.Name) (t : Term)
  | constraints (name : Names.Name) (shape : List ℕ)
  | constraintOf (name : Names.Name) (r : Relation)
  | change (k : ℕ) (tgt : Target) (op : Op)
  | demand (k : ℕ) (tgt : Target) (r : Relation)
  | switch (k : ℕ) (tgt : Target) (on : Bool)
  | bounds (k : ℕ) (tgt : Target) (l u : ℤ)
  | unbound (k : ℕ) (tgt : Target)
  | start (k : ℕ) (tgt : Target) (x : ℤ)
  | goal (minimize : Bool) (t : Term)

/-! ## State -/

/-- An array of variables: name, shape and the address of the first element; the elements follow each other
(model_component/variable_proxy.h:39, 72-94). -/
structure VarBlock where
  name : Names.Name
  shape : List ℕ
  base : ℕ

/-- The array as in `Model/Proxy` (model_component/variable_proxy.h:72-94). -/
def VarBlock.array (a : VarBlock) : VarArray := VarArray.setup a.shape (fun i => a.base + i)

/-- An array of constraints (model_component/constraint_proxy.h:24-25). -/
structure ConBlock where
  name : Names.Name
  shape : List ℕ
  con : ℕ → Con

/-- What a program has built: the arrays with their names, the memory of the variables, the objective
(model/model.h:25-50). -/
structure St where
  vars : List VarBlock := []
  exprs : List (Names.Name × ExprArray) := []
  cons : List ConBlock := []
  mem : VarId → Var := fun _ => Var.init
  next : ℕ := 0
  obj : Expr := Expr.create [] 0
  objDefined : Bool := false
  isMin : Bool := true

/-! ## Terms -/

/-- A value of a term.  `like`: an object with `to_expression` other than an expression (a variable or an array), which
matters for `=` only.  `tag` is the index stored with an expression; temporary objects have the index `{0}`
(multi_array/abstract_multi_array_element.h:32-37). -/
structure Operand where
  like : Bool
  expr : Expr
  tag : List ℕ

/-- An expression produced by an operator, e.g. model_component/expression_binary_operator.h:21-249. -/
def temp (e : Expr) : Operand := ⟨false, e, [0]⟩

/-- The array numbered `k` (the reference returned by model/model.h:171-572); without it there is no reference to use
(undefined). -/
def pick {α : Type} (l : List α) (k : ℕ) : Outcome α :=
  match l[k]? with
  | some a => .ok a
  | none => .undefined

/-- The index as integers (arguments of `operator()`, model_component/expression_proxy.h:622-654). -/
def ints (idx : List ℕ) : List ℤ := idx.map (fun i : ℕ => (i : ℤ))

/-- The value of a term: model_component/variable_proxy.h:342-620, model_component/expression_proxy.h:259-670,
model_component/expression_binary_operator.h:21-249, model_component/variable.h:738-745,
model_component/expression.h:474-488. -/
def eval (s : St) : Term → Outcome Operand
  | .var k idx => (pick s.vars k).bind fun a => (a.array.at' (ints idx)).bind fun v => .ok ⟨true, Expr.ofVar v, [0]⟩
  | .varArr k => (pick s.vars k).bind fun a => a.array.toExpression.bind fun e => .ok ⟨true, e, [0]⟩
  | .expr k idx => (pick s.exprs k).bind fun a => (position a.2.shape (ints idx)).bind fun i =>
      .ok ⟨false, (a.2.elem i).expr, (a.2.elem i).tag⟩
  | .exprArr k => (pick s.exprs k).bind fun a =>
      if numberOfElements a.2.shape ≠ 1 then .thrown else .ok ⟨true, (a.2.elem 0).expr.copy, [0]⟩
  | .sumVar k none => (pick s.vars k).bind fun a => .ok (temp a.array.sumAll)
  | .sumVar k (some p) => (pick s.vars k).bind fun a => (a.array.sum p).bind fun e => .ok (temp e)
  | .dotVar k none cs => (pick s.vars k).bind fun a => (a.array.dotAll cs).bind fun e => .ok (temp e)
  | .dotVar k (some p) cs => (pick s.vars k).bind fun a => (a.array.dot p cs).bind fun e => .ok (temp e)
  | .sumExpr k none => (pick s.exprs k).bind fun a => .ok (temp a.2.sumAll)
  | .sumExpr k (some p) => (pick s.exprs k).bind fun a => (a.2.sum p).bind fun e => .ok (temp e)
  | .dotExpr k none cs => (pick s.exprs k).bind fun a => (a.2.dotAll cs).bind fun e => .ok (temp e)
  | .dotExpr k (some p) cs => (pick s.exprs k).bind fun a => (a.2.dot p cs).bind fun e => .ok (temp e)
  | .pos a => (eval s a).bind fun x => .ok (temp x.expr.copy)
  | .neg a => (eval s a).bind fun x => .ok (temp x.expr.neg)
  | .add a b => (eval s a).bind fun x => (eval s b).bind fun y => .ok (temp (x.expr.add y.expr))
  | .sub a b => (eval s a).bind fun x => (eval s b).bind fun y => .ok (temp (x.expr.sub y.expr))
  | .addNum a c => (eval s a).bind fun x => .ok (temp (x.expr.addValue c))
  | .subNum a c => (eval s a).bind fun x => .ok (temp (x.expr.subValue c))
  | .numSub c a => (eval s a).bind fun x => .ok (temp (Expr.valueSub c x.expr))
  | .mulNum a c => (eval s a).bind fun x => .ok (temp (x.expr.mul c))
  | .divNum a c => (eval s a).bind fun x => if c = 0 then .undefined else .ok (temp (x.expr.div c))

/-- A side of a comparison (model_component/constraint_binary_operator.h:30-331). -/
def evalPart (s : St) : Part → Outcome Side
  | .num c => .ok (.num c)
  | .term t => (eval s t).bind fun x => .ok (.expr x.expr)

/-- A constraint: model_component/constraint_binary_operator.h:30-331, model_component/variable_proxy.h:514-522.  Two
numbers are not a constraint (undefined). -/
def evalRelation (s : St) : Relation → Outcome Con
  | .compare c l r => (evalPart s l).bind fun x => (evalPart s r).bind fun y =>
      match compareOp c x y (fun v => (s.mem v).sense) with
      | some k => .ok k
      | none => .undefined
  | .select k none => (pick s.vars k).bind fun a => a.array.selectionAll (fun v => (s.mem v).sense)
  | .select k (some p) => (pick s.vars k).bind fun a => a.array.selection p (fun v => (s.mem v).sense)

/-! ## Statements -/

/-- The position a statement for one element applies to: an array stands for its only element, otherwise an error is
thrown (e.g. model_component/expression_proxy.h:459-463); elements by `operator()`
(model_component/expression_proxy.h:622-654). -/
def single (shape : List ℕ) : Target → Outcome ℕ
  | .whole => if numberOfElements shape ≠ 1 then .thrown else .ok 0
  | .elem idx => position shape (ints idx)

/-- `=` of a value: model_component/expression.h:490-496 (also through model_component/expression_proxy.h:457-467). -/
def assignNum (e : Expr) (c : ℚ) : Expr := { e with terms := [], const := c }

/-- The element after an operation.  `=` copies an expression with its index (model_component/expression.h:110-120); from
an object that is not an expression, an element takes the coefficients only (model_component/expression.h:500-506), while
an array standing for its element takes the whole temporary expression (model_component/expression_proxy.h:470-507). -/
def applyOp (s : St) (tgt : Target) (x : Elem) : Op → Outcome Elem
  | .set t => (eval s t).bind fun o =>
      match tgt, o.like with
      | .elem _, true => .ok ⟨x.tag, x.expr.assignLike o.expr⟩
      | _, _ => .ok ⟨o.tag, o.expr⟩
  | .setNum c => .ok ⟨x.tag, assignNum x.expr c⟩
  | .add t => (eval s t).bind fun o => .ok ⟨x.tag, x.expr.addAssign o.expr⟩
  | .sub t => (eval s t).bind fun o => .ok ⟨x.tag, x.expr.subAssign o.expr⟩
  | .addNum c => .ok ⟨x.tag, x.expr.addAssignValue c⟩
  | .subNum c => .ok ⟨x.tag, x.expr.subAssignValue c⟩
  | .mulNum c => .ok ⟨x.tag, x.expr.mulAssign c⟩
  | .divNum c => if c = 0 then .undefined else .ok ⟨x.tag, x.expr.divAssign c⟩

/-- `name` and number of arrays are checked first, e.g. model/model.h:173-191, 512-530. -/
def admit {α : Type} (l : List α) (name : Names.Name) (x : Outcome St) : Outcome St :=
  if Names.hasSpace name then .thrown else if l.length ≥ Names.MAX_PROXIES then .thrown else x

/-- A new constraint, model_component/constraint.h:145-186: `0 ≤ 0`.  Simplification: the directions of a constraint
that was never assigned are those of its sense. -/
def blank : Con := { expr := Expr.create [] 0, sense := .less }

/-- The function changed at one position: assignment to an element of a vector, e.g.
model_component/constraint_proxy.h:314. -/
def setAt {α : Type} (f : ℕ → α) (i : ℕ) (a : α) : ℕ → α := fun j => if j = i then a else f j

/-- One statement: model/model.h:171-641; the lines are given with each case. -/
def exec (s : St) : Stmt → Outcome St
  /- model/model.h:171-281, model_component/variable_proxy.h:72-94, 222-235 -/
  | .variables_ name shape range => admit s.vars name <|
      let a : VarBlock := ⟨name, shape, s.next⟩
      let s' := { s with vars := s.vars ++ [a], next := s.next + numberOfElements shape }
      match range with
      | none => .ok s'
      | some (l, u) => (a.array.setBound l u s.mem).bind fun mem => .ok { s' with mem := mem }
  /- model/model.h:296-384 -/
  | .expressions name shape => admit s.exprs name (.ok { s with exprs := s.exprs ++ [(name, ExprArray.setup shape)] })
  /- model/model.h:387-452; the argument is evaluated before the call -/
  | .expressionOf name t => (eval s t).bind fun o => admit s.exprs name <|
      .ok { s with exprs := s.exprs ++ [(name, (ExprArray.setup [1]).set 0 ⟨o.tag, o.expr⟩)] }
  /- model/model.h:455-537 -/
  | .constraints name shape => admit s.cons name (.ok { s with cons := s.cons ++ [⟨name, shape, fun _ => blank⟩] })
  /- model/model.h:540-571; `setup` is called again by the assignment, model_component/constraint.h:109-113 -/
  | .constraintOf name r => (evalRelation s r).bind fun c => admit s.cons name <|
      .ok { s with cons := s.cons ++ [⟨name, [1], setAt (fun _ => blank) 0 (Con.setup c.expr c.sense (fun v => (s.mem v).sense))⟩] }
  /- model_component/expression.h:489-591, model_component/expression_proxy.h:457-605 -/
  | .change k tgt op => (pick s.exprs k).bind fun a => (single a.2.shape tgt).bind fun i =>
      (applyOp s tgt (a.2.elem i) op).bind fun x => .ok { s with exprs := s.exprs.set k (a.1, a.2.set i x) }
  /- model_component/constraint.h:109-134, model_component/constraint_proxy.h:306-316 -/
  | .demand k tgt r => (pick s.cons k).bind fun a => (evalRelation s r).bind fun c => (single a.shape tgt).bind fun i =>
      .ok { s with cons := s.cons.set k { a with con := setAt a.con i (Con.setup c.expr c.sense (fun v => (s.mem v).sense)) } }
  /- model_component/constraint.h:1129-1138, model_component/constraint_proxy.h:232-247 -/
  | .switch k .whole on => (pick s.cons k).bind fun a =>
      .ok { s with cons := s.cons.set k { a with con := fun j => { a.con j with enabled := on } } }
  | .switch k (.elem idx) on => (pick s.cons k).bind fun a => (position a.shape (ints idx)).bind fun i =>
      .ok { s with cons := s.cons.set k { a with con := setAt a.con i { a.con i with enabled := on } } }
  /- model_component/variable_proxy.h:222-235, model_component/variable.h:211-229 -/
  | .bounds k .whole l u => (pick s.vars k).bind fun a => (a.array.setBound l u s.mem).bind fun mem =>
      .ok { s with mem := mem }
  | .bounds k (.elem idx) l u => (pick s.vars k).bind fun a => (a.array.at' (ints idx)).bind fun v =>
      (Outcome.ofOption ((s.mem v).setBound l u)).bind fun x => .ok { s with mem := setAt s.mem v x }
  /- model_component/variable_proxy.h:238-241, model_component/variable.h:232-239 -/
  | .unbound k .whole => (pick s.vars k).bind fun a =>
      .ok { s with mem := fun v =>
        if a.base ≤ v ∧ v < a.base + numberOfElements a.shape then (s.mem v).resetBound else s.mem v }
  | .unbound k (.elem idx) => (pick s.vars k).bind fun a => (a.array.at' (ints idx)).bind fun v =>
      .ok { s with mem := setAt s.mem v (s.mem v).resetBound }
  /- model_component/variable.h:748-758, model_component/variable_proxy.h:544-554 -/
  | .start k tgt x => (pick s.vars k).bind fun a => (single a.shape tgt).bind fun i =>
      (Outcome.ofOption ((s.mem (a.base + i)).setValue x)).bind fun v => .ok { s with mem := setAt s.mem (a.base + i) v }
  /- model/model.h:585-643 -/
  | .goal m t => (eval s t).bind fun o => .ok { s with obj := o.expr, objDefined := true, isMin := m }

/-- A whole program on a new model (model/model.h:111-160). -/
def run (s : St) : List Stmt → Outcome St
  | [] => .ok s
  | x :: l => (exec s x).bind fun s' => run s' l

/-! ## The problem handed to the solver -/

/-- The constraints in the order in which `Model` goes over them: array by array, element by element
(e.g. model/model.h:1082-1087). -/
def conList (s : St) : List Con := s.cons.flatMap fun a => (List.range (numberOfElements a.shape)).map a.con

/-- The expressions in that order (e.g. model/model.h:890-903). -/
def exprList (s : St) : List Expr :=
  s.exprs.flatMap fun a => (List.range (numberOfElements a.2.shape)).map fun i => (a.2.elem i).expr

/-- What lies behind the variables of the model (no counterpart in model/model.h:25-50: addresses are unbounded here). -/
def noVar : Var := { Var.init with fixed := true }

/-- The model as `solve` receives it: constraints and expressions numbered in order (model/model.h:25-110).  Nothing has
been computed yet. -/
def model (s : St) : MState where
  var := fun v => if v < s.next then s.mem v else noVar
  varIds := List.range s.next
  con := fun c => ((conList s)[c]?).getD blank
  conIds := List.range (conList s).length
  uexpr := fun e => { expr := ((exprList s)[e]?).getD (Expr.create [] 0) }
  uexprIds := List.range (exprList s).length
  dependents := []
  obj := s.obj
  objValue := 0
  objDefined := s.objDefined
  isMin := s.isMin
  globalPen := 0
  userDefinedMoves := false
  sens := fun _ => []
  objSens := fun _ => 0
  selected := fun _ => none
  violative := []
  feasible := false

end Printemps.Program
