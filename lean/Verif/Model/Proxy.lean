import Verif.Model.MultiArray
import Verif.Model.Constraint
import Verif.Model.Presolve

/-! # Model of arrays of variables and of expressions

`VariableProxy` (model_component/variable_proxy.h) and `ExpressionProxy` (model_component/expression_proxy.h):
arrays over a shape, with sums and scalar products over all elements or over a slice.

Every element carries its own copy of its multi-dimensional index
(multi_array/abstract_multi_array_element.h:12-17); slices are found by reading these copies. -/

namespace Printemps.Proxy
open MultiArray

/-- `Range::All`, model_component/range.h:11. -/
def ALL : ℤ := -1

/-- The loop deciding `is_covered`, model_component/variable_proxy.h:388-396 and
model_component/expression_proxy.h:300-308: goes over the entries of the pattern and compares each entry that
is not `Range::All` with the entry of the element's index.  `none`: an entry behind the end of the element's
index is read. -/
def covered : List ℤ → List ℕ → Option Bool
  | [], _ => some true
  | p :: ps, idx =>
    if p = ALL then covered ps idx.tail
    else
      match idx with
      | [] => none
      | i :: is => if (i : ℤ) ≠ p then some false else covered ps is

/-- The loop over the elements, model_component/variable_proxy.h:387-400 and
model_component/expression_proxy.h:299-312: the positions of the covered elements, in order. -/
def coveredOf (tag : ℕ → List ℕ) (pattern : List ℤ) : List ℕ → Outcome (List ℕ)
  | [] => .ok []
  | i :: l =>
    match covered pattern (tag i) with
    | none => .undefined
    | some b => (coveredOf tag pattern l).bind (fun r => .ok (if b then i :: r else r))

/-- `std::count(…, Range::All)`, model_component/variable_proxy.h:460-461. -/
def countAll (pattern : List ℤ) : ℕ := (pattern.filter (fun p => p = ALL)).length

/-- `sensitivities[key] = value` on the unordered map, e.g. model_component/variable_proxy.h:358:
overwrites or inserts.  Simplification: a new key goes to the end of the list. -/
def put : List (VarId × ℚ) → VarId → ℚ → List (VarId × ℚ)
  | [], v, c => [(v, c)]
  | (w, d) :: rest, v, c => if w = v then (w, c) :: rest else (w, d) :: put rest v c

/-- The loops filling `sensitivities` and `set_sensitivities`, model_component/variable_proxy.h:353-363,
402-413, 433-444, 498-510 (the constant of a new expression is 0, model_component/expression.h:147-162). -/
def linear (l : List (VarId × ℚ)) : Expr := Expr.create (l.foldl (fun m t => put m t.1 t.2) []) 0

/-- An array of variables: the shape, the index stored in each element, and the address of each element
(model_component/variable_proxy.h:39, multi_array/abstract_multi_array.h:16-22). -/
structure VarArray where
  shape : List ℕ
  tag : ℕ → List ℕ
  var : ℕ → VarId

/-- `setup_variables`, model_component/variable_proxy.h:72-94.  The addresses are a parameter. -/
def VarArray.setup (shape : List ℕ) (var : ℕ → VarId) : VarArray := ⟨shape, multiIndex shape, var⟩

/-- The flat index computed by `operator()`, model_component/variable_proxy.h:579-581
(`std::inner_product` over `int`). -/
def flatInt (shape : List ℕ) (idx : List ℤ) : ℤ :=
  (List.zipWith (fun (i : ℤ) (s : ℕ) => i * s) idx (strides shape)).foldl (· + ·) 0

/-- `operator()` of both arrays, model_component/variable_proxy.h:569-584 and
model_component/expression_proxy.h:622-654: the position of the element.  Undefined when the position does not
exist. -/
def position (shape : List ℕ) (idx : List ℤ) : Outcome ℕ :=
  if shape.length ≠ idx.length then .thrown
  else
    if 0 ≤ flatInt shape idx ∧ flatInt shape idx < numberOfElements shape then .ok (flatInt shape idx).toNat
    else .undefined

namespace VarArray

/-- `operator()`, model_component/variable_proxy.h:569-584. -/
def at' (x : VarArray) (idx : List ℤ) : Outcome VarId := (position x.shape idx).bind (fun i => .ok (x.var i))

/-- `to_expression`, model_component/variable_proxy.h:342-349. -/
def toExpression (x : VarArray) : Outcome Expr :=
  if numberOfElements x.shape ≠ 1 then .thrown else .ok (Expr.ofVar (x.var 0))

/-- `sum()`, model_component/variable_proxy.h:352-364. -/
def sumAll (x : VarArray) : Expr :=
  linear ((List.range (numberOfElements x.shape)).map (fun i => (x.var i, 1)))

/-- `sum(multi_dimensional_index)`, model_component/variable_proxy.h:367-414. -/
def sum (x : VarArray) (pattern : List ℤ) : Outcome Expr :=
  if x.shape.length ≠ pattern.length then .thrown
  else
    (coveredOf x.tag pattern (List.range (numberOfElements x.shape))).bind
      (fun ps => .ok (linear (ps.map (fun i => (x.var i, 1)))))

/-- `dot(coefficients)`, model_component/variable_proxy.h:417-445. -/
def dotAll (x : VarArray) (coefs : List ℚ) : Outcome Expr :=
  if x.shape.length ≠ 1 then .thrown
  else if numberOfElements x.shape ≠ coefs.length then .thrown
  else .ok (linear (List.zipWith (fun i c => (x.var i, c)) (List.range (numberOfElements x.shape)) coefs))

/-- `dot(multi_dimensional_index, coefficients)`, model_component/variable_proxy.h:448-511. -/
def dot (x : VarArray) (pattern : List ℤ) (coefs : List ℚ) : Outcome Expr :=
  if x.shape.length ≠ pattern.length then .thrown
  else if countAll pattern ≥ 2 then .thrown
  else
    (coveredOf x.tag pattern (List.range (numberOfElements x.shape))).bind
      (fun ps =>
        if ps.length ≠ coefs.length then .thrown
        else .ok (linear (List.zipWith (fun i c => (x.var i, c)) ps coefs)))

/-- `selection()`, model_component/variable_proxy.h:514-516. -/
def selectionAll (x : VarArray) (senseOf : VarId → VarSense) : Outcome Con :=
  .ofOption (compareOp .equal (.expr x.sumAll) (.num 1) senseOf)

/-- `selection(multi_dimensional_index)`, model_component/variable_proxy.h:519-522. -/
def selection (x : VarArray) (pattern : List ℤ) (senseOf : VarId → VarSense) : Outcome Con :=
  (x.sum pattern).bind (fun e => .ofOption (compareOp .equal (.expr e) (.num 1) senseOf))

/-- The loop of `set_bound`, model_component/variable_proxy.h:232-234, over the positions given. -/
def setBoundLoop (x : VarArray) (l u : ℤ) : List ℕ → (VarId → Var) → Outcome (VarId → Var)
  | [], mem => .ok mem
  | i :: is, mem =>
    (Outcome.ofOption (Var.setBound (mem (x.var i)) l u)).bind
      (fun v => setBoundLoop x l u is (fun w => if w = x.var i then v else mem w))

/-- `set_bound`, model_component/variable_proxy.h:222-235; `mem` is the memory holding all variables. -/
def setBound (x : VarArray) (l u : ℤ) (mem : VarId → Var) : Outcome (VarId → Var) :=
  if l > u then .thrown else setBoundLoop x l u (List.range (numberOfElements x.shape)) mem

end VarArray

/-- An element of an array of expressions: the index stored in the element's extension and the expression
(model_component/expression.h:56-83, multi_array/abstract_multi_array_element.h:12-23).
Simplification: the extension, shared after a copy assignment, is a value (no function called by the modelled
code writes the index of an existing element). -/
structure Elem where
  tag : List ℕ
  expr : Expr

/-- An array of expressions, model_component/expression_proxy.h:25. -/
structure ExprArray where
  shape : List ℕ
  elem : ℕ → Elem

namespace ExprArray

/-- `setup_expressions`, model_component/expression_proxy.h:56-81: empty expressions, each with its index. -/
def setup (shape : List ℕ) : ExprArray := ⟨shape, fun i => ⟨multiIndex shape i, Expr.create [] 0⟩⟩

/-- Replacement of one element. -/
def set (a : ExprArray) (i : ℕ) (e : Elem) : ExprArray :=
  { a with elem := fun j => if j = i then e else a.elem j }

/-- `array(i…) = expression`: the defaulted assignment operators of `Expression`
(model_component/expression.h:110-120) also assign the base class, whose extension holds the index; an
expression produced by the operators or by `sum`/`dot` has a new extension with the index `{0}`
(multi_array/abstract_multi_array_element.h:32-37). -/
def assign (a : ExprArray) (i : ℕ) (e : Expr) : ExprArray := a.set i ⟨[0], e⟩

/-- `array(i…) = variable`: `operator=(T_ExpressionLike)`, model_component/expression.h:500-506, assigns the
sensitivities only. -/
def assignVar (a : ExprArray) (i : ℕ) (v : VarId) : ExprArray :=
  a.set i ⟨(a.elem i).tag, (a.elem i).expr.assignLike (Expr.ofVar v)⟩

/-- `array(i…) += expression`, model_component/expression.h:534-546. -/
def addTo (a : ExprArray) (i : ℕ) (e : Expr) : ExprArray :=
  a.set i ⟨(a.elem i).tag, (a.elem i).expr.addAssign e⟩

/-- `operator()`, model_component/expression_proxy.h:622-654. -/
def at' (a : ExprArray) (idx : List ℤ) : Outcome Expr :=
  (position a.shape idx).bind (fun i => .ok (a.elem i).expr)

/-- `sum()`, model_component/expression_proxy.h:269-275. -/
def sumAll (a : ExprArray) : Expr :=
  (List.range (numberOfElements a.shape)).foldl (fun r i => r.addAssign (a.elem i).expr) (Expr.create [] 0)

/-- `sum(multi_dimensional_index)`, model_component/expression_proxy.h:278-319. -/
def sum (a : ExprArray) (pattern : List ℤ) : Outcome Expr :=
  if a.shape.length ≠ pattern.length then .thrown
  else
    (coveredOf (fun i => (a.elem i).tag) pattern (List.range (numberOfElements a.shape))).bind
      (fun ps => .ok (ps.foldl (fun r i => r.addAssign (a.elem i).expr) (Expr.create [] 0)))

/-- The loop `result += expression * coefficient`, model_component/expression_proxy.h:338-340, 400-402. -/
def dotLoop (a : ExprArray) (ps : List ℕ) (coefs : List ℚ) : Expr :=
  (List.zip ps coefs).foldl (fun r t => r.addAssign ((a.elem t.1).expr.mul t.2)) (Expr.create [] 0)

/-- `dot(coefficients)`, model_component/expression_proxy.h:322-343. -/
def dotAll (a : ExprArray) (coefs : List ℚ) : Outcome Expr :=
  if a.shape.length ≠ 1 then .thrown
  else if numberOfElements a.shape ≠ coefs.length then .thrown
  else .ok (dotLoop a (List.range (numberOfElements a.shape)) coefs)

/-- `dot(multi_dimensional_index, coefficients)`, model_component/expression_proxy.h:346-404. -/
def dot (a : ExprArray) (pattern : List ℤ) (coefs : List ℚ) : Outcome Expr :=
  if a.shape.length ≠ pattern.length then .thrown
  else if countAll pattern ≥ 2 then .thrown
  else
    (coveredOf (fun i => (a.elem i).tag) pattern (List.range (numberOfElements a.shape))).bind
      (fun ps => if ps.length ≠ coefs.length then .thrown else .ok (dotLoop a ps coefs))

end ExprArray

end Printemps.Proxy
