import Verif.Model.Program
import Verif.Spec.Proxy
import Verif.Spec.Score
import Verif.Spec.Arith

/-! # Specification: the problem a program states

Nothing of the model of the code is used here except the syntax of programs.  Values are given by array and index:
`val k idx` is the value of the variable `idx` of the `k`-th array of variables.  An expression means a function of the
values, a constraint a condition on them. -/

namespace Printemps.Stated
open Spec Program

/-- Values of the variables, by array and index. -/
abbrev Values := ℕ → List ℕ → ℤ

/-- What a program has stated so far. -/
structure Meaning where
  /-- Shapes of the arrays of variables, expressions and constraints, in the order of creation. -/
  vshapes : List (List ℕ) := []
  eshapes : List (List ℕ) := []
  cshapes : List (List ℕ) := []
  /-- Bounds of the variables. -/
  lower : ℕ → List ℕ → ℤ := fun _ _ => -1073741823
  upper : ℕ → List ℕ → ℤ := fun _ _ => 1073741823
  /-- The expressions. -/
  expr : ℕ → List ℕ → Values → ℚ := fun _ _ _ => 0
  /-- The conditions, and whether they are switched on. -/
  con : ℕ → List ℕ → Values → Prop := fun _ _ _ => True
  active : ℕ → List ℕ → Bool := fun _ _ => true
  /-- The arrays of expressions with an element that was given a whole expression by `=`. -/
  replaced : ℕ → Bool := fun _ => false
  /-- The objective, its direction, and whether there is one. -/
  goal : Values → ℚ := fun _ => 0
  minimize : Bool := true
  hasGoal : Bool := false

/-- The shape of an array. -/
def shapeOf (l : List (List ℕ)) (k : ℕ) : List ℕ := (l[k]?).getD []

/-- The indices meant by an optional pattern: a slice, or the whole array. -/
def chosen (shape : List ℕ) : Option (List ℤ) → List (List ℕ)
  | none => indices shape
  | some p => slice shape p

/-- Scalar product. -/
def scalar (cs : List ℚ) (xs : List ℚ) : ℚ := (List.zipWith (· * ·) cs xs).sum

/-- The meaning of a term.  An array used as a term has exactly one element (`TermOK`); its meaning is written as the
sum over its elements. -/
def Meaning.denote (m : Meaning) (val : Values) : Term → ℚ
  | .var k idx => val k idx
  | .varArr k => ((indices (shapeOf m.vshapes k)).map fun i => (val k i : ℚ)).sum
  | .expr k idx => m.expr k idx val
  | .exprArr k => ((indices (shapeOf m.eshapes k)).map fun i => m.expr k i val).sum
  | .sumVar k p => ((chosen (shapeOf m.vshapes k) p).map fun i => (val k i : ℚ)).sum
  | .dotVar k p cs => scalar cs ((chosen (shapeOf m.vshapes k) p).map fun i => (val k i : ℚ))
  | .sumExpr k p => ((chosen (shapeOf m.eshapes k) p).map fun i => m.expr k i val).sum
  | .dotExpr k p cs => scalar cs ((chosen (shapeOf m.eshapes k) p).map fun i => m.expr k i val)
  | .pos a => m.denote val a
  | .neg a => - m.denote val a
  | .add a b => m.denote val a + m.denote val b
  | .sub a b => m.denote val a - m.denote val b
  | .addNum a c => m.denote val a + c
  | .subNum a c => m.denote val a - c
  | .numSub c a => c - m.denote val a
  | .mulNum a c => m.denote val a * c
  | .divNum a c => m.denote val a / c

/-- The meaning of a side of a comparison. -/
def Meaning.part (m : Meaning) (val : Values) : Part → ℚ
  | .term t => m.denote val t
  | .num c => c

/-- The meaning of a constraint. -/
def Meaning.relation (m : Meaning) (val : Values) : Relation → Prop
  | .compare s l r => (cmpOf s).holds (m.part val l) (m.part val r)
  | .select k p => ((chosen (shapeOf m.vshapes k) p).map fun i => val k i).sum = 1

/-! ## Which programs are allowed -/

/-- A pattern fits a shape. -/
def PatternOK (shape : List ℕ) : Option (List ℤ) → Prop
  | none => True
  | some p => p.length = shape.length

/-- A scalar product fits: one coefficient per chosen element; over a whole array only if it has one dimension; over a
slice with at most one free coordinate. -/
def DotOK (shape : List ℕ) (p : Option (List ℤ)) (cs : List ℚ) : Prop :=
  (chosen shape p).length = cs.length ∧
  match p with
  | none => shape.length = 1
  | some p => p.length = shape.length ∧ (p.filter (fun x => x = -1)).length ≤ 1

/-- The array `k` exists, and `idx` is one of its indices. -/
def IndexOK (shapes : List (List ℕ)) (k : ℕ) (idx : List ℕ) : Prop := k < shapes.length ∧ idx ∈ indices (shapeOf shapes k)

/-- The array `k` exists and has exactly one element. -/
def OneOK (shapes : List (List ℕ)) (k : ℕ) : Prop := k < shapes.length ∧ (indices (shapeOf shapes k)).length = 1

/-- Terms that may be written: the arrays and elements exist, slices and coefficients fit, no division by zero.  Slices
of an array of expressions are allowed only as long as no element of it was given a whole expression by `=`
(`C72.assigned_elements_leave_their_slice`). -/
def TermOK (m : Meaning) : Term → Prop
  | .var k idx => IndexOK m.vshapes k idx
  | .varArr k => OneOK m.vshapes k
  | .expr k idx => IndexOK m.eshapes k idx
  | .exprArr k => OneOK m.eshapes k
  | .sumVar k p => k < m.vshapes.length ∧ PatternOK (shapeOf m.vshapes k) p
  | .dotVar k p cs => k < m.vshapes.length ∧ DotOK (shapeOf m.vshapes k) p cs
  | .sumExpr k p => k < m.eshapes.length ∧ PatternOK (shapeOf m.eshapes k) p ∧ (p = none ∨ m.replaced k = false)
  | .dotExpr k p cs => k < m.eshapes.length ∧ DotOK (shapeOf m.eshapes k) p cs ∧ (p = none ∨ m.replaced k = false)
  | .pos a | .neg a | .addNum a _ | .subNum a _ | .numSub _ a | .mulNum a _ => TermOK m a
  | .add a b | .sub a b => TermOK m a ∧ TermOK m b
  | .divNum a c => TermOK m a ∧ c ≠ 0

/-- A constraint that may be written: at least one side is a term. -/
def RelationOK (m : Meaning) : Relation → Prop
  | .compare _ (.term a) (.term b) => TermOK m a ∧ TermOK m b
  | .compare _ (.term a) (.num _) => TermOK m a
  | .compare _ (.num _) (.term b) => TermOK m b
  | .compare _ (.num _) (.num _) => False
  | .select k p => k < m.vshapes.length ∧ PatternOK (shapeOf m.vshapes k) p

/-- A target for a statement on one element. -/
def TargetOK (shapes : List (List ℕ)) (k : ℕ) : Target → Prop
  | .whole => OneOK shapes k
  | .elem idx => IndexOK shapes k idx

/-- A target for a statement on any number of elements. -/
def ManyOK (shapes : List (List ℕ)) (k : ℕ) : Target → Prop
  | .whole => k < shapes.length
  | .elem idx => IndexOK shapes k idx

/-- An array of expressions used as it is. -/
def BareArray : Term → Prop
  | .exprArr _ => True
  | _ => False

/-- Operations that may be written.  An element must not be assigned an array of expressions as it is, since its constant
would be lost (`C01.assign_like_drops_constant`). -/
def OpOK (m : Meaning) (tgt : Target) : Op → Prop
  | .set t => TermOK m t ∧ match tgt with
    | .elem _ => ¬ BareArray t
    | .whole => True
  | .add t | .sub t => TermOK m t
  | .divNum c => c ≠ 0
  | .setNum _ | .addNum _ | .subNum _ | .mulNum _ => True

/-- A name without spaces for one of at most 100 arrays. -/
def NewOK (shapes : List (List ℕ)) (name : List Char) : Prop := ' ' ∉ name ∧ shapes.length < 100

/-- Statements that may be written. -/
def StmtOK (m : Meaning) : Stmt → Prop
  | .variables_ name shape range => NewOK m.vshapes name ∧ shape ≠ [] ∧ ∀ p, range = some p → p.1 ≤ p.2
  | .expressions name shape => NewOK m.eshapes name ∧ shape ≠ []
  | .expressionOf name t => NewOK m.eshapes name ∧ TermOK m t
  | .constraints name shape => NewOK m.cshapes name ∧ shape ≠ []
  | .constraintOf name r => NewOK m.cshapes name ∧ RelationOK m r
  | .change k tgt op => TargetOK m.eshapes k tgt ∧ OpOK m tgt op
  | .demand k tgt r => TargetOK m.cshapes k tgt ∧ RelationOK m r
  | .switch k tgt _ => ManyOK m.cshapes k tgt
  | .bounds k tgt l u => ManyOK m.vshapes k tgt ∧ l ≤ u
  | .unbound k tgt => ManyOK m.vshapes k tgt
  | .start k tgt _ => TargetOK m.vshapes k tgt
  | .goal _ t => TermOK m t

/-! ## What statements state -/

/-- Whether a target includes an index. -/
def covers : Target → List ℕ → Bool
  | .whole, _ => true
  | .elem i, idx => decide (idx = i)

/-- A table changed for the elements of a target of the array `k`. -/
def update {α : Type} (f : ℕ → List ℕ → α) (k : ℕ) (tgt : Target) (a : List ℕ → α) : ℕ → List ℕ → α :=
  fun k' idx => if k' = k ∧ covers tgt idx = true then a idx else f k' idx

/-- What an operation makes of an expression with the meaning `old`. -/
def Meaning.result (m : Meaning) (old : Values → ℚ) : Op → Values → ℚ
  | .set t, val => m.denote val t
  | .setNum c, _ => c
  | .add t, val => old val + m.denote val t
  | .sub t, val => old val - m.denote val t
  | .addNum c, val => old val + c
  | .subNum c, val => old val - c
  | .mulNum c, val => old val * c
  | .divNum c, val => old val / c

/-- Whether an operation is `=` with a term. -/
def replaces : Op → Bool
  | .set _ => true
  | _ => false

/-- What has been stated after a further statement.  Expressions and constraints take the meaning their terms have at that
moment: later changes of the expressions mentioned have no effect on them. -/
def Meaning.after (m : Meaning) : Stmt → Meaning
  | .variables_ _ shape range =>
      { m with vshapes := m.vshapes ++ [shape]
               lower := update m.lower m.vshapes.length .whole fun _ => (range.map Prod.fst).getD (-1073741823)
               upper := update m.upper m.vshapes.length .whole fun _ => (range.map Prod.snd).getD 1073741823 }
  | .expressions _ shape =>
      { m with eshapes := m.eshapes ++ [shape]
               expr := update m.expr m.eshapes.length .whole fun _ _ => 0
               replaced := fun k => if k = m.eshapes.length then false else m.replaced k }
  | .expressionOf _ t =>
      { m with eshapes := m.eshapes ++ [[1]]
               expr := update m.expr m.eshapes.length .whole fun _ val => m.denote val t
               replaced := fun k => if k = m.eshapes.length then true else m.replaced k }
  | .constraints _ shape =>
      { m with cshapes := m.cshapes ++ [shape]
               con := update m.con m.cshapes.length .whole fun _ _ => True
               active := update m.active m.cshapes.length .whole fun _ => true }
  | .constraintOf _ r =>
      { m with cshapes := m.cshapes ++ [[1]]
               con := update m.con m.cshapes.length .whole fun _ val => m.relation val r
               active := update m.active m.cshapes.length .whole fun _ => true }
  | .change k tgt op =>
      { m with expr := update m.expr k tgt fun idx => m.result (m.expr k idx) op
               replaced := fun k' => if k' = k ∧ replaces op = true then true else m.replaced k' }
  | .demand k tgt r =>
      { m with con := update m.con k tgt fun _ val => m.relation val r
               active := update m.active k tgt fun _ => true }
  | .switch k tgt on => { m with active := update m.active k tgt fun _ => on }
  | .bounds k tgt l u => { m with lower := update m.lower k tgt fun _ => l, upper := update m.upper k tgt fun _ => u }
  | .unbound k tgt =>
      { m with lower := update m.lower k tgt fun _ => -1073741823, upper := update m.upper k tgt fun _ => 1073741823 }
  | .start _ _ _ => m
  | .goal d t => { m with goal := fun val => m.denote val t, minimize := d, hasGoal := true }

/-- What a program states. -/
def meaning (m : Meaning) : List Stmt → Meaning
  | [] => m
  | x :: l => meaning (m.after x) l

/-- All statements of a program may be written. -/
def ProgramOK (m : Meaning) : List Stmt → Prop
  | [] => True
  | x :: l => StmtOK m x ∧ ProgramOK (m.after x) l

/-- The values satisfy the problem: all variables are within their bounds, all conditions that are switched on hold. -/
def Meaning.Satisfied (m : Meaning) (val : Values) : Prop :=
  (∀ k < m.vshapes.length, ∀ idx ∈ indices (shapeOf m.vshapes k), m.lower k idx ≤ val k idx ∧ val k idx ≤ m.upper k idx) ∧
  ∀ k < m.cshapes.length, ∀ idx ∈ indices (shapeOf m.cshapes k), m.active k idx = true → m.con k idx val

end Printemps.Stated
