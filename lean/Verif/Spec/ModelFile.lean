import Verif.Spec.ArrayFile
import Verif.Model.Json
import Verif.Spec.Feasible

/-! # What a file that describes a model says

A reader of the documents, which knows nothing of how they are written: the variables with their bounds, the constraints and
the objective are found under their keys, and an assignment gives a value to every name. -/

namespace Printemps.Spec
open Json

/-- The elements of an array. -/
def elems : Elems → List Val
  | .nil => []
  | .cons v r => v :: elems r

/-- `v` is an object that has `w` under the key `k`. -/
def Says (v : Val) (k : String) (w : Val) : Prop := ∃ ms, v = .obj ms ∧ ms.get k.toList = some w

/-- `t` is a term with this coefficient and this variable. -/
def IsTerm (t : Val) (coefficient : ℚ) (variable_ : Str) : Prop :=
  Says t "variable" (.str variable_) ∧ Says t "coefficient" (.real coefficient)

/-- `v` has an array of terms with the sum `z` for an assignment to names. -/
def LinearDoc (v : Val) (a : Str → ℤ) (z : ℚ) : Prop :=
  ∃ es, Says v "sensitivities" (.arr es) ∧ ∃ l : List (Str × ℚ), List.Forall₂ (fun t x => IsTerm t x.2 x.1) (elems es) l ∧
    z = (l.map fun x => x.2 * (a x.1 : ℚ)).sum

/-- A variable of the file admits the value of its name. -/
def AdmitsDoc (v : Val) (a : Str → ℤ) : Prop :=
  ∃ name value fixed lower upper, Says v "name" (.str name) ∧ Says v "value" (.int value) ∧ Says v "is_fixed" (.bool fixed) ∧
    Says v "lower_bound" (.int lower) ∧ Says v "upper_bound" (.int upper) ∧
    (fixed = true → a name = value) ∧ (fixed = false → lower ≤ a name ∧ a name ≤ upper)

/-- What a symbol says about the left and the right hand side. -/
def Compares (symbol : Str) (left right : ℚ) : Prop :=
  (symbol = "=".toList ∧ left = right) ∨ (symbol = "<=".toList ∧ left ≤ right) ∨ (symbol = ">=".toList ∧ right ≤ left)

/-- A constraint of the file holds, or is not enabled. -/
def HoldsDoc (c : Val) (a : Str → ℤ) : Prop :=
  ∃ enabled rhs symbol left, Says c "is_enabled" (.bool enabled) ∧ Says c "rhs" (.real rhs) ∧ Says c "sense" (.str symbol) ∧
    LinearDoc c a left ∧ (enabled = true → Compares symbol left rhs)

/-- An assignment is feasible for the file. -/
def FeasibleDoc (d : Members) (a : Str → ℤ) : Prop :=
  ∃ vs cs, Says (.obj d) "variables" (.arr vs) ∧ Says (.obj d) "constraints" (.arr cs) ∧
    (∀ v ∈ elems vs, AdmitsDoc v a) ∧ ∀ c ∈ elems cs, HoldsDoc c a

/-- An assignment has the objective `z` for the file. -/
def ObjectiveDoc (d : Members) (a : Str → ℤ) (z : ℚ) : Prop := ∃ o, Says (.obj d) "objective" o ∧ LinearDoc o a z

/-- `z` is the best objective of the file. -/
def BestDoc (d : Members) (z : ℚ) : Prop :=
  (∃ a, FeasibleDoc d a ∧ ObjectiveDoc d a z) ∧
  ((Says (.obj d) "is_minimization" (.bool true) ∧ ∀ a y, FeasibleDoc d a → ObjectiveDoc d a y → z ≤ y) ∨
   (Says (.obj d) "is_minimization" (.bool false) ∧ ∀ a y, FeasibleDoc d a → ObjectiveDoc d a y → y ≤ z))

/-- The values of the variables of a model satisfy it. -/
def FeasibleOn (m : MState) (σ : ℕ → ℤ) : Prop :=
  (∀ v ∈ m.varIds, Admits (m.var v) (σ v)) ∧ ∀ c ∈ m.conIds, (m.con c).enabled = true → Holds (m.con c) σ

/-- `z` is the best value of the objective of a model, in the direction of the user. -/
def BestOn (m : MState) (z : ℚ) : Prop :=
  (∃ σ, FeasibleOn m σ ∧ exprValue m.obj σ = z) ∧
  ∀ σ, FeasibleOn m σ → if m.isMin then z ≤ exprValue m.obj σ else exprValue m.obj σ ≤ z

/-- Expressions mention variables of the model only. -/
structure Closed (m : MState) : Prop where
  objective : ∀ t ∈ m.obj.terms, t.1 ∈ m.varIds
  constraints : ∀ c ∈ m.conIds, ∀ t ∈ (m.con c).expr.terms, t.1 ∈ m.varIds

/-- Different variables have different names. -/
def Distinct (vname : ℕ → Str) (m : MState) : Prop := ∀ v ∈ m.varIds, ∀ w ∈ m.varIds, vname v = vname w → v = w

/-- Values and bounds are of type `int`, coefficients and constants have seven digits at most. -/
structure Printable (m : MState) : Prop where
  ints : ∀ v ∈ m.varIds, ∀ n ∈ [(m.var v).value, (m.var v).lb, (m.var v).ub], -2147483648 ≤ n ∧ n ≤ 2147483647
  objective : ∀ t ∈ m.obj.terms, Text.atof (Text.formatE t.2) = t.2
  constraints : ∀ c ∈ m.conIds, (∀ t ∈ (m.con c).expr.terms, Text.atof (Text.formatE t.2) = t.2) ∧
    Text.atof (Text.formatE (-(m.con c).expr.const)) = -(m.con c).expr.const

/-- Values and bounds are of type `int`. -/
def Ints (m : MState) : Prop :=
  ∀ v ∈ m.varIds, ∀ n ∈ [(m.var v).value, (m.var v).lb, (m.var v).ub], -2147483648 ≤ n ∧ n ≤ 2147483647

/-- The same expression up to seven digits of the coefficients. -/
def NearTerms (e e' : Expr) : Prop := List.Forall₂ (fun t t' => t'.1 = t.1 ∧ SevenDigits t.2 t'.2) e.terms e'.terms

/-- The same problem up to seven digits of the coefficients and of the right hand sides. -/
structure Near (m m' : MState) : Prop where
  variables_ : m'.varIds = m.varIds ∧ m'.var = m.var
  direction : m'.isMin = m.isMin
  objective : NearTerms m.obj m'.obj ∧ m'.obj.const = m.obj.const
  constraints : m'.conIds = m.conIds ∧ ∀ c ∈ m.conIds, (m'.con c).enabled = (m.con c).enabled ∧ (m'.con c).sense = (m.con c).sense ∧
    NearTerms (m.con c).expr (m'.con c).expr ∧ SevenDigits (m.con c).expr.const (m'.con c).expr.const

end Printemps.Spec
