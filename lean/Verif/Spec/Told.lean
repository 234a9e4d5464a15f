import Verif.Spec.Program
import Verif.Spec.Whole

/-! # Specification: programs whose problem a call is proved to solve -/

namespace Printemps.Stated
open Spec Program

/-- A statement that states a constraint. -/
def statesConstraint : Stmt → Bool
  | .constraintOf _ _ => true
  | .demand _ _ _ => true
  | _ => false

/-- A statement that changes bounds of existing variables. -/
def changesBounds : Stmt → Bool
  | .bounds _ _ _ _ => true
  | .unbound _ _ => true
  | _ => false

/-- Bounds are not changed any more once a constraint has been stated (the kind of its variables is recorded with the
constraint, `C07.stale_binary_flag_breaks`).  New variables may still be created. -/
def BoundsFirst : List Stmt → Prop
  | [] => True
  | x :: l => (statesConstraint x = true → ∀ y ∈ l, changesBounds y = false) ∧ BoundsFirst l

/-- What is to be made small. -/
def Meaning.cost (m : Meaning) (val : Values) : ℚ :=
  if m.hasGoal then (if m.minimize then m.goal val else - m.goal val) else 0

/-- The real restrictions of `Proper` and `Ordinary`, for the model `m` a program has built; `o` are the options. -/
structure Restricted (o : Setup.Options) (m : MState) : Prop where
  presolve : o.presolve = true
  /-- Numbers in constraints are integers, coefficients other than zero. -/
  integral : ∀ c ∈ m.conIds, ∀ t ∈ (m.con c).expr.terms, t.2 ≠ 0 ∧ ∃ k : ℤ, t.2 = k
  const : ∀ c ∈ m.conIds, ∃ k : ℤ, (m.con c).expr.const = k
  /-- Bounds are below 100000 in size. -/
  bounds : ∀ v ∈ m.varIds, -100000 < (m.var v).lb ∧ (m.var v).ub < 100000
  /-- No constraint is disabled. -/
  enabled : ∀ c ∈ m.conIds, (m.con c).enabled = true
  /-- A variable that occurs in no constraint has a cost of at least `1e-10` in size, or no cost and 0 within its
  bounds. -/
  free : ∀ v ∈ m.varIds, (∀ c ∈ m.conIds, v ∉ (m.con c).expr.vars) →
    |Expr.lookup m.obj.terms v| ≥ 1 / 10000000000 ∨
      (Expr.lookup m.obj.terms v = 0 ∧ (m.var v).lb ≤ 0 ∧ 0 ≤ (m.var v).ub)
  /-- 0/1 variables occurring in constraints are not fixed at 1 by their bounds. -/
  binary : o.setConstraints = true ∨ o.setVariables = true → ∀ c ∈ m.conIds, ∀ v ∈ (m.con c).expr.vars,
    (m.var v).sense = .binary → (m.var v).lb = 0
  /-- 0/1 variables occurring in constraints are not profitable, or occur in one that is not of the form `≥`. -/
  costs : o.setVariables = true → ∀ c ∈ m.conIds, ∀ v ∈ (m.con c).expr.vars, (m.var v).sense = .binary →
    0 ≤ minCost m v ∨ ∃ d ∈ m.conIds, (m.con d).sense ≠ .greater ∧ v ∈ (m.con d).expr.vars
  /-- No dependent variables are extracted. -/
  independent : o.dependent = false ∨
    (o.implicitEqualities = false ∧ ∀ c ∈ m.conIds, (m.con c).sense ≠ .equal)

end Printemps.Stated
