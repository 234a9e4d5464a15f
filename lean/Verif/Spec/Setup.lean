import Verif.Model.Setup
import Verif.Spec.Feasible

/-! # Specification: models the preprocessing is proved correct for -/

namespace Printemps.Spec

/-- Cost of a variable in the objective as minimised by the solver. -/
def minCost (m : MState) (v : ℕ) : ℚ :=
  if m.objDefined then (if m.isMin then Expr.lookup m.obj.terms v else - Expr.lookup m.obj.terms v) else 0

/-- A model as built by the user and not yet set up, with the following restrictions; `o` are the options.
The first group describes how models are built.  The second group are real restrictions; the counterexamples in
`Props/C67` show that they are needed. -/
structure Proper (o : Setup.Options) (m : MState) : Prop where
  /-- Variables and constraints are listed once. -/
  varIds : m.varIds.Nodup
  conIds : m.conIds.Nodup
  /-- Every expression mentions a variable once. -/
  objective : (m.obj.terms.map Prod.fst).Nodup
  terms : ∀ c ∈ m.conIds, ((m.con c).expr.terms.map Prod.fst).Nodup
  /-- No objective coefficients are recorded before the setup. -/
  sens : ∀ v, m.objSens v = 0
  /-- The two flags of a constraint are true of it. -/
  flags : ∀ c ∈ m.conIds, ((m.con c).onlyBinaryCoef = true → ∀ t ∈ (m.con c).expr.terms, t.2 = 1) ∧
    ((m.con c).onlyBinaryVar = true → ∀ v ∈ (m.con c).expr.vars, (m.var v).sense = .binary)
  /-- The variables are binary or integer. -/
  senses : ∀ c ∈ m.conIds, ∀ v ∈ (m.con c).expr.vars, (m.var v).sense = .binary ∨ (m.var v).sense = .integer
  /-- 0/1 variables have bounds within 0 and 1, and are fixed at 0 or 1 if at all. -/
  box : ∀ c ∈ m.conIds, ∀ v ∈ (m.con c).expr.vars, (m.var v).sense = .binary →
    ((m.var v).fixed = true → (m.var v).value = 0 ∨ (m.var v).value = 1) ∧
      ((m.var v).fixed = false → 0 ≤ (m.var v).lb ∧ (m.var v).ub ≤ 1)
  /-- Coefficients in constraints are integers other than zero. -/
  integral : ∀ c ∈ m.conIds, ∀ t ∈ (m.con c).expr.terms, t.2 ≠ 0 ∧ ∃ k : ℤ, t.2 = k
  /-- Bounds are below 100000 in size. -/
  bounds : ∀ v, (m.var v).fixed = false → -100000 < (m.var v).lb ∧ (m.var v).ub < 100000
  /-- No constraint is disabled. -/
  enabled : ∀ c ∈ m.conIds, (m.con c).enabled = true
  /-- A variable that occurs in no constraint has a cost of at least `1e-10` in size, or no cost and 0 within its
  bounds. -/
  free : ∀ v ∈ m.varIds, (m.var v).fixed = false → (∀ c ∈ m.conIds, v ∉ (m.con c).expr.vars) →
    (m.var v).lb ≤ (m.var v).ub ∧ (|Expr.lookup m.obj.terms v| ≥ 1 / 10000000000 ∨
      (Expr.lookup m.obj.terms v = 0 ∧ (m.var v).lb ≤ 0 ∧ 0 ≤ (m.var v).ub))
  /-- 0/1 variables occurring in constraints are not fixed at 1, by fixing or by bounds. -/
  binary : o.setConstraints = true ∨ o.setVariables = true → ∀ c ∈ m.conIds, ∀ v ∈ (m.con c).expr.vars,
    (m.var v).sense = .binary → ((m.var v).fixed = true → (m.var v).value = 0) ∧
      ((m.var v).fixed = false → (m.var v).lb = 0 ∧ 0 ≤ (m.var v).ub ∧ (m.var v).ub ≤ 1)
  /-- 0/1 variables occurring in constraints are not profitable, or occur in one that is not of the form `≥`. -/
  costs : o.setVariables = true → ∀ c ∈ m.conIds, ∀ v ∈ (m.con c).expr.vars, (m.var v).sense = .binary →
    0 ≤ minCost m v ∨ ∃ d ∈ m.conIds, (m.con d).sense ≠ .greater ∧ v ∈ (m.con d).expr.vars
  /-- No dependent variables are extracted: this is switched off, or there are only inequalities and no implicit
  equalities are searched for. -/
  independent : o.dependent = false ∨
    (o.implicitEqualities = false ∧ ∀ c ∈ m.conIds, (m.con c).sense ≠ .equal)

/-- An assignment is feasible and, for each of the constraints `sels`, gives the value 1 to exactly one of its
variables and 0 to the others. -/
def FeasibleWith (sels : List ℕ) (m : MState) (σ : ℕ → ℤ) : Prop :=
  Feasible m σ ∧ ∀ s ∈ sels, ∃ v ∈ (m.con s).expr.vars, σ v = 1 ∧ ∀ u ∈ (m.con s).expr.vars, u ≠ v → σ u = 0

end Printemps.Spec
