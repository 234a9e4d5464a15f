import Verif.Spec.Setup

/-! # Specification: solutions of the user's model, and models a whole call of the solver is proved correct for -/

namespace Printemps.Spec

/-- The values solve the model: every variable of the model respects its bounds and fixing, and every enabled
constraint holds. -/
def Solves (m : MState) (σ : ℕ → ℤ) : Prop :=
  (∀ v ∈ m.varIds, Admits (m.var v) (σ v)) ∧ ∀ c ∈ m.conIds, (m.con c).enabled = true → Holds (m.con c) σ

/-- A model as built by the user, with integral constraints; `o` are the options.  All but the first two conditions
describe how models are built. -/
structure Ordinary (o : Setup.Options) (m : MState) : Prop extends Proper o m where
  presolve : o.presolve = true
  /-- Constants of constraints are integers. -/
  const : ∀ c ∈ m.conIds, ∃ k : ℤ, (m.con c).expr.const = k
  /-- Constraints mention variables of the model. -/
  inside : ∀ c ∈ m.conIds, ∀ v ∈ (m.con c).expr.vars, v ∈ m.varIds
  /-- Variables are 0/1 or integer variables with nonempty ranges. -/
  ranges : ∀ v ∈ m.varIds, (m.var v).lb ≤ (m.var v).ub ∧ ((m.var v).sense = .integer ∨
    ((m.var v).sense = .binary ∧ 0 ≤ (m.var v).lb ∧ (m.var v).ub ≤ 1))
  /-- The largest coefficient stored with a constraint. -/
  maxLe : ∀ c ∈ m.conIds, ∀ t ∈ (m.con c).expr.terms, |t.2| ≤ (m.con c).maxAbs
  maxEq : ∀ c ∈ m.conIds, (m.con c).maxAbs = 0 ∨ ∃ t ∈ (m.con c).expr.terms, (m.con c).maxAbs = |t.2|
  /-- Expressions mention a variable once. -/
  uexpr : ∀ i ∈ m.uexprIds, ((m.uexpr i).expr.terms.map Prod.fst).Nodup
  /-- There are no dependent variables yet. -/
  dependents : m.dependents = []

end Printemps.Spec
