import Verif.Spec.Rounds
import Verif.Spec.Whole

/-! # Specification: models a whole call with dependent variables is proved correct for -/

namespace Printemps.Spec
open Setup

/-- A model as built by the user, with integral constraints, for the preprocessing with dependent variables.  Besides the
restrictions of `ProperDep`, the equalities of two 0/1 variables must not be used to define one by the other (this is
the default for `x = y`, but not for `x + y = 1`).  The other conditions describe how models are built. -/
structure OrdinaryDep (o : Options) (lt : ℕ → ℕ → Bool) (m : MState) : Prop extends ProperDep o lt m where
  exclusiveOr : o.exclusiveOr = false
  exclusiveNor : o.exclusiveNor = false
  /-- Constants of constraints are integers. -/
  const : ∀ c ∈ m.conIds, ∃ k : ℤ, (m.con c).expr.const = k
  /-- The objective mentions variables of the model. -/
  objIn : ∀ v ∈ m.obj.vars, v ∈ m.varIds
  /-- Variables are 0/1 or integer variables with nonempty ranges. -/
  ranges : ∀ v, (m.var v).lb ≤ (m.var v).ub ∧ ((m.var v).sense = .integer ∨
    ((m.var v).sense = .binary ∧ 0 ≤ (m.var v).lb ∧ (m.var v).ub ≤ 1))
  /-- The largest coefficient stored with a constraint. -/
  maxLe : ∀ c ∈ m.conIds, ∀ t ∈ (m.con c).expr.terms, |t.2| ≤ (m.con c).maxAbs
  maxEq : ∀ c ∈ m.conIds, (m.con c).maxAbs = 0 ∨ ∃ t ∈ (m.con c).expr.terms, (m.con c).maxAbs = |t.2|

/-- A feasible assignment of a model with dependent variables that, for each of the constraints `sels`, gives the value 1
to exactly one of its variables and 0 to the others. -/
def FeasibleDepWith (sels : List ℕ) (m : MState) (σ : ℕ → ℤ) : Prop :=
  FeasibleDep m σ ∧ ∀ s ∈ sels, ∃ v ∈ (m.con s).expr.vars, σ v = 1 ∧ ∀ u ∈ (m.con s).expr.vars, u ≠ v → σ u = 0

end Printemps.Spec
