import Verif.Model.Model
import Verif.Spec.Search

/-! # Reading of a status: what its numbers should be -/

namespace Printemps.Spec

/-- The variables that may still change. -/
def freeVars (m : MState) : List ℕ := m.varIds.filter (fun v => !(m.var v).fixed)

/-- The constraints in use. -/
def usedCons (m : MState) : List ℕ := m.conIds.filter (fun c => (m.con c).enabled)

/-- The pairs of a constraint in use and a variable of the model that occurs in it. -/
def occurrences (m : MState) : List (ℕ × ℕ) :=
  (usedCons m).flatMap fun c => (m.varIds.filter fun v => decide (v ∈ (m.con c).expr.vars)).map fun v => (c, v)

/-- Two models with the same variables and constraints, the same of them fixed and disabled, and the same variables in
every constraint (a search changes values, and nothing of this). -/
structure SameOutline (m n : MState) : Prop where
  varIds : n.varIds = m.varIds
  conIds : n.conIds = m.conIds
  fixed : ∀ v, (n.var v).fixed = (m.var v).fixed
  enabled : ∀ c, (n.con c).enabled = (m.con c).enabled
  terms : ∀ c, (n.con c).expr.terms = (m.con c).expr.terms

/-- Variables and constraints are listed once, a variable occurs at most once in a constraint, all variables of a
constraint belong to the model, and the numbers fit into an `int`. -/
structure Listed (m : MState) : Prop where
  varIds : m.varIds.Nodup
  terms : ∀ c ∈ m.conIds, ((m.con c).expr.terms.map Prod.fst).Nodup
  known : ∀ c ∈ m.conIds, ∀ v ∈ (m.con c).expr.vars, v ∈ m.varIds
  small : m.varIds.length ≤ 2147483647 ∧ m.conIds.length ≤ 2147483647

end Printemps.Spec
