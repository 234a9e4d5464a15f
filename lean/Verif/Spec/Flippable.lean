import Verif.Model.Flippable

/-! # Specification: flippable pairs -/

namespace Printemps.Spec

/-- A variable that may be flipped: a 0/1 variable that is not fixed and occurs in an enabled constraint. -/
def CanFlip (m : MState) (v : ℕ) : Prop :=
  (m.var v).fixed = false ∧ ((m.var v).sense = .binary ∨ (m.var v).sense = .selection) ∧
    ∃ c ∈ m.conIds, (m.con c).enabled = true ∧ v ∈ (m.con c).expr.vars

/-- The number of constraints (enabled or not) in which both variables occur. -/
def both (m : MState) (v w : ℕ) : ℕ :=
  (m.conIds.filter fun c => decide (v ∈ (m.con c).expr.vars ∧ w ∈ (m.con c).expr.vars)).length

/-- The number of constraints (enabled or not) in which one of the variables occurs. -/
def either (m : MState) (v w : ℕ) : ℕ :=
  (m.conIds.filter fun c => decide (v ∈ (m.con c).expr.vars ∨ w ∈ (m.con c).expr.vars)).length

end Printemps.Spec
