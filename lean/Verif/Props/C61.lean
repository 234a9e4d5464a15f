import Verif.Lemmas.Solution
import Verif.Lemmas.Example

/-! # C61 — fixing and unfixing variables by name -/

namespace Printemps.C61
open Sol

/-- Fixing: each named variable is fixed at its value, all others are untouched. -/
theorem fixing_by_name (name : ℕ → String) (s : StrMap ℤ) (m : MState) (v : ℕ) (hv : v ∈ m.varIds) :
    (∀ x, s.get (name v) = some x →
      ((fixVariables name s m).var v).fixed = true ∧ ((fixVariables name s m).var v).value = x ∧
      ((fixVariables name s m).var v).lb = (m.var v).lb ∧ ((fixVariables name s m).var v).ub = (m.var v).ub) ∧
    (s.get (name v) = none → (fixVariables name s m).var v = m.var v) := by
  unfold fixVariables
  dsimp only
  rw [if_pos hv]
  constructor
  · intro x hx; rw [hx]; exact ⟨rfl, rfl, rfl, rfl⟩
  · intro hx; rw [hx]

/-- Unfixing, the part that holds: after unfixing by name, the named variables are not fixed.  Missing: the other
variables should be untouched and the values kept, see `unfixing_overwrites_everything`. -/
theorem unfixing_by_name_partial (name : ℕ → String) (names : List String) (m : MState) (v : ℕ) (hv : v ∈ m.varIds)
    (hn : name v ∈ names) : ((unfixVariables name names m).var v).fixed = false := by
  unfold unfixVariables
  dsimp only
  rw [if_pos hv, if_pos hn]
  rfl

/-- What the call really does, for every model and every list of names: all values become 0, whatever the bounds,
and every variable that is not named becomes fixed. -/
theorem unfixing_overwrites_everything (name : ℕ → String) (names : List String) (m : MState) (v : ℕ) (hv : v ∈ m.varIds) :
    ((unfixVariables name names m).var v).value = 0 ∧
    (((unfixVariables name names m).var v).fixed = true ↔ name v ∉ names) := by
  unfold unfixVariables
  dsimp only
  rw [if_pos hv]
  split
  · next h => exact ⟨rfl, by simp [Var.fixBy, Var.unfix, Var.updateMargin, h]⟩
  · next h => exact ⟨rfl, by simp [Var.fixBy, Var.updateMargin, h]⟩

/-- Consequence: unfixing what was just fixed does not restore the model; a variable that was never fixed ends
up fixed at 0. -/
theorem unfix_is_not_inverse : ∃ (name : ℕ → String) (m : MState) (v : ℕ), v ∈ m.varIds ∧ (m.var v).fixed = false ∧
    name v ≠ "a" ∧ ((unfixVariables name ["a"] (fixVariables name [("a", 1)] m)).var v).fixed = true :=
  ⟨fun v => if v = 0 then "a" else "b", Example.model, 1, by decide +kernel⟩

example : ((fixVariables (fun v => if v = 0 then "a" else "b") [("a", 1)] Example.model).var 0).value = 1 := by decide +kernel

end Printemps.C61
