import Verif.Spec.Feasible

/-! # Specification: models with dependent variables

A dependent variable has a defining expression; its value is given by the expression and it is not subject
to its own bounds any more. -/

namespace Printemps.Spec

/-- The variable has a defining expression. -/
def IsDependent (m : MState) (v : ℕ) : Prop := ∃ d ∈ m.dependents, d.1 = v

/-- An assignment is feasible for a model with dependent variables: the other variables respect bounds and
fixings, every dependent variable has the value of its defining expression, and all enabled constraints
hold. -/
structure FeasibleDep (m : MState) (σ : ℕ → ℤ) : Prop where
  bounds : ∀ v, ¬ IsDependent m v → Admits (m.var v) (σ v)
  defs : ∀ d ∈ m.dependents, (σ d.1 : ℚ) = exprValue (m.uexpr d.2).expr σ
  cons : ∀ c ∈ m.conIds, (m.con c).enabled = true → Holds (m.con c) σ

/-- Without dependent variables this is plain feasibility. -/
theorem feasibleDep_iff (m : MState) (h : m.dependents = []) (σ : ℕ → ℤ) : FeasibleDep m σ ↔ Feasible m σ := by
  constructor
  · intro hf
    exact ⟨fun v => hf.bounds v (by rintro ⟨d, hd, _⟩; rw [h] at hd; simp at hd), hf.cons⟩
  · intro hf
    exact ⟨fun v _ => hf.1 v, fun d hd => by rw [h] at hd; simp at hd, hf.2⟩

end Printemps.Spec
