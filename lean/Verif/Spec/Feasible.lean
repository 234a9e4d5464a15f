import Verif.Spec.Score

/-! # Specification: admissible values, feasible and optimal assignments of a model -/

namespace Printemps.Spec

/-- A variable admits a value: its own value if fixed, anything between its bounds otherwise. -/
def Admits (v : Var) (x : ℤ) : Prop :=
  (v.fixed = true → x = v.value) ∧ (v.fixed = false → v.lb ≤ x ∧ x ≤ v.ub)

/-- An assignment respects all bounds and fixings. -/
def InBounds (var : ℕ → Var) (σ : ℕ → ℤ) : Prop := ∀ v, Admits (var v) (σ v)

/-- An assignment satisfies a constraint. -/
def Holds (c : Con) (σ : ℕ → ℤ) : Prop := (cmpOf c.sense).holds (exprValue c.expr σ) 0

/-- An assignment is feasible: bounds, fixings and all enabled constraints are respected. -/
def Feasible (m : MState) (σ : ℕ → ℤ) : Prop :=
  InBounds m.var σ ∧ ∀ c ∈ m.conIds, (m.con c).enabled = true → Holds (m.con c) σ

/-- `z` is the best attainable objective value (as minimised by the solver). -/
def IsBest (m : MState) (z : ℚ) : Prop :=
  (∃ σ, Feasible m σ ∧ minObjective m σ = z) ∧ ∀ σ, Feasible m σ → z ≤ minObjective m σ

/-- `m'` restricts `m` without losing the optimum: its feasible assignments are feasible for `m`, the
objective is the same, and every feasible assignment of `m` is matched by one of `m'` that is no worse. -/
structure KeepsOptimum (m m' : MState) : Prop where
  sound : ∀ σ, Feasible m' σ → Feasible m σ
  complete : ∀ σ, Feasible m σ → ∃ τ, Feasible m' τ ∧ minObjective m τ ≤ minObjective m σ
  objective : ∀ σ, minObjective m' σ = minObjective m σ

theorem KeepsOptimum.refl (m : MState) : KeepsOptimum m m :=
  ⟨fun _ h => h, fun σ h => ⟨σ, h, le_refl _⟩, fun _ => rfl⟩

theorem KeepsOptimum.trans {a b c : MState} (h : KeepsOptimum a b) (k : KeepsOptimum b c) : KeepsOptimum a c where
  sound σ hf := h.sound σ (k.sound σ hf)
  complete σ hf := by
    obtain ⟨τ, h1, h2⟩ := h.complete σ hf
    obtain ⟨ρ, k1, k2⟩ := k.complete τ h1
    refine ⟨ρ, k1, le_trans ?_ h2⟩
    rw [h.objective, h.objective] at k2
    exact k2
  objective σ := by rw [k.objective, h.objective]

/-- Such models have the same best objective value. -/
theorem KeepsOptimum.best {m m' : MState} (h : KeepsOptimum m m') (z : ℚ) : IsBest m z ↔ IsBest m' z := by
  constructor
  · rintro ⟨⟨σ, hf, hz⟩, hb⟩
    obtain ⟨τ, t1, t2⟩ := h.complete σ hf
    refine ⟨⟨τ, t1, ?_⟩, fun ρ hρ => ?_⟩
    · rw [h.objective]
      exact le_antisymm (hz ▸ t2) (hb τ (h.sound τ t1))
    · rw [h.objective]; exact hb ρ (h.sound ρ hρ)
  · rintro ⟨⟨σ, hf, hz⟩, hb⟩
    refine ⟨⟨σ, h.sound σ hf, by rw [← h.objective]; exact hz⟩, fun ρ hρ => ?_⟩
    obtain ⟨τ, t1, t2⟩ := h.complete ρ hρ
    have := hb τ t1
    rw [h.objective] at this
    exact le_trans this t2

end Printemps.Spec
