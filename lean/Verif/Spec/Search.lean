import Verif.Spec.Score

/-! # Specification: the assignments a search runs through, and what is expected of a search

The assignments are computed from the events alone, without evaluation, incumbents or stored numbers. -/

namespace Printemps.Spec

/-- The events of a search as far as the values of the variables are concerned. -/
inductive Visit where
  /-- start from the given values -/
  | start (values : ℕ → ℤ)
  /-- change some values -/
  | move (alterations : List (ℕ × ℤ))
  /-- every variable to its lower (`true`) or upper bound -/
  | relax (lower : ℕ → Bool)
  /-- nothing changes -/
  | stay

/-- The assignment after one event; `m` gives the listed variables, the fixed ones and the bounds. -/
def visit (m : MState) (σ : ℕ → ℤ) : Visit → (ℕ → ℤ)
  | .start x => fun v => if v ∈ m.varIds ∧ (m.var v).fixed = false then x v else assignment m v
  | .move alts => applyMove σ alts
  | .relax low => fun v =>
      if v ∈ m.varIds ∧ (m.var v).fixed = false then (if low v then (m.var v).lb else (m.var v).ub)
      else assignment m v
  | .stay => σ

/-- The assignments visited, in order, each with the number of moves made since the last start or relaxation;
`stay` adds nothing. -/
def visited (m : MState) : (ℕ → ℤ) × ℕ → List Visit → List ((ℕ → ℤ) × ℕ)
  | _, [] => []
  | s, e :: es =>
    match e with
    | .stay => visited m s es
    | .move alts =>
      let t := (visit m s.1 (.move alts), s.2 + 1)
      t :: visited m t es
    | .start x =>
      let t := (visit m s.1 (.start x), 0)
      t :: visited m t es
    | .relax low =>
      let t := (visit m s.1 (.relax low), 0)
      t :: visited m t es

/-- Two assignments agree except on the dependent variables (whose values are computed from the others). -/
def Agree (m : MState) (σ τ : ℕ → ℤ) : Prop := ∀ v, v ∉ m.dependents.map Prod.fst → σ v = τ v

/-- All numbers of the enabled constraints are multiples of `g`. -/
structure OnGrid (m : MState) (g : ℚ) : Prop where
  const : ∀ c ∈ m.conIds, (m.con c).enabled = true → ∃ k : ℤ, (m.con c).expr.const = k * g
  coef : ∀ c ∈ m.conIds, (m.con c).enabled = true → ∀ t ∈ (m.con c).expr.terms, ∃ k : ℤ, t.2 = k * g

end Printemps.Spec
