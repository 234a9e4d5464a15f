import Verif.Props.C66
import Verif.Model.Controller

/-! # Specification: a call whose accepted moves respect the bounds of the moment

The bounds of variables may shrink between two tabu searches; a move has to respect the bounds that hold when it is made. -/

namespace Printemps.Spec
open Search Ctl

/-- The tabu searches accept moves only, each legal for the model (with its bounds) at the beginning of the search; penalty
coefficients are not negative. -/
def LapsLegal (name : ℕ → String) (cfg : Cfg) (o : Opt) : List Lap → State → Sofar → Prop
  | [], _, _ => True
  | lap :: rest, c, x => OnlyMoves lap.body ∧ (∀ i, 0 ≤ lap.less i ∧ 0 ≤ lap.greater i) ∧
      ((startFrom name cfg c.current x.st).isSome = true → ∀ e ∈ lap.body, C66.LegalEvent cfg x.st.model e) ∧
      ∀ r, lapStep name cfg o lap c x = some r → LapsLegal name cfg o rest r.1 r.2

/-- Lagrange dual sets variables to bounds, local search accepts legal moves, tabu search as above. -/
def PlanLegal (name : ℕ → String) (cfg : Cfg) (o : Opt) (m : MState) (pl : Plan) : Prop :=
  (∀ b, pl.lagrange = some b → OnlyRelaxes b) ∧
  ∀ p, optional name cfg (firstSolution name m) (if applicable m then pl.lagrange else none) ⟨begin m, []⟩ = some p →
    (∀ b, pl.localSearch = some b → OnlyMoves b ∧
      ((startFrom name cfg p.1 p.2.st).isSome = true → ∀ e ∈ b, C66.LegalEvent cfg m e)) ∧
    ∀ q, optional name cfg p.1 pl.localSearch p.2 = some q → LapsLegal name cfg o pl.laps { current := q.1 } q.2

/-- The objective is minimised, with integral coefficients other than 0 on variables of the model. -/
structure PlainObjective (O : MState) : Prop where
  minimised : O.isMin = true
  undefined : O.objDefined = false → O.obj.terms = [] ∧ O.obj.const = 0
  nonzero : ∀ t ∈ O.obj.terms, t.2 ≠ 0
  integral : ∀ t ∈ O.obj.terms, ∃ k : ℤ, t.2 = k
  listed : ∀ t ∈ O.obj.terms, t.1 ∈ O.varIds

end Printemps.Spec
