import Verif.Lemmas.PresolveSets
import Verif.Lemmas.Example

/-! # C24 — implicit equalities are real equalities -/

namespace Printemps.C24
open Spec Presolve

/-- Extracting implicit equalities leaves the set of feasible assignments unchanged, for every model in
which no constraint mentions a variable twice, every list `cs` of constraints examined and every fresh
number `next` for the added constraints. -/
theorem implicit_equalities_preserve_feasibility (senseOf : ℕ → VarSense) (cs : List ℕ) (next : ℕ) (m : MState)
    (hw : ∀ c ∈ m.conIds, ((m.con c).expr.terms.map Prod.fst).Nodup)
    (hl : ∀ c ∈ cs, c ∈ m.conIds) (hnext : ∀ c ∈ m.conIds, c < next) (σ : ℕ → ℤ) :
    Feasible m σ ↔ Feasible (extractImplicitEqualities senseOf cs next m) σ :=
  extractImplicitEqualities_spec senseOf cs next m hw hl hnext σ

/-- A pair that is merged consists of an inequality and a constraint which together hold exactly when the
added equality `expression = 0` holds. -/
theorem merged_pair_is_the_equality (senseOf : ℕ → VarSense) (ci cj : Con)
    (hi : ci.sense ≠ .equal) (hm : impliesEquality ci cj = true)
    (wi : (ci.expr.terms.map Prod.fst).Nodup) (σ : ℕ → ℤ) :
    (Holds ci σ ∧ Holds cj σ) ↔ Holds (Con.setup (ci.expr.subValue 0) .equal senseOf) σ :=
  impliesEquality_holds ci cj wi hi hm senseOf σ

/-- Every added constraint is an equality. -/
theorem added_are_equalities (senseOf : ℕ → VarSense) (l : List ℕ) : ∀ (m : MState),
    ∀ c ∈ (implicitEqualities senseOf m l).2, c.sense = .equal := by
  induction hn : l.length using Nat.strong_induction_on generalizing l with
  | _ n ih =>
    intro m c hc
    cases l with
    | nil => unfold implicitEqualities at hc; exact absurd hc (by simp)
    | cons i rest =>
      unfold implicitEqualities at hc
      simp only [] at hc
      have hlen : rest.length < n := by rw [← hn]; simp
      split at hc
      · split at hc
        · rcases List.mem_cons.1 hc with rfl | hc
          · rfl
          · exact ih rest.length hlen rest rfl _ c hc
        · exact ih _ (lt_of_le_of_lt ((List.dropWhile_sublist _).length_le) hlen) _ rfl _ c hc
      · exact ih rest.length hlen rest rfl _ c hc

/-! ### Non-vacuity: `x0 + x1 <= 1` and `-x0 - x1 <= -1` become `x0 + x1 = 1`. -/

def ex : MState :=
  { Example.raw with
    con := fun c => if c = 0 then { expr := ⟨[(0, 1), (1, 1)], -1, 0⟩, sense := .less }
      else { expr := ⟨[(0, -1), (1, -1)], 1, 0⟩, sense := .less }
    conIds := [0, 1] }

example : (∀ c ∈ ex.conIds, ((ex.con c).expr.terms.map Prod.fst).Nodup) ∧
    (∀ c ∈ ex.conIds, c < 2) ∧
    (let m' := extractImplicitEqualities Example.senses [0, 1] 2 ex
     m'.conIds = [0, 1, 2] ∧ (m'.con 0).enabled = false ∧ (m'.con 1).enabled = false ∧
      (m'.con 2).enabled = true ∧ (m'.con 2).sense = .equal ∧
      (m'.con 2).expr.terms = [(0, 1), (1, 1)] ∧ (m'.con 2).expr.const = -1) := by
  refine ⟨by decide, by decide, ?_⟩
  have e : sortByHash ex [0, 1] = [0, 1] := by
    unfold sortByHash
    apply List.mergeSort_of_pairwise
    decide
  unfold extractImplicitEqualities
  simp only [e, implicitEqualities]
  decide +kernel

end Printemps.C24
