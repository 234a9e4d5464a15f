import Verif.Lemmas.PresolveSets
import Verif.Lemmas.Example

/-! # C25 — dropping duplicate constraints changes nothing -/

namespace Printemps.C25
open Spec Presolve

/-- Removing the duplicates from any lists of constraints (one list per constraint type, each without
repetition) leaves the set of feasible assignments unchanged. -/
theorem removing_duplicates_preserves_feasibility (groups : List (List ℕ)) (m : MState)
    (hw : ∀ c ∈ m.conIds, ((m.con c).expr.terms.map Prod.fst).Nodup)
    (hn : ∀ g ∈ groups, g.Nodup) (hg : ∀ g ∈ groups, ∀ c ∈ g, c ∈ m.conIds) (σ : ℕ → ℤ) :
    Feasible m σ ↔ Feasible (removeDuplicated groups m) σ :=
  (removeDuplicated_spec groups m hw hn hg).2 σ

/-- Nothing but the enabled flags of constraints changes. -/
theorem removing_duplicates_only_disables (groups : List (List ℕ)) (m : MState)
    (hw : ∀ c ∈ m.conIds, ((m.con c).expr.terms.map Prod.fst).Nodup)
    (hn : ∀ g ∈ groups, g.Nodup) (hg : ∀ g ∈ groups, ∀ c ∈ g, c ∈ m.conIds) :
    (removeDuplicated groups m).conIds = m.conIds ∧ (removeDuplicated groups m).obj = m.obj ∧
    ∀ c, ((removeDuplicated groups m).con c).expr = (m.con c).expr ∧
      ((removeDuplicated groups m).con c).sense = (m.con c).sense :=
  have h := (removeDuplicated_spec groups m hw hn hg).1
  ⟨h.conIds, h.obj, fun c => ⟨h.expr c, h.sense c⟩⟩

/-! ### Non-vacuity: of the constraints `x0 + x1 <= 1` (twice, terms in a different order) and
`2*x0 + 2*x1 <= 1` only one of the first two is disabled. -/

def ex : MState :=
  { Example.raw with
    con := fun c => if c = 0 then { expr := ⟨[(0, 1), (1, 1)], -1, 0⟩, sense := .less }
      else if c = 1 then { expr := ⟨[(0, 2), (1, 2)], -1, 0⟩, sense := .less }
      else { expr := ⟨[(1, 1), (0, 1)], -1, 0⟩, sense := .less } }

example : (∀ c ∈ ex.conIds, ((ex.con c).expr.terms.map Prod.fst).Nodup) ∧
    (let m' := removeDuplicated [[0, 1, 2]] ex
     (m'.con 0).enabled = true ∧ (m'.con 1).enabled = true ∧ (m'.con 2).enabled = false) := by
  refine ⟨by decide, ?_⟩
  simp only [removeDuplicated, sortByHash, List.foldl_cons, List.foldl_nil]
  have : [0, 1, 2].mergeSort (fun a b => decide (exprHash (ex.con a).expr ≤ exprHash (ex.con b).expr)) = [0, 1, 2] := by
    apply List.mergeSort_of_pairwise
    decide
  rw [this]
  simp only [dropDuplicates]
  decide +kernel

end Printemps.C25
