import Verif.Spec.Move
import Verif.Lemmas.Expression

/-! # C04 — incremental expression evaluation equals recomputation -/

namespace Printemps.C04
open Printemps.Expr Spec

/-- If the stored value is current, then evaluating the expression for a move (before applying it)
gives the value a full recomputation gives on the moved assignment. -/
theorem incremental_eq_recomputation (e : Expr) (hwf : (e.terms.map Prod.fst).Nodup) (σ : ℕ → ℤ)
    (hcur : e.value = e.evaluate σ) (alts : List (ℕ × ℤ)) (hd : (alts.map Prod.fst).Nodup) :
    e.evaluateMove σ alts = e.evaluate (applyMove σ alts) :=
  evaluateMove_eq e hwf σ hcur alts hd

/-- Hence after `update(move)` the stored value is again current. -/
theorem update_move_current (e : Expr) (hwf : (e.terms.map Prod.fst).Nodup) (σ : ℕ → ℤ)
    (hcur : e.value = e.evaluate σ) (alts : List (ℕ × ℤ)) (hd : (alts.map Prod.fst).Nodup) :
    (e.updateMove σ alts).value = (e.updateMove σ alts).evaluate (applyMove σ alts) :=
  evaluateMove_eq e hwf σ hcur alts hd

/-- Evaluating for a move does not depend on the order of the alterations. -/
theorem incremental_order_irrelevant (e : Expr) (σ : ℕ → ℤ) (a b : List (ℕ × ℤ)) (h : a.Perm b) :
    e.evaluateMove σ a = e.evaluateMove σ b := by
  rw [evaluateMove_sum, evaluateMove_sum, (h.map _).sum_eq]

/-- The distinctness assumption is needed: a move altering one variable twice is evaluated wrongly. -/
theorem repeated_variable_breaks : ∃ (e : Expr) (σ : ℕ → ℤ) (alts : List (ℕ × ℤ)),
    (e.terms.map Prod.fst).Nodup ∧ e.value = e.evaluate σ ∧
    e.evaluateMove σ alts ≠ e.evaluate (applyMove σ alts) :=
  ⟨⟨[(0, 1)], 0, 0⟩, fun _ => 0, [(0, 1), (0, 1)], by decide, by simp [evaluate], by
    norm_num [evaluateMove, evaluate, lookup, applyMove, Function.update]⟩

/-- Hypotheses met by a two-variable move on `2*x0 - x1 + 5`. -/
example : ∃ (e : Expr) (σ : ℕ → ℤ) (alts : List (ℕ × ℤ)), (e.terms.map Prod.fst).Nodup ∧
    e.value = e.evaluate σ ∧ (alts.map Prod.fst).Nodup ∧ alts.length = 2 ∧
    e.evaluateMove σ alts = 3 :=
  ⟨⟨[(0, 2), (1, -1)], 5, 5⟩, fun _ => 0, [(0, 1), (1, 4)], by decide, by norm_num [evaluate],
    by decide, rfl, by norm_num [evaluateMove, lookup]⟩

end Printemps.C04
