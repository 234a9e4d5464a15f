import Verif.Spec.Score
import Verif.Lemmas.Expression

/-! # C05 — constraint violation and margin semantics -/

namespace Printemps.C05
open Spec

/-- Distance of an integer-free real line point to the satisfying set, characterised from outside:
`d` is the least amount by which the value has to be shifted so that the relation holds. -/
def IsDistance (op : Cmp) (x d : ℚ) : Prop :=
  0 ≤ d ∧ (∃ y, op.holds y 0 ∧ |x - y| = d) ∧ ∀ y, op.holds y 0 → d ≤ |x - y|

theorem setValue_spec (c : Con) (x : ℚ) :
    (c.setValue x).violation = (cmpOf c.sense).gap x 0 ∧
    (c.setValue x).margin = (cmpOf c.sense).slack x 0 := by
  unfold Con.setValue
  rcases le_total x 0 with h | h
  · have h' : 0 ≤ -x := neg_nonneg.2 h
    cases c.sense <;> simp [cmpOf, Cmp.gap, Cmp.slack, max_eq_right h, min_eq_left h, max_eq_left h',
      abs_of_nonpos h]
  · have h' : -x ≤ 0 := neg_nonpos.2 h
    cases c.sense <;> simp [cmpOf, Cmp.gap, Cmp.slack, max_eq_left h, min_eq_right h, max_eq_right h',
      abs_of_nonneg h]

theorem gap_isDistance (op : Cmp) (x : ℚ) : IsDistance op x (op.gap x 0) := by
  cases op
  · refine ⟨le_max_right _ _, ⟨min x 0, min_le_right _ _, ?_⟩, fun y hy => ?_⟩
    · simp only [Cmp.gap, sub_zero]
      rcases le_total x 0 with h | h
      · simp [min_eq_left h, max_eq_right h]
      · simp [min_eq_right h, max_eq_left h, abs_of_nonneg h]
    · simp only [Cmp.gap, sub_zero, Cmp.holds] at *
      exact max_le (by have := le_abs_self (x - y); linarith) (abs_nonneg _)
  · refine ⟨abs_nonneg _, ⟨0, rfl, rfl⟩, fun y hy => ?_⟩
    simp only [Cmp.holds] at hy; subst hy; exact le_rfl
  · refine ⟨le_max_right _ _, ⟨max x 0, le_max_right _ _, ?_⟩, fun y hy => ?_⟩
    · simp only [Cmp.gap, zero_sub]
      rcases le_total x 0 with h | h
      · rw [max_eq_right h, max_eq_left (by linarith), sub_zero, abs_of_nonpos h]
      · rw [max_eq_left h, max_eq_right (by linarith)]; simp
    · simp only [Cmp.gap, zero_sub, Cmp.holds] at *
      exact max_le (by have := neg_abs_le (x - y); linarith) (abs_nonneg _)

theorem gap_zero_iff (op : Cmp) (x : ℚ) : op.gap x 0 = 0 ↔ op.holds x 0 := by
  cases op <;> simp [Cmp.gap, Cmp.holds]

/-- After a full update: violation is the distance to satisfaction (in particular nonnegative, and zero
exactly when the relation holds), and the margin is the slack. -/
theorem full_update_semantics (c : Con) (σ : ℕ → ℤ) :
    let x := c.expr.evaluate σ
    (c.update σ).value = x ∧
    IsDistance (cmpOf c.sense) x (c.update σ).violation ∧
    ((c.update σ).violation = 0 ↔ (cmpOf c.sense).holds x 0) ∧
    (c.update σ).margin = (cmpOf c.sense).slack x 0 := by
  have hs := setValue_spec { c with expr := c.expr.update σ } (c.expr.evaluate σ)
  refine ⟨rfl, ?_, ?_, hs.2⟩
  · show IsDistance _ _ (Con.setValue _ _).violation
    exact hs.1 ▸ gap_isDistance _ _
  · show (Con.setValue _ _).violation = 0 ↔ _
    exact hs.1 ▸ gap_zero_iff _ _

/-- After an incremental update the same holds of the moved assignment. -/
theorem incremental_update_semantics (c : Con) (hwf : (c.expr.terms.map Prod.fst).Nodup) (σ : ℕ → ℤ)
    (hcur : c.expr.value = c.expr.evaluate σ) (alts : List (ℕ × ℤ)) (hd : (alts.map Prod.fst).Nodup) :
    let x := c.expr.evaluate (applyMove σ alts)
    let d := c.updateMove σ alts
    d.value = x ∧ IsDistance (cmpOf c.sense) x d.violation ∧
    (d.violation = 0 ↔ (cmpOf c.sense).holds x 0) ∧ d.margin = (cmpOf c.sense).slack x 0 := by
  have he := Expr.evaluateMove_eq c.expr hwf σ hcur alts hd
  have hs := setValue_spec c (c.expr.evaluateMove σ alts)
  rw [he] at hs
  have key : ∀ P : ℚ → Prop, P ((c.setValue (c.expr.evaluate (applyMove σ alts))).violation) →
      P (c.updateMove σ alts).violation := by
    intro P h; simp only [Con.updateMove]; rwa [he]
  refine ⟨?_, key _ (hs.1 ▸ gap_isDistance _ _), key (· = 0 ↔ _) (hs.1 ▸ gap_zero_iff _ _), ?_⟩
  · simp only [Con.updateMove, Con.setValue]; rw [he]
  · simp only [Con.updateMove]; rw [he]; exact hs.2

/-- Incremental and full updates agree on every reported number and on the stored expression. -/
theorem incremental_eq_full (c : Con) (hwf : (c.expr.terms.map Prod.fst).Nodup) (σ : ℕ → ℤ)
    (hcur : c.expr.value = c.expr.evaluate σ) (alts : List (ℕ × ℤ)) (hd : (alts.map Prod.fst).Nodup) :
    let d := c.updateMove σ alts
    let f := c.update (applyMove σ alts)
    d.value = f.value ∧ d.violation = f.violation ∧ d.margin = f.margin ∧ d.pos = f.pos ∧
    d.neg = f.neg ∧ d.expr = f.expr := by
  have he := Expr.evaluateMove_eq c.expr hwf σ hcur alts hd
  simp only [Con.updateMove, Con.update, Con.setValue, Expr.update, Expr.updateMove, he, and_self]

/-- The margin flag agrees as well except within the tolerance band of width 1e-10
(constraint.h:936-937 uses a tolerance, constraint.h:974-975 does not). -/
theorem margin_flag_incremental_imp_full (c : Con) (hwf : (c.expr.terms.map Prod.fst).Nodup)
    (σ : ℕ → ℤ) (hcur : c.expr.value = c.expr.evaluate σ) (alts : List (ℕ × ℤ))
    (hd : (alts.map Prod.fst).Nodup) :
    ((c.updateMove σ alts).hasMargin = true → (c.update (applyMove σ alts)).hasMargin = true) ∧
    ((c.update (applyMove σ alts)).hasMargin = true →
      c.onlyBinaryVar = true ∧
      (c.update (applyMove σ alts)).margin ≥ c.maxAbs - EPSILON_10) := by
  have h := (incremental_eq_full c hwf σ hcur alts hd).2.2.1
  have e1 : (c.updateMove σ alts).hasMargin =
      (c.onlyBinaryVar && decide ((c.updateMove σ alts).margin ≥ c.maxAbs)) := by
    rfl
  have e2 : (c.update (applyMove σ alts)).hasMargin =
      (c.onlyBinaryVar && decide ((c.update (applyMove σ alts)).margin ≥ c.maxAbs - EPSILON_10)) := by
    rfl
  rw [e1, e2]
  simp only [Bool.and_eq_true, decide_eq_true_eq]
  refine ⟨fun hh => ⟨hh.1, ?_⟩, id⟩
  have : (0 : ℚ) ≤ EPSILON_10 := by norm_num [EPSILON_10]
  have := hh.2
  linarith

/-- The two flags can differ: `x0 - 1 + 1e-10/2 <= 0` at x0 = 0. -/
theorem margin_flag_differs : ∃ (c : Con) (σ : ℕ → ℤ), (c.expr.terms.map Prod.fst).Nodup ∧
    c.expr.value = c.expr.evaluate σ ∧
    (c.update σ).hasMargin ≠ (c.updateMove σ []).hasMargin := by
  refine ⟨{ Con.setup ⟨[(0, 1)], -1 + 1 / 20000000000, -1 + 1 / 20000000000⟩ .less (fun _ => .binary)
    with value := 0 }, fun _ => 0, by decide, by norm_num [Con.setup, Expr.evaluate], ?_⟩
  norm_num [Con.setup, Con.update, Con.updateMove, Con.setValue, Expr.update, Expr.updateMove,
    Expr.evaluate, Expr.evaluateMove, EPSILON_10]

/-- Hypotheses met by `x0 + 2*x1 - 3 >= 0` under a two-variable move; the violation becomes 2. -/
example : ∃ (c : Con) (σ : ℕ → ℤ) (alts : List (ℕ × ℤ)), (c.expr.terms.map Prod.fst).Nodup ∧
    c.expr.value = c.expr.evaluate σ ∧ (alts.map Prod.fst).Nodup ∧
    (c.updateMove σ alts).violation = 2 :=
  ⟨Con.setup ⟨[(0, 1), (1, 2)], -3, 0⟩ .greater (fun _ => .integer), fun _ => 1, [(0, -1), (1, 1)],
    by decide, by norm_num [Con.setup, Expr.evaluate], by decide, by
    norm_num [Con.setup, Con.updateMove, Con.setValue, Expr.updateMove, Expr.evaluateMove, Expr.lookup]⟩

end Printemps.C05
