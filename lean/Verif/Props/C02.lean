import Verif.Spec.Arith
import Verif.Lemmas.Expression
import Verif.Model.Constraint

/-! # C02 — comparison operators build the constraint that was written -/

namespace Printemps.C02
open Spec

/-- Numeric value of one side of the comparison. -/
def sideValue (σ : ℕ → ℤ) : Side → ℚ
  | .expr e => e.evaluate σ
  | .num c => c

/-- The sense each comparison sign is written for. -/
def senseOfCmp : Cmp → Sense
  | .le => .less
  | .eq => .equal
  | .ge => .greater

theorem sideDiff_value (l r : Side) (d : Expr) (h : sideDiff l r = some d) (σ : ℕ → ℤ) :
    d.evaluate σ = sideValue σ l - sideValue σ r := by
  cases l <;> cases r <;> simp only [sideDiff, Option.some.injEq, reduceCtorEq] at h <;> subst h <;>
    simp only [sideValue, Expr.evaluate_sub, Expr.evaluate_subValue, Expr.evaluate_addValue,
      Expr.evaluate_neg]
  ring

/-- The violation reported after an update is exactly the amount by which the written comparison fails. -/
theorem violation_is_gap (op : Cmp) (l r : Side) (so : ℕ → VarSense) (c : Con)
    (h : compareOp (senseOfCmp op) l r so = some c) (σ : ℕ → ℤ) :
    (c.update σ).violation = op.gap (sideValue σ l) (sideValue σ r) := by
  simp only [compareOp, Option.map_eq_some_iff] at h
  obtain ⟨d, hd, rfl⟩ := h
  have hv := sideDiff_value l r d hd σ
  generalize sideValue σ l = a at *
  generalize sideValue σ r = b at *
  cases op <;> simp only [senseOfCmp, Con.setup, Con.update, Con.setValue, Expr.update, hv, Cmp.gap]
  · rcases le_total (a - b) 0 with h | h
    · rw [max_eq_right h, min_eq_left h, abs_of_nonpos h]; ring
    · rw [max_eq_left h, min_eq_right h, abs_of_nonneg h]; ring
  · rcases le_total (a - b) 0 with h | h
    · rw [min_eq_left h, max_eq_left (by linarith)]; ring
    · rw [min_eq_right h, max_eq_right (by linarith)]; ring

/-- The violation is zero exactly when the written comparison holds, and positive otherwise. -/
theorem violation_zero_iff (op : Cmp) (l r : Side) (so : ℕ → VarSense) (c : Con)
    (h : compareOp (senseOfCmp op) l r so = some c) (σ : ℕ → ℤ) :
    ((c.update σ).violation = 0 ↔ op.holds (sideValue σ l) (sideValue σ r)) ∧
    0 ≤ (c.update σ).violation := by
  rw [violation_is_gap op l r so c h σ]
  generalize sideValue σ l = a
  generalize sideValue σ r = b
  cases op <;> simp only [Cmp.gap, Cmp.holds]
  · exact ⟨by rw [max_eq_right_iff]; constructor <;> intro h <;> linarith, le_max_right _ _⟩
  · exact ⟨by rw [abs_eq_zero, sub_eq_zero], abs_nonneg _⟩
  · exact ⟨by rw [max_eq_right_iff]; constructor <;> intro h <;> linarith, le_max_right _ _⟩

/-- A constraint object is built whenever at least one side is an expression. -/
theorem comparison_builds_constraint (op : Cmp) (l r : Side) (so : ℕ → VarSense) :
    compareOp (senseOfCmp op) l r so = none ↔ ∃ a b, l = .num a ∧ r = .num b := by
  cases l <;> cases r <;> simp [compareOp, sideDiff]

/-- `3 <= 2*x0 - x1` with x0 = 1, x1 = 1 is violated by 2. -/
example : ∃ c, compareOp .less (.num 3) (.expr ⟨[(0, 2), (1, -1)], 0, 0⟩) (fun _ => .integer) = some c ∧
    (c.update (fun _ => 1)).violation = 2 := by
  refine ⟨_, rfl, ?_⟩
  refine (violation_is_gap .le (.num 3) (.expr ⟨[(0, 2), (1, -1)], 0, 0⟩) (fun _ => .integer) _ rfl _).trans ?_
  norm_num [Cmp.gap, sideValue, Expr.evaluate]

end Printemps.C02
