import Verif.Model.DualBound
import Verif.Lemmas.Presolve
import Verif.Lemmas.Example

/-! # C40 — the naive dual bound is a bound, and it is attained -/

namespace Printemps.C40
open Spec Expr

theorem naive_eq (m : MState) : m.naiveDualBound =
    if m.isMin then m.obj.lowerBound m.boxes else m.obj.upperBound m.boxes := by
  unfold MState.naiveDualBound lowerBound upperBound
  generalize m.obj.const = k
  generalize m.obj.terms = ts
  cases m.isMin
  · rw [if_neg (by simp)]
    congr 1
    funext acc t
    by_cases hf : (m.var t.1).fixed = true
    · rw [if_pos hf, if_pos (show (m.boxes t.1).fixed = true from hf)]; exact congrArg _ (mul_comm _ _)
    · rw [if_neg hf, if_neg (show ¬ (m.boxes t.1).fixed = true from hf)]
      by_cases h : t.2 > 0
      · rw [if_neg (by simp [h]), if_pos h]; exact congrArg _ (mul_comm _ _)
      · rw [if_pos (by simp [h]), if_neg h]; exact congrArg _ (mul_comm _ _)
  · rw [if_pos rfl]
    congr 1
    funext acc t
    by_cases hf : (m.var t.1).fixed = true
    · rw [if_pos hf, if_pos (show (m.boxes t.1).fixed = true from hf)]; exact congrArg _ (mul_comm _ _)
    · rw [if_neg hf, if_neg (show ¬ (m.boxes t.1).fixed = true from hf)]
      by_cases h : t.2 > 0
      · rw [if_pos (by simp [h]), if_pos h]; exact congrArg _ (mul_comm _ _)
      · rw [if_neg (by simp [h]), if_neg h]; exact congrArg _ (mul_comm _ _)

/-- No assignment within bounds and fixings has a better objective value than the bound. -/
theorem naive_bound_is_bound (m : MState) (σ : ℕ → ℤ) (hb : InBounds m.var σ) :
    (m.isMin = true → m.naiveDualBound ≤ exprValue m.obj σ) ∧
    (m.isMin = false → exprValue m.obj σ ≤ m.naiveDualBound) := by
  have := C03.bounds_enclose m.obj m.boxes σ hb
  rw [← Presolve.exprValue_eq] at this
  rw [naive_eq]
  constructor
  · intro h; rw [if_pos h]; exact this.1
  · intro h; rw [if_neg (by simp [h])]; exact this.2

/-- Some assignment within bounds and fixings has exactly that objective value. -/
theorem naive_bound_attained (m : MState) (hwf : (m.obj.terms.map Prod.fst).Nodup)
    (hb : ∀ v, (m.var v).lb ≤ (m.var v).ub) :
    ∃ σ, InBounds m.var σ ∧ exprValue m.obj σ = m.naiveDualBound := by
  rw [naive_eq]
  by_cases h : m.isMin = true
  · rw [if_pos h]
    obtain ⟨σ, h1, h2⟩ := C03.lower_bound_attained m.obj hwf m.boxes hb
    exact ⟨σ, h1, by rw [Presolve.exprValue_eq, h2]⟩
  · rw [if_neg h]
    obtain ⟨σ, h1, h2⟩ := C03.upper_bound_attained m.obj hwf m.boxes hb
    exact ⟨σ, h1, by rw [Presolve.exprValue_eq, h2]⟩

/-- Without constraints the bound is the optimum; in general no feasible assignment beats it, in the
direction the solver minimises. -/
theorem naive_bound_below_feasible (m : MState) (hd : m.objDefined = true) (σ : ℕ → ℤ) (hf : Feasible m σ) :
    (if m.isMin then m.naiveDualBound else - m.naiveDualBound) ≤ minObjective m σ := by
  have h := naive_bound_is_bound m σ hf.1
  unfold minObjective
  rw [if_pos hd]
  cases hm : m.isMin
  · have := h.2 hm
    simp only [Bool.false_eq_true, if_false]; linarith
  · have := h.1 hm
    simp only [if_true]; exact this

/-! ### Non-vacuity: the example objective `-2*x0 + x1 + 3*x2`, minimised and maximised, with `x1` fixed -/

example : Example.raw.naiveDualBound = -2 ∧
    { Example.raw with isMin := false }.naiveDualBound = 16 ∧
    { Example.raw with var := Function.update Example.raw.var 1 (Example.bin0.fixBy 1) }.naiveDualBound = -1 := by
  decide +kernel

example : (Example.raw.obj.terms.map Prod.fst).Nodup ∧ ∀ v, (Example.raw.var v).lb ≤ (Example.raw.var v).ub := by
  refine ⟨by decide, fun v => ?_⟩
  show (if v = 2 then Example.int5 else Example.bin0).lb ≤ (if v = 2 then Example.int5 else Example.bin0).ub
  split <;> decide

end Printemps.C40
