import Verif.Lemmas.Update
import Verif.Lemmas.Example

/-! # C10 — stored values never drift along a run of moves -/

namespace Printemps.C10
open Spec

/-- A run: apply the moves one after the other with `update(move)`. -/
def run (m : MState) (moves : List Move) : MState := moves.foldl MState.updateMove m

/-- The assignment a run should produce, computed without the model. -/
def runSpec (σ : ℕ → ℤ) (moves : List Move) : ℕ → ℤ :=
  moves.foldl (fun σ mv => applyMove σ mv.alterations) σ

theorem run_shape (m : MState) (moves : List Move) : SameShape m (run m moves) := by
  induction moves generalizing m with
  | nil => exact SameShape.refl m
  | cons mv l ih => exact (MState.updateMove_shape m mv).trans (ih _)

theorem run_invariant (m : MState) (moves : List Move) (hw : WellFormed m) (hc : Current m)
    (hg : ∀ mv ∈ moves, GoodMove m mv.alterations)
    (hcov : ∀ mv ∈ moves, m.userDefinedMoves = true ∨ Covers m mv.alterations mv.related) :
    WellFormed (run m moves) ∧ Current (run m moves) ∧
    assignment (run m moves) = runSpec (assignment m) moves := by
  induction moves generalizing m with
  | nil => exact ⟨hw, hc, rfl⟩
  | cons mv l ih =>
    have hsh := MState.updateMove_shape m mv
    have h1 := hg mv (by simp)
    have h2 := hcov mv (by simp)
    have hass := MState.updateMove_assignment m mv h1
    have := ih (m.updateMove mv) (hsh.wellFormed hw) (MState.updateMove_current m mv hw hc h1 h2)
      (fun mv' h => hsh.goodMove (hg mv' (by simp [h])))
      (fun mv' h => by
        rcases hcov mv' (by simp [h]) with h | h
        · exact Or.inl (by rw [hsh.userDefined]; exact h)
        · exact Or.inr (hsh.covers h))
    refine ⟨this.1, this.2.1, this.2.2.trans ?_⟩
    rw [hass]; rfl

/-- After any finite run of supported moves, the stored numbers equal a recomputation from the original
expressions at the resulting assignment. -/
theorem values_never_drift (m : MState) (moves : List Move) (hw : WellFormed m) (hc : Current m)
    (hg : ∀ mv ∈ moves, GoodMove m mv.alterations)
    (hcov : ∀ mv ∈ moves, m.userDefinedMoves = true ∨ Covers m mv.alterations mv.related) :
    let n := run m moves
    let σ := runSpec (assignment m) moves
    assignment n = σ ∧
    (∀ c ∈ m.conIds, (m.con c).enabled = true →
      (n.con c).value = exprValue (m.con c).expr σ ∧ (n.con c).violation = violation (m.con c) σ) ∧
    (m.objDefined = true → n.objValue = exprValue m.obj σ) ∧
    (∀ i ∈ m.uexprIds, (m.uexpr i).enabled = true →
      (n.uexpr i).expr.value = exprValue (m.uexpr i).expr σ) := by
  intro n σ
  obtain ⟨-, h2, h3⟩ := run_invariant m moves hw hc hg hcov
  have hsh := run_shape m moves
  refine ⟨h3, fun c hcm he => ?_, fun ho => ?_, fun i hi he => ?_⟩
  · have := h2.con c (by rw [hsh.conIds]; exact hcm) (by rw [hsh.conEnabled]; exact he)
    have hv := this.value
    have hvi := this.violation
    rw [h3, hsh.conValue] at hv
    rw [h3, hsh.violation] at hvi
    exact ⟨hv, hvi⟩
  · have := (h2.obj (by rw [hsh.objDefined]; exact ho)).2
    rw [h3] at this
    show (run m moves).objValue = _
    rw [this, exprValue, exprValue, hsh.objTerms, hsh.objConst]
  · have := h2.uexpr i (by rw [hsh.uexprIds]; exact hi) (by rw [hsh.uEnabled]; exact he)
    rw [h3] at this
    show ((run m moves).uexpr i).expr.value = _
    rw [this, exprValue, exprValue, hsh.uTerms, hsh.uConst]

/-- After any non-empty run, the feasibility flag says exactly whether every enabled constraint is satisfied
within 1e-5 at the resulting assignment. -/
theorem feasibility_flag_exact (m : MState) (moves : List Move) (hne : moves ≠ [])
    (hw : WellFormed m) (hc : Current m)
    (hg : ∀ mv ∈ moves, GoodMove m mv.alterations)
    (hcov : ∀ mv ∈ moves, m.userDefinedMoves = true ∨ Covers m mv.alterations mv.related) :
    (run m moves).feasible = true ↔ ∀ c ∈ m.conIds, (m.con c).enabled = true →
      violation (m.con c) (runSpec (assignment m) moves) < 1e-5 := by
  obtain ⟨-, h2, h3⟩ := run_invariant m moves hw hc hg hcov
  have hsh := run_shape m moves
  have hflag : (run m moves).feasible = (run m moves).updateFeasibility.feasible := by
    obtain ⟨l, a, rfl⟩ := List.eq_nil_or_concat moves |>.resolve_left hne
    rw [List.concat_eq_append, run, List.foldl_append]
    rfl
  rw [hflag, MState.feasibility_flag_spec _ h2, h3, hsh.conIds]
  have hE : (1e-5 : ℚ) = EPSILON := by norm_num [EPSILON]
  rw [hE]
  constructor
  · intro h c hcm he
    have := h c hcm (by rw [hsh.conEnabled]; exact he)
    rwa [hsh.violation] at this
  · intro h c hcm he
    rw [hsh.violation]
    exact h c hcm (by rw [← hsh.conEnabled]; exact he)

/-- The full `update()` brings any model to the starting point required above (defining expressions of
dependent variables must not mention dependent variables). -/
theorem full_update_starts (m : MState) (hw : WellFormed m)
    (hdep : ∀ i ∈ m.uexprIds, ∀ v ∈ (m.uexpr i).expr.terms.map Prod.fst, v ∉ m.dependents.map Prod.fst) :
    WellFormed m.update ∧ Current m.update :=
  ⟨(MState.update_shape m).wellFormed hw, MState.update_current m hdep⟩

/-- Non-vacuity: two moves on the example model. -/
example : let moves : List Move := [Example.move, { Example.move with alterations := [(0, 0), (1, 1)] }]
    WellFormed Example.model ∧ Current Example.model ∧
    (∀ mv ∈ moves, GoodMove Example.model mv.alterations) ∧
    (∀ mv ∈ moves, Example.model.userDefinedMoves = true ∨
      Covers Example.model mv.alterations mv.related) := by
  intro moves
  have hids : Example.model.conIds = [0, 1, 2] := (MState.update_shape _).conIds
  refine ⟨Example.wf, Example.current, fun mv hmv => ?_, fun mv hmv => Or.inr ?_⟩
  · simp only [moves, List.mem_cons, List.not_mem_nil, or_false] at hmv
    rcases hmv with rfl | rfl
    · exact Example.good
    · exact ⟨by decide, fun a _ => Example.fixed_eq a.1⟩
  · simp only [moves, List.mem_cons, List.not_mem_nil, or_false] at hmv
    rcases hmv with rfl | rfl
    · exact Example.covers
    · exact ⟨by decide, fun c hc => by rw [hids]; exact hc, fun c hc _ _ => by rw [hids] at hc; exact hc⟩

end Printemps.C10
