import Verif.Lemmas.Update
import Verif.Lemmas.Example

/-! # C06 — a move's full score describes the state after the move -/

namespace Printemps.C06
open Spec

/-- Every number of the full score is the corresponding quantity of the moved assignment. -/
theorem full_score_describes_moved_assignment (m : MState) (mv : Move) (hw : WellFormed m)
    (hc : Current m) (hd : (mv.alterations.map Prod.fst).Nodup) :
    let σ' := applyMove (assignment m) mv.alterations
    let s := m.evaluateFull mv
    s.objective = minObjective m σ' ∧
    s.totalViolation = totalViolation m σ' ∧
    s.localPenalty = localPenalty m σ' ∧
    s.globalPenalty = totalViolation m σ' * m.globalPen ∧
    s.localAug = minObjective m σ' + localPenalty m σ' ∧
    s.globalAug = minObjective m σ' + totalViolation m σ' * m.globalPen ∧
    (s.isFeasible = true ↔ totalViolation m σ' ≤ EPSILON) ∧
    s.objectiveImprovement = minObjective m (assignment m) - minObjective m σ' ∧
    (s.isObjectiveImprovable = true ↔ minObjective m (assignment m) - minObjective m σ' > EPSILON) := by
  have hf := MState.fold_full m hw hc mv.alterations hd
  have ho := MState.obj_move m hw hc mv.alterations hd
  have hoi := MState.obj_imp m hc (minObjective m (applyMove (assignment m) mv.alterations))
  have hz : (if m.objDefined = true then minObjective m (assignment m) -
      minObjective m (applyMove (assignment m) mv.alterations) else 0) =
      minObjective m (assignment m) - minObjective m (applyMove (assignment m) mv.alterations) := by
    unfold minObjective; split <;> simp
  rw [hz] at hoi
  simp only [MState.evaluateFull, MState.finishScore, hf, ho, hoi]
  simp

/-- The feasibility-improvability flag says exactly that some enabled constraint's excess or shortage
(in a restricted direction) drops by more than the tolerance. -/
theorem full_score_feasibility_improvable (m : MState) (mv : Move) (hw : WellFormed m)
    (hc : Current m) (hd : (mv.alterations.map Prod.fst).Nodup) :
    let σ := assignment m
    let σ' := applyMove (assignment m) mv.alterations
    (m.evaluateFull mv).isFeasibilityImprovable = true ↔
      ∃ c ∈ m.conIds, (m.con c).enabled = true ∧
        (((m.con c).sense ≠ .greater ∧
            max (exprValue (m.con c).expr σ') 0 + EPSILON < max (exprValue (m.con c).expr σ) 0) ∨
         ((m.con c).sense ≠ .less ∧
            max (-exprValue (m.con c).expr σ') 0 + EPSILON < max (-exprValue (m.con c).expr σ) 0)) := by
  intro σ σ'
  have hf := MState.fold_full m hw hc mv.alterations hd
  simp only [MState.evaluateFull, MState.finishScore, hf, List.any_eq_true]
  refine exists_congr fun c => and_congr_right fun hcm => ?_
  simp only [MState.fullImp, Bool.and_eq_true, Bool.or_eq_true, decide_eq_true_eq, Con.isLe, Con.isGe,
    bne_iff_ne, ne_eq]
  refine and_congr_right fun he => ?_
  rw [vals_eq, evalMove_eq_spec _ (hw.con c hcm) _ (hc.con c hcm he).expr _ hd, (hc.con c hcm he).pos,
    (hc.con c hcm he).neg]

/-- What `evaluate(move)` predicts is what the model holds once `update(move)` has been run: the stored
violations of the enabled constraints sum up to the predicted total, the stored objective is the predicted
one, and re-evaluating "no move" in the new state reproduces the predicted score. -/
theorem full_score_is_score_after_update (m : MState) (mv : Move) (hw : WellFormed m)
    (hc : Current m) (hg : GoodMove m mv.alterations)
    (hcov : m.userDefinedMoves = true ∨ Covers m mv.alterations mv.related) :
    let s := m.evaluateFull mv
    let m' := m.updateMove mv
    let s' := m'.evaluateFull { alterations := [] }
    ((enabledCons m').map (fun c => c.violation)).sum = s.totalViolation ∧
    (m.objDefined = true → m'.objValue * m'.sign = s.objective) ∧
    s'.objective = s.objective ∧ s'.totalViolation = s.totalViolation ∧
    s'.localPenalty = s.localPenalty ∧ s'.globalPenalty = s.globalPenalty ∧
    s'.localAug = s.localAug ∧ s'.globalAug = s.globalAug ∧ s'.isFeasible = s.isFeasible := by
  intro s m' s'
  have hsh : SameShape m m' := MState.updateMove_shape m mv
  have hw' : WellFormed m' := hsh.wellFormed hw
  have hc' : Current m' := MState.updateMove_current m mv hw hc hg hcov
  have hass : assignment m' = applyMove (assignment m) mv.alterations := MState.updateMove_assignment m mv hg
  have e := full_score_describes_moved_assignment m mv hw hc hg.distinct
  have e' := full_score_describes_moved_assignment m' { alterations := [] } hw' hc' List.nodup_nil
  simp only [applyMove, hass, hsh.minObjective, hsh.totalViolation, hsh.localPenalty, hsh.globalPen] at e e'
  obtain ⟨o, t, l, g, la, ga, f, -, -⟩ := e
  obtain ⟨o', t', l', g', la', ga', f', -, -⟩ := e'
  refine ⟨?_, ?_, o'.trans o.symm, t'.trans t.symm, l'.trans l.symm, g'.trans g.symm, la'.trans la.symm,
    ga'.trans ga.symm, ?_⟩
  · show _ = (m.evaluateFull mv).totalViolation
    rw [t, ← hass, ← hsh.totalViolation, totalViolation]
    refine sum_map_congr _ _ _ fun k hk => ?_
    simp only [enabledCons, List.mem_filter, List.mem_map] at hk
    obtain ⟨⟨c, hcm, rfl⟩, he⟩ := hk
    exact (hc'.con c hcm he).violation
  · intro hd
    show _ = (m.evaluateFull mv).objective
    rw [o, (hc'.obj (by rw [hsh.objDefined]; exact hd)).2, hass, minObjective, MState.sign, if_pos hd, hsh.isMin]
    have : exprValue m'.obj = exprValue m.obj := by
      funext σ; rw [exprValue, exprValue, hsh.objTerms, hsh.objConst]
    rw [this]
    split <;> simp
  · exact Bool.eq_iff_iff.2 (f'.trans f.symm)

/-- The score's feasibility flag (total violation ≤ 1e-5) is not the model's flag (each violation < 1e-5):
two constraints violated by 0.6e-5 each make the score infeasible although the model reports feasible. -/
theorem score_flag_vs_model_flag : ∃ m : MState, WellFormed m ∧ Current m ∧
    m.updateFeasibility.feasible = true ∧ (m.evaluateFull { alterations := [] }).isFeasible = false := by
  let k : Con := Con.setup ⟨[(0, 1)], 6 / 1000000, 0⟩ .less (fun _ => .integer)
  let m0 : MState := { Example.raw with con := fun _ => k, conIds := [0, 1] }
  have hw0 : WellFormed m0 := ⟨by decide, fun c _ => by show ([(0, (1 : ℚ))].map Prod.fst).Nodup; decide,
    Example.raw_wf.obj, fun i hi => by simp [m0, Example.raw] at hi⟩
  have hc : Current m0.update := MState.update_current _ (by intro i hi; simp [m0, Example.raw] at hi)
  have hsh := MState.update_shape m0
  have hw : WellFormed m0.update := hsh.wellFormed hw0
  have hval : ∀ c σ, σ 0 = 0 → violation (m0.con c) σ = 6 / 1000000 := by
    intro c σ hσ
    simp only [m0, k, violation, Con.setup, cmpOf, Cmp.gap, exprValue, List.map_cons, List.map_nil,
      List.sum_cons, List.sum_nil, hσ]
    norm_num
  have ha : assignment m0.update 0 = 0 := by rfl
  refine ⟨m0.update, hw, hc, ?_, ?_⟩
  · rw [MState.feasibility_flag_spec _ hc]
    intro c _ _
    rw [hsh.violation, hval _ _ ha]
    norm_num [EPSILON]
  · have e := (full_score_describes_moved_assignment m0.update { alterations := [] } hw hc
      List.nodup_nil).2.2.2.2.2.2.1
    rw [Bool.eq_false_iff, ne_eq, e, hsh.totalViolation, MState.totalViolation_eq]
    simp only [applyMove]
    show ¬ (([0, 1] : List ℕ).map _).sum ≤ _
    simp only [List.map_cons, List.map_nil, List.sum_cons, List.sum_nil, hval _ _ ha]
    norm_num [m0, k, Con.setup, EPSILON]

/-- Non-vacuity: the example model and a two-variable move meet all hypotheses; the predicted score has
objective 1, total violation 0. -/
example : WellFormed Example.model ∧ Current Example.model ∧
    GoodMove Example.model Example.move.alterations ∧
    Covers Example.model Example.move.alterations Example.move.related ∧
    (Example.model.evaluateFull Example.move).objective = 1 ∧
    (Example.model.evaluateFull Example.move).totalViolation = 0 := by
  refine ⟨Example.wf, Example.current, Example.good, Example.covers, ?_, ?_⟩
  · rw [(full_score_describes_moved_assignment _ Example.move Example.wf Example.current (by decide)).1,
      Example.shape.minObjective, Example.assignment_fun]
    norm_num [minObjective, Example.raw, MState.setupSens, MState.setupObjSens, exprValue, applyMove,
      Example.move, Function.update]
  · rw [(full_score_describes_moved_assignment _ Example.move Example.wf Example.current (by decide)).2.1,
      Example.shape.totalViolation, Example.assignment_fun]
    norm_num [totalViolation, enabledCons, Example.raw, MState.setupSens, MState.setupObjSens, exprValue,
      applyMove, Example.move, Function.update, Example.c0, Example.c1, Example.c2, Con.setup, violation,
      cmpOf, Cmp.gap]

end Printemps.C06
