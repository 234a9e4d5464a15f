import Verif.Model.Model

/-! # Model of selections and of `Model::evaluate_selection` -/

namespace Printemps

/-- `variable.related_constraint_ptrs()` after `setup_variable_related_constraints`,
model/model.h:941-968.  Simplification: the sort by name is not modelled. -/
def MState.relatedOf (m : MState) (v : VarId) : List ConId :=
  m.conIds.filter (fun c => decide (v ∈ (m.con c).expr.vars))

/-- Insertion loop of `Selection::setup_related_constraint_ptrs`, model_component/selection.h:96-136.
`lists` are the related constraints of the selection's variables, in whatever order the heuristic sorts
(selection.h:85-125) leave them; `own` is the selection's own constraint. -/
def buildRelated (own : ConId) (lists : List (List ConId)) : List ConId :=
  lists.foldl (fun acc l => l.foldl (fun acc c =>
    if c = own then acc else if c ∈ acc then acc else acc ++ [c]) acc) []

/-- `setup_related_selection_constraint_ptr_index`, first loop, model_component/variable.h:689-698
(-1 if no position qualifies; variable.h:155). -/
def idxMin (p : ConId → Bool) (rel : List ConId) : ℤ :=
  match rel.findIdx? p with
  | some i => i
  | none => -1

/-- `setup_related_selection_constraint_ptr_index`, second loop, model_component/variable.h:700-709. -/
def idxMax (p : ConId → Bool) (rel : List ConId) : ℤ :=
  match rel.reverse.findIdx? p with
  | some j => (rel.length : ℤ) - 1 - j
  | none => -1

/-- The test of model_component/variable.h:690-694. -/
def MState.touches (m : MState) (v : VarId) (c : ConId) : Bool :=
  (m.con c).enabled && decide (c ∈ m.relatedOf v)

/-- `index_min` of model/model.h:2810-2817. -/
def combineMin (a b : ℤ) : ℤ :=
  if a = -1 ∧ b ≥ 0 then b else if a ≥ 0 ∧ b = -1 then a else if a ≥ 0 ∧ b ≥ 0 then min a b else -1

/-- `index_max` of model/model.h:2819-2826. -/
def combineMax (a b : ℤ) : ℤ :=
  if a = -1 ∧ b ≥ 0 then b else if a ≥ 0 ∧ b = -1 then a else if a ≥ 0 ∧ b ≥ 0 then max a b else -1

/-- `Model::evaluate_selection`, model/model.h:2782-2944.  `rel` is the `related_constraint_ptrs` of the
selection; indices are those computed in `setup()` (model/model.h:827), taken here as recomputed from
the enabled flags.  Moves with fewer than two alterations are undefined behaviour (model: unchanged score). -/
def MState.evaluateSelection (m : MState) (rel : List ConId) (mv : Move) (cur : Score) : Score :=
  match mv.alterations with
  | a :: b :: _ =>
    let min1 := idxMin (m.touches a.1) rel
    let max1 := idxMax (m.touches a.1) rel
    let min2 := idxMin (m.touches b.1) rel
    let max2 := idxMax (m.touches b.1) rel
    let lo := combineMin min1 min2
    let hi := combineMax max1 max2
    if lo ≥ 0 ∧ hi ≥ 0 then
      if max1 < min2 ∨ max2 < min1 then
        let r := mv.alterations.foldl (fun acc t =>
          (m.sens t.1).foldl (m.evalSensStep (fun k => !k.enabled) (t.2 - m.vals t.1)) acc)
          (cur.totalViolation, cur.localPenalty)
        m.finishScore mv.alterations r.1 r.2 true
      else
        let r := ((rel.drop lo.toNat).take (hi - lo + 1).toNat).foldl (m.evalMultiStep mv.alterations)
          (cur.totalViolation, cur.localPenalty, false)
        m.finishScore mv.alterations r.1 r.2.1 r.2.2
    else m.finishScore mv.alterations cur.totalViolation cur.localPenalty false
  | _ => m.finishScore mv.alterations cur.totalViolation cur.localPenalty false

end Printemps
