import Verif.Lemmas.Model

/-! Effects of `update()` and `update(move)`. -/

namespace Printemps
open Spec

/-- What evaluation relies on but updates never change. -/
structure SameShape (m n : MState) : Prop where
  conIds : n.conIds = m.conIds
  uexprIds : n.uexprIds = m.uexprIds
  fixed : ∀ v, (n.var v).fixed = (m.var v).fixed
  conTerms : ∀ c, (n.con c).expr.terms = (m.con c).expr.terms
  conConst : ∀ c, (n.con c).expr.const = (m.con c).expr.const
  conSense : ∀ c, (n.con c).sense = (m.con c).sense
  conEnabled : ∀ c, (n.con c).enabled = (m.con c).enabled
  penLess : ∀ c, (n.con c).penLess = (m.con c).penLess
  penGreater : ∀ c, (n.con c).penGreater = (m.con c).penGreater
  objTerms : n.obj.terms = m.obj.terms
  objConst : n.obj.const = m.obj.const
  objDefined : n.objDefined = m.objDefined
  isMin : n.isMin = m.isMin
  globalPen : n.globalPen = m.globalPen
  uTerms : ∀ i, (n.uexpr i).expr.terms = (m.uexpr i).expr.terms
  uConst : ∀ i, (n.uexpr i).expr.const = (m.uexpr i).expr.const
  uEnabled : ∀ i, (n.uexpr i).enabled = (m.uexpr i).enabled
  userDefined : n.userDefinedMoves = m.userDefinedMoves

namespace SameShape

theorem refl (m : MState) : SameShape m m := by constructor <;> intros <;> rfl

theorem trans {a b c : MState} (h : SameShape a b) (g : SameShape b c) : SameShape a c := by
  constructor
  · rw [g.conIds, h.conIds]
  · rw [g.uexprIds, h.uexprIds]
  · intro v; rw [g.fixed, h.fixed]
  · intro v; rw [g.conTerms, h.conTerms]
  · intro v; rw [g.conConst, h.conConst]
  · intro v; rw [g.conSense, h.conSense]
  · intro v; rw [g.conEnabled, h.conEnabled]
  · intro v; rw [g.penLess, h.penLess]
  · intro v; rw [g.penGreater, h.penGreater]
  · rw [g.objTerms, h.objTerms]
  · rw [g.objConst, h.objConst]
  · rw [g.objDefined, h.objDefined]
  · rw [g.isMin, h.isMin]
  · rw [g.globalPen, h.globalPen]
  · intro v; rw [g.uTerms, h.uTerms]
  · intro v; rw [g.uConst, h.uConst]
  · intro v; rw [g.uEnabled, h.uEnabled]
  · rw [g.userDefined, h.userDefined]

variable {m n : MState}

theorem wellFormed (h : SameShape m n) (hw : WellFormed m) : WellFormed n where
  conIds := by rw [h.conIds]; exact hw.conIds
  con c hc := by rw [h.conTerms]; exact hw.con c (h.conIds ▸ hc)
  obj := by rw [h.objTerms]; exact hw.obj
  uexpr i hi := by rw [h.uTerms]; exact hw.uexpr i (h.uexprIds ▸ hi)

theorem goodMove (h : SameShape m n) {alts} (g : GoodMove m alts) : GoodMove n alts :=
  ⟨g.distinct, fun a ha => by rw [h.fixed]; exact g.mutable a ha⟩

theorem covers (h : SameShape m n) {alts rel} (g : Covers m alts rel) : Covers n alts rel :=
  ⟨by simpa only [h.conEnabled] using g.nodup, fun c hc => by rw [h.conIds]; exact g.mem c hc, fun c hc he ht =>
    g.covers c (h.conIds ▸ hc) (by rw [← h.conEnabled]; exact he) (by rw [← h.conTerms]; exact ht)⟩

theorem conValue (h : SameShape m n) (c σ) : exprValue (n.con c).expr σ = exprValue (m.con c).expr σ := by
  rw [exprValue, exprValue, h.conTerms, h.conConst]

theorem violation (h : SameShape m n) (c σ) : Spec.violation (n.con c) σ = Spec.violation (m.con c) σ := by
  rw [Spec.violation, Spec.violation, h.conValue, h.conSense]

theorem penalty (h : SameShape m n) (c σ) : Spec.penalty (n.con c) σ = Spec.penalty (m.con c) σ := by
  rw [Spec.penalty, Spec.penalty, h.conValue, h.conSense, h.penLess, h.penGreater]

theorem totalViolation (h : SameShape m n) (σ) : Spec.totalViolation n σ = Spec.totalViolation m σ := by
  rw [MState.totalViolation_eq, MState.totalViolation_eq, h.conIds]
  refine sum_map_congr _ _ _ fun c _ => ?_
  rw [h.conEnabled, h.violation]

theorem localPenalty (h : SameShape m n) (σ) : Spec.localPenalty n σ = Spec.localPenalty m σ := by
  rw [MState.localPenalty_eq, MState.localPenalty_eq, h.conIds]
  refine sum_map_congr _ _ _ fun c _ => ?_
  rw [h.conEnabled, h.penalty]

theorem minObjective (h : SameShape m n) (σ) : Spec.minObjective n σ = Spec.minObjective m σ := by
  rw [Spec.minObjective, Spec.minObjective, h.objDefined, h.isMin, exprValue, exprValue, h.objTerms,
    h.objConst]

end SameShape

namespace MState

theorem fold_update_fixed (alts : List (ℕ × ℤ)) (var : ℕ → Var) (v) :
    (alts.foldl (fun var a => Function.update var a.1 ((var a.1).setValueIfMutable a.2)) var v).fixed
      = (var v).fixed := by
  induction alts generalizing var with
  | nil => rfl
  | cons a l ih =>
    rw [List.foldl_cons, ih]
    by_cases h : v = a.1
    · subst h; rw [Function.update_self, Var.setValueIfMutable]; split <;> simp [Var.updateMargin]
    · rw [Function.update_of_ne h]

theorem fold_update_value (alts : List (ℕ × ℤ)) (var : ℕ → Var)
    (hm : ∀ a ∈ alts, (var a.1).fixed = false) :
    (fun v => (alts.foldl
      (fun var a => Function.update var a.1 ((var a.1).setValueIfMutable a.2)) var v).value)
      = applyMove (fun v => (var v).value) alts := by
  induction alts generalizing var with
  | nil => rfl
  | cons a l ih =>
    simp only [List.foldl_cons, applyMove]
    rw [ih]
    · congr 1
      funext v
      by_cases h : v = a.1
      · subst h
        rw [Function.update_self, Function.update_self, Var.setValueIfMutable,
          if_neg (by simp [hm a (by simp)])]
        rfl
      · rw [Function.update_of_ne h, Function.update_of_ne h]
    · intro b hb
      have := hm b (by simp [hb])
      by_cases h : b.1 = a.1
      · rw [h, Function.update_self, Var.setValueIfMutable, if_neg (by rw [← h]; simp [this])]
        simp only [Var.updateMargin]; rw [← h]; exact this
      · rw [Function.update_of_ne h]; exact this

theorem fold_con (ids : List ℕ) (hn : ids.Nodup) (con : ℕ → Con) (g : Con → Con) (c) :
    ids.foldl (fun con c => Function.update con c (g (con c))) con c
      = if c ∈ ids then g (con c) else con c := by
  induction ids generalizing con with
  | nil => simp
  | cons i l ih =>
    simp only [List.nodup_cons] at hn
    rw [List.foldl_cons, ih hn.2]
    by_cases h : c = i
    · subst h; simp [hn.1]
    · simp [h]

/-- The same when only the constraints with a certain mark are listed once. -/
theorem fold_con_of (ids : List ℕ) (p : ℕ → Bool) (hn : (ids.filter p).Nodup) (con : ℕ → Con) (g : Con → Con) (c)
    (hp : p c = true) : ids.foldl (fun con c => Function.update con c (g (con c))) con c
      = if c ∈ ids then g (con c) else con c := by
  have key : ∀ (l : List ℕ) (con : ℕ → Con), (∀ i ∈ l, i ≠ c) →
      l.foldl (fun con c => Function.update con c (g (con c))) con c = con c := by
    intro l
    induction l with
    | nil => intro con _; rfl
    | cons i l ih =>
      intro con h
      rw [List.foldl_cons, ih _ fun j hj => h j (List.mem_cons_of_mem _ hj), Function.update_of_ne (h i (by simp)).symm]
  induction ids generalizing con with
  | nil => simp
  | cons i l ih =>
    rw [List.foldl_cons]
    by_cases h : c = i
    · subst h
      rw [List.filter_cons_of_pos hp, List.nodup_cons, List.mem_filter] at hn
      rw [key l _ fun j hj e => hn.1 ⟨e ▸ hj, hp⟩, Function.update_self, if_pos (by simp)]
    · rw [ih (((List.sublist_cons_self i l).filter p).nodup hn), Function.update_of_ne h]
      simp [h]

/-- Fold over constraints preserves every field that the constraint update preserves. -/
theorem fold_con_field {β} (F : Con → β) (ids : List ℕ) (con : ℕ → Con) (g : Con → Con)
    (hg : ∀ k, F (g k) = F k) (c) :
    F (ids.foldl (fun con c => Function.update con c (g (con c))) con c) = F (con c) := by
  induction ids generalizing con with
  | nil => simp
  | cons i l ih =>
    rw [List.foldl_cons, ih]
    by_cases h : c = i
    · subst h; simp [hg]
    · simp [h]

theorem updateObjMove_eq (m : MState) (alts) : ∃ o ov, m.updateObjMove alts =
    { m with obj := o, objValue := ov } ∧ o.terms = m.obj.terms ∧ o.const = m.obj.const ∧
    (m.objDefined = true → o.value = m.obj.evaluateMove m.vals alts ∧
      ov = m.obj.evaluateMove m.vals alts) := by
  unfold updateObjMove
  split
  · exact ⟨_, _, rfl, rfl, rfl, fun _ => ⟨rfl, rfl⟩⟩
  · exact ⟨m.obj, m.objValue, rfl, rfl, rfl, fun h => absurd h ‹_›⟩

theorem updateSelected_eq (m : MState) (mv) : ∃ s, m.updateSelected mv = { m with selected := s } := by
  unfold updateSelected
  split
  · split
    · split
      · exact ⟨_, rfl⟩
      · exact ⟨m.selected, rfl⟩
    · exact ⟨m.selected, rfl⟩
  · exact ⟨m.selected, rfl⟩

/-- Complete description of `update(move)`. -/
theorem updateMove_desc (m : MState) (mv : Move) : ∃ o ov s, m.updateMove mv =
    ({ m with
        obj := o, objValue := ov, selected := s
        con := (if m.userDefinedMoves then m.enabledIds else mv.related).foldl
          (fun con c => Function.update con c ((con c).updateMove m.vals mv.alterations)) m.con
        uexpr := fun i => if i ∈ m.uexprIds ∧ (m.uexpr i).enabled = true then
          { m.uexpr i with expr := (m.uexpr i).expr.updateMove m.vals mv.alterations } else m.uexpr i
        var := mv.alterations.foldl
          (fun var a => Function.update var a.1 ((var a.1).setValueIfMutable a.2)) m.var } : MState).updateFeasibility
    ∧ o.terms = m.obj.terms ∧ o.const = m.obj.const ∧
    (m.objDefined = true → o.value = m.obj.evaluateMove m.vals mv.alterations ∧
      ov = m.obj.evaluateMove m.vals mv.alterations) := by
  obtain ⟨o, ov, h, h1, h2, h3⟩ := updateObjMove_eq m mv.alterations
  obtain ⟨s, hs⟩ := updateSelected_eq ((((m.updateObjMove mv.alterations).updateConsMove mv).updateExprsMove
    mv.alterations).updateVarsMove mv.alterations) mv
  refine ⟨o, ov, s, ?_, h1, h2, h3⟩
  unfold updateMove
  rw [hs, h]
  rfl

theorem updateMove_shape (m : MState) (mv : Move) : SameShape m (m.updateMove mv) := by
  obtain ⟨o, ov, s, h, h1, h2, -⟩ := updateMove_desc m mv
  rw [h]
  have hf : ∀ n : MState, SameShape n n.updateFeasibility := fun n => by
    constructor <;> intros <;> rfl
  refine SameShape.trans ?_ (hf _)
  constructor
  · rfl
  · rfl
  · intro v; exact fold_update_fixed _ _ _
  · intro c; exact fold_con_field (fun k => k.expr.terms) _ _ (fun k => k.updateMove m.vals mv.alterations) (fun _ => rfl) c
  · intro c; exact fold_con_field (fun k => k.expr.const) _ _ (fun k => k.updateMove m.vals mv.alterations) (fun _ => rfl) c
  · intro c; exact fold_con_field (fun k => k.sense) _ _ (fun k => k.updateMove m.vals mv.alterations) (fun _ => rfl) c
  · intro c; exact fold_con_field (fun k => k.enabled) _ _ (fun k => k.updateMove m.vals mv.alterations) (fun _ => rfl) c
  · intro c; exact fold_con_field (fun k => k.penLess) _ _ (fun k => k.updateMove m.vals mv.alterations) (fun _ => rfl) c
  · intro c; exact fold_con_field (fun k => k.penGreater) _ _ (fun k => k.updateMove m.vals mv.alterations) (fun _ => rfl) c
  · exact h1
  · exact h2
  · rfl
  · rfl
  · rfl
  · intro i; dsimp only; split <;> rfl
  · intro i; dsimp only; split <;> rfl
  · intro i; dsimp only; split <;> rfl
  · rfl

theorem updateMove_assignment (m : MState) (mv : Move) (hg : GoodMove m mv.alterations) :
    assignment (m.updateMove mv) = applyMove (assignment m) mv.alterations := by
  obtain ⟨o, ov, s, h, -⟩ := updateMove_desc m mv
  rw [h]
  exact fold_update_value _ _ hg.mutable

theorem updateMove_current (m : MState) (mv : Move) (hw : WellFormed m) (hc : Current m)
    (hg : GoodMove m mv.alterations)
    (hcov : m.userDefinedMoves = true ∨ Covers m mv.alterations mv.related) :
    Current (m.updateMove mv) := by
  have hass := updateMove_assignment m mv hg
  have hsh := updateMove_shape m mv
  obtain ⟨o, ov, s, h, h1, h2, h3⟩ := updateMove_desc m mv
  have hids : ((if m.userDefinedMoves then m.enabledIds else mv.related).filter (fun c => (m.con c).enabled)).Nodup ∧
      ∀ c ∈ m.conIds, (m.con c).enabled = true →
        (∃ a ∈ mv.alterations, a.1 ∈ (m.con c).expr.terms.map Prod.fst) →
        c ∈ (if m.userDefinedMoves then m.enabledIds else mv.related) := by
    by_cases hu : m.userDefinedMoves = true
    · simp only [hu, if_true]
      refine ⟨(hw.conIds.filter _).filter _, fun c hcm he _ => ?_⟩
      simp [enabledIds, hcm, he]
    · have hcv := hcov.resolve_left hu
      simp only [hu]
      exact ⟨hcv.nodup, hcv.covers⟩
  constructor
  · intro c hcm he
    rw [hsh.conIds] at hcm
    rw [hsh.conEnabled] at he
    rw [hass]
    have hcon : (m.updateMove mv).con c = if c ∈ (if m.userDefinedMoves then m.enabledIds else mv.related)
        then (m.con c).updateMove m.vals mv.alterations else m.con c := by
      rw [h]
      exact fold_con_of _ (fun c => (m.con c).enabled) hids.1 m.con (fun k => k.updateMove m.vals mv.alterations) c he
    rw [hcon]
    generalize (if m.userDefinedMoves then m.enabledIds else mv.related) = ids at hids
    split
    · exact Con.updateMove_current _ (hw.con c hcm) _ (hc.con c hcm he).expr _ hg.distinct
    · rename_i hn
      refine Con.ConCurrent.of_eq (hc.con c hcm he) (exprValue_applyMove_of_disjoint _ _ _ fun hx => ?_)
      exact hn (hids.2 c hcm he hx)
  · intro hd
    rw [hsh.objDefined] at hd
    have hov : (m.updateMove mv).obj = o ∧ (m.updateMove mv).objValue = ov := by rw [h]; exact ⟨rfl, rfl⟩
    rw [hov.1, hov.2, hass, (h3 hd).1, (h3 hd).2, and_self, vals_eq,
      evalMove_eq_spec _ hw.obj _ (hc.obj hd).1 _ hg.distinct]
    simp only [exprValue, h1, h2]
  · intro i hi he
    rw [hsh.uexprIds] at hi
    rw [hsh.uEnabled] at he
    have hu : (m.updateMove mv).uexpr i =
        { m.uexpr i with expr := (m.uexpr i).expr.updateMove m.vals mv.alterations } := by
      rw [h]
      show (if i ∈ m.uexprIds ∧ (m.uexpr i).enabled = true then _ else _) = _
      rw [if_pos ⟨hi, he⟩]
    rw [hu, hass]
    show (m.uexpr i).expr.evaluateMove m.vals mv.alterations = exprValue (m.uexpr i).expr _
    rw [vals_eq, evalMove_eq_spec _ (hw.uexpr i hi) _ (hc.uexpr i hi he) _ hg.distinct]

/-- Feasibility flag after `updateFeasibility`. -/
theorem updateFeasibility_flag (m : MState) : (m.updateFeasibility).feasible = true ↔
    ∀ c ∈ m.conIds, (m.con c).enabled = true → (m.con c).violation < EPSILON := by
  simp only [updateFeasibility, enabledIds, decide_eq_true_eq, List.length_eq_zero_iff,
    List.filter_eq_nil_iff, List.mem_filter, Con.isFeasible, Bool.not_eq_true', decide_eq_false_iff_not,
    not_not, and_imp]

theorem feasibility_flag_spec (m : MState) (hc : Current m) : (m.updateFeasibility).feasible = true ↔
    ∀ c ∈ m.conIds, (m.con c).enabled = true → Spec.violation (m.con c) (assignment m) < EPSILON := by
  rw [updateFeasibility_flag]
  constructor
  · intro h c hcm he; rw [← (hc.con c hcm he).violation]; exact h c hcm he
  · intro h c hcm he; rw [(hc.con c hcm he).violation]; exact h c hcm he

/-! ### `update()` -/

/-- after expressions and dependents -/
def pre (m : MState) : MState := m.updateExprs.updateDependents

theorem pre_fixed (m : MState) (v) : (m.pre.var v).fixed = (m.var v).fixed := by
  unfold pre updateDependents updateExprs
  dsimp only
  generalize (fun i => if i ∈ m.uexprIds then
    ({ m.uexpr i with expr := (m.uexpr i).expr.update m.vals } : UserExpr) else m.uexpr i) = u
  generalize m.var = var
  induction m.dependents generalizing var with
  | nil => rfl
  | cons d l ih =>
    rw [List.foldl_cons, ih]
    by_cases h : v = d.1
    · subst h; rw [Function.update_self]; rfl
    · rw [Function.update_of_ne h]

theorem pre_value (m : MState) (v) (hv : v ∉ m.dependents.map Prod.fst) :
    (m.pre.var v) = (m.var v) := by
  unfold pre updateDependents updateExprs
  dsimp only
  generalize (fun i => if i ∈ m.uexprIds then
    ({ m.uexpr i with expr := (m.uexpr i).expr.update m.vals } : UserExpr) else m.uexpr i) = u
  revert hv
  generalize m.var = var
  induction m.dependents generalizing var with
  | nil => intro _; rfl
  | cons d l ih =>
    intro hv
    simp only [List.map_cons, List.mem_cons, not_or] at hv
    rw [List.foldl_cons, ih _ hv.2, Function.update_of_ne hv.1]

theorem update_desc (m : MState) : ∃ o ov, m.update =
    ({ m.pre with
        con := fun c => if c ∈ m.conIds then (m.con c).update m.pre.vals else m.con c
        obj := o, objValue := ov } : MState).updateFeasibility ∧
    o.terms = m.obj.terms ∧ o.const = m.obj.const ∧
    (m.objDefined = true → o.value = m.obj.evaluate m.pre.vals ∧ ov = m.obj.evaluate m.pre.vals) := by
  by_cases hd : m.objDefined = true
  · refine ⟨m.obj.update m.pre.vals, m.obj.evaluate m.pre.vals, ?_, rfl, rfl, fun _ => ⟨rfl, rfl⟩⟩
    unfold update
    congr 1
    show (updateCons m.pre).updateObj = _
    unfold updateObj
    rw [if_pos (show (updateCons m.pre).objDefined = true from hd)]
    rfl
  · refine ⟨m.obj, m.objValue, ?_, rfl, rfl, fun h => absurd h hd⟩
    unfold update
    congr 1
    show (updateCons m.pre).updateObj = _
    unfold updateObj
    rw [if_neg (show ¬ (updateCons m.pre).objDefined = true from hd)]
    rfl

theorem update_shape (m : MState) : SameShape m m.update := by
  obtain ⟨o, ov, h, h1, h2, -⟩ := update_desc m
  rw [h]
  constructor
  · rfl
  · rfl
  · intro v; exact pre_fixed m v
  · intro c; show Expr.terms (Con.expr (if _ then _ else _)) = _; split <;> rfl
  · intro c; show Expr.const (Con.expr (if _ then _ else _)) = _; split <;> rfl
  · intro c; show (Con.sense (if _ then _ else _)) = _; split <;> rfl
  · intro c; show (Con.enabled (if _ then _ else _)) = _; split <;> rfl
  · intro c; show (Con.penLess (if _ then _ else _)) = _; split <;> rfl
  · intro c; show (Con.penGreater (if _ then _ else _)) = _; split <;> rfl
  · exact h1
  · exact h2
  · rfl
  · rfl
  · rfl
  · intro i; show Expr.terms (UserExpr.expr (if _ then _ else _)) = _; split <;> rfl
  · intro i; show Expr.const (UserExpr.expr (if _ then _ else _)) = _; split <;> rfl
  · intro i; show (UserExpr.enabled (if _ then _ else _)) = _; split <;> rfl
  · rfl

/-- `update()` makes everything current, provided no stored expression mentions a dependent variable. -/
theorem update_current (m : MState)
    (hdep : ∀ i ∈ m.uexprIds, ∀ v ∈ (m.uexpr i).expr.terms.map Prod.fst, v ∉ m.dependents.map Prod.fst) :
    Current m.update := by
  obtain ⟨o, ov, h, h1, h2, h3⟩ := update_desc m
  have hass : assignment m.update = m.pre.vals := by rw [h]; rfl
  constructor
  · intro c hcm _
    rw [(update_shape m).conIds] at hcm
    rw [hass]
    have : m.update.con c = (m.con c).update m.pre.vals := by
      rw [h]
      show (if c ∈ m.conIds then _ else _) = _
      rw [if_pos hcm]
    rw [this]
    exact Con.update_current _ _
  · intro hd
    rw [(update_shape m).objDefined] at hd
    have hov : m.update.obj = o ∧ m.update.objValue = ov := by rw [h]; exact ⟨rfl, rfl⟩
    rw [hov.1, hov.2, hass, (h3 hd).1, (h3 hd).2, and_self, ← exprValue_eq]
    simp only [exprValue, h1, h2]
  · intro i hi _
    rw [(update_shape m).uexprIds] at hi
    have hu : m.update.uexpr i = { m.uexpr i with expr := (m.uexpr i).expr.update m.vals } := by
      rw [h]
      show (if i ∈ m.uexprIds then _ else _) = _
      rw [if_pos hi]
    rw [hu, hass]
    show (m.uexpr i).expr.evaluate m.vals = exprValue (m.uexpr i).expr m.pre.vals
    rw [exprValue_eq, Expr.evaluate_eq, Expr.evaluate_eq]
    congr 1
    refine Expr.lin_congr _ _ _ fun t ht => ?_
    show (m.var t.1).value = (m.pre.var t.1).value
    rw [pre_value m t.1 (hdep i hi _ (List.mem_map.2 ⟨t, ht, rfl⟩))]

end MState
end Printemps
