import Verif.Model.Search
import Verif.Spec.Search
import Verif.Lemmas.Update
import Verif.Props.C07
import Verif.Props.C08
import Verif.Props.C09
import Verif.Props.C51
import Verif.Props.C59

/-! Lemmas about whole searches. -/

namespace Printemps.Search
open Spec Sol

/-- The parts of a model that a search never changes, and the range of the values. -/
structure Stat (m0 : MState) (l g : ℕ → ℚ) (m : MState) : Prop where
  shape : SameShape (setPenalties m0 l g) m
  varIds : m.varIds = m0.varIds
  dependents : m.dependents = m0.dependents
  sens : m.sens = m0.sens
  maxAbs : ∀ c, (m.con c).maxAbs = (m0.con c).maxAbs
  onlyBin : ∀ c, (m.con c).onlyBinaryVar = (m0.con c).onlyBinaryVar
  lb : ∀ v, (m.var v).lb = (m0.var v).lb
  ub : ∀ v, (m.var v).ub = (m0.var v).ub
  sense : ∀ v, (m.var v).sense = (m0.var v).sense

/-- The values are admissible: fixed and unlisted variables keep their value, the others are in their range. -/
structure InRange (m0 : MState) (σ : ℕ → ℤ) : Prop where
  fixed : ∀ v, v ∉ m0.dependents.map Prod.fst → (v ∉ m0.varIds ∨ (m0.var v).fixed = true) → σ v = (m0.var v).value
  range : ∀ v ∈ m0.varIds, v ∉ m0.dependents.map Prod.fst → (m0.var v).fixed = false →
    (m0.var v).lb ≤ σ v ∧ σ v ≤ (m0.var v).ub

/-- The stored numbers are right. -/
structure Live (m : MState) : Prop where
  current : Current m
  flag : ∀ c ∈ m.conIds, (m.con c).enabled = true → (m.con c).hasMargin = true →
    (m.con c).margin ≥ (m.con c).maxAbs - EPSILON_10
  flagBin : ∀ c ∈ m.conIds, (m.con c).hasMargin = true → (m.con c).onlyBinaryVar = true

theorem InRange.congr {m0 : MState} {σ τ : ℕ → ℤ} (h : InRange m0 σ) (a : Agree m0 σ τ) : InRange m0 τ :=
  ⟨fun v hv hf => by rw [← a v hv]; exact h.fixed v hv hf, fun v hv hd hf => by rw [← a v hd]; exact h.range v hv hd hf⟩

theorem Agree.refl (m : MState) (σ) : Agree m σ σ := fun _ _ => rfl
theorem Agree.symm {m : MState} {σ τ} (h : Agree m σ τ) : Agree m τ σ := fun v hv => (h v hv).symm
theorem Agree.trans {m : MState} {σ τ ρ} (h : Agree m σ τ) (k : Agree m τ ρ) : Agree m σ ρ :=
  fun v hv => (h v hv).trans (k v hv)

/-! ### `update()` -/

theorem fold_dep_frame (deps : List (ℕ × ℕ)) (f : ℕ → ℚ) (var : ℕ → Var) (v) :
    let r := deps.foldl (fun var d => Function.update var d.1 ((var d.1).updateDependent (f d.2))) var
    (r v).lb = (var v).lb ∧ (r v).ub = (var v).ub ∧ (r v).sense = (var v).sense := by
  induction deps generalizing var with
  | nil => exact ⟨rfl, rfl, rfl⟩
  | cons d l ih =>
    have := ih (Function.update var d.1 ((var d.1).updateDependent (f d.2)))
    dsimp only at this ⊢
    rw [List.foldl_cons, this.1, this.2.1, this.2.2]
    by_cases h : v = d.1
    · subst h; rw [Function.update_self]; exact ⟨rfl, rfl, rfl⟩
    · rw [Function.update_of_ne h]; exact ⟨rfl, rfl, rfl⟩

theorem pre_frame (m : MState) (v) : (m.pre.var v).lb = (m.var v).lb ∧ (m.pre.var v).ub = (m.var v).ub ∧
    (m.pre.var v).sense = (m.var v).sense :=
  fold_dep_frame m.dependents (fun i => (m.updateExprs.uexpr i).expr.value) m.var v

theorem Stat.update {m0 m : MState} {l g} (h : Stat m0 l g m) : Stat m0 l g m.update := by
  obtain ⟨o, ov, e, -⟩ := MState.update_desc m
  have hv : ∀ v, m.update.var v = m.pre.var v := fun v => by rw [e]; rfl
  refine ⟨h.shape.trans (MState.update_shape m), ?_, ?_, ?_, ?_, ?_, ?_, ?_, ?_⟩
  · rw [e]; exact h.varIds
  · rw [e]; exact h.dependents
  · rw [e]; exact h.sens
  · intro c; rw [← h.maxAbs, e]; show (Con.maxAbs (if _ then _ else _)) = _; split <;> rfl
  · intro c; rw [← h.onlyBin, e]; show (Con.onlyBinaryVar (if _ then _ else _)) = _; split <;> rfl
  · intro v; rw [hv, (pre_frame m v).1, h.lb]
  · intro v; rw [hv, (pre_frame m v).2.1, h.ub]
  · intro v; rw [hv, (pre_frame m v).2.2, h.sense]

theorem update_agree {m0 m : MState} {l g} (h : Stat m0 l g m) : Agree m0 (assignment m.update) (assignment m) := by
  intro v hv
  obtain ⟨o, ov, e, -⟩ := MState.update_desc m
  have : m.update.var v = m.pre.var v := by rw [e]; rfl
  rw [assignment, assignment, this, MState.pre_value m v (by rw [h.dependents]; exact hv)]

theorem update_live (m : MState)
    (hdep : ∀ i ∈ m.uexprIds, ∀ v ∈ (m.uexpr i).expr.terms.map Prod.fst, v ∉ m.dependents.map Prod.fst) :
    Live m.update := by
  obtain ⟨o, ov, e, -⟩ := MState.update_desc m
  have hids : m.update.conIds = m.conIds := (MState.update_shape m).conIds
  have hcon : ∀ c ∈ m.conIds, m.update.con c = (m.con c).update m.pre.vals := by
    intro c hcm; rw [e]; show (if c ∈ m.conIds then _ else _) = _; rw [if_pos hcm]
  refine ⟨MState.update_current m hdep, fun c hcm _ hm => ?_, fun c hcm hm => ?_⟩
  · rw [hids] at hcm
    rw [hcon c hcm] at hm ⊢
    simp only [Con.update, Bool.and_eq_true, decide_eq_true_eq] at hm ⊢
    exact hm.2
  · rw [hids] at hcm
    rw [hcon c hcm] at hm ⊢
    simp only [Con.update, Bool.and_eq_true, decide_eq_true_eq] at hm ⊢
    exact hm.1

/-! ### `update(move)` -/

theorem fold_var_frame (alts : List (ℕ × ℤ)) (var : ℕ → Var) (v) :
    let r := alts.foldl (fun var a => Function.update var a.1 ((var a.1).setValueIfMutable a.2)) var
    (r v).lb = (var v).lb ∧ (r v).ub = (var v).ub ∧ (r v).sense = (var v).sense := by
  induction alts generalizing var with
  | nil => exact ⟨rfl, rfl, rfl⟩
  | cons a l ih =>
    have := ih (Function.update var a.1 ((var a.1).setValueIfMutable a.2))
    dsimp only at this ⊢
    rw [List.foldl_cons, this.1, this.2.1, this.2.2]
    by_cases h : v = a.1
    · subst h
      rw [Function.update_self]
      unfold Var.setValueIfMutable
      split <;> exact ⟨rfl, rfl, rfl⟩
    · rw [Function.update_of_ne h]; exact ⟨rfl, rfl, rfl⟩

theorem Stat.updateMove {m0 m : MState} {l g} (h : Stat m0 l g m) (mv : Move) : Stat m0 l g (m.updateMove mv) := by
  obtain ⟨o, ov, s, e, -⟩ := MState.updateMove_desc m mv
  have hv := fold_var_frame mv.alterations m.var
  refine ⟨h.shape.trans (MState.updateMove_shape m mv), ?_, ?_, ?_, ?_, ?_, ?_, ?_, ?_⟩
  · rw [e]; exact h.varIds
  · rw [e]; exact h.dependents
  · rw [e]; exact h.sens
  · intro c; rw [← h.maxAbs, e]
    exact MState.fold_con_field (fun k => k.maxAbs) _ _ (fun k => k.updateMove m.vals mv.alterations) (fun _ => rfl) c
  · intro c; rw [← h.onlyBin, e]
    exact MState.fold_con_field (fun k => k.onlyBinaryVar) _ _ (fun k => k.updateMove m.vals mv.alterations) (fun _ => rfl) c
  · intro v; rw [← h.lb, e]; exact (hv v).1
  · intro v; rw [← h.ub, e]; exact (hv v).2.1
  · intro v; rw [← h.sense, e]; exact (hv v).2.2

theorem updateMove_live (m : MState) (mv : Move) (hw : WellFormed m) (hl : Live m)
    (hg : GoodMove m mv.alterations) (hcov : Covers m mv.alterations mv.related) : Live (m.updateMove mv) := by
  obtain ⟨o, ov, s, e, -⟩ := MState.updateMove_desc m mv
  have hids : (m.updateMove mv).conIds = m.conIds := (MState.updateMove_shape m mv).conIds
  have hcon : ∀ c, (m.updateMove mv).con c = m.con c ∨
      ∃ k : Con, k.onlyBinaryVar = (m.con c).onlyBinaryVar ∧
        (m.updateMove mv).con c = k.updateMove m.vals mv.alterations := by
    intro c
    rw [e]
    show (List.foldl (fun con c => Function.update con c ((con c).updateMove m.vals mv.alterations)) m.con _) c = _ ∨ _
    generalize (if m.userDefinedMoves then m.enabledIds else mv.related) = ids
    change _ ∨ ∃ k : Con, _ ∧ (List.foldl (fun con c => Function.update con c
      ((con c).updateMove m.vals mv.alterations)) m.con ids) c = _
    induction ids using List.reverseRecOn with
    | nil => exact Or.inl rfl
    | append_singleton ids i ih =>
      simp only [List.foldl_append, List.foldl_cons, List.foldl_nil]
      by_cases hci : c = i
      · subst hci
        refine Or.inr ⟨_, ?_, by rw [Function.update_self]⟩
        exact MState.fold_con_field (fun k => k.onlyBinaryVar) _ _
          (fun k => k.updateMove m.vals mv.alterations) (fun _ => rfl) c
      · rw [Function.update_of_ne hci]; exact ih
  have hE : (0 : ℚ) ≤ EPSILON_10 := by norm_num [EPSILON_10]
  refine ⟨MState.updateMove_current m mv hw hl.current hg (Or.inr hcov), fun c hcm he hm => ?_, fun c hcm hm => ?_⟩
  · rw [hids] at hcm
    rcases hcon c with h | ⟨k, -, h⟩
    · rw [h] at hm he ⊢; exact hl.flag c hcm he hm
    · rw [h] at hm ⊢
      simp only [Con.updateMove, Bool.and_eq_true, decide_eq_true_eq] at hm ⊢
      linarith [hm.2]
  · rw [hids] at hcm
    rcases hcon c with h | ⟨k, -, h⟩
    · rw [h] at hm ⊢; exact hl.flagBin c hcm hm
    · rw [h] at hm ⊢
      simp only [Con.updateMove, Bool.and_eq_true, decide_eq_true_eq] at hm ⊢
      exact hm.1

/-! ### `refresh` -/

theorem refresh_def (m : MState) : refresh m = { m.pre with con := fun c =>
    if c ∈ m.conIds ∧ (m.con c).enabled = false then (m.con c).update m.pre.vals else m.con c } := rfl

theorem Stat.refresh {m0 m : MState} {l g} (h : Stat m0 l g m) : Stat m0 l g (refresh m) := by
  have hc : ∀ {β} (F : Con → β), (∀ k σ, F (Con.update k σ) = F k) → ∀ c, F ((Search.refresh m).con c) = F (m.con c) := by
    intro β F hF c
    show F (if _ then _ else _) = _
    split
    · exact hF _ _
    · rfl
  refine ⟨h.shape.trans ?_, h.varIds, h.dependents, h.sens, ?_, ?_, ?_, ?_, ?_⟩
  · constructor
    · rfl
    · rfl
    · intro v; exact MState.pre_fixed m v
    · exact hc (fun k => k.expr.terms) (fun _ _ => rfl)
    · exact hc (fun k => k.expr.const) (fun _ _ => rfl)
    · exact hc (fun k => k.sense) (fun _ _ => rfl)
    · exact hc (fun k => k.enabled) (fun _ _ => rfl)
    · exact hc (fun k => k.penLess) (fun _ _ => rfl)
    · exact hc (fun k => k.penGreater) (fun _ _ => rfl)
    · rfl
    · rfl
    · rfl
    · rfl
    · rfl
    · intro i; show Expr.terms (UserExpr.expr (if _ then _ else _)) = _; split <;> rfl
    · intro i; show Expr.const (UserExpr.expr (if _ then _ else _)) = _; split <;> rfl
    · intro i; show (UserExpr.enabled (if _ then _ else _)) = _; split <;> rfl
    · rfl
  · intro c; rw [← h.maxAbs]; exact hc (fun k => k.maxAbs) (fun _ _ => rfl) c
  · intro c; rw [← h.onlyBin]; exact hc (fun k => k.onlyBinaryVar) (fun _ _ => rfl) c
  · intro v; exact (pre_frame m v).1.trans (h.lb v)
  · intro v; exact (pre_frame m v).2.1.trans (h.ub v)
  · intro v; exact (pre_frame m v).2.2.trans (h.sense v)

theorem refresh_agree {m0 m : MState} {l g} (h : Stat m0 l g m) : Agree m0 (assignment (refresh m)) (assignment m) := by
  intro v hv
  show (m.pre.var v).value = (m.var v).value
  rw [MState.pre_value m v (by rw [h.dependents]; exact hv)]

/-- No enabled constraint, user expression or objective mentions a dependent variable. -/
structure NoDep (m : MState) : Prop where
  uexpr : ∀ i ∈ m.uexprIds, ∀ v ∈ (m.uexpr i).expr.terms.map Prod.fst, v ∉ m.dependents.map Prod.fst
  con : ∀ c ∈ m.conIds, (m.con c).enabled = true → ∀ v ∈ (m.con c).expr.terms.map Prod.fst, v ∉ m.dependents.map Prod.fst
  obj : ∀ v ∈ m.obj.terms.map Prod.fst, v ∉ m.dependents.map Prod.fst

theorem exprValue_agree (m : MState) (e : Expr) (σ τ : ℕ → ℤ) (h : Agree m σ τ)
    (hd : ∀ v ∈ e.terms.map Prod.fst, v ∉ m.dependents.map Prod.fst) : exprValue e σ = exprValue e τ := by
  unfold exprValue
  congr 1
  refine sum_map_congr _ _ _ fun t ht => ?_
  rw [h t.1 (hd t.1 (List.mem_map.2 ⟨t, ht, rfl⟩))]

theorem totalViolation_agree (m : MState) (hd : NoDep m) (σ τ : ℕ → ℤ) (h : Agree m σ τ) :
    totalViolation m σ = totalViolation m τ := by
  rw [MState.totalViolation_eq, MState.totalViolation_eq]
  refine sum_map_congr _ _ _ fun c hc => ?_
  by_cases he : (m.con c).enabled = true
  · rw [if_pos he, if_pos he, violation, violation, exprValue_agree m _ σ τ h (hd.con c hc he)]
  · rw [if_neg he, if_neg he]

theorem minObjective_agree (m : MState) (hd : NoDep m) (σ τ : ℕ → ℤ) (h : Agree m σ τ) :
    minObjective m σ = minObjective m τ := by
  unfold minObjective
  rw [exprValue_agree m _ σ τ h hd.obj]

theorem NoDep.of_stat {m0 m : MState} {l g} (h : NoDep m0) (s : Stat m0 l g m) : NoDep m := by
  refine ⟨fun i hi v hv => ?_, fun c hc he v hv => ?_, fun v hv => ?_⟩
  · rw [s.dependents]; rw [s.shape.uexprIds] at hi; rw [s.shape.uTerms] at hv; exact h.uexpr i hi v hv
  · rw [s.dependents]; rw [s.shape.conIds] at hc; rw [s.shape.conEnabled] at he; rw [s.shape.conTerms] at hv
    exact h.con c hc he v hv
  · rw [s.dependents]; rw [s.shape.objTerms] at hv; exact h.obj v hv

theorem ConCurrent.congr {c : Con} {σ τ : ℕ → ℤ} (h : ConCurrent c σ) (e : exprValue c.expr σ = exprValue c.expr τ) :
    ConCurrent c τ := by
  obtain ⟨h1, h2, h3, h4, h5, h6⟩ := h
  refine ⟨?_, ?_, ?_, ?_, ?_, ?_⟩
  · rw [← e]; exact h1
  · rw [← e]; exact h2
  · rw [← e]; exact h3
  · rw [← e]; exact h4
  · rw [h5]; unfold violation; rw [e]
  · rw [← e]; exact h6

theorem refresh_live (m : MState) (hd : NoDep m) (hl : Live m) : Live (refresh m) := by
  have hag : Agree m (assignment (refresh m)) (assignment m) := by
    intro v hv
    show (m.pre.var v).value = (m.var v).value
    rw [MState.pre_value m v hv]
  have hcon : ∀ c, (m.con c).enabled = true → (refresh m).con c = m.con c := by
    intro c he
    refine if_neg (c := c ∈ m.conIds ∧ (m.con c).enabled = false) ?_
    rintro ⟨-, h⟩
    rw [he] at h; exact absurd h (by decide)
  have hen : ∀ c, ((refresh m).con c).enabled = (m.con c).enabled := by
    intro c
    show Con.enabled (if _ then _ else _) = _
    split <;> rfl
  refine ⟨⟨fun c hcm he => ?_, fun ho => ?_, fun i hi he => ?_⟩, fun c hcm he hm => ?_, fun c hcm hm => ?_⟩
  · rw [hen] at he
    rw [hcon c he]
    exact ConCurrent.congr (hl.current.con c hcm he) (exprValue_agree m _ _ _ (Agree.symm hag) (hd.con c hcm he))
  · have := hl.current.obj ho
    have e := exprValue_agree m m.obj _ _ hag hd.obj
    refine ⟨?_, ?_⟩
    · show m.obj.value = exprValue m.obj _; rw [e]; exact this.1
    · show m.objValue = exprValue m.obj _; rw [e]; exact this.2
  · have hi' : i ∈ m.uexprIds := hi
    have hu : (refresh m).uexpr i = { m.uexpr i with expr := (m.uexpr i).expr.update m.vals } := by
      show (if i ∈ m.uexprIds then _ else _) = _
      rw [if_pos hi']
    rw [hu]
    show (m.uexpr i).expr.evaluate m.vals = exprValue (m.uexpr i).expr _
    rw [exprValue_agree m _ _ _ hag (hd.uexpr i hi'), exprValue_eq]
    rfl
  · rw [hen] at he
    rw [hcon c he] at hm ⊢
    exact hl.flag c hcm he hm
  · by_cases he : (m.con c).enabled = true
    · rw [hcon c he] at hm ⊢; exact hl.flagBin c hcm hm
    · have : (refresh m).con c = (m.con c).update m.pre.vals := by
        exact if_pos (c := c ∈ m.conIds ∧ (m.con c).enabled = false) ⟨hcm, by simpa using he⟩
      rw [this] at hm ⊢
      simp only [Con.update, Bool.and_eq_true, decide_eq_true_eq] at hm ⊢
      exact hm.1

/-! ### penalties, import, relaxation -/

theorem Stat.setPenalties {m0 m : MState} {l g} (h : Stat m0 l g m) (l' g') :
    Stat m0 l' g' (setPenalties m l' g') := by
  refine ⟨?_, h.varIds, h.dependents, h.sens, h.maxAbs, h.onlyBin, h.lb, h.ub, h.sense⟩
  have s := h.shape
  exact ⟨s.conIds, s.uexprIds, s.fixed, s.conTerms, s.conConst, s.conSense, s.conEnabled, fun _ => rfl, fun _ => rfl,
    s.objTerms, s.objConst, s.objDefined, s.isMin, s.globalPen, s.uTerms, s.uConst, s.uEnabled, s.userDefined⟩

theorem setPenalties_live (m : MState) (l g) (h : Live m) : Live (setPenalties m l g) := by
  refine ⟨⟨fun c hcm he => ?_, h.current.obj, h.current.uexpr⟩, h.flag, h.flagBin⟩
  obtain ⟨h1, h2, h3, h4, h5, h6⟩ := h.current.con c hcm he
  exact ⟨h1, h2, h3, h4, h5, h6⟩

/-- Replacing the variables by others of the same kind. -/
theorem Stat.withVars {m0 m : MState} {l g} (h : Stat m0 l g m) (var : ℕ → Var) (sel)
    (hf : ∀ v, (var v).fixed = (m.var v).fixed) (hl : ∀ v, (var v).lb = (m.var v).lb)
    (hu : ∀ v, (var v).ub = (m.var v).ub) (hs : ∀ v, (var v).sense = (m.var v).sense) :
    Stat m0 l g { m with var := var, selected := sel } := by
  have s := h.shape
  refine ⟨⟨s.conIds, s.uexprIds, fun v => (hf v).trans (s.fixed v), s.conTerms, s.conConst, s.conSense, s.conEnabled,
    s.penLess, s.penGreater, s.objTerms, s.objConst, s.objDefined, s.isMin, s.globalPen, s.uTerms, s.uConst,
    s.uEnabled, s.userDefined⟩, h.varIds, h.dependents, h.sens, h.maxAbs, h.onlyBin,
    fun v => (hl v).trans (h.lb v), fun v => (hu v).trans (h.ub v), fun v => (hs v).trans (h.sense v)⟩

/-- Only the selected variables may differ from `update(move)`. -/
theorem afterMove_eq (m : MState) (mv : Move) : ∃ sel, afterMove m mv = { m.updateMove mv with selected := sel } := by
  unfold afterMove
  split
  · exact ⟨_, rfl⟩
  · exact ⟨(m.updateMove mv).selected, rfl⟩

theorem Live.withSelected {m : MState} (h : Live m) (sel) : Live { m with selected := sel } :=
  ⟨⟨h.current.con, h.current.obj, h.current.uexpr⟩, h.flag, h.flagBin⟩

theorem mutable_frame (x : Var) (y : ℤ) : (x.setValueIfMutable y).fixed = x.fixed ∧ (x.setValueIfMutable y).lb = x.lb ∧
    (x.setValueIfMutable y).ub = x.ub ∧ (x.setValueIfMutable y).sense = x.sense ∧
    (x.setValueIfMutable y).value = if x.fixed then x.value else y := by
  unfold Var.setValueIfMutable
  cases h : x.fixed <;> simp [Var.updateMargin, h]

end Printemps.Search
