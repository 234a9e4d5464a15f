import Verif.Model.Improvability
import Verif.Lemmas.Update
import Verif.Lemmas.Fast
import Mathlib.Tactic.Linarith
import Mathlib.Tactic.Positivity
import Mathlib.Tactic.Ring

/-! Facts about the improvability flags. -/

namespace Printemps
open Spec

/-! ### Operations that change nothing but flags -/

/-- `n` is `m` up to the improvability flags. -/
structure FlagsOnly (m n : MState) : Prop where
  rest : n = { m with var := n.var }
  var : ∀ v, n.var v = { m.var v with objImprovable := (n.var v).objImprovable, feasImprovable := (n.var v).feasImprovable }

namespace FlagsOnly

theorem refl (m : MState) : FlagsOnly m m := ⟨rfl, fun _ => rfl⟩

theorem trans {a b c : MState} (h : FlagsOnly a b) (g : FlagsOnly b c) : FlagsOnly a c := by
  refine ⟨?_, fun v => ?_⟩
  · rw [g.rest, h.rest]
  · rw [g.var v, h.var v]

variable {m n : MState} (h : FlagsOnly m n)
include h

theorem value (v) : (n.var v).value = (m.var v).value := by rw [h.var v]
theorem lb (v) : (n.var v).lb = (m.var v).lb := by rw [h.var v]
theorem ub (v) : (n.var v).ub = (m.var v).ub := by rw [h.var v]
theorem fixed (v) : (n.var v).fixed = (m.var v).fixed := by rw [h.var v]
theorem lower (v) : (n.var v).hasLowerMargin = (m.var v).hasLowerMargin := by rw [h.var v]
theorem upper (v) : (n.var v).hasUpperMargin = (m.var v).hasUpperMargin := by rw [h.var v]
theorem assignment : Spec.assignment n = Spec.assignment m := funext fun v => h.value v
theorem con : n.con = m.con := by rw [h.rest]
theorem conIds : n.conIds = m.conIds := by rw [h.rest]
theorem varIds : n.varIds = m.varIds := by rw [h.rest]
theorem objSens : n.objSens = m.objSens := by rw [h.rest]
theorem obj : n.obj = m.obj := by rw [h.rest]
theorem objDefined : n.objDefined = m.objDefined := by rw [h.rest]
theorem isMin : n.isMin = m.isMin := by rw [h.rest]
theorem feasible : n.feasible = m.feasible := by rw [h.rest]
theorem violative : n.violative = m.violative := by rw [h.rest]
theorem enabledIds : n.enabledIds = m.enabledIds := by rw [h.rest]; rfl
theorem uexpr : n.uexpr = m.uexpr := by rw [h.rest]
theorem uexprIds : n.uexprIds = m.uexprIds := by rw [h.rest]
theorem objValue : n.objValue = m.objValue := by rw [h.rest]
theorem userDefined : n.userDefinedMoves = m.userDefinedMoves := by rw [h.rest]
theorem mutableIds : n.mutableIds = m.mutableIds := by
  unfold MState.mutableIds
  rw [h.varIds]
  exact List.filter_congr fun v _ => by rw [h.fixed v]
theorem minObjective (σ) : Spec.minObjective n σ = Spec.minObjective m σ := by
  unfold Spec.minObjective; rw [h.objDefined, h.isMin, h.obj]
theorem objFlag (v) : n.objFlag v = m.objFlag v := by
  unfold MState.objFlag MState.sign; rw [h.objSens, h.isMin, h.lower, h.upper]
theorem current (hc : Current m) : Current n where
  con c hcm he := by rw [h.conIds] at hcm; rw [h.con] at he ⊢; rw [h.assignment]; exact hc.con c hcm he
  obj hd := by rw [h.objDefined] at hd; rw [h.obj, h.assignment, h.objValue]; exact hc.obj hd
  uexpr i hi he := by rw [h.uexprIds] at hi; rw [h.uexpr] at he ⊢; rw [h.assignment]; exact hc.uexpr i hi he
theorem wellFormed (hw : WellFormed m) : WellFormed n where
  conIds := by rw [h.conIds]; exact hw.conIds
  con c hc := by rw [h.con]; exact hw.con c (h.conIds ▸ hc)
  obj := by rw [h.obj]; exact hw.obj
  uexpr i hi := by rw [h.uexpr]; exact hw.uexpr i (h.uexprIds ▸ hi)

end FlagsOnly

namespace MState

theorem resetObjFlags_flags (m : MState) : FlagsOnly m m.resetObjFlags :=
  ⟨rfl, fun v => by unfold resetObjFlags; dsimp only; split <;> rfl⟩

theorem resetFeasFlags_flags (m : MState) : FlagsOnly m m.resetFeasFlags :=
  ⟨rfl, fun v => by unfold resetFeasFlags; dsimp only; split <;> rfl⟩

theorem resetFeasFlagsOf_flags (m : MState) (cs) : FlagsOnly m (m.resetFeasFlagsOf cs) :=
  ⟨rfl, fun v => by unfold resetFeasFlagsOf; dsimp only; split <;> rfl⟩

theorem updateObjFlags_flags (m : MState) (vs) : FlagsOnly m (m.updateObjFlags vs) :=
  ⟨rfl, fun v => by unfold updateObjFlags; dsimp only; split <;> rfl⟩

/-! ### The marks of violated constraints -/

/-- `w` is `v` with possibly more feasibility flags switched on. -/
def MoreFlags (v w : VarId → Var) : Prop :=
  ∀ i, w i = { v i with feasImprovable := (w i).feasImprovable } ∧ ((v i).feasImprovable = true → (w i).feasImprovable = true)

theorem MoreFlags.refl (v : VarId → Var) : MoreFlags v v := fun _ => ⟨rfl, id⟩

theorem MoreFlags.trans {a b c : VarId → Var} (h : MoreFlags a b) (g : MoreFlags b c) : MoreFlags a c := fun i =>
  ⟨by rw [(g i).1, (h i).1], fun hi => (g i).2 ((h i).2 hi)⟩

theorem feasFlagOf_congr {a b : VarId → Var} (h : MoreFlags a b) (x q : ℚ) (i) : feasFlagOf x q (b i) = feasFlagOf x q (a i) := by
  rw [(h i).1]; rfl

theorem mark_one (x q : ℚ) (i : VarId) (var : VarId → Var) :
    MoreFlags var (Function.update var i { var i with feasImprovable := (var i).feasImprovable || feasFlagOf x q (var i) }) := by
  intro j
  by_cases h : j = i
  · subst h; rw [Function.update_self]; exact ⟨rfl, fun h => by simp [h]⟩
  · rw [Function.update_of_ne h]; exact ⟨rfl, id⟩

theorem markCon_more (x : ℚ) (terms : List (VarId × ℚ)) (var : VarId → Var) : MoreFlags var (markCon x terms var) := by
  unfold markCon
  induction terms generalizing var with
  | nil => exact MoreFlags.refl _
  | cons t ts ih => exact (mark_one x t.2 t.1 var).trans (ih _)

theorem markCon_marks (x : ℚ) (terms : List (VarId × ℚ)) (var : VarId → Var) (t) (ht : t ∈ terms)
    (hf : feasFlagOf x t.2 (var t.1) = true) : (markCon x terms var t.1).feasImprovable = true := by
  unfold markCon
  induction terms generalizing var with
  | nil => simp at ht
  | cons s ts ih =>
    rw [List.foldl_cons]
    rcases List.mem_cons.1 ht with rfl | ht
    · have h1 := markCon_more x ts (Function.update var t.1
        { var t.1 with feasImprovable := (var t.1).feasImprovable || feasFlagOf x t.2 (var t.1) })
      refine (h1 t.1).2 ?_
      rw [Function.update_self]
      simp [hf]
    · exact ih _ ht (by rw [feasFlagOf_congr (mark_one x s.2 s.1 var)]; exact hf)

theorem updateFeasFlags_more (m : MState) (cs) : MoreFlags m.var (m.updateFeasFlags cs).var := by
  unfold updateFeasFlags
  dsimp only
  generalize m.var = var
  induction cs generalizing var with
  | nil => exact MoreFlags.refl _
  | cons c cs ih =>
    rw [List.foldl_cons]
    refine MoreFlags.trans ?_ (ih _)
    split
    · exact MoreFlags.refl _
    · split
      · exact MoreFlags.refl _
      · exact markCon_more _ _ _

theorem updateFeasFlags_flags (m : MState) (cs) : FlagsOnly m (m.updateFeasFlags cs) := by
  refine ⟨rfl, fun v => ?_⟩
  have h := (updateFeasFlags_more m cs v).1
  rw [h]

/-- Every mutable variable of a listed violated constraint that has room in the helpful direction is flagged. -/
theorem updateFeasFlags_marks (m : MState) (cs : List ConId) (c) (hc : c ∈ cs) (hv : (m.con c).isFeasible = false)
    (he : (m.con c).enabled = true) (t) (ht : t ∈ (m.con c).expr.terms)
    (hf : feasFlagOf (m.con c).value t.2 (m.var t.1) = true) : ((m.updateFeasFlags cs).var t.1).feasImprovable = true := by
  unfold updateFeasFlags
  dsimp only
  have more : ∀ (l : List ConId) (var : VarId → Var), MoreFlags var (l.foldl (fun var c =>
      if (m.con c).isFeasible then var else if !(m.con c).enabled then var
      else markCon (m.con c).value (m.con c).expr.terms var) var) := by
    intro l
    induction l with
    | nil => exact fun var => MoreFlags.refl _
    | cons d l ih =>
      intro var
      rw [List.foldl_cons]
      refine MoreFlags.trans ?_ (ih _)
      split
      · exact MoreFlags.refl _
      · split
        · exact MoreFlags.refl _
        · exact markCon_more _ _ _
  revert hf
  generalize m.var = var
  intro hf
  induction cs generalizing var with
  | nil => simp at hc
  | cons d cs ih =>
    rw [List.foldl_cons]
    rcases List.mem_cons.1 hc with rfl | hc
    · rw [if_neg (by simp [hv]), if_neg (by simp [he])]
      exact (more cs _ t.1).2 (markCon_marks _ _ _ t ht hf)
    · refine ih hc _ ?_
      have : MoreFlags var (if (m.con d).isFeasible then var else if !(m.con d).enabled then var
          else markCon (m.con d).value (m.con d).expr.terms var) := by
        split
        · exact MoreFlags.refl _
        · split
          · exact MoreFlags.refl _
          · exact markCon_more _ _ _
      rw [feasFlagOf_congr this]
      exact hf

/-! ### What holds during a search -/

/-- What the flags rely on: margin flags describe values and bounds, values respect the bounds, the stored
objective sensitivities are the coefficients, every variable that occurs is listed, and the list of violated
constraints is that of the current state. -/
structure Tidy (m : MState) : Prop where
  wf : WellFormed m
  current : Current m
  lower : ∀ v, (m.var v).fixed = false → ((m.var v).hasLowerMargin = true ↔ (m.var v).lb < (m.var v).value)
  upper : ∀ v, (m.var v).fixed = false → ((m.var v).hasUpperMargin = true ↔ (m.var v).value < (m.var v).ub)
  inside : ∀ v, (m.var v).fixed = false → (m.var v).lb ≤ (m.var v).value ∧ (m.var v).value ≤ (m.var v).ub
  sens : ∀ t ∈ m.obj.terms, m.objSens t.1 = t.2
  sensZero : ∀ v, v ∉ m.obj.terms.map Prod.fst → m.objSens v = 0
  objListed : ∀ t ∈ m.obj.terms, t.1 ∈ m.varIds
  conListed : ∀ c ∈ m.conIds, ∀ t ∈ (m.con c).expr.terms, t.1 ∈ m.varIds
  violative : m.violative = m.enabledIds.filter (fun c => !(m.con c).isFeasible)

theorem Tidy.of_flags {m n : MState} (h : FlagsOnly m n) (ht : Tidy m) : Tidy n where
  wf := h.wellFormed ht.wf
  current := h.current ht.current
  lower v hv := by rw [h.lower, h.lb, h.value]; exact ht.lower v (by rw [← h.fixed]; exact hv)
  upper v hv := by rw [h.upper, h.ub, h.value]; exact ht.upper v (by rw [← h.fixed]; exact hv)
  inside v hv := by rw [h.lb, h.ub, h.value]; exact ht.inside v (by rw [← h.fixed]; exact hv)
  sens t hm := by rw [h.objSens]; exact ht.sens t (h.obj ▸ hm)
  sensZero v hm := by rw [h.objSens]; exact ht.sensZero v (by rw [← h.obj]; exact hm)
  objListed t hm := by rw [h.varIds]; exact ht.objListed t (h.obj ▸ hm)
  conListed c hc t hm := by rw [h.varIds]; exact ht.conListed c (h.conIds ▸ hc) t (by rw [← h.con]; exact hm)
  violative := by rw [h.violative, h.enabledIds, h.con]; exact ht.violative

/-- Effect of the moves on one variable. -/
theorem fold_var (alts : List (ℕ × ℤ)) (hn : (alts.map Prod.fst).Nodup) (var : ℕ → Var) :
    (∀ v, v ∉ alts.map Prod.fst → alts.foldl (fun var a => Function.update var a.1 ((var a.1).setValueIfMutable a.2)) var v = var v) ∧
    ∀ a ∈ alts, alts.foldl (fun var a => Function.update var a.1 ((var a.1).setValueIfMutable a.2)) var a.1 =
      (var a.1).setValueIfMutable a.2 := by
  induction alts generalizing var with
  | nil => exact ⟨fun _ _ => rfl, fun a ha => by simp at ha⟩
  | cons b l ih =>
    simp only [List.map_cons, List.nodup_cons] at hn
    obtain ⟨h1, h2⟩ := ih hn.2 (Function.update var b.1 ((var b.1).setValueIfMutable b.2))
    refine ⟨fun v hv => ?_, fun a ha => ?_⟩
    · rw [List.foldl_cons, h1 v (fun h => hv (by simp [h])), Function.update_of_ne (fun h => hv (by simp [h]))]
    · rw [List.foldl_cons]
      rcases List.mem_cons.1 ha with rfl | ha
      · rw [h1 _ hn.1, Function.update_self]
      · rw [h2 a ha, Function.update_of_ne]
        intro he
        exact hn.1 (he ▸ List.mem_map_of_mem (f := Prod.fst) ha)

theorem updateMove_var (m : MState) (mv : Move) :
    (m.updateMove mv).var = mv.alterations.foldl (fun var a => Function.update var a.1 ((var a.1).setValueIfMutable a.2)) m.var := by
  obtain ⟨o, ov, s, h, -⟩ := updateMove_desc m mv
  rw [h]; rfl

theorem updateMove_static (m : MState) (mv : Move) : (m.updateMove mv).varIds = m.varIds ∧
    (m.updateMove mv).objSens = m.objSens := by
  obtain ⟨o, ov, s, h, -⟩ := updateMove_desc m mv
  rw [h]; exact ⟨rfl, rfl⟩

theorem updateFeasibility_violative (n : MState) :
    (n.updateFeasibility).violative = n.updateFeasibility.enabledIds.filter (fun c => !(n.updateFeasibility.con c).isFeasible) := rfl

/-- A move that sets distinct mutable variables to values inside their bounds. -/
structure Inside (m : MState) (mv : Move) : Prop where
  good : GoodMove m mv.alterations
  covers : m.userDefinedMoves = true ∨ Covers m mv.alterations mv.related
  bounds : ∀ a ∈ mv.alterations, (m.var a.1).lb ≤ a.2 ∧ a.2 ≤ (m.var a.1).ub

theorem updateMove_bounds (m : MState) (mv : Move) (hn : (mv.alterations.map Prod.fst).Nodup) (v) :
    ((m.updateMove mv).var v).lb = (m.var v).lb ∧ ((m.updateMove mv).var v).ub = (m.var v).ub := by
  rw [updateMove_var]
  obtain ⟨h1, h2⟩ := fold_var mv.alterations hn m.var
  by_cases hv : v ∈ mv.alterations.map Prod.fst
  · obtain ⟨a, ha, rfl⟩ := List.mem_map.1 hv
    rw [h2 a ha]
    unfold Var.setValueIfMutable
    split <;> exact ⟨rfl, rfl⟩
  · rw [h1 v hv]; exact ⟨rfl, rfl⟩

theorem Tidy.updateMove {m : MState} (ht : Tidy m) (mv : Move) (hi : Inside m mv) : Tidy (m.updateMove mv) := by
  have hsh := updateMove_shape m mv
  obtain ⟨hs1, hs2⟩ := updateMove_static m mv
  obtain ⟨h1, h2⟩ := fold_var mv.alterations hi.good.distinct m.var
  have hvar : ∀ v, (m.updateMove mv).var v = m.var v ∨
      ∃ a ∈ mv.alterations, a.1 = v ∧ (m.updateMove mv).var v = ({ m.var v with value := a.2 } : Var).updateMargin := by
    intro v
    rw [updateMove_var]
    by_cases hv : v ∈ mv.alterations.map Prod.fst
    · obtain ⟨a, ha, rfl⟩ := List.mem_map.1 hv
      right
      refine ⟨a, ha, rfl, ?_⟩
      rw [h2 a ha, Var.setValueIfMutable, if_neg (by simp [hi.good.mutable a ha])]
    · left; exact h1 v hv
  refine ⟨hsh.wellFormed ht.wf, updateMove_current m mv ht.wf ht.current hi.good hi.covers, ?_, ?_, ?_, ?_, ?_, ?_, ?_, ?_⟩
  · intro v hf
    rw [hsh.fixed] at hf
    rcases hvar v with h | ⟨a, ha, rfl, h⟩
    · rw [h]; exact ht.lower v hf
    · rw [h]; simp [Var.updateMargin]
  · intro v hf
    rw [hsh.fixed] at hf
    rcases hvar v with h | ⟨a, ha, rfl, h⟩
    · rw [h]; exact ht.upper v hf
    · rw [h]; simp [Var.updateMargin]
  · intro v hf
    rw [hsh.fixed] at hf
    rcases hvar v with h | ⟨a, ha, rfl, h⟩
    · rw [h]; exact ht.inside v hf
    · rw [h]; exact hi.bounds a ha
  · intro t hm; rw [hs2]; exact ht.sens t (hsh.objTerms ▸ hm)
  · intro v hm; rw [hs2]; exact ht.sensZero v (by rw [← hsh.objTerms]; exact hm)
  · intro t hm; rw [hs1]; exact ht.objListed t (hsh.objTerms ▸ hm)
  · intro c hc t hm; rw [hs1]; exact ht.conListed c (hsh.conIds ▸ hc) t (by rw [← hsh.conTerms]; exact hm)
  · obtain ⟨o, ov, s, h, -⟩ := updateMove_desc m mv
    rw [h]; rfl

end MState

/-! ### What the flags say about assignments -/

open MState

theorem exprValue_sub (e : Expr) (σ τ : ℕ → ℤ) :
    exprValue e τ - exprValue e σ = (e.terms.map (fun t => t.2 * ((τ t.1 : ℚ) - (σ t.1 : ℚ)))).sum := by
  unfold exprValue
  generalize e.terms = l
  induction l with
  | nil => simp
  | cons t l ih =>
    simp only [List.map_cons, List.sum_cons]
    linarith

theorem sum_terms_nonneg (l : List (ℕ × ℚ)) (f : ℕ × ℚ → ℚ) (h : ∀ t ∈ l, 0 ≤ f t) : 0 ≤ (l.map f).sum := by
  induction l with
  | nil => simp
  | cons t l ih =>
    rw [List.map_cons, List.sum_cons]
    have := h t (by simp)
    have := ih (fun s hs => h s (by simp [hs]))
    linarith

theorem sum_mul_left' (l : List (ℕ × ℚ)) (f : ℕ × ℚ → ℚ) (k : ℚ) : k * (l.map f).sum = (l.map (fun t => k * f t)).sum := by
  induction l with
  | nil => simp
  | cons t l ih => simp only [List.map_cons, List.sum_cons, mul_add, ih]

/-- Changing only variables whose computed flag is off, inside their bounds, does not improve the objective. -/
theorem objective_not_improved (m : MState) (ht : Tidy m) (τ : ℕ → ℤ)
    (hτ : ∀ v, τ v ≠ (m.var v).value → (m.var v).fixed = false ∧ (m.var v).lb ≤ τ v ∧ τ v ≤ (m.var v).ub ∧ m.objFlag v = false) :
    minObjective m (assignment m) ≤ minObjective m τ := by
  have key : 0 ≤ m.sign * (exprValue m.obj τ - exprValue m.obj (assignment m)) := by
    rw [exprValue_sub, sum_mul_left']
    refine sum_terms_nonneg _ _ fun t hm => ?_
    by_cases he : τ t.1 = (m.var t.1).value
    · rw [show assignment m t.1 = τ t.1 from he.symm]; simp
    · obtain ⟨h1, h2, h3, h4⟩ := hτ t.1 he
      have hl := ht.lower t.1 h1
      have hu := ht.upper t.1 h1
      unfold objFlag at h4
      rw [ht.sens t hm] at h4
      simp only [Bool.or_eq_false_iff, Bool.and_eq_false_iff, decide_eq_false_iff_not, not_lt] at h4
      show 0 ≤ m.sign * (t.2 * ((τ t.1 : ℚ) - ((m.var t.1).value : ℚ)))
      rcases lt_trichotomy (t.2 * m.sign) 0 with hc | hc | hc
      · have hn : (m.var t.1).hasUpperMargin = false := by
          rcases h4.2 with h | h
          · exact absurd hc (not_lt.2 h)
          · exact h
        have : (m.var t.1).ub ≤ (m.var t.1).value := by
          by_contra hx
          rw [hu.2 (by omega)] at hn
          exact absurd hn (by simp)
        have h5 : (τ t.1 : ℚ) ≤ (m.var t.1).value := by exact_mod_cast le_trans h3 this
        have : 0 ≤ (-(t.2 * m.sign)) * (((m.var t.1).value : ℚ) - τ t.1) :=
          mul_nonneg (by linarith) (by linarith)
        linarith
      · have : m.sign * (t.2 * ((τ t.1 : ℚ) - ((m.var t.1).value : ℚ))) = (t.2 * m.sign) * ((τ t.1 : ℚ) - ((m.var t.1).value : ℚ)) := by ring
        rw [this, hc]; simp
      · have hn : (m.var t.1).hasLowerMargin = false := by
          rcases h4.1 with h | h
          · exact absurd hc (not_lt.2 h)
          · exact h
        have : (m.var t.1).value ≤ (m.var t.1).lb := by
          by_contra hx
          rw [hl.2 (by omega)] at hn
          exact absurd hn (by simp)
        have h5 : ((m.var t.1).value : ℚ) ≤ τ t.1 := by exact_mod_cast le_trans this h2
        have : 0 ≤ (t.2 * m.sign) * ((τ t.1 : ℚ) - (m.var t.1).value) :=
          mul_nonneg (by linarith) (by linarith)
        linarith
  unfold minObjective
  unfold sign at key
  split
  · split
    · next h => rw [if_pos h] at key; linarith
    · next h => rw [if_neg h] at key; linarith
  · exact le_refl _

theorem gap_grows_pos (k : Cmp) (x y : ℚ) (hx : 0 < x) (hy : x ≤ y) (hv : 0 < k.gap x 0) : k.gap x 0 ≤ k.gap y 0 := by
  cases k
  · exact max_le_max (by linarith) (le_refl _)
  · show |x - 0| ≤ |y - 0|
    rw [abs_of_nonneg (by linarith), abs_of_nonneg (by linarith)]; linarith
  · have : Cmp.gap .ge x 0 = 0 := max_eq_right (by linarith)
    rw [this] at hv
    exact absurd hv (lt_irrefl _)

theorem gap_grows_neg (k : Cmp) (x y : ℚ) (hx : x ≤ 0) (hy : y ≤ x) (hv : 0 < k.gap x 0) : k.gap x 0 ≤ k.gap y 0 := by
  cases k
  · have : Cmp.gap .le x 0 = 0 := max_eq_right (by linarith)
    rw [this] at hv
    exact absurd hv (lt_irrefl _)
  · show |x - 0| ≤ |y - 0|
    rw [abs_of_nonpos (by linarith), abs_of_nonpos (by linarith)]; linarith
  · exact max_le_max (by linarith) (le_refl _)

/-- A violated constraint: its violation is not reduced by changing, inside the bounds, only variables that the
constraint does not mark. -/
theorem violation_not_reduced (m : MState) (ht : Tidy m) (c) (hc : c ∈ m.conIds) (he : (m.con c).enabled = true)
    (hv : (m.con c).isFeasible = false) (τ : ℕ → ℤ)
    (hτ : ∀ t ∈ (m.con c).expr.terms, τ t.1 ≠ (m.var t.1).value → (m.var t.1).fixed = false ∧ (m.var t.1).lb ≤ τ t.1 ∧
      τ t.1 ≤ (m.var t.1).ub ∧ feasFlagOf (m.con c).value t.2 (m.var t.1) = false) :
    violation (m.con c) (assignment m) ≤ violation (m.con c) τ := by
  have hcur := ht.current.con c hc he
  have hval := hcur.value
  have hviol : EPSILON ≤ violation (m.con c) (assignment m) := by
    unfold Con.isFeasible at hv
    rw [← hcur.violation]
    simpa using hv
  have heps : (0 : ℚ) < EPSILON := by decide +kernel
  have hsub := exprValue_sub (m.con c).expr (assignment m) τ
  rw [← hval] at hsub
  by_cases hx : (m.con c).value > 0
  · have : 0 ≤ exprValue (m.con c).expr τ - (m.con c).value := by
      rw [hsub]
      refine sum_terms_nonneg _ _ fun t hm => ?_
      by_cases hq : τ t.1 = (m.var t.1).value
      · rw [show assignment m t.1 = τ t.1 from hq.symm]; simp
      · obtain ⟨h1, h2, h3, h4⟩ := hτ t hm hq
        unfold feasFlagOf at h4
        rw [if_neg (by simp [h1]), if_pos hx] at h4
        show 0 ≤ t.2 * ((τ t.1 : ℚ) - ((m.var t.1).value : ℚ))
        split at h4
        · next ha =>
          have : (m.var t.1).value ≤ (m.var t.1).lb := by
            by_contra hy
            rw [(ht.lower t.1 h1).2 (by omega)] at h4
            exact absurd h4 (by simp)
          have h5 : ((m.var t.1).value : ℚ) ≤ τ t.1 := by exact_mod_cast le_trans this h2
          exact mul_nonneg ha.le (by linarith)
        · next ha =>
          have : (m.var t.1).ub ≤ (m.var t.1).value := by
            by_contra hy
            rw [(ht.upper t.1 h1).2 (by omega)] at h4
            exact absurd h4 (by simp)
          have h5 : (τ t.1 : ℚ) ≤ (m.var t.1).value := by exact_mod_cast le_trans h3 this
          exact mul_nonneg_of_nonpos_of_nonpos (not_lt.1 ha) (by linarith)
    unfold violation at hviol ⊢
    rw [← hval] at hviol ⊢
    exact gap_grows_pos _ _ _ hx (by linarith) (lt_of_lt_of_le heps hviol)
  · have : 0 ≤ (m.con c).value - exprValue (m.con c).expr τ := by
      have : (m.con c).value - exprValue (m.con c).expr τ =
          ((m.con c).expr.terms.map (fun t => -1 * (t.2 * ((τ t.1 : ℚ) - (assignment m t.1 : ℚ))))).sum := by
        rw [← sum_mul_left', ← hsub]; ring
      rw [this]
      refine sum_terms_nonneg _ _ fun t hm => ?_
      by_cases hq : τ t.1 = (m.var t.1).value
      · rw [show assignment m t.1 = τ t.1 from hq.symm]; simp
      · obtain ⟨h1, h2, h3, h4⟩ := hτ t hm hq
        unfold feasFlagOf at h4
        rw [if_neg (by simp [h1]), if_neg hx] at h4
        show 0 ≤ -1 * (t.2 * ((τ t.1 : ℚ) - ((m.var t.1).value : ℚ)))
        split at h4
        · next ha =>
          have : (m.var t.1).ub ≤ (m.var t.1).value := by
            by_contra hy
            rw [(ht.upper t.1 h1).2 (by omega)] at h4
            exact absurd h4 (by simp)
          have h5 : (τ t.1 : ℚ) ≤ (m.var t.1).value := by exact_mod_cast le_trans h3 this
          have := mul_nonneg ha.le (show 0 ≤ ((m.var t.1).value : ℚ) - τ t.1 by linarith)
          linarith
        · next ha =>
          have : (m.var t.1).value ≤ (m.var t.1).lb := by
            by_contra hy
            rw [(ht.lower t.1 h1).2 (by omega)] at h4
            exact absurd h4 (by simp)
          have h5 : ((m.var t.1).value : ℚ) ≤ τ t.1 := by exact_mod_cast le_trans this h2
          have := mul_nonneg (show 0 ≤ -t.2 by linarith [not_lt.1 ha]) (show 0 ≤ (τ t.1 : ℚ) - (m.var t.1).value by linarith)
          linarith
    unfold violation at hviol ⊢
    rw [← hval] at hviol ⊢
    exact gap_grows_neg _ _ _ (not_lt.1 hx) (by linarith) (lt_of_lt_of_le heps hviol)

end Printemps
