import Verif.Lemmas.Setup
import Verif.Lemmas.Dependent
import Verif.Model.Online

/-! # Lemmas about the bounding of variables during the search -/

namespace Printemps.Online
open Spec Presolve

/-- A satisfying value survives the singleton branch of an inequality, and the new bounds lie inside the old ones. -/
theorem singleton_tightened (c : Con) (var : ℕ → Var) (v : ℕ) (a : ℚ) (hf : (var v).fixed = false) (ha : a ≠ 0)
    (hne : c.sense ≠ .equal) (x : ℤ) (hx : Admits (var v) x)
    (hh : (cmpOf c.sense).holds (a * x + (c.expr.fixedTermValue (boxes var) + c.expr.const)) 0) :
    ∃ w, Presolve.singleton c var v a = .ok (Function.update var v w, true) ∧ Tightened (var v) w x := by
  obtain ⟨hl, hu⟩ := hx.2 hf
  have here : Tightened (var v) (var v) x := ⟨rfl, le_rfl, le_rfl, hl, hu⟩
  unfold Presolve.singleton
  cases hs : c.sense <;> rw [hs] at hh <;> simp only [] <;> simp only [cmpOf, Cmp.holds] at hh
  · by_cases hp : a > 0
    · rw [if_pos hp]
      have hq := (le_iff_floor a _ hp x).1 hh
      obtain ⟨w, h1, h2, h3⟩ := reduceUpper_spec (var v) (var v) _ x hl hq
      refine ⟨w, by rw [h1]; rfl, ?_⟩
      rcases h3 with ⟨_, _, q, r⟩ | ⟨_, rfl⟩
      · exact ⟨h2, by omega, by omega, by omega, by omega⟩
      · exact here
    · have hn : a < 0 := lt_of_le_of_ne (not_lt.1 hp) ha
      rw [if_neg hp, if_pos hn]
      have hq := (le_iff_ceil_neg a _ hn x).1 hh
      obtain ⟨w, h1, h2, h3⟩ := raiseLower_spec (var v) (var v) _ x hu hq
      refine ⟨w, by rw [h1]; rfl, ?_⟩
      rcases h3 with ⟨_, _, q, r⟩ | ⟨_, rfl⟩
      · exact ⟨h2, by omega, by omega, by omega, by omega⟩
      · exact here
  · exact absurd hs hne
  · by_cases hn : a < 0
    · rw [if_pos hn]
      have hq := (ge_iff_floor_neg a _ hn x).1 hh
      obtain ⟨w, h1, h2, h3⟩ := reduceUpper_spec (var v) (var v) _ x hl hq
      refine ⟨w, by rw [h1]; rfl, ?_⟩
      rcases h3 with ⟨_, _, q, r⟩ | ⟨_, rfl⟩
      · exact ⟨h2, by omega, by omega, by omega, by omega⟩
      · exact here
    · have hp : a > 0 := lt_of_le_of_ne (not_lt.1 hn) (Ne.symm ha)
      rw [if_neg hn, if_pos hp]
      have hq := (ge_iff_ceil a _ hp x).1 hh
      obtain ⟨w, h1, h2, h3⟩ := raiseLower_spec (var v) (var v) _ x hu hq
      refine ⟨w, by rw [h1]; rfl, ?_⟩
      rcases h3 with ⟨_, _, q, r⟩ | ⟨_, rfl⟩
      · exact ⟨h2, by omega, by omega, by omega, by omega⟩
      · exact here

/-- Tightening by an inequality shrinks the bounds around every assignment that satisfies it. -/
theorem tightenConstraint_shrunk (c : Con) (hc : GoodCon c) (var : ℕ → Var) (hi : FixedInt c var)
    (hne : c.sense ≠ .equal) (σ : ℕ → ℤ) (hb : InBounds var σ) (hh : Holds c σ) :
    ∃ var' d, tightenConstraint c var = .ok (var', d) ∧ Shrunk var var' σ := by
  rcases tightenConstraint_cases c var with ⟨_, e⟩ | ⟨_, v, a, hm, e⟩ | ⟨_, _, e⟩
  · exact ⟨var, true, e, fun _ => Or.inl rfl⟩
  · obtain ⟨hmem, hf⟩ := mutable_singleton hm
    unfold Holds at hh
    rw [exprValue_singleton c.expr var σ hb hi v a hm] at hh
    obtain ⟨w, h1, h2⟩ := singleton_tightened c var v a hf (hc.2 _ hmem) hne (σ v) (hb v) hh
    refine ⟨_, true, e.trans h1, fun u => ?_⟩
    by_cases hu : u = v
    · subst hu
      rw [Function.update_self]
      exact Or.inr ⟨hf, h2⟩
    · rw [Function.update_of_ne hu]
      exact Or.inl rfl
  · obtain ⟨var', h1, h2⟩ := tightenGeneral_spec c hc.1 hc.2 var σ hb hh
    exact ⟨var', false, e.trans h1, h2⟩

theorem objectiveCon_value (m : MState) (z : ℚ) (p : Bool) (σ : ℕ → ℤ) :
    exprValue (objectiveCon m z p).expr σ = exprValue m.obj σ - z := by
  rw [exprValue_eq, exprValue_eq]
  show (m.obj.subValue z).evaluate σ = _
  exact Expr.evaluate_subValue m.obj z σ

theorem objectiveCon_sense (m : MState) (z : ℚ) (p : Bool) :
    (objectiveCon m z p).sense = if m.isMin && p then .less else .greater := rfl

/-- What is at least as good as the value satisfies the constraint, when minimising or when the value is not
positive. -/
theorem objectiveCon_holds (m : MState) (z : ℚ) (hs : m.isMin = true ∨ z ≤ 0)
    (hd : m.objDefined = false → m.obj.terms = [] ∧ m.obj.const = 0) (σ : ℕ → ℤ) (h : minObjective m σ ≤ z) :
    Holds (objectiveCon m z true) σ := by
  have hm : m.isMin = true → exprValue m.obj σ ≤ z := by
    intro hi
    unfold minObjective at h
    by_cases ho : m.objDefined = true
    · rw [if_pos ho, if_pos hi] at h; exact h
    · rw [if_neg ho] at h
      obtain ⟨h1, h2⟩ := hd (by simpa using ho)
      have : exprValue m.obj σ = 0 := by unfold exprValue; rw [h1, h2]; simp
      rw [this]; exact h
  have hx : m.isMin = false → z ≤ 0 → z ≤ exprValue m.obj σ := by
    intro hi hz
    unfold minObjective at h
    by_cases ho : m.objDefined = true
    · rw [if_pos ho, if_neg (by simp [hi])] at h; linarith
    · obtain ⟨h1, h2⟩ := hd (by simpa using ho)
      have : exprValue m.obj σ = 0 := by unfold exprValue; rw [h1, h2]; simp
      rw [this]; exact hz
  unfold Holds
  rw [objectiveCon_value, objectiveCon_sense]
  by_cases hi : m.isMin = true
  · rw [hi]
    show exprValue m.obj σ - z ≤ 0
    linarith [hm hi]
  · have hi' : m.isMin = false := by simpa using hi
    rw [hi']
    show exprValue m.obj σ - z ≥ 0
    linarith [hx hi' (hs.resolve_left hi)]

/-- The bounding as a whole. -/
theorem updateBounds_spec (m : MState) (z : ℚ) (hs : m.isMin = true ∨ z ≤ 0)
    (hd : m.objDefined = false → m.obj.terms = [] ∧ m.obj.const = 0)
    (hw : (m.obj.terms.map Prod.fst).Nodup) (hz : ∀ t ∈ m.obj.terms, t.2 ≠ 0)
    (hi : ∀ t ∈ m.obj.terms, (m.var t.1).fixed = true → ∃ k : ℤ, t.2 * ((m.var t.1).value : ℚ) = k)
    (σ : ℕ → ℤ) (hb : InBounds m.var σ) (h : minObjective m σ ≤ z) :
    ∃ var', updateBounds z true m = .ok { m with var := var' } ∧
      (∀ τ, InBounds m.var τ → minObjective m τ ≤ z → InBounds var' τ) ∧
      (∀ τ, InBounds var' τ → InBounds m.var τ) := by
  have hterms : (objectiveCon m z true).expr.terms = m.obj.terms := rfl
  have hg : GoodCon (objectiveCon m z true) := ⟨hw, by rw [hterms]; exact hz⟩
  have hfi : FixedInt (objectiveCon m z true) m.var := by unfold FixedInt; rw [hterms]; exact hi
  have hne : (objectiveCon m z true).sense ≠ .equal := by
    rw [objectiveCon_sense]; split <;> simp
  have key : ∀ τ, InBounds m.var τ → minObjective m τ ≤ z →
      ∃ var' d, tightenConstraint (objectiveCon m z true) m.var = .ok (var', d) ∧ Shrunk m.var var' τ :=
    fun τ h1 h2 => tightenConstraint_shrunk _ hg m.var hfi hne τ h1 (objectiveCon_holds m z hs hd τ h2)
  obtain ⟨var', d, h1, h2⟩ := key σ hb h
  have all : ∀ τ, InBounds m.var τ → minObjective m τ ≤ z → InBounds var' τ := by
    intro τ t1 t2
    obtain ⟨w, e, k1, k2⟩ := key τ t1 t2
    rw [h1] at k1
    cases k1
    exact k2.inBounds t1
  unfold updateBounds
  rw [h1]
  show ∃ v, (if boundsChanged (objectiveCon m z true) m.var var' then _ else _) = _ ∧ _
  by_cases hc : boundsChanged (objectiveCon m z true) m.var var' = true
  · refine ⟨(fixImplicitAll m.varIds var').1, if_pos hc, fun τ t1 t2 => ?_, fun τ t1 => ?_⟩
    · exact (fixImplicitAll_inBounds m.varIds var' τ).1 (all τ t1 t2)
    · exact h2.back τ ((fixImplicitAll_inBounds m.varIds var' τ).2 t1)
  · exact ⟨var', if_neg hc, all, fun τ t1 => h2.back τ t1⟩

end Printemps.Online
