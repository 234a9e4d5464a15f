import Verif.Model.Offered
import Verif.Lemmas.Neighborhood
import Verif.Props.C32
import Verif.Props.C37
import Verif.Props.C55

/-! # Lemmas: every candidate of the neighbourhood is a legal move -/

namespace Printemps.Nbhd
open Moves Chain Spec Search
open ConType (Result isBinSel pairBinary pairUnit pairHalf pairEqual pairInequality trinomial setTypes flowTypes boundTypes knapsackTypes gf2Type general classify)
open C36 (NoFixed Inside)

variable {ν μ : Type} [LinearOrder ν] [LinearOrder μ]

/-! ## Which constraints are soft selections -/

theorem pairEqual_not_soft (var : ℕ → Var) (lt : ℕ → ℕ → Bool) (c : Con) (x : ℕ) (a : ℚ) (y : ℕ) (b : ℚ) :
    (pairEqual var lt c x a y b).1 ≠ .softSelection := by
  intro h
  have h1 : ∀ r, pairBinary var lt c.expr.const x a y b = some r → r.1 ≠ .softSelection := by
    intro r hr
    unfold pairBinary at hr
    repeat' split at hr
    all_goals first | (rw [Option.some.injEq] at hr; subst hr; simp) | exact absurd hr (by simp)
  have h2 : ∀ r, pairUnit lt c.expr.const x a y b = some r → r.1 ≠ .softSelection := by
    intro r hr
    unfold pairUnit at hr
    repeat' split at hr
    all_goals first | (rw [Option.some.injEq] at hr; subst hr; simp) | exact absurd hr (by simp)
  have h3 : ∀ r, pairHalf c.isInteger c.expr.const x a y b = some r → r.1 ≠ .softSelection := by
    intro r hr
    unfold pairHalf at hr
    repeat' split at hr
    all_goals first | (rw [Option.some.injEq] at hr; subst hr; simp) | exact absurd hr (by simp)
  unfold pairEqual at h
  cases e1 : pairBinary var lt c.expr.const x a y b with
  | some r => rw [e1] at h; exact h1 r e1 h
  | none =>
    rw [e1] at h
    dsimp only at h
    split at h
    · cases e2 : pairUnit lt c.expr.const x a y b with
      | some r => rw [e2] at h; exact h2 r e2 h
      | none =>
        rw [e2] at h
        dsimp only at h
        cases e3 : pairHalf c.isInteger c.expr.const x a y b with
        | some r => rw [e3] at h; exact h3 r e3 h
        | none => rw [e3] at h; exact absurd h (by simp)
    · exact absurd h (by simp)

theorem general_soft (var : ℕ → Var) (c : Con) (h : (general var c).1 = .softSelection) :
    flowTypes var c = some (general var c) := by
  have k1 : ∀ r, setTypes c = some r → r.1 ≠ .softSelection := by
    intro r hr
    unfold setTypes at hr
    repeat' split at hr
    all_goals first | (rw [Option.some.injEq] at hr; subst hr; simp) | exact absurd hr (by simp)
  have k2 : ∀ r, boundTypes var c = some r → r.1 ≠ .softSelection := by
    intro r hr
    unfold boundTypes at hr
    simp only [] at hr
    repeat' split at hr
    all_goals first | (rw [Option.some.injEq] at hr; subst hr; simp) | exact absurd hr (by simp)
  have k3 : ∀ r, knapsackTypes var c = some r → r.1 ≠ .softSelection := by
    intro r hr
    unfold knapsackTypes at hr
    simp only [] at hr
    repeat' split at hr
    all_goals first | (rw [Option.some.injEq] at hr; subst hr; simp) | exact absurd hr (by simp)
  have k4 : ∀ r, gf2Type var c = some r → r.1 ≠ .softSelection := by
    intro r hr
    unfold gf2Type at hr
    simp only [] at hr
    split at hr
    · split at hr
      · obtain ⟨_, hr⟩ := ConType.ite_none_some hr
        subst hr; simp
      · exact absurd hr (by simp)
    · exact absurd hr (by simp)
  unfold general at h ⊢
  cases h1 : setTypes c with
  | some r => rw [h1] at h; exact absurd h (k1 r h1)
  | none =>
    rw [h1] at h
    cases h2 : flowTypes var c with
    | some r => rfl
    | none =>
      rw [h2] at h
      cases h3 : boundTypes var c with
      | some r => rw [h3] at h; exact absurd h (k2 r h3)
      | none =>
        rw [h3] at h
        cases h4 : knapsackTypes var c with
        | some r => rw [h4] at h; exact absurd h (k3 r h4)
        | none =>
          rw [h4] at h
          cases h5 : gf2Type var c with
          | some r => rw [h5] at h; exact absurd h (k4 r h5)
          | none => rw [h5] at h; exact absurd h (by simp)

theorem classify_soft (var : ℕ → Var) (lt : ℕ → ℕ → Bool) (c : Con) (h : (classify var lt c).1 = .softSelection) :
    flowTypes var c = some (classify var lt c) := by
  have hg := general_soft var c
  unfold classify at h ⊢
  split at h
  · exact absurd h (by simp)
  · rename_i t u ht
    split at h
    · split at h
      · exact absurd h (pairEqual_not_soft _ _ _ _ _ _ _)
      · unfold pairInequality at h
        split at h <;> exact absurd h (by simp)
    · rename_i hf
      rw [if_neg hf]; exact hg h
  · rename_i t u w ht
    split at h
    · rename_i hf
      rw [if_pos hf]
      cases h1 : trinomial var [t, u, w] with
      | some r =>
        rw [h1, Option.getD_some, trinomial_type var _ r h1] at h
        exact absurd h (by simp)
      | none => rw [h1, Option.getD_none] at h; rw [Option.getD_none]; exact hg h
    · rename_i hf
      rw [if_neg hf]; exact hg h
  · exact hg h

/-- A soft selection has only 0/1 variables, one of which is its key. -/
theorem flow_soft (var : ℕ → Var) (c : Con) (k : Option ℕ) (h : flowTypes var c = some (.softSelection, k)) :
    (∀ t ∈ c.expr.terms, isBinSel (var t.1) = true) ∧ ∃ x ∈ c.expr.vars, k = some x := by
  unfold flowTypes at h
  simp only [] at h
  have hm : ∀ (p : ℕ × ℚ → Bool) (x : ℕ × ℚ) (l), c.expr.terms.filter p = x :: l → x.1 ∈ c.expr.vars := by
    intro p x l e
    have : x ∈ c.expr.terms.filter p := by rw [e]; simp
    exact List.mem_map.2 ⟨x, (List.mem_filter.1 this).1, rfl⟩
  split at h
  · split at h
    · rename_i hall
      rw [List.all_eq_true] at hall
      refine ⟨hall, ?_⟩
      split at h
      · rename_i x y l e1 e2
        split at h
        · obtain ⟨-, rfl⟩ := Prod.mk.inj (Option.some.inj h)
          exact ⟨x.1, hm _ _ _ e1, rfl⟩
        · split at h
          · rename_i z e3
            split at h
            · obtain ⟨-, rfl⟩ := Prod.mk.inj (Option.some.inj h)
              exact ⟨z.1, hm _ _ _ e3, rfl⟩
            · exact absurd h (by simp)
          · exact absurd h (by simp)
      · rename_i x l y e1 e2 _
        split at h
        · obtain ⟨-, rfl⟩ := Prod.mk.inj (Option.some.inj h)
          exact ⟨_, hm _ _ _ (by assumption), rfl⟩
        · exact absurd h (by simp)
      · exact absurd h (by simp)
    · split at h
      · exact absurd h (by simp)
      · exact absurd h (by simp)
  · exact absurd h (by simp)

/-! ## The variables of the special moves -/

theorem binomial_pair (c : Con) (hw : (c.expr.terms.map Prod.fst).Nodup) (p : Binomial) (h : binomial c = some p) :
    p.first ≠ p.second ∧ p.first ∈ c.expr.vars ∧ p.second ∈ c.expr.vars := by
  unfold binomial at h
  unfold Expr.vars
  split at h
  · rename_i t u e
    rw [e] at hw ⊢
    have hne : t.1 ≠ u.1 := by simpa using hw
    split at h <;> (obtain rfl := Option.some.inj h)
    · exact ⟨hne.symm, by simp, by simp⟩
    · exact ⟨hne, by simp, by simp⟩
  · exact absurd h (by simp)

/-- A move made from a constraint alters different variables of the constraint. -/
theorem ofClass_vars (val : ℕ → ℤ) (key : Option ℕ) (c : Con) (hw : (c.expr.terms.map Prod.fst).Nodup)
    (t : ConType) (l : List (List (ℕ × ℤ))) (h : ofClass val key c t = some l)
    (hk : t = .softSelection → ∀ k, key = some k → k ∈ c.expr.vars)
    (alts : List (ℕ × ℤ)) (ha : alts ∈ l) :
    (alts.map Prod.fst).Nodup ∧ (∀ a ∈ alts, a.1 ∈ c.expr.vars) ∧
    (t = .softSelection → ∀ a ∈ alts, a.2 = 0 ∨ a.2 = 1) := by
  have two : ∀ (p : Binomial), binomial c = some p → alts.map Prod.fst = [p.first, p.second] →
      (alts.map Prod.fst).Nodup ∧ ∀ a ∈ alts, a.1 ∈ c.expr.vars := by
    intro p hp e
    obtain ⟨h1, h2, h3⟩ := binomial_pair c hw p hp
    refine ⟨by rw [e]; simpa using h1, fun a haa => ?_⟩
    have : a.1 ∈ alts.map Prod.fst := List.mem_map.2 ⟨a, haa, rfl⟩
    rw [e] at this
    simp only [List.mem_cons, List.not_mem_nil, or_false] at this
    rcases this with e | e <;> rw [e] <;> assumption
  unfold ofClass at h
  cases t <;> dsimp only at h
  case constantRatio =>
    obtain ⟨p, hp, rfl⟩ := Option.map_eq_some_iff.1 h
    obtain ⟨h1, h2, h3⟩ := binomial_pair c hw p hp
    unfold constantRatio at ha
    have : alts.map Prod.fst = [p.first, p.second] ∨ alts.map Prod.fst = [p.second, p.first] := by
      by_cases hkey : key = some p.first
      · simp only [hkey, if_true, List.mem_cons, List.not_mem_nil, or_false] at ha
        rcases ha with rfl | rfl <;> exact Or.inr rfl
      · simp only [if_neg hkey, List.mem_cons, List.not_mem_nil, or_false] at ha
        rcases ha with rfl | rfl <;> exact Or.inl rfl
    rcases this with e | e
    · exact ⟨(two p hp e).1, (two p hp e).2, fun hh => absurd hh (by simp)⟩
    · refine ⟨by rw [e]; simpa using h1.symm, fun a haa => ?_, fun hh => absurd hh (by simp)⟩
      have : a.1 ∈ alts.map Prod.fst := List.mem_map.2 ⟨a, haa, rfl⟩
      rw [e] at this
      simp only [List.mem_cons, List.not_mem_nil, or_false] at this
      rcases this with e | e <;> rw [e] <;> assumption
  case trinomialExclusiveNor =>
    unfold trinomialExclusiveNor at h
    unfold Expr.vars
    split at h
    · rename_i t u w e
      obtain rfl := Option.some.inj h
      rw [e] at hw ⊢
      simp only [List.map_cons, List.map_nil] at hw
      simp only [List.mem_cons, List.not_mem_nil, or_false] at ha
      refine ⟨by rcases ha with rfl | rfl <;> exact hw, fun a haa => ?_, fun hh => absurd hh (by simp)⟩
      rcases ha with rfl | rfl <;>
      · simp only [List.mem_cons, List.not_mem_nil, or_false] at haa
        rcases haa with rfl | rfl | rfl <;> simp
    · exact absurd h (by simp)
  case softSelection =>
    obtain ⟨k, rfl, rfl⟩ := Option.map_eq_some_iff.1 h
    have hkv := hk rfl k rfl
    unfold softSelection at ha
    obtain ⟨v, hv, ha⟩ := List.mem_flatMap.1 ha
    rw [List.mem_filter] at hv
    have hne : v ≠ k := by simpa using hv.2
    simp only [List.mem_cons, List.not_mem_nil, or_false] at ha
    rcases ha with rfl | rfl
    · exact ⟨by simpa using hne, by simp [hv.1, hkv], fun _ => by simp⟩
    · exact ⟨by simpa using hne, by simp [hv.1, hkv], fun _ => by simp⟩
  all_goals first
    | (obtain rfl := Option.some.inj h; exact absurd ha (by simp))
    | (obtain ⟨p, hp, rfl⟩ := Option.map_eq_some_iff.1 h
       simp only [exclusiveOr, exclusiveNor, invertedIntegers, balancedIntegers, constantSum, constantDifference,
         aggregation, precedence, variableBound, List.mem_cons, List.not_mem_nil, or_false] at ha
       have e : alts.map Prod.fst = [p.first, p.second] := by
         first
         | (rcases ha with rfl | rfl <;> rfl)
         | (rcases ha with rfl | rfl | rfl | rfl <;> rfl)
       exact ⟨(two p hp e).1, (two p hp e).2, fun hh => absurd hh (by simp)⟩)

end Printemps.Nbhd
