import Verif.Model.Setup
import Verif.Lemmas.ConstraintType
import Verif.Lemmas.Dependent

/-! Helper lemmas: the key variable chosen by the classification has coefficient 1 or -1 in the constraints the
extraction of dependent variables looks at. -/

namespace Printemps.Setup
open Spec Presolve
open ConType (Result pairBinary pairUnit pairHalf pairEqual pairInequality trinomial setTypes flowTypes boundTypes
  knapsackTypes gf2Type general classify smaller)

/-- The types examined by the extraction of dependent variables. -/
def defining : ConType → Bool
  | .exclusiveOr | .exclusiveNor | .invertedIntegers | .balancedIntegers | .constantSum | .constantDifference
  | .constantRatio | .intermediate => true
  | _ => false

/-- What the classification guarantees about the key variable of such a constraint. -/
def UnitKey (var : ℕ → Var) (c : Con) (r : Result) : Prop :=
  defining r.1 = true → c.sense = .equal ∧ ∃ v a, r.2 = some v ∧ (v, a) ∈ c.expr.terms ∧ (a = 1 ∨ a = -1) ∧
    (var v).fixed = false

theorem smaller_unit (var : ℕ → Var) (lt : ℕ → ℕ → Bool) (c : Con) (hs : c.sense = .equal) (t u : ℕ × ℚ)
    (ht : c.expr.terms = [t, u]) (h1 : (var t.1).fixed = false) (h2 : (var u.1).fixed = false)
    (ha : t.2 = 1 ∨ t.2 = -1) (hb : u.2 = 1 ∨ u.2 = -1) (k : ConType) :
    UnitKey var c (k, some (smaller lt t.1 u.1)) := by
  intro _
  refine ⟨hs, ?_⟩
  unfold smaller
  split
  · exact ⟨t.1, t.2, rfl, by rw [ht]; simp, ha, h1⟩
  · exact ⟨u.1, u.2, rfl, by rw [ht]; simp, hb, h2⟩

theorem abs_unit {a : ℚ} (h : |a| = 1) : a = 1 ∨ a = -1 := by
  rcases abs_choice a with e | e
  · left; rw [← e]; exact h
  · right; rw [e] at h; linarith

theorem pairEqual_unit (var : ℕ → Var) (lt : ℕ → ℕ → Bool) (c : Con) (hs : c.sense = .equal) (t u : ℕ × ℚ)
    (ht : c.expr.terms = [t, u]) (h1 : (var t.1).fixed = false) (h2 : (var u.1).fixed = false) :
    UnitKey var c (pairEqual var lt c t.1 t.2 u.1 u.2) := by
  have hu := smaller_unit var lt c hs t u ht h1 h2
  unfold pairEqual
  split
  · rename_i r h
    unfold pairBinary at h
    repeat' split at h
    all_goals first
      | (cases h; done)
      | (rename_i e; rw [Option.some.injEq] at h; subst h
         exact hu (by rw [e.1]; simp) (by rw [e.2.1]; simp) _)
  · split
    · split
      · rename_i r h
        unfold pairUnit at h
        repeat' split at h
        all_goals first
          | (cases h; done)
          | (rename_i e; rw [Option.some.injEq] at h; subst h
             exact hu (by rw [e.1]; simp) (by rw [e.2.1]; simp) _)
      · split
        · rename_i r h
          unfold pairHalf at h
          split at h
          · rename_i e; rw [Option.some.injEq] at h; subst h
            exact fun _ => ⟨hs, t.1, t.2, rfl, by rw [ht]; simp, abs_unit e.1, h1⟩
          split at h
          · rename_i e; rw [Option.some.injEq] at h; subst h
            exact fun _ => ⟨hs, u.1, u.2, rfl, by rw [ht]; simp, abs_unit e.2.1, h2⟩
          split at h
          · rename_i e; rw [Option.some.injEq] at h; subst h
            exact fun _ => ⟨hs, t.1, t.2, rfl, by rw [ht]; simp, abs_unit e.1, h1⟩
          split at h
          · rename_i e; rw [Option.some.injEq] at h; subst h
            exact fun _ => ⟨hs, u.1, u.2, rfl, by rw [ht]; simp, abs_unit e.2.1, h2⟩
          · exact absurd h (by simp)
        · intro h; exact absurd h (by simp [defining])
    · intro h; exact absurd h (by simp [defining])

theorem boundTypes_unit (var : ℕ → Var) (c : Con) (r : Result) (hr : boundTypes var c = some r) :
    UnitKey var c r := by
  have key : ∀ (x : ℚ) (l : List (ℕ × ℚ)), (x = 1 ∨ x = -1) →
      l = (c.expr.terms.filter (fun t => ConType.isInt (var t.1) && !(var t.1).fixed)).filter (fun t => t.2 = x) →
      l.length = 1 → c.sense = .equal → UnitKey var c (.intermediate, l.head?.map Prod.fst) := by
    intro x l hx hl hlen hs _
    obtain ⟨t, rfl⟩ := List.length_eq_one_iff.1 hlen
    have hm : t ∈ (c.expr.terms.filter (fun t => ConType.isInt (var t.1) && !(var t.1).fixed)).filter
        (fun t => t.2 = x) := by rw [← hl]; simp
    obtain ⟨m1, m2⟩ := List.mem_filter.1 hm
    obtain ⟨m3, m4⟩ := List.mem_filter.1 m1
    simp only [decide_eq_true_eq] at m2
    refine ⟨hs, t.1, t.2, rfl, m3, by rw [m2]; exact hx, ?_⟩
    simp only [Bool.and_eq_true, Bool.not_eq_true'] at m4
    exact m4.2
  unfold boundTypes at hr
  simp only [] at hr
  repeat' split at hr
  all_goals first
    | (cases hr; done)
    | (rename_i e; rw [Option.some.injEq] at hr; subst hr; exact key (-1) _ (Or.inr rfl) rfl e.2.1 e.1)
    | (rename_i e; rw [Option.some.injEq] at hr; subst hr; exact key 1 _ (Or.inl rfl) rfl e.2.1 e.1)
    | (rw [Option.some.injEq] at hr; subst hr; intro h; exact absurd h (by simp [defining]))

theorem general_unit (var : ℕ → Var) (c : Con) : UnitKey var c (general var c) := by
  have k1 : ∀ r, setTypes c = some r → UnitKey var c r := by
    intro r hr
    unfold setTypes at hr
    repeat' split at hr
    all_goals first
      | (rw [Option.some.injEq] at hr; subst hr; intro h; exact absurd h (by simp [defining]))
      | exact absurd hr (by simp)
  have k2 : ∀ r, flowTypes var c = some r → UnitKey var c r := by
    intro r hr
    unfold flowTypes at hr
    simp only [] at hr
    repeat' split at hr
    all_goals first
      | (rw [Option.some.injEq] at hr; subst hr; intro h; exact absurd h (by simp [defining]))
      | exact absurd hr (by simp)
  have k3 : ∀ r, knapsackTypes var c = some r → UnitKey var c r := by
    intro r hr
    unfold knapsackTypes at hr
    simp only [] at hr
    repeat' split at hr
    all_goals first
      | (rw [Option.some.injEq] at hr; subst hr; intro h; exact absurd h (by simp [defining]))
      | exact absurd hr (by simp)
  have k4 : ∀ r, gf2Type var c = some r → UnitKey var c r := by
    intro r hr
    unfold gf2Type at hr
    simp only [] at hr
    split at hr
    · split at hr
      · obtain ⟨_, hr⟩ := ConType.ite_none_some hr
        subst hr; intro h; exact absurd h (by simp [defining])
      · exact absurd hr (by simp)
    · exact absurd hr (by simp)
  unfold general
  cases h1 : setTypes c with
  | some r => exact k1 r h1
  | none =>
    cases h2 : flowTypes var c with
    | some r => exact k2 r h2
    | none =>
      cases h3 : boundTypes var c with
      | some r => exact boundTypes_unit var c r h3
      | none =>
        cases h4 : knapsackTypes var c with
        | some r => exact k3 r h4
        | none =>
          cases h5 : gf2Type var c with
          | some r => exact k4 r h5
          | none => intro h; exact absurd h (by simp [defining])

/-- The key variable of a constraint the extraction looks at has coefficient 1 or -1 and is not fixed, and the
constraint is an equality. -/
theorem classify_unit (var : ℕ → Var) (lt : ℕ → ℕ → Bool) (c : Con) : UnitKey var c (classify var lt c) := by
  have hg := general_unit var c
  unfold classify
  split
  · intro h; exact absurd h (by simp [defining])
  · rename_i t u ht
    split
    · rename_i hf
      split
      · rename_i hs; exact pairEqual_unit var lt c hs t u ht hf.1 hf.2
      · unfold pairInequality; split <;> (intro h; exact absurd h (by simp [defining]))
    · exact hg
  · rename_i t u w ht
    split
    · cases h1 : trinomial var [t, u, w] with
      | some r =>
        unfold trinomial at h1
        dsimp only at h1
        repeat' split at h1
        all_goals first
          | (cases h1; done)
          | (rw [Option.some.injEq] at h1; subst h1; intro h; exact absurd h (by simp [defining]))
      | none => exact hg
    · exact hg
  · exact hg

/-- The candidates are defining constraints. -/
theorem mem_candidates (o : Options) (lt : ℕ → ℕ → Bool) (m : MState) (c : ℕ)
    (h : c ∈ dependentCandidates o lt m) : c ∈ m.conIds ∧ defining (classify m.var lt (m.con c)).1 = true := by
  have key : ∀ k, defining k = true → c ∈ ofType lt m k →
      c ∈ m.conIds ∧ defining (classify m.var lt (m.con c)).1 = true := by
    intro k hk hc
    obtain ⟨h1, h2⟩ := List.mem_filter.1 hc
    simp only [decide_eq_true_eq] at h2
    exact ⟨h1, by rw [h2]; exact hk⟩
  unfold dependentCandidates at h
  simp only [List.mem_append] at h
  rcases h with ((((((h | h) | h) | h) | h) | h) | h) | h
  all_goals split at h
  all_goals first
    | exact key _ rfl (List.mem_filter.1 h).1
    | exact key _ rfl h
    | exact absurd h List.not_mem_nil

theorem lookup_of_mem (ts : List (ℕ × ℚ)) (hw : (ts.map Prod.fst).Nodup) (v : ℕ) (a : ℚ) (h : (v, a) ∈ ts) :
    Expr.lookup ts v = a := by
  induction ts with
  | nil => simp at h
  | cons t ts ih =>
    obtain ⟨w, d⟩ := t
    rw [List.map_cons, List.nodup_cons] at hw
    unfold Expr.lookup
    rcases List.mem_cons.1 h with e | h
    · cases e; simp
    · have : w ≠ v := by
        rintro rfl
        exact hw.1 (List.mem_map.2 ⟨_, h, rfl⟩)
      rw [if_neg this]; exact ih hw.2 h

/-- The key variable of a candidate. -/
theorem candidate_key (o : Options) (lt : ℕ → ℕ → Bool) (m : MState) (hw : ∀ c ∈ m.conIds, (m.con c).expr.WF)
    (c : ℕ) (h : c ∈ dependentCandidates o lt m) :
    (m.con c).sense = .equal ∧ keyOf lt m c ∈ (m.con c).expr.vars ∧
      (Expr.lookup (m.con c).expr.terms (keyOf lt m c) = 1 ∨ Expr.lookup (m.con c).expr.terms (keyOf lt m c) = -1) ∧
      (m.var (keyOf lt m c)).fixed = false := by
  obtain ⟨h1, h2⟩ := mem_candidates o lt m c h
  obtain ⟨hs, v, a, e, hm, ha, hf⟩ := classify_unit m.var lt (m.con c) h2
  have hk : keyOf lt m c = v := by unfold keyOf; rw [e]; rfl
  rw [hk]
  refine ⟨hs, List.mem_map.2 ⟨_, hm, rfl⟩, ?_, hf⟩
  rw [lookup_of_mem _ (hw c h1) v a hm]
  exact ha

end Printemps.Setup
