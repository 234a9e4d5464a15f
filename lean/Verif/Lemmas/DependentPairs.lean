import Verif.Lemmas.SetupDependents

/-! Helper lemmas: definitions taken from equalities of two variables with coefficients 1 and -1 never form a cycle. -/

namespace Printemps.Setup
open Spec Presolve
open ConType (Result pairBinary pairUnit pairHalf pairEqual pairInequality trinomial setTypes flowTypes boundTypes
  knapsackTypes gf2Type general classify smaller)

/-- The types of equalities of two variables whose key variable is the one with the smaller name. -/
def paired : ConType → Bool
  | .exclusiveOr | .exclusiveNor | .invertedIntegers | .balancedIntegers | .constantSum | .constantDifference => true
  | _ => false

/-- What the classification guarantees about the key variable of such a constraint. -/
def PairKey (lt : ℕ → ℕ → Bool) (c : Con) (r : Result) : Prop :=
  paired r.1 = true → ∃ t u, c.expr.terms = [t, u] ∧ r.2 = some (smaller lt t.1 u.1)

theorem pairEqual_pair (var : ℕ → Var) (lt : ℕ → ℕ → Bool) (c : Con) (t u : ℕ × ℚ) (ht : c.expr.terms = [t, u]) :
    PairKey lt c (pairEqual var lt c t.1 t.2 u.1 u.2) := by
  unfold pairEqual
  split
  · rename_i r h
    unfold pairBinary at h
    repeat' split at h
    all_goals first
      | (cases h; done)
      | (rw [Option.some.injEq] at h; subst h; exact fun _ => ⟨t, u, ht, rfl⟩)
  · split
    · split
      · rename_i r h
        unfold pairUnit at h
        repeat' split at h
        all_goals first
          | (cases h; done)
          | (rw [Option.some.injEq] at h; subst h; exact fun _ => ⟨t, u, ht, rfl⟩)
      · split
        · rename_i r h
          unfold pairHalf at h
          repeat' split at h
          all_goals first
            | (cases h; done)
            | (rw [Option.some.injEq] at h; subst h; intro h; exact absurd h (by simp [paired]))
        · intro h; exact absurd h (by simp [paired])
    · intro h; exact absurd h (by simp [paired])

theorem general_pair (var : ℕ → Var) (lt : ℕ → ℕ → Bool) (c : Con) : PairKey lt c (general var c) := by
  have k1 : ∀ r, setTypes c = some r → PairKey lt c r := by
    intro r hr
    unfold setTypes at hr
    repeat' split at hr
    all_goals first
      | (rw [Option.some.injEq] at hr; subst hr; intro h; exact absurd h (by simp [paired]))
      | exact absurd hr (by simp)
  have k2 : ∀ r, flowTypes var c = some r → PairKey lt c r := by
    intro r hr
    unfold flowTypes at hr
    simp only [] at hr
    repeat' split at hr
    all_goals first
      | (rw [Option.some.injEq] at hr; subst hr; intro h; exact absurd h (by simp [paired]))
      | exact absurd hr (by simp)
  have kb : ∀ r, boundTypes var c = some r → PairKey lt c r := by
    intro r hr
    unfold boundTypes at hr
    simp only [] at hr
    repeat' split at hr
    all_goals first
      | (rw [Option.some.injEq] at hr; subst hr; intro h; exact absurd h (by simp [paired]))
      | exact absurd hr (by simp)
  have k3 : ∀ r, knapsackTypes var c = some r → PairKey lt c r := by
    intro r hr
    unfold knapsackTypes at hr
    simp only [] at hr
    repeat' split at hr
    all_goals first
      | (rw [Option.some.injEq] at hr; subst hr; intro h; exact absurd h (by simp [paired]))
      | exact absurd hr (by simp)
  have k4 : ∀ r, gf2Type var c = some r → PairKey lt c r := by
    intro r hr
    unfold gf2Type at hr
    simp only [] at hr
    split at hr
    · split at hr
      · obtain ⟨_, hr⟩ := ConType.ite_none_some hr
        subst hr; intro h; exact absurd h (by simp [paired])
      · exact absurd hr (by simp)
    · exact absurd hr (by simp)
  unfold general
  cases h1 : setTypes c with
  | some r => exact k1 r h1
  | none =>
    cases h2 : flowTypes var c with
    | some r => exact k2 r h2
    | none =>
      cases h3 : boundTypes var c with
      | some r => exact kb r h3
      | none =>
        cases h4 : knapsackTypes var c with
        | some r => exact k3 r h4
        | none =>
          cases h5 : gf2Type var c with
          | some r => exact k4 r h5
          | none => intro h; exact absurd h (by simp [paired])

theorem classify_pair (var : ℕ → Var) (lt : ℕ → ℕ → Bool) (c : Con) : PairKey lt c (classify var lt c) := by
  have hg := general_pair var lt c
  unfold classify
  split
  · intro h; exact absurd h (by simp [paired])
  · rename_i t u ht
    split
    · split
      · exact pairEqual_pair var lt c t u ht
      · unfold pairInequality; split <;> (intro h; exact absurd h (by simp [paired]))
    · exact hg
  · rename_i t u w ht
    split
    · cases h1 : trinomial var [t, u, w] with
      | some r =>
        unfold trinomial at h1
        dsimp only at h1
        repeat' split at h1
        all_goals first
          | (cases h1; done)
          | (rw [Option.some.injEq] at h1; subst h1; intro h; exact absurd h (by simp [paired]))
      | none => exact hg
    · exact hg
  · exact hg

/-- Without the two types whose key variable is the one with the unit coefficient all candidates are such equalities. -/
theorem candidate_pair (o : Options) (h1 : o.constantRatio = false) (h2 : o.intermediate = false) (lt : ℕ → ℕ → Bool)
    (m : MState) (c : ℕ) (h : c ∈ dependentCandidates o lt m) :
    ∃ t u, (m.con c).expr.terms = [t, u] ∧ keyOf lt m c = smaller lt t.1 u.1 := by
  have key : ∀ k, paired k = true → c ∈ ofType lt m k →
      ∃ t u, (m.con c).expr.terms = [t, u] ∧ keyOf lt m c = smaller lt t.1 u.1 := by
    intro k hk hc
    obtain ⟨_, e⟩ := List.mem_filter.1 hc
    simp only [decide_eq_true_eq] at e
    obtain ⟨t, u, a, b⟩ := classify_pair m.var lt (m.con c) (by rw [e]; exact hk)
    exact ⟨t, u, a, by unfold keyOf; rw [b]; rfl⟩
  unfold dependentCandidates at h
  rw [h1, h2] at h
  simp only [List.mem_append] at h
  rcases h with ((((((h | h) | h) | h) | h) | h) | h) | h
  all_goals split at h
  all_goals first
    | exact key _ rfl (List.mem_filter.1 h).1
    | exact key _ rfl h
    | exact absurd h List.not_mem_nil
    | (rename_i hb; exact absurd hb (by simp))

theorem pairs_acyclic (o : Options) (h1 : o.constantRatio = false) (h2 : o.intermediate = false) (lt : ℕ → ℕ → Bool)
    (hirr : ∀ a, lt a a = false) (htr : ∀ a b c, lt a b = true → lt b c = true → lt a c = true)
    (htot : ∀ a b, a ≠ b → lt a b = true ∨ lt b a = true) (m : MState) :
    NoCycle m (keyOf lt m) (Dependent.chosen m (keyOf lt m) (dependentCandidates o lt m)) := by
  have hsub := Dependent.chosen_sub m (keyOf lt m) (dependentCandidates o lt m)
  generalize Dependent.chosen m (keyOf lt m) (dependentCandidates o lt m) = ch at hsub
  refine ⟨fun v => ((ch.map (keyOf lt m)).filter (fun u => lt v u)).length, fun c hc w hw hne hk => ?_⟩
  obtain ⟨t, u, ht, hkey⟩ := candidate_pair o h1 h2 lt m c (hsub c hc).1
  have hlt : lt (keyOf lt m c) w = true := by
    unfold Expr.vars at hw
    rw [ht] at hw
    rw [hkey] at hne ⊢
    unfold smaller at hne ⊢
    simp only [List.map_cons, List.map_nil, List.mem_cons, List.not_mem_nil, or_false] at hw
    split at hne
    · rename_i h
      rw [if_pos h]
      rcases hw with rfl | rfl
      · exact absurd rfl hne
      · exact h
    · rename_i h
      rw [if_neg h]
      rcases hw with rfl | rfl
      · rcases htot u.1 t.1 (Ne.symm hne) with k | k
        · exact k
        · exact absurd k h
      · exact absurd rfl hne
  have hsubl : ∀ l : List ℕ, w ∈ l → (l.filter (fun u => lt w u)).length < (l.filter (fun u => lt (keyOf lt m c) u)).length := by
    have hle : ∀ l : List ℕ, (l.filter (fun u => lt w u)).length ≤ (l.filter (fun u => lt (keyOf lt m c) u)).length := by
      intro l
      induction l with
      | nil => simp
      | cons a l ih =>
        rw [List.filter_cons, List.filter_cons]
        by_cases ha : lt w a = true
        · rw [if_pos ha, if_pos (htr _ _ _ hlt ha)]; simpa using ih
        · rw [if_neg ha]
          split
          · exact le_trans ih (by simp)
          · exact ih
    intro l
    induction l with
    | nil => intro h; simp at h
    | cons a l ih =>
      intro h
      rw [List.filter_cons, List.filter_cons]
      by_cases ha : lt w a = true
      · rw [if_pos ha, if_pos (htr _ _ _ hlt ha)]
        rcases List.mem_cons.1 h with rfl | h
        · rw [hirr] at ha; exact absurd ha (by simp)
        · simpa using ih h
      · rw [if_neg ha]
        rcases List.mem_cons.1 h with rfl | h
        · rw [if_pos hlt]; exact Nat.lt_succ_of_le (hle l)
        · split
          · exact lt_trans (ih h) (by simp)
          · exact ih h
  exact hsubl _ hk

theorem acyclicRounds_of (o : Options) (lt : ℕ → ℕ → Bool)
    (h : ∀ m, NoCycle m (keyOf lt m) (Dependent.chosen m (keyOf lt m) (dependentCandidates o lt m))) (n : ℕ) :
    ∀ m, AcyclicRounds o lt n m := by
  induction n with
  | zero => intro m; exact trivial
  | succ n ih => intro m; exact ⟨h m, fun _ _ m3 _ _ _ _ => ih _⟩

end Printemps.Setup
