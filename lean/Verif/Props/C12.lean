import Verif.Model.Archive

/-! # C12 — the solution archive keeps the best distinct solutions -/

namespace Printemps.C12

set_option linter.unusedSectionVars false
variable {V : Type} [DecidableEq V]

/-- The archive after a history of pushes, starting empty. -/
def after (mode : SortMode) (cap : ℤ) (pushes : List (List (ArchSol V))) : List (ArchSol V) :=
  pushes.foldl (archPush mode cap) []

/-- How good a solution is under the configured direction (smaller is better). -/
def rank (mode : SortMode) (s : ArchSol V) : ℚ :=
  match mode with
  | .descending => - s.objective
  | _ => s.objective

/-! ### helper facts -/

theorem uniqFrom_sublist (k : V) (l : List (ArchSol V)) : (uniqFrom k l).Sublist l := by
  induction l generalizing k with
  | nil => exact List.Sublist.slnil
  | cons b l ih =>
    unfold uniqFrom
    split
    · exact (ih k).cons _
    · exact (ih _).cons_cons _

theorem uniqAdj_sublist (l : List (ArchSol V)) : (uniqAdj l).Sublist l := by
  cases l with
  | nil => exact List.Sublist.slnil
  | cons a l => exact (uniqFrom_sublist _ l).cons_cons _

/-- adjacent elements differ in their variables -/
def Distinct (l : List (ArchSol V)) : Prop := List.IsChain (· ≠ ·) (l.map (·.vars))

theorem uniqFrom_distinct (k : V) (l : List (ArchSol V)) :
    List.IsChain (· ≠ ·) (k :: (uniqFrom k l).map (·.vars)) := by
  induction l generalizing k with
  | nil => simp [uniqFrom]
  | cons b l ih =>
    unfold uniqFrom
    split
    · exact ih k
    · rename_i h
      rw [List.map_cons, List.isChain_cons_cons]
      exact ⟨h, ih _⟩

theorem uniqAdj_distinct (l : List (ArchSol V)) : Distinct (uniqAdj l) := by
  cases l with
  | nil => exact List.isChain_nil
  | cons a l => exact uniqFrom_distinct _ l

theorem length_le_uniqFrom (S A : List (ArchSol V)) (k : V) (hs : A.Sublist S)
    (hc : List.IsChain (· ≠ ·) (k :: A.map (·.vars))) : A.length ≤ (uniqFrom k S).length := by
  induction S generalizing A k with
  | nil => simp [List.sublist_nil.1 hs]
  | cons b S ih =>
    rcases List.sublist_cons_iff.1 hs with h | ⟨A', rfl, h⟩
    · unfold uniqFrom
      split
      · exact ih A k h hc
      · cases A with
        | nil => simp
        | cons a A =>
          simp only [List.map_cons, List.length_cons] at hc ⊢
          rw [List.isChain_cons_cons] at hc
          by_cases hab : a.vars = b.vars
          · have := ih A b.vars ((List.sublist_cons_self a A).trans h) (by rw [← hab]; exact hc.2)
            omega
          · have := ih (a :: A) b.vars h (by
              rw [List.map_cons, List.isChain_cons_cons]; exact ⟨fun e => hab e.symm, hc.2⟩)
            simp only [List.length_cons] at this
            omega
    · rw [List.map_cons, List.isChain_cons_cons] at hc
      unfold uniqFrom
      rw [if_neg hc.1]
      simp only [List.length_cons]
      have := ih A' b.vars h hc.2
      omega

theorem length_le_uniqAdj (S A : List (ArchSol V)) (hs : A.Sublist S) (hc : Distinct A) :
    A.length ≤ (uniqAdj S).length := by
  cases S with
  | nil => simp [List.sublist_nil.1 hs]
  | cons b S =>
    simp only [uniqAdj, List.length_cons]
    rcases List.sublist_cons_iff.1 hs with h | ⟨A', rfl, h⟩
    · cases A with
      | nil => simp
      | cons a A =>
        unfold Distinct at hc
        rw [List.map_cons] at hc
        by_cases hab : a.vars = b.vars
        · have := length_le_uniqFrom S A b.vars ((List.sublist_cons_self a A).trans h)
            (by rw [← hab]; exact hc)
          simp only [List.length_cons]; omega
        · have := length_le_uniqFrom S (a :: A) b.vars h (by
              rw [List.map_cons, List.isChain_cons_cons]; exact ⟨fun e => hab e.symm, hc⟩)
          omega
    · have := length_le_uniqFrom S A' b.vars h hc
      simp only [List.length_cons]; omega

theorem uniqFrom_append (k : V) (X B : List (ArchSol V)) :
    uniqFrom k (X ++ B) = uniqFrom k X ++ uniqFrom (((uniqFrom k X).map (·.vars)).getLastD k) B := by
  induction X generalizing k with
  | nil => simp [uniqFrom]
  | cons b X ih =>
    simp only [List.cons_append, uniqFrom]
    split
    · rw [ih]
    · rw [ih]
      simp only [List.cons_append, List.map_cons, List.getLastD_cons]

theorem uniqAdj_append_prefix (X B : List (ArchSol V)) : ∃ R, uniqAdj (X ++ B) = uniqAdj X ++ R := by
  cases X with
  | nil => exact ⟨uniqAdj B, rfl⟩
  | cons a X => exact ⟨_, by simp only [List.cons_append, uniqAdj]; rw [uniqFrom_append]⟩

/-- every element has a kept representative with the same variables, not later -/
theorem uniqFrom_repr (k : V) (l : List (ArchSol V)) (r : ArchSol V → ℚ)
    (hs : l.Pairwise (fun a b => r a ≤ r b)) (s) (hm : s ∈ l) :
    s.vars = k ∨ ∃ u ∈ uniqFrom k l, u.vars = s.vars ∧ r u ≤ r s := by
  induction l generalizing k with
  | nil => simp at hm
  | cons b l ih =>
    rw [List.pairwise_cons] at hs
    unfold uniqFrom
    rcases List.mem_cons.1 hm with rfl | hm
    · split
      · rename_i h; exact Or.inl h.symm
      · exact Or.inr ⟨s, by simp, rfl, le_rfl⟩
    · split
      · exact ih k hs.2 hm
      · rcases ih b.vars hs.2 hm with h | ⟨u, hu, h1, h2⟩
        · exact Or.inr ⟨b, by simp, h.symm, hs.1 s hm⟩
        · exact Or.inr ⟨u, by simp [hu], h1, h2⟩

theorem uniqAdj_repr (l : List (ArchSol V)) (r : ArchSol V → ℚ)
    (hs : l.Pairwise (fun a b => r a ≤ r b)) (s) (hm : s ∈ l) :
    ∃ u ∈ uniqAdj l, u.vars = s.vars ∧ r u ≤ r s := by
  cases l with
  | nil => simp at hm
  | cons b l =>
    rw [List.pairwise_cons] at hs
    rcases List.mem_cons.1 hm with rfl | hm
    · exact ⟨s, by simp [uniqAdj], rfl, le_rfl⟩
    · rcases uniqFrom_repr b.vars l r hs.2 s hm with h | ⟨u, hu, h1, h2⟩
      · exact ⟨b, by simp [uniqAdj], h.symm, hs.1 s hm⟩
      · exact ⟨u, by simp [uniqAdj, hu], h1, h2⟩

/-! ### sorting -/

theorem archSort_eq (mode : SortMode) (hm : mode ≠ .off) (l : List (ArchSol V)) :
    archSort mode l = l.mergeSort (fun a b => decide (rank mode a ≤ rank mode b)) := by
  cases mode with
  | off => exact absurd rfl hm
  | ascending => rfl
  | descending => simp [archSort, rank]

theorem archSort_perm (mode : SortMode) (l : List (ArchSol V)) : (archSort mode l).Perm l := by
  cases mode with
  | off => exact List.Perm.refl _
  | ascending => exact List.mergeSort_perm _ _
  | descending => exact List.mergeSort_perm _ _

theorem archSort_sorted (mode : SortMode) (hm : mode ≠ .off) (l : List (ArchSol V)) :
    (archSort mode l).Pairwise (fun a b => rank mode a ≤ rank mode b) := by
  rw [archSort_eq mode hm]
  have := List.pairwise_mergeSort (le := fun a b : ArchSol V => decide (rank mode a ≤ rank mode b))
    (fun a b c h1 h2 => by simp only [decide_eq_true_eq] at *; exact h1.trans h2)
    (fun a b => by simp only [Bool.or_eq_true, decide_eq_true_eq]; exact le_total _ _) l
  exact this.imp (by intro a b h; simpa using h)

theorem archSort_sublist (mode : SortMode) (hm : mode ≠ .off) (A l : List (ArchSol V)) (h : A.Sublist l)
    (hs : A.Pairwise (fun a b => rank mode a ≤ rank mode b)) : A.Sublist (archSort mode l) := by
  rw [archSort_eq mode hm]
  exact List.sublist_mergeSort (le := fun a b : ArchSol V => decide (rank mode a ≤ rank mode b))
    (fun a b c h1 h2 => by simp only [decide_eq_true_eq] at *; exact h1.trans h2)
    (fun a b => by simp only [Bool.or_eq_true, decide_eq_true_eq]; exact le_total _ _)
    (hs.imp (by intro a b h; simpa using h)) h

/-! ### one push, sorted modes -/

theorem cut_prefix (mode : SortMode) (hm : mode ≠ .off) (cap : ℤ) (l : List (ArchSol V)) :
    (archCut mode cap l = l ∧ ¬ (0 < cap ∧ (l.length : ℤ) > cap)) ∨ (0 < cap ∧ archCut mode cap l = l.take cap.toNat ∧ cap.toNat < l.length) := by
  unfold archCut
  split
  · rename_i h
    right
    refine ⟨h.1, ?_, by omega⟩
    cases mode with
    | off => exact absurd rfl hm
    | ascending => rfl
    | descending => rfl
  · rename_i h; exact Or.inl ⟨rfl, h⟩

theorem cut_sublist (mode : SortMode) (cap : ℤ) (l : List (ArchSol V)) : (archCut mode cap l).Sublist l := by
  unfold archCut
  split
  · cases mode
    · exact List.drop_sublist _ _
    · exact List.take_sublist _ _
    · exact List.take_sublist _ _
  · exact List.Sublist.refl _

theorem push_sorted (mode : SortMode) (hm : mode ≠ .off) (cap : ℤ) (A B : List (ArchSol V)) :
    (archPush mode cap A B).Pairwise (fun a b => rank mode a ≤ rank mode b) :=
  (archSort_sorted mode hm (A ++ B)).sublist ((cut_sublist _ _ _).trans (uniqAdj_sublist _))

theorem push_distinct (mode : SortMode) (cap : ℤ) (A B : List (ArchSol V)) :
    Distinct (archPush mode cap A B) := by
  unfold archPush archCut
  have h := uniqAdj_distinct (archSort mode (A ++ B))
  split
  · cases mode <;> unfold Distinct at h ⊢
    · rw [List.map_drop]; exact h.drop _
    · rw [List.map_take]; exact h.take _
    · rw [List.map_take]; exact h.take _
  · exact h

/-- What is true of the archive with respect to one solution `p` that was pushed at some time. -/
def Kept (mode : SortMode) (cap : ℤ) (arch : List (ArchSol V)) (p : ArchSol V) : Prop :=
  (∃ s ∈ arch, s.vars = p.vars ∧ rank mode s ≤ rank mode p) ∨
  (0 < cap ∧ (arch.length : ℤ) = cap ∧ ∀ s ∈ arch, rank mode s ≤ rank mode p)

theorem kept_of_mem (mode : SortMode) (hm : mode ≠ .off) (cap : ℤ) (A B : List (ArchSol V)) (q p : ArchSol V)
    (hq : q ∈ A ++ B) (hv : q.vars = p.vars) (hr : rank mode q ≤ rank mode p) :
    Kept mode cap (archPush mode cap A B) p := by
  have hs := archSort_sorted mode hm (A ++ B)
  obtain ⟨u, hu, h1, h2⟩ := uniqAdj_repr _ _ hs q ((archSort_perm mode _).mem_iff.2 hq)
  have hU := hs.sublist (uniqAdj_sublist _)
  rcases cut_prefix mode hm cap (uniqAdj (archSort mode (A ++ B))) with ⟨h, -⟩ | ⟨hc, h, hl⟩
  · left
    unfold archPush; rw [h]
    exact ⟨u, hu, h1.trans hv, h2.trans hr⟩
  · unfold archPush; rw [h]
    generalize uniqAdj (archSort mode (A ++ B)) = U at *
    obtain ⟨i, hi, rfl⟩ := List.getElem_of_mem hu
    by_cases hlt : i < cap.toNat
    · left
      refine ⟨U[i], ?_, h1.trans hv, h2.trans hr⟩
      exact List.mem_take_iff_getElem.2 ⟨i, by simp; omega, rfl⟩
    · right
      refine ⟨hc, by rw [List.length_take]; omega, ?_⟩
      intro s hsm
      obtain ⟨j, hj, rfl⟩ := List.mem_take_iff_getElem.1 hsm
      have hji : j < i := by omega
      exact ((List.pairwise_iff_getElem.1 hU j i (by omega) hi hji).trans h2).trans hr

theorem kept_push (mode : SortMode) (hm : mode ≠ .off) (cap : ℤ) (A B : List (ArchSol V)) (p : ArchSol V)
    (hs : A.Pairwise (fun a b => rank mode a ≤ rank mode b)) (hd : Distinct A)
    (hk : Kept mode cap A p) : Kept mode cap (archPush mode cap A B) p := by
  rcases hk with ⟨s, hsA, hv, hr⟩ | ⟨hc, hlen, hall⟩
  · exact kept_of_mem mode hm cap A B s p (by simp [hsA]) hv hr
  · right
    refine ⟨hc, ?_⟩
    have hss := archSort_sorted mode hm (A ++ B)
    have hsub : A.Sublist (archSort mode (A ++ B)) :=
      archSort_sublist mode hm A _ (List.sublist_append_left A B) hs
    -- split the sorted list at the rank of p
    generalize hS : archSort mode (A ++ B) = S at *
    let P := S.takeWhile (fun s => decide (rank mode s ≤ rank mode p))
    let Q := S.dropWhile (fun s => decide (rank mode s ≤ rank mode p))
    have hPQ : S = P ++ Q := (List.takeWhile_append_dropWhile).symm
    have hP : ∀ s ∈ P, rank mode s ≤ rank mode p := fun s h => by
      have := List.all_takeWhile (p := fun s => decide (rank mode s ≤ rank mode p)) (l := S)
      rw [List.all_eq_true] at this; simpa using this s h
    have hQ : ∀ s ∈ Q, ¬ rank mode s ≤ rank mode p := by
      intro s h hle
      have hne : Q ≠ [] := by rintro h0; rw [h0] at h; simp at h
      have h0 := List.head_dropWhile_not (fun s => decide (rank mode s ≤ rank mode p)) hne
      have hsQ : Q.Pairwise (fun a b => rank mode a ≤ rank mode b) := hss.sublist (List.dropWhile_sublist _)
      have : rank mode (Q.head hne) ≤ rank mode s := by
        clear h0
        generalize Q = Q at h hne hsQ
        cases Q with
        | nil => exact absurd rfl hne
        | cons q Q' =>
          simp only [List.head_cons]
          rcases List.mem_cons.1 h with rfl | h
          · exact le_rfl
          · exact (List.pairwise_cons.1 hsQ).1 s h
      simp only [decide_eq_false_iff_not] at h0
      exact h0 (this.trans hle)
    have hAP : A.Sublist P := by
      have h1 : A.filter (fun s => decide (rank mode s ≤ rank mode p)) = A :=
        List.filter_eq_self.2 fun s h => by simpa using hall s h
      have h2 : S.filter (fun s => decide (rank mode s ≤ rank mode p)) = P := by
        rw [hPQ, List.filter_append, List.filter_eq_self.2 fun s h => by simpa using hP s h,
          List.filter_eq_nil_iff.2 fun s h => by simpa using hQ s h, List.append_nil]
      have := hsub.filter (fun s => decide (rank mode s ≤ rank mode p))
      rwa [h1, h2] at this
    have hcount := length_le_uniqAdj P A hAP hd
    obtain ⟨R, hR⟩ := uniqAdj_append_prefix P Q
    rw [← hPQ] at hR
    have hUP : ∀ s ∈ uniqAdj P, rank mode s ≤ rank mode p := fun s h => hP s ((uniqAdj_sublist P).subset h)
    unfold archPush
    rw [hS, hR]
    rcases cut_prefix mode hm cap (uniqAdj P ++ R) with ⟨h, hcond⟩ | ⟨-, h, hl⟩
    · rw [h]
      have hlen2 : (uniqAdj P ++ R).length = (uniqAdj P).length + R.length := List.length_append
      have : ((uniqAdj P ++ R).length : ℤ) ≤ cap := by
        by_contra hlt; exact hcond ⟨hc, by omega⟩
      have hR0 : R = [] := List.eq_nil_of_length_eq_zero (by omega)
      subst hR0
      simp only [List.append_nil] at *
      exact ⟨by omega, hUP⟩
    · rw [h]
      refine ⟨by rw [List.length_take]; omega, fun s hsm => ?_⟩
      rw [List.take_append_of_le_length (by omega)] at hsm
      exact hUP s (List.mem_of_mem_take hsm)

/-! ### the property -/

theorem after_append (mode cap) (l : List (List (ArchSol V))) (b) :
    after mode cap (l ++ [b]) = archPush mode cap (after mode cap l) b := by
  simp [after, List.foldl_append]

/-- Sorted in the configured direction. -/
theorem archive_sorted (mode : SortMode) (hm : mode ≠ .off) (cap : ℤ) (pushes : List (List (ArchSol V))) :
    (after mode cap pushes).Pairwise (fun a b => match mode with
      | .descending => a.objective ≥ b.objective
      | _ => a.objective ≤ b.objective) := by
  have : (after mode cap pushes).Pairwise (fun a b => rank mode a ≤ rank mode b) := by
    rcases List.eq_nil_or_concat pushes with rfl | ⟨l, b, rfl⟩
    · exact List.Pairwise.nil
    · rw [List.concat_eq_append, after_append]; exact push_sorted mode hm cap _ _
  refine this.imp ?_
  intro a b h
  cases mode with
  | off => exact absurd rfl hm
  | ascending => exact h
  | descending => simpa [rank] using h

/-- At most the capacity (any mode). -/
theorem archive_capacity (mode : SortMode) (cap : ℤ) (hc : 0 < cap) (pushes : List (List (ArchSol V))) :
    ((after mode cap pushes).length : ℤ) ≤ cap := by
  rcases List.eq_nil_or_concat pushes with rfl | ⟨l, b, rfl⟩
  · simp only [after, List.foldl_nil, List.length_nil]; omega
  · rw [List.concat_eq_append, after_append]
    unfold archPush archCut
    split
    · cases mode <;> simp only [List.length_take, List.length_drop] <;> omega
    · rename_i h
      by_contra hlt
      exact h ⟨hc, by omega⟩

/-- Only pushed solutions. -/
theorem archive_only_pushed (mode : SortMode) (cap : ℤ) (pushes : List (List (ArchSol V))) (s)
    (hs : s ∈ after mode cap pushes) : ∃ b ∈ pushes, s ∈ b := by
  induction pushes using List.reverseRecOn with
  | nil => simp [after] at hs
  | append_singleton l b ih =>
    rw [after_append] at hs
    have := ((cut_sublist _ _ _).trans (uniqAdj_sublist _)).subset hs
    rcases List.mem_append.1 ((archSort_perm mode _).mem_iff.1 this) with h | h
    · obtain ⟨b', h1, h2⟩ := ih h
      exact ⟨b', by simp [h1], h2⟩
    · exact ⟨b, by simp, h⟩

/-- Neighbouring entries are different assignments (any mode). -/
theorem archive_neighbours_differ (mode : SortMode) (cap : ℤ) (pushes : List (List (ArchSol V))) :
    List.IsChain (· ≠ ·) ((after mode cap pushes).map (·.vars)) := by
  rcases List.eq_nil_or_concat pushes with rfl | ⟨l, b, rfl⟩
  · exact List.isChain_nil
  · rw [List.concat_eq_append, after_append]; exact push_distinct mode cap _ _

/-- Nothing good is lost: every solution ever pushed is either represented in the archive by an entry with the
same variables that is at least as good, or the archive is full of solutions at least as good. -/
theorem archive_keeps_best (mode : SortMode) (hm : mode ≠ .off) (cap : ℤ) (pushes : List (List (ArchSol V)))
    (b) (hb : b ∈ pushes) (p) (hp : p ∈ b) : Kept mode cap (after mode cap pushes) p := by
  induction pushes using List.reverseRecOn with
  | nil => simp at hb
  | append_singleton l c ih =>
    rw [after_append]
    rcases List.mem_append.1 hb with hb | hb
    · refine kept_push mode hm cap _ _ p ?_ ?_ (ih hb)
      · rcases List.eq_nil_or_concat l with rfl | ⟨l', b', rfl⟩
        · exact List.Pairwise.nil
        · rw [List.concat_eq_append, after_append]; exact push_sorted mode hm cap _ _
      · exact archive_neighbours_differ mode cap l
    · simp only [List.mem_singleton] at hb
      subst hb
      exact kept_of_mem mode hm cap _ _ p p (by simp [hp]) rfl le_rfl

/-- In particular the first entry has the best objective ever pushed. -/
theorem archive_has_best (mode : SortMode) (hm : mode ≠ .off) (cap : ℤ) (pushes : List (List (ArchSol V)))
    (b) (hb : b ∈ pushes) (p) (hp : p ∈ b) : ∃ s ∈ after mode cap pushes, rank mode s ≤ rank mode p := by
  rcases archive_keeps_best mode hm cap pushes b hb p hp with ⟨s, h1, -, h2⟩ | ⟨hc, hl, hall⟩
  · exact ⟨s, h1, h2⟩
  · cases h : after mode cap pushes with
    | nil => rw [h] at hl; simp at hl; omega
    | cons s l => exact ⟨s, by simp, hall s (by rw [h]; simp)⟩

/-- Without sorting, the archive is exactly the last `cap` entries of the pushed sequence with adjacent repetitions
removed. -/
theorem archive_off_is_recent (cap : ℤ) (hc : 0 < cap) (pushes : List (List (ArchSol V))) :
    after .off cap pushes = (uniqAdj pushes.flatten).drop ((uniqAdj pushes.flatten).length - cap.toNat) := by
  have cut_eq : ∀ l : List (ArchSol V), archCut .off cap l = l.drop (l.length - cap.toNat) := by
    intro l
    unfold archCut
    split
    · rename_i h
      show l.drop _ = _
      congr 1; omega
    · rename_i h
      have : (l.length : ℤ) ≤ cap := by by_contra hlt; exact h ⟨hc, by omega⟩
      rw [show l.length - cap.toNat = 0 by omega, List.drop_zero]
  -- removing repetitions again changes nothing
  have fix : ∀ (l : List (ArchSol V)) (k : V), List.IsChain (· ≠ ·) (k :: l.map (·.vars)) →
      uniqFrom k l = l := by
    intro l
    induction l with
    | nil => intro k _; rfl
    | cons a l ih =>
      intro k h
      rw [List.map_cons, List.isChain_cons_cons] at h
      rw [uniqFrom, if_neg h.1, ih _ h.2]
  have fix2 : ∀ l : List (ArchSol V), Distinct l → uniqAdj l = l := by
    intro l h
    cases l with
    | nil => rfl
    | cons a l => rw [uniqAdj, fix l _ h]
  have app : ∀ (X B : List (ArchSol V)), X ≠ [] →
      ∃ k, (∀ d < (uniqAdj X).length, uniqAdj ((uniqAdj X).drop d ++ B) = (uniqAdj X).drop d ++ uniqFrom k B) ∧
        uniqAdj (X ++ B) = uniqAdj X ++ uniqFrom k B := by
    intro X B hX
    cases X with
    | nil => exact absurd rfl hX
    | cons a X =>
      refine ⟨((uniqFrom a.vars X).map (·.vars)).getLastD a.vars, ?_, ?_⟩
      · intro d hd
        have hdist : Distinct ((uniqAdj (a :: X)).drop d) := by
          unfold Distinct; rw [List.map_drop]; exact List.IsChain.drop (uniqAdj_distinct _) _
        have hlast : ∃ b L, (uniqAdj (a :: X)).drop d = b :: L ∧
            (L.map (·.vars)).getLastD b.vars
              = ((uniqFrom a.vars X).map (·.vars)).getLastD a.vars := by
          cases hL : (uniqAdj (a :: X)).drop d with
          | nil => rw [List.drop_eq_nil_iff] at hL; omega
          | cons b L =>
            refine ⟨b, L, rfl, ?_⟩
            have e1 : ∀ (c : ArchSol V) (M : List (ArchSol V)),
                (M.map (·.vars)).getLastD c.vars = (((c :: M).getLast (by simp)).vars) := by
              intro c M
              induction M generalizing c with
              | nil => rfl
              | cons m M ih => rw [List.map_cons, List.getLastD_cons, ih, List.getLast_cons_cons]
            rw [e1, e1]
            have : (b :: L).getLast (by simp) = (uniqAdj (a :: X)).getLast (by simp [uniqAdj]) := by
              have := List.getLast_drop (l := uniqAdj (a :: X)) (i := d) (by rw [hL]; simp)
              rw [← this]; congr 1; exact hL.symm
            rw [this]; rfl
        obtain ⟨b, L, hL, hlst⟩ := hlast
        rw [hL] at hdist ⊢
        simp only [List.cons_append, uniqAdj]
        rw [uniqFrom_append, fix L _ hdist, hlst]
      · simp only [List.cons_append, uniqAdj]; rw [uniqFrom_append]
  induction pushes using List.reverseRecOn with
  | nil => simp [after, uniqAdj]
  | append_singleton l b ih =>
    rw [after_append, archPush, cut_eq, ih]
    simp only [archSort, List.flatten_append, List.flatten_cons, List.flatten_nil, List.append_nil]
    by_cases hX : l.flatten = []
    · simp [hX, uniqAdj]
    · obtain ⟨k, h1, h2⟩ := app l.flatten b hX
      have hpos : 0 < (uniqAdj l.flatten).length := by
        cases h : l.flatten with
        | nil => exact absurd h hX
        | cons a X => simp [uniqAdj]
      rw [h1 _ (by omega), h2]
      generalize uniqAdj l.flatten = U at *
      generalize uniqFrom k b = R at *
      rw [← List.drop_append_of_le_length (by omega), List.drop_drop]
      congr 1
      simp only [List.length_append, List.length_drop]
      omega

/-- Finding: "distinct" holds only for neighbours. Pushing X, Y, X with equal objectives leaves X twice. -/
theorem archive_may_hold_duplicates : ∃ pushes : List (List (ArchSol ℕ)),
    ¬ ((after .ascending 10 pushes).map (·.vars)).Nodup := by
  refine ⟨[[⟨1, 0, true, 0⟩], [⟨2, 0, true, 0⟩], [⟨1, 0, true, 0⟩]], ?_⟩
  simp [after, archPush, archCut, archSort, uniqAdj, uniqFrom, List.mergeSort, List.MergeSort.Internal.splitInTwo]

/-- Non-vacuity: three pushes to a capacity-2 archive drop the worst. -/
example : after .ascending 2 [[⟨1, 5, true, 0⟩], [⟨2, 3, true, 0⟩], [⟨3, 4, true, 0⟩]]
    = [(⟨2, 3, true, 0⟩ : ArchSol ℕ), ⟨3, 4, true, 0⟩] := by
  norm_num [after, archPush, archCut, archSort, uniqAdj, uniqFrom, List.mergeSort,
    List.MergeSort.Internal.splitInTwo, List.merge]
  rfl

end Printemps.C12
