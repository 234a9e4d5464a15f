import Verif.Model.Verifier
import Verif.Lemmas.ConstraintType

/-! Helper lemmas about the extraction of selections. -/

namespace Printemps.SelectionExtract
open Spec

def Apart (m : MState) (a b : ℕ) : Prop := ∀ v, v ∈ members m a → v ∉ members m b

theorem Apart.symm {m : MState} {a b : ℕ} (h : Apart m a b) : Apart m b a := fun v hb ha => h v ha hb

theorem greedy_sublist (m : MState) (cs : List ℕ) : ∀ taken, (greedy m taken cs).Sublist cs := by
  induction cs with
  | nil => intro _; exact List.Sublist.refl _
  | cons c cs ih =>
    intro taken
    unfold greedy
    split
    · exact List.Sublist.cons _ (ih _)
    · exact List.Sublist.cons_cons _ (ih _)

theorem greedy_avoids (m : MState) (cs : List ℕ) : ∀ taken, ∀ c ∈ greedy m taken cs, ∀ v ∈ members m c, v ∉ taken := by
  induction cs with
  | nil => intro _ c hc; exact absurd hc (by simp [greedy])
  | cons d cs ih =>
    intro taken c hc v hv
    unfold greedy at hc
    split at hc
    · exact ih _ c hc v hv
    · rename_i h
      rcases List.mem_cons.1 hc with rfl | hc
      · intro ht; exact h (List.any_eq_true.2 ⟨v, hv, by simpa using ht⟩)
      · intro ht; exact ih _ c hc v hv (List.mem_append_left _ ht)

theorem greedy_apart (m : MState) (cs : List ℕ) : ∀ taken, (greedy m taken cs).Pairwise (Apart m) := by
  induction cs with
  | nil => intro _; exact List.Pairwise.nil
  | cons d cs ih =>
    intro taken
    unfold greedy
    split
    · exact ih _
    · refine List.Pairwise.cons (fun c hc v hd hv => ?_) (ih _)
      exact greedy_avoids m cs _ c hc v hv (List.mem_append_right _ hd)

theorem greedy_maximal (m : MState) (cs : List ℕ) : ∀ taken, ∀ c ∈ cs, c ∉ greedy m taken cs →
    ∃ v ∈ members m c, v ∈ taken ∨ ∃ d ∈ greedy m taken cs, v ∈ members m d := by
  induction cs with
  | nil => intro _ c hc; exact absurd hc (by simp)
  | cons d cs ih =>
    intro taken c hc hn
    unfold greedy at hn ⊢
    split
    · rename_i h
      rw [if_pos h] at hn
      rcases List.mem_cons.1 hc with rfl | hc
      · obtain ⟨v, hv, ht⟩ := List.any_eq_true.1 h
        exact ⟨v, hv, Or.inl (by simpa using ht)⟩
      · exact ih _ c hc hn
    · rename_i h
      rw [if_neg h] at hn
      rw [List.mem_cons, not_or] at hn
      rcases List.mem_cons.1 hc with rfl | hc
      · exact absurd rfl hn.1
      · obtain ⟨v, hv, ht⟩ := ih _ c hc hn.2
        refine ⟨v, hv, ?_⟩
        rcases ht with ht | ⟨e, he, hve⟩
        · rcases List.mem_append.1 ht with ht | ht
          · exact Or.inl ht
          · exact Or.inr ⟨d, by simp, ht⟩
        · exact Or.inr ⟨e, List.mem_cons_of_mem _ he, hve⟩

theorem independent_apart (m : MState) (rs : List ℕ) (hn : rs.Nodup) : (independent m rs).Pairwise (Apart m) := by
  unfold independent
  refine List.Pairwise.imp_of_mem ?_ (hn.filter _)
  intro a b ha hb hab v hva hvb
  have h1 := (List.mem_filter.1 ha).2
  have h2 : b ∈ rs := (List.mem_filter.1 hb).1
  rw [Bool.not_eq_true', ← Bool.not_eq_true] at h1
  refine h1 (List.any_eq_true.2 ⟨v, hva, List.any_eq_true.2 ⟨b, h2, ?_⟩⟩)
  simp only [Bool.and_eq_true, decide_eq_true_eq, List.contains_iff_mem]
  exact ⟨fun e => hab e.symm, hvb⟩

theorem chosen_apart (lt : ℕ → ℕ → Bool) (user : ℕ → Bool) (mode : Mode) (m : MState) (hn : m.conIds.Nodup) :
    (chosen lt user mode m).Pairwise (Apart m) := by
  unfold chosen
  cases mode <;> simp only []
  · exact List.Pairwise.nil
  · exact greedy_apart _ _ _
  · exact greedy_apart _ _ _
  · exact greedy_apart _ _ _
  · exact independent_apart _ _ (hn.filter _)
  · exact greedy_apart _ _ _

theorem chosen_raw (lt : ℕ → ℕ → Bool) (user : ℕ → Bool) (mode : Mode) (m : MState) :
    ∀ c ∈ chosen lt user mode m, c ∈ m.conIds ∧ isRaw lt m c = true := by
  intro c hc
  have : c ∈ raws lt m := by
    unfold chosen at hc
    cases mode <;> simp only [] at hc
    · exact absurd hc (by simp)
    · exact (greedy_sublist _ _ _).subset hc
    · exact List.mem_mergeSort.1 ((greedy_sublist _ _ _).subset hc)
    · exact List.mem_mergeSort.1 ((greedy_sublist _ _ _).subset hc)
    · exact (List.mem_filter.1 hc).1
    · exact (List.mem_filter.1 ((greedy_sublist _ _ _).subset hc)).1
  exact List.mem_filter.1 this

theorem chosen_nodup (lt : ℕ → ℕ → Bool) (user : ℕ → Bool) (mode : Mode) (m : MState) (hn : m.conIds.Nodup) :
    (chosen lt user mode m).Nodup := by
  have hr : (raws lt m).Nodup := hn.filter _
  unfold chosen
  cases mode <;> simp only []
  · exact List.nodup_nil
  · exact (greedy_sublist _ _ _).nodup hr
  · exact (greedy_sublist _ _ _).nodup ((List.mergeSort_perm _ _).nodup_iff.2 hr)
  · exact (greedy_sublist _ _ _).nodup ((List.mergeSort_perm _ _).nodup_iff.2 hr)
  · exact hr.filter _
  · exact (greedy_sublist _ _ _).nodup (hr.filter _)

theorem isRaw_iff (lt : ℕ → ℕ → Bool) (m : MState) (c : ℕ) : isRaw lt m c = true ↔
    (ConType.classify m.var lt (m.con c)).1 = .setPartitioning ∧ (m.con c).enabled = true ∧
      ∀ v ∈ members m c, (m.var v).sense = .binary := by
  unfold isRaw
  simp only [Bool.and_eq_true, decide_eq_true_eq, List.all_eq_true, beq_iff_eq]
  tauto

theorem inner_eq (c : ℕ) (vs : List ℕ) : ∀ var : ℕ → Var,
    vs.foldl (fun var v => Function.update var v ((var v).setSelection c)) var =
      fun v => if v ∈ vs then (var v).setSelection c else var v := by
  induction vs with
  | nil => intro var; funext v; simp
  | cons w vs ih =>
    intro var
    rw [List.foldl_cons, ih]
    funext v
    by_cases h : v = w
    · subst h
      by_cases hv : v ∈ vs
      · simp [hv, Var.setSelection]
      · simp [hv]
    · simp [h]

theorem outer_not (m : MState) (v : ℕ) (cs : List ℕ) : ∀ var : ℕ → Var, (∀ c ∈ cs, v ∉ members m c) →
    (cs.foldl (fun var c => (members m c).foldl
      (fun var v => Function.update var v ((var v).setSelection c)) var) var) v = var v := by
  induction cs with
  | nil => intro _ _; rfl
  | cons d cs ih =>
    intro var h
    rw [List.foldl_cons, ih _ (fun c hc => h c (List.mem_cons_of_mem _ hc)), inner_eq]
    simp only []
    rw [if_neg (h d (by simp))]

theorem outer_mem (m : MState) (c v : ℕ) (hv : v ∈ members m c) (cs : List ℕ) : ∀ var : ℕ → Var,
    cs.Pairwise (Apart m) → c ∈ cs → (cs.foldl (fun var c => (members m c).foldl
      (fun var v => Function.update var v ((var v).setSelection c)) var) var) v = (var v).setSelection c := by
  induction cs with
  | nil => intro _ _ h; exact absurd h (by simp)
  | cons d cs ih =>
    intro var hp hc
    rw [List.foldl_cons]
    obtain ⟨h1, h2⟩ := List.pairwise_cons.1 hp
    by_cases hcd : c = d
    · subst hcd
      rw [outer_not m v cs _ (fun e he => h1 e he v hv), inner_eq]
      simp only []
      rw [if_pos hv]
    · have hc' : c ∈ cs := (List.mem_cons.1 hc).resolve_left hcd
      rw [ih _ h2 hc', inner_eq]
      simp only []
      rw [if_neg (fun h => h1 c hc' v h hv)]

theorem members_disable (m : MState) (cs : List ℕ) (c : ℕ) : members (disableAll m cs) c = members m c := by
  unfold members disableAll; simp only []; split <;> rfl

theorem apart_disable (m : MState) (cs : List ℕ) {l : List ℕ} (h : l.Pairwise (Apart m)) :
    l.Pairwise (Apart (disableAll m cs)) := by
  refine h.imp ?_
  intro a b hab v h1 h2
  rw [members_disable] at h1 h2
  exact hab v h1 h2

end Printemps.SelectionExtract
