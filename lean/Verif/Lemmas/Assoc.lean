import Verif.Model.Assoc

/-! # Lemmas about maps -/

namespace Printemps.Assoc
variable {κ β : Type} [DecidableEq κ]

theorem get_put (m : Assoc κ β) (k k' : κ) (x : β) : (m.put k x).get k' = if k = k' then some x else m.get k' := by
  induction m with
  | nil => simp [put, get]
  | cons e m ih =>
    unfold put
    by_cases h : e.1 = k
    · rw [if_pos h]
      by_cases h' : k = k'
      · rw [if_pos h', get, if_pos (h.trans h')]
      · rw [if_neg h', get, if_neg (fun hc => h' (h.symm.trans hc)), get, if_neg (fun hc => h' (h.symm.trans hc))]
    · rw [if_neg h, get, ih, get]
      by_cases h' : k = k'
      · rw [if_pos h', if_neg (fun hc => h (hc.trans h'.symm)), if_pos h']
      · rw [if_neg h', if_neg h']

theorem get_modify (m : Assoc κ β) (k k' : κ) (d : β) (f : β → β) :
    (m.modify k d f).get k' = if k = k' then some (f ((m.get k).getD d)) else m.get k' := get_put _ _ _ _

theorem get_none_iff (m : Assoc κ β) (k : κ) : m.get k = none ↔ k ∉ m.map Prod.fst := by
  induction m with
  | nil => simp [get]
  | cons e m ih =>
    unfold get
    by_cases h : e.1 = k
    · simp [h]
    · rw [if_neg h, ih]; simp [Ne.symm h]

theorem put_new (m : Assoc κ β) (k : κ) (x : β) (h : k ∉ m.map Prod.fst) : m.put k x = m ++ [(k, x)] := by
  induction m with
  | nil => rfl
  | cons e m ih =>
    simp only [List.map_cons, List.mem_cons, not_or] at h
    rw [put, if_neg (Ne.symm h.1), ih h.2, List.cons_append]

/-- Looking up in a list that is indexed by a list of items with pairwise different keys. -/
theorem get_mapped {ι : Type} (l : List ι) (key : ι → κ) (g : ι → β) (hinj : ∀ a ∈ l, ∀ b ∈ l, key a = key b → a = b)
    (a : ι) (ha : a ∈ l) : get (l.map (fun a => (key a, g a))) (key a) = some (g a) := by
  induction l with
  | nil => simp at ha
  | cons b l ih =>
    rw [List.map_cons, get]
    by_cases h : key b = key a
    · rw [if_pos h, hinj b (by simp) a ha h]
    · rw [if_neg h]
      rcases List.mem_cons.1 ha with rfl | ha
      · exact absurd rfl h
      · exact ih (fun x hx y hy => hinj x (by simp [hx]) y (by simp [hy])) ha

/-- Overwriting in such a list. -/
theorem put_mapped {ι : Type} [DecidableEq ι] (l : List ι) (hn : l.Nodup) (key : ι → κ) (g : ι → β)
    (hinj : ∀ a ∈ l, ∀ b ∈ l, key a = key b → a = b) (a : ι) (ha : a ∈ l) (x : β) :
    put (l.map (fun a => (key a, g a))) (key a) x = l.map (fun b => (key b, if b = a then x else g b)) := by
  induction l with
  | nil => simp at ha
  | cons b l ih =>
    obtain ⟨hb, hl⟩ := List.nodup_cons.1 hn
    rw [List.map_cons, put, List.map_cons]
    by_cases h : key b = key a
    · have e := hinj b (by simp) a ha h
      subst e
      rw [if_pos rfl, if_pos rfl]
      congr 1
      refine List.map_congr_left fun c hc => ?_
      rw [if_neg (fun e : c = b => hb (by rw [← e]; exact hc))]
    · rw [if_neg h, if_neg (fun e => h (by rw [e]))]
      rcases List.mem_cons.1 ha with rfl | ha
      · exact absurd rfl h
      · rw [ih hl (fun x hx y hy => hinj x (by simp [hx]) y (by simp [hy])) ha]

theorem modify_mapped {ι : Type} [DecidableEq ι] (l : List ι) (hn : l.Nodup) (key : ι → κ) (g : ι → β)
    (hinj : ∀ a ∈ l, ∀ b ∈ l, key a = key b → a = b) (a : ι) (ha : a ∈ l) (d : β) (f : β → β) :
    modify (l.map (fun a => (key a, g a))) (key a) d f = l.map (fun b => (key b, if b = a then f (g b) else g b)) := by
  unfold modify
  rw [get_mapped l key g hinj a ha, put_mapped l hn key g hinj a ha]
  refine List.map_congr_left fun b _ => ?_
  by_cases h : b = a
  · subst h; simp
  · rw [if_neg h, if_neg h]

end Printemps.Assoc
