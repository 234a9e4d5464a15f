import Verif.Model.Solution
import Verif.Lemmas.Sums
import Mathlib.Tactic.Linarith

/-! # Lemmas on string maps, exports and imports -/

namespace Printemps
namespace StrMap

variable {β : Type}

theorem get_nil (k : String) : get ([] : StrMap β) k = none := rfl

theorem get_cons (e : String × β) (m : StrMap β) (k : String) :
    get (e :: m) k = if e.1 = k then some e.2 else get m k := by
  unfold get
  rw [List.find?_cons]
  by_cases h : e.1 = k
  · simp [h]
  · have : (e.1 == k) = false := by simpa using h
    simp [this, h]

theorem get_append_single (m : StrMap β) (k' : String) (x : β) (k : String) :
    get (m ++ [(k', x)]) k = (get m k).or (if k' = k then some x else none) := by
  induction m with
  | nil => rw [List.nil_append, get_cons, get_nil]; simp
  | cons e m ih =>
    rw [List.cons_append, get_cons, get_cons, ih]
    split <;> simp

theorem get_eq_none_iff (m : StrMap β) (k : String) : get m k = none ↔ k ∉ m.map Prod.fst := by
  induction m with
  | nil => simp [get_nil]
  | cons e m ih =>
    rw [get_cons, List.map_cons, List.mem_cons]
    by_cases h : e.1 = k
    · simp [h]
    · rw [if_neg h, ih]
      constructor
      · rintro h1 (h2 | h2)
        · exact h h2.symm
        · exact h1 h2
      · intro h1 h2; exact h1 (Or.inr h2)

theorem any_key (m : StrMap β) (k : String) : m.any (fun e => e.1 == k) = true ↔ k ∈ m.map Prod.fst := by
  simp [List.any_eq_true]

theorem get_mapped (m : StrMap β) (k' : String) (x : β) (k : String) :
    get (m.map (fun e => if e.1 == k' then (e.1, x) else e)) k =
      if k = k' ∧ k' ∈ m.map Prod.fst then some x else get m k := by
  induction m with
  | nil => simp [get_nil]
  | cons e m ih =>
    rw [List.map_cons, get_cons, get_cons, ih]
    by_cases h1 : e.1 = k'
    · subst h1
      simp only [beq_self_eq_true, if_true, List.map_cons, List.mem_cons, true_or, and_true]
      by_cases h2 : e.1 = k
      · simp [h2]
      · have h3 : ¬ k = e.1 := fun h => h2 h.symm
        simp [h2, h3]
    · have hb : (e.1 == k') = false := by simpa using h1
      simp only [hb, Bool.false_eq_true, if_false]
      by_cases h2 : e.1 = k
      · subst h2
        simp [h1]
      · simp only [h2, if_false, List.map_cons, List.mem_cons]
        have h3 : ¬ k' = e.1 := fun h => h1 h.symm
        by_cases hk : k = k' ∧ k' ∈ m.map Prod.fst
        · rw [if_pos hk, if_pos ⟨hk.1, Or.inr hk.2⟩]
        · rw [if_neg hk, if_neg]
          rintro ⟨a, b | b⟩
          · exact h3 b
          · exact hk ⟨a, b⟩

theorem get_put (m : StrMap β) (k' : String) (x : β) (k : String) :
    get (put m k' x) k = if k = k' then some x else get m k := by
  unfold put
  by_cases h : m.any (fun e => e.1 == k') = true
  · rw [if_pos h, get_mapped]
    have := (any_key m k').1 h
    simp only [this, and_true]
  · rw [if_neg h, get_append_single]
    have h' : k' ∉ m.map Prod.fst := fun hc => h ((any_key m k').2 hc)
    by_cases hk : k = k'
    · subst hk
      rw [(get_eq_none_iff m k).2 h']
      simp
    · have h3 : ¬ k' = k := fun h => hk h.symm
      simp [hk, h3]

theorem keys_put (m : StrMap β) (k' : String) (x : β) :
    (put m k' x).map Prod.fst = if k' ∈ m.map Prod.fst then m.map Prod.fst else m.map Prod.fst ++ [k'] := by
  unfold put
  by_cases h : m.any (fun e => e.1 == k') = true
  · rw [if_pos h, if_pos ((any_key m k').1 h), List.map_map]
    refine List.map_congr_left fun e _ => ?_
    simp only [Function.comp]
    split <;> rfl
  · have h' : k' ∉ m.map Prod.fst := fun hc => h ((any_key m k').2 hc)
    rw [if_neg h, if_neg h']
    simp

theorem nodup_put (m : StrMap β) (k' : String) (x : β) (h : (m.map Prod.fst).Nodup) :
    ((put m k' x).map Prod.fst).Nodup := by
  rw [keys_put]
  split
  · exact h
  · next hn => exact List.Nodup.append h (by simp) (by simpa [List.disjoint_singleton] using hn)

end StrMap

namespace Sol

theorem sparseVars_snoc (name value) (vs : List ℕ) (w : ℕ) :
    sparseVars name value (vs ++ [w]) =
      if value w ≠ 0 then (sparseVars name value vs).put (name w) (value w) else sparseVars name value vs := by
  unfold sparseVars
  rw [List.foldl_append]
  rfl

theorem sparseVars_nodup (name value) (vs : List ℕ) : ((sparseVars name value vs).map Prod.fst).Nodup := by
  induction vs using List.reverseRecOn with
  | nil => simp [sparseVars]
  | append_singleton l w ih =>
    rw [sparseVars_snoc]
    split
    · exact StrMap.nodup_put _ _ _ ih
    · exact ih

/-- What a sparse export contains, for distinct names. -/
theorem sparseVars_get (name : ℕ → String) (value : ℕ → ℤ) (vs : List ℕ)
    (hinj : ∀ v ∈ vs, ∀ w ∈ vs, name v = name w → v = w) :
    (∀ v ∈ vs, (sparseVars name value vs).get (name v) = if value v ≠ 0 then some (value v) else none) ∧
    ∀ k, (∀ v ∈ vs, name v ≠ k) → (sparseVars name value vs).get k = none := by
  induction vs using List.reverseRecOn with
  | nil => exact ⟨by simp, fun k _ => rfl⟩
  | append_singleton l w ih =>
    obtain ⟨i1, i2⟩ := ih (fun v hv u hu => hinj v (by simp [hv]) u (by simp [hu]))
    rw [sparseVars_snoc]
    constructor
    · intro v hv
      by_cases hw : value w ≠ 0
      · rw [if_pos hw, StrMap.get_put]
        by_cases hvw : name v = name w
        · have := hinj v hv w (by simp) hvw
          subst this
          rw [if_pos rfl, if_pos hw]
        · rw [if_neg hvw]
          have hvl : v ∈ l := by
            rcases List.mem_append.1 hv with h | h
            · exact h
            · exact absurd (by rw [List.mem_singleton.1 h]) hvw
          exact i1 v hvl
      · rw [if_neg hw]
        by_cases hvl : v ∈ l
        · exact i1 v hvl
        · have : v = w := by
            rcases List.mem_append.1 hv with h | h
            · exact absurd h hvl
            · exact List.mem_singleton.1 h
          subst this
          rw [if_neg hw]
          refine i2 _ fun u hu he => ?_
          have := hinj u (by simp [hu]) v (by simp) he
          exact hvl (this ▸ hu)
    · intro k hk
      have h1 := i2 k (fun v hv => hk v (by simp [hv]))
      split
      · rw [StrMap.get_put, if_neg (fun h => hk w (by simp) h.symm)]
        exact h1
      · exact h1

/-- The effect of the imports by name. -/
theorem assignAll_eq (name : ℕ → String) (s : StrMap ℤ) (vs : List ℕ) (hn : vs.Nodup) (m : MState)
    (hf : ∀ v ∈ vs, (m.var v).fixed = true → (m.var v).value = (s.get (name v)).getD 0) :
    assignAll name s vs m = some { m with var := fun v => if v ∈ vs then
      { m.var v with value := (s.get (name v)).getD 0 }.updateMargin else m.var v } := by
  induction vs generalizing m with
  | nil => simp [assignAll]
  | cons w l ih =>
    obtain ⟨hw, hl⟩ := List.nodup_cons.1 hn
    unfold assignAll
    have : (m.var w).setValue ((s.get (name w)).getD 0) = some { m.var w with value := (s.get (name w)).getD 0 }.updateMargin := by
      unfold Var.setValue
      rw [if_neg]
      rintro ⟨h1, h2⟩
      exact h1 (hf w (by simp) h2)
    rw [this, Option.bind_some, ih hl]
    · congr 1
      congr 1
      funext v
      by_cases hv : v ∈ l
      · have hne : v ≠ w := fun h => hw (h ▸ hv)
        simp only [hv, if_true, List.mem_cons, or_true]
        rw [Function.update_of_ne hne]
      · simp only [hv, if_false, List.mem_cons, or_false]
        by_cases hne : v = w
        · subst hne; simp
        · simp [hne]
    · intro v hv
      have hne : v ≠ w := fun h => hw (h ▸ hv)
      rw [show ({ m with var := Function.update m.var w _ } : MState).var v = m.var v from Function.update_of_ne hne _ _]
      exact hf v (by simp [hv])

/-- They throw as soon as a fixed variable would change. -/
theorem assignAll_none (name : ℕ → String) (s : StrMap ℤ) (vs : List ℕ) (hn : vs.Nodup) (m : MState) (v : ℕ) (hv : v ∈ vs)
    (hf : (m.var v).fixed = true) (hne : (m.var v).value ≠ (s.get (name v)).getD 0) : assignAll name s vs m = none := by
  induction vs generalizing m with
  | nil => simp at hv
  | cons w l ih =>
    obtain ⟨hw, hl⟩ := List.nodup_cons.1 hn
    unfold assignAll
    rcases List.mem_cons.1 hv with rfl | hv
    · have : (m.var v).setValue ((s.get (name v)).getD 0) = none := by
        unfold Var.setValue
        rw [if_pos ⟨hne, hf⟩]
      rw [this, Option.bind_none]
    · cases hx : (m.var w).setValue ((s.get (name w)).getD 0) with
      | none => rfl
      | some x =>
        rw [Option.bind_some]
        have hvw : v ≠ w := fun h => hw (h ▸ hv)
        refine ih hl _ hv ?_ ?_
        · rw [show ({ m with var := Function.update m.var w x } : MState).var v = m.var v from Function.update_of_ne hvw _ _]
          exact hf
        · rw [show ({ m with var := Function.update m.var w x } : MState).var v = m.var v from Function.update_of_ne hvw _ _]
          exact hne

/-- Verification changes variables and the records of the selections only. -/
def Frame (m m' : MState) : Prop := ∃ var sel, m' = { m with var := var, selected := sel }

theorem Frame.refl (m : MState) : Frame m m := ⟨m.var, m.selected, rfl⟩

theorem Frame.trans {a b c : MState} (h : Frame a b) (g : Frame b c) : Frame a c := by
  obtain ⟨v, s, rfl⟩ := h
  obtain ⟨v', s', rfl⟩ := g
  exact ⟨v', s', rfl⟩

theorem setVar_frame (m : MState) (v x) : Frame m (Verifier.setVar m v x) := ⟨_, _, rfl⟩

theorem setAll_frame (m : MState) (vs x) : Frame m (Verifier.setAll m vs x) := by
  unfold Verifier.setAll
  induction vs generalizing m with
  | nil => exact Frame.refl _
  | cons v l ih => exact (setVar_frame m v x).trans (ih _)

theorem settle_frame (correct m rel s vs ones fixedOnes r)
    (h : Verifier.settle correct m rel s vs ones fixedOnes = some r) : Frame m r.1 := by
  unfold Verifier.settle at h
  split at h
  · split at h
    · split at h
      · cases h
      · cases h; exact (setAll_frame m _ 0).trans (setVar_frame _ _ _)
    · cases h
  · split at h
    · split at h
      · cases h
      · split at h
        · cases h
        · cases h; exact (setAll_frame m _ 0).trans (setVar_frame _ _ _)
    · split at h
      · split at h
        · cases h
        · split at h
          · cases h
          · cases h; exact setVar_frame _ _ _
      · cases h; exact ⟨_, _, rfl⟩

theorem selectionStep_frame (correct m rel s r) (h : Verifier.selectionStep correct m rel s = some r) : Frame m r.1 := by
  unfold Verifier.selectionStep at h
  dsimp only at h
  split at h
  · cases h
  · split at h
    · cases h
    · split at h
      · cases h
      · exact (setAll_frame m _ 0).trans (settle_frame _ _ _ _ _ _ _ _ h)

theorem selections_frame (correct) (sels : List ℕ) (rel m m') (h : Verifier.selections correct sels rel m = some m') : Frame m m' := by
  induction sels generalizing rel m with
  | nil => simp only [Verifier.selections, Option.some.injEq] at h; rw [← h]; exact Frame.refl _
  | cons s l ih =>
    simp only [Verifier.selections, Option.bind_eq_bind] at h
    obtain ⟨r, h1, h2⟩ := Option.bind_eq_some_iff.1 h
    exact (selectionStep_frame _ _ _ _ _ h1).trans (ih _ _ h2)

theorem overVars_frame (p f) (vs : List ℕ) (m m') (h : Verifier.overVars p f vs m = some m') : Frame m m' := by
  induction vs generalizing m with
  | nil => simp only [Verifier.overVars, Option.some.injEq] at h; rw [← h]; exact Frame.refl _
  | cons v l ih =>
    simp only [Verifier.overVars] at h
    split at h
    · obtain ⟨x, h1, h2⟩ := Option.bind_eq_some_iff.1 h
      exact Frame.trans ⟨_, _, rfl⟩ (ih _ h2)
    · exact ih _ h

theorem verifyAll_frame (correct sels m m') (h : Verifier.verifyAll correct sels m = some m') : Frame m m' := by
  unfold Verifier.verifyAll at h
  simp only [Option.bind_eq_bind] at h
  obtain ⟨a, h1, h⟩ := Option.bind_eq_some_iff.1 h
  obtain ⟨b, h2, h3⟩ := Option.bind_eq_some_iff.1 h
  exact ((selections_frame _ _ _ _ _ h1).trans (overVars_frame _ _ _ _ _ h2)).trans (overVars_frame _ _ _ _ _ h3)

theorem sumViolation_eq (m : MState) : sumViolation m = (m.conIds.map (fun c => (m.con c).violation)).sum := by
  unfold sumViolation
  have : ∀ (l : List ℕ) (a : ℚ), l.foldl (fun s c => s + (m.con c).violation) a = a + (l.map (fun c => (m.con c).violation)).sum := by
    intro l
    induction l with
    | nil => intro a; simp
    | cons c l ih => intro a; rw [List.foldl_cons, ih, List.map_cons, List.sum_cons]; ring
  rw [this]; simp

end Sol
end Printemps
