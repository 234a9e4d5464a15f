import Verif.Props.C74

/-! # Lemmas: every selection keeps exactly one variable at 1 -/

namespace Printemps.Nbhd
open Spec Search Moves

variable {ν μ : Type} [LinearOrder ν] [LinearOrder μ]

/-- Every selection has exactly one variable with value 1, the others are 0, and no other variable is recorded as the
selected one. -/
def Hot (m0 : MState) (sels : List ℕ) (sel : ℕ → Option ℕ) (σ : ℕ → ℤ) : Prop :=
  ∀ s ∈ sels, ∃ x ∈ (m0.con s).expr.vars, σ x = 1 ∧ (∀ y ∈ (m0.con s).expr.vars, y ≠ x → σ y = 0) ∧
    ∀ u, sel s = some u → u = x

/-- What a move does to the selections: nothing, or the selected variable gets 0 and another one gets 1. -/
def Swaps (m0 : MState) (sel : ℕ → Option ℕ) (alts : List (ℕ × ℤ)) : Prop :=
  ∀ s, (∀ a ∈ alts, (m0.var a.1).selection ≠ some s) ∨
    ∃ u v, sel s = some u ∧ u ≠ v ∧ (u, 0) ∈ alts ∧ (v, 1) ∈ alts ∧ (m0.var v).selection = some s ∧
      ∀ a ∈ alts, (m0.var a.1).selection = some s → a = (u, 0) ∨ a = (v, 1)

theorem Swaps.none {m0 : MState} {sel : ℕ → Option ℕ} {alts : List (ℕ × ℤ)}
    (h : ∀ a ∈ alts, ∀ s, (m0.var a.1).selection ≠ some s) : Swaps m0 sel alts :=
  fun s => Or.inl fun a ha => h a ha s

theorem Swaps.append {m0 : MState} {sel : ℕ → Option ℕ} {A B : List (ℕ × ℤ)} (hA : Swaps m0 sel A) (hB : Swaps m0 sel B)
    (hn : ((A ++ B).map Prod.fst).Nodup) : Swaps m0 sel (A ++ B) := by
  intro s
  rcases hA s with h1 | ⟨u, v, p1, p2, p3, p4, p5, p6⟩
  · rcases hB s with h2 | ⟨u, v, p1, p2, p3, p4, p5, p6⟩
    · left
      intro a ha
      rcases List.mem_append.1 ha with ha | ha
      · exact h1 a ha
      · exact h2 a ha
    · right
      refine ⟨u, v, p1, p2, by simp [p3], by simp [p4], p5, fun a ha hs => ?_⟩
      rcases List.mem_append.1 ha with ha | ha
      · exact absurd hs (h1 a ha)
      · exact p6 a ha hs
  · rcases hB s with h2 | ⟨u', v', q1, q2, q3, q4, q5, q6⟩
    · right
      refine ⟨u, v, p1, p2, by simp [p3], by simp [p4], p5, fun a ha hs => ?_⟩
      rcases List.mem_append.1 ha with ha | ha
      · exact p6 a ha hs
      · exact absurd hs (h2 a ha)
    · rw [p1] at q1
      obtain rfl := Option.some.inj q1
      rw [List.map_append, List.nodup_append] at hn
      exact absurd rfl (hn.2.2 u (List.mem_map.2 ⟨_, p3, rfl⟩) u (List.mem_map.2 ⟨_, q3, rfl⟩))

/-- The values after such a move; `sel'` records the swaps. -/
theorem Hot.swap {m0 : MState} {sels : List ℕ} {sel sel' : ℕ → Option ℕ} {σ : ℕ → ℤ} {alts : List (ℕ × ℤ)}
    (h : Hot m0 sels sel σ) (hptr : ∀ s ∈ sels, ∀ v ∈ (m0.con s).expr.vars, (m0.var v).selection = some s)
    (hown : ∀ v s, (m0.var v).selection = some s → v ∈ (m0.con s).expr.vars)
    (hn : (alts.map Prod.fst).Nodup) (hw : Swaps m0 sel alts)
    (hkeep : ∀ s, (∀ a ∈ alts, (m0.var a.1).selection ≠ some s) → sel' s = sel s)
    (hset : ∀ s u v, sel s = some u → u ≠ v → (u, 0) ∈ alts → (v, 1) ∈ alts → (m0.var v).selection = some s →
      (∀ a ∈ alts, (m0.var a.1).selection = some s → a = (u, 0) ∨ a = (v, 1)) → sel' s = some v) :
    Hot m0 sels sel' (applyMove σ alts) := by
  intro s hs
  obtain ⟨x, hx, h1, h2, h3⟩ := h s hs
  rcases hw s with hno | ⟨u, v, p1, p2, p3, p4, p5, p6⟩
  · have key : ∀ y ∈ (m0.con s).expr.vars, applyMove σ alts y = σ y := by
      intro y hy
      refine Expr.applyMove_of_not_mem _ _ _ fun hm => ?_
      obtain ⟨a, ha, rfl⟩ := List.mem_map.1 hm
      exact hno a ha (hptr s hs _ hy)
    exact ⟨x, hx, by rw [key x hx, h1], fun y hy hne => by rw [key y hy, h2 y hy hne], fun w hw' => h3 w (by
      rw [← hkeep s hno]; exact hw')⟩
  · obtain rfl := h3 u p1
    refine ⟨v, hown v s p5, Expr.applyMove_of_mem σ alts hn _ p4, fun y hy hne => ?_, fun w hw' => ?_⟩
    · by_cases hk : y ∈ alts.map Prod.fst
      · obtain ⟨a, ha, rfl⟩ := List.mem_map.1 hk
        rcases p6 a ha (hptr s hs _ hy) with e | e
        · rw [e]; exact Expr.applyMove_of_mem σ alts hn _ p3
        · rw [e] at hne; exact absurd rfl hne
      · rw [Expr.applyMove_of_not_mem _ _ _ hk]
        refine h2 y hy fun e => ?_
        subst e
        exact hk (List.mem_map.2 ⟨_, p3, rfl⟩)
    · rw [hset s u v p1 p2 p3 p4 p5 p6] at hw'
      exact (Option.some.inj hw').symm

/-! ## The recorded variables after a move -/

theorem selectMarked_keep (m : MState) (alts : List (ℕ × ℤ)) (s : ℕ) (h : ∀ a ∈ alts, (m.var a.1).selection ≠ some s) :
    (selectMarked m alts).selected s = m.selected s := by
  show alts.foldl _ m.selected s = _
  have key : ∀ (al : List (ℕ × ℤ)) (sel : ℕ → Option ℕ), (∀ a ∈ al, (m.var a.1).selection ≠ some s) →
      al.foldl (fun (sel : ConId → Option VarId) (a : VarId × ℤ) =>
        if (m.var a.1).sense = .selection ∧ a.2 = 1 then
          match (m.var a.1).selection with
          | some s => Function.update sel s (some a.1)
          | none => sel
        else sel) sel s = sel s := by
    intro al
    induction al with
    | nil => intro sel _; rfl
    | cons a al ih =>
      intro sel hal
      rw [List.foldl_cons, ih _ (fun b hb => hal b (by simp [hb]))]
      split
      · cases hs' : (m.var a.1).selection with
        | none => rfl
        | some s' =>
          have hne : s ≠ s' := fun e => hal a (by simp) (by rw [hs', e])
          exact Function.update_of_ne hne _ _
      · rfl
  exact key alts m.selected h

theorem selectMarked_set (m : MState) (alts : List (ℕ × ℤ)) (s u v : ℕ) (hv : (v, 1) ∈ alts)
    (hsen : (m.var v).sense = .selection) (hsel : (m.var v).selection = some s)
    (h : ∀ a ∈ alts, (m.var a.1).selection = some s → a = (u, 0) ∨ a = (v, 1)) :
    (selectMarked m alts).selected s = some v := by
  show alts.foldl _ m.selected s = _
  have key : ∀ (al : List (ℕ × ℤ)) (sel : ℕ → Option ℕ),
      (∀ a ∈ al, (m.var a.1).selection = some s → a = (u, 0) ∨ a = (v, 1)) →
      al.foldl (fun (sel : ConId → Option VarId) (a : VarId × ℤ) =>
        if (m.var a.1).sense = .selection ∧ a.2 = 1 then
          match (m.var a.1).selection with
          | some s => Function.update sel s (some a.1)
          | none => sel
        else sel) sel s = if (v, 1) ∈ al then some v else sel s := by
    intro al
    induction al with
    | nil => intro sel _; simp
    | cons a al ih =>
      intro sel hal
      rw [List.foldl_cons, ih _ (fun b hb => hal b (by simp [hb]))]
      by_cases hm : (v, 1) ∈ al
      · rw [if_pos hm, if_pos (by simp [hm])]
      · rw [if_neg hm]
        by_cases he : a = (v, 1)
        · subst he
          rw [if_pos (show (v, (1 : ℤ)) ∈ (v, 1) :: al from by simp)]
          simp only [hsen, hsel, and_self, if_true, Function.update_self]
        · rw [if_neg (show (v, (1 : ℤ)) ∉ a :: al from by
            simp only [List.mem_cons, not_or]; exact ⟨fun e => he e.symm, hm⟩)]
          split
          · rename_i h1
            cases hs' : (m.var a.1).selection with
            | none => rfl
            | some s' =>
              have hne : s ≠ s' := fun e => by
                rcases hal a (by simp) (by rw [hs', e]) with e' | e'
                · rw [e'] at h1; exact absurd h1.2 (by simp)
                · exact he e'
              exact Function.update_of_ne hne _ _
          · rfl
  exact (key alts m.selected h).trans (if_pos hv)

theorem updateMove_selected_eq (m : MState) (mv : Move) : (m.updateMove mv).selected =
    if mv.sense = .selection then
      match mv.alterations with
      | _ :: a :: _ =>
        match (m.var a.1).selection with
        | some s => Function.update m.selected s (some a.1)
        | none => m.selected
      | _ => m.selected
    else m.selected := by
  have hobj : ∀ al, (m.updateObjMove al).selected = m.selected ∧ (m.updateObjMove al).var = m.var := by
    intro al; unfold MState.updateObjMove; split <;> exact ⟨rfl, rfl⟩
  show (MState.updateSelected _ mv).selected = _
  set n := (((m.updateObjMove mv.alterations).updateConsMove mv).updateExprsMove mv.alterations).updateVarsMove mv.alterations
  have hsel : n.selected = m.selected := (hobj _).1
  have hptr : ∀ v, (n.var v).selection = (m.var v).selection := by
    intro v
    show ((mv.alterations.foldl _ (m.updateObjMove mv.alterations).var) v).selection = _
    rw [fold_var_selection, (hobj _).2]
  unfold MState.updateSelected
  by_cases hk : mv.sense = .selection
  · rw [if_pos hk, if_pos hk]
    split
    · rename_i a b l hl
      cases hs : (m.var b.1).selection with
      | none => simp only [hl, hptr, hs]; exact hsel
      | some s => simp only [hl, hptr, hs]; rw [hsel]
    · rename_i h
      split
      · rename_i a b l hl; exact absurd hl (h a b l)
      · exact hsel
  · rw [if_neg hk, if_neg hk]; exact hsel

theorem fold_sense (alts : List (ℕ × ℤ)) (var : ℕ → Var) (v) :
    (alts.foldl (fun var a => Function.update var a.1 ((var a.1).setValueIfMutable a.2)) var v).sense = (var v).sense := by
  induction alts generalizing var with
  | nil => rfl
  | cons d l ih =>
    rw [List.foldl_cons, ih]
    by_cases h : v = d.1
    · subst h; rw [Function.update_self, (Verifier.keeps_mutable _ _).sense]
    · rw [Function.update_of_ne h]

theorem offer_selected (h : Holder Sol.Dense) (m : MState) (sc : Score) : (Search.offer h m sc).model.selected = m.selected := by
  obtain ⟨-, -, e3⟩ := C11.model_overload_agrees Search.refresh Sol.exportDense h m sc
  show (h.tryUpdateModel Search.refresh Sol.exportDense m sc).2.1.selected = _
  rw [e3]; split <;> rfl

theorem update_selected (m : MState) : m.update.selected = m.selected := by
  unfold MState.update MState.updateObj; split <;> rfl

end Printemps.Nbhd
