import Verif.Model.Neighborhood
import Verif.Lemmas.Moves
import Verif.Props.C36
import Verif.Props.C64
import Verif.Props.C66

/-! # Lemmas: related constraints of moves, selected variables during a search -/

namespace Printemps.Nbhd
open Moves Chain Spec Search

variable {ν μ : Type} [LinearOrder ν] [LinearOrder μ]

theorem mem_related (name : ℕ → ν) (m : MState) (v c : ℕ) :
    c ∈ related name m v ↔ c ∈ m.conIds ∧ v ∈ (m.con c).expr.terms.map Prod.fst := by
  unfold related
  rw [C64.mem_sortUnique, MState.relatedOf, List.mem_filter, decide_eq_true_eq]; rfl

theorem related_nodup (name : ℕ → ν) (m : MState) (hn : m.conIds.Nodup) (v : ℕ) : (related name m v).Nodup := by
  unfold related sortUnique
  exact ((List.perm_insertionSort _ _).nodup_iff.2 (hn.filter _)).sublist (C64.unique_sublist _ _)

theorem insertNew_spec (own : ℕ) (cs : List ℕ) : ∀ acc : List ℕ, acc.Nodup →
    (insertNew own acc cs).Nodup ∧ ∀ c, c ∈ insertNew own acc cs ↔ c ∈ acc ∨ (c ∈ cs ∧ c ≠ own) := by
  induction cs with
  | nil => intro acc h; exact ⟨h, fun c => by simp [insertNew]⟩
  | cons a cs ih =>
    intro acc h
    have hdef : insertNew own acc (a :: cs) = insertNew own (if a = own ∨ a ∈ acc then acc else acc ++ [a]) cs := rfl
    rw [hdef]
    by_cases ha : a = own ∨ a ∈ acc
    · rw [if_pos ha]
      obtain ⟨h1, h2⟩ := ih acc h
      refine ⟨h1, fun c => ?_⟩
      rw [h2, List.mem_cons]
      constructor
      · rintro (h | h)
        · exact Or.inl h
        · exact Or.inr ⟨Or.inr h.1, h.2⟩
      · rintro (h | ⟨rfl | h, h'⟩)
        · exact Or.inl h
        · exact Or.inl (ha.resolve_left h')
        · exact Or.inr ⟨h, h'⟩
    · rw [if_neg ha]
      push Not at ha
      have hn : (acc ++ [a]).Nodup := by
        rw [List.nodup_append]
        exact ⟨h, by simp, fun x hx y hy e => ha.2 (by rw [List.mem_singleton.1 hy] at e; rw [← e]; exact hx)⟩
      obtain ⟨h1, h2⟩ := ih _ hn
      refine ⟨h1, fun c => ?_⟩
      rw [h2, List.mem_append, List.mem_singleton, List.mem_cons]
      constructor
      · rintro ((h | rfl) | h)
        · exact Or.inl h
        · exact Or.inr ⟨Or.inl rfl, ha.1⟩
        · exact Or.inr ⟨Or.inr h.1, h.2⟩
      · rintro (h | ⟨rfl | h, h'⟩)
        · exact Or.inl (Or.inl h)
        · exact Or.inl (Or.inr rfl)
        · exact Or.inr ⟨h, h'⟩

theorem mem_orderCons (name : ℕ → ν) (m : MState) (few : Bool) (cs : List ℕ) (c : ℕ) :
    c ∈ orderCons name m few cs ↔ c ∈ cs := by
  unfold orderCons
  cases few <;> simp [List.mem_insertionSort]

theorem mem_orderVars (name : ℕ → ν) (vname : ℕ → μ) (m : MState) (vs : List ℕ) (v : ℕ) :
    v ∈ orderVars name vname m vs ↔ v ∈ vs := by
  unfold orderVars
  simp [List.mem_insertionSort]

/-- The list stored with a selection: each constraint once, and exactly the constraints, other than its own, in which
one of its variables occurs. -/
theorem selectionRelated_spec (name : ℕ → ν) (vname : ℕ → μ) (m : MState) (s : ℕ) :
    (selectionRelated name vname m s).Nodup ∧ ∀ c, c ∈ selectionRelated name vname m s ↔
      c ≠ s ∧ c ∈ m.conIds ∧ ∃ v ∈ (m.con s).expr.vars, v ∈ (m.con c).expr.terms.map Prod.fst := by
  have key : ∀ (n : ℕ) (vs : List ℕ) (acc : List ℕ), acc.Nodup →
      (vs.foldl (fun acc v => insertNew s acc (orderCons name m (decide (acc.length < n)) (related name m v))) acc).Nodup ∧
      ∀ c, c ∈ vs.foldl (fun acc v => insertNew s acc (orderCons name m (decide (acc.length < n)) (related name m v))) acc ↔
        c ∈ acc ∨ (c ≠ s ∧ ∃ v ∈ vs, c ∈ related name m v) := by
    intro n vs
    induction vs with
    | nil => intro acc h; exact ⟨h, fun c => by simp⟩
    | cons v vs ih =>
      intro acc h
      rw [List.foldl_cons]
      obtain ⟨h1, h2⟩ := insertNew_spec s (orderCons name m (decide (acc.length < n)) (related name m v)) acc h
      obtain ⟨h3, h4⟩ := ih _ h1
      refine ⟨h3, fun c => ?_⟩
      rw [h4, h2, mem_orderCons]
      constructor
      · rintro ((h | ⟨h, h'⟩) | ⟨h, w, hw, h'⟩)
        · exact Or.inl h
        · exact Or.inr ⟨h', v, by simp, h⟩
        · exact Or.inr ⟨h, w, by simp [hw], h'⟩
      · rintro (h | ⟨h, w, hw, h'⟩)
        · exact Or.inl (Or.inl h)
        · rcases List.mem_cons.1 hw with rfl | hw
          · exact Or.inl (Or.inr ⟨h', h⟩)
          · exact Or.inr ⟨h, w, hw, h'⟩
  obtain ⟨h1, h2⟩ := key (((orderVars name vname m (SelectionExtract.members m s)).flatMap (related name m)).dedup.length / 2)
    (orderVars name vname m (SelectionExtract.members m s)) [] (by simp)
  refine ⟨h1, fun c => (h2 c).trans ?_⟩
  simp only [List.not_mem_nil, false_or, mem_orderVars, mem_related]
  constructor
  · rintro ⟨h, v, hv, h3, h4⟩; exact ⟨h, h3, v, hv, h4⟩
  · rintro ⟨h, h3, v, hv, h4⟩; exact ⟨h, v, hv, h3, h4⟩

/-! ## The selected variables during a search -/

/-- The selection pointers are those of `m0`; the selected variable of a selection belongs to it and is not fixed. -/
structure Tied (m0 m : MState) : Prop where
  ptr : ∀ v, (m.var v).selection = (m0.var v).selection
  chosen : ∀ s u, m.selected s = some u → (m0.var u).selection = some s ∧ (m0.var u).fixed = false

theorem fold_dep_selection (deps : List (ℕ × ℕ)) (f : ℕ → ℚ) (var : ℕ → Var) (v) :
    (deps.foldl (fun var d => Function.update var d.1 ((var d.1).updateDependent (f d.2))) var v).selection =
      (var v).selection := by
  induction deps generalizing var with
  | nil => rfl
  | cons d l ih =>
    rw [List.foldl_cons, ih]
    by_cases h : v = d.1
    · subst h; rw [Function.update_self]; rfl
    · rw [Function.update_of_ne h]

theorem fold_var_selection (alts : List (ℕ × ℤ)) (var : ℕ → Var) (v) :
    (alts.foldl (fun var a => Function.update var a.1 ((var a.1).setValueIfMutable a.2)) var v).selection =
      (var v).selection := by
  induction alts generalizing var with
  | nil => rfl
  | cons d l ih =>
    rw [List.foldl_cons, ih]
    by_cases h : v = d.1
    · subst h; rw [Function.update_self, (Verifier.keeps_mutable _ _).selection]
    · rw [Function.update_of_ne h]

theorem Tied.update {m0 m : MState} (h : Tied m0 m) : Tied m0 m.update := by
  have e1 : m.update.var = m.updateExprs.updateDependents.var := by
    unfold MState.update MState.updateObj; split <;> rfl
  have e2 : m.update.selected = m.selected := by
    unfold MState.update MState.updateObj; split <;> rfl
  refine ⟨fun v => ?_, fun s u hu => h.chosen s u (by rw [← e2]; exact hu)⟩
  rw [e1, ← h.ptr v]
  exact fold_dep_selection m.dependents (fun i => (m.updateExprs.uexpr i).expr.value) m.var v

theorem Tied.refresh {m0 m : MState} (h : Tied m0 m) : Tied m0 (refresh m) :=
  ⟨fun v => (fold_dep_selection m.dependents (fun i => (m.updateExprs.uexpr i).expr.value) m.var v).trans (h.ptr v),
    fun s u hu => h.chosen s u hu⟩

theorem Tied.offer {m0 m : MState} (h : Tied m0 m) (hd : Holder Sol.Dense) (sc : Score) : Tied m0 (offer hd m sc).model := by
  obtain ⟨-, -, e3⟩ := C11.model_overload_agrees Search.refresh Sol.exportDense hd m sc
  have hm : (Search.offer hd m sc).model = m ∨ (Search.offer hd m sc).model = Search.refresh m := by
    show (hd.tryUpdateModel Search.refresh Sol.exportDense m sc).2.1 = _ ∨
      (hd.tryUpdateModel Search.refresh Sol.exportDense m sc).2.1 = _
    rw [e3]; split <;> simp
  rcases hm with hm | hm <;> rw [hm]
  · exact h
  · exact h.refresh

theorem updateMove_selected (m : MState) (mv : Move) : (m.updateMove mv).selected = m.selected ∨
    ∃ a b l s, mv.alterations = a :: b :: l ∧ (m.var b.1).selection = some s ∧
      (m.updateMove mv).selected = Function.update m.selected s (some b.1) := by
  have hobj : ∀ al, (m.updateObjMove al).selected = m.selected ∧ (m.updateObjMove al).var = m.var := by
    intro al; unfold MState.updateObjMove; split <;> exact ⟨rfl, rfl⟩
  show (MState.updateSelected _ mv).selected = _ ∨ ∃ a b l s, _ ∧ _ ∧ (MState.updateSelected _ mv).selected = _
  set n := (((m.updateObjMove mv.alterations).updateConsMove mv).updateExprsMove mv.alterations).updateVarsMove mv.alterations
  have hsel : n.selected = m.selected := (hobj _).1
  have hptr : ∀ v, (n.var v).selection = (m.var v).selection := by
    intro v
    show ((mv.alterations.foldl _ (m.updateObjMove mv.alterations).var) v).selection = _
    rw [fold_var_selection, (hobj _).2]
  unfold MState.updateSelected
  split
  · split
    · rename_i a b l hl
      split
      · rename_i s hs
        right
        refine ⟨a, b, l, s, hl, by rw [← hptr]; exact hs, ?_⟩
        show Function.update n.selected s _ = _
        rw [hsel]
      · left; exact hsel
    · left; exact hsel
  · left; exact hsel

theorem Tied.move {m0 m : MState} (h : Tied m0 m) (mv : Move)
    (hf : ∀ a ∈ mv.alterations, (m0.var a.1).fixed = false) : Tied m0 (m.updateMove mv) := by
  obtain ⟨o, ov, q, e, -⟩ := MState.updateMove_desc m mv
  refine ⟨fun v => ?_, fun s u hu => ?_⟩
  · rw [e]
    exact (fold_var_selection mv.alterations m.var v).trans (h.ptr v)
  · rcases updateMove_selected m mv with hs | ⟨a, b, l, s', hl, hb, hs⟩
    · rw [hs] at hu; exact h.chosen s u hu
    · rw [hs] at hu
      by_cases e' : s = s'
      · subst e'
        rw [Function.update_self] at hu
        obtain rfl := Option.some.inj hu
        exact ⟨by rw [← h.ptr]; exact hb, hf b (by rw [hl]; simp)⟩
      · rw [Function.update_of_ne e'] at hu; exact h.chosen s u hu

theorem verify_selected (correct : Bool) (sels : List ℕ) (m m' : MState) (hr : C51.Ready sels m)
    (h : Verifier.verifyAll correct sels m = some m') (s : ℕ) : s ∉ sels → m'.selected s = m.selected s := by
  intro hs
  unfold Verifier.verifyAll at h
  obtain ⟨m1, h1, h2⟩ := Option.bind_eq_some_iff.1 h
  obtain ⟨m2, h3, h4⟩ := Option.bind_eq_some_iff.1 h2
  have pw : sels.Pairwise (SelectionExtract.Apart m) :=
    List.Pairwise.imp_of_mem (fun {a b} ha hb hab => hr.apart a ha b hb hab) hr.nodup
  obtain ⟨r1, -, -, e1, -, -⟩ := Verifier.selections_spec correct sels _ m m1 hr.nodup pw h1
  have hv1 : m1.varIds.Nodup := by rw [r1.varIds]; exact hr.varNodup
  obtain ⟨r2, e2, -⟩ := Verifier.overVars_spec _ _ correct
    (fun x y hxy => Verifier.step_keeps correct x y (Or.inl hxy)) m1.varIds m1 m2 hv1 h3
  obtain ⟨-, e3, -⟩ := Verifier.overVars_spec _ _ correct
    (fun x y hxy => Verifier.step_keeps correct x y (Or.inr hxy)) m2.varIds m2 m' (by rw [r2.varIds]; exact hv1) h4
  rw [e3, e2, e1 s hs]

theorem Tied.start {m0 m m1 : MState} {cfg : Cfg} {l g} (hs : C66.Setting cfg m0) (st : Stat m0 l g m) (h : Tied m0 m)
    (hptr : ∀ s ∈ cfg.sels, ∀ v ∈ (m0.con s).expr.vars, (m0.var v).selection = some s)
    (d : Sol.Dense) (hi : Sol.importDense cfg.sels d m = some m1) : Tied m0 m1 := by
  unfold Sol.importDense at hi
  set n : MState := { m with
      var := fun v => if v ∈ m.varIds then (m.var v).setValueIfMutable (d.values v) else m.var v } with hn
  have hsel : ∀ v, (n.var v).selection = (m.var v).selection := by
    intro v; show (Var.selection (if _ then _ else _)) = _
    split
    · exact (Verifier.keeps_mutable _ _).selection
    · rfl
  have st1 : Stat m0 l g n := by
    refine st.withVars _ m.selected ?_ ?_ ?_ ?_ <;> intro v <;> split <;>
      first | rfl | exact (Verifier.keeps_mutable _ _).lb | exact (Verifier.keeps_mutable _ _).ub |
        exact (Verifier.keeps_mutable _ _).sense | exact (Verifier.keeps_mutable _ _).fixed
  have hready := C66.stat_ready st1 hs.ready
  obtain ⟨e1, e2⟩ := C51.check_only_changes_nothing cfg.sels n m1 hready hi
  obtain ⟨c1, -⟩ := C51.corrected_or_rejected_partial false cfg.sels n m1 hready hi
  refine ⟨fun v => by rw [e1, hsel]; exact h.ptr v, fun s u hu => ?_⟩
  by_cases hsm : s ∈ cfg.sels
  · obtain ⟨x, hx, h1, -⟩ := (Verifier.oneHot_iff m1 _ (hready.once s hsm)).2 (c1 s hsm)
    rw [e1] at h1
    rw [e2 s hsm x hx h1] at hu
    split at hu
    · exact h.chosen s u hu
    · rename_i hf
      obtain rfl := Option.some.inj hu
      refine ⟨hptr s hsm x (by rw [C66.stat_vars st1] at hx; exact hx), ?_⟩
      rw [C66.stat_fixed st1] at hf
      simpa using hf
  · rw [verify_selected false cfg.sels n m1 hready hi s hsm] at hu
    exact h.chosen s u hu

theorem Tied.setPenalties {m0 m : MState} (h : Tied m0 m) (l g) : Tied m0 (Search.setPenalties m l g) := ⟨h.ptr, h.chosen⟩

theorem setLowerOrUpper_selection (x : Var) (b : Bool) : (x.setLowerOrUpper b).selection = x.selection := by
  unfold Var.setLowerOrUpper
  split <;> exact (Verifier.keeps_mutable _ _).selection

theorem Tied.relaxed {m0 m : MState} (h : Tied m0 m) (low) : Tied m0 (Search.relaxed m low) := by
  refine ⟨fun v => ?_, h.chosen⟩
  rw [← h.ptr v]
  show Var.selection (if _ then _ else _) = _
  split
  · exact setLowerOrUpper_selection _ _
  · rfl

theorem Tied.selectMarked {m0 m : MState} (h : Tied m0 m) (alts : List (ℕ × ℤ))
    (hf : ∀ a ∈ alts, (m0.var a.1).fixed = false) : Tied m0 (Search.selectMarked m alts) := by
  refine ⟨h.ptr, ?_⟩
  have key : ∀ (al : List (ℕ × ℤ)) (sel : ℕ → Option ℕ), (∀ a ∈ al, (m0.var a.1).fixed = false) →
      (∀ s u, sel s = some u → (m0.var u).selection = some s ∧ (m0.var u).fixed = false) →
      ∀ s u, al.foldl (fun (sel : ConId → Option VarId) (a : VarId × ℤ) =>
        if (m.var a.1).sense = .selection ∧ a.2 = 1 then
          match (m.var a.1).selection with
          | some s => Function.update sel s (some a.1)
          | none => sel
        else sel) sel s = some u → (m0.var u).selection = some s ∧ (m0.var u).fixed = false := by
    intro al
    induction al with
    | nil => intro sel _ hs; exact hs
    | cons a al ih =>
      intro sel hf hs
      rw [List.foldl_cons]
      refine ih _ (fun b hb => hf b (by simp [hb])) ?_
      intro s u hu
      split at hu
      · cases hs' : (m.var a.1).selection with
        | none => simp only [hs'] at hu; exact hs s u hu
        | some s' =>
          simp only [hs'] at hu
          by_cases e : s = s'
          · subst e
            rw [Function.update_self] at hu
            obtain rfl := Option.some.inj hu
            exact ⟨by rw [← h.ptr]; exact hs', hf a (by simp)⟩
          · rw [Function.update_of_ne e] at hu; exact hs s u hu
      · exact hs s u hu
  exact key alts m.selected hf h.chosen

theorem Tied.afterMove {m0 m : MState} (h : Tied m0 m) (mv : Move)
    (hf : ∀ a ∈ mv.alterations, (m0.var a.1).fixed = false) : Tied m0 (Search.afterMove m mv) := by
  unfold Search.afterMove
  split
  · exact (h.move mv hf).selectMarked _ hf
  · exact h.move mv hf

/-- Every event keeps the selections in order, provided moves alter no fixed variable. -/
theorem Tied.step {m0 : MState} {cfg : Cfg} {l g} {s s' : St} (hs : C66.Setting cfg m0) (st : Stat m0 l g s.model)
    (h : Tied m0 s.model)
    (hptr : ∀ s ∈ cfg.sels, ∀ v ∈ (m0.con s).expr.vars, (m0.var v).selection = some s)
    (ev : Event) (hf : ∀ mv r, ev = .move mv r → ∀ a ∈ mv.alterations, (m0.var a.1).fixed = false)
    (hst : Search.step cfg s ev = some s') : Tied m0 s'.model := by
  cases ev with
  | start d =>
    obtain ⟨m1, h1, rfl⟩ := Option.map_eq_some_iff.1 hst
    exact (Tied.start hs st h hptr d h1).update.offer _ _
  | move mv r =>
    obtain rfl := Option.some.inj hst
    exact (h.afterMove mv (hf mv r rfl)).offer _ _
  | relax low =>
    obtain rfl := Option.some.inj hst
    exact (h.relaxed low).update.offer _ _
  | penalties l g =>
    obtain rfl := Option.some.inj hst
    exact h.setPenalties l g

end Printemps.Nbhd
