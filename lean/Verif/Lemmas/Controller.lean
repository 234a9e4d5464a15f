import Verif.Model.Controller
import Verif.Lemmas.Verifier
import Verif.Props.C75
import Verif.Props.C48

/-! # Helper lemmas for the starts of the searches -/

namespace Printemps
open Spec Sol Search

namespace Verifier

/-- The selected variables after one selection was checked. -/
def upd (m : MState) (s : ℕ) (sel : ℕ → Option ℕ) : ℕ → Option ℕ :=
  if (((SelectionExtract.members m s).filter (fun v => (m.var v).value = 1)).filter (fun v => (m.var v).fixed)).length = 1 then sel
  else Function.update sel s ((SelectionExtract.members m s).filter (fun v => (m.var v).value = 1)).head?

theorem selectionStep_false (m : MState) (rel : ℕ → ℚ) (s : ℕ) (r : MState × (ℕ → ℚ)) (h : selectionStep false m rel s = some r)
    (sel' : ℕ → Option ℕ) (rel' : ℕ → ℚ) :
    ∃ rel'', selectionStep false { m with selected := sel' } rel' s = some ({ m with selected := upd m s sel' }, rel'') := by
  unfold selectionStep at h ⊢
  have hm : SelectionExtract.members { m with selected := sel' } s = SelectionExtract.members m s := rfl
  rw [hm]
  generalize hvs : SelectionExtract.members m s = vs at h ⊢
  dsimp only at h ⊢
  split at h
  · exact absurd h (by simp)
  rename_i h1
  rw [if_neg h1]
  split at h
  · exact absurd h (by simp)
  rename_i h2
  rw [if_neg h2]
  split at h
  · exact absurd h (by simp)
  rename_i h3
  rw [if_neg h3]
  have hinv : vs.filter (fun v => (m.var v).value ≠ 0 ∧ (m.var v).value ≠ 1) = [] := by
    simpa using h3
  rw [hinv] at h ⊢
  simp only [setAll, List.foldl_nil] at h ⊢
  unfold settle at h ⊢
  have hu : upd m s sel' = if ((vs.filter (fun v => (m.var v).value = 1)).filter (fun v => (m.var v).fixed)).length = 1 then sel'
      else Function.update sel' s (vs.filter (fun v => (m.var v).value = 1)).head? := by
    unfold upd; rw [hvs]
  rw [hu]
  have hfix : ∀ x ∈ (vs.filter (fun v => (m.var v).value = 1)).filter (fun v => (m.var v).fixed),
      x ∈ vs.filter (fun v => (m.var v).value = 1) ∧ (m.var x).fixed = true := by
    intro x hx; rw [List.mem_filter] at hx; simpa using hx
  generalize vs.filter (fun v => (m.var v).value = 1) = ones at h hfix ⊢
  generalize ones.filter (fun v => (m.var v).fixed) = fixedOnes at h hfix ⊢
  by_cases hl : fixedOnes.length = 1
  · rw [if_pos hl] at h ⊢
    cases fixedOnes with
    | nil => simp at hl
    | cons x l =>
      simp only [Bool.not_false, Bool.true_and, decide_eq_true_eq] at h ⊢
      split at h
      · exact absurd h (by simp)
      rename_i h4
      obtain ⟨hx, hf⟩ := hfix x (by simp)
      have hones : ones = [x] := by
        match ones, hx, h4 with
        | [y], hx, _ => simp at hx; rw [hx]
        | [], hx, _ => simp at hx
        | _ :: _ :: _, _, h4 => simp at h4
      subst hones
      rw [if_neg h4, if_pos hl]
      have : setVar { m with selected := sel' } x 1 = { m with selected := sel' } := by
        unfold setVar
        dsimp only
        rw [mutable_fixed _ _ hf, Function.update_eq_self]
      have hnil : List.filter (fun v => decide (v ≠ x)) [x] = [] := by simp
      rw [hnil]
      simp only [setAll, List.foldl_nil, this]
      exact ⟨_, rfl⟩
  · rw [if_neg hl] at h ⊢
    simp only [Bool.not_false, if_true] at h ⊢
    split at h
    · exact absurd h (by simp)
    rename_i h5
    rw [if_neg h5]
    split at h
    · exact absurd h (by simp)
    rename_i h6
    rw [if_neg h6, if_neg hl]
    exact ⟨_, rfl⟩

theorem upd_selected (m : MState) (sel0 : ℕ → Option ℕ) (s : ℕ) (sel) : upd { m with selected := sel0 } s sel = upd m s sel := rfl

theorem selections_false (ss : List ℕ) : ∀ (m : MState) (rel : ℕ → ℚ) (m' : MState), selections false ss rel m = some m' →
    ∀ (sel' : ℕ → Option ℕ) (rel' : ℕ → ℚ), selections false ss rel' { m with selected := sel' } =
      some { m with selected := ss.foldl (fun a s => upd m s a) sel' } := by
  induction ss with
  | nil => intro m rel m' _ sel' rel'; rfl
  | cons s ss ih =>
    intro m rel m' h sel' rel'
    obtain ⟨r, h1, h2⟩ := Option.bind_eq_some_iff.1 (show (selectionStep false m rel s).bind (fun r => selections false ss r.2 r.1) = some m' from h)
    obtain ⟨rel1, e1⟩ := selectionStep_false m rel s r h1 m.selected rel
    have hr : r.1 = { m with selected := upd m s m.selected } := by
      have : selectionStep false m rel s = some ({ m with selected := upd m s m.selected }, rel1) := e1
      rw [h1] at this
      rw [Option.some.inj this]
    rw [hr] at h2
    obtain ⟨rel2, e2⟩ := selectionStep_false m rel s r h1 sel' rel'
    show (selectionStep false { m with selected := sel' } rel' s).bind (fun r => selections false ss r.2 r.1) = _
    rw [e2]
    exact ih _ _ _ h2 (upd m s sel') rel2

theorem foldl_upd (m : MState) (ss : List ℕ) : ∀ sel : ℕ → Option ℕ, ss.foldl (fun a s => upd m s a) (ss.foldl (fun a s => upd m s a) sel) =
    ss.foldl (fun a s => upd m s a) sel := by
  have key : ∀ (ss : List ℕ) (sel : ℕ → Option ℕ) (t : ℕ), ss.foldl (fun a s => upd m s a) sel t =
      if t ∈ ss then upd m t sel t else sel t := by
    intro ss
    induction ss with
    | nil => intro sel t; simp
    | cons s ss ih =>
      intro sel t
      rw [List.foldl_cons, ih]
      have hne : t ≠ s → upd m s sel t = sel t := by
        intro h; unfold upd; split
        · rfl
        · rw [Function.update_of_ne h]
      by_cases hts : t = s
      · subst hts
        simp only [List.mem_cons, true_or, if_true]
        split
        · unfold upd; split
          · rfl
          · simp
        · rfl
      · simp only [List.mem_cons, hts, false_or, hne hts]
        split
        · unfold upd; split
          · exact hne hts
          · simp
        · rfl
  have idem : ∀ (a b : ℕ → Option ℕ) (t : ℕ), a t = upd m t b t → upd m t a t = upd m t b t := by
    intro a b t h
    unfold upd at h ⊢
    split at h
    · rename_i hc; rw [if_pos hc, if_pos hc]; exact h
    · rename_i hc; rw [if_neg hc, if_neg hc]; simp
  intro sel
  funext t
  have hF := key ss sel t
  rw [key ss (ss.foldl (fun a s => upd m s a) sel) t]
  by_cases ht : t ∈ ss
  · rw [if_pos ht] at hF ⊢
    rw [hF]
    exact idem _ _ _ hF
  · rw [if_neg ht]

theorem overVars_false (p : Var → Bool) (f : Var → Option Var) (hf : ∀ x y, f x = some y → y = x) (vs : List ℕ) :
    ∀ m m' : MState, overVars p f vs m = some m' → m' = m ∧ ∀ sel, overVars p f vs { m with selected := sel } = some { m with selected := sel } := by
  induction vs with
  | nil => intro m m' h; exact ⟨(Option.some.inj h).symm, fun _ => rfl⟩
  | cons v vs ih =>
    intro m m' h
    unfold overVars at h
    split at h
    · rename_i hp
      obtain ⟨x, h1, h2⟩ := Option.bind_eq_some_iff.1 h
      have hx := hf _ _ h1
      subst hx
      rw [Function.update_eq_self] at h2
      obtain ⟨k1, k2⟩ := ih m m' h2
      refine ⟨k1, fun sel => ?_⟩
      unfold overVars
      dsimp only
      rw [if_pos hp, h1, Option.bind_some, Function.update_eq_self]
      exact k2 sel
    · rename_i hp
      obtain ⟨k1, k2⟩ := ih m m' h
      refine ⟨k1, fun sel => ?_⟩
      unfold overVars
      dsimp only
      rw [if_neg hp]
      exact k2 sel

theorem binaryStep_false (x y : Var) (h : binaryStep false x = some y) : y = x := by
  unfold binaryStep at h
  split at h
  · exact (Option.some.inj h).symm
  · split at h <;> simp at h

theorem integerStep_false (x y : Var) (h : integerStep false x = some y) : y = x := by
  unfold integerStep at h
  split at h
  · exact (Option.some.inj h).symm
  · split at h <;> simp at h

/-- Checking twice is the same as checking once. -/
theorem verifyAll_twice (sels : List ℕ) (m m' : MState) (h : verifyAll false sels m = some m') : verifyAll false sels m' = some m' := by
  unfold verifyAll at h ⊢
  obtain ⟨m1, h1, h⟩ := Option.bind_eq_some_iff.1 h
  obtain ⟨m2, h2, h3⟩ := Option.bind_eq_some_iff.1 h
  obtain ⟨e2, k2⟩ := overVars_false _ _ (fun x y => binaryStep_false x y) _ _ _ h2
  subst e2
  obtain ⟨e3, k3⟩ := overVars_false _ _ (fun x y => integerStep_false x y) _ _ _ h3
  subst e3
  have key := selections_false sels m _ _ h1
  have e1 : m' = { m with selected := sels.foldl (fun a s => upd m s a) m.selected } := by
    have := key m.selected (fun _ => 0)
    have h1' : selections false sels (fun _ => 0) { m with selected := m.selected } = some m' := h1
    rw [h1'] at this
    exact Option.some.inj this
  have e4 : selections false sels (fun _ => 0) m' = some m' := by
    have := key (sels.foldl (fun a s => upd m s a) m.selected) (fun _ => 0)
    rw [foldl_upd] at this
    rw [← e1] at this
    exact this
  show ((selections false sels (fun _ => 0) m').bind _) = _
  rw [e4]
  show ((overVars _ _ m'.varIds m').bind _) = _
  rw [h2]
  exact h3

end Verifier

namespace Ctl

/-! ## Margins -/

/-- The margins of the fixed variables that are not dependent are up to date. -/
structure Settled (m0 m : MState) : Prop where
  deps : m.dependents = m0.dependents
  margin : ∀ v, v ∉ m0.dependents.map Prod.fst → (m.var v).fixed = true → (m.var v).updateMargin = m.var v

theorem margin_idem (x : Var) : x.updateMargin.updateMargin = x.updateMargin := rfl

theorem margin_mutable (x : Var) (y : ℤ) (h : x.fixed = true → x.updateMargin = x) :
    (x.setValueIfMutable y).updateMargin = x.setValueIfMutable y := by
  unfold Var.setValueIfMutable
  split
  · rename_i hf; exact h hf
  · rfl

theorem Settled.ofVars {m0 m m' : MState} (h : Settled m0 m) (hd : m'.dependents = m.dependents)
    (hv : ∀ v, m'.var v = m.var v ∨ ∃ y, m'.var v = (m.var v).setValueIfMutable y) : Settled m0 m' := by
  refine ⟨hd.trans h.deps, fun v hvd => ?_⟩
  rcases hv v with e | ⟨y, e⟩ <;> rw [e]
  · exact h.margin v hvd
  · exact fun _ => margin_mutable _ _ (h.margin v hvd)

theorem fold_dep_var (l : List (ℕ × ℕ)) (f : ℕ → ℚ) (v : ℕ) (hv : v ∉ l.map Prod.fst) : ∀ var : ℕ → Var,
    l.foldl (fun var d => Function.update var d.1 ((var d.1).updateDependent (f d.2))) var v = var v := by
  induction l with
  | nil => intro var; rfl
  | cons d l ih =>
    intro var
    simp only [List.map_cons, List.mem_cons, not_or] at hv
    rw [List.foldl_cons, ih hv.2, Function.update_of_ne hv.1]

theorem Settled.depUpdate {m0 m : MState} (h : Settled m0 m) : Settled m0 m.updateExprs.updateDependents := by
  refine ⟨h.deps, fun v hv => ?_⟩
  have : m.updateExprs.updateDependents.var v = m.var v := by
    refine fold_dep_var m.dependents (fun i => (m.updateExprs.uexpr i).expr.value) v (by rw [h.deps]; exact hv) m.var
  rw [this]; exact h.margin v hv

theorem Settled.update {m0 m : MState} (h : Settled m0 m) : Settled m0 m.update := by
  have e1 : m.update.var = m.updateExprs.updateDependents.var := by
    unfold MState.update MState.updateObj; split <;> rfl
  have e2 : m.update.dependents = m.updateExprs.updateDependents.dependents := by
    unfold MState.update MState.updateObj; split <;> rfl
  exact h.depUpdate.ofVars e2 fun v => Or.inl (by rw [e1])

theorem Settled.refresh {m0 m : MState} (h : Settled m0 m) : Settled m0 (Search.refresh m) :=
  h.depUpdate.ofVars rfl fun _ => Or.inl rfl

theorem Settled.offer {m0 m : MState} (h : Settled m0 m) (hd : Holder Dense) (sc : Score) : Settled m0 (Search.offer hd m sc).model := by
  obtain ⟨-, -, e3⟩ := C11.model_overload_agrees Search.refresh exportDense hd m sc
  have hm : (Search.offer hd m sc).model = m ∨ (Search.offer hd m sc).model = Search.refresh m := by
    show (hd.tryUpdateModel Search.refresh exportDense m sc).2.1 = _ ∨ (hd.tryUpdateModel Search.refresh exportDense m sc).2.1 = _
    rw [e3]; split <;> simp
  rcases hm with hm | hm <;> rw [hm]
  · exact h
  · exact h.refresh

theorem margin_fold (alts : List (ℕ × ℤ)) (v : ℕ) : ∀ var : ℕ → Var, ((var v).fixed = true → (var v).updateMargin = var v) →
    (alts.foldl (fun var a => Function.update var a.1 ((var a.1).setValueIfMutable a.2)) var v).fixed = true →
    (alts.foldl (fun var a => Function.update var a.1 ((var a.1).setValueIfMutable a.2)) var v).updateMargin =
      alts.foldl (fun var a => Function.update var a.1 ((var a.1).setValueIfMutable a.2)) var v := by
  induction alts with
  | nil => intro var h; exact h
  | cons a l ih =>
    intro var h
    rw [List.foldl_cons]
    refine ih _ ?_
    by_cases e : v = a.1
    · subst e; rw [Function.update_self]; exact fun _ => margin_mutable _ _ h
    · rw [Function.update_of_ne e]; exact h

theorem Settled.afterMove {m0 m : MState} (h : Settled m0 m) (mv : Move) : Settled m0 (Search.afterMove m mv) := by
  obtain ⟨sel, e⟩ := afterMove_eq m mv
  obtain ⟨o, ov, q, e2, -⟩ := MState.updateMove_desc m mv
  rw [e, e2]
  exact ⟨h.deps, fun v hv => margin_fold mv.alterations v m.var (h.margin v hv)⟩

theorem Settled.import {m0 m m1 : MState} {cfg : Cfg} {l g} (hs : C66.Setting cfg m0) (st : Stat m0 l g m) (h : Settled m0 m)
    (d : Dense) (hi : importDense cfg.sels d m = some m1) : Settled m0 m1 ∧
      m1.var = fun v => if v ∈ m.varIds then (m.var v).setValueIfMutable (d.values v) else m.var v := by
  unfold importDense at hi
  have st1 : Stat m0 l g { m with
      var := fun v => if v ∈ m.varIds then (m.var v).setValueIfMutable (d.values v) else m.var v } := by
    refine st.withVars _ m.selected ?_ ?_ ?_ ?_ <;> intro v <;> split <;>
      first | rfl | exact (Verifier.keeps_mutable _ _).lb | exact (Verifier.keeps_mutable _ _).ub |
        exact (Verifier.keeps_mutable _ _).sense | exact (Verifier.keeps_mutable _ _).fixed
  have hvar := (C51.check_only_changes_nothing cfg.sels _ m1 (C66.stat_ready st1 hs.ready) hi).1
  obtain ⟨var, sel, e⟩ := verifyAll_frame _ _ _ _ hi
  refine ⟨h.ofVars (by rw [e]) fun v => ?_, hvar⟩
  rw [hvar]
  dsimp only
  split
  · exact Or.inr ⟨_, rfl⟩
  · exact Or.inl rfl

theorem Settled.relaxed {m0 m : MState} (h : Settled m0 m) (low : ℕ → Bool) : Settled m0 (Search.relaxed m low) := by
  refine h.ofVars rfl fun v => ?_
  by_cases hv : v ∈ m.varIds
  · exact Or.inr ⟨if low v then (m.var v).lb else (m.var v).ub, if_pos hv⟩
  · exact Or.inl (if_neg hv)

/-- Every event keeps the margins in order. -/
theorem Settled.step {m0 : MState} {cfg : Cfg} {l g} {s s' : St} (hs : C66.Setting cfg m0) (st : Stat m0 l g s.model)
    (h : Settled m0 s.model) (ev : Event) (hst : Search.step cfg s ev = some s') : Settled m0 s'.model := by
  cases ev with
  | start d =>
    obtain ⟨m1, h1, rfl⟩ := Option.map_eq_some_iff.1 hst
    exact (Settled.import hs st h d h1).1.update.offer _ _
  | move mv r =>
    obtain rfl := Option.some.inj hst
    exact (h.afterMove mv).offer _ _
  | relax low =>
    obtain rfl := Option.some.inj hst
    exact (h.relaxed low).update.offer _ _
  | penalties l g =>
    obtain rfl := Option.some.inj hst
    exact ⟨h.deps, h.margin⟩

/-- Starting from a solution given by names is starting from its values. -/
theorem startFrom_eq {m0 : MState} {cfg : Cfg} {l g} {s : St} {name : ℕ → String} {cur : Sparse} {d : Dense} {m1 : MState}
    (hs : C66.Setting cfg m0) (st : Stat m0 l g s.model) (h : Settled m0 s.model)
    (hdep : ∀ v ∈ m0.dependents.map Prod.fst, (m0.var v).fixed = false)
    (hcur : ∀ v ∈ m0.varIds, (cur.entries.get (name v)).getD 0 = d.values v)
    (hfix : ∀ v ∈ m0.varIds, (m0.var v).fixed = true → (s.model.var v).value = d.values v)
    (hi : importDense cfg.sels d s.model = some m1) :
    ∃ s1, startFrom name cfg cur s = some (exportDense m1, s1) ∧ Search.step cfg s (.start (exportDense m1)) = some s1 ∧
      (∀ v ∈ m0.varIds, (exportDense m1).values v = d.values v) ∧
      ∀ v, v ∉ m0.varIds → (exportDense m1).values v = (s.model.var v).value := by
  have hvi : s.model.varIds = m0.varIds := st.varIds
  obtain ⟨-, hvar⟩ := Settled.import hs st h d hi
  obtain ⟨var, sel, e⟩ := verifyAll_frame _ _ _ _ (show Verifier.verifyAll false cfg.sels _ = some m1 from hi)
  have hvi1 : m1.varIds = m0.varIds := by rw [e]; exact hvi
  have hfx : ∀ v, (s.model.var v).fixed = (m0.var v).fixed := C66.stat_fixed st
  have hmar : ∀ v ∈ m0.varIds, (m1.var v).updateMargin = m1.var v := by
    intro v hv
    rw [hvar]
    dsimp only
    rw [if_pos (by rw [hvi]; exact hv)]
    unfold Var.setValueIfMutable
    split
    · rename_i hf
      rw [hfx] at hf
      exact h.margin v (fun hd => by rw [hdep v hd] at hf; exact absurd hf (by decide)) (by rw [hfx]; exact hf)
    · rfl
  have hval : ∀ v ∈ m0.varIds, (m1.var v).value = d.values v := by
    intro v hv
    rw [hvar]
    dsimp only
    rw [if_pos (by rw [hvi]; exact hv), (mutable_frame _ _).2.2.2.2]
    split
    · rename_i hf; rw [hfx] at hf; exact hfix v hv hf
    · rfl
  -- the import by name
  have a1 : importSparse name cfg.sels cur s.model = some m1 := by
    unfold importSparse
    rw [assignAll_eq name cur.entries s.model.varIds (by rw [hvi]; exact hs.ready.varNodup) s.model
      (fun v hv hf => by
        rw [hvi] at hv; rw [hfx] at hf
        rw [hcur v hv]; exact hfix v hv hf), Option.bind_some]
    rw [← hi]
    unfold importDense
    congr 2
    funext v
    by_cases hv : v ∈ s.model.varIds
    · rw [if_pos hv, if_pos hv]
      have hv0 : v ∈ m0.varIds := by rw [← hvi]; exact hv
      rw [hcur v hv0]
      unfold Var.setValueIfMutable
      split
      · rename_i hf
        rw [hfx] at hf
        rw [← hfix v hv0 hf]
        exact h.margin v (fun hd => by rw [hdep v hd] at hf; exact absurd hf (by decide)) (by rw [hfx]; exact hf)
      · rfl
    · rw [if_neg hv, if_neg hv]
  have a2 : importDense cfg.sels (exportDense m1) m1 = some m1 := by
    have hsame : ({ m1 with var := (fun v => if v ∈ m1.varIds then (m1.var v).setValueIfMutable ((exportDense m1).values v)
        else m1.var v) } : MState) = m1 := by
      have : (fun v => if v ∈ m1.varIds then (m1.var v).setValueIfMutable ((exportDense m1).values v) else m1.var v) = m1.var := by
        funext v
        split
        · rename_i hv
          rw [hvi1] at hv
          unfold Var.setValueIfMutable
          split
          · rfl
          · exact hmar v hv
        · rfl
      rw [this]
    unfold importDense
    rw [hsame]
    exact Verifier.verifyAll_twice cfg.sels _ m1 hi
  have a3 : importDense cfg.sels (exportDense m1) s.model = some m1 := by
    rw [← hi]
    unfold importDense
    congr 2
    funext v
    split
    · rename_i hv
      rw [hvi] at hv
      rw [show (exportDense m1).values v = d.values v from hval v hv]
    · rfl
  refine ⟨Search.offer s.holder.resetLocal m1.update (m1.update.evaluateFull { alterations := [] }), ?_, ?_, hval, fun v hv => ?_⟩
  · unfold startFrom
    rw [a1, Option.bind_some]
    simp only [Search.step, a2, Option.map_some]
  · simp only [Search.step, a3, Option.map_some]
  · show (m1.var v).value = _
    rw [hvar]
    dsimp only
    rw [if_neg (by rw [hvi]; exact hv)]

end Ctl

end Printemps
