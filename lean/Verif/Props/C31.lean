import Verif.Model.Moves
import Verif.Lemmas.Update
import Verif.Props.C51

/-! # C31 — selection moves keep exactly one variable selected -/

namespace Printemps.C31
open Spec Moves

/-- Exactly one variable of the selection `s` has the value 1, the others 0; the one with value 1 is recorded
as the selected one, and it is not fixed. -/
def OneSelected (m : MState) (s : ℕ) : Prop :=
  ∃ x, m.selected s = some x ∧ (m.var x).selection = some s ∧ (m.var x).fixed = false ∧ (m.var x).value = 1 ∧
    ∀ v, (m.var v).selection = some s → v ≠ x → (m.var v).value = 0

/-- `m'` is reached from `m` by performing, again and again, an enabled generated selection move of a variable
that is not fixed. -/
inductive Run (rel : ℕ → List ConId) : MState → MState → Prop
  | done (m) : Run rel m m
  | step (m m' : MState) (v : ℕ) (mv : Move) (acc : Accept) (hv : (m.var v).fixed = false)
      (hmv : selectionMove rel m v = some mv) (hflag : selectionFlag acc m mv = true)
      (h : Run rel (m.updateMove mv) m') : Run rel m m'

private theorem move_state (rel : ℕ → List ConId) (m : MState) (s u v : ℕ)
    (hsel : (m.var v).selection = some s) (mv : Move)
    (hmv : mv = { alterations := [(u, 0), (v, 1)], sense := .selection, related := rel s, isSelection := true }) :
    (m.updateMove mv).var = Function.update (Function.update m.var u ((m.var u).setValueIfMutable 0)) v
      ((Function.update m.var u ((m.var u).setValueIfMutable 0) v).setValueIfMutable 1) ∧
    (m.updateMove mv).selected = Function.update m.selected s (some v) := by
  have hvar : (m.updateMove mv).var = Function.update (Function.update m.var u ((m.var u).setValueIfMutable 0)) v
      ((Function.update m.var u ((m.var u).setValueIfMutable 0) v).setValueIfMutable 1) := by
    obtain ⟨o, ov, q, h, _⟩ := MState.updateMove_desc m mv
    rw [h, hmv]; rfl
  refine ⟨hvar, ?_⟩
  -- the selection pointer of `v` is the same after changing values
  have hobj : ∀ al, (m.updateObjMove al).selected = m.selected ∧ (m.updateObjMove al).var = m.var := by
    intro al; unfold MState.updateObjMove; split <;> exact ⟨rfl, rfl⟩
  unfold MState.updateMove
  show (MState.updateSelected _ mv).selected = _
  unfold MState.updateSelected
  subst hmv
  rw [if_pos rfl]
  simp only []
  have hs : ∀ mv, (((((m.updateObjMove [(u, 0), (v, 1)]).updateConsMove mv).updateExprsMove [(u, 0), (v, 1)]).updateVarsMove
      [(u, 0), (v, 1)]).var v).selection = some s := by
    intro mv
    show ((Function.update (Function.update (m.updateObjMove [(u, 0), (v, 1)]).var u
      (((m.updateObjMove [(u, 0), (v, 1)]).var u).setValueIfMutable 0)) v
      ((Function.update (m.updateObjMove [(u, 0), (v, 1)]).var u
        (((m.updateObjMove [(u, 0), (v, 1)]).var u).setValueIfMutable 0) v).setValueIfMutable 1)) v).selection = some s
    rw [Function.update_self, (Verifier.keeps_mutable _ _).selection]
    by_cases e : v = u
    · subst e; rw [Function.update_self, (Verifier.keeps_mutable _ _).selection, (hobj _).2]; exact hsel
    · rw [Function.update_of_ne e, (hobj _).2]; exact hsel
  rw [hs]
  show Function.update (m.updateObjMove [(u, 0), (v, 1)]).selected s (some v) = _
  rw [(hobj _).1]

private theorem step_keeps (rel : ℕ → List ConId) (m : MState) (S : ℕ → Prop)
    (hin : ∀ v s, (m.var v).selection = some s → S s) (hall : ∀ s, S s → OneSelected m s) (v : ℕ) (mv : Move)
    (hv : (m.var v).fixed = false) (hmv : selectionMove rel m v = some mv) :
    (∀ s, S s → OneSelected (m.updateMove mv) s) ∧
    (∀ w, ((m.updateMove mv).var w).selection = (m.var w).selection ∧
      ((m.updateMove mv).var w).fixed = (m.var w).fixed) ∧
    (∀ w, (m.var w).selection = none → (m.updateMove mv).var w = m.var w) := by
  unfold selectionMove at hmv
  cases hs : (m.var v).selection with
  | none => rw [hs] at hmv; exact absurd hmv (by simp)
  | some s =>
    rw [hs] at hmv
    simp only [] at hmv
    cases hu : m.selected s with
    | none => rw [hu] at hmv; exact absurd hmv (by simp)
    | some u =>
      rw [hu] at hmv
      simp only [Option.some.injEq] at hmv
      obtain ⟨hvar, hsel⟩ := move_state rel m s u v hs mv hmv.symm
      obtain ⟨x, hx1, hx2, hx3, hx4, hx5⟩ := hall s (hin v s hs)
      have hux : x = u := by rw [hu] at hx1; exact (Option.some.inj hx1).symm
      subst hux
      have hk : ∀ w, Verifier.Keeps (m.var w) ((m.updateMove mv).var w) := by
        intro w
        rw [hvar]
        have h1 : ∀ w, Verifier.Keeps (m.var w) (Function.update m.var x ((m.var x).setValueIfMutable 0) w) := by
          intro w
          by_cases e : w = x
          · subst e; rw [Function.update_self]; exact Verifier.keeps_mutable _ _
          · rw [Function.update_of_ne e]; exact Verifier.Keeps.refl _
        by_cases e : w = v
        · subst e; rw [Function.update_self]; exact (h1 w).trans (Verifier.keeps_mutable _ _)
        · rw [Function.update_of_ne e]; exact h1 w
      have hval : ∀ w, ((m.updateMove mv).var w).value = if w = v then 1 else if w = x then 0 else (m.var w).value := by
        intro w
        rw [hvar]
        by_cases e : w = v
        · subst e
          rw [Function.update_self, if_pos rfl]
          apply Verifier.mutable_value
          by_cases e : w = x
          · subst e; rw [Function.update_self, (Verifier.keeps_mutable _ _).fixed]; exact hv
          · rw [Function.update_of_ne e]; exact hv
        · rw [Function.update_of_ne e, if_neg e]
          by_cases e : w = x
          · subst e; rw [Function.update_self, if_pos rfl]; exact Verifier.mutable_value _ _ hx3
          · rw [Function.update_of_ne e, if_neg e]
      refine ⟨fun t ht => ?_, fun w => ⟨(hk w).selection, (hk w).fixed⟩, fun w hw => ?_⟩
      · by_cases e : t = s
        · subst e
          refine ⟨v, by rw [hsel, Function.update_self], by rw [(hk v).selection]; exact hs,
            by rw [(hk v).fixed]; exact hv, by rw [hval, if_pos rfl], fun w hw hne => ?_⟩
          rw [hval, if_neg hne]
          split
          · rfl
          · rename_i e; exact hx5 w (by rw [← (hk w).selection]; exact hw) e
        · obtain ⟨y, hy1, hy2, hy3, hy4, hy5⟩ := hall t ht
          have out : ∀ w, (m.var w).selection = some t → w ≠ v ∧ w ≠ x := by
            intro w hw
            constructor
            · rintro rfl; rw [hs] at hw; exact e (Option.some.inj hw).symm
            · rintro rfl; rw [hx2] at hw; exact e (Option.some.inj hw).symm
          refine ⟨y, by rw [hsel, Function.update_of_ne e]; exact hy1, by rw [(hk y).selection]; exact hy2,
            by rw [(hk y).fixed]; exact hy3, ?_, fun w hw hne => ?_⟩
          · rw [hval, if_neg (out y hy2).1, if_neg (out y hy2).2]; exact hy4
          · rw [(hk w).selection] at hw
            rw [hval, if_neg (out w hw).1, if_neg (out w hw).2]; exact hy5 w hw hne
      · have h1 : w ≠ v := by rintro rfl; rw [hs] at hw; exact absurd hw (by simp)
        have h2 : w ≠ x := by rintro rfl; rw [hx2] at hw; exact absurd hw (by simp)
        rw [hvar, Function.update_of_ne h1, Function.update_of_ne h2]

/-- If every selection has exactly one variable with value 1, recorded and not fixed, this is so after every
finite sequence of generated selection moves.  Variables outside of selections never change. -/
theorem one_variable_stays_selected (rel : ℕ → List ConId) (m m' : MState) (hrun : Run rel m m') (S : ℕ → Prop)
    (hin : ∀ v s, (m.var v).selection = some s → S s) (hall : ∀ s, S s → OneSelected m s) :
    (∀ s, S s → OneSelected m' s) ∧ (∀ w, (m'.var w).selection = (m.var w).selection) ∧
    (∀ w, (m.var w).selection = none → m'.var w = m.var w) := by
  induction hrun with
  | done m => exact ⟨hall, fun _ => rfl, fun _ _ => rfl⟩
  | step m m' v mv acc hv hmv hflag h ih =>
    obtain ⟨h1, h2, h3⟩ := step_keeps rel m S hin hall v mv hv hmv
    obtain ⟨g1, g2, g3⟩ := ih (fun w s hw => hin w s (by rw [← (h2 w).1]; exact hw)) h1
    exact ⟨g1, fun w => (g2 w).trans (h2 w).1, fun w hw => (g3 w (by rw [(h2 w).1]; exact hw)).trans (h3 w hw)⟩

/-- In such a state every selection variable has a well defined move; it is enabled exactly for the variables
not selected (if all moves are accepted), and it selects the variable instead of the current one. -/
theorem moves_are_defined (rel : ℕ → List ConId) (m : MState) (s v : ℕ) (hs : (m.var v).selection = some s)
    (h : OneSelected m s) : ∃ mv x, selectionMove rel m v = some mv ∧ mv.alterations = [(x, 0), (v, 1)] ∧
      (m.var x).value = 1 ∧ (selectionFlag ⟨true, false, false⟩ m mv = true ↔ (m.var v).value = 0) := by
  obtain ⟨x, h1, h2, h3, h4, h5⟩ := h
  refine ⟨_, x, by unfold selectionMove; rw [hs]; simp only []; rw [h1], rfl, h4, ?_⟩
  unfold selectionFlag screened
  simp only [Bool.true_or, Bool.and_true, decide_eq_true_eq]
  constructor
  · intro e; exact h5 v hs (Ne.symm e)
  · rintro e rfl; rw [h4] at e; exact absurd e (by simp)

/-- The start: a solution accepted when the search begins records the selected variables, provided none of
the variables with value 1 is fixed. -/
theorem search_starts_in_order (sels : List ℕ) (m m' : MState) (hr : C51.Ready sels m)
    (hptr : ∀ s ∈ sels, ∀ v, (m.var v).selection = some s ↔ v ∈ (m.con s).expr.vars)
    (hfix : ∀ s ∈ sels, ∀ v ∈ (m.con s).expr.vars, (m.var v).value = 1 → (m.var v).fixed = false)
    (h : Verifier.verifyAll false sels m = some m') : ∀ s ∈ sels, OneSelected m' s := by
  intro s hs
  obtain ⟨c1, _⟩ := C51.corrected_or_rejected_partial false sels m m' hr h
  obtain ⟨g1, g2⟩ := C51.check_only_changes_nothing sels m m' hr h
  obtain ⟨x, hx, h1, h2⟩ := (Verifier.oneHot_iff m' _ (hr.once s hs)).2 (c1 s hs)
  rw [g1] at h1 h2
  refine ⟨x, ?_, by rw [g1]; exact (hptr s hs x).2 hx, by rw [g1]; exact hfix s hs x hx h1, by rw [g1]; exact h1,
    fun v hv hne => ?_⟩
  · rw [g2 s hs x hx h1, hfix s hs x hx h1, if_neg (by simp)]
  · rw [g1] at hv ⊢
    exact h2 v ((hptr s hs v).1 hv) hne

private def ex : MState := { Example.model with
  var := fun v => match v with
    | 0 => { Example.bin0 with sense := .selection, selection := some 0, value := 1 }
    | 1 => { Example.bin0 with sense := .selection, selection := some 0 }
    | 2 => { Example.bin0 with sense := .selection, selection := some 0 }
    | _ => Example.int5
  varIds := [0, 1, 2, 3]
  con := fun _ => { Con.setup { terms := [(0, 1), (1, 1), (2, 1)], const := -1 } .equal (fun _ => .binary) with enabled := false }
  conIds := [0], sens := fun _ => [] }

private theorem lt_three (v : ℕ) : v < 3 ↔ v ∈ [0, 1, 2] := by
  simp only [List.mem_cons, List.not_mem_nil, or_false]; omega

private theorem ex_selected (s v : ℕ) : (ex.var v).selection = some s ↔ s = 0 ∧ v < 3 := by
  match v with
  | 0 | 1 | 2 => simp [ex, eq_comm]
  | n + 3 => simp [ex, Example.int5, Var.init]

private theorem ex_ready : C51.Ready [0] ex :=
  ⟨by decide, by decide, by decide +kernel, by decide, by decide +kernel, by decide +kernel, by decide +kernel⟩

/-- The example state meets the assumptions of `search_starts_in_order`, and a move can be made. -/
example : ∃ m', Verifier.verifyAll false [0] ex = some m' ∧ OneSelected m' 0 ∧
    (∀ v s, (m'.var v).selection = some s → s = 0) ∧
    ∃ m'', Run (fun _ => []) m' m'' ∧ (m''.var 2).value = 1 ∧ (m''.var 0).value = 0 := by
  obtain ⟨m', h1, h2⟩ := C51.good_values_are_accepted false [0] ex ex_ready (by decide +kernel) (by decide +kernel)
    (by decide +kernel)
  have ho := search_starts_in_order [0] ex m' ex_ready (by
      intro s hs v
      rw [List.mem_singleton.1 hs, ex_selected]
      show _ ↔ v ∈ [0, 1, 2]
      exact ⟨fun h => (lt_three v).1 h.2, fun h => ⟨rfl, (lt_three v).2 h⟩⟩) (by decide +kernel) h1 0 (by simp)
  have hin : ∀ v s, (m'.var v).selection = some s → s = 0 := by
    intro v s h; rw [h2, ex_selected] at h; exact h.1
  obtain ⟨mv, x, d1, d2, d3, d4⟩ := moves_are_defined (fun _ => []) m' 0 2 (by rw [h2]; rfl) ho
  have hx0 : x = 0 := by
    obtain ⟨y, hy1, hy2, hy3, hy4, hy5⟩ := ho
    have e1 : x = y := by
      by_contra e
      unfold selectionMove at d1
      rw [show (m'.var 2).selection = some 0 by rw [h2]; rfl] at d1
      simp only [] at d1
      rw [hy1] at d1
      simp only [Option.some.injEq] at d1
      rw [← d1] at d2
      simp only [List.cons.injEq, Prod.mk.injEq, and_true] at d2
      exact e d2.symm
    by_contra e
    have : (m'.var 0).value = 0 := hy5 0 (by rw [h2]; rfl) (fun h => e (e1.trans h.symm))
    rw [h2] at this
    exact absurd this (by decide)
  refine ⟨m', h1, ho, hin, m'.updateMove mv, Run.step m' _ 2 mv ⟨true, false, false⟩ (by rw [h2]; rfl) d1
    (d4.2 (by rw [h2]; rfl)) (Run.done _), ?_⟩
  obtain ⟨o, ov, q, h, _⟩ := MState.updateMove_desc m' mv
  rw [h, d2, hx0]
  have e : ∀ w, ([(0, 0), (2, 1)].foldl (fun var (a : ℕ × ℤ) => Function.update var a.1 ((var a.1).setValueIfMutable a.2))
      ex.var w).value = if w = 2 then 1 else if w = 0 then 0 else (ex.var w).value := by
    intro w
    show ((Function.update (Function.update ex.var 0 ((ex.var 0).setValueIfMutable 0)) 2
      ((Function.update ex.var 0 ((ex.var 0).setValueIfMutable 0) 2).setValueIfMutable 1)) w).value = _
    by_cases e1 : w = 2
    · subst e1; rw [Function.update_self, if_pos rfl]; rfl
    · rw [Function.update_of_ne e1, if_neg e1]
      by_cases e2 : w = 0
      · subst e2; rw [Function.update_self, if_pos rfl]; rfl
      · rw [Function.update_of_ne e2, if_neg e2]
  rw [← h2] at e
  exact ⟨e 2, e 0⟩

/-- If the variable with value 1 is fixed (and presolve, which would fix the other variables, is switched off),
it is not recorded as the selected one: the move of another variable of the selection, which is not fixed,
goes through a null pointer. -/
theorem fixed_selected_variable_is_not_recorded : ∃ (m m' : MState), C51.Ready [0] m ∧
    (m.var 0).fixed = true ∧ (m.var 0).value = 1 ∧ m.selected 0 = none ∧
    Verifier.verifyAll true [0] m = some m' ∧ (m'.var 2).fixed = false ∧ (m'.var 2).selection = some 0 ∧
    selectionMove (fun _ => []) m' 2 = none := by
  let m : MState := { ex with var := fun v => { ex.var v with fixed := decide (v = 0) } }
  have hr : C51.Ready [0] m :=
    ⟨by decide, by decide, by decide +kernel, by decide, by decide +kernel, by decide +kernel, by decide +kernel⟩
  have h : ((Verifier.verifyAll true [0] m).map (fun m => ((m.var 2).fixed, (m.var 2).selection, m.selected 0))) =
      some (false, some 0, none) := by decide +kernel
  cases hv : Verifier.verifyAll true [0] m with
  | none => rw [hv] at h; exact absurd h (by simp)
  | some m' =>
    rw [hv] at h
    simp only [Option.map_some, Option.some.injEq, Prod.mk.injEq] at h
    refine ⟨m, m', hr, rfl, rfl, rfl, hv, h.1, h.2.1, ?_⟩
    unfold selectionMove
    rw [h.2.1]
    simp only []
    rw [h.2.2]

end Printemps.C31
