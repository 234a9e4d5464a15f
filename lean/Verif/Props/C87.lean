import Verif.Props.C10
import Verif.Lemmas.Improvability
import Verif.Props.C12
import Verif.Props.C86
import Verif.Model.SolutionFile
import Verif.Spec.SolutionFile

/-! # C87 — the file with the feasible solutions of a call -/

namespace Printemps.C87
open Json Text ArrayFile ModelFile SolutionFile Spec

/-! ## What a stored solution is -/

/-- The value of a variable in a stored solution. -/
def valueIn (s : Stored) (v : VarId) : ℤ := ((s.vars.find? fun e => e.1 == v).map Prod.snd).getD 0

theorem stored_keys (m : MState) (hd : m.varIds.Nodup) : ((stored m).vars.map Prod.fst).Nodup ∧
    (∀ e ∈ (stored m).vars, e.1 ∈ m.varIds ∧ e.2 = m.vals e.1 ∧ m.vals e.1 ≠ 0) ∧
    ∀ v ∈ m.varIds, m.vals v ≠ 0 → (v, m.vals v) ∈ (stored m).vars := by
  refine ⟨?_, ?_, ?_⟩
  · show ((m.varIds.filterMap fun v => if m.vals v ≠ 0 then some (v, m.vals v) else none).map Prod.fst).Nodup
    have : (m.varIds.filterMap fun v => if m.vals v ≠ 0 then some (v, m.vals v) else none).map Prod.fst =
        m.varIds.filter fun v => decide (m.vals v ≠ 0) := by
      generalize m.varIds = l
      induction l with
      | nil => rfl
      | cons v l ih =>
        rw [List.filterMap_cons, List.filter_cons]
        by_cases h : m.vals v ≠ 0
        · rw [if_pos h, if_pos (decide_eq_true h)]
          exact congrArg (v :: ·) ih
        · rw [if_neg h, if_neg (by simpa using h)]
          exact ih
    rw [this]
    exact hd.filter _
  · intro e he
    obtain ⟨v, hv, h⟩ := List.mem_filterMap.1 he
    by_cases h0 : m.vals v ≠ 0
    · rw [if_pos h0] at h
      obtain rfl := Option.some.inj h
      exact ⟨hv, rfl, h0⟩
    · rw [if_neg h0] at h; exact absurd h (by simp)
  · intro v hv h0
    exact List.mem_filterMap.2 ⟨v, hv, by rw [if_pos h0]⟩

/-! ## Through the file -/

theorem get_members_none (l : List (Str × Val)) (k : Str) (h : k ∉ l.map Prod.fst) : (members l).get k = none := by
  induction l with
  | nil => rfl
  | cons x l ih =>
    rw [List.map_cons, List.mem_cons, not_or] at h
    rw [members, Members.get, ih h.2, if_neg (fun e => h.1 e.symm)]

theorem solution_echo (order : List (VarId × ℤ) → List (VarId × ℤ)) (vname : VarId → Str) (s : Stored) (b : Bool) :
    echoV b (solution order vname s) =
    .obj (members [(kIsFeasible, .bool s.feasible), (kObjective, .real (atof (formatE s.objective))),
      (kViolation, .real (atof (formatE s.violation))),
      (kVariables, .obj (members ((order s.vars).map fun e => (respell (vname e.1), .int e.2))))]) := by
  unfold solution
  rw [echoV, C86.echo_members]
  simp only [List.map_cons, List.map_nil, echoV, C86.echo_members, List.map_map]
  rfl

/-- A reader of the file finds the stored solutions one after the other. -/
theorem file_echo (order : List (VarId × ℤ) → List (VarId × ℤ)) (name : Str) (nv nc : ℤ) (vname : VarId → Str) (ss : List Stored)
    (hname : '"' ∉ name) (hnv : -2147483648 ≤ nv ∧ nv ≤ 2147483647) (hnc : -2147483648 ≤ nc ∧ nc ≤ 2147483647)
    (he : ∀ s ∈ ss, ∀ e ∈ order s.vars, '"' ∉ vname e.1 ∧ -2147483648 ≤ e.2 ∧ e.2 ≤ 2147483647) :
    ∃ N, ∀ fuel ≥ N, readObject fuel (SolutionFile.file order name nv nc vname ss) =
      some (members [(kVersion, .str version), (kName, .str (respell name)), (kNumberOfVariables, .int nv),
        (kNumberOfConstraints, .int nc), (kSolutions, .arr (array (ss.map fun s => echoV true (solution order vname s))))]) := by
  have hclean : CleanM (members (SolutionFile.parts order name nv nc vname ss)) := by
    refine C86.clean_members _ ?_
    unfold SolutionFile.parts
    simp only [List.mem_cons, List.not_mem_nil, or_false, forall_eq_or_imp, forall_eq]
    refine ⟨⟨by decide, ?_⟩, ⟨by decide, ?_⟩, ⟨by decide, ?_⟩, ⟨by decide, ?_⟩, ⟨by decide, ?_⟩⟩
    · unfold CleanV; decide
    · unfold CleanV; exact hname
    · unfold CleanV; exact hnv
    · unfold CleanV; exact hnc
    · unfold CleanV
      refine C86.clean_array _ fun w hw => ?_
      obtain ⟨s, hs, rfl⟩ := List.mem_map.1 hw
      unfold solution CleanV
      refine C86.clean_members _ ?_
      simp only [List.mem_cons, List.not_mem_nil, or_false, forall_eq_or_imp, forall_eq]
      refine ⟨⟨by decide, ?_⟩, ⟨by decide, ?_⟩, ⟨by decide, ?_⟩, ⟨by decide, ?_⟩⟩
      · unfold CleanV; trivial
      · unfold CleanV; trivial
      · unfold CleanV; trivial
      · unfold CleanV
        refine C86.clean_members _ fun y hy => ?_
        obtain ⟨e, hem, rfl⟩ := List.mem_map.1 hy
        refine ⟨(he s hs e hem).1, ?_⟩
        unfold CleanV
        exact (he s hs e hem).2
  obtain ⟨N, hN⟩ := C46.file_is_echo_object _ hclean 0
  refine ⟨N, fun fuel hf => ?_⟩
  unfold SolutionFile.file
  rw [hN fuel hf, C86.echo_members]
  unfold SolutionFile.parts
  simp only [List.map_cons, List.map_nil, echoV, C86.echo_array, List.map_map]
  rfl

/-- An entry of the file is the stored solution. -/
theorem solution_doc (order : List (VarId × ℤ) → List (VarId × ℤ)) (hperm : ∀ l, (order l).Perm l) (vname : VarId → Str) (m : MState)
    (hd : m.varIds.Nodup) (hn : Distinct (fun v => respell (vname v)) m) :
    SolutionDoc (echoV true (solution order vname (stored m))) m.varIds (fun v => respell (vname v)) m.vals m.objValue
      (Sol.sumViolation m) m.feasible := by
  rw [solution_echo]
  have hk : ([(kIsFeasible, Val.bool (stored m).feasible), (kObjective, .real (atof (formatE (stored m).objective))),
      (kViolation, .real (atof (formatE (stored m).violation))),
      (kVariables, .obj (members ((order (stored m).vars).map fun e => (respell (vname e.1), .int e.2))))].map Prod.fst).Nodup := by
    simp only [List.map_cons, List.map_nil]; decide
  obtain ⟨h1, h2, h3⟩ := stored_keys m hd
  have hp := hperm (stored m).vars
  have hkeys : (((order (stored m).vars).map fun e => (respell (vname e.1), Val.int e.2)).map Prod.fst).Nodup := by
    rw [List.map_map]
    have hq : ((order (stored m).vars).map fun e => e.1).Nodup := (hp.map _).nodup_iff.2 h1
    have : ((order (stored m).vars).map (Prod.fst ∘ fun e => (respell (vname e.1), Val.int e.2))) =
        ((order (stored m).vars).map fun e => e.1).map fun v => respell (vname v) := by
      rw [List.map_map]; rfl
    rw [this]
    refine List.Nodup.map_on ?_ hq
    intro v hv w hw e
    obtain ⟨x, hx, rfl⟩ := List.mem_map.1 hv
    obtain ⟨y, hy, rfl⟩ := List.mem_map.1 hw
    exact hn _ (h2 x (hp.mem_iff.1 hx)).1 _ (h2 y (hp.mem_iff.1 hy)).1 e
  refine ⟨?_, ?_, ?_, ?_⟩
  · intro v hv
    refine ⟨_, ⟨_, rfl, get_members _ hk _ _ (.tail _ (.tail _ (.tail _ (.head _))))⟩, ?_⟩
    by_cases h0 : m.vals v = 0
    · refine Or.inr ⟨?_, h0⟩
      apply get_members_none
      intro hm
      rw [List.map_map] at hm
      obtain ⟨e, hem, hee⟩ := List.mem_map.1 hm
      obtain ⟨g1, g2, g3⟩ := h2 e (hp.mem_iff.1 hem)
      have : e.1 = v := hn _ g1 _ hv hee
      rw [this] at g3
      exact g3 h0
    · refine Or.inl (get_members _ hkeys _ _ ?_)
      exact List.mem_map.2 ⟨(v, m.vals v), hp.mem_iff.2 (h3 v hv h0), rfl⟩
  · exact ⟨_, ⟨_, rfl, get_members _ hk _ _ (.tail _ (.head _))⟩, formatE_close _⟩
  · exact ⟨_, ⟨_, rfl, get_members _ hk _ _ (.tail _ (.tail _ (.head _)))⟩, formatE_close _⟩
  · exact ⟨_, rfl, get_members _ hk _ _ (.head _)⟩

/-! ## The solutions of a call -/

theorem collect_eq (isMin : Bool) (cap : ℤ) (batches : List (List Stored)) :
    collect isMin cap batches = C12.after (if isMin then .ascending else .descending) cap (batches.filter fun b => decide (b ≠ [])) := by
  unfold collect C12.after
  generalize (if isMin then SortMode.ascending else .descending) = mode
  have key : ∀ a : List Stored, batches.foldl
      (fun a b => if b = [] then a else archPush mode cap a b) a =
      (batches.filter fun b => decide (b ≠ [])).foldl (archPush mode cap) a := by
   induction batches with
   | nil => intro a; rfl
   | cons b l ih =>
    intro a
    rw [List.foldl_cons, ih, List.filter_cons]
    by_cases h : b = []
    · rw [if_pos h, if_neg (by simp [h])]
    · rw [if_neg h, if_pos (by simp [h]), List.foldl_cons]
  exact key []

theorem run_varIds (m : MState) (moves : List Move) : (C10.run m moves).varIds = m.varIds := by
  induction moves generalizing m with
  | nil => rfl
  | cons mv l ih => exact (ih _).trans (MState.updateMove_static m mv).1

/-- A state that a search visits: it is reached from the start by moves that the library supports, and found feasible. -/
def Visited (m n : MState) : Prop :=
  ∃ moves : List Move, moves ≠ [] ∧ (∀ mv ∈ moves, GoodMove m mv.alterations) ∧
    (∀ mv ∈ moves, m.userDefinedMoves = true ∨ Covers m mv.alterations mv.related) ∧ n = C10.run m moves ∧ n.feasible = true

/-- As good as, in the direction of the user. -/
def AsGood (isMin : Bool) (x y : ℚ) : Prop := if isMin then x ≤ y else y ≤ x

/-- An entry of the file is a feasible solution with its objective: the values satisfy every constraint that is in force within
the tolerance, and the number next to them is their objective in seven digits. -/
def RightEntry (m : MState) (vname : ℕ → Str) (e : Val) (σ : ℕ → ℤ) : Prop :=
  (∀ v ∈ m.varIds, ValueDoc e (respell (vname v)) (σ v)) ∧ NumberDoc e "objective" (exprValue m.obj σ) ∧
  Says e "is_feasible" (.bool true) ∧ ∀ c ∈ m.conIds, (m.con c).enabled = true → violation (m.con c) σ < 1e-5

theorem ofStored (P : MState → Prop) (ss : List Stored) (h : ∀ s ∈ ss, ∃ n, P n ∧ stored n = s) : ∃ ns : List MState, ns.map stored = ss ∧ ∀ n ∈ ns, P n := by
  induction ss with
  | nil => exact ⟨[], rfl, by simp⟩
  | cons s ss ih =>
    obtain ⟨n, h1, h2⟩ := h s (by simp)
    obtain ⟨ns, h3, h4⟩ := ih fun s hs => h s (by simp [hs])
    refine ⟨n :: ns, by rw [List.map_cons, h2, h3], ?_⟩
    intro x hx
    rcases List.mem_cons.1 hx with rfl | hx
    · exact h1
    · exact h4 x hx

/-- **The file with the feasible solutions of a call.**  Whatever feasible states the searches of a call store, in whatever order
the maps are written, for any names without quotation marks that stay different for the reader and any capacity: each entry
of the file is a feasible solution that was visited, with its objective; the best solution comes first; there are no more
entries than the capacity; and no stored solution is better than all entries. -/
theorem file_of_a_call (order : List (VarId × ℤ) → List (VarId × ℤ)) (hperm : ∀ l, (order l).Perm l) (name : Str) (nv nc : ℤ)
    (vname : VarId → Str) (m : MState) (cap : ℤ) (batches : List (List MState))
    (hw : WellFormed m) (hc : Current m) (ho : m.objDefined = true) (hnd : m.varIds.Nodup)
    (hvis : ∀ b ∈ batches, ∀ n ∈ b, Visited m n ∧ ∀ v ∈ m.varIds, -2147483648 ≤ n.vals v ∧ n.vals v ≤ 2147483647)
    (hname : '"' ∉ name) (hvn : ∀ v ∈ m.varIds, '"' ∉ vname v) (hdist : Distinct (fun v => respell (vname v)) m)
    (hnv : -2147483648 ≤ nv ∧ nv ≤ 2147483647) (hnc : -2147483648 ≤ nc ∧ nc ≤ 2147483647) :
    ∃ d N es, ∃ σs : List (ℕ → ℤ),
      (∀ fuel ≥ N, readObject fuel (SolutionFile.file order name nv nc vname (collect m.isMin cap (batches.map fun b => b.map stored))) = some d) ∧
      Says (.obj d) "solutions" (.arr es) ∧ List.Forall₂ (RightEntry m vname) (elems es) σs ∧
      σs.Pairwise (fun σ τ => AsGood m.isMin (exprValue m.obj σ) (exprValue m.obj τ)) ∧
      (0 < cap → (σs.length : ℤ) ≤ cap) ∧
      (∀ σ ∈ σs, ∃ b ∈ batches, ∃ n ∈ b, n.vals = σ) ∧
      ∀ b ∈ batches, ∀ n ∈ b, ∃ σ ∈ σs, AsGood m.isMin (exprValue m.obj σ) (exprValue m.obj n.vals) := by
  set mode : SortMode := if m.isMin then .ascending else .descending with hmode
  have hoff : mode ≠ .off := by rw [hmode]; cases m.isMin <;> decide
  obtain ⟨ss, hss⟩ : ∃ ss, ss = collect m.isMin cap (batches.map fun b => b.map stored) := ⟨_, rfl⟩
  have hafter := hss
  rw [collect_eq, ← hmode] at hafter
  have hpush : ∀ s ∈ ss, ∃ n, (∃ b ∈ batches, n ∈ b) ∧ stored n = s := by
    intro s hs
    rw [hafter] at hs
    obtain ⟨b, hb, hsb⟩ := C12.archive_only_pushed mode cap _ s hs
    obtain ⟨b', hb', rfl⟩ := List.mem_map.1 (List.mem_filter.1 hb).1
    obtain ⟨n, hn, rfl⟩ := List.mem_map.1 hsb
    exact ⟨n, ⟨b', hb', hn⟩, rfl⟩
  obtain ⟨ns, hns, hmem⟩ := ofStored _ ss hpush
  have hfact : ∀ b ∈ batches, ∀ n ∈ b, n.varIds = m.varIds ∧ n.objValue = exprValue m.obj n.vals ∧ n.feasible = true ∧
      ∀ c ∈ m.conIds, (m.con c).enabled = true → violation (m.con c) n.vals < 1e-5 := by
    intro b hb n hn
    obtain ⟨⟨moves, h1, h2, h3, rfl, h5⟩, -⟩ := hvis b hb n hn
    obtain ⟨g1, -, g3, -⟩ := C10.values_never_drift m moves hw hc h2 h3
    have hv : (C10.run m moves).vals = C10.runSpec (assignment m) moves := g1
    refine ⟨run_varIds m moves, ?_, h5, ?_⟩
    · rw [hv]; exact g3 ho
    · rw [hv]; exact (C10.feasibility_flag_exact m moves h1 hw hc h2 h3).1 h5
  have hobj : ∀ n ∈ ns, (stored n).objective = exprValue m.obj n.vals := by
    intro n hn
    obtain ⟨b, hb, hnb⟩ := hmem n hn
    exact (hfact b hb n hnb).2.1
  obtain ⟨N, hN⟩ := file_echo order name nv nc vname ss hname hnv hnc (by
    intro s hs e he
    obtain ⟨n, ⟨b, hb, hn⟩, rfl⟩ := hpush s hs
    have hf := hfact b hb n hn
    obtain ⟨-, h2, -⟩ := stored_keys n (by rw [hf.1]; exact hnd)
    obtain ⟨g1, g2, -⟩ := h2 e ((hperm _).mem_iff.1 he)
    rw [hf.1] at g1
    exact ⟨hvn _ g1, by rw [g2]; exact (hvis b hb n hn).2 _ g1⟩)
  have hdk : ([(kVersion, Val.str version), (kName, .str (respell name)), (kNumberOfVariables, .int nv),
      (kNumberOfConstraints, .int nc), (kSolutions, .arr (array (ss.map fun s => echoV true (solution order vname s))))].map Prod.fst).Nodup := by
    simp only [List.map_cons, List.map_nil]; decide
  refine ⟨_, N, _, ns.map (·.vals), by rw [← hss]; exact hN, ⟨_, rfl, get_members _ hdk _ _ (.tail _ (.tail _ (.tail _ (.tail _ (.head _)))))⟩,
    ?_, ?_, ?_, ?_, ?_⟩
  · rw [C86.elems_array, ← hns, List.map_map, List.forall₂_map_left_iff, List.forall₂_map_right_iff, List.forall₂_same]
    intro n hn
    obtain ⟨b, hb, hnb⟩ := hmem n hn
    obtain ⟨e1, e2, e3, e4⟩ := hfact b hb n hnb
    have := solution_doc order hperm vname n (by rw [e1]; exact hnd) (by
      unfold Distinct at hdist ⊢
      rw [e1]; exact hdist)
    refine ⟨?_, ?_, ?_, e4⟩
    · have := this.values
      rw [e1] at this
      exact this
    · have := this.objective
      rw [e2] at this
      exact this
    · have := this.feasible
      rw [e3] at this
      exact this
  · have hs := C12.archive_sorted mode hoff cap ((batches.map fun b => b.map stored).filter fun b => decide (b ≠ []))
    rw [← hafter, ← hns, List.pairwise_map] at hs
    rw [List.pairwise_map]
    refine hs.imp_of_mem ?_
    intro a b ha hb h
    rw [hobj a ha, hobj b hb] at h
    unfold AsGood
    rw [hmode] at h
    cases hi : m.isMin
    · rw [hi] at h; exact h
    · rw [hi] at h; exact h
  · intro hcap
    have := C12.archive_capacity mode cap hcap ((batches.map fun b => b.map stored).filter fun b => decide (b ≠ []))
    rw [← hafter, ← hns, List.length_map] at this
    rw [List.length_map]
    exact this
  · intro σ hσ
    obtain ⟨n, hn, rfl⟩ := List.mem_map.1 hσ
    obtain ⟨b, hb, hnb⟩ := hmem n hn
    exact ⟨b, hb, n, hnb, rfl⟩
  · intro b hb n hn
    have hne : b.map stored ≠ [] := by
      intro e
      rw [List.map_eq_nil_iff] at e
      rw [e] at hn; simp at hn
    obtain ⟨s, hs, hr⟩ := C12.archive_has_best mode hoff cap ((batches.map fun b => b.map stored).filter fun b => decide (b ≠ []))
      (b.map stored) (List.mem_filter.2 ⟨List.mem_map.2 ⟨b, hb, rfl⟩, by simpa using hne⟩) (stored n) (List.mem_map.2 ⟨n, hn, rfl⟩)
    rw [← hafter, ← hns] at hs
    obtain ⟨k, hk, rfl⟩ := List.mem_map.1 hs
    refine ⟨k.vals, List.mem_map.2 ⟨k, hk, rfl⟩, ?_⟩
    have e1 := hobj k hk
    have e2 : (stored n).objective = exprValue m.obj n.vals := (hfact b hb n hn).2.1
    unfold AsGood
    unfold C12.rank at hr
    rw [e1, e2, hmode] at hr
    cases hi : m.isMin
    · rw [hi] at hr
      have hr : -exprValue m.obj k.vals ≤ -exprValue m.obj n.vals := hr
      rw [if_neg (by decide)]
      linarith
    · rw [hi] at hr; exact hr

/-! ## A case -/

theorem example_visited : Visited Example.model (C10.run Example.model [Example.move]) := by
  refine ⟨[Example.move], by simp, ?_, ?_, rfl, by decide +kernel⟩
  · intro mv hmv; rw [List.mem_singleton.1 hmv]; exact Example.good
  · intro mv hmv; rw [List.mem_singleton.1 hmv]; exact Or.inr Example.covers

/-- A search that stores one solution: the reader finds `x[0, 0] = 1`, `x[0, 1] = 0` and `y = 1`. -/
example : ∃ d N es e σ, (∀ fuel ≥ N, readObject fuel (SolutionFile.file id "m".toList 3 3 C86.exampleNames
      (collect Example.model.isMin 1 [[stored (C10.run Example.model [Example.move])]])) = some d) ∧
    Says (.obj d) "solutions" (.arr es) ∧ elems es = [e] ∧ RightEntry Example.model C86.exampleNames e σ ∧
    σ 0 = 1 ∧ σ 1 = 0 ∧ σ 2 = 1 := by
  have hids : Example.model.varIds = Example.raw.varIds := rfl
  have hv : ∀ v ∈ Example.model.varIds, v = 0 ∨ v = 1 ∨ v = 2 := by
    intro v hv
    rw [hids] at hv
    simpa [Example.raw] using hv
  obtain ⟨d, N, es, σs, h1, h2, h3, -, h5, h6, h7⟩ := file_of_a_call id (fun l => List.Perm.refl l) "m".toList 3 3 C86.exampleNames
    Example.model 1 [[C10.run Example.model [Example.move]]] Example.wf Example.current (by decide +kernel) (by rw [hids]; decide)
    (by
      intro b hb n hn
      rw [List.mem_singleton.1 hb] at hn
      rw [List.mem_singleton.1 hn]
      refine ⟨example_visited, fun v hvm => ?_⟩
      rcases hv v hvm with rfl | rfl | rfl <;> decide +kernel)
    (by decide)
    (by
      intro v hvm
      rcases hv v hvm with rfl | rfl | rfl <;> decide)
    (by
      intro v hvm w hwm e
      exact C86.example_distinct v hvm w hwm e) (by decide) (by decide)
  obtain ⟨σ, hσ, -⟩ := h7 [C10.run Example.model [Example.move]] (by simp) (C10.run Example.model [Example.move]) (by simp)
  obtain ⟨b, hb, n, hn, e1⟩ := h6 σ hσ
  rw [List.mem_singleton.1 hb] at hn
  rw [List.mem_singleton.1 hn] at e1
  obtain rfl : σs = [σ] := by
    have := h5 (by norm_num)
    match σs, hσ, this with
    | [x], h, _ => rw [List.mem_singleton.1 h]
    | _ :: _ :: _, _, h => simp only [List.length_cons] at h; omega
  obtain ⟨e, h8, h9⟩ : ∃ e, elems es = [e] ∧ RightEntry Example.model C86.exampleNames e σ := by
    revert h3
    generalize elems es = l
    intro h3
    cases h3 with
    | cons h t => cases t; exact ⟨_, rfl, h⟩
  refine ⟨d, N, es, e, σ, h1, h2, h8, h9, ?_⟩
  rw [← e1]
  decide +kernel

end Printemps.C87
