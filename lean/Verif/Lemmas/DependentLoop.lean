import Verif.Lemmas.DependentRounds
import Verif.Spec.Rounds

/-! Helper lemmas: one round of extraction, elimination and reduction, and the whole loop. -/

namespace Printemps.Setup
open Spec Expr Presolve Dependent

/-- What stays true of the model in all rounds. -/
structure Base (m : MState) : Prop where
  conIds : m.conIds.Nodup
  wfC : ∀ c ∈ m.conIds, (m.con c).expr.WF
  intC : ∀ c ∈ m.conIds, IntE (m.con c).expr
  inC : ∀ c ∈ m.conIds, ∀ v ∈ (m.con c).expr.vars, v ∈ m.varIds
  wfE : ∀ i, (m.uexpr i).expr.WF
  wfO : m.obj.WF
  intE : ∀ d ∈ m.dependents, IntE (m.uexpr d.2).expr
  inE : ∀ d ∈ m.dependents, ∀ v ∈ (m.uexpr d.2).expr.vars, v ∈ m.varIds
  ids : ∀ d ∈ m.dependents, d.2 ∈ m.uexprIds
  depIds : ∀ d ∈ m.dependents, d.1 ∈ m.varIds
  nodup : (m.dependents.map Prod.fst).Nodup
  sense : ∀ d ∈ m.dependents, (m.var d.1).sense = .dependentBinary ∨ (m.var d.1).sense = .dependentInteger
  home : ∀ d ∈ m.dependents, ∃ c ∈ m.conIds, (m.con c).enabled = false ∧ d.1 ∈ (m.con c).expr.vars
  used : ∀ v ∈ m.varIds, (m.var v).fixed = true ∨ ∃ c ∈ m.conIds, v ∈ (m.con c).expr.vars
  small : Small m.var

/-! ### Elimination -/

theorem eliminate_base (m : MState) (h : Base m) (r : ℕ → ℕ) (hr : ElimOK m r) (ds : List (ℕ × ℕ))
    (hds : ∀ d, d ∈ ds ↔ d ∈ m.dependents) : Base (eliminate ds m).1 := by
  have hsub : ∀ d ∈ ds, d ∈ m.dependents := fun d hd => (hds d).1 hd
  have ok := (eliminate_spec m r hr ds hds).1
  have hS : ∀ d ∈ ds, (fun i => ∃ d ∈ m.dependents, d.2 = i) d.2 := fun d hd => ⟨d, hsub d hd, rfl⟩
  refine
    { conIds := h.conIds, wfC := ok.cons, wfE := ok.exprs, wfO := ok.obj, ids := h.ids, depIds := h.depIds, nodup := h.nodup,
      sense := h.sense, small := h.small, intC := fun c hc => ?_, inC := fun c hc => ?_, intE := fun d hd => ?_,
      inE := fun d hd => ?_, home := fun d hd => ?_, used := fun v hv => ?_ }
  · exact elimCons_pred IntE m _ ds (fun d hd e he => intE_substitute _ _ _ he (h.intE d (hsub d hd))) (m.con, 0) c
      (h.intC c hc)
  · refine elimCons_pred (fun e => ∀ v ∈ e.vars, v ∈ m.varIds) m _ ds (fun d hd e he v hv => ?_) (m.con, 0) c
      (h.inC c hc)
    rcases ((substitute_vars _ _ _ _).1 hv).2 with k | k
    · exact he v k
    · exact h.inE d (hsub d hd) v k
  · refine elimExprs_pred IntE (fun e f v => intE_substitute e f v)
      (fun i => ∃ d ∈ m.dependents, d.2 = i) m.uexprIds ds (m.uexpr, 0) hS ?_ d.2 ⟨d, hd, rfl⟩
    rintro i ⟨d', hd', rfl⟩
    exact h.intE d' hd'
  · refine elimExprs_pred (fun e => ∀ v ∈ e.vars, v ∈ m.varIds) (fun e f v he hf w hw => ?_)
      (fun i => ∃ d ∈ m.dependents, d.2 = i) m.uexprIds ds (m.uexpr, 0) hS ?_ d.2 ⟨d, hd, rfl⟩
    · rcases ((substitute_vars _ _ _ _).1 hw).2 with k | k
      · exact he w k
      · exact hf w k
    · rintro i ⟨d', hd', rfl⟩
      exact h.inE d' hd'
  · obtain ⟨c, h1, h2, h3⟩ := h.home d hd
    have k : (eliminate ds m).1.con c = m.con c := elimCons_disabled m (relatedCons m) ds (m.con, 0) c h2
    exact ⟨c, h1, by rw [k]; exact h2, by rw [k]; exact h3⟩
  · by_cases hd : IsDependent m v
    · obtain ⟨d, hd, rfl⟩ := hd
      obtain ⟨c, h1, h2, h3⟩ := h.home d hd
      have k : (eliminate ds m).1.con c = m.con c := elimCons_disabled m (relatedCons m) ds (m.con, 0) c h2
      exact Or.inr ⟨c, h1, by rw [k]; exact h3⟩
    · rcases h.used v hv with k | ⟨c, h1, h2⟩
      · exact Or.inl k
      · refine Or.inr ⟨c, h1, elimCons_pred (fun e => v ∈ e.vars) m _ ds (fun d hd' e he => ?_) (m.con, 0) c h2⟩
        exact (substitute_vars _ _ _ _).2 ⟨fun e' => hd ⟨d, hsub d hd', e'.symm⟩, Or.inl he⟩

theorem eliminateLoop_base (ds : List (ℕ × ℕ)) (r : ℕ → ℕ) (fuel : ℕ) : ∀ m m' : MState, Base m → ElimOK m r →
    (∀ d, d ∈ ds ↔ d ∈ m.dependents) → eliminateLoop ds fuel m = some m' →
    Base m' ∧ m'.varIds = m.varIds ∧ m'.var = m.var ∧ m'.conIds = m.conIds ∧
      m'.objDefined = m.objDefined ∧ m'.uexprIds = m.uexprIds := by
  induction fuel with
  | zero => intro m m' _ _ _ h; exact absurd h (by simp [eliminateLoop])
  | succ fuel ih =>
    intro m m' hb hr hds h
    rw [eliminateLoop] at h
    have b1 := eliminate_base m hb r hr ds hds
    split at h
    · simp only [Option.some.injEq] at h
      subst h
      exact ⟨b1, rfl, rfl, rfl, rfl, rfl⟩
    · exact ih (eliminate ds m).1 m' b1 (eliminate_spec m r hr ds hds).1 hds h

/-! ### Extraction -/

theorem extract_parts (senseOf : ℕ → VarSense) (key : ℕ → ℕ) (cs : List ℕ) (nextC nextE : ℕ) (m m' : MState)
    (hx : extract senseOf key cs nextC nextE m = some m') :
    m'.varIds = m.varIds ∧ m'.objDefined = m.objDefined ∧
    (∀ v, m'.var v = if v ∈ (chosen m key cs).map key then markDependent (m.var v) else m.var v) ∧
    (∀ c, c < nextC → m'.con c = if c ∈ chosen m key cs then { m.con c with enabled := false } else m.con c) ∧
    (∃ n, m'.conIds = m.conIds ++ (List.range n).map (nextC + ·) ∧ ∀ k, k < n →
      ∃ i ∈ chosen m key cs, ∃ b : ℤ, (m'.con (nextC + k)).expr = (solved m key i).subValue b) ∧
    (∀ i, i < nextE → m'.uexpr i = m.uexpr i) := by
  unfold extract at hx
  simp only [] at hx
  split at hx
  · simp only [Option.some.injEq] at hx
    subst hx
    refine ⟨rfl, rfl, fun v => rfl, fun c hc => ?_, ⟨_, rfl, fun k hk => ?_⟩, fun i hi => ?_⟩
    · dsimp only
      rw [if_neg (by intro h; exact absurd h.1 (Nat.not_le.2 hc))]
    · dsimp only
      rw [if_pos ⟨Nat.le_add_right _ _, Nat.add_lt_add_left hk _⟩, Nat.add_sub_cancel_left, getD_of_lt _ _ hk]
      obtain ⟨j, hj, hx⟩ := List.mem_flatMap.1 (List.getElem_mem hk)
      refine ⟨j, hj, ?_⟩
      generalize (List.flatMap (fun c => extraConstraints senseOf m (key c) (solved m key c)) (chosen m key cs))[k] = y
        at hx ⊢
      unfold extraConstraints at hx
      rcases List.mem_append.1 hx with hx | hx
      · split at hx
        · rw [List.mem_singleton] at hx; rw [hx]; exact ⟨_, rfl⟩
        · simp at hx
      · split at hx
        · rw [List.mem_singleton] at hx; rw [hx]; exact ⟨_, rfl⟩
        · simp at hx
    · dsimp only
      rw [if_neg (by intro h; exact absurd h.1 (Nat.not_le.2 hi))]
  · exact absurd hx (by simp)

theorem chosen_keys (m : MState) (key : ℕ → ℕ) (cs : List ℕ) (k : ℕ) (hk : k < (chosen m key cs).length) :
    ((chosen m key cs).map key).getD k 0 = key (chosen m key cs)[k] := by
  rw [getD_of_lt _ _ (by rw [List.length_map]; exact hk), List.getElem_map]

/-- The model after an extraction can be eliminated from, and what is true in all rounds stays true. -/
theorem extract_base (senseOf : ℕ → VarSense) (key : ℕ → ℕ) (cs : List ℕ) (nextC nextE : ℕ) (m m' : MState)
    (hb : Base m) (hf : FreeExprs m) (h : Candidates m key cs)
    (hu : ∀ c ∈ cs, lookup (m.con c).expr.terms (key c) = 1 ∨ lookup (m.con c).expr.terms (key c) = -1)
    (hC : ∀ c ∈ m.conIds, c < nextC) (hE : ∀ i ∈ m.uexprIds, i < nextE)
    (ha : Acyclic m key (chosen m key cs))
    (hx : extract senseOf key cs nextC nextE m = some m') :
    Base m' ∧ ∃ r, ElimOK m' r := by
  obtain ⟨f1, f2, f3, _, f5, f6, _⟩ := extract_fields senseOf key cs nextC nextE m m' hx
  obtain ⟨p1, p2, p3, p4, ⟨n, p5', p5n⟩, p6⟩ := extract_parts senseOf key cs nextC nextE m m' hx
  have p5 : ∀ c ∈ m.conIds, c ∈ m'.conIds := fun c hc => by rw [p5']; exact List.mem_append_left _ hc
  have hsub := chosen_sub m key cs
  have hmem : ∀ c ∈ chosen m key cs, c ∈ m.conIds := fun c hc => h.mem c (hsub c hc).1
  have f7 : ∀ c ∈ m'.conIds, (c ∈ m.conIds ∧ (m'.con c).expr = (m.con c).expr) ∨
      ∃ i ∈ chosen m key cs, ∃ b, (m'.con c).expr = (solved m key i).subValue b := by
    intro c hc
    rw [p5'] at hc
    rcases List.mem_append.1 hc with hc | hc
    · refine Or.inl ⟨hc, ?_⟩
      rw [p4 c (hC c hc)]
      split <;> rfl
    · obtain ⟨k, hk, rfl⟩ := List.mem_map.1 hc
      obtain ⟨i, hi, b, e⟩ := p5n k (List.mem_range.1 hk)
      exact Or.inr ⟨i, hi, b, e⟩
  have hs : ∀ c ∈ chosen m key cs, (m.con c).expr.solve (key c) = some (solved m key c) := fun c hc =>
    solved_spec h hb.wfC c (hsub c hc).1
  have swf : ∀ c ∈ chosen m key cs, (solved m key c).WF := fun c hc => solve_wf _ _ (hb.wfC c (hmem c hc)) _ (hs c hc)
  have sint : ∀ c ∈ chosen m key cs, IntE (solved m key c) := fun c hc =>
    intE_solve _ _ _ (hb.intC c (hmem c hc)) (hs c hc) (hu c (hsub c hc).1)
  have svars : ∀ c ∈ chosen m key cs, ∀ v ∈ (solved m key c).vars, v ∈ m.varIds := fun c hc v hv =>
    hb.inC c (hmem c hc) v ((solve_vars _ _ _ (hs c hc) v).1 hv).1
  -- the dependents
  have hcase : ∀ d ∈ m'.dependents, d ∈ m.dependents ∨ ∃ k, ∃ hk : k < (chosen m key cs).length,
      d = (key (chosen m key cs)[k], nextE + k) := by
    intro d hd
    rw [f1] at hd
    rcases List.mem_append.1 hd with hd | hd
    · exact Or.inl hd
    · obtain ⟨k, hk, rfl⟩ := List.mem_map.1 hd
      have hk' := List.mem_range.1 hk
      exact Or.inr ⟨k, hk', by rw [chosen_keys m key cs k hk']⟩
  have hold : ∀ d ∈ m.dependents, m'.uexpr d.2 = m.uexpr d.2 := fun d hd => p6 _ (hE _ (hb.ids d hd))
  have hnokey : ∀ d ∈ m.dependents, d.1 ∉ (chosen m key cs).map key := by
    intro d hd hk
    obtain ⟨c, hc, e⟩ := List.mem_map.1 hk
    exact h.noDep c (hsub c hc).1 (hsub c hc).2 _ (h.keyMem c (hsub c hc).1) ⟨d, hd, e.symm⟩
  have hkeys : m'.dependents.map Prod.fst = m.dependents.map Prod.fst ++ (chosen m key cs).map key := by
    rw [f1, List.map_append, List.map_map]
    congr 1
    apply List.ext_getElem
    · simp
    · intro n h1 h2
      rw [List.getElem_map, List.getElem_range]
      show ((chosen m key cs).map key).getD n 0 = _
      rw [getD_of_lt _ _ h2]
  have wfC' : ∀ c ∈ m'.conIds, (m'.con c).expr.WF := by
    intro c hc
    rcases f7 c hc with ⟨k, e⟩ | ⟨i, hi, b, e⟩
    · rw [e]; exact hb.wfC c k
    · rw [e]; exact swf i hi
  have wfE' : ∀ i, (m'.uexpr i).expr.WF := by
    intro i
    rcases f6 i with e | e | ⟨c, hc, e⟩
    · rw [e]; exact hb.wfE i
    · rw [e]; exact List.nodup_nil
    · rw [e]; exact swf c hc
  have ids' : ∀ d ∈ m'.dependents, d.2 ∈ m'.uexprIds := by
    intro d hd
    rw [f2]
    rcases hcase d hd with hd | ⟨k, hk, rfl⟩
    · exact List.mem_append_left _ (hb.ids d hd)
    · exact List.mem_append_right _ (List.mem_map.2 ⟨k, List.mem_range.2 hk, rfl⟩)
  refine ⟨⟨?_, wfC', fun c hc => ?_, fun c hc v hv => ?_, wfE', by rw [f3]; exact hb.wfO, fun d hd => ?_, fun d hd v hv => ?_,
    ids', fun d hd => ?_, ?_, fun d hd => ?_, fun d hd => ?_, fun v hv => ?_, fun v hv => ?_⟩, ?_⟩
  · rw [p5']
    refine List.Nodup.append hb.conIds ?_ ?_
    · exact List.Nodup.map (fun a b e => Nat.add_left_cancel e) List.nodup_range
    · intro c h1 h2
      obtain ⟨k, _, rfl⟩ := List.mem_map.1 h2
      exact absurd (hC _ h1) (Nat.not_lt.2 (Nat.le_add_right _ _))
  · rcases f7 c hc with ⟨k, e⟩ | ⟨i, hi, b, e⟩
    · rw [e]; exact hb.intC c k
    · rw [e]; exact sint i hi
  · rw [p1]
    rcases f7 c hc with ⟨k, e⟩ | ⟨i, hi, b, e⟩
    · rw [e] at hv; exact hb.inC c k v hv
    · rw [e] at hv; exact svars i hi v hv
  · rcases hcase d hd with hd | ⟨k, hk, rfl⟩
    · rw [hold d hd]; exact hb.intE d hd
    · dsimp only
      rw [f5 k hk]; exact sint _ (List.getElem_mem _)
  · rw [p1]
    rcases hcase d hd with hd | ⟨k, hk, rfl⟩
    · rw [hold d hd] at hv; exact hb.inE d hd v hv
    · dsimp only at hv
      rw [f5 k hk] at hv; exact svars _ (List.getElem_mem _) v hv
  · rw [p1]
    rcases hcase d hd with hd | ⟨k, hk, rfl⟩
    · exact hb.depIds d hd
    · exact hb.inC _ (hmem _ (List.getElem_mem _)) _ (h.keyMem _ (hsub _ (List.getElem_mem _)).1)
  · rw [hkeys]
    refine List.Nodup.append hb.nodup (chosen_keys_nodup m key cs) ?_
    intro v h1 h2
    obtain ⟨d, hd, rfl⟩ := List.mem_map.1 h1
    exact hnokey d hd h2
  · rw [p3]
    rcases hcase d hd with hd | ⟨k, hk, rfl⟩
    · rw [if_neg (hnokey d hd)]; exact hb.sense d hd
    · rw [if_pos (List.mem_map.2 ⟨_, List.getElem_mem _, rfl⟩)]
      unfold markDependent
      dsimp only
      split
      · exact Or.inl rfl
      · exact Or.inr rfl
  · rcases hcase d hd with hd | ⟨k, hk, rfl⟩
    · obtain ⟨c, h1, h2, h3⟩ := hb.home d hd
      refine ⟨c, p5 c h1, ?_, ?_⟩
      · rw [p4 c (hC c h1)]; split
        · rfl
        · exact h2
      · rw [p4 c (hC c h1)]; split <;> exact h3
    · have hm := List.getElem_mem hk
      have hc := h.mem _ (hsub _ hm).1
      refine ⟨(chosen m key cs)[k], p5 _ hc, ?_, ?_⟩
      · rw [p4 _ (hC _ hc), if_pos hm]
      · rw [p4 _ (hC _ hc), if_pos hm]
        exact h.keyMem _ (hsub _ hm).1
  · rw [p1] at hv
    rcases hb.used v hv with k | ⟨c, h1, h2⟩
    · left
      rw [p3]; split
      · exact k
      · exact k
    · refine Or.inr ⟨c, p5 c h1, ?_⟩
      rw [p4 c (hC c h1)]; split <;> exact h2
  · rw [p3] at hv ⊢
    split at hv
    · rename_i hk; rw [if_pos hk]; exact hb.small v hv
    · rename_i hk; rw [if_neg hk]; exact hb.small v hv
  · obtain ⟨r, hr⟩ := ha
    obtain ⟨M, hM⟩ : ∃ M, ∀ v ∈ (chosen m key cs).map key, r v < M := by
      refine ⟨((chosen m key cs).map key).foldr (fun v a => max (r v + 1) a) 0, ?_⟩
      generalize (chosen m key cs).map key = l
      induction l with
      | nil => intro v hv; simp at hv
      | cons w l ih =>
        intro v hv
        rw [List.foldr_cons]
        rcases List.mem_cons.1 hv with rfl | hv
        · exact lt_of_lt_of_le (Nat.lt_succ_self _) (le_max_left _ _)
        · exact lt_of_lt_of_le (ih v hv) (le_max_right _ _)
    refine ⟨fun v => if v ∈ m.dependents.map Prod.fst then M else r v, ?_, wfE', wfC', by rw [f3]; exact hb.wfO, ids'⟩
    intro d hd w hwv hwd
    rw [hkeys, List.mem_append] at hwd
    rcases hcase d hd with hd | ⟨k, hk, rfl⟩
    · rw [hold d hd] at hwv
      have hw1 : w ∉ m.dependents.map Prod.fst := fun hw =>
        hf d.2 (hb.ids d hd) w hwv ((isDependent_iff m w).2 hw)
      dsimp only
      rw [if_neg hw1, if_pos (List.mem_map.2 ⟨d, hd, rfl⟩)]
      exact hM w (hwd.resolve_left hw1)
    · dsimp only at hwv ⊢
      rw [f5 k hk] at hwv
      have hm := List.getElem_mem hk
      obtain ⟨w1, w2⟩ := (solve_vars _ _ _ (hs _ hm) w).1 hwv
      have hw1 : w ∉ m.dependents.map Prod.fst := fun hw =>
        h.noDep _ (hsub _ hm).1 (hsub _ hm).2 w w1 ((isDependent_iff m w).2 hw)
      have hk1 : key (chosen m key cs)[k] ∉ m.dependents.map Prod.fst := fun hw =>
        h.noDep _ (hsub _ hm).1 (hsub _ hm).2 _ (h.keyMem _ (hsub _ hm).1) ((isDependent_iff m _).2 hw)
      rw [if_neg hw1, if_neg hk1]
      exact hr _ hm w w1 w2 (hwd.resolve_left hw1)

/-! ### Reduction -/

theorem setBound_bounds {v w : Var} {l u : ℤ} (h : v.setBound l u = some w) : w.lb = l ∧ w.ub = u := by
  unfold Var.setBound at h
  split at h
  · exact absurd h (by simp)
  · simp only [Option.some.injEq] at h
    subst h
    unfold Var.setupSense Var.updateMargin
    split <;> exact ⟨rfl, rfl⟩

theorem small_closed : Closed (fun _ v => v.fixed = false → -BOUND_LIMIT < v.lb ∧ v.ub < BOUND_LIMIT) where
  fix i v x h := by
    intro hf
    exact absurd hf (by simp [Var.fixBy, Var.updateMargin])
  bound i v old w l u hv ho hf hl hu h := by
    intro hw
    rw [setBound_fixed h, ← hf] at hw
    obtain ⟨h2, h3⟩ := setBound_bounds h
    obtain ⟨k1, k2⟩ := ho hw
    rw [h2, h3]
    exact ⟨lt_of_lt_of_le k1 hl, lt_of_le_of_lt hu k2⟩

theorem removeIndependent_id (m : MState) (vs : List ℕ)
    (h : ∀ v ∈ vs, (m.var v).fixed = true ∨ ∃ c ∈ m.conIds, v ∈ (m.con c).expr.vars) :
    (removeIndependent vs m).1 = m := by
  induction vs with
  | nil => rfl
  | cons v vs ih =>
    have ih := ih (fun w hw => h w (List.mem_cons_of_mem _ hw))
    rw [removeIndependent]
    by_cases hv : (m.var v).fixed = true
    · rw [if_pos hv]; exact ih
    · rw [if_neg hv]
      obtain ⟨c, h1, h2⟩ := (h v List.mem_cons_self).resolve_left hv
      rw [if_neg]
      · exact ih
      · intro e
        have : c ∈ relatedCons m v := List.mem_filter.2 ⟨h1, by simpa using h2⟩
        rw [e] at this; simp at this

open Classical in
/-- The assignment with the dependent variables set to admissible values. -/
noncomputable def patch (m : MState) (x σ : ℕ → ℤ) (v : ℕ) : ℤ := if IsDependent m v then x v else σ v

theorem holds_congr (c : Con) (σ τ : ℕ → ℤ) (h : ∀ v ∈ c.expr.vars, σ v = τ v) : Holds c σ ↔ Holds c τ := by
  unfold Holds
  rw [exprValue_congr c.expr σ τ h]

theorem patch_feasible (m : MState) (x σ : ℕ → ℤ) (hx : ∀ v, IsDependent m v → Admits (m.var v) (x v))
    (hf : FreeRest m) : Feasible m (patch m x σ) ↔
      (∀ v, ¬ IsDependent m v → Admits (m.var v) (σ v)) ∧
        ∀ c ∈ m.conIds, (m.con c).enabled = true → Holds (m.con c) σ := by
  have hc : ∀ c ∈ m.conIds, (m.con c).enabled = true → (Holds (m.con c) (patch m x σ) ↔ Holds (m.con c) σ) := by
    intro c hc he
    refine holds_congr _ _ _ (fun v hv => ?_)
    unfold patch
    rw [if_neg (hf.2 c hc he v hv)]
  constructor
  · rintro ⟨h1, h2⟩
    refine ⟨fun v hv => ?_, fun c h he => (hc c h he).1 (h2 c h he)⟩
    have := h1 v
    unfold patch at this
    rwa [if_neg hv] at this
  · rintro ⟨h1, h2⟩
    refine ⟨fun v => ?_, fun c h he => (hc c h he).2 (h2 c h he)⟩
    unfold patch
    split
    · rename_i hv; exact hx v hv
    · rename_i hv; exact h1 v hv

/-- Every dependent variable still has an admissible value. -/
def Open (m : MState) : Prop := ∀ v, IsDependent m v → ∃ x, Admits (m.var v) x

theorem reduce_base (m m' : MState) (hb : Base m) (hfe : FreeExprs m) (hfr : FreeRest m) (ho : Open m) (σ₀ : ℕ → ℤ)
    (h0 : FeasibleDep m σ₀) (h : reduceProblemSize m = some (.ok m')) :
    Base m' ∧ FreeExprs m' ∧ FreeRest m' ∧ Open m' ∧ (∀ σ, FeasibleDep m' σ ↔ FeasibleDep m σ) ∧
      m'.obj = m.obj ∧ m'.isMin = m.isMin ∧ m'.dependents = m.dependents ∧ m'.varIds = m.varIds ∧
      m'.objDefined = m.objDefined := by
  unfold reduceProblemSize at h
  rw [removeIndependent_id m m.varIds hb.used] at h
  dsimp only at h
  obtain ⟨x, hx⟩ : ∃ x : ℕ → ℤ, ∀ v, IsDependent m v → Admits (m.var v) (x v) := by
    classical
    refine ⟨fun v => if hv : IsDependent m v then (ho v hv).choose else 0, fun v hv => ?_⟩
    dsimp only
    rw [dif_pos hv]
    exact (ho v hv).choose_spec
  have hp := patch_feasible m x σ₀ hx hfr
  have hfeas : ∃ σ, Feasible m σ := ⟨_, hp.2 ⟨h0.bounds, h0.cons⟩⟩
  have hid : IntData m := fun c hc => ⟨hb.wfC c hc, hb.intC c hc⟩
  have sh := reduceLoop_shrunk small_closed _ m m' h
  obtain ⟨e1, e2, e3, e4, e5⟩ := reduceLoop_exact_zero _ m m' hid hb.small hfeas h
  have fr := sh.frame
  have g1 : m'.varIds = m.varIds := by rw [fr]
  have g2 : m'.dependents = m.dependents := by rw [fr]
  have g3 : m'.uexpr = m.uexpr := by rw [fr]
  have g4 : m'.uexprIds = m.uexprIds := by rw [fr]
  have g5 : m'.obj = m.obj := by rw [fr]
  have g6 : m'.isMin = m.isMin := by rw [fr]
  have g7 : m'.objDefined = m.objDefined := by rw [fr]
  have g8 := sh.conIds
  have hexpr : ∀ c, (m'.con c).expr = (m.con c).expr := fun c => by
    obtain ⟨e, he⟩ := e1 c
    rw [he]
  have hoff : ∀ c, (m'.con c).enabled = true → (m.con c).enabled = true := by
    intro c hc
    rcases sh.off c with e | e
    · rw [e] at hc; exact hc
    · rw [e] at hc; exact absurd hc (by simp)
  have hdep : ∀ v, IsDependent m' v ↔ IsDependent m v := fun v => by unfold IsDependent; rw [g2]
  have hfr' : FreeRest m' := by
    refine ⟨fun w hw => ?_, fun c hc he w hw => ?_⟩
    · rw [hdep]; rw [g5] at hw; exact hfr.1 w hw
    · rw [hdep]; rw [hexpr] at hw; rw [g8] at hc; exact hfr.2 c hc (hoff c he) w hw
  have hx' : ∀ v, IsDependent m' v → Admits (m'.var v) (x v) := by
    intro v hv
    have := ((e2 _).1 (hp.2 ⟨h0.bounds, h0.cons⟩)).1 v
    unfold patch at this
    rwa [if_pos ((hdep v).1 hv)] at this
  refine ⟨?_, fun i hi w hw => ?_, hfr', fun v hv => ⟨x v, hx' v hv⟩, fun σ => ?_, g5, g6, g2, g1, g7⟩
  · refine ⟨?_, fun c hc => ?_, fun c hc => ?_, fun c hc => ?_, fun i => ?_, ?_, ?_, ?_, ?_, ?_, ?_, ?_, ?_, ?_, ?_⟩
    · rw [g8]; exact hb.conIds
    · rw [g8] at hc; rw [hexpr]; exact hb.wfC c hc
    · rw [g8] at hc; rw [hexpr]; exact hb.intC c hc
    · rw [g8] at hc; rw [hexpr, g1]; exact hb.inC c hc
    · rw [g3]; exact hb.wfE i
    · rw [g5]; exact hb.wfO
    · rw [g2, g3]; exact hb.intE
    · rw [g2, g3, g1]; exact hb.inE
    · rw [g2, g4]; exact hb.ids
    · rw [g2, g1]; exact hb.depIds
    · rw [g2]; exact hb.nodup
    · rw [g2]
      intro d hd
      rw [reduceLoop_sense d.1 _ m m' (fun c hc he hv => hfr.2 c hc he _ hv ⟨d, hd, rfl⟩) h]
      exact hb.sense d hd
    · rw [g2, g8]
      intro d hd
      obtain ⟨c, h1, h2, h3⟩ := hb.home d hd
      refine ⟨c, h1, ?_, by rw [hexpr]; exact h3⟩
      rcases sh.off c with e | e
      · rw [e]; exact h2
      · rw [e]
    · rw [g1, g8]
      intro v hv
      rcases hb.used v hv with k | ⟨c, h1, h2⟩
      · exact Or.inl (e4 v k)
      · exact Or.inr ⟨c, h1, by rw [hexpr]; exact h2⟩
    · exact sh.vars hb.small
  · rw [hdep]; rw [g3] at hw; rw [g4] at hi; exact hfe i hi w hw
  · have hp1 := patch_feasible m x σ hx hfr
    have hp2 := patch_feasible m' x σ hx' hfr'
    have hpe : patch m' x σ = patch m x σ := by
      funext v
      unfold patch
      by_cases hv : IsDependent m v
      · rw [if_pos hv, if_pos ((hdep v).2 hv)]
      · rw [if_neg hv, if_neg (fun k => hv ((hdep v).1 k))]
    rw [hpe] at hp2
    constructor
    · intro hf
      obtain ⟨k1, k2⟩ := hp1.1 ((e2 _).2 (hp2.2 ⟨hf.bounds, hf.cons⟩))
      refine ⟨k1, ?_, k2⟩
      have := hf.defs
      rwa [g2, g3] at this
    · intro hf
      obtain ⟨k1, k2⟩ := hp2.1 ((e2 _).1 (hp1.2 ⟨hf.bounds, hf.cons⟩))
      refine ⟨k1, ?_, k2⟩
      rw [g2, g3]; exact hf.defs

/-! ### One round -/

/-- What is true of the model between two rounds. -/
structure Between (m : MState) : Prop where
  base : Base m
  exprs : FreeExprs m
  rest : FreeRest m
  opened : Open m

theorem Base.structured {m : MState} (h : Base m) : Base (Setup.structured m) :=
  ⟨h.conIds, h.wfC, h.intC, h.inC, h.wfE, h.wfO, h.intE, h.inE, h.ids, h.depIds, h.nodup, h.sense, h.home, h.used, h.small⟩

theorem Between.structured {m : MState} (h : Between m) : Between (Setup.structured m) :=
  ⟨h.base.structured, h.exprs, h.rest, h.opened⟩

theorem structured_feasible (m : MState) (σ : ℕ → ℤ) : FeasibleDep (Setup.structured m) σ ↔ FeasibleDep m σ :=
  ⟨fun h => ⟨h.bounds, h.defs, h.cons⟩, fun h => ⟨h.bounds, h.defs, h.cons⟩⟩

theorem candidates_of (o : Options) (lt : ℕ → ℕ → Bool) (m : MState) (h : Between m) :
    Candidates m (keyOf lt m) (dependentCandidates o lt m) := by
  have hk := candidate_key o lt m h.base.wfC
  have hm := fun c hc => (mem_candidates o lt m c hc).1
  refine ⟨hm, fun c hc => (hk c hc).1, fun c hc => (hk c hc).2.1, fun c hc => ?_, fun c hc => (hk c hc).2.2.2,
    fun c hc he v hv => h.rest.2 c (hm c hc) he v hv⟩
  rcases (hk c hc).2.2.1 with e | e <;> rw [e] <;> norm_num

theorem mem_eliminationOrder (m : MState)
    (h : ∀ d ∈ m.dependents, (m.var d.1).sense = .dependentBinary ∨ (m.var d.1).sense = .dependentInteger) (d : ℕ × ℕ) :
    d ∈ eliminationOrder m ↔ d ∈ m.dependents := by
  unfold eliminationOrder
  rw [List.mem_append, List.mem_filter, List.mem_filter]
  constructor
  · rintro (k | k) <;> exact k.1
  · intro hd
    rcases h d hd with k | k
    · exact Or.inl ⟨hd, by rw [k]; rfl⟩
    · exact Or.inr ⟨hd, by rw [k]; rfl⟩

/-- Extraction and elimination. -/
theorem round_spec (o : Options) (lt : ℕ → ℕ → Bool) (m : MState) (h : Between m)
    (hc : NoCycle m (keyOf lt m) (chosen m (keyOf lt m) (dependentCandidates o lt m))) :
    ∃ m1 m2, extract (fun v => (m.var v).sense) (keyOf lt m) (dependentCandidates o lt m) (fresh m.conIds)
        (fresh m.uexprIds) m = some m1 ∧
      eliminateLoop (eliminationOrder m1) 4 m1 = some m2 ∧ Base m2 ∧ FreeExprs m2 ∧ FreeRest m2 ∧
      (∀ σ, FeasibleDep m2 σ ↔ FeasibleDep m σ) ∧
      (∀ σ, FeasibleDep m σ → exprValue m2.obj σ = exprValue m.obj σ ∧ Open m2) ∧
      m2.isMin = m.isMin ∧ m2.objDefined = m.objDefined ∧ m2.varIds = m.varIds ∧
      m2.dependents.length = m.dependents.length +
        (chosen m (keyOf lt m) (dependentCandidates o lt m)).length := by
  have hcand := candidates_of o lt m h
  obtain ⟨m1, hx, x1, x2, x3⟩ := extract_ok (fun v => (m.var v).sense) (keyOf lt m) (dependentCandidates o lt m)
    (fresh m.conIds) (fresh m.uexprIds) m hcand
  have hC := lt_fresh m.conIds
  have hE := lt_fresh m.uexprIds
  obtain ⟨b1, r, hr⟩ := extract_base _ _ _ _ _ m m1 h.base h.exprs hcand
    (fun c hc => (candidate_key o lt m h.base.wfC c hc).2.2.1) hC hE hc hx
  have hds := mem_eliminationOrder m1 b1.sense
  obtain ⟨m2, h2, e1, e2, e3, e4, e5, e6, _⟩ := eliminateLoop_spec m1 r hr _ hds 4 (by omega)
  obtain ⟨b2, v1, v2, v3, v4, _⟩ := eliminateLoop_base _ r 4 m1 m2 b1 hr hds h2
  obtain ⟨f1, _⟩ := extract_fields _ _ _ _ _ m m1 hx
  obtain ⟨p1, _, p3, _⟩ := extract_parts _ _ _ _ _ m m1 hx
  have hiff : ∀ σ, FeasibleDep m σ ↔ FeasibleDep m1 σ := fun σ =>
    extract_iff_of _ _ _ _ _ m m1 h.base.wfC hcand hC (fun d hd => hE _ (h.base.ids d hd)) hc hx σ
      (fun c hc => by
        obtain ⟨k1, k2⟩ := h.base.small _ (hcand.unfixed c hc)
        have l1 : -INT_HALF_MAX < -BOUND_LIMIT := by decide
        have l2 : BOUND_LIMIT < INT_HALF_MAX := by decide
        have l3 : INT_HALF_MIN < -BOUND_LIMIT := by decide
        exact ⟨fun e => by omega, fun e => by omega⟩)
  refine ⟨m1, m2, hx, h2, b2, e5, e6, fun σ => (e3 σ).trans (hiff σ).symm, fun σ hσ => ⟨?_, ?_⟩, e2.trans x2,
    v4.trans x3, v1.trans p1, ?_⟩
  · rw [e4 σ ((hiff σ).1 hσ), x1]
  · intro v hv
    rw [v2, p3]
    have hv1 : IsDependent m1 v := by
      obtain ⟨d, hd, e⟩ := hv
      rw [e1] at hd
      exact ⟨d, hd, e⟩
    by_cases hd : IsDependent m v
    · obtain ⟨x, hx⟩ := h.opened v hd
      refine ⟨x, ?_⟩
      split
      · exact hx
      · exact hx
    · refine ⟨σ v, ?_⟩
      have := hσ.bounds v hd
      split
      · exact this
      · exact this
  · rw [e1, f1, List.length_append, List.length_map, List.length_range]

/-! ### All rounds -/

theorem dependentLoop_succ (o : Options) (lt : ℕ → ℕ → Bool) (fuel : ℕ) (m : MState) (h : Between m)
    (hc : NoCycle m (keyOf lt m) (chosen m (keyOf lt m) (dependentCandidates o lt m))) :
    (chosen m (keyOf lt m) (dependentCandidates o lt m) = [] ∧ dependentLoop o lt (fuel + 1) m = some (.ok m)) ∨
    ∃ m1 m2, extract (fun v => (m.var v).sense) (keyOf lt m) (dependentCandidates o lt m) (fresh m.conIds)
        (fresh m.uexprIds) m = some m1 ∧ chosen m (keyOf lt m) (dependentCandidates o lt m) ≠ [] ∧
      eliminateLoop (eliminationOrder m1) 4 m1 = some m2 ∧
      dependentLoop o lt (fuel + 1) m =
        andThen (reduceProblemSize (Setup.structured m2)) (fun m3 => dependentLoop o lt fuel (Setup.structured m3)) := by
  obtain ⟨m1, m2, hx, h2, _⟩ := round_spec o lt m h hc
  by_cases hn : chosen m (keyOf lt m) (dependentCandidates o lt m) = []
  · left
    refine ⟨hn, ?_⟩
    rw [dependentLoop, hx]
    simp only [hn, if_true]
  · right
    refine ⟨m1, m2, hx, hn, h2, ?_⟩
    rw [dependentLoop, hx]
    simp only [hn, if_false, h2]

theorem reduceProblemSize_some (m : MState) (h : Base m) : ∃ r, reduceProblemSize m = some r := by
  unfold reduceProblemSize
  rw [removeIndependent_id m m.varIds h.used]
  refine reduceLoop_terminates _ m ?_
  have h1 : numEnabled m ≤ m.conIds.length := List.length_filter_le _ _
  have h2 : numUnfixed m ≤ m.varIds.length := List.length_filter_le _ _
  omega

theorem reduceProblemSize_not_thrown (m : MState) (h : Between m) (σ : ℕ → ℤ) (hσ : FeasibleDep m σ) :
    reduceProblemSize m ≠ some .thrown := by
  unfold reduceProblemSize
  rw [removeIndependent_id m m.varIds h.base.used]
  obtain ⟨x, hx⟩ : ∃ x : ℕ → ℤ, ∀ v, IsDependent m v → Admits (m.var v) (x v) := by
    classical
    refine ⟨fun v => if hv : IsDependent m v then (h.opened v hv).choose else 0, fun v hv => ?_⟩
    dsimp only
    rw [dif_pos hv]
    exact (h.opened v hv).choose_spec
  exact reduceLoop_not_thrown _ m (fun c hc => ⟨h.base.wfC c hc, h.base.intC c hc⟩) _
    ((patch_feasible m x σ hx h.rest).2 ⟨hσ.bounds, hσ.cons⟩)

/-- The loop over dependent variables, when it ends normally. -/
theorem dependentLoop_exact (o : Options) (lt : ℕ → ℕ → Bool) (fuel : ℕ) : ∀ m m' : MState, Between m →
    (∃ σ, FeasibleDep m σ) → AcyclicRounds o lt fuel m → dependentLoop o lt fuel m = some (.ok m') →
    Between m' ∧ (∀ σ, FeasibleDep m' σ ↔ FeasibleDep m σ) ∧
      (∀ σ, FeasibleDep m σ → exprValue m'.obj σ = exprValue m.obj σ) ∧ m'.isMin = m.isMin ∧
      m'.objDefined = m.objDefined ∧ m'.varIds = m.varIds := by
  induction fuel with
  | zero => intro m m' _ _ _ h; exact absurd h (by simp [dependentLoop])
  | succ fuel ih =>
    intro m m' hb hf ha h
    rw [AcyclicRounds] at ha
    obtain ⟨ha1, ha2⟩ := ha
    rcases dependentLoop_succ o lt fuel m hb ha1 with ⟨_, e⟩ | ⟨m1, m2, hx, hn, h2, e⟩
    · rw [e] at h
      simp only [Option.some.injEq, Outcome.ok.injEq] at h
      subst h
      exact ⟨hb, fun _ => Iff.rfl, fun _ _ => rfl, rfl, rfl, rfl⟩
    · obtain ⟨m1', m2', hx', h2', r1, r2, r3, r4, r5, r6, r7, r8, _⟩ := round_spec o lt m hb ha1
      rw [hx] at hx'
      simp only [Option.some.injEq] at hx'
      subst hx'
      rw [h2] at h2'
      simp only [Option.some.injEq] at h2'
      subst h2'
      rw [e] at h
      cases h3 : reduceProblemSize (Setup.structured m2) with
      | none => rw [h3] at h; exact absurd h (by simp [andThen])
      | some q =>
        cases q with
        | thrown => rw [h3] at h; exact absurd h (by simp [andThen])
        | undefined => rw [h3] at h; exact absurd h (by simp [andThen])
        | ok m3 =>
          rw [h3] at h
          replace h : dependentLoop o lt fuel (Setup.structured m3) = some (.ok m') := h
          obtain ⟨σ₀, hσ₀⟩ := hf
          have hop := (r5 σ₀ hσ₀).2
          have h0 : FeasibleDep (Setup.structured m2) σ₀ := (structured_feasible m2 σ₀).2 ((r4 σ₀).2 hσ₀)
          obtain ⟨s1, s2, s3, s4, s5, s6, s7, s8, s9, s10⟩ := reduce_base (Setup.structured m2) m3 r1.structured r2 r3
            hop σ₀ h0 h3
          have hbet : Between (Setup.structured m3) := Between.structured ⟨s1, s2, s3, s4⟩
          have hall : ∀ σ, FeasibleDep (Setup.structured m3) σ ↔ FeasibleDep m σ := fun σ =>
            (structured_feasible m3 σ).trans ((s5 σ).trans ((structured_feasible m2 σ).trans (r4 σ)))
          obtain ⟨t1, t2, t3, t4, t5, t6⟩ := ih (Setup.structured m3) m' hbet ⟨σ₀, (hall σ₀).2 hσ₀⟩
            (ha2 m1 m2 m3 hx hn h2 h3) h
          refine ⟨t1, fun σ => (t2 σ).trans (hall σ), fun σ hσ => ?_, ?_, ?_, ?_⟩
          · rw [t3 σ ((hall σ).2 hσ)]
            show exprValue m3.obj σ = _
            rw [s6]
            exact (r5 σ hσ).1
          · rw [t4]; show m3.isMin = _; rw [s7]; exact r6
          · rw [t5]; show m3.objDefined = _; rw [s10]; exact r7
          · rw [t6]; show m3.varIds = _; rw [s9]; exact r8

/-- The loop over dependent variables ends, and never with an exception. -/
theorem dependentLoop_total (o : Options) (lt : ℕ → ℕ → Bool) (fuel : ℕ) : ∀ m : MState, Between m →
    (∃ σ, FeasibleDep m σ) → AcyclicRounds o lt fuel m → m.varIds.length < fuel + m.dependents.length →
    ∃ r, dependentLoop o lt fuel m = some r ∧ r ≠ .thrown := by
  induction fuel with
  | zero =>
    intro m hb _ _ h
    have : m.dependents.length ≤ m.varIds.length := by
      rw [← List.length_map (f := Prod.fst)]
      exact (hb.base.nodup.subperm (fun v hv => by
        obtain ⟨d, hd, rfl⟩ := List.mem_map.1 hv
        exact hb.base.depIds d hd)).length_le
    omega
  | succ fuel ih =>
    intro m hb hf ha h
    rw [AcyclicRounds] at ha
    obtain ⟨ha1, ha2⟩ := ha
    rcases dependentLoop_succ o lt fuel m hb ha1 with ⟨_, e⟩ | ⟨m1, m2, hx, hn, h2, e⟩
    · exact ⟨_, e, by simp⟩
    · obtain ⟨m1', m2', hx', h2', r1, r2, r3, r4, r5, r6, r7, r8, r9⟩ := round_spec o lt m hb ha1
      rw [hx] at hx'
      simp only [Option.some.injEq] at hx'
      subst hx'
      rw [h2] at h2'
      simp only [Option.some.injEq] at h2'
      subst h2'
      rw [e]
      obtain ⟨σ₀, hσ₀⟩ := hf
      have hop := (r5 σ₀ hσ₀).2
      have h0 : FeasibleDep (Setup.structured m2) σ₀ := (structured_feasible m2 σ₀).2 ((r4 σ₀).2 hσ₀)
      obtain ⟨q, hq⟩ := reduceProblemSize_some (Setup.structured m2) r1.structured
      have hnt := reduceProblemSize_not_thrown (Setup.structured m2) ⟨r1.structured, r2, r3, hop⟩ σ₀ h0
      rw [hq]
      cases q with
      | thrown => exact absurd hq hnt
      | undefined => exact ⟨.undefined, rfl, by simp⟩
      | ok m3 =>
        obtain ⟨s1, s2, s3, s4, s5, s6, s7, s8, s9, s10⟩ := reduce_base (Setup.structured m2) m3 r1.structured r2 r3
          hop σ₀ h0 hq
        have hbet : Between (Setup.structured m3) := Between.structured ⟨s1, s2, s3, s4⟩
        have hall : FeasibleDep (Setup.structured m3) σ₀ :=
          (structured_feasible m3 σ₀).2 ((s5 σ₀).2 h0)
        refine ih (Setup.structured m3) hbet ⟨σ₀, hall⟩ (ha2 m1 m2 m3 hx hn h2 hq) ?_
        show m3.varIds.length < fuel + m3.dependents.length
        have l1 : m3.varIds = m.varIds := s9.trans r8
        have l2 : m3.dependents.length = m2.dependents.length := by rw [s8]; rfl
        have l3 := List.length_pos_iff.2 hn
        rw [l1, l2, r9]
        omega

end Printemps.Setup
