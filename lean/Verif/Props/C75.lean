import Verif.Lemmas.Hot

/-! # C75 — a call whose setup succeeded ends with a result

The searches import solutions again and again, and every import throws an exception if a selection does not have exactly
one variable with value 1 or a value is out of its bounds.  This never happens. -/

namespace Printemps.C75
open Spec Search Nbhd Moves Chain C74

variable {ν μ : Type} [LinearOrder ν] [LinearOrder μ]

section
variable {C : Nbhd.Config ν μ} {cfg : Cfg} {m0 m : MState}

/-- What a candidate does to the selections. -/
def Kind (m0 : MState) (sel : ℕ → Option ℕ) (mv : Move) : Prop :=
  (mv.sense ≠ .selection ∧ ∀ a ∈ mv.alterations, ∀ s, (m0.var a.1).selection ≠ some s) ∨
  (mv.sense = .selection ∧ ∃ s u v, mv.alterations = [(u, 0), (v, 1)] ∧ sel s = some u ∧ u ≠ v ∧
    (m0.var u).selection = some s ∧ (m0.var v).selection = some s)

theorem Kind.swaps {sel : ℕ → Option ℕ} {mv : Move} (h : Kind m0 sel mv) : Swaps m0 sel mv.alterations := by
  rcases h with ⟨-, h⟩ | ⟨-, s, u, v, h1, h2, h3, h4, h5⟩
  · exact Swaps.none h
  · intro s'
    by_cases e : s' = s
    · subst e
      right
      refine ⟨u, v, h2, h3, by rw [h1]; simp, by rw [h1]; simp, h5, fun a ha _ => ?_⟩
      rw [h1] at ha
      simpa using ha
    · left
      intro a ha
      rw [h1] at ha
      simp only [List.mem_cons, List.not_mem_nil, or_false] at ha
      rcases ha with rfl | rfl
      · dsimp only; rw [h4]; exact fun e' => e (Option.some.inj e').symm
      · dsimp only; rw [h5]; exact fun e' => e (Option.some.inj e').symm

theorem free (hf : Fits C cfg m0) {v : ℕ} (h : (m0.var v).sense ≠ .selection) (s : ℕ) : (m0.var v).selection ≠ some s :=
  fun e => h (hf.owner v s e).2.2.2

theorem special_kind (hf : Fits C cfg m0) (acc : Accept) (st : Status) (sel : ℕ → Option ℕ)
    (t : ConType × MoveSense) (ht : t ∈ classes) (l : List Move) (hl : ofType C st acc m t = some l)
    (hs : C66.Setting cfg m0) (mv : Move) (hmv : mv ∈ l) : Kind m0 sel mv := by
  unfold ofType at hl
  obtain ⟨k, hk, rfl⟩ := Option.map_eq_some_iff.1 hl
  obtain ⟨alts, halts, rfl⟩ := List.mem_map.1 hmv
  rw [List.mem_filter] at halts
  obtain ⟨hin, -⟩ := halts
  obtain ⟨i, hi, he, hty, hvars, lc, hlc, hal⟩ := ofModel_mem _ _ _ _ _ hk alts hin
  rw [hf.conIds] at hi
  obtain ⟨-, n2, -⟩ := ofClass_vars _ _ _ (by rw [hf.terms]; exact hs.wf.con i hi) t.1 lc hlc
    (fun e k' hk' => by
      have := classify_soft C.setup.var C.lt (C.setup.con i) (hty.trans e)
      obtain ⟨-, x, hx, hxe⟩ := flow_soft C.setup.var (C.setup.con i) (ConType.classify C.setup.var C.lt (C.setup.con i)).2
        (by rw [this, ← hty.trans e])
      rw [hk'] at hxe
      rw [Option.some.inj hxe]; exact hx) alts hal
  have hkind : ∀ t ∈ classes, t.2 ≠ .selection := by decide
  refine Or.inl ⟨hkind t ht, fun a ha s => free hf ?_ s⟩
  rw [← hf.sense]; exact (hvars a.1 (n2 a ha)).2

theorem flip_kind (hf : Fits C cfg m0) (sel : ℕ → Option ℕ) {mv : Move} (h : Flip m0 mv) (hk : mv.sense ≠ .selection) :
    Kind m0 sel mv :=
  Or.inl ⟨hk, fun a ha s => free hf (by rw [(h.vars a ha).2.1]; decide) s⟩

theorem candidates_kind {past : List Move} (hs : C66.Setting cfg m0) (hf : Fits C cfg m0) (hr : Reached m0 m) (acc : Accept)
    (st : Status) (hpast : ∀ mv ∈ past, mv.sense = .binary ∨ mv.sense = .chain ∨ mv.sense = .twoFlip → Flip m0 mv)
    (hw : ∀ x ∈ st.chain, Woven C.name past x) (l : List Move) (hl : candidates C st acc m = some l)
    (mv : Move) (hmv : mv ∈ l) : Kind m0 m.selected mv := by
  have hfine := candidates_fine hs hf hr acc st hpast hw l hl mv hmv
  unfold candidates at hl
  obtain ⟨sel, h1, h2⟩ := Option.bind_eq_some_iff.1 hl
  obtain ⟨special, h3, rfl⟩ := Option.map_eq_some_iff.1 h2
  simp only [List.mem_append] at hmv
  rcases hmv with ((((hmv | hmv) | hmv) | hmv) | hmv) | hmv
  · split at hmv
    · obtain ⟨v, hv, rfl⟩ := List.mem_map.1 hmv
      exact flip_kind hf _ (hfine.flip (Or.inl rfl)) (by simp [binaryMove])
    · exact absurd hmv (by simp)
  · split at hmv
    · obtain ⟨v, hv, hm⟩ := List.mem_flatMap.1 hmv
      obtain ⟨g1, g2, -⟩ := hf.mem_sense hv
      unfold integerMovesOf at hm
      split at hm
      · obtain ⟨t, -, ht⟩ := List.mem_filterMap.1 hm
        obtain ⟨y, -, rfl⟩ := Option.map_eq_some_iff.1 ht
        refine Or.inl ⟨by simp, fun a ha s => ?_⟩
        obtain rfl := List.mem_singleton.1 ha
        exact free hf (by rw [g2]; decide) s
      · exact absurd hm (by simp)
    · exact absurd hmv (by simp)
  · have := ifOn_mem h1 hmv
    unfold selectionMoves at this
    obtain ⟨k, hk, rfl⟩ := Option.map_eq_some_iff.1 this
    rw [List.mem_filter] at hmv
    obtain ⟨v, hv, e⟩ := mapM_mem _ _ k hk mv hmv.1
    unfold selectionMove at e
    split at e
    · exact absurd e (by simp)
    rename_i s hsel
    rw [hr.tied.ptr] at hsel
    split at e
    · exact absurd e (by simp)
    rename_i u hu
    obtain rfl := Option.some.inj e
    have hflag := hmv.2
    unfold selectionFlag at hflag
    simp only [Bool.and_eq_true, decide_eq_true_eq] at hflag
    exact Or.inr ⟨rfl, s, u, v, rfl, hu, hflag.1, (hr.tied.chosen s u hu).1, hsel⟩
  · obtain ⟨r, hr', hm⟩ := List.mem_flatten.1 hmv
    obtain ⟨t, ht, e⟩ := mapM_mem _ _ _ h3 r hr'
    exact special_kind hf acc st _ t ht r (ifOn_mem e hm) hs mv hm
  · split at hmv
    · unfold chainMoves at hmv
      rw [List.mem_filter] at hmv
      obtain ⟨x, hx, rfl⟩ := List.mem_map.1 hmv.1
      obtain ⟨w1, -, -, w4⟩ := woven_fine hf hpast x (hw x hx)
      exact flip_kind hf _ w1 (by rw [w4]; decide)
    · exact absurd hmv (by simp)
  · split at hmv
    · have hk : mv.sense = .twoFlip := by
        unfold twoFlipMoves at hmv
        obtain ⟨alts, -, rfl⟩ := List.mem_map.1 hmv
        rfl
      exact flip_kind hf _ (hfine.flip (Or.inr (Or.inr hk))) (by rw [hk]; decide)
    · exact absurd hmv (by simp)

/-- The loop of local search keeps the swaps apart. -/
theorem merged_swaps (hr : Reached m0 m) (cur : Score) (adj : Bool) (fuel : ℕ) (rest : List (Move × Score))
    (hfine : ∀ t ∈ rest, Fine (Flip m0) cfg m0 m t.1 ∧ Kind m0 m.selected t.1) (s r : LocalSearch.Merged)
    (h : LocalSearch.mergeLoop m cur adj fuel rest s = some r) :
    ∃ more, r.move.alterations = s.move.alterations ++ more ∧
      (((s.move.alterations ++ more).map Prod.fst).Nodup → Swaps m0 m.selected s.move.alterations →
        Swaps m0 m.selected (s.move.alterations ++ more)) := by
  obtain ⟨l', g', stt⟩ := hr.stat
  induction rest generalizing s with
  | nil =>
    rw [LocalSearch.mergeLoop] at h
    cases h
    exact ⟨[], by simp, fun _ hh => by simpa using hh⟩
  | cons t rest ih =>
    obtain ⟨mv, sc⟩ := t
    obtain ⟨hmv, hkd⟩ := hfine (mv, sc) (by simp)
    dsimp only at hmv hkd
    have hfine' := fun t ht => hfine t (List.mem_cons_of_mem _ ht)
    rw [LocalSearch.mergeLoop] at h
    dsimp only at h
    split at h
    · cases h; exact ⟨[], by simp, fun _ hh => by simpa using hh⟩
    · split at h
      · exact ih hfine' s h
      · split at h
        · rename_i hadj
          obtain ⟨move', h1, h2⟩ := Option.bind_eq_some_iff.1 h
          obtain ⟨-, v, x, e, hx⟩ := hmv.step hadj.2
          obtain ⟨l1, l2, l3, l4, l5⟩ := hmv.legal.listed (v, x) (by rw [e]; simp)
          have hb := hr.range v l1 l2 l3
          obtain ⟨t', rfl, b1, b2⟩ := adjust_inside m cur fuel _ move' s.move.alterations v x
            (by show s.move.alterations ++ mv.alterations = _; rw [e]) (by rw [stt.lb]; exact hb.1) (by rw [stt.ub]; exact hb.2)
            (by rw [stt.lb]; exact l4) (by rw [stt.ub]; exact l5) hx h1
          obtain ⟨more, m1, m2⟩ := ih hfine' ⟨{ LocalSearch.append s.move mv with alterations := s.move.alterations ++ [(v, t')] }, _, _⟩ h2
          dsimp only at m1 m2
          refine ⟨[(v, t')] ++ more, by rw [m1, List.append_assoc], fun hn hsw => ?_⟩
          rw [← List.append_assoc] at hn ⊢
          refine m2 hn (hsw.append (Swaps.none fun a ha s' => ?_) ?_)
          · obtain rfl := List.mem_singleton.1 ha
            rcases hkd with ⟨-, hk⟩ | ⟨hk, -⟩
            · exact hk (v, x) (by rw [e]; simp) s'
            · rw [hadj.2] at hk; exact absurd hk (by decide)
          · rw [List.map_append] at hn ⊢
            exact (List.nodup_append.1 hn).1 |> fun h => by simpa using h
        · obtain ⟨more, m1, m2⟩ := ih hfine' ⟨LocalSearch.append s.move mv, _, _⟩ h
          have happ : (LocalSearch.append s.move mv).alterations = s.move.alterations ++ mv.alterations := rfl
          dsimp only at m1 m2
          rw [happ] at m1 m2
          refine ⟨mv.alterations ++ more, by rw [m1, List.append_assoc], fun hn hsw => ?_⟩
          rw [← List.append_assoc] at hn ⊢
          refine m2 hn (hsw.append hkd.swaps ?_)
          rw [List.map_append] at hn
          exact (List.nodup_append.1 hn).1

/-- The selections after an accepted move. -/
theorem chosen_hot {past : List Move} (hs : C66.Setting cfg m0) (hf : Fits C cfg m0) (hcon : Constrained m0) (s : St)
    (hr : Reached m0 s.model) (acc : Accept) (st : Status)
    (hpast : ∀ mv ∈ past, mv.sense = .binary ∨ mv.sense = .chain ∨ mv.sense = .twoFlip → Flip m0 mv)
    (hw : ∀ x ∈ st.chain, Woven C.name past x) (mv : Move) (b : Bool) (h : Chosen C cfg st acc s mv b) (σ : ℕ → ℤ)
    (hhot : Hot m0 cfg.sels s.model.selected σ) :
    Hot m0 cfg.sels (afterMove s.model mv).selected (applyMove σ mv.alterations) := by
  have hlegal := (chosen_legal hs hf hcon s hr acc st hpast hw mv b h).1
  obtain ⟨l', g', stt⟩ := hr.stat
  have hptr := hr.tied.ptr
  -- a candidate or an adjusted candidate
  have plain : Kind m0 s.model.selected mv → mv.sense ≠ .general →
      Hot m0 cfg.sels (afterMove s.model mv).selected (applyMove σ mv.alterations) := by
    intro hk hg
    have hsel : (afterMove s.model mv).selected = (s.model.updateMove mv).selected := by
      unfold afterMove; rw [if_neg hg]
    rw [hsel, updateMove_selected_eq]
    refine hhot.swap hf.members (fun v s' e => (hf.owner v s' e).2.1) hlegal.distinct hk.swaps (fun s' hno => ?_)
      (fun s' u v p1 p2 p3 p4 p5 p6 => ?_)
    · rcases hk with ⟨h1, -⟩ | ⟨h1, s'', u, v, h2, h3, h4, h5, h6⟩
      · rw [if_neg h1]
      · rw [if_pos h1, h2]
        dsimp only
        rw [hptr, h6]
        dsimp only
        refine Function.update_of_ne (fun e => ?_) _ _
        subst e
        exact hno (v, 1) (by rw [h2]; simp) h6
    · rcases hk with ⟨h1, h2⟩ | ⟨h1, s'', u', v', h2, h3, h4, h5, h6⟩
      · exact absurd p5 (h2 _ p4 s')
      · rw [h2] at p4
        have hv : v = v' := by simpa using p4
        subst hv
        rw [h6] at p5
        obtain rfl := Option.some.inj p5
        rw [if_pos h1, h2]
        dsimp only
        rw [hptr, h6]
        dsimp only
        exact Function.update_self _ _ _
  cases h with
  | plain l mv hl hmv =>
    exact plain (candidates_kind hs hf hr acc st hpast hw l hl mv hmv)
      (candidates_fine hs hf hr acc st hpast hw l hl mv hmv).kind
  | adjusted l mv1 mv fuel hl hmv hi ha =>
    have hfine := candidates_fine hs hf hr acc st hpast hw l hl mv1 hmv
    obtain ⟨-, h2⟩ := fine_adjusted hr.standing s.cur fuel mv1 mv hfine hi ha
    refine plain (Or.inl ⟨by rw [h2]; decide, fun a haa s' => ?_⟩) (by rw [h2]; decide)
    obtain ⟨hu, v, x, e, hx⟩ := hfine.step hi
    obtain ⟨l1, l2, l3, l4, l5⟩ := hfine.legal.listed (v, x) (by rw [e]; simp)
    have hb := hr.range v l1 l2 l3
    obtain ⟨t', rfl, -, -⟩ := adjust_inside s.model s.cur fuel mv1 mv [] v x e (by rw [stt.lb]; exact hb.1)
      (by rw [stt.ub]; exact hb.2) (by rw [stt.lb]; exact l4) (by rw [stt.ub]; exact l5) hx ha
    obtain rfl := List.mem_singleton.1 haa
    rcases candidates_kind hs hf hr acc st hpast hw l hl mv1 hmv with ⟨-, hk⟩ | ⟨hk, -⟩
    · exact hk (v, x) (by rw [e]; simp) s'
    · rw [hi] at hk; exact absurd hk (by decide)
  | merged l adj fuel r hl hr' =>
    have hfine : ∀ t ∈ LocalSearch.order (l.map (fun mv => (mv, trialScore { cfg with fast := true } s.model mv s.cur))),
        Fine (Flip m0) cfg m0 s.model t.1 ∧ Kind m0 s.model.selected t.1 := fun t ht => by
      obtain ⟨mv, hmv, rfl⟩ := List.mem_map.1 ((C55.order_mem _ t).1 ht)
      exact ⟨candidates_fine hs hf hr acc st hpast hw l hl mv hmv, candidates_kind hs hf hr acc st hpast hw l hl mv hmv⟩
    obtain ⟨more, e1, e2⟩ := merged_swaps hr s.cur adj fuel _ hfine _ r hr'
    obtain ⟨-, hg, -, -⟩ := merged_values (cfg := cfg) hr.standing s.cur adj fuel _ (fun t ht => (hfine t ht).1) _ r
      ⟨by simp, rfl, rfl, rfl⟩ hr'
    simp only [List.nil_append] at e1 e2
    rw [← e1] at e2
    have hsw := e2 hlegal.distinct (Swaps.none (by simp))
    have hsame : (s.model.updateMove r.move).selected = s.model.selected := by
      rw [updateMove_selected_eq, if_neg (by rw [hg]; decide)]
    have hptr' : ∀ v, ((s.model.updateMove r.move).var v).selection = (m0.var v).selection :=
      (hr.tied.move r.move fun a ha => (hlegal.listed a ha).2.2.1).ptr
    have hsen : ∀ v, ((s.model.updateMove r.move).var v).sense = (s.model.var v).sense := by
      intro v
      obtain ⟨o, ov, q, e, -⟩ := MState.updateMove_desc s.model r.move
      rw [e]
      exact fold_sense r.move.alterations s.model.var v
    have hafter : afterMove s.model r.move = selectMarked (s.model.updateMove r.move) r.move.alterations := by
      unfold afterMove; rw [if_pos hg]
    rw [hafter]
    refine hhot.swap hf.members (fun v s' e => (hf.owner v s' e).2.1) hlegal.distinct hsw (fun s' hno => ?_)
      (fun s' u v p1 p2 p3 p4 p5 p6 => ?_)
    · rw [selectMarked_keep _ _ _ fun a ha => by rw [hptr']; exact hno a ha, hsame]
    · exact selectMarked_set _ _ s' u v p4 (by rw [hsen, stt.sense]; exact (hf.owner v s' p5).2.2.2) (by rw [hptr']; exact p5)
        (fun a ha hh => p6 a ha (by rw [← hptr']; exact hh))

/-! ## Starts -/

theorem hot_congr (hs : C66.Setting cfg m0) (hf : Fits C cfg m0) {sel : ℕ → Option ℕ} {σ τ : ℕ → ℤ} (hag : Agree m0 σ τ)
    (h : Hot m0 cfg.sels sel σ) : Hot m0 cfg.sels sel τ := by
  have key : ∀ s ∈ cfg.sels, ∀ v ∈ (m0.con s).expr.vars, σ v = τ v := fun s hsm v hv =>
    hag v (hf.notDep v (Or.inr (Or.inl (hs.ready.sense s hsm v hv))))
  intro s hsm
  obtain ⟨x, h1, h2, h3, h4⟩ := h s hsm
  exact ⟨x, h1, by rw [← key s hsm x h1]; exact h2, fun y hy hne => by rw [← key s hsm y hy]; exact h3 y hy hne, h4⟩

theorem hot_start {l g} (hs : C66.Setting cfg m0) (st : Stat m0 l g m)
    (hhot : Hot m0 cfg.sels m.selected (assignment m)) (d : Sol.Dense) (m1 : MState)
    (hi : Sol.importDense cfg.sels d m = some m1) : Hot m0 cfg.sels m1.selected (assignment m1) := by
  unfold Sol.importDense at hi
  set n : MState := { m with
      var := fun v => if v ∈ m.varIds then (m.var v).setValueIfMutable (d.values v) else m.var v } with hn
  have st1 : Stat m0 l g n := by
    refine st.withVars _ m.selected ?_ ?_ ?_ ?_ <;> intro v <;> split <;>
      first | rfl | exact (Verifier.keeps_mutable _ _).lb | exact (Verifier.keeps_mutable _ _).ub |
        exact (Verifier.keeps_mutable _ _).sense | exact (Verifier.keeps_mutable _ _).fixed
  have hready := C66.stat_ready st1 hs.ready
  obtain ⟨e1, e2⟩ := C51.check_only_changes_nothing cfg.sels n m1 hready hi
  obtain ⟨c1, -⟩ := C51.corrected_or_rejected_partial false cfg.sels n m1 hready hi
  have hkeep : ∀ v, (m.var v).fixed = true → (n.var v).value = (m.var v).value := by
    intro v hv
    show (Var.value (if _ then _ else _)) = _
    split
    · rw [(Verifier.keeps_mutable _ _).same hv]
    · rfl
  intro s hsm
  obtain ⟨x, hx, h1, h2⟩ := (Verifier.oneHot_iff m1 _ (hready.once s hsm)).2 (c1 s hsm)
  have hvars := C66.stat_vars st1 s
  refine ⟨x, by rw [← hvars]; exact hx, h1, fun y hy hne => h2 y (by rw [hvars]; exact hy) hne, fun u hu => ?_⟩
  have h1' : (n.var x).value = 1 := by rw [← e1]; exact h1
  rw [e2 s hsm x hx h1'] at hu
  split at hu
  · rename_i hfx
    have hfx' : (m.var x).fixed = true := by rw [C66.stat_fixed st, ← C66.stat_fixed st1]; exact hfx
    obtain ⟨z, hz, z1, z2, z3⟩ := hhot s hsm
    obtain rfl := z3 u hu
    by_contra hne
    have : (m.var x).value = 0 := z2 x (by rw [← hvars]; exact hx) (fun e => hne e.symm)
    rw [hkeep x hfx', this] at h1'
    exact absurd h1' (by decide)
  · exact (Option.some.inj hu).symm

/-- Assignments with the fixed values, within the bounds, and with one variable per selection at 1 are accepted. -/
theorem good_of (hs : C66.Setting cfg m0) (hf : Fits C cfg m0) (h0 : C66.Good cfg m0 (assignment m0)) {σ : ℕ → ℤ}
    (hr : InRange m0 σ) {sel : ℕ → Option ℕ} (hhot : Hot m0 cfg.sels sel σ) : C66.Good cfg m0 σ := by
  refine ⟨fun s hsm => ?_, fun v hv hb => ?_, fun v hv hb => ?_⟩
  · obtain ⟨x, h1, h2, h3, -⟩ := hhot s hsm
    exact (Verifier.oneHot_iff { m0 with var := fun v => { m0.var v with value := σ v } } _ (hs.ready.once s hsm)).1
      ⟨x, h1, h2, h3⟩
  · have hd := hf.notDep v (Or.inl hb)
    cases hfx : (m0.var v).fixed with
    | true => rw [hr.fixed v hd (Or.inr hfx)]; exact h0.binary v hv hb
    | false =>
      obtain ⟨u1, u2⟩ := hs.unit v hv hfx (Or.inl hb)
      have := hr.range v hv hd hfx
      omega
  · have hd := hf.notDep v (Or.inr (Or.inr hb))
    cases hfx : (m0.var v).fixed with
    | true => rw [hr.fixed v hd (Or.inr hfx)]; exact h0.integer v hv hb
    | false => exact hr.range v hv hd hfx

/-! ## Runs -/

/-- Values that are visited again are accepted again. -/
theorem start_good (hs : C66.Setting cfg m0) (hf : Fits C cfg m0) (d : Sol.Dense) (p : ℕ → ℤ) (σ : ℕ → ℤ) (hg : C66.Good cfg m0 p)
    (hr : InRange m0 p) (hag : Agree m0 d.values p) : C66.Good cfg m0 (visit m0 σ (.start d.values)) := by
  refine hg.congr hs hf.deps fun v hv => ?_
  show p v = if v ∈ m0.varIds ∧ (m0.var v).fixed = false then d.values v else assignment m0 v
  by_cases hc : v ∈ m0.varIds ∧ (m0.var v).fixed = false
  · rw [if_pos hc]; exact (hag v hv).symm
  · rw [if_neg hc]
    refine hr.fixed v hv ?_
    by_cases hm : v ∈ m0.varIds
    · right
      cases hfx : (m0.var v).fixed
      · exact absurd ⟨hm, hfx⟩ hc
      · rfl
    · exact Or.inl hm

theorem follows_good (hs : C66.Setting cfg m0) (hf : Fits C cfg m0) (hcon : Constrained m0)
    (h0 : C66.Good cfg m0 (assignment m0)) (es : List Event) (past : List Move) (s : St)
    (q : (ℕ → ℤ) × ℕ) (hi : C66.Inv m0 (m0.conIds.length * (1e-10 : ℚ)) s q) (ht : Tied m0 s.model)
    (hhot : Hot m0 cfg.sels s.model.selected q.1)
    (hpast : ∀ mv ∈ past, mv.sense = .binary ∨ mv.sense = .chain ∨ mv.sense = .twoFlip → Flip m0 mv)
    (h : Follows C cfg past s es) (hrel : ∀ low, Event.relax low ∈ es → cfg.sels = []) (L : List ((ℕ → ℤ) × ℕ))
    (hL : ∀ p ∈ L, C66.Good cfg m0 p.1 ∧ InRange m0 p.1)
    (hstart : ∀ pre d post, es = pre ++ Event.start d :: post →
      ∃ p ∈ L ++ visited m0 q (pre.map C66.visitOf), Agree m0 d.values p.1) :
    (run cfg es s).isSome = true ∧ ∀ p ∈ visited m0 q (es.map C66.visitOf), C66.Good cfg m0 p.1 := by
  induction es generalizing past s q L with
  | nil => exact ⟨rfl, by simp [visited]⟩
  | cons ev es ih =>
    obtain ⟨h1, h2⟩ := h
    have hi' := hi
    obtain ⟨⟨l, g, hn, stt⟩, -, hag, hrange, -, -⟩ := hi'
    have hreach : Reached m0 s.model := ⟨⟨l, g, stt⟩, ht, fun v hv hd hfx => by
      have := hrange.range v hv hd hfx
      rw [← hag v hd] at this; exact this⟩
    have key : C66.LegalEvent cfg m0 ev ∧ (∀ mv ∈ movesOf ev,
        mv.sense = .binary ∨ mv.sense = .chain ∨ mv.sense = .twoFlip → Flip m0 mv) ∧
        ∃ s1, step cfg s ev = some s1 ∧ Hot m0 cfg.sels s1.model.selected (C66.next m0 q (C66.visitOf ev)).1 := by
      cases ev with
      | start d =>
        obtain ⟨p, hp, hpa⟩ := hstart [] d es rfl
        have hp' : p ∈ L := by simpa [visited] using hp
        obtain ⟨m1, e1⟩ := C66.import_accepts hs stt d hf.deps q.1 hag hrange
          (start_good hs hf d p.1 q.1 (hL p hp').1 (hL p hp').2 hpa)
        refine ⟨trivial, by simp [movesOf], _, by simp only [step, e1, Option.map_some]; rfl, ?_⟩
        rw [offer_selected, update_selected]
        obtain ⟨-, ag1, -, -⟩ := C66.import_facts hs stt d e1 q.1 hag hrange
        exact hot_congr hs hf ag1 (hot_start hs stt (hot_congr hs hf (fun v hv => (hag v hv).symm) hhot) d m1 e1)
      | relax low =>
        refine ⟨trivial, by simp [movesOf], _, rfl, ?_⟩
        intro s' hs'
        rw [hrel low (by simp)] at hs'
        exact absurd hs' (by simp)
      | penalties l g => exact ⟨h1, by simp [movesOf], _, rfl, hhot⟩
      | move mv b =>
        obtain ⟨st, acc, hw, hc⟩ := h1
        obtain ⟨k1, k2⟩ := chosen_legal hs hf hcon s hreach acc st hpast hw mv b hc
        refine ⟨k1, fun mv' hm => ?_, _, rfl, ?_⟩
        · obtain rfl := List.mem_singleton.1 hm
          exact k2
        · rw [offer_selected]
          exact chosen_hot hs hf hcon s hreach acc st hpast hw mv b hc q.1 hhot
    obtain ⟨kl, kp, s1, e1, hhot1⟩ := key
    obtain ⟨i1, -⟩ := C66.step_inv hs (Or.inl rfl) s s1 q hi ev kl e1
    have ht1 : Tied m0 s1.model := Tied.step hs stt ht hf.members ev (fun mv b e a ha => by
      subst e
      exact ((kl : C66.Legal cfg m0 mv).listed a ha).2.2.1) e1
    have hgood1 : C66.Good cfg m0 (C66.next m0 q (C66.visitOf ev)).1 := good_of hs hf h0 i1.range hhot1
    have hadd : ∀ p ∈ C66.added m0 q (C66.visitOf ev), C66.Good cfg m0 p.1 ∧ InRange m0 p.1 := by
      intro p hp
      have : p = C66.next m0 q (C66.visitOf ev) := by
        cases ev <;> simp [C66.added, C66.visitOf] at hp ⊢ <;> exact hp
      rw [this]; exact ⟨hgood1, i1.range⟩
    obtain ⟨r1, r2⟩ := ih (movesOf ev ++ past) s1 _ i1 ht1 hhot1 (fun mv hm => by
        rcases List.mem_append.1 hm with hm | hm
        · exact kp mv hm
        · exact hpast mv hm) (h2 s1 e1) (fun low hl => hrel low (by simp [hl])) (L ++ C66.added m0 q (C66.visitOf ev))
      (fun p hp => by
        rcases List.mem_append.1 hp with hp | hp
        · exact hL p hp
        · exact hadd p hp)
      (fun pre d post e => by
        obtain ⟨p, hp, hpa⟩ := hstart (ev :: pre) d post (by rw [e]; rfl)
        rw [List.map_cons, C66.visited_cons, ← List.append_assoc] at hp
        exact ⟨p, hp, hpa⟩)
    refine ⟨by rw [run, e1]; exact r1, fun p hp => ?_⟩
    rw [List.map_cons, C66.visited_cons] at hp
    rcases List.mem_append.1 hp with hp | hp
    · exact (hadd p hp).1
    · exact r2 p hp

/-! ## The selected variables are never lost -/

theorem marked_some (m : MState) (alts : List (ℕ × ℤ)) (s : ℕ) (h : (m.selected s).isSome = true) :
    ((selectMarked m alts).selected s).isSome = true := by
  show (alts.foldl _ m.selected s).isSome = true
  have key : ∀ (al : List (ℕ × ℤ)) (sel : ℕ → Option ℕ), (sel s).isSome = true →
      (al.foldl (fun (sel : ConId → Option VarId) (a : VarId × ℤ) =>
        if (m.var a.1).sense = .selection ∧ a.2 = 1 then
          match (m.var a.1).selection with
          | some s => Function.update sel s (some a.1)
          | none => sel
        else sel) sel s).isSome = true := by
    intro al
    induction al with
    | nil => intro sel hs; exact hs
    | cons a al ih =>
      intro sel hs
      rw [List.foldl_cons]
      refine ih _ ?_
      split
      · cases hs' : (m.var a.1).selection with
        | none => exact hs
        | some s' =>
          by_cases e : s = s'
          · subst e; simp only [Function.update_self]; rfl
          · simp only [Function.update_of_ne e]; exact hs
      · exact hs
  exact key alts m.selected h

theorem step_some {l g} (hs : C66.Setting cfg m0) {s s1 : St} (st : Stat m0 l g s.model) (ev : Event)
    (h : step cfg s ev = some s1) (k : ℕ) (hk : (s.model.selected k).isSome = true) : (s1.model.selected k).isSome = true := by
  cases ev with
  | start d =>
    obtain ⟨m1, h1, rfl⟩ := Option.map_eq_some_iff.1 h
    rw [offer_selected, update_selected]
    unfold Sol.importDense at h1
    have st1 : Stat m0 l g { s.model with
        var := fun v => if v ∈ s.model.varIds then (s.model.var v).setValueIfMutable (d.values v) else s.model.var v } := by
      refine st.withVars _ s.model.selected ?_ ?_ ?_ ?_ <;> intro v <;> split <;>
        first | rfl | exact (Verifier.keeps_mutable _ _).lb | exact (Verifier.keeps_mutable _ _).ub |
          exact (Verifier.keeps_mutable _ _).sense | exact (Verifier.keeps_mutable _ _).fixed
    have hready := C66.stat_ready st1 hs.ready
    by_cases hm : k ∈ cfg.sels
    · obtain ⟨e1, e2⟩ := C51.check_only_changes_nothing cfg.sels _ m1 hready h1
      obtain ⟨c1, -⟩ := C51.corrected_or_rejected_partial false cfg.sels _ m1 hready h1
      obtain ⟨x, hx, v1, -⟩ := (Verifier.oneHot_iff m1 _ (hready.once k hm)).2 (c1 k hm)
      rw [e1] at v1
      rw [e2 k hm x hx v1]
      split
      · exact hk
      · rfl
    · rw [verify_selected false cfg.sels _ m1 hready h1 k hm]; exact hk
  | move mv b =>
    obtain rfl := Option.some.inj h
    rw [offer_selected]
    have h1 : ((s.model.updateMove mv).selected k).isSome = true := by
      rcases updateMove_selected s.model mv with e | ⟨a, b', l', s', -, -, e⟩
      · rw [e]; exact hk
      · rw [e]
        by_cases e' : k = s'
        · subst e'; rw [Function.update_self]; rfl
        · rw [Function.update_of_ne e']; exact hk
    unfold afterMove
    split
    · exact marked_some _ _ k h1
    · exact h1
  | relax low =>
    obtain rfl := Option.some.inj h
    rw [offer_selected, update_selected]
    exact hk
  | penalties l' g' =>
    obtain rfl := Option.some.inj h
    exact hk

theorem mapM_isSome {α β : Type} (f : α → Option β) (l : List α) (h : ∀ a ∈ l, (f a).isSome = true) : (l.mapM f).isSome = true := by
  induction l with
  | nil => rfl
  | cons a l ih =>
    obtain ⟨b, hb⟩ := Option.isSome_iff_exists.1 (h a (by simp))
    obtain ⟨bs, hbs⟩ := Option.isSome_iff_exists.1 (ih fun x hx => h x (by simp [hx]))
    rw [List.mapM_cons, hb, hbs]; rfl

theorem run_selected (hs : C66.Setting cfg m0) (es : List Event) (s s' : St) (q : (ℕ → ℤ) × ℕ)
    (hi : C66.Inv m0 (m0.conIds.length * (1e-10 : ℚ)) s q) (hle : ∀ ev ∈ es, C66.LegalEvent cfg m0 ev)
    (hrun : run cfg es s = some s') (k : ℕ) (hk : (s.model.selected k).isSome = true) :
    (s'.model.selected k).isSome = true := by
  induction es generalizing s q with
  | nil => obtain rfl := Option.some.inj hrun; exact hk
  | cons ev es ih =>
    obtain ⟨s1, e1, e2⟩ := Option.bind_eq_some_iff.1 hrun
    obtain ⟨l, g, -, stt⟩ := hi.stat
    obtain ⟨i1, -⟩ := C66.step_inv hs (Or.inl rfl) s s1 q hi ev (hle ev (by simp)) e1
    exact ih s1 _ i1 (fun ev' h => hle ev' (by simp [h])) e2 (step_some hs stt ev e1 k hk)

theorem stored_was_offered {α} (calls : List (HolderCall α)) (d : α)
    (h : (C11.after calls).globalSol = some d ∨ (C11.after calls).localSol = some d ∨ (C11.after calls).feasSol = some d) :
    ∃ sc, (d, sc) ∈ C11.offers calls := by
  induction calls using List.reverseRecOn with
  | nil => simp [C11.after, Holder.init] at h
  | append_singleton l c ih =>
    rw [C11.after_append] at h
    rw [C11.offers_append]
    cases c with
    | resetLocal =>
      obtain ⟨sc, hsc⟩ := ih (by simpa [Holder.step, Holder.resetLocal] using h)
      exact ⟨sc, by simp [hsc]⟩
    | offer s sc =>
      by_cases e : d = s
      · subst e; exact ⟨sc, by simp [C11.offers]⟩
      · have hold : (C11.after l).globalSol = some d ∨ (C11.after l).localSol = some d ∨ (C11.after l).feasSol = some d := by
          have hne : ¬ s = d := fun h => e h.symm
          simp only [Holder.step, Holder.tryUpdate] at h
          rcases h with h | h | h
          · left; revert h; split <;> simp [hne]
          · right; left; revert h; split <;> simp [hne]
          · right; right; revert h; split <;> simp [hne]
        obtain ⟨sc', hsc⟩ := ih hold
        exact ⟨sc', by simp [hsc]⟩

end

/-- The stored incumbents, from which the searches start again, have the values of assignments visited before. -/
theorem incumbents_were_visited {cfg : Cfg} {m0 : MState} (hs : C66.Setting cfg m0) (es : List Event)
    (hle : ∀ ev ∈ es, C66.LegalEvent cfg m0 ev) (s : St) (h : run cfg es (begin m0) = some s) (d : Sol.Dense)
    (hd : s.holder.globalSol = some d ∨ s.holder.localSol = some d ∨ s.holder.feasSol = some d) :
    ∃ p ∈ C66.all m0 es, Agree m0 d.values p.1 := by
  obtain ⟨calls, e1, f⟩ := C66.history hs (Or.inl rfl) es s hle h
  rw [e1] at hd
  obtain ⟨sc, hm⟩ := stored_was_offered calls d hd
  obtain ⟨p, hp, hdes⟩ := C66.forall₂_left f _ hm
  exact ⟨p, hp, hdes.values⟩

/-- A call whose setup succeeded ends with a result, whatever the searches do: if the values at the beginning are in
order (`Good`, and the recorded variable of each selection is the one with value 1), if every start takes up values visited
before (see `incumbents_were_visited`) and if Lagrange dual only runs without selections (as the code makes sure of), then
no import throws, and every assignment visited is in order again. -/
theorem every_call_ends_with_a_result_partial {C : Nbhd.Config ν μ} {cfg : Cfg} {m0 : MState} (hs : C66.Setting cfg m0)
    (hf : Fits C cfg m0) (hcon : Constrained m0) (h0 : C66.Good cfg m0 (assignment m0))
    (hsel : ∀ s ∈ cfg.sels, ∀ u, m0.selected s = some u → (m0.var u).value = 1)
    (es : List Event) (hfol : Follows C cfg [] (begin m0) es)
    (hrel : ∀ low, Event.relax low ∈ es → cfg.sels = [])
    (hstart : ∀ pre d post, es = pre ++ Event.start d :: post → ∃ p ∈ C66.all m0 pre, Agree m0 d.values p.1) :
    (∃ r m', solve cfg m0 es = some (r, m')) ∧ ∀ p ∈ C66.all m0 es, C66.Good cfg m0 p.1 := by
  have hb := (C66.begin_inv (e := m0.conIds.length * (1e-10 : ℚ)) hs).1
  have hhot : Hot m0 cfg.sels (begin m0).model.selected (assignment m0) := by
    intro s hsm
    obtain ⟨x, h1, h2, h3⟩ := (Verifier.oneHot_iff m0 _ (hs.ready.once s hsm)).2 (h0.sel s hsm)
    refine ⟨x, h1, h2, h3, fun u hu => ?_⟩
    have hu' : m0.selected s = some u := by rw [← update_selected m0]; exact hu
    by_contra hne
    have := h3 u (hf.owner u s (hf.chosen s u hu').1).2.1 hne
    rw [hsel s hsm u hu'] at this
    exact absurd this (by decide)
  have ht : Tied m0 (begin m0).model := Tied.update ⟨fun _ => rfl, hf.chosen⟩
  obtain ⟨r1, r2⟩ := follows_good hs hf hcon h0 es [] (begin m0) _ hb ht hhot (by simp) hfol hrel [(assignment m0, 0)]
    (fun p hp => by obtain rfl := List.mem_singleton.1 hp; exact ⟨h0, hb.range⟩) hstart
  have hgood : ∀ p ∈ C66.all m0 es, C66.Good cfg m0 p.1 := by
    intro p hp
    rcases List.mem_cons.1 hp with rfl | hp
    · exact h0
    · exact r2 p hp
  exact ⟨C66.never_throws hs hf.deps es (runs_are_legal_partial hs hf hcon es r1 hfol) hgood, hgood⟩

/-- The generator of the selection moves never follows a null pointer during a search: if at the beginning every free
variable of a selection finds the selected variable of its selection, this is so in every state reached. -/
theorem selection_moves_are_defined_partial {C : Nbhd.Config ν μ} {cfg : Cfg} {m0 : MState} (hs : C66.Setting cfg m0)
    (hf : Fits C cfg m0) (hcon : Constrained m0)
    (hsome : ∀ v ∈ m0.varIds, (m0.var v).sense = .selection → (m0.var v).fixed = false →
      ∃ s u, (m0.var v).selection = some s ∧ m0.selected s = some u)
    (es : List Event) (hfol : Follows C cfg [] (begin m0) es) (s : St) (hrun : run cfg es (begin m0) = some s) (acc : Accept) :
    ∃ l, selectionMoves C acc s.model = some l := by
  have hb := (C66.begin_inv (e := m0.conIds.length * (1e-10 : ℚ)) hs).1
  have hle := runs_are_legal_partial hs hf hcon es (by rw [hrun]; rfl) hfol
  obtain ⟨⟨q', i'⟩, -⟩ := C66.run_inv hs (Or.inl rfl) es _ s _ hb hle hrun
  have htied : ∀ v, (s.model.var v).selection = (m0.var v).selection := by
    have gen : ∀ (es : List Event) (s s' : St) (q : (ℕ → ℤ) × ℕ), C66.Inv m0 (m0.conIds.length * (1e-10 : ℚ)) s q →
        Tied m0 s.model → (∀ ev ∈ es, C66.LegalEvent cfg m0 ev) → run cfg es s = some s' → Tied m0 s'.model := by
      intro es
      induction es with
      | nil => intro s s' q _ ht _ hr; obtain rfl := Option.some.inj hr; exact ht
      | cons ev es ih =>
        intro s s' q hi ht hle hr
        obtain ⟨s1, e1, e2⟩ := Option.bind_eq_some_iff.1 hr
        obtain ⟨l, g, -, stt⟩ := hi.stat
        obtain ⟨i1, -⟩ := C66.step_inv hs (Or.inl rfl) s s1 q hi ev (hle ev (by simp)) e1
        exact ih s1 s' _ i1 (Tied.step hs stt ht hf.members ev (fun mv b e a ha => by
          subst e
          exact ((hle (.move mv b) (by simp) : C66.Legal cfg m0 mv).listed a ha).2.2.1) e1) (fun ev' h => hle ev' (by simp [h])) e2
    exact (gen es _ s _ hb (Tied.update ⟨fun _ => rfl, hf.chosen⟩) hle hrun).ptr
  have : ((offered C .selection).mapM
      (selectionMove (selectionRelated C.name C.vname C.setup) s.model)).isSome = true := by
    refine mapM_isSome _ _ fun v hv => ?_
    obtain ⟨h1, h2, h3⟩ := hf.mem_sense hv
    obtain ⟨k, u, hk, hu⟩ := hsome v h1 h2 h3
    have hsel : ((begin m0).model.selected k).isSome = true := by
      show (m0.update.selected k).isSome = true
      rw [update_selected, hu]; rfl
    obtain ⟨w, hw⟩ := Option.isSome_iff_exists.1 (run_selected hs es _ s _ hb hle hrun k hsel)
    unfold selectionMove
    simp only [htied, hk, hw]
    rfl
  obtain ⟨l, hl⟩ := Option.isSome_iff_exists.1 this
  exact ⟨l.filter (selectionFlag acc s.model), by unfold selectionMoves; rw [hl]; rfl⟩

/-! ### Non-vacuity: the example of C74 -/

example : C66.Setting Sample.cfg Sample.m0 ∧ Fits Sample.conf Sample.cfg Sample.m0 ∧ Constrained Sample.m0 ∧
    C66.Good Sample.cfg Sample.m0 (assignment Sample.m0) ∧
    (∀ s ∈ Sample.cfg.sels, ∀ u, Sample.m0.selected s = some u → (Sample.m0.var u).value = 1) ∧
    Follows Sample.conf Sample.cfg [] (begin Sample.m0) Sample.events ∧
    (∀ low, Event.relax low ∈ Sample.events → Sample.cfg.sels = []) ∧
    (∀ pre d post, Sample.events = pre ++ Event.start d :: post → ∃ p ∈ C66.all Sample.m0 pre, Agree Sample.m0 d.values p.1) ∧
    (∀ v ∈ Sample.m0.varIds, (Sample.m0.var v).sense = .selection → (Sample.m0.var v).fixed = false →
      ∃ s u, (Sample.m0.var v).selection = some s ∧ Sample.m0.selected s = some u) := by
  refine ⟨Sample.setting, Sample.fits, Sample.constrained, ⟨by decide +kernel, by decide +kernel, by decide +kernel⟩, ?_,
    Sample.follows, ?_, ?_, ?_⟩
  · intro s hs u hu
    have hs' : s = 0 := by simpa [Sample.cfg] using hs
    subst hs'
    have hu' : some 1 = some u := hu
    cases hu'
    decide +kernel
  · intro low hl
    simp [Sample.events] at hl
  · intro pre d post he
    refine ⟨(assignment Sample.m0, 0), by simp [C66.all], ?_⟩
    have hd : d = ⟨fun v => if v = 1 then 1 else 0, 0, 0, 0, false⟩ := by
      have : Event.start d ∈ Sample.events := by rw [he]; simp
      simpa [Sample.events] using this
    subst hd
    intro v hv
    have hne : v ≠ 4 := fun e => hv (by rw [e]; decide)
    show (if v = 1 then (1 : ℤ) else 0) = (Sample.m0.var v).value
    show _ = Var.value (if v = 0 then _ else if v = 1 then _ else if v = 2 then _ else if v = 3 then _ else _)
    by_cases h0 : v = 0
    · subst h0; rfl
    · by_cases h1 : v = 1
      · subst h1; rfl
      · rw [if_neg h1, if_neg h0, if_neg h1]
        split
        · rfl
        · split <;> rfl
  · intro v hv hsen _
    have : v = 0 ∨ v = 1 := by
      have key : ∀ v ∈ Sample.m0.varIds, (Sample.m0.var v).sense = .selection → v = 0 ∨ v = 1 := by decide +kernel
      exact key v hv hsen
    rcases this with rfl | rfl
    · exact ⟨0, 1, by decide +kernel, by decide +kernel⟩
    · exact ⟨0, 1, by decide +kernel, by decide +kernel⟩

/-! ### `Constrained` is needed: two swaps of one selection

`x0 + x1 + x2 = 1` (starting with `x0 = 1`), `2 x3 + 3 x4 <= 4`, minimise `-2 x1 - x2`, default options.  The equation
becomes a selection, its constraint is disabled, and its variables occur in no other constraint. -/

namespace Doubled

private def kinds : ℕ → VarSense := fun _ => .binary
private def user : MState := { Example.raw with
  var := fun v => if v = 0 then { Example.bin0 with value := 1 }.updateMargin else Example.bin0
  varIds := [0, 1, 2, 3, 4]
  con := fun c => if c = 0 then Con.setup ⟨[(0, 1), (1, 1), (2, 1)], -1, 0⟩ .equal kinds
    else Con.setup ⟨[(3, 2), (4, 3)], -4, 0⟩ .less kinds
  conIds := [0, 1]
  obj := ⟨[(1, -2), (2, -1)], 0, 0⟩ }
private def inp : Whole.Input := ⟨{}, C67.lt', fun _ => false, true, 100, []⟩
private def ok : Option (Outcome MState) → Option MState
  | some (.ok m) => some m
  | _ => none
private theorem of_ok {r : Option (Outcome MState)} (h : (ok r).isSome = true) (d : MState) : r = some (.ok ((ok r).getD d)) := by
  unfold ok at h ⊢
  split at h
  · rfl
  · exact absurd h (by simp)
private def m1 : MState := (ok (Setup.prepare inp.options inp.lt inp.user user)).getD user
private def m0 : MState := (Whole.started inp user).getD user
private def conf : Nbhd.Config ℕ ℕ := { setup := m1, name := id, vname := id, lt := C67.lt', pairs := [] }
private def selRel : ℕ → List ℕ := fun _ => selectionRelated id id m1 0
private def cfg : Cfg := Whole.cfg inp true selRel user
private def on : Status := { enabled := fun s => s = .selection, available := fun _ _ => true, chain := [] }
private def first : Sol.Dense := ⟨fun v => if v = 0 then 1 else 0, 0, 0, 0, true⟩
private def s1 : St := (step cfg (begin m0) (.start first)).getD (begin m0)
private def swap (v : ℕ) : Move := { alterations := [(0, 0), (v, 1)], sense := .selection, related := [], isSelection := true }
private def trials : List (Move × Score) :=
  [swap 1, swap 2].map (fun mv => (mv, trialScore { cfg with fast := true } s1.model mv s1.cur))
private def both : Move := { alterations := [(0, 0), (1, 1), (0, 0), (2, 1)], related := [] }
private def events : List Event := [.start first, .move both true]

private theorem merged : ∃ r, LocalSearch.merge s1.model s1.cur false 0 trials = some r ∧ r.move = both := by
  have e : LocalSearch.merge s1.model s1.cur false 0 trials =
      LocalSearch.mergeLoop s1.model s1.cur false 0 trials ⟨{ alterations := [] }, [], []⟩ := by
    unfold LocalSearch.merge
    rw [C55.order_sorted trials (by unfold trials; simp [swap]) (by unfold trials; simp; decide +kernel)]
  rw [e]
  have h : ((LocalSearch.mergeLoop s1.model s1.cur false 0 trials ⟨{ alterations := [] }, [], []⟩).map (·.move)) = some both := by
    decide +kernel
  exact Option.map_eq_some_iff.1 h

private theorem follows : Follows conf cfg [] (begin m0) events := by
  refine ⟨trivial, fun t ht => ?_⟩
  obtain rfl : t = s1 := by unfold s1; rw [ht]; rfl
  refine ⟨⟨on, Sample.every, by simp [on], ?_⟩, fun t ht => trivial⟩
  obtain ⟨r, h1, h2⟩ := merged
  rw [← h2]
  exact .merged [swap 1, swap 2] false 0 r (by decide +kernel) h1

private theorem equation (σ : ℕ → ℤ) (h : Solves user σ) : (σ 0 : ℚ) + σ 1 + σ 2 = 1 := by
  have hc : (-1 : ℚ) + ([((0 : ℕ), (1 : ℚ)), (1, 1), (2, 1)].map (fun t => t.2 * (σ t.1 : ℚ))).sum = 0 :=
    h.2 0 (by decide) (by decide +kernel)
  simp at hc
  linarith

private theorem best (σ : ℕ → ℤ) (h : Solves user σ) : -2 ≤ exprValue user.obj σ := by
  have b0 : 0 ≤ σ 0 := ((h.1 0 (by decide)).2 rfl).1
  have b2 : 0 ≤ σ 2 := ((h.1 2 (by decide)).2 rfl).1
  have hc := equation σ h
  have hv : exprValue user.obj σ = -2 * (σ 1 : ℚ) - σ 2 := by
    show (0 : ℚ) + ([((1 : ℕ), (-2 : ℚ)), (2, -1)].map (fun t => t.2 * (σ t.1 : ℚ))).sum = _
    simp
    ring
  have b0' : (0 : ℚ) ≤ σ 0 := by exact_mod_cast b0
  have b2' : (0 : ℚ) ≤ σ 2 := by exact_mod_cast b2
  rw [hv]
  linarith

/-- Local search merges improving moves that have no enabled constraint in common.  Two swaps of one selection whose
variables occur in no enabled constraint are such moves: both variables become 1.  Nothing counts the violated equation
(its constraint is disabled), so the values are stored as a feasible incumbent, better than the optimum, and the call ends
with an exception, as does every search that starts from the incumbent. -/
theorem two_swaps_of_one_selection_are_merged : ∃ (i : Whole.Input) (O m1 m0 : MState) (selRel : ℕ → List ℕ) (C : Nbhd.Config ℕ ℕ)
    (es : List Event) (s : St) (d : Sol.Dense),
    i.options = {} ∧ Setup.prepare i.options i.lt i.user O = some (.ok m1) ∧ C.setup = m1 ∧ C.recent = m1.var ∧ Whole.started i O = some m0 ∧
    Solves O (assignment m0) ∧ Follows C (Whole.cfg i true selRel O) [] (begin m0) es ∧
    (∀ pre d post, es = pre ++ Event.start d :: post → ∀ v ∈ O.varIds, d.values v = assignment m0 v) ∧
    run (Whole.cfg i true selRel O) es (begin m0) = some s ∧
    s.holder.feasSol = some d ∧ d.feasible = true ∧ ¬ Solves O d.values ∧ (∀ σ, Solves O σ → d.objective < exprValue O.obj σ) ∧
    Whole.solve i true selRel O es = none := by
  have h1 : Setup.prepare inp.options inp.lt inp.user user = some (.ok m1) := of_ok (by decide +kernel) user
  have h2 : (Whole.started inp user).isSome = true := by decide +kernel
  obtain ⟨m, hm⟩ := Option.isSome_iff_exists.1 h2
  have h3 : ((run cfg events (begin m0)).bind (fun s => s.holder.feasSol.map (fun d =>
      (d.objective, d.feasible, [0, 1, 2].map d.values)))) = some (-3, true, [0, 1, 1]) := by decide +kernel
  obtain ⟨s, hs, h4⟩ := Option.bind_eq_some_iff.1 h3
  obtain ⟨d, hd, h5⟩ := Option.map_eq_some_iff.1 h4
  simp only [Prod.mk.injEq, List.map_cons, List.map_nil, List.cons.injEq, and_true] at h5
  obtain ⟨e1, e2, e3, e4, e5⟩ := h5
  refine ⟨inp, user, m1, m0, selRel, conf, events, s, d, rfl, h1, rfl, rfl, by unfold m0; rw [hm]; rfl, ?_, follows, ?_, hs, hd, e2,
    ?_, ?_, ?_⟩
  · refine ⟨by unfold Admits; decide +kernel, by unfold Holds; decide +kernel⟩
  · intro pre d post he v hv
    have hd' : d = first := by
      have : Event.start d ∈ events := by rw [he]; simp
      simpa [events] using this
    subst hd'
    have key : ∀ v ∈ user.varIds, first.values v = assignment m0 v := by decide +kernel
    exact key v hv
  · intro hn
    have := equation _ hn
    rw [e3, e4, e5] at this
    norm_num at this
  · intro σ hσ
    have := best σ hσ
    rw [e1]; linarith
  · have : (Whole.solve inp true selRel user events).isNone = true := by decide +kernel
    exact Option.isNone_iff_eq_none.1 this

end Doubled

/-! ### `Constrained` is needed: two moves of one variable

`x0` in `[0, 5]`, the others 0/1 (starting with `x1 = 1`), `x0 + x1 <= 100`, `2 x1 + 2 x2 + 3 x3 = 2`, minimise
`-x0 - 4 x1 - 5 x2`, default options.  The presolve disables the first constraint, which always holds; `x0` then occurs in
no enabled constraint.  (Variables without constraints are fixed before that, and the disabled constraint counts there.) -/

namespace Twice

private def kinds : ℕ → VarSense := fun v => if v = 0 then .integer else .binary
private def user : MState := { Example.raw with
  var := fun v => if v = 0 then Example.int5 else if v = 1 then { Example.bin0 with value := 1 }.updateMargin else Example.bin0
  varIds := [0, 1, 2, 3]
  con := fun c => if c = 0 then Con.setup ⟨[(0, 1), (1, 1)], -100, 0⟩ .less kinds
    else Con.setup ⟨[(1, 2), (2, 2), (3, 3)], -2, 0⟩ .equal kinds
  conIds := [0, 1]
  obj := ⟨[(0, -1), (1, -4), (2, -5)], 0, 0⟩ }
private def inp : Whole.Input := ⟨{}, C67.lt', fun _ => false, true, 100, []⟩
private def ok : Option (Outcome MState) → Option MState
  | some (.ok m) => some m
  | _ => none
private theorem of_ok {r : Option (Outcome MState)} (h : (ok r).isSome = true) (d : MState) : r = some (.ok ((ok r).getD d)) := by
  unfold ok at h ⊢
  split at h
  · rfl
  · exact absurd h (by simp)
private def m1 : MState := (ok (Setup.prepare inp.options inp.lt inp.user user)).getD user
private def m0 : MState := (Whole.started inp user).getD user
private def conf : Nbhd.Config ℕ ℕ := { setup := m1, name := id, vname := id, lt := C67.lt', pairs := [] }
private def cfg : Cfg := Whole.cfg inp true (fun _ => []) user
private def first : Sol.Dense := ⟨fun v => if v = 1 then 1 else 0, 0, 0, 0, true⟩
private def second : Sol.Dense := ⟨fun v => if v = 0 ∨ v = 1 then 1 else 0, 0, 0, 0, true⟩
private def after (s : St) (ev : Event) : St := (step cfg s ev).getD s
private def s1 : St := after (begin m0) (.start first)
private def off1 : Move := { alterations := [(1, 0)], sense := .binary, related := [0, 1], isUnivariable := true }
private def on2 : Move := { alterations := [(2, 1)], sense := .binary, related := [1], isUnivariable := true }
private def inc (x : ℤ) : Move := { alterations := [(0, x)], sense := .integer, related := [0], isUnivariable := true }
private def both : Move := { alterations := [(0, 2), (0, 1)], related := [0, 0] }
private def s2 : St := after s1 (.move both true)
private def s3 : St := after s2 (.start second)
private def s4 : St := after s3 (.move off1 false)
private def trial (mv : Move) : Move × Score := (mv, trialScore { cfg with fast := true } s1.model mv s1.cur)
private def sorted : List (Move × Score) := [inc 2, inc 1, on2, off1].map trial
private def events : List Event := [.start first, .move both true, .start second, .move off1 false, .move on2 false]

private theorem order_eq {ts l : List (Move × Score)} (hp : l.Perm ts) (h : l.Pairwise (fun a b => a.2.globalAug < b.2.globalAug)) :
    LocalSearch.order ts = l := by
  unfold LocalSearch.order
  refine List.Perm.eq_of_pairwise (le := fun a b => a.2.globalAug ≤ b.2.globalAug) (fun a b ha hb h1 h2 => ?_)
    ((List.pairwise_mergeSort (fun a b c h1 h2 => by simp only [decide_eq_true_eq] at h1 h2 ⊢; exact h1.trans h2)
      (fun a b => by simp only [Bool.or_eq_true, decide_eq_true_eq]; exact le_total _ _) _).imp
      (by simp)) (h.imp le_of_lt) (((List.mergeSort_perm _ _).trans (List.mergeSort_perm _ _)).trans hp.symm)
  have ha' : a ∈ l := hp.mem_iff.2 (List.mem_mergeSort.1 (List.mem_mergeSort.1 ha))
  by_contra hne
  have h' : l.Pairwise (fun a b : Move × Score => a.2.globalAug ≠ b.2.globalAug) := h.imp ne_of_lt
  have : Std.Symm (fun a b : Move × Score => a.2.globalAug ≠ b.2.globalAug) := ⟨fun _ _ h => h.symm⟩
  exact h'.forall ha' hb hne (le_antisymm h1 h2)

private theorem merged : ∃ r, LocalSearch.merge s1.model s1.cur false 0 ([off1, on2, inc 1, inc 2].map trial) = some r ∧ r.move = both := by
  have e : LocalSearch.merge s1.model s1.cur false 0 ([off1, on2, inc 1, inc 2].map trial) =
      LocalSearch.mergeLoop s1.model s1.cur false 0 sorted ⟨{ alterations := [] }, [], []⟩ := by
    unfold LocalSearch.merge
    rw [order_eq (l := sorted) ?_ ?_]
    · unfold sorted
      refine List.Perm.map _ ?_
      exact List.reverse_perm [off1, on2, inc 1, inc 2]
    · unfold sorted
      rw [List.pairwise_map]
      simp only [List.pairwise_cons]
      simp
      decide +kernel
  rw [e]
  have h : ((LocalSearch.mergeLoop s1.model s1.cur false 0 sorted ⟨{ alterations := [] }, [], []⟩).map (·.move)) = some both := by
    decide +kernel
  exact Option.map_eq_some_iff.1 h

private theorem follows : Follows conf cfg [] (begin m0) events := by
  refine ⟨trivial, fun t ht => ?_⟩
  obtain rfl : t = s1 := by unfold s1 after; rw [ht]; rfl
  refine ⟨⟨Sample.on, Sample.every, by simp [Sample.on], ?_⟩, fun t ht => ⟨trivial, fun u hu => ?_⟩⟩
  · obtain ⟨r, h1, h2⟩ := merged
    rw [← h2]
    exact .merged [off1, on2, inc 1, inc 2] false 0 r (by decide +kernel) h1
  · obtain rfl : t = s2 := by unfold s2 after; rw [ht]; rfl
    obtain rfl : u = s3 := by unfold s3 after; rw [hu]; rfl
    refine ⟨⟨Sample.on, Sample.every, by simp [Sample.on], ?_⟩, fun w hw => ?_⟩
    · exact .plain ((candidates conf Sample.on Sample.every s3.model).getD []) off1 (by decide +kernel) (by decide +kernel)
    · obtain rfl : w = s4 := by unfold s4 after; rw [hw]; rfl
      refine ⟨⟨Sample.on, Sample.every, by simp [Sample.on], ?_⟩, fun w hw => trivial⟩
      exact .plain ((candidates conf Sample.on Sample.every s4.model).getD []) on2 (by decide +kernel) (by decide +kernel)

/-- Local search merges two moves of `x0`: the score counts both changes (objective -7), although `x0` ends at 1
(objective -5).  The values are stored with the wrong objective, and a solution of objective -6, visited later, is not
stored: the call reports the objective -5. -/
theorem better_solution_is_visited_and_lost : ∃ (i : Whole.Input) (O m1 m0 : MState) (C : Nbhd.Config ℕ ℕ) (es pre : List Event)
    (s t : St) (d : Sol.Dense) (r : Sol.Named) (m' : MState),
    i.options = {} ∧ Setup.prepare i.options i.lt i.user O = some (.ok m1) ∧ C.setup = m1 ∧ C.recent = m1.var ∧ Whole.started i O = some m0 ∧
    Setup.selections i.options i.lt i.user O = [] ∧ Solves O (assignment m0) ∧
    Follows C (Whole.cfg i true (fun _ => []) O) [] (begin m0) es ∧
    pre <+: es ∧ run (Whole.cfg i true (fun _ => []) O) pre (begin m0) = some t ∧ t.holder.feasSol = some d ∧
    d.objective < exprValue O.obj d.values ∧
    run (Whole.cfg i true (fun _ => []) O) es (begin m0) = some s ∧ Solves O (assignment s.model) ∧
    Whole.solve i true (fun _ => []) O es = some (r, m') ∧ exprValue O.obj r.values = r.objective ∧
    exprValue O.obj (assignment s.model) < r.objective := by
  have h1 : Setup.prepare inp.options inp.lt inp.user user = some (.ok m1) := of_ok (by decide +kernel) user
  have h2 : (Whole.started inp user).isSome = true := by decide +kernel
  obtain ⟨m, hm⟩ := Option.isSome_iff_exists.1 h2
  have h3 : ((run cfg (events.take 2) (begin m0)).bind (fun s => s.holder.feasSol.map (fun d =>
      (d.objective, exprValue user.obj d.values)))) = some (-7, -5) := by decide +kernel
  obtain ⟨t, ht, h4⟩ := Option.bind_eq_some_iff.1 h3
  obtain ⟨d, hd, h5⟩ := Option.map_eq_some_iff.1 h4
  obtain ⟨e1, e2⟩ := Prod.mk.injEq .. ▸ h5
  have h6 : (run cfg events (begin m0)).isSome = true := by decide +kernel
  obtain ⟨s, hs⟩ := Option.isSome_iff_exists.1 h6
  have hs' : s = (run cfg events (begin m0)).getD (begin m0) := by rw [hs]; rfl
  have h7 : ((Whole.solve inp true (fun _ => []) user events).map (fun p => (p.1.objective, exprValue user.obj p.1.values))) =
    some (-5, -5) := by decide +kernel
  obtain ⟨⟨r, m'⟩, hr, h8⟩ := Option.map_eq_some_iff.1 h7
  obtain ⟨e3, e4⟩ := Prod.mk.injEq .. ▸ h8
  have h9 : exprValue user.obj (assignment ((run cfg events (begin m0)).getD (begin m0)).model) = -6 := by decide +kernel
  refine ⟨inp, user, m1, m0, conf, events, events.take 2, s, t, d, r, m', rfl, h1, rfl, rfl, by unfold m0; rw [hm]; rfl,
    by decide +kernel, ⟨by unfold Admits; decide +kernel, by unfold Holds; decide +kernel⟩, follows, List.take_prefix _ _, ht, hd,
    by rw [e1, e2]; norm_num, hs, ?_, hr, by dsimp only at e3 e4; rw [e3, e4], ?_⟩
  · rw [hs']
    exact ⟨by unfold Admits; decide +kernel, by unfold Holds; decide +kernel⟩
  · dsimp only at e3
    rw [hs', h9, e3]; norm_num

end Twice

end Printemps.C75
