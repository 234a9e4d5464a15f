import Verif.Lemmas.Bounded
import Verif.Spec.Bounded

/-! Lemmas about the laps of a call between which the bounds of variables shrink. -/

namespace Printemps.Ctl
open Spec Sol Search Presolve

variable {cfg : Cfg} {m0 B : MState}

/-! ### Lists of assignments -/

theorem visited_append (m : MState) (b : List Visit) : ∀ (a : List Visit) q, ∃ q', visited m q (a ++ b) = visited m q a ++ visited m q' b := by
  intro a
  induction a with
  | nil => intro q; exact ⟨q, rfl⟩
  | cons e a ih =>
    intro q
    obtain ⟨q', h⟩ := ih (C66.next m q e)
    refine ⟨q', ?_⟩
    rw [List.cons_append, C66.visited_cons, C66.visited_cons, h, List.append_assoc]

theorem visited_moves (a b : MState) (es : List Event) (h : OnlyMoves es) : ∀ q, visited a q (es.map C66.visitOf) = visited b q (es.map C66.visitOf) := by
  induction es with
  | nil => intro q; rfl
  | cons e es ih =>
    intro q
    obtain ⟨mv, r, rfl⟩ := h e (by simp)
    have := ih (fun e he => h e (by simp [he])) (applyMove q.1 mv.alterations, q.2 + 1)
    rw [List.map_cons, C66.visited_cons, C66.visited_cons]
    show [(applyMove q.1 mv.alterations, q.2 + 1)] ++ _ = [(applyMove q.1 mv.alterations, q.2 + 1)] ++ _
    exact congrArg _ this

/-! ### The imports -/

theorem setValue_frame {x y : Var} {a : ℤ} (h : x.setValue a = some y) : y.fixed = x.fixed ∧ y.lb = x.lb ∧ y.ub = x.ub ∧
    y.sense = x.sense ∧ (x.fixed = true → y.value = x.value) := by
  unfold Var.setValue at h
  split at h
  · exact absurd h (by simp)
  · rename_i hc
    simp only [Option.some.injEq] at h
    subst h
    refine ⟨rfl, rfl, rfl, rfl, fun hf => ?_⟩
    by_contra hne
    exact hc ⟨fun e => hne e.symm, hf⟩

theorem assignAll_frame (name : ℕ → String) (s : StrMap ℤ) (vs : List ℕ) : ∀ (m m' : MState), assignAll name s vs m = some m' →
    ∃ var, m' = { m with var := var } ∧ ∀ v, (var v).fixed = (m.var v).fixed ∧ (var v).lb = (m.var v).lb ∧
      (var v).ub = (m.var v).ub ∧ (var v).sense = (m.var v).sense ∧
      ((v ∉ vs ∨ (m.var v).fixed = true) → (var v).value = (m.var v).value) := by
  induction vs with
  | nil => intro m m' h; obtain rfl := Option.some.inj h; exact ⟨m.var, rfl, fun v => ⟨rfl, rfl, rfl, rfl, fun _ => rfl⟩⟩
  | cons u vs ih =>
    intro m m' h
    obtain ⟨x, h1, h2⟩ := Option.bind_eq_some_iff.1 h
    obtain ⟨var, rfl, hv⟩ := ih _ _ h2
    obtain ⟨f1, f2, f3, f4, f5⟩ := setValue_frame h1
    refine ⟨var, rfl, fun v => ?_⟩
    obtain ⟨v1, v2, v3, v4, v5⟩ := hv v
    dsimp only at v1 v2 v3 v4 v5
    by_cases e : v = u
    · subst e
      rw [Function.update_self] at v1 v2 v3 v4 v5
      refine ⟨v1.trans f1, v2.trans f2, v3.trans f3, v4.trans f4, fun hh => ?_⟩
      have hf := hh.resolve_left (by simp)
      rw [v5 (Or.inr (by rw [f1]; exact hf)), f5 hf]
    · rw [Function.update_of_ne e] at v1 v2 v3 v4 v5
      refine ⟨v1, v2, v3, v4, fun hh => v5 ?_⟩
      rcases hh with hh | hh
      · exact Or.inl fun hm => hh (by simp [hm])
      · exact Or.inr hh

theorem import_by_name {m m1 : MState} {l gg : ℕ → ℚ} {name : ℕ → String} {cur : Sparse} (hs : C66.Setting cfg B)
    (st : Stat B l gg m) (fx : Fixes B m) (h : importSparse name cfg.sels cur m = some m1) : Stat B l gg m1 ∧ Fixes B m1 := by
  unfold importSparse at h
  obtain ⟨m2, h1, h2⟩ := Option.bind_eq_some_iff.1 h
  obtain ⟨var, rfl, hv⟩ := assignAll_frame name _ _ _ _ h1
  have st2 : Stat B l gg { m with var := var } :=
    st.withVars var m.selected (fun v => (hv v).1) (fun v => (hv v).2.1) (fun v => (hv v).2.2.1) (fun v => (hv v).2.2.2.1)
  have hvar := (C51.check_only_changes_nothing cfg.sels _ m1 (C66.stat_ready st2 hs.ready) h2).1
  obtain ⟨var', sel, e⟩ := verifyAll_frame _ _ _ _ h2
  have e' : m1 = { m with var := var, selected := sel } := by
    have : var' = var := by rw [e] at hvar; exact hvar
    rw [e, this]
  subst e'
  refine ⟨st.withVars var sel (fun v => (hv v).1) (fun v => (hv v).2.1) (fun v => (hv v).2.2.1) (fun v => (hv v).2.2.2.1), fun v hf => ?_⟩
  show (var v).value = _
  rw [(hv v).2.2.2.2 ?_]
  · exact fx v hf
  · rcases hf with hf | hf
    · exact Or.inl (by rw [st.varIds]; exact hf)
    · exact Or.inr (by rw [C66.stat_fixed st]; exact hf)

theorem start_same (n : Narrow m0 B) (d : ℕ → ℤ) (hd : ∀ v, (v ∉ B.varIds ∨ (B.var v).fixed = true) → d v = (B.var v).value)
    (σ τ : ℕ → ℤ) : visit B σ (.start d) = visit m0 τ (.start d) := by
  have hv : B.varIds = m0.varIds := by rw [n.frame]
  funext v
  show (if v ∈ B.varIds ∧ (B.var v).fixed = false then d v else (B.var v).value) =
    if v ∈ m0.varIds ∧ (m0.var v).fixed = false then d v else (m0.var v).value
  rw [hv]
  by_cases hm : v ∈ m0.varIds
  · cases h0 : (m0.var v).fixed
    · rw [if_pos (show v ∈ m0.varIds ∧ false = false from ⟨hm, rfl⟩)]
      cases hB : (B.var v).fixed
      · rw [if_pos ⟨hm, rfl⟩]
      · rw [if_neg (by simp)]; exact (hd v (Or.inr hB)).symm
    · obtain ⟨k1, k2⟩ := n.fixed v h0
      rw [k1, if_neg (by simp), if_neg (by simp), k2]
  · rw [if_neg (fun h => hm h.1), if_neg (fun h => hm h.1), n.other v hm]

theorem start_inv {e : ℚ} {l gg : ℕ → ℚ} {name : ℕ → String} {cur : Sparse} {s s1 : St} {d : Dense} (g : Ground cfg m0)
    (n : Narrow m0 B) (hn : ∀ c, 0 ≤ l c ∧ 0 ≤ gg c) (st : Stat B l gg s.model) (fx : Fixes B s.model)
    (h : startFrom name cfg cur s = some (d, s1)) :
    ∃ q : (ℕ → ℤ) × ℕ, (∀ σ, q = (visit m0 σ (.start d.values), 0)) ∧ C66.Inv B e s1 q ∧
      ∃ calls : List (HolderCall Dense), s1.holder = calls.foldl Holder.step s.holder ∧
        List.Forall₂ (C66.Describes m0 e) (C11.offers calls) [q] := by
  have hs := n.setting g
  have hd : B.dependents = [] := by rw [n.frame]; exact g.deps
  unfold startFrom at h
  obtain ⟨m, h1, h2⟩ := Option.bind_eq_some_iff.1 h
  obtain ⟨s2, h3, h4⟩ := Option.map_eq_some_iff.1 h2
  simp only [Prod.mk.injEq] at h4
  obtain ⟨rfl, rfl⟩ := h4
  obtain ⟨st1, fx1⟩ := import_by_name hs st fx h1
  obtain ⟨m1, h5, h6⟩ := Option.map_eq_some_iff.1 h3
  obtain ⟨st2, ag, rg, -⟩ := C66.import_still hs st1 (exportDense m) h5 (assignment m0) (fun v _ hf => fx1 v hf)
  obtain ⟨i1, i2, i3⟩ := C66.full_inv (e := e) hs.wf hs.noDep s.holder.resetLocal hn st2.update
    (update_live m1 (hs.noDep.of_stat st2).uexpr) _ (Agree.trans (update_agree st2) ag) rg
  obtain ⟨o1, d', o2, o3⟩ := C66.offer_inv hs.noDep _ _ _ i1 i2 i3
  have same : ∀ σ, visit B (assignment m0) (.start (exportDense m).values) = visit m0 σ (.start (exportDense m).values) :=
    fun σ => start_same n _ (fun v hf => fx1 v hf) _ σ
  rw [h6] at o1 o2
  refine ⟨_, fun σ => ?_, o1, [.resetLocal, .offer d' _], o2, List.Forall₂.cons (n.describes g o3) List.Forall₂.nil⟩
  rw [same σ]

/-! ### Status and incumbents -/

theorem step_found (s s' : St) (e : Event) (h : step cfg s e = some s') :
    (s.holder.found = true → s'.holder.found = true) ∧ ((statusOf cfg s e).testBit 2 = true → s'.holder.found = true) := by
  have off : ∀ (hd : Holder Dense) (m : MState) (sc : Score), (hd.found = true → (Search.offer hd m sc).holder.found = true) ∧
      (((hd.tryUpdateModel refresh exportDense m sc).2.2).testBit 2 = true → (Search.offer hd m sc).holder.found = true) := by
    intro hd m sc
    obtain ⟨e1, e2, -⟩ := C11.model_overload_agrees refresh exportDense hd m sc
    have e3 : (Search.offer hd m sc).holder = (hd.tryUpdateModel refresh exportDense m sc).1 := rfl
    rw [e3, e1, e2]
    unfold Holder.tryUpdate
    dsimp only
    refine ⟨fun hf => by rw [hf]; rfl, fun hb => ?_⟩
    cases hs : sc.isFeasible
    · exfalso
      rw [hs] at hb
      revert hb
      cases beats sc.localAug hd.localObj <;> cases beats sc.globalAug hd.globalObj <;> simp <;> decide
    · simp
  cases e with
  | start d =>
    obtain ⟨m, -, rfl⟩ := Option.map_eq_some_iff.1 h
    exact ⟨fun hf => (off _ _ _).1 hf, fun hb => absurd hb (by simp [statusOf])⟩
  | move mv r =>
    obtain rfl := Option.some.inj h
    exact off _ _ _
  | relax low =>
    obtain rfl := Option.some.inj h
    exact ⟨(off _ _ _).1, fun hb => absurd hb (by simp [statusOf])⟩
  | penalties l g =>
    obtain rfl := Option.some.inj h
    exact ⟨fun hf => hf, fun hb => absurd hb (by simp [statusOf])⟩

theorem runStatus_back (es : List Event) : ∀ (s s' : St) (t t' : ℕ), runStatus cfg es s t = some (s', t') →
    run cfg es s = some s' ∧ ((s.holder.found = true → s'.holder.found = true) ∧
      ((t.testBit 2 = true → s.holder.found = true) → t'.testBit 2 = true → s'.holder.found = true)) := by
  induction es with
  | nil =>
    intro s s' t t' h
    simp only [runStatus, Option.some.injEq, Prod.mk.injEq] at h
    obtain ⟨rfl, rfl⟩ := h
    exact ⟨rfl, fun hf => hf, fun hf hb => hf hb⟩
  | cons e es ih =>
    intro s s' t t' h
    unfold runStatus at h
    obtain ⟨s1, h1, h2⟩ := Option.bind_eq_some_iff.1 h
    obtain ⟨k1, k2, k3⟩ := ih _ _ _ _ h2
    obtain ⟨f1, f2⟩ := step_found s s1 e h1
    refine ⟨by unfold run; rw [h1]; exact k1, fun hf => k2 (f1 hf), fun hf hb => k3 (fun ho => ?_) hb⟩
    rw [Nat.testBit_or, Bool.or_eq_true] at ho
    rcases ho with ho | ho
    · exact f2 ho
    · exact f1 (hf ho)

theorem NoWorse.foldl (calls : List (HolderCall Dense)) : ∀ h : Holder Dense, C11.NoWorse (calls.foldl Holder.step h).feasObj h.feasObj := by
  induction calls with
  | nil => intro h; cases hf : h.feasObj <;> simp [C11.NoWorse, hf]
  | cons c cs ih =>
    intro h
    have h1 := (C11.incumbents_never_worsen h c).1
    have h2 := ih (h.step c)
    rw [List.foldl_cons]
    cases ha : h.feasObj with
    | none => simp [C11.NoWorse]
    | some a =>
      rw [ha] at h1
      cases hb : (h.step c).feasObj with
      | none => rw [hb] at h1; exact absurd h1 (by simp [C11.NoWorse])
      | some b =>
        rw [hb] at h1 h2
        cases hc : (cs.foldl Holder.step (h.step c)).feasObj with
        | none => rw [hc] at h2; exact absurd h2 (by simp [C11.NoWorse])
        | some x =>
          rw [hc] at h2
          exact le_trans (show x ≤ b from h2) (show b ≤ a from h1)

/-! ### Laps -/

/-- The state between two searches: the model has shrunk to `B`, and the history of incumbents describes the assignments come
across; every assignment at least as good as the best feasible one come across is still in the ranges. -/
structure Held (m0 B : MState) (e : ℚ) (x : Sofar) : Prop where
  narrow : Narrow m0 B
  stat : ∃ l g, (∀ c, 0 ≤ l c ∧ 0 ≤ g c) ∧ Stat B l g x.st.model
  fixes : Fixes B x.st.model
  calls : ∃ calls : List (HolderCall Dense), x.st.holder = C11.after calls ∧
    List.Forall₂ (C66.Describes m0 e) (C11.offers calls) (C66.all m0 x.done)
  inside : ∀ σ, InRange m0 σ → (∀ z, x.st.holder.feasObj = some z → minObjective m0 σ ≤ z) → InRange B σ

theorem legal_back {m : MState} {l gg : ℕ → ℚ} (st : Stat B l gg m) (ev : Event) (h : C66.LegalEvent cfg m ev) : C66.LegalEvent cfg B ev := by
  have hids : m.conIds = B.conIds := st.shape.conIds
  have hterms : ∀ c, (m.con c).expr.terms = (B.con c).expr.terms := st.shape.conTerms
  have hen : ∀ c, (m.con c).enabled = (B.con c).enabled := st.shape.conEnabled
  cases ev with
  | start d => trivial
  | relax low => trivial
  | penalties l' g' => exact h
  | move mv r =>
    have h : C66.Legal cfg m mv := h
    refine ⟨h.distinct, fun a ha => ?_, ⟨by simpa only [hen] using h.related.nodup, fun c hc => by rw [← hids]; exact h.related.mem c hc,
      fun c hc he hex => h.related.covers c (by rw [hids]; exact hc) (by rw [hen]; exact he) (by rw [hterms]; exact hex)⟩, h.single,
      fun h1 h2 => ?_⟩
    · have := h.listed a ha
      rw [st.varIds, st.dependents, C66.stat_fixed st, st.lb, st.ub] at this; exact this
    · obtain ⟨v, w, x, y, e1, r⟩ := h.selection h1 h2
      exact ⟨v, w, x, y, e1, r.nodup, fun c hc => by rw [← hids]; exact r.mem c hc, fun c hc he hex =>
        r.covers c (by rw [hids]; exact hc) (by rw [hen]; exact he) (by rw [hterms]; exact hex)⟩

theorem err_narrow {e : ℚ} (n : Narrow m0 B) (he : Err m0 e) : Err B e := by
  rw [n.frame]
  rcases he with h | ⟨h, k, hk, o⟩
  · exact Or.inl h
  · exact Or.inr ⟨h, k, hk, o.const, o.coef⟩

/-- A search, up to the bounding. -/
theorem Held.search {e : ℚ} {x : Sofar} {name : ℕ → String} {cur : Sparse} (g : Ground cfg m0) (he : Err m0 e) (h : Held m0 B e x)
    (body : List Event) (hle : ∀ ev ∈ body, C66.LegalEvent cfg B ev)
    (hvis : ∀ q, visited B q (body.map C66.visitOf) = visited m0 q (body.map C66.visitOf)) (d : Dense) (s s' : St)
    (h1 : startFrom name cfg cur x.st = some (d, s)) (h2 : run cfg body s = some s') :
    Held m0 B e ⟨s', x.done ++ (.start d :: body)⟩ := by
  obtain ⟨l, gg, hn, st⟩ := h.stat
  obtain ⟨q, hq, i1, c1, e1, f1⟩ := start_inv (e := e) g h.narrow hn st h.fixes h1
  obtain ⟨⟨q', i2⟩, c2, e2, f2⟩ := C66.run_inv (h.narrow.setting g) (err_narrow h.narrow he) body s s' q i1 hle h2
  obtain ⟨calls, e0, f0⟩ := h.calls
  obtain ⟨q0, hq0⟩ := visited_append m0 ((Event.start d :: body).map C66.visitOf) (x.done.map C66.visitOf) (assignment m0, 0)
  refine ⟨h.narrow, i2.stat, fun v hf => ?_, ⟨calls ++ c1 ++ c2, ?_, ?_⟩, fun σ hσ hz => h.inside σ hσ fun z hzz => ?_⟩
  · have hd : B.dependents = [] := by rw [h.narrow.frame]; exact g.deps
    have hno : v ∉ B.dependents.map Prod.fst := by rw [hd]; simp
    exact (i2.agree v hno).trans (i2.range.fixed v hno hf)
  · show s'.holder = _
    rw [e2, e1, e0]
    unfold C11.after
    rw [List.foldl_append, List.foldl_append]
  · rw [C11.offers_append, C11.offers_append]
    have : C66.all m0 (x.done ++ (.start d :: body)) = C66.all m0 x.done ++ [q] ++ visited m0 q (body.map C66.visitOf) := by
      unfold C66.all
      rw [List.map_append, hq0, List.map_cons, C66.visited_cons, List.append_assoc]
      show (_ :: _) ++ ([(visit m0 q0.1 (.start d.values), 0)] ++ visited m0 (visit m0 q0.1 (.start d.values), 0) _) = _
      rw [← hq q0.1]
    rw [this]
    refine List.rel_append (List.rel_append f0 f1) ?_
    rw [← hvis]
    exact f2.imp fun _ _ hdes => h.narrow.describes g hdes
  · have : C11.NoWorse s'.holder.feasObj x.st.holder.feasObj := by
      rw [e2, e1, ← List.foldl_append]; exact NoWorse.foldl _ _
    rw [hzz] at this
    cases hc : s'.holder.feasObj with
    | none => rw [hc] at this; exact absurd this (by simp [C11.NoWorse])
    | some y =>
      rw [hc] at this
      exact (hz y hc).trans this

/-- The best feasible solution come across is in the ranges. -/
theorem Held.best {e : ℚ} {x : Sofar} (h : Held m0 B e x) (hf : x.st.holder.found = true) :
    ∃ σ z, x.st.holder.feasObj = some z ∧ InRange B σ ∧ minObjective m0 σ = z := by
  obtain ⟨calls, e0, f0⟩ := h.calls
  obtain ⟨h1, h2⟩ := C11.feasible_incumbent_is_best calls
  rw [← e0] at h1 h2
  rcases h2 with ⟨-, h2⟩ | ⟨d, sc, hm, hz, -, -, -⟩
  · exact absurd h2 (h1.1 hf)
  · obtain ⟨hm1, -⟩ := List.mem_filter.1 hm
    obtain ⟨q, -, hdes⟩ := C66.forall₂_left f0 _ hm1
    refine ⟨q.1, _, hz, h.inside q.1 hdes.range fun z hzz => ?_, hdes.objective.symm⟩
    rw [hz] at hzz
    obtain rfl := Option.some.inj hzz
    exact hdes.objective.symm.le

theorem Held.bound {e : ℚ} {x : Sofar} {o : Opt} {c : State} {b : St} (g : Ground cfg m0) (h : Held m0 B e x)
    (hc : c.feasNow = true → x.st.holder.found = true) (hb : Ctl.bound o c x.st = some b) :
    b.holder = x.st.holder ∧ ∃ B', Held m0 B' e ⟨b, x.done⟩ := by
  unfold Ctl.bound at hb
  split at hb
  · rename_i m hm
    obtain rfl := Option.some.inj hb
    refine ⟨rfl, ?_⟩
    unfold Online.onlineBounding at hm
    split at hm
    · rename_i hflag
      have hfn : c.feasNow = true := by
        cases hq : c.feasNow
        · rw [hq] at hflag; simp at hflag
        · rfl
      obtain ⟨σ, z, hz, hσ, ho⟩ := h.best (hc hfn)
      rw [hz, Option.getD_some] at hm
      obtain ⟨l, gg, hn, st⟩ := h.stat
      obtain ⟨m', B', e', n', st', fx', hin⟩ := bounding g h.narrow st h.fixes σ hσ z ho.le
      obtain rfl : m' = m := by rw [hm] at e'; injection e' with e'; exact e'.symm
      refine ⟨B', n', ⟨l, gg, hn, st'⟩, fx', h.calls, fun τ hτ hle => ?_⟩
      have hle' : minObjective m0 τ ≤ z := hle z hz
      exact hin τ (h.inside τ hτ hle) hle'
    · simp only [Outcome.ok.injEq] at hm
      subst hm
      exact ⟨B, h⟩
  · exact absurd hb (by simp)

theorem Held.lap {e : ℚ} {x : Sofar} {o : Opt} {c : State} {lap : Lap} {name : ℕ → String} {r : State × Sofar} (g : Ground cfg m0)
    (he : Err m0 e) (h : Held m0 B e x) (hc : c.feasNow = true → x.st.holder.found = true) (hom : OnlyMoves lap.body)
    (hp : ∀ i, 0 ≤ lap.less i ∧ 0 ≤ lap.greater i) (hle : (startFrom name cfg c.current x.st).isSome = true → ∀ ev ∈ lap.body, C66.LegalEvent cfg x.st.model ev)
    (hr : lapStep name cfg o lap c x = some r) :
    (∃ B', Held m0 B' e r.2) ∧ (r.1.feasNow = true → r.2.st.holder.found = true) := by
  unfold lapStep at hr
  obtain ⟨⟨d, s⟩, h1, hr⟩ := Option.bind_eq_some_iff.1 hr
  obtain ⟨⟨s', t⟩, h2, hr⟩ := Option.bind_eq_some_iff.1 hr
  obtain ⟨b, h3, hr⟩ := Option.bind_eq_some_iff.1 hr
  obtain ⟨u, h4, hr⟩ := Option.bind_eq_some_iff.1 hr
  obtain ⟨s2, h5, rfl⟩ := Option.map_eq_some_iff.1 hr
  dsimp only at h1 h2 h3 h4 h5 ⊢
  obtain ⟨k1, k2, k3⟩ := runStatus_back _ _ _ _ _ h2
  obtain ⟨l, gg, hn, st⟩ := h.stat
  have hh := h.search g he lap.body (fun ev hev => legal_back st ev (hle (by rw [h1]; rfl) ev hev)) (visited_moves B m0 lap.body hom) d s s' h1 k1
  have hst : x.st.holder.found = true → s.holder.found = true := by
    unfold startFrom at h1
    obtain ⟨m, -, h6⟩ := Option.bind_eq_some_iff.1 h1
    obtain ⟨s3, h7, h8⟩ := Option.map_eq_some_iff.1 h6
    simp only [Prod.mk.injEq] at h8
    obtain ⟨-, rfl⟩ := h8
    exact (step_found (cfg := cfg) _ _ _ h7).1
  obtain ⟨hb, B', hB⟩ := hh.bound (o := o) (c := c) g (fun hf => k2 (hst (hc hf))) h3
  obtain rfl := Option.some.inj h5
  refine ⟨⟨B', hB.narrow, ?_, hB.fixes, ?_, hB.inside⟩, fun hf => ?_⟩
  · obtain ⟨l', g', -, st'⟩ := hB.stat
    exact ⟨lap.less, lap.greater, hp, st'.setPenalties _ _⟩
  · obtain ⟨calls, e0, f0⟩ := hB.calls
    refine ⟨calls, e0, ?_⟩
    have : C66.all m0 (x.done ++ (.start d :: lap.body) ++ [.penalties lap.less lap.greater]) = C66.all m0 (x.done ++ (.start d :: lap.body)) := by
      unfold C66.all
      obtain ⟨q', hq'⟩ := visited_append m0 ([Event.penalties lap.less lap.greater].map C66.visitOf)
        ((x.done ++ (.start d :: lap.body)).map C66.visitOf) (assignment m0, 0)
      rw [List.map_append, hq']
      show _ :: (_ ++ []) = _
      rw [List.append_nil]
    show List.Forall₂ _ _ (C66.all m0 (x.done ++ (.start d :: lap.body) ++ [.penalties lap.less lap.greater]))
    rw [this]; exact f0
  · show b.holder.found = true
    rw [hb]
    have : u.2.feasNow = t.testBit 2 := by
      unfold update at h4
      obtain ⟨f, -, h6⟩ := Option.bind_eq_some_iff.1 h4
      obtain ⟨d', -, h7⟩ := Option.map_eq_some_iff.1 h6
      rw [← h7]
    rw [this] at hf
    exact k3 (fun h0 => absurd h0 (by simp)) hf

theorem Held.laps {e : ℚ} {o : Opt} {name : ℕ → String} (g : Ground cfg m0) (he : Err m0 e) (ls : List Lap) :
    ∀ (c : State) (x x' : Sofar) (B : MState), Held m0 B e x → (c.feasNow = true → x.st.holder.found = true) →
      LapsLegal name cfg o ls c x → Ctl.laps name cfg o ls c x = some x' → ∃ B', Held m0 B' e x' := by
  induction ls with
  | nil =>
    intro c x x' B h _ _ hr
    obtain rfl := Option.some.inj hr
    exact ⟨B, h⟩
  | cons lap ls ih =>
    intro c x x' B h hc hl hr
    obtain ⟨l1, l2, l3, l4⟩ := hl
    obtain ⟨r, h1, h2⟩ := Option.bind_eq_some_iff.1 hr
    obtain ⟨⟨B', hB⟩, hc'⟩ := h.lap g he hc l1 l2 l3 h1
    exact ih r.1 r.2 x' B' hB hc' (l4 r h1) h2

theorem Held.optional {e : ℚ} {name : ℕ → String} (g : Ground cfg m0) (he : Err m0 e) (cur : Sparse) (body : Option (List Event))
    (x : Sofar) (h : Held m0 m0 e x) (hle : ∀ b, body = some b → (startFrom name cfg cur x.st).isSome = true → ∀ ev ∈ b, C66.LegalEvent cfg m0 ev) (r : Sparse × Sofar)
    (hr : Ctl.optional name cfg cur body x = some r) : Held m0 m0 e r.2 := by
  cases body with
  | none => obtain rfl := Option.some.inj hr; exact h
  | some b =>
    have hr : phase name cfg cur b x = some r := hr
    unfold phase at hr
    obtain ⟨⟨d, s⟩, h1, hr⟩ := Option.bind_eq_some_iff.1 hr
    obtain ⟨s', h2, hr⟩ := Option.bind_eq_some_iff.1 hr
    obtain ⟨d', -, rfl⟩ := Option.map_eq_some_iff.1 hr
    exact h.search g he b (hle b rfl (by rw [h1]; rfl)) (fun _ => rfl) d s s' h1 h2

theorem Held.begin {e : ℚ} (g : Ground cfg m0) : Held m0 m0 e ⟨Search.begin m0, []⟩ := by
  obtain ⟨i, d, sc, e1, f1⟩ := C66.begin_inv (e := e) g.setting
  refine ⟨Narrow.refl g, i.stat, fun v hf => ?_, ⟨[.offer d sc], e1, List.Forall₂.cons f1 List.Forall₂.nil⟩, fun σ hσ _ => hσ⟩
  have hno : v ∉ m0.dependents.map Prod.fst := by rw [g.deps]; simp
  exact i.agree v hno

/-- All searches of a call. -/
theorem Held.searches {e : ℚ} {o : Opt} {name : ℕ → String} {pl : Plan} {x : Sofar} (g : Ground cfg m0) (he : Err m0 e)
    (hl : PlanLegal name cfg o m0 pl) (hx : Ctl.searches name cfg o m0 pl = some x) : ∃ B, Held m0 B e x := by
  obtain ⟨l1, l2⟩ := hl
  unfold Ctl.searches at hx
  obtain ⟨p, h1, hx⟩ := Option.bind_eq_some_iff.1 hx
  obtain ⟨q, h2, h3⟩ := Option.bind_eq_some_iff.1 hx
  have a1 := Held.optional g he _ _ _ (Held.begin g) (fun b hb _ ev hev => by
    split at hb
    · obtain ⟨low, rfl⟩ := l1 b hb ev hev
      trivial
    · exact absurd hb (by simp)) p h1
  have a2 := Held.optional g he _ _ _ a1 (fun b hb => ((l2 p h1).1 b hb).2) q h2
  exact Held.laps g he pl.laps _ _ x m0 a2 (fun hf => absurd hf (by simp)) ((l2 p h1).2 q h2) h3

/-- The report: what is reported is an assignment come across, the best one. -/
theorem Held.report {e : ℚ} {x : Sofar} {r : Named} {m' : MState} (g : Ground cfg m0) (hpen : 0 ≤ m0.globalPen)
    (h : Held m0 B e x) (hr : postprocess cfg.sels x.st.holder x.st.model = some (r, m')) :
    ∃ q ∈ C66.all m0 x.done, Agree m0 r.values q.1 ∧ InRange m0 r.values ∧ C59.Consistent m0 r ∧
      ((∃ p ∈ C66.all m0 x.done, totalViolation m0 p.1 + p.2 * e ≤ 1e-5) →
        totalViolation m0 q.1 ≤ 1e-5 + q.2 * e ∧
        ∀ p ∈ C66.all m0 x.done, totalViolation m0 p.1 + p.2 * e ≤ 1e-5 → minObjective m0 q.1 ≤ minObjective m0 p.1 + 1e-5) ∧
      ((∀ p ∈ C66.all m0 x.done, 1e-5 + p.2 * e < totalViolation m0 p.1) → ∀ p ∈ C66.all m0 x.done,
        minObjective m0 q.1 + totalViolation m0 q.1 * m0.globalPen ≤
          minObjective m0 p.1 + totalViolation m0 p.1 * m0.globalPen + 1e-5 + (q.2 * e + p.2 * e) * m0.globalPen) ∧
      (e = 0 → ∀ σ, InRange m0 σ → (totalViolation m0 q.1 ≤ 1e-5 → minObjective m0 σ ≤ minObjective m0 q.1) →
        ∀ v ∈ m0.varIds, Admits (m'.var v) (σ v)) := by
  obtain ⟨calls, ec, fa⟩ := h.calls
  obtain ⟨l, gg, hn, st⟩ := h.stat
  unfold postprocess at hr
  rw [ec] at hr
  obtain ⟨d, hd, h2⟩ := Option.bind_eq_some_iff.1 hr
  obtain ⟨m1, h3, h4⟩ := Option.map_eq_some_iff.1 h2
  simp only [Prod.mk.injEq] at h4
  obtain ⟨rfl, rfl⟩ := h4
  have hne : C11.offers calls ≠ [] := by
    intro hnil; rw [hnil] at fa; cases fa
  have hch := C59.slot calls d hd hne
  obtain ⟨st1, ag1, r1, hcon⟩ := C66.import_still (h.narrow.setting g) st d h3 (assignment m0) (fun v _ hf => h.fixes v hf)
  have hdB : B.dependents = [] := by rw [h.narrow.frame]; exact g.deps
  have hnoB : ∀ v, v ∉ B.dependents.map Prod.fst := fun v => by rw [hdB]; simp
  have hno : ∀ v, v ∉ m0.dependents.map Prod.fst := fun v => by rw [g.deps]; simp
  obtain ⟨q, hq, sc, hmem, hdes, b1, b2⟩ := C66.judged hpen _ _ fa d hch
  -- the values reported are those of the chosen solution
  have hrep : ∀ q', InRange B q' → (∀ v, d.values v = q' v) → ∀ v, (exportNamed m1.update).values v = q' v := by
    intro q' hq' hv v
    have e1 : (exportNamed m1.update).values v = assignment m1.update v := rfl
    rw [e1, update_agree st1 v (hnoB v), ag1 v (hnoB v)]
    show (if v ∈ B.varIds ∧ (B.var v).fixed = false then d.values v else assignment B v) = _
    by_cases hc : v ∈ B.varIds ∧ (B.var v).fixed = false
    · rw [if_pos hc]; exact hv v
    · rw [if_neg hc]
      refine (hq'.fixed v (hnoB v) ?_).symm
      by_cases hm : v ∈ B.varIds
      · right
        cases hf : (B.var v).fixed
        · exact absurd ⟨hm, hf⟩ hc
        · rfl
      · exact Or.inl hm
  have hdv : ∀ v, d.values v = q.1 v := fun v => hdes.values v (hno v)
  have hins : ∀ σ, InRange m0 σ → (∀ n : ℕ, totalViolation m0 q.1 ≤ 1e-5 + n * e → minObjective m0 σ ≤ minObjective m0 q.1) →
      InRange B σ := by
    intro σ hσ hle
    obtain ⟨f1, f2⟩ := C11.feasible_incumbent_is_best calls
    refine h.inside σ hσ fun z hz => ?_
    rw [ec] at hz
    cases hfound : (C11.after calls).found
    · rcases f2 with ⟨f2, -⟩ | ⟨d2, sc2, hm2, -⟩
      · rw [f2] at hz; exact absurd hz (by simp)
      · rw [f1.2 (List.ne_nil_of_mem hm2)] at hfound; exact absurd hfound (by simp)
    · rw [hfound] at hd
      rcases f2 with ⟨-, f2⟩ | ⟨d2, sc2, hm2, hz2, hs2, -, -⟩
      · exact absurd f2 (f1.1 hfound)
      · have hdd : d2 = d := by
          rw [if_pos rfl, hs2] at hd; exact Option.some.inj hd
        subst hdd
        obtain ⟨hm3, hf3⟩ := List.mem_filter.1 hm2
        obtain ⟨q2, hq2L, hdes2⟩ := C66.forall₂_left fa _ hm3
        have hq2 : q2.1 = q.1 := funext fun v => by
          rw [← hdes2.values v (hno v), ← hdes.values v (hno v)]
        rw [hz2] at hz
        obtain rfl := Option.some.inj hz
        show minObjective m0 σ ≤ sc2.objective
        rw [show sc2.objective = minObjective m0 q2.1 from hdes2.objective, hq2]
        refine hle q2.2 ?_
        have h5 := (abs_le.1 hdes2.violation).1
        have h6 := hdes2.feasible.1 hf3
        rw [← hq2]
        linarith
  have hin : InRange B q.1 := hins q.1 hdes.range fun _ _ => le_refl _
  have hvals := hrep q.1 hin hdv
  refine ⟨q, hq, fun v _ => hvals v, ?_, ?_, b1, b2, fun he σ hσ hle v hv => ?_⟩
  · have : (exportNamed m1.update).values = q.1 := funext hvals
    rw [this]; exact hdes.range
  · have key : ∀ w : ℕ → Var, Stat { m0 with var := w } l gg m1 → C59.Consistent m0 (exportNamed m1.update) := by
      intro w st1
      have hc := C59.export_consistent m1
      have hv : ∀ c σ, exprValue (m1.con c).expr σ = exprValue (m0.con c).expr σ := fun c σ => st1.shape.conValue c σ
      have hvi : ∀ c σ, violation (m1.con c) σ = violation (m0.con c) σ := fun c σ => st1.shape.violation c σ
      have hids : m1.conIds = m0.conIds := st1.shape.conIds
      refine ⟨fun c hcm => ?_, fun ho => ?_, ?_, ?_⟩
      · have := hc.con c (by rw [hids]; exact hcm); rw [hv, hvi] at this; exact this
      · rw [hc.objective (by rw [st1.shape.objDefined]; exact ho), exprValue, exprValue, st1.shape.objTerms, st1.shape.objConst]
        rfl
      · rw [hc.totalViolation, hids]; exact sum_map_congr _ _ _ fun c _ => hvi c _
      · rw [hc.feasible, hids]
        have hen : ∀ c, (m1.con c).enabled = (m0.con c).enabled := st1.shape.conEnabled
        constructor
        · intro hh c hcm hec; rw [← hvi]; exact hh c hcm (by rw [hen]; exact hec)
        · intro hh c hcm hec; rw [hvi]; exact hh c hcm (by rw [← hen]; exact hec)
    exact key B.var (by rw [← h.narrow.frame]; exact st1)
  · have hB := hins σ hσ fun n hn => hle (by rw [he] at hn; simpa using hn)
    have st2 := st1.update
    refine ⟨fun hf => ?_, fun hf => ?_⟩
    · rw [C66.stat_fixed st2] at hf
      have e1 : (m1.update.var v).value = assignment m1.update v := rfl
      rw [hB.fixed v (hnoB v) (Or.inr hf), e1, update_agree st1 v (hnoB v), ag1 v (hnoB v)]
      show _ = if v ∈ B.varIds ∧ (B.var v).fixed = false then d.values v else assignment B v
      rw [if_neg (by rw [hf]; simp)]
      rfl
    · rw [C66.stat_fixed st2] at hf
      rw [st2.lb, st2.ub]
      exact hB.range v (by rw [h.narrow.frame]; exact hv) (hnoB v) hf

end Printemps.Ctl
