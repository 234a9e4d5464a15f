import Verif.Lemmas.Controller

/-! # Helper lemmas: the searches of a call, one after the other -/

namespace Printemps.Ctl
open Spec Sol Search Nbhd

variable {ν μ : Type} [LinearOrder ν] [LinearOrder μ]

/-! ## Lists of events -/

theorem run_append (cfg : Cfg) (a b : List Event) : ∀ s, run cfg (a ++ b) s = (run cfg a s).bind (run cfg b) := by
  induction a with
  | nil => intro s; rfl
  | cons e a ih =>
    intro s
    show (step cfg s e).bind (run cfg (a ++ b)) = ((step cfg s e).bind (run cfg a)).bind (run cfg b)
    rw [Option.bind_assoc]
    congr 1
    funext t
    exact ih t

theorem follows_append (C : Nbhd.Config ν μ) (cfg : Cfg) (a b : List Event) : ∀ (past : List Move) (s : St),
    Follows C cfg past s a → (∀ s', run cfg a s = some s' → Follows C cfg (a.foldl (fun p e => movesOf e ++ p) past) s' b) →
    Follows C cfg past s (a ++ b) := by
  induction a with
  | nil => intro past s _ h; exact h s rfl
  | cons e a ih =>
    intro past s h1 h2
    refine ⟨h1.1, fun s1 e1 => ih _ _ (h1.2 s1 e1) fun s' e2 => ?_⟩
    refine h2 s' ?_
    show (step cfg s e).bind (run cfg a) = some s'
    rw [e1]; exact e2

theorem visited_mono (m : MState) (a b : List Visit) : ∀ q, ∀ p ∈ visited m q a, p ∈ visited m q (a ++ b) := by
  induction a with
  | nil => intro q p hp; simp [visited] at hp
  | cons e a ih =>
    intro q p hp
    rw [List.cons_append, C66.visited_cons]
    rw [C66.visited_cons] at hp
    rcases List.mem_append.1 hp with h | h
    · exact List.mem_append_left _ h
    · exact List.mem_append_right _ (ih _ p h)

theorem all_mono (m : MState) (a b : List Event) (p) (hp : p ∈ C66.all m a) : p ∈ C66.all m (a ++ b) := by
  unfold C66.all at hp ⊢
  rw [List.map_append]
  rcases List.mem_cons.1 hp with h | h
  · exact List.mem_cons.2 (Or.inl h)
  · exact List.mem_cons.2 (Or.inr (visited_mono m _ _ _ p h))

theorem pastOf_start (es : List Event) (d : Dense) : pastOf (es ++ [.start d]) = pastOf es := by
  unfold pastOf; rw [List.foldl_append]; rfl

theorem runStatus_run (cfg : Cfg) (es : List Event) : ∀ (s s' : St) (t : ℕ), run cfg es s = some s' →
    ∃ t', runStatus cfg es s t = some (s', t') := by
  induction es with
  | nil => intro s s' t h; obtain rfl := Option.some.inj h; exact ⟨t, rfl⟩
  | cons e es ih =>
    intro s s' t h
    obtain ⟨s1, h1, h2⟩ := Option.bind_eq_some_iff.1 h
    obtain ⟨t', h3⟩ := ih s1 s' (statusOf cfg s e ||| t) h2
    exact ⟨t', by unfold runStatus; rw [h1]; exact h3⟩

/-! ## The incumbents -/

/-- A global incumbent is stored; a local one belongs to its objective. -/
structure Stored (h : Holder Dense) : Prop where
  obj : h.globalObj.isSome = true
  sol : h.globalSol.isSome = true
  loc : h.localObj.isSome = true → h.localSol.isSome = true ∧ h.localScore.isSome = true

theorem offer_stored (h : Holder Dense) (hg : h.globalObj.isSome = true → h.globalSol.isSome = true)
    (hl : h.localObj.isSome = true → h.localSol.isSome = true ∧ h.localScore.isSome = true) (d : Dense) (sc : Score) :
    Stored (h.tryUpdate d sc).1 ∧ (h.tryUpdate d sc).1.localObj.isSome = true := by
  obtain ⟨f, lo, ls, lc, go, gs, gc, fo, fs, fc⟩ := h
  have key : ∀ (x : ℚ) (o : Option ℚ), (if beats x o = true then some x else o).isSome = true := by
    intro x o
    cases o with
    | none => simp [beats]
    | some y => split <;> rfl
  refine ⟨⟨key _ _, ?_, fun _ => ⟨?_, ?_⟩⟩, key _ _⟩
  · show (if beats sc.globalAug go = true then some d else gs).isSome = true
    cases go with
    | none => simp [beats]
    | some y => split <;> [rfl; exact hg rfl]
  · show (if beats sc.localAug lo = true then some d else ls).isSome = true
    cases lo with
    | none => simp [beats]
    | some y => split <;> [rfl; exact (hl rfl).1]
  · show (if beats sc.localAug lo = true then some sc else lc).isSome = true
    cases lo with
    | none => simp [beats]
    | some y => split <;> [rfl; exact (hl rfl).2]

theorem offer_holder (h : Holder Dense) (m : MState) (sc : Score) :
    (Search.offer h m sc).holder = (h.tryUpdate (exportDense (refresh m)) sc).1 :=
  (C11.model_overload_agrees refresh exportDense h m sc).1

theorem begin_stored (m : MState) : Stored (begin m).holder :=
  (offer_stored Holder.init (by simp [Holder.init]) (by simp [Holder.init]) _ _).1

theorem step_stored (cfg : Cfg) (s s' : St) (e : Event) (h : Stored s.holder) (hst : step cfg s e = some s') :
    Stored s'.holder ∧ (s.holder.localObj.isSome = true ∨ (∃ d, e = .start d) → s'.holder.localObj.isSome = true) := by
  cases e with
  | start d =>
    obtain ⟨m1, -, rfl⟩ := Option.map_eq_some_iff.1 hst
    rw [offer_holder]
    obtain ⟨h1, h2⟩ := offer_stored s.holder.resetLocal (fun _ => h.sol) (by simp [Holder.resetLocal])
      (exportDense (refresh m1.update)) (m1.update.evaluateFull { alterations := [] })
    exact ⟨h1, fun _ => h2⟩
  | move mv r =>
    obtain rfl := Option.some.inj hst
    rw [offer_holder]
    obtain ⟨h1, h2⟩ := offer_stored s.holder (fun _ => h.sol) h.loc
      (exportDense (refresh (afterMove s.model mv))) (acceptedScore cfg s.model mv r s.cur)
    exact ⟨h1, fun _ => h2⟩
  | relax low =>
    obtain rfl := Option.some.inj hst
    rw [offer_holder]
    obtain ⟨h1, h2⟩ := offer_stored s.holder (fun _ => h.sol) h.loc
      (exportDense (refresh (relaxed s.model low).update)) ((relaxed s.model low).update.evaluateFull { alterations := [] })
    exact ⟨h1, fun _ => h2⟩
  | penalties l g =>
    obtain rfl := Option.some.inj hst
    exact ⟨h, fun hh => by
      rcases hh with hh | ⟨d, hh⟩
      · exact hh
      · exact absurd hh (by simp)⟩

theorem run_stored (cfg : Cfg) (es : List Event) : ∀ s s', Stored s.holder → run cfg es s = some s' →
    Stored s'.holder ∧ (s.holder.localObj.isSome = true → s'.holder.localObj.isSome = true) := by
  induction es with
  | nil => intro s s' h hr; obtain rfl := Option.some.inj hr; exact ⟨h, fun h => h⟩
  | cons e es ih =>
    intro s s' h hr
    obtain ⟨s1, h1, h2⟩ := Option.bind_eq_some_iff.1 hr
    obtain ⟨k1, k2⟩ := step_stored cfg s s1 e h h1
    obtain ⟨k3, k4⟩ := ih s1 s' k1 h2
    exact ⟨k3, fun hl => k4 (k2 (Or.inl hl))⟩

/-! ## One search after the other -/

/-- The assumptions about the model with which the searches begin. -/
structure Base (C : Nbhd.Config ν μ) (cfg : Cfg) (m0 : MState) (name : ℕ → String) : Prop where
  setting : C66.Setting cfg m0
  fits : C74.Fits C cfg m0
  constrained : C74.Constrained m0
  good : C66.Good cfg m0 (assignment m0)
  selected : ∀ s ∈ cfg.sels, ∀ u, m0.selected s = some u → (m0.var u).value = 1
  margins : ∀ v, v ∉ m0.dependents.map Prod.fst → (m0.var v).fixed = true → (m0.var v).updateMargin = m0.var v
  depFree : ∀ v ∈ m0.dependents.map Prod.fst, (m0.var v).fixed = false
  names : C48.Distinct name m0

/-- What is known of the events so far. -/
structure Ok (C : Nbhd.Config ν μ) (cfg : Cfg) (m0 : MState) (x : Sofar) : Prop where
  ran : run cfg x.done (begin m0) = some x.st
  follows : Follows C cfg [] (begin m0) x.done
  starts : ∀ pre d post, x.done = pre ++ Event.start d :: post → ∃ p ∈ C66.all m0 pre, Agree m0 d.values p.1
  relaxes : ∀ low, Event.relax low ∈ x.done → cfg.sels = []

/-- A solution given by names has the values of an assignment visited before. -/
def Known (m0 : MState) (name : ℕ → String) (done : List Event) (cur : Sparse) : Prop :=
  ∃ d : Dense, ∃ p ∈ C66.all m0 done, Agree m0 d.values p.1 ∧ ∀ v ∈ m0.varIds, (cur.entries.get (name v)).getD 0 = d.values v

theorem Known.mono {m0 : MState} {name : ℕ → String} {a : List Event} {cur : Sparse} (h : Known m0 name a cur) (b : List Event) :
    Known m0 name (a ++ b) cur := by
  obtain ⟨d, p, hp, h1, h2⟩ := h
  exact ⟨d, p, all_mono m0 a b p hp, h1, h2⟩

theorem Known.ofDense {m0 : MState} {name : ℕ → String} (hn : C48.Distinct name m0) {done : List Event} {d : Dense}
    (h : ∃ p ∈ C66.all m0 done, Agree m0 d.values p.1) : Known m0 name done (d.toSparse name m0.varIds) := by
  obtain ⟨p, hp, h1⟩ := h
  refine ⟨d, p, hp, h1, fun v hv => ?_⟩
  show ((sparseVars name d.values m0.varIds).get (name v)).getD 0 = _
  rw [(sparseVars_get name d.values m0.varIds hn).1 v hv]
  split
  · rfl
  · rename_i h0; simpa using (not_not.1 h0).symm

section
variable {C : Nbhd.Config ν μ} {cfg : Cfg} {m0 : MState} {name : ℕ → String} {x : Sofar}

theorem Ok.ends (b : Base C cfg m0 name) (done : List Event) (hf : Follows C cfg [] (begin m0) done)
    (hst : ∀ pre d post, done = pre ++ Event.start d :: post → ∃ p ∈ C66.all m0 pre, Agree m0 d.values p.1)
    (hrel : ∀ low, Event.relax low ∈ done → cfg.sels = []) :
    (∃ r m', Search.solve cfg m0 done = some (r, m')) ∧ ∀ p ∈ C66.all m0 done, C66.Good cfg m0 p.1 :=
  C75.every_call_ends_with_a_result_partial b.setting b.fits b.constrained b.good b.selected done hf hrel hst

theorem Ok.legal (b : Base C cfg m0 name) (k : Ok C cfg m0 x) : ∀ ev ∈ x.done, C66.LegalEvent cfg m0 ev :=
  C74.runs_are_legal_partial b.setting b.fits b.constrained x.done (by rw [k.ran]; rfl) k.follows

theorem Ok.inv (b : Base C cfg m0 name) (k : Ok C cfg m0 x) : ∃ q, C66.Inv m0 (m0.conIds.length * (1e-10 : ℚ)) x.st q :=
  (C66.run_inv b.setting (Or.inl rfl) x.done _ x.st _ (C66.begin_inv b.setting).1 (k.legal b) k.ran).1

theorem settled_run (hs : C66.Setting cfg m0) (es : List Event) : ∀ (s s' : St) (q : (ℕ → ℤ) × ℕ),
    C66.Inv m0 (m0.conIds.length * (1e-10 : ℚ)) s q → Settled m0 s.model → (∀ ev ∈ es, C66.LegalEvent cfg m0 ev) →
    run cfg es s = some s' → Settled m0 s'.model := by
  induction es with
  | nil => intro s s' q _ ht _ hr; obtain rfl := Option.some.inj hr; exact ht
  | cons ev es ih =>
    intro s s' q hi ht hle hr
    obtain ⟨s1, e1, e2⟩ := Option.bind_eq_some_iff.1 hr
    obtain ⟨l, g, -, stt⟩ := hi.stat
    obtain ⟨i1, -⟩ := C66.step_inv hs (Or.inl rfl) s s1 q hi ev (hle ev (by simp)) e1
    exact ih s1 s' _ i1 (Settled.step hs stt ht ev e1) (fun ev' h => hle ev' (by simp [h])) e2

theorem Ok.settled (b : Base C cfg m0 name) (k : Ok C cfg m0 x) : Settled m0 x.st.model :=
  settled_run b.setting x.done _ x.st _ (C66.begin_inv b.setting).1 (Settled.update ⟨rfl, b.margins⟩) (k.legal b) k.ran

theorem Ok.stored (k : Ok C cfg m0 x) : Stored x.st.holder := (run_stored cfg x.done _ x.st (begin_stored m0) k.ran).1

theorem Ok.inRange (b : Base C cfg m0 name) (k : Ok C cfg m0 x) (p) (hp : p ∈ C66.all m0 x.done) : InRange m0 p.1 := by
  obtain ⟨calls, -, f⟩ := C66.history b.setting (Or.inl rfl) x.done x.st (k.legal b) k.ran
  obtain ⟨a, -, h⟩ := C66.forall₂_right f p hp
  exact h.range

theorem Ok.varIds (b : Base C cfg m0 name) (k : Ok C cfg m0 x) : x.st.model.varIds = m0.varIds := by
  obtain ⟨q, i⟩ := k.inv b
  obtain ⟨l, g, -, st⟩ := i.stat
  exact st.varIds

/-- The stored incumbents are known. -/
theorem Ok.known (b : Base C cfg m0 name) (k : Ok C cfg m0 x) (d : Dense)
    (hd : x.st.holder.globalSol = some d ∨ x.st.holder.localSol = some d) :
    Known m0 name x.done (d.toSparse name x.st.model.varIds) := by
  rw [k.varIds b]
  refine Known.ofDense b.names (C75.incumbents_were_visited b.setting x.done (k.legal b) x.st k.ran d ?_)
  rcases hd with hd | hd
  · exact Or.inl hd
  · exact Or.inr (Or.inl hd)

theorem Ok.append (b : Base C cfg m0 name) (k : Ok C cfg m0 x) (es : List Event) (hf : Follows C cfg (pastOf x.done) x.st es)
    (hst : ∀ c d post, es = c ++ Event.start d :: post → ∃ p ∈ C66.all m0 (x.done ++ c), Agree m0 d.values p.1)
    (hrel : ∀ low, Event.relax low ∈ es → cfg.sels = []) :
    ∃ s, run cfg es x.st = some s ∧ Ok C cfg m0 ⟨s, x.done ++ es⟩ := by
  have f : Follows C cfg [] (begin m0) (x.done ++ es) := follows_append C cfg x.done es [] _ k.follows fun s' e => by
    rw [k.ran] at e
    obtain rfl := Option.some.inj e
    exact hf
  have st : ∀ pre d post, x.done ++ es = pre ++ Event.start d :: post → ∃ p ∈ C66.all m0 pre, Agree m0 d.values p.1 := by
    intro pre d post e
    rcases List.append_eq_append_iff.1 e with ⟨c, h1, h2⟩ | ⟨c, h1, h2⟩
    · rw [h1]; exact hst c d post h2
    · cases c with
      | nil =>
        rw [List.append_nil] at h1
        rw [← h1]
        obtain ⟨p, hp, ha⟩ := hst [] d post h2.symm
        rw [List.append_nil] at hp
        exact ⟨p, hp, ha⟩
      | cons a c =>
        rw [List.cons_append, List.cons.injEq] at h2
        exact k.starts pre d c (by rw [h1, ← h2.1])
  have r : ∀ low, Event.relax low ∈ x.done ++ es → cfg.sels = [] := by
    intro low h
    rcases List.mem_append.1 h with h | h
    · exact k.relaxes low h
    · exact hrel low h
  obtain ⟨⟨r', m', e1⟩, -⟩ := Ok.ends b _ f st r
  obtain ⟨s, e2, -⟩ := Option.bind_eq_some_iff.1 e1
  refine ⟨s, ?_, ⟨e2, f, st, r⟩⟩
  rw [run_append, k.ran] at e2
  exact e2

/-- A start from a known solution succeeds. -/
theorem Ok.start (b : Base C cfg m0 name) (k : Ok C cfg m0 x) (cur : Sparse) (hk : Known m0 name x.done cur) :
    ∃ d s, startFrom name cfg cur x.st = some (d, s) ∧ Ok C cfg m0 ⟨s, x.done ++ [.start d]⟩ ∧
      s.holder.localObj.isSome = true := by
  obtain ⟨e, p, hp, ha, hc⟩ := hk
  obtain ⟨q, i⟩ := k.inv b
  obtain ⟨l, g, -, st⟩ := i.stat
  have hr := k.inRange b p hp
  have hg := (Ok.ends b x.done k.follows k.starts k.relaxes).2 p hp
  obtain ⟨m1, hm⟩ := C66.import_accepts b.setting st e b.fits.deps q.1 i.agree i.range
    (C75.start_good b.setting b.fits e p.1 q.1 hg hr ha)
  have nd : ∀ v, (m0.var v).fixed = true → v ∉ m0.dependents.map Prod.fst := fun v hf hd => by
    rw [b.depFree v hd] at hf; exact absurd hf (by decide)
  have hv : ∀ v, v ∉ m0.dependents.map Prod.fst → (v ∉ m0.varIds ∨ (m0.var v).fixed = true) →
      (x.st.model.var v).value = p.1 v := fun v h1 h2 => by
    rw [hr.fixed v h1 h2, ← i.range.fixed v h1 h2]
    exact i.agree v h1
  obtain ⟨s1, h1, h2, h3, h4⟩ := startFrom_eq (name := name) (cur := cur) b.setting st (k.settled b) b.depFree hc (fun v hvm hf => by
    rw [hv v (nd v hf) (Or.inr hf)]; exact (ha v (nd v hf)).symm) hm
  have hag : Agree m0 (exportDense m1).values p.1 := by
    intro v hvd
    by_cases hvm : v ∈ m0.varIds
    · rw [h3 v hvm]; exact ha v hvd
    · rw [h4 v hvm]; exact hv v hvd (Or.inl hvm)
  obtain ⟨s, e1, e2⟩ := k.append b [.start (exportDense m1)] ⟨trivial, fun _ _ => trivial⟩ (fun c d post e => by
    match c, e with
    | [], e =>
      simp only [List.nil_append, List.cons.injEq, Event.start.injEq] at e
      rw [← e.1]
      exact ⟨p, by simpa using hp, hag⟩
    | [_], e => simp at e
    | _ :: _ :: _, e => simp at e) (by simp)
  have es : s = s1 := by
    have : (step cfg x.st (.start (exportDense m1))).bind (run cfg []) = some s := e1
    rw [h2] at this
    exact (Option.some.inj this).symm
  subst es
  exact ⟨_, s, h1, e2, (step_stored cfg x.st s _ k.stored h2).2 (Or.inr ⟨_, rfl⟩)⟩

/-- A search that starts from a known solution comes to its end. -/
theorem Ok.search (b : Base C cfg m0 name) (k : Ok C cfg m0 x) (cur : Sparse) (hk : Known m0 name x.done cur) (body : List Event)
    (hf : PhaseObeys C name cfg cur body x) (hb : ∀ d, Event.start d ∉ body) (hrel : ∀ low, Event.relax low ∈ body → cfg.sels = []) :
    ∃ d s s', startFrom name cfg cur x.st = some (d, s) ∧ run cfg body s = some s' ∧
      Ok C cfg m0 ⟨s', x.done ++ (.start d :: body)⟩ ∧ s'.holder.localObj.isSome = true := by
  obtain ⟨d, s, h1, k1, hl⟩ := k.start b cur hk
  obtain ⟨s', h2, k2⟩ := k1.append b body (by rw [pastOf_start]; exact hf d s h1)
    (fun c d' post e => absurd (show Event.start d' ∈ body by rw [e]; simp) (hb d')) hrel
  refine ⟨d, s, s', h1, h2, ?_, (run_stored cfg body s s' k1.stored h2).2 hl⟩
  rw [List.append_assoc] at k2
  exact k2

theorem OnlyMoves.noStart {es : List Event} (h : OnlyMoves es) (d : Dense) : Event.start d ∉ es := fun hm => by
  obtain ⟨mv, r, e⟩ := h _ hm; exact absurd e (by simp)

theorem OnlyMoves.noRelax {es : List Event} (h : OnlyMoves es) (low) : Event.relax low ∉ es := fun hm => by
  obtain ⟨mv, r, e⟩ := h _ hm; exact absurd e (by simp)

theorem OnlyRelaxes.noStart {es : List Event} (h : OnlyRelaxes es) (d : Dense) : Event.start d ∉ es := fun hm => by
  obtain ⟨mv, e⟩ := h _ hm; exact absurd e (by simp)

theorem OnlyRelaxes.follows {es : List Event} (h : OnlyRelaxes es) : ∀ past s, Follows C cfg past s es := by
  induction es with
  | nil => intro past s; trivial
  | cons e es ih =>
    intro past s
    obtain ⟨low, rfl⟩ := h e (by simp)
    exact ⟨trivial, fun s1 _ => ih (fun e' he => h e' (by simp [he])) _ _⟩

/-- Lagrange dual and local search. -/
theorem Ok.optional (b : Base C cfg m0 name) (k : Ok C cfg m0 x) (cur : Sparse) (hk : Known m0 name x.done cur)
    (body : Option (List Event)) (hf : ∀ es, body = some es → PhaseObeys C name cfg cur es x ∧ (∀ d, Event.start d ∉ es) ∧
      ∀ low, Event.relax low ∈ es → cfg.sels = []) :
    ∃ r, Ctl.optional name cfg cur body x = some r ∧ Ok C cfg m0 r.2 ∧ Known m0 name r.2.done r.1 := by
  cases body with
  | none => exact ⟨(cur, x), rfl, k, hk⟩
  | some es =>
    obtain ⟨h1, h2, h3⟩ := hf es rfl
    obtain ⟨d, s, s', e1, e2, k1, -⟩ := k.search b cur hk es h1 h2 h3
    obtain ⟨g, hg⟩ := Option.isSome_iff_exists.1 k1.stored.sol
    have hg' : s'.holder.globalSol = some g := hg
    refine ⟨(g.toSparse name s'.model.varIds, ⟨s', x.done ++ (.start d :: es)⟩), ?_, k1, k1.known b g (Or.inl hg)⟩
    show phase name cfg cur es x = _
    unfold phase
    rw [e1, Option.bind_some]
    dsimp only
    rw [e2, Option.bind_some, hg']
    rfl

/-- The rules always say from where to start next. -/
theorem flags_use (o : Opt) (outer inner : Bool) (f : Facts) :
    let fl := withReset o outer inner (match o.mode with | .simple => flagsSimple f | .smart => flagsSmart f)
    fl.useGlobal = true ∨ fl.useLocal = true ∨ fl.usePrevious = true := by
  intro fl
  have key : ∀ g : Flags, (g.useGlobal = true ∨ g.useLocal = true ∨ g.usePrevious = true) →
      (withReset o outer inner g).useGlobal = true ∨ (withReset o outer inner g).useLocal = true ∨
        (withReset o outer inner g).usePrevious = true := by
    intro g hg
    unfold withReset
    split
    · split
      · exact Or.inl rfl
      · exact hg
    · exact hg
  refine key _ ?_
  cases o.mode
  · dsimp only; unfold flagsSimple; split_ifs <;> simp
  · dsimp only; unfold flagsSmart; split_ifs <;> simp

theorem update_known (k : Ok C cfg m0 x) (b : Base C cfg m0 name) (o : Opt) (hl : x.st.holder.localObj.isSome = true) (status : ℕ)
    (lap : Lap) (c : State) (hk : Known m0 name x.done c.current) :
    ∃ fl c', update name x.st.model.varIds o x.st.holder status lap c = some (fl, c') ∧ Known m0 name x.done c'.current := by
  have st := k.stored
  obtain ⟨d, hd⟩ := Option.isSome_iff_exists.1 (st.loc hl).1
  obtain ⟨sc, hsc⟩ := Option.isSome_iff_exists.1 (st.loc hl).2
  obtain ⟨lo, hlo⟩ := Option.isSome_iff_exists.1 hl
  obtain ⟨go, hgo⟩ := Option.isSome_iff_exists.1 st.obj
  obtain ⟨g, hg⟩ := Option.isSome_iff_exists.1 st.sol
  have hF : ∃ F, facts x.st.holder status lap.range c.current = some F := by
    unfold facts
    rw [hgo, hlo, hsc, hd]
    exact ⟨_, rfl⟩
  obtain ⟨F, hF⟩ := hF
  have gen : ∀ (fl : Flags) (K : Sparse → Flags × State), (∀ d, (K d).2.current = d) →
      (fl.useGlobal = true ∨ fl.useLocal = true ∨ fl.usePrevious = true) →
      ∃ f' c', (nextSolution name x.st.model.varIds x.st.holder c.current fl).map K = some (f', c') ∧
        Known m0 name x.done c'.current := by
    intro fl K hK hu
    have : ∃ cur, nextSolution name x.st.model.varIds x.st.holder c.current fl = some cur ∧ Known m0 name x.done cur := by
      unfold nextSolution
      by_cases h1 : fl.useGlobal = true
      · exact ⟨g.toSparse name x.st.model.varIds, by rw [if_pos h1, hg]; rfl, k.known b g (Or.inl hg)⟩
      · rw [if_neg h1]
        by_cases h2 : fl.useLocal = true
        · exact ⟨d.toSparse name x.st.model.varIds, by rw [if_pos h2, hd]; rfl, k.known b d (Or.inr hd)⟩
        · rw [if_neg h2]
          have h3 : fl.usePrevious = true := by
            rcases hu with h | h | h
            · exact absurd h h1
            · exact absurd h h2
            · exact h
          exact ⟨c.current, if_pos h3, hk⟩
    obtain ⟨cur, e, hcur⟩ := this
    rw [e]
    exact ⟨(K cur).1, (K cur).2, rfl, by rw [hK]; exact hcur⟩
  unfold update
  rw [hF, Option.bind_some]
  exact gen _ _ (fun _ => rfl) (flags_use o _ _ F)

/-- One round of tabu search. -/
theorem Ok.lap (b : Base C cfg m0 name) (k : Ok C cfg m0 x) (o : Opt) (ho : o.bounding = false) (c : State)
    (hk : Known m0 name x.done c.current) (lap : Lap) (hm : OnlyMoves lap.body) (hp : ∀ i, 0 ≤ lap.less i ∧ 0 ≤ lap.greater i)
    (hf : PhaseObeys C name cfg c.current lap.body x) :
    ∃ r, lapStep name cfg o lap c x = some r ∧ Ok C cfg m0 r.2 ∧ Known m0 name r.2.done r.1.current := by
  obtain ⟨d, s, s', e1, e2, k1, hl⟩ := k.search b c.current hk lap.body hf hm.noStart (fun low h => absurd h (hm.noRelax low))
  obtain ⟨t, e3⟩ := runStatus_run cfg lap.body s s' 0 e2
  have e4 : bound o c s' = some s' := by
    unfold bound Online.onlineBounding
    rw [ho]
    rfl
  obtain ⟨fl, c', e5, kn⟩ := update_known k1 b o hl t lap c (hk.mono _)
  obtain ⟨s2, e6, k2⟩ := k1.append b [.penalties lap.less lap.greater] ⟨hp, fun _ _ => trivial⟩ (fun c d' post e => by
    have : Event.start d' ∈ [Event.penalties lap.less lap.greater] := by rw [e]; simp
    simp at this) (by simp)
  have e7 : step cfg s' (.penalties lap.less lap.greater) = some s2 := by
    have : (step cfg s' (.penalties lap.less lap.greater)).bind (run cfg []) = some s2 := e6
    exact this
  refine ⟨(c', ⟨s2, x.done ++ (.start d :: lap.body) ++ [.penalties lap.less lap.greater]⟩), ?_, k2, kn.mono _⟩
  have e5' : update name s'.model.varIds o s'.holder t lap c = some (fl, c') := e5
  unfold lapStep
  rw [e1, Option.bind_some]
  dsimp only
  rw [e3, Option.bind_some]
  dsimp only
  rw [e4, Option.bind_some, e5', Option.bind_some, e7]
  rfl

/-- Without the bounding no variable is fixed, and the neighbourhood stays as it is. -/
theorem Ok.stays (b : Base C cfg m0 name) (k : Ok C cfg m0 x) : Ctl.renew C.recent x.st.model = C.recent := by
  obtain ⟨q, hq⟩ := k.inv b
  obtain ⟨l, g, -, st⟩ := hq.stat
  unfold Ctl.renew
  rw [if_neg]
  rw [Bool.not_eq_true, List.any_eq_false]
  intro v _ h
  simp only [Bool.and_eq_true, Bool.not_eq_true'] at h
  have h1 := b.fits.fixed v
  rw [C66.stat_fixed st, ← h1, ← b.fits.recent] at h
  rw [h.1] at h
  exact absurd h.2 (by decide)

theorem Ok.laps (b : Base C cfg m0 name) (o : Opt) (ho : o.bounding = false) (ls : List Lap) : ∀ (c : State) (x : Sofar),
    Ok C cfg m0 x → Known m0 name x.done c.current → LapsObey name cfg o C ls c x →
    ∃ x', Ctl.laps name cfg o ls c x = some x' ∧ Ok C cfg m0 x' := by
  induction ls with
  | nil => intro c x k _ _; exact ⟨x, rfl, k⟩
  | cons lap ls ih =>
    intro c x k hk ⟨h1, h2, h3, h4⟩
    obtain ⟨r, e, k1, k2⟩ := k.lap b o ho c hk lap h1 h2 h3
    have hC : { C with recent := Ctl.renew C.recent r.2.st.model } = C := by rw [k1.stays b]
    have h5 := h4 r e
    rw [hC] at h5
    obtain ⟨x', e', k3⟩ := ih r.1 r.2 k1 k2 h5
    exact ⟨x', by unfold Ctl.laps; rw [e]; exact e', k3⟩

/-- All searches of a call. -/
theorem searches_ok (b : Base C cfg m0 name) (o : Opt) (ho : o.bounding = false)
    (hsel : applicable m0 = true → cfg.sels = []) (pl : Plan)
    (hob : Obeys C name cfg o m0 pl) : ∃ x, searches name cfg o m0 pl = some x ∧ Ok C cfg m0 x := by
  have k0 : Ok C cfg m0 ⟨begin m0, []⟩ := ⟨rfl, trivial, by simp, by simp⟩
  have n0 : Known m0 name [] (firstSolution name m0) := by
    have st := (C66.stat_refl m0)
    refine Known.ofDense b.names ⟨(assignment m0, 0), by simp [C66.all], update_agree st⟩
  obtain ⟨h1, h2⟩ := hob
  obtain ⟨p, e1, k1, n1⟩ := k0.optional b _ n0 (if applicable m0 then pl.lagrange else none) (fun es h => by
    split at h
    · rename_i ha
      exact ⟨fun d s _ => (h1 es h).follows _ _, (h1 es h).noStart, fun _ _ => hsel ha⟩
    · exact absurd h (by simp))
  obtain ⟨h3, h4⟩ := h2 p e1
  obtain ⟨q, e2, k2, n2⟩ := k1.optional b _ n1 pl.localSearch (fun es h =>
    ⟨(h3 es h).2, (h3 es h).1.noStart, fun low hl => absurd hl ((h3 es h).1.noRelax low)⟩)
  obtain ⟨x, e3, k3⟩ := Ok.laps b o ho pl.laps { current := q.1 } q.2 k2 n2 (h4 q e2)
  refine ⟨x, ?_, k3⟩
  unfold searches
  rw [e1, Option.bind_some, e2, Option.bind_some]
  exact e3

end

end Printemps.Ctl
