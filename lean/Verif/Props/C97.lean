import Verif.Model.Table
import Verif.Props.C66

/-! # C97: the tables printed during a search

A row printed after an event shows the objective and the violation of the assignment reached, and those of an assignment met so
far whose augmented objective is the best; a row is marked `*` exactly for a new best feasible solution, and no new best
feasible solution passes without a row. -/

namespace Printemps.C97
open Spec Search Sol Table
open C66 (Setting LegalEvent visitOf Describes Inv next added)

/-! ## Specification -/

/-- The assignments met until the end of the first `k` events. -/
def met (m : MState) (es : List Entry) (k : ℕ) : List (ℕ → ℤ) :=
  (C66.all m ((es.take k).map Entry.event)).map Prod.fst

/-- The objective function as the user wrote it (0 without objective). -/
def userObjective (m : MState) (σ : ℕ → ℤ) : ℚ := if m.objDefined then exprValue m.obj σ else 0

/-- Feasible up to the tolerance of the solver. -/
def Feasible (m : MState) (σ : ℕ → ℤ) : Prop := totalViolation m σ ≤ 1e-5

/-- The augmented objective: objective (as minimized) plus penalized violation. -/
def augmented (m : MState) (σ : ℕ → ℤ) : ℚ := minObjective m σ + totalViolation m σ * m.globalPen

/-- The iterations made in the table to which the `k`-th event belongs. -/
def iterations (es : List Entry) (k : ℕ) : ℕ :=
  ((es.take k).reverse.takeWhile (fun e => e.shows ≠ .first)).countP (fun e => e.shows = .iteration)

/-- The event of an iteration: a move or a relaxation. -/
def Accepts : Event → Prop
  | .move _ _ => True
  | .relax _ => True
  | _ => False

/-! ## The history of a run -/

theorem getLast?_next (m : MState) (q : (ℕ → ℤ) × ℕ) (l : List ((ℕ → ℤ) × ℕ)) (h : l.getLast? = some q) (v : Visit) :
    (l ++ added m q v).getLast? = some (next m q v) := by
  cases v <;> simp [added, next, h]

theorem visited_append (m : MState) (vs : List Visit) (v : Visit) (q : (ℕ → ℤ) × ℕ) (p : (ℕ → ℤ) × ℕ)
    (h : (q :: visited m q vs).getLast? = some p) : visited m q (vs ++ [v]) = visited m q vs ++ added m p v := by
  induction vs generalizing q with
  | nil =>
    obtain rfl : q = p := by simpa [visited] using h
    rw [List.nil_append, C66.visited_cons]; simp [visited]
  | cons w vs ih =>
    rw [List.cons_append, C66.visited_cons, C66.visited_cons, ih (next m q w), List.append_assoc]
    rw [C66.visited_cons] at h
    cases w <;> simpa [added, next] using h

theorem all_append (m : MState) (es : List Event) (ev : Event) (p : (ℕ → ℤ) × ℕ) (h : (C66.all m es).getLast? = some p) :
    C66.all m (es ++ [ev]) = C66.all m es ++ added m p (visitOf ev) := by
  unfold C66.all
  rw [List.map_append, List.map_singleton, visited_append m _ _ _ p h]; rfl

/-- What is known of a state, given the assignments met. -/
structure Known (m0 : MState) (s : St) (L : List ((ℕ → ℤ) × ℕ)) (q : (ℕ → ℤ) × ℕ) : Prop where
  last : L.getLast? = some q
  inv : Inv m0 0 s q
  feas : s.cur.isFeasible = true ↔ s.cur.totalViolation ≤ 1e-5
  hist : ∃ calls : List (HolderCall Dense), s.holder = C11.after calls ∧ List.Forall₂ (Describes m0 0) (C11.offers calls) L

theorem step_known {m0 : MState} {cfg : Cfg} (hs : Setting cfg m0) (he : Err m0 0) (s s' : St) (L) (q)
    (hk : Known m0 s L q) (ev : Event) (hle : LegalEvent cfg m0 ev) (h : step cfg s ev = some s') :
    Known m0 s' (L ++ added m0 q (visitOf ev)) (next m0 q (visitOf ev)) := by
  obtain ⟨i1, cs, e1, f1⟩ := C66.step_inv hs he s s' q hk.inv ev hle h
  obtain ⟨calls, e2, f2⟩ := hk.hist
  refine ⟨getLast?_next m0 q L hk.last _, i1, ?_, calls ++ cs, ?_, ?_⟩
  · cases ev with
    | start d =>
      obtain ⟨m1, h1, h2⟩ := Option.map_eq_some_iff.1 h
      obtain ⟨⟨l, g, hn, st⟩, hl, hag, hr, ho, hv⟩ := hk.inv
      obtain ⟨st1, ag1, r1, -⟩ := C66.import_facts hs st d h1 q.1 hag hr
      obtain ⟨-, i2, -⟩ := C66.full_inv (e := 0) hs.wf hs.noDep s.holder.resetLocal hn st1.update
        (update_live m1 (hs.noDep.of_stat st1).uexpr) _ (Agree.trans (update_agree st1) ag1) r1
      rw [← h2]; exact i2
    | move mv ren =>
      obtain rfl := Option.some.inj h
      exact (C66.move_inv hs he s q hk.inv mv ren hle s.holder).2.1
    | relax low =>
      obtain rfl := Option.some.inj h
      obtain ⟨⟨l, g, hn, st⟩, hl, hag, hr, ho, hv⟩ := hk.inv
      obtain ⟨st1, ag1, r1⟩ := C66.relax_facts hs st low q.1 hag hr
      exact (C66.full_inv (e := 0) hs.wf hs.noDep s.holder hn st1.update
        (update_live _ (hs.noDep.of_stat st1).uexpr) _ (Agree.trans (update_agree st1) ag1) r1).2.1
    | penalties l' g' =>
      obtain rfl := Option.some.inj h
      exact hk.feas
  · rw [e1, e2]; simp [C11.after, List.foldl_append]
  · rw [C11.offers_append]; exact List.rel_append f2 f1

theorem begin_known {m0 : MState} {cfg : Cfg} (hs : Setting cfg m0) :
    Known m0 (begin m0) (C66.all m0 []) (assignment m0, 0) := by
  obtain ⟨i1, d, sc, e1, f1⟩ := C66.begin_inv (e := 0) hs
  have hr : InRange m0 (assignment m0) := ⟨fun _ _ _ => rfl, fun v hm hd hf => hs.start v hm hd hf⟩
  have i2 := (C66.full_inv (e := 0) hs.wf hs.noDep (begin m0).holder hs.pen (C66.stat_refl m0).update
    (update_live _ hs.noDep.uexpr) _ (update_agree (C66.stat_refl m0)) hr).2.1
  exact ⟨rfl, i1, i2, [.offer d sc], e1, List.Forall₂.cons f1 List.Forall₂.nil⟩

theorem run_append (cfg : Cfg) (es : List Event) (ev : Event) (s : St) :
    run cfg (es ++ [ev]) s = (run cfg es s).bind (fun s1 => step cfg s1 ev) := by
  induction es generalizing s with
  | nil => simp only [List.nil_append, run, Option.bind_some]; cases step cfg s ev <;> rfl
  | cons e es ih =>
    simp only [List.cons_append, run]
    cases step cfg s e with
    | none => rfl
    | some s1 => simp only [Option.bind_some]; exact ih s1

theorem run_known {m0 : MState} {cfg : Cfg} (hs : Setting cfg m0) (he : Err m0 0) (es : List Event) :
    ∀ s, (∀ ev ∈ es, LegalEvent cfg m0 ev) → run cfg es (begin m0) = some s → ∃ q, Known m0 s (C66.all m0 es) q := by
  induction es using List.reverseRecOn with
  | nil => intro s _ h; obtain rfl := Option.some.inj h; exact ⟨_, begin_known hs⟩
  | append_singleton es ev ih =>
    intro s hle h
    rw [run_append] at h
    obtain ⟨s1, h1, h2⟩ := Option.bind_eq_some_iff.1 h
    obtain ⟨q, hk⟩ := ih s1 (fun e he => hle e (by simp [he])) h1
    rw [all_append m0 es ev q hk.last]
    exact ⟨_, step_known hs he s1 s _ q hk ev (hle ev (by simp)) h2⟩

/-- The row at position `k`: the states before and after the event, and the number of iterations. -/
theorem table_at (cfg : Cfg) (es : List Entry) (it : ℕ) (s : St) (rows : List (Option Row))
    (h : table cfg es it s = some rows) (k : ℕ) (r : Option Row) (hk : rows[k]? = some r) :
    ∃ e s1 s2, es[k]? = some e ∧ run cfg ((es.take k).map Entry.event) s = some s1 ∧
      step cfg s1 e.event = some s2 ∧ r = rowOf cfg ((es.take k).foldl nextIteration it) s1 e s2 := by
  induction es generalizing it s rows k with
  | nil => obtain rfl := Option.some.inj h; simp at hk
  | cons e es ih =>
    obtain ⟨s', h1, h2⟩ := Option.bind_eq_some_iff.1 h
    obtain ⟨rs, h3, rfl⟩ := Option.map_eq_some_iff.1 h2
    cases k with
    | zero =>
      refine ⟨e, s, s', rfl, rfl, h1, ?_⟩
      simpa using hk.symm
    | succ k =>
      obtain ⟨e', s1, s2, a1, a2, a3, a4⟩ := ih _ _ _ h3 k (by simpa using hk)
      refine ⟨e', s1, s2, by simpa using a1, ?_, a3, by simpa using a4⟩
      simp only [List.take_succ_cons, List.map_cons, run, h1, Option.bind_some]
      exact a2

theorem iterations_eq (es : List Entry) (k : ℕ) : (es.take k).foldl nextIteration 0 = iterations es k := by
  unfold iterations
  generalize es.take k = l
  induction l using List.reverseRecOn with
  | nil => rfl
  | append_singleton l e ih =>
    rw [List.foldl_append, List.foldl_cons, List.foldl_nil, ih, List.reverse_append, List.reverse_singleton,
      List.singleton_append, List.takeWhile_cons]
    cases h : e.shows <;> simp [nextIteration, h]

theorem table_length (cfg : Cfg) (es : List Entry) (it : ℕ) (s : St) (rows : List (Option Row))
    (h : table cfg es it s = some rows) : rows.length = es.length := by
  induction es generalizing it s rows with
  | nil => obtain rfl := Option.some.inj h; rfl
  | cons e es ih =>
    obtain ⟨s', h1, h2⟩ := Option.bind_eq_some_iff.1 h
    obtain ⟨rs, h3, rfl⟩ := Option.map_eq_some_iff.1 h2
    simp [ih _ _ _ h3]

/-- The states around the `k`-th event, with what is known of them. -/
theorem around {m0 : MState} {cfg : Cfg} (hs : Setting cfg m0) (he : Err m0 0) (es : List Entry)
    (hle : ∀ e ∈ es, LegalEvent cfg m0 e.event) (rows : List (Option Row))
    (h : table cfg es 0 (begin m0) = some rows) (k : ℕ) (r : Option Row) (hk : rows[k]? = some r) :
    ∃ e s1 s2 q, es[k]? = some e ∧ Known m0 s1 (C66.all m0 ((es.take k).map Entry.event)) q ∧
      step cfg s1 e.event = some s2 ∧ r = rowOf cfg (iterations es k) s1 e s2 ∧
      Known m0 s2 (C66.all m0 ((es.take (k + 1)).map Entry.event)) (next m0 q (visitOf e.event)) ∧
      C66.all m0 ((es.take (k + 1)).map Entry.event) =
        C66.all m0 ((es.take k).map Entry.event) ++ added m0 q (visitOf e.event) := by
  obtain ⟨e, s1, s2, a1, a2, a3, a4⟩ := table_at cfg es 0 _ rows h k r hk
  have hle' : ∀ ev ∈ (es.take k).map Entry.event, LegalEvent cfg m0 ev := by
    intro ev hev
    obtain ⟨e', he', rfl⟩ := List.mem_map.1 hev
    exact hle e' (List.mem_of_mem_take he')
  obtain ⟨q, hq⟩ := run_known hs he _ s1 hle' a2
  have htake : (es.take (k + 1)).map Entry.event = (es.take k).map Entry.event ++ [e.event] := by
    rw [List.take_add_one, a1]; simp
  rw [iterations_eq] at a4
  have hall := all_append m0 _ e.event q hq.last
  refine ⟨e, s1, s2, q, a1, hq, a3, a4, ?_, by rw [htake, hall]⟩
  rw [htake, hall]
  exact step_known hs he s1 s2 _ q hq e.event (hle e (List.mem_of_getElem? a1)) a3

/-! ## The numbers of a row -/

theorem sign_obj {m0 : MState} {s : St} {q} (hi : Inv m0 0 s q) (σ) : minObjective m0 σ * sign s.model = userObjective m0 σ := by
  obtain ⟨⟨l, g, -, st⟩, -⟩ := hi
  have hm : s.model.isMin = m0.isMin := st.shape.isMin
  unfold minObjective sign userObjective
  rw [hm]
  cases m0.objDefined <;> cases m0.isMin <;> simp

theorem sign_eq {m0 : MState} {s : St} {q} (hi : Inv m0 0 s q) : sign s.model = sign m0 := by
  obtain ⟨⟨l, g, -, st⟩, -⟩ := hi
  have hm : s.model.isMin = m0.isMin := st.shape.isMin
  unfold sign; rw [hm]

theorem tv_exact {m0 : MState} {x : ℚ} {σ : ℕ → ℤ} {n : ℕ} (h : |x - totalViolation m0 σ| ≤ n * (0 : ℚ)) :
    x = totalViolation m0 σ := by
  rw [mul_zero] at h
  have := abs_nonpos_iff.1 h
  linarith

theorem plain_row {m0 : MState} {s : St} {L q} (hk : Known m0 s L q) :
    (plain s).objective = userObjective m0 q.1 ∧
    (Feasible m0 q.1 → (plain s).violation = 0) ∧ (¬ Feasible m0 q.1 → (plain s).violation = totalViolation m0 q.1) ∧
    ∃ p ∈ L, (plain s).incObjective = userObjective m0 p.1 ∧ (plain s).incViolation = totalViolation m0 p.1 * sign m0 ∧
      ∀ p' ∈ L, augmented m0 p.1 ≤ augmented m0 p'.1 + 1e-5 := by
  have hv := tv_exact hk.inv.violation
  have hf : s.cur.isFeasible = true ↔ Feasible m0 q.1 := by rw [hk.feas, hv]; rfl
  refine ⟨?_, fun h => ?_, fun h => ?_, ?_⟩
  · show s.cur.objective * sign s.model = _
    rw [hk.inv.objective, sign_obj hk.inv]
  · show (if s.cur.isFeasible then (0 : ℚ) else s.cur.totalViolation) = 0
    rw [if_pos (hf.2 h)]
  · show (if s.cur.isFeasible then (0 : ℚ) else s.cur.totalViolation) = _
    rw [if_neg (fun hh => h (hf.1 hh)), hv]
  · obtain ⟨calls, e1, f1⟩ := hk.hist
    have hb := C11.global_incumbent_is_best calls
    dsimp only at hb
    rcases hb with ⟨-, hnil⟩ | ⟨d, sc, hm, -, -, hsc, hbest⟩
    · rw [hnil] at f1; cases f1
      have := hk.last; simp at this
    · have aug : ∀ a b, Describes m0 0 a b → a.2.globalAug = augmented m0 b.1 := by
        intro a b hd
        rw [hd.augmented, hd.objective, tv_exact hd.violation]; rfl
      obtain ⟨p, hp, hd⟩ := C66.forall₂_left f1 _ hm
      have hg : s.holder.globalScore.getD {} = sc := by rw [e1, hsc]; rfl
      refine ⟨p, hp, ?_, ?_, fun p' hp' => ?_⟩
      · show (s.holder.globalScore.getD {}).objective * sign s.model = _
        rw [hg, hd.objective, sign_obj hk.inv]
      · show (s.holder.globalScore.getD {}).totalViolation * sign s.model = _
        rw [hg, tv_exact hd.violation, sign_eq hk.inv]
      · obtain ⟨a, ha, hda⟩ := C66.forall₂_right f1 _ hp'
        have := hbest a ha
        rw [← aug _ _ hd, ← aug _ _ hda]; exact this

/-- The full property of the numbers of a row (it fails for maximizations, see `incumbent_violation_is_shown_negative`). -/
def ShowsTruth (m0 : MState) (es : List Entry) (k : ℕ) (row : Row) : Prop :=
  ∃ σ, (met m0 es (k + 1)).getLast? = some σ ∧ row.objective = userObjective m0 σ ∧
    (Feasible m0 σ → row.violation = 0) ∧ (¬ Feasible m0 σ → row.violation = totalViolation m0 σ) ∧
    ∃ ρ ∈ met m0 es (k + 1), row.incObjective = userObjective m0 ρ ∧ row.incViolation = totalViolation m0 ρ ∧
      ∀ τ ∈ met m0 es (k + 1), augmented m0 ρ ≤ augmented m0 τ + 1e-5

theorem row_plain (cfg : Cfg) (it : ℕ) (s : St) (e : Entry) (s' : St) (row : Row) (h : rowOf cfg it s e s' = some row) :
    row.objective = (plain s').objective ∧ row.violation = (plain s').violation ∧
      row.incObjective = (plain s').incObjective ∧ row.incViolation = (plain s').incViolation := by
  unfold rowOf at h
  split at h
  · cases h
  · obtain rfl := Option.some.inj h; exact ⟨rfl, rfl, rfl, rfl⟩
  · split at h
    · obtain rfl := Option.some.inj h; exact ⟨rfl, rfl, rfl, rfl⟩
    · cases h

/-- Every row, whatever the search and the problem: the objective shown is that of the assignment just reached; the violation is
0 if this is feasible, otherwise its violation; the incumbent shown is an assignment met so far, with its objective, and
its augmented objective is at most `1e-5` above that of any assignment met so far.  Its violation is shown with the wrong
sign in maximizations. -/
theorem rows_show_what_was_met {m0 : MState} {cfg : Cfg} (hs : Setting cfg m0) (g : ℚ) (hg : 1e-10 < g) (hgrid : OnGrid m0 g)
    (es : List Entry) (hle : ∀ e ∈ es, LegalEvent cfg m0 e.event) (rows : List (Option Row))
    (h : table cfg es 0 (begin m0) = some rows) (k : ℕ) (row : Row) (hk : rows[k]? = some (some row)) :
    ∃ σ, (met m0 es (k + 1)).getLast? = some σ ∧ row.objective = userObjective m0 σ ∧
      (Feasible m0 σ → row.violation = 0) ∧ (¬ Feasible m0 σ → row.violation = totalViolation m0 σ) ∧
      ∃ ρ ∈ met m0 es (k + 1), row.incObjective = userObjective m0 ρ ∧
        row.incViolation = (if m0.isMin then totalViolation m0 ρ else - totalViolation m0 ρ) ∧
        ∀ τ ∈ met m0 es (k + 1), augmented m0 ρ ≤ augmented m0 τ + 1e-5 := by
  obtain ⟨e, s1, s2, q, -, -, -, hr, hk2, -⟩ := around hs (Or.inr ⟨rfl, g, hg, hgrid⟩) es hle rows h k _ hk
  obtain ⟨r1, r2, r3, r4⟩ := row_plain cfg _ s1 e s2 row hr.symm
  obtain ⟨p1, p2, p3, p, hp, p4, p5, p6⟩ := plain_row hk2
  refine ⟨(next m0 q (visitOf e.event)).1, ?_, by rw [r1, p1], fun hf => by rw [r2, p2 hf], fun hf => by rw [r2, p3 hf],
    p.1, List.mem_map_of_mem hp, by rw [r3, p4], ?_, ?_⟩
  · unfold met; rw [List.getLast?_map, hk2.last]; rfl
  · rw [r4, p5]; unfold sign; cases m0.isMin <;> simp
  · intro τ hτ
    obtain ⟨p', hp', rfl⟩ := List.mem_map.1 hτ
    exact p6 p' hp'

/-- In minimizations every row is right in all its numbers. -/
theorem rows_show_the_truth_partial {m0 : MState} {cfg : Cfg} (hs : Setting cfg m0) (g : ℚ) (hg : 1e-10 < g)
    (hgrid : OnGrid m0 g) (hmin : m0.isMin = true) (es : List Entry) (hle : ∀ e ∈ es, LegalEvent cfg m0 e.event)
    (rows : List (Option Row)) (h : table cfg es 0 (begin m0) = some rows) (k : ℕ) (row : Row)
    (hk : rows[k]? = some (some row)) : ShowsTruth m0 es k row := by
  have := rows_show_what_was_met hs g hg hgrid es hle rows h k row hk
  simp only [hmin, if_true] at this
  exact this

/-! ## The marks -/

theorem beats_best {α} (l : List (α × Score)) (key : Score → ℚ) (obj : Option ℚ) (sol : Option α) (score : Option Score)
    (h : C11.BestOf l key obj sol score) (x : ℚ) :
    (beats x obj = true → ∀ p ∈ l, x < key p.2) ∧ ((∀ p ∈ l, x + 1e-5 < key p.2) → beats x obj = true) := by
  rcases h with ⟨rfl, rfl⟩ | ⟨s, sc, hm, rfl, -, -, hb⟩
  · exact ⟨fun _ p hp => absurd hp (by simp), fun _ => rfl⟩
  · simp only [beats, decide_eq_true_eq]
    rw [← C11.eps_eq]
    exact ⟨fun hx p hp => by have := hb p hp; linarith, fun hall => hall _ hm⟩

theorem bits (a b c : Bool) :
    Report.bit 4 ((if a then 1 else 0) + (if b then 2 else 0) + (if c then 4 else 0)) = c ∧
    Report.bit 2 ((if a then 1 else 0) + (if b then 2 else 0) + (if c then 4 else 0)) = b ∧
    (c = true → (if a then 1 else 0) + (if b then 2 else 0) + (if c then 4 else 0) > 1) ∧
    (b = true → (if a then 1 else 0) + (if b then 2 else 0) + (if c then 4 else 0) > 1) := by
  cases a <;> cases b <;> cases c <;> decide

/-- The status of an iteration, in terms of the assignments met. -/
theorem status_facts {m0 : MState} {cfg : Cfg} (hs : Setting cfg m0) (he : Err m0 0) (s s' : St) (L) (q)
    (hk : Known m0 s L q) (ev : Event) (hle : LegalEvent cfg m0 ev) (hacc : Accepts ev) (h : step cfg s ev = some s') :
    let σ := (next m0 q (visitOf ev)).1
    let st := statusOf cfg s ev
    (Report.bit 4 st = true → Feasible m0 σ ∧ ∀ p ∈ L, Feasible m0 p.1 → minObjective m0 σ < minObjective m0 p.1) ∧
    (Feasible m0 σ → (∀ p ∈ L, Feasible m0 p.1 → minObjective m0 σ + 1e-5 < minObjective m0 p.1) →
      Report.bit 4 st = true ∧ st > 1) ∧
    (Report.bit 2 st = true → ∀ p ∈ L, augmented m0 σ < augmented m0 p.1) ∧
    ((∀ p ∈ L, augmented m0 σ + 1e-5 < augmented m0 p.1) → Report.bit 2 st = true ∧ st > 1) ∧
    (Report.bit 4 st = true ∨ Report.bit 2 st = true → st > 1) := by
  intro σ st
  obtain ⟨calls, e1, f1⟩ := hk.hist
  -- the offer of the event
  obtain ⟨d, sc, hst, hd⟩ : ∃ d sc, st = (s.holder.tryUpdate d sc).2 ∧ Describes m0 0 (d, sc) (next m0 q (visitOf ev)) := by
    cases ev with
    | start d => exact absurd hacc id
    | penalties l g => exact absurd hacc id
    | move mv ren =>
      obtain ⟨i1, i2, i3⟩ := C66.move_inv hs he s q hk.inv mv ren hle s.holder
      obtain ⟨-, -, e3⟩ := C11.model_overload_agrees refresh exportDense s.holder (afterMove s.model mv)
        (acceptedScore cfg s.model mv ren s.cur)
      obtain ⟨-, e2, -⟩ := C11.model_overload_agrees refresh exportDense s.holder (afterMove s.model mv)
        (acceptedScore cfg s.model mv ren s.cur)
      obtain ⟨⟨l, g, hn, st'⟩, hl, hag, hr, ho, hv⟩ := i1
      exact ⟨_, _, e2, ⟨Agree.trans (refresh_agree st') hag, hr, ho, hv, i2, i3⟩⟩
    | relax low =>
      obtain ⟨⟨l, g, hn, st0⟩, hl, hag, hr, ho, hv⟩ := hk.inv
      obtain ⟨st1, ag1, r1⟩ := C66.relax_facts hs st0 low q.1 hag hr
      obtain ⟨i1, i2, i3⟩ := C66.full_inv (e := 0) hs.wf hs.noDep s.holder hn st1.update
        (update_live _ (hs.noDep.of_stat st1).uexpr) _ (Agree.trans (update_agree st1) ag1) r1
      obtain ⟨-, e2, -⟩ := C11.model_overload_agrees refresh exportDense s.holder (relaxed s.model low).update
        ((relaxed s.model low).update.evaluateFull { alterations := [] })
      obtain ⟨⟨l', g', hn', st'⟩, hl', hag', hr', ho', hv'⟩ := i1
      exact ⟨_, _, e2, ⟨Agree.trans (refresh_agree st') hag', hr', ho', hv', i2, i3⟩⟩
  have aug : ∀ a b, Describes m0 0 a b → a.2.globalAug = augmented m0 b.1 := by
    intro a b hd
    rw [hd.augmented, hd.objective, tv_exact hd.violation]; rfl
  have fea : ∀ a b, Describes m0 0 a b → (a.2.isFeasible = true ↔ Feasible m0 b.1) := by
    intro a b hd
    rw [hd.feasible, tv_exact hd.violation]; rfl
  obtain ⟨b4, b2, g4, g2⟩ := bits (beats sc.localAug s.holder.localObj) (beats sc.globalAug s.holder.globalObj)
    (sc.isFeasible && beats sc.objective s.holder.feasObj)
  have hst' : st = (if beats sc.localAug s.holder.localObj then 1 else 0) +
      (if beats sc.globalAug s.holder.globalObj then 2 else 0) +
      (if (sc.isFeasible && beats sc.objective s.holder.feasObj) then 4 else 0) := hst
  rw [← hst'] at b4 b2 g4 g2
  obtain ⟨-, hfeas⟩ := C11.feasible_incumbent_is_best calls
  have hglob := C11.global_incumbent_is_best calls
  dsimp only at hfeas hglob
  rw [← e1] at hfeas hglob
  obtain ⟨x1, x2⟩ := beats_best _ _ _ _ _ hfeas sc.objective
  obtain ⟨y1, y2⟩ := beats_best _ _ _ _ _ hglob sc.globalAug
  have ho : sc.objective = minObjective m0 σ := hd.objective
  have ha : sc.globalAug = augmented m0 σ := aug _ _ hd
  have hf : sc.isFeasible = true ↔ Feasible m0 σ := fea _ _ hd
  rw [b4, b2]
  refine ⟨fun hh => ?_, fun hF hall => ?_, fun hh p hp => ?_, fun hall => ?_, fun hh => ?_⟩
  · obtain ⟨z1, z2⟩ := Bool.and_eq_true_iff.1 hh
    refine ⟨hf.1 z1, fun p hp hpf => ?_⟩
    obtain ⟨a, ha', hda⟩ := C66.forall₂_right f1 _ hp
    have := x1 z2 a (List.mem_filter.2 ⟨ha', (fea _ _ hda).2 hpf⟩)
    rw [← ho, ← hda.objective]; exact this
  · have hh : (sc.isFeasible && beats sc.objective s.holder.feasObj) = true := by
      rw [hf.2 hF, Bool.true_and]
      refine x2 fun a ham => ?_
      obtain ⟨ham, haf⟩ := List.mem_filter.1 ham
      obtain ⟨p, hp, hda⟩ := C66.forall₂_left f1 _ ham
      have := hall p hp ((fea _ _ hda).1 haf)
      rw [ho, hda.objective]; exact this
    exact ⟨hh, g4 hh⟩
  · obtain ⟨a, ha', hda⟩ := C66.forall₂_right f1 _ hp
    have := y1 hh a ha'
    rw [← ha, ← aug _ _ hda]; exact this
  · have hh : beats sc.globalAug s.holder.globalObj = true := by
      refine y2 fun a ham => ?_
      obtain ⟨p, hp, hda⟩ := C66.forall₂_left f1 _ ham
      have := hall p hp
      rw [ha, aug _ _ hda]; exact this
    exact ⟨hh, g2 hh⟩
  · rcases hh with hh | hh
    · exact g4 hh
    · exact g2 hh

theorem due_of (e : Entry) (it st : ℕ) (h : st > 1) : due e it st = true := by
  unfold due
  rw [Bool.or_eq_true]
  right
  split <;> simp <;> omega

/-- A row marked `*` announces a new best feasible solution: the assignment reached is feasible, and its objective is strictly
better (in the direction of the problem) than that of every feasible assignment met before.  A row marked `#` or `@` announces a
new best augmented objective; `@` is printed only by tabu search, for a move that was accepted against the tabu status. -/
theorem marks_are_right {m0 : MState} {cfg : Cfg} (hs : Setting cfg m0) (g : ℚ) (hg : 1e-10 < g) (hgrid : OnGrid m0 g)
    (es : List Entry) (hle : ∀ e ∈ es, LegalEvent cfg m0 e.event) (rows : List (Option Row))
    (h : table cfg es 0 (begin m0) = some rows) (k : ℕ) (row : Row) (hk : rows[k]? = some (some row)) (e : Entry)
    (hek : es[k]? = some e) (hacc : Accepts e.event) :
    ∃ σ, (met m0 es (k + 1)).getLast? = some σ ∧
      (row.markCurrent = '*' → Feasible m0 σ ∧
        ∀ τ ∈ met m0 es k, Feasible m0 τ → minObjective m0 σ < minObjective m0 τ) ∧
      (row.markCurrent = '#' ∨ row.markCurrent = '@' → ∀ τ ∈ met m0 es k, augmented m0 σ < augmented m0 τ) ∧
      (row.markCurrent = '@' → e.kind = .tabu ∧ e.aspirated = true) ∧
      (row.markIncumbent ≠ ' ' → row.markIncumbent = row.markCurrent) := by
  have he : Err m0 0 := Or.inr ⟨rfl, g, hg, hgrid⟩
  obtain ⟨e', s1, s2, q, he1, hk1, hst, hr, hk2, -⟩ := around hs he es hle rows h k _ hk
  obtain rfl : e' = e := by rw [he1] at hek; exact Option.some.inj hek
  obtain ⟨f1, -, f3, -, -⟩ := status_facts hs he s1 s2 _ q hk1 e'.event (hle e' (List.mem_of_getElem? he1)) hacc hst
  refine ⟨_, by unfold met; rw [List.getLast?_map, hk2.last]; rfl, ?_⟩
  have hmem : ∀ τ ∈ met m0 es k, ∃ p ∈ C66.all m0 ((es.take k).map Entry.event), p.1 = τ := by
    intro τ hτ; obtain ⟨p, hp, rfl⟩ := List.mem_map.1 hτ; exact ⟨p, hp, rfl⟩
  have hrow : (row.markCurrent = ' ' ∧ row.markIncumbent = ' ') ∨
      (row.markCurrent = (marks e'.kind e'.aspirated (statusOf cfg s1 e'.event)).1 ∧
        row.markIncumbent = (marks e'.kind e'.aspirated (statusOf cfg s1 e'.event)).2) := by
    have hr' := hr.symm
    unfold rowOf at hr'
    split at hr'
    · cases hr'
    · obtain rfl := Option.some.inj hr'; exact Or.inl ⟨rfl, rfl⟩
    · split at hr'
      · obtain rfl := Option.some.inj hr'; exact Or.inr ⟨rfl, rfl⟩
      · cases hr'
  rcases hrow with ⟨h1, h2⟩ | ⟨h1, h2⟩
  · rw [h1, h2]
    exact ⟨fun hh => absurd hh (by decide), fun hh => absurd hh (by decide), fun hh => absurd hh (by decide), fun hh => absurd rfl hh⟩
  · rw [h1, h2]
    unfold marks
    by_cases b4 : Report.bit 4 (statusOf cfg s1 e'.event) = true
    · rw [if_pos b4]
      refine ⟨fun _ => ⟨(f1 b4).1, fun τ hτ hf => ?_⟩, fun hh => absurd hh (by decide), fun hh => absurd hh (by decide), fun _ => rfl⟩
      obtain ⟨p, hp, rfl⟩ := hmem τ hτ
      exact (f1 b4).2 p hp hf
    · rw [if_neg b4]
      by_cases b2 : Report.bit 2 (statusOf cfg s1 e'.event) = true
      · rw [if_pos b2]
        have h2' : ∀ τ ∈ met m0 es k, augmented m0 (next m0 q (visitOf e'.event)).1 < augmented m0 τ := by
          intro τ hτ
          obtain ⟨p, hp, rfl⟩ := hmem τ hτ
          exact f3 b2 p hp
        by_cases ht : e'.kind = .tabu ∧ e'.aspirated = true
        · rw [if_pos ht]
          exact ⟨fun hh => absurd hh (by decide), fun _ => h2', fun _ => ht, fun _ => rfl⟩
        · rw [if_neg ht]
          exact ⟨fun hh => absurd hh (by decide), fun _ => h2', fun hh => absurd hh (by decide), fun _ => rfl⟩
      · rw [if_neg b2]
        split
        · exact ⟨fun hh => absurd hh (by decide), fun hh => absurd hh (by decide), fun hh => absurd hh (by decide), fun hh => absurd rfl hh⟩
        · exact ⟨fun hh => absurd hh (by decide), fun hh => absurd hh (by decide), fun hh => absurd hh (by decide), fun hh => absurd rfl hh⟩

/-- No new best solution passes without a row: if an iteration of a search reaches a feasible assignment that is better by more
than `1e-5` than all feasible assignments met before, it prints a row with the mark `*`; if it reaches an assignment whose
augmented objective is better by more than `1e-5` than all met before, it prints a row with the mark `*`, `#` or `@`. -/
theorem nothing_new_is_hidden {m0 : MState} {cfg : Cfg} (hs : Setting cfg m0) (g : ℚ) (hg : 1e-10 < g) (hgrid : OnGrid m0 g)
    (es : List Entry) (hle : ∀ e ∈ es, LegalEvent cfg m0 e.event) (rows : List (Option Row))
    (h : table cfg es 0 (begin m0) = some rows) (k : ℕ) (e : Entry) (hek : es[k]? = some e) (hacc : Accepts e.event)
    (hsh : e.shows = .iteration) :
    ∃ σ, (met m0 es (k + 1)).getLast? = some σ ∧
      (Feasible m0 σ → (∀ τ ∈ met m0 es k, Feasible m0 τ → minObjective m0 σ + 1e-5 < minObjective m0 τ) →
        ∃ row, rows[k]? = some (some row) ∧ row.markCurrent = '*' ∧ row.markIncumbent = '*') ∧
      ((∀ τ ∈ met m0 es k, augmented m0 σ + 1e-5 < augmented m0 τ) →
        ∃ row, rows[k]? = some (some row) ∧
          (row.markCurrent = '*' ∨ row.markCurrent = '#' ∨ row.markCurrent = '@') ∧ row.markIncumbent = row.markCurrent) := by
  have he : Err m0 0 := Or.inr ⟨rfl, g, hg, hgrid⟩
  have hlt : k < rows.length := by
    rw [table_length cfg es 0 _ rows h]
    exact (List.getElem?_eq_some_iff.1 hek).1
  obtain ⟨e', s1, s2, q, he1, hk1, hst, hr, hk2, -⟩ := around hs he es hle rows h k _ (List.getElem?_eq_getElem hlt)
  obtain rfl : e' = e := by rw [he1] at hek; exact Option.some.inj hek
  obtain ⟨-, f2, -, f4, f5⟩ := status_facts hs he s1 s2 _ q hk1 e'.event (hle e' (List.mem_of_getElem? he1)) hacc hst
  have hrow : statusOf cfg s1 e'.event > 1 → rows[k]? = some (some { plain s2 with
      markCurrent := (marks e'.kind e'.aspirated (statusOf cfg s1 e'.event)).1
      markIncumbent := (marks e'.kind e'.aspirated (statusOf cfg s1 e'.event)).2 }) := by
    intro hgt
    rw [List.getElem?_eq_getElem hlt, hr]
    unfold rowOf
    rw [hsh]
    simp only [due_of e' _ _ hgt, if_true]
  refine ⟨_, by unfold met; rw [List.getLast?_map, hk2.last]; rfl, fun hF hall => ?_, fun hall => ?_⟩
  · obtain ⟨b, hgt⟩ := f2 hF (fun p hp hpf => hall p.1 (List.mem_map_of_mem hp) hpf)
    refine ⟨_, hrow hgt, ?_, ?_⟩ <;> simp [marks, b]
  · obtain ⟨b, hgt⟩ := f4 (fun p hp => hall p.1 (List.mem_map_of_mem hp))
    refine ⟨_, hrow hgt, ?_, ?_⟩
    all_goals
      dsimp only
      unfold marks
      by_cases b4 : Report.bit 4 (statusOf cfg s1 e'.event) = true
      · simp only [b4, if_true, true_or]
      · rw [if_neg b4, if_pos b]; split <;> simp

/-- The first row of a table is always printed, and so is every iteration whose number (from 0, in its table) is a
multiple of the interval. -/
theorem rows_are_printed_in_time (cfg : Cfg) (m0 : MState) (es : List Entry) (rows : List (Option Row))
    (h : table cfg es 0 (begin m0) = some rows) (k : ℕ) (e : Entry) (hek : es[k]? = some e)
    (hdue : e.shows = .first ∨ e.shows = .iteration ∧ max e.interval 1 ∣ (iterations es k : ℤ)) :
    ∃ row, rows[k]? = some (some row) := by
  have hlt : k < rows.length := by
    rw [table_length cfg es 0 _ rows h]
    exact (List.getElem?_eq_some_iff.1 hek).1
  obtain ⟨e', s1, s2, a1, a2, a3, a4⟩ := table_at cfg es 0 _ rows h k _ (List.getElem?_eq_getElem hlt)
  obtain rfl : e' = e := by rw [a1] at hek; exact Option.some.inj hek
  rw [iterations_eq] at a4
  rw [List.getElem?_eq_getElem hlt, a4]
  unfold rowOf
  rcases hdue with h1 | ⟨h1, h2⟩
  · rw [h1]; exact ⟨_, rfl⟩
  · rw [h1]
    have : due e' (iterations es k) (statusOf cfg s1 e'.event) = true := by
      unfold due; rw [Int.emod_eq_zero_of_dvd h2]; simp
    simp only [this, if_true]
    exact ⟨_, rfl⟩

/-! ## Findings and non-vacuity

One integer variable `x` in `[0, 5]`, the constraint `x <= 1`, the objective `20000000 x`, to be maximized (or its negation, to
be minimized), the penalty coefficient `10000000`, the start `x = 3`. -/

private def m0 (minimize : Bool) : MState := MState.setupSens { Example.raw with
  var := fun _ => { Example.int5 with value := 3 }.updateMargin
  varIds := [0]
  conIds := [0]
  con := fun _ => { Con.setup ⟨[(0, 1)], -1, 0⟩ .less (fun _ => .integer) with penLess := 10000000, penGreater := 10000000 }
  uexprIds := []
  dependents := []
  globalPen := 10000000
  isMin := minimize
  objDefined := true
  obj := ⟨[(0, if minimize then -20000000 else 20000000)], 0, 0⟩ }
private def cfg : Cfg := { fast := true, sels := [], selRel := fun _ => [] }
private def goTo (x : ℤ) : Move := { alterations := [(0, x)], related := [0], isUnivariable := true }
private def es : List Entry := [
  ⟨.start ⟨fun _ => 3, 0, 0, 0, false⟩, .tabu, 10, .first, false⟩,
  ⟨.move (goTo 2) false, .tabu, 10, .iteration, false⟩,
  ⟨.move (goTo 3) false, .tabu, 10, .iteration, false⟩,
  ⟨.move (goTo 1) false, .tabu, 10, .iteration, false⟩,
  ⟨.penalties (fun _ => 3) (fun _ => 4), .tabu, 10, .nothing, false⟩,
  ⟨.move (goTo 5) false, .tabu, 10, .iteration, true⟩]

private theorem m0_wf (b : Bool) : WellFormed (m0 b) where
  conIds := by cases b <;> decide
  con c hc := by cases b <;> exact (show ((([(0, (1 : ℚ))] : List (ℕ × ℚ)).map Prod.fst).Nodup) by decide)
  obj := by cases b <;> decide
  uexpr i hi := by cases b <;> exact absurd hi (by simp [m0, MState.setupSens])

private theorem setting (b : Bool) : Setting cfg (m0 b) where
  wf := m0_wf b
  ready := by cases b <;> exact ⟨by decide, by decide, by decide, by decide, by decide, by decide, by decide⟩
  unit := by cases b <;> decide
  kinds := by cases b <;> decide
  start := by cases b <;> decide
  sens v := C07.setupSens_ok _ ⟨(m0_wf b).conIds, (m0_wf b).con, (m0_wf b).obj, (m0_wf b).uexpr⟩ v
  maxLe := by cases b <;> decide +kernel
  maxEq := by cases b <;> decide +kernel
  onlyBin := by cases b <;> decide +kernel
  noDep := by cases b <;> exact ⟨by decide, by decide +kernel, by decide +kernel⟩
  pen c := by
    cases b <;> exact (show (0 : ℚ) ≤ 10000000 ∧ (0 : ℚ) ≤ 10000000 by norm_num)

private theorem grid (b : Bool) : OnGrid (m0 b) 1 := by
  have h1 : ∀ c ∈ (m0 b).conIds, (m0 b).con c = (m0 b).con 0 := fun _ _ => by cases b <;> rfl
  refine ⟨fun c hc _ => ⟨-1, ?_⟩, fun c hc _ t ht => ⟨1, ?_⟩⟩
  · rw [h1 c hc]; cases b <;> decide +kernel
  · rw [h1 c hc] at ht
    have : ∀ t ∈ ((m0 b).con 0).expr.terms, t.2 = 1 := by cases b <;> decide +kernel
    rw [this t ht]; norm_num

private theorem legal (b : Bool) : ∀ e ∈ es, LegalEvent cfg (m0 b) e.event := by
  have cov : ∀ alts, Covers (m0 b) alts [0] := fun alts =>
    ⟨List.Nodup.filter _ (by decide), by cases b <;> decide, fun c hc _ _ => by
      have : c ∈ [0] := by cases b <;> exact hc
      exact this⟩
  have key : ∀ x : ℤ, 0 ≤ x → x ≤ 5 → C66.Legal cfg (m0 b) (goTo x) := fun x h1 h2 =>
    ⟨by simp [goTo], fun a ha => by
      obtain rfl : a = (0, x) := by simpa [goTo] using ha
      have hx : (0 : ℕ) ∈ (m0 b).varIds ∧ (0 : ℕ) ∉ (m0 b).dependents.map Prod.fst ∧ ((m0 b).var 0).fixed = false := by
        cases b <;> decide
      exact ⟨hx.1, hx.2.1, hx.2.2, by cases b <;> exact ⟨h1, h2⟩⟩,
      cov _, fun _ => ⟨0, x, rfl⟩, fun h => absurd h (by simp [goTo])⟩
  intro e he
  simp only [es, List.mem_cons, List.not_mem_nil, or_false] at he
  rcases he with rfl | rfl | rfl | rfl | rfl | rfl
  · trivial
  · exact key 2 (by decide) (by decide)
  · exact key 3 (by decide) (by decide)
  · exact key 1 (by decide) (by decide)
  · intro c; norm_num
  · exact key 5 (by decide) (by decide)

/-- The table of the example in the minimization. -/
private theorem sample_table : table cfg es 0 (begin (m0 true)) = some [
    some { objective := -60000000, violation := 2, incObjective := -60000000, incViolation := 2 },
    some { objective := -40000000, violation := 1, incObjective := -60000000, incViolation := 2 },
    none,
    some { markCurrent := '*', markIncumbent := '*', objective := -20000000, violation := 0, incObjective := -60000000,
           incViolation := 2 },
    none,
    some { markCurrent := '@', markIncumbent := '@', objective := -100000000, violation := 4, incObjective := -100000000,
           incViolation := 4 }] := by decide +kernel

/-- The hypotheses of the theorems above are met by the example, whose table has rows with and without marks. -/
example : Setting cfg (m0 true) ∧ OnGrid (m0 true) 1 ∧ (∀ e ∈ es, LegalEvent cfg (m0 true) e.event) ∧
    (m0 true).isMin = true ∧ ∃ rows, table cfg es 0 (begin (m0 true)) = some rows :=
  ⟨setting _, grid _, legal _, rfl, _, sample_table⟩

/-- The fourth event reaches the first feasible assignment, as `nothing_new_is_hidden` asks. -/
example : (met (m0 true) es 4).map (fun σ => σ 0) = [3, 3, 2, 3, 1] ∧
    ∀ τ ∈ met (m0 true) es 3, ¬ Feasible (m0 true) τ := by
  refine ⟨by decide +kernel, ?_⟩
  have : ∀ τ ∈ met (m0 true) es 3, ¬ totalViolation (m0 true) τ ≤ 1e-5 := by decide +kernel
  exact this

/-- Finding: in a maximization the violation of the incumbent is printed with the opposite sign. -/
theorem incumbent_violation_is_shown_negative :
    ∃ (cfg : Cfg) (m0 : MState) (es : List Entry) (rows : List (Option Row)) (row : Row),
      Setting cfg m0 ∧ OnGrid m0 1 ∧ (∀ e ∈ es, LegalEvent cfg m0 e.event) ∧
      table cfg es 0 (begin m0) = some rows ∧ rows[0]? = some (some row) ∧ row.violation = 2 ∧ row.incViolation = -2 ∧
      ¬ ShowsTruth m0 es 0 row := by
  have hrow : (table cfg es 0 (begin (m0 false))).map (fun rows => rows[0]?) = some (some (some
      { objective := 60000000, violation := 2, incObjective := 60000000, incViolation := -2 })) := by decide +kernel
  obtain ⟨rows, h1, h2⟩ := Option.map_eq_some_iff.1 hrow
  refine ⟨cfg, m0 false, es, rows, _, setting _, grid _, legal _, h1, h2, rfl, rfl, ?_⟩
  rintro ⟨σ, -, -, -, -, ρ, hρ, -, hv, -⟩
  have h3 : ∀ ρ ∈ met (m0 false) es 1, totalViolation (m0 false) ρ = 2 := by decide +kernel
  rw [h3 ρ hρ] at hv
  norm_num at hv

/-- Finding: a row announcing a new best feasible solution may show, as incumbent, a solution that is not feasible: here `x = 3`
(violation 2), although the feasible `x = 1` has just been found. -/
theorem announced_row_shows_infeasible_incumbent :
    ∃ (cfg : Cfg) (m0 : MState) (es : List Entry) (rows : List (Option Row)) (row : Row),
      Setting cfg m0 ∧ OnGrid m0 1 ∧ m0.isMin = true ∧ (∀ e ∈ es, LegalEvent cfg m0 e.event) ∧
      table cfg es 0 (begin m0) = some rows ∧ rows[3]? = some (some row) ∧ row.markIncumbent = '*' ∧
      row.violation = 0 ∧ row.incViolation = 2 ∧ row.incObjective ≠ row.objective :=
  ⟨cfg, m0 true, es, _, _, setting _, grid _, rfl, legal _, sample_table, rfl, rfl, rfl, rfl, by norm_num⟩

end Printemps.C97
