import Verif.Lemmas.Command

/-! # C92: from the command line to the solution file -/

namespace Printemps.C92
open Json Cmd Opt Sol Text Spec MpsFile

/-! ## Words -/

theorem spells_words {l : List Char} {ws : List Name} (h : Spells l ws) : ∀ w ∈ ws, Word w := by
  induction h with
  | blank g hg => intro w hw; cases hw
  | word g w rest ws hg hne hw hr h ih =>
    intro x hx
    rcases List.mem_cons.1 hx with rfl | hx
    · refine ⟨hne, fun c hc => ?_⟩
      have := hw c hc
      rw [blank_iff] at this
      simpa using this
    · exact ih x hx

theorem written_words {text : List (List Char)} {ls : List (List Name)} (h : Written text ls) : ∀ l ∈ ls, ∀ w ∈ l, Word w := by
  induction h with
  | done rest => intro l hl; cases hl
  | blank l ls ws hl h ih => exact ih
  | line l ls w ws hl h ih =>
    intro x hx
    rcases List.mem_cons.1 hx with rfl | hx
    · exact spells_words hl
    · exact ih x hx

theorem mem_first {x : Name × Bool} (M : List (Name × Bool)) (h : x ∈ firstMentions M) : x ∈ M := by
  induction M with
  | nil => exact h
  | cons y M ih =>
    rw [firstMentions] at h
    rcases List.mem_cons.1 h with rfl | h
    · simp
    · exact List.mem_cons_of_mem _ (ih (List.mem_filter.1 h).1)

theorem mem_marked {x : Name × Bool} (l : List ColumnLine) (b : Bool) (h : x ∈ marked b l) : ∃ es, ColumnLine.entries x.1 es ∈ l := by
  induction l generalizing b with
  | nil => rw [marked] at h; cases h
  | cons y l ih =>
    cases y with
    | integersBegin _ _ =>
      rw [marked] at h
      obtain ⟨es, he⟩ := ih _ h
      exact ⟨es, List.mem_cons_of_mem _ he⟩
    | integersEnd _ _ =>
      rw [marked] at h
      obtain ⟨es, he⟩ := ih _ h
      exact ⟨es, List.mem_cons_of_mem _ he⟩
    | entries c es =>
      rw [marked] at h
      rcases List.mem_cons.1 h with rfl | h
      · exact ⟨es, by simp⟩
      · obtain ⟨es, he⟩ := ih _ h
        exact ⟨es, List.mem_cons_of_mem _ he⟩

theorem col_word {d : Doc} {text : List (List Char)} (hw : Written text d.lines) : ∀ c ∈ d.cols, Word c.1 := by
  intro c hc
  obtain ⟨es, he⟩ := mem_marked _ _ (mem_first _ hc)
  refine written_words hw (ColumnLine.words (.entries c.1 es)) ?_ c.1 (by simp [ColumnLine.words])
  unfold Doc.lines
  simp only [List.mem_append, List.mem_map]
  exact Or.inl (Or.inl (Or.inl (Or.inl (Or.inl (Or.inr ⟨_, he, rfl⟩)))))

/-! ## The solution file -/

/-- The first line. -/
theorem written_head (name : ℕ → Str) (order : List ℕ) (s : Named) :
    (lines (writeSolution name order s)).head? =
      some (if s.feasible then c!"=obj= " ++ format10 s.objective else c!"=infeas=") := by
  unfold writeSolution lines
  rw [C70.linesFrom_line]
  · rfl
  · split
    · intro h
      rcases List.mem_append.1 h with h | h
      · revert h; decide
      · exact C70.word_no_newline _ (C70.format10_word _) h
    · decide

/-- The other lines. -/
theorem written_given (name : ℕ → Str) (order : List ℕ) (s : Named) (hw : ∀ v ∈ order, Word (name v))
    (hd : ∀ v ∈ order, ∀ w ∈ order, name v = name w → v = w) :
    ∀ v ∈ order, given (writeSolution name order s) (name v) = some (s.values v) := by
  intro v hv
  unfold given
  rw [C70.entries_written name order s hw, List.reverse_append, List.find?_append]
  have := C70.find_reverse name s.values order v hv fun w hw e => by rw [hd w hw v hv e]
  cases h : (order.map fun v => (name v, s.values v)).reverse.find? fun e => decide (e.1 = name v) with
  | none => rw [h] at this; cases this
  | some e => rw [h] at this; exact this

/-! ## What the flags ask for -/

/-- The effect of the flags on one variable. -/
theorem admits_iff (fs : Str → Option (List Char)) (fuel : ℕ) (name cname : ℕ → Str) (a : Args) (m : MState) (r : Ready)
    (hn : m.varIds.Nodup) (hr : C70.Readable fs fuel a) (hset : Cmd.setup fs fuel name cname a m = .ok r) (v : ℕ) (hv : v ∈ m.varIds)
    (hfx : (m.var v).fixed = true → (m.var v).value = (m.var v).lb ∧ (m.var v).lb = (m.var v).ub)
    (hin : ∀ x, Asked fs a (name v) x → Admits (m.var v) x) :
    (∀ y, Admits (r.model.var v) y ↔ Admits (m.var v) y ∧ ∀ x, Asked fs a (name v) x → y = x) ∧
    ((r.model.var v).fixed = true → Admits (m.var v) (r.model.var v).value ∧
      ((m.var v).fixed = false → Asked fs a (name v) (r.model.var v).value)) := by
  obtain ⟨e1, e2⟩ := C70.setup_effect fs fuel name cname a m hn hr
  have hno : ¬ ∃ v ∈ m.varIds, a.initial ≠ [] ∧ C70.IsFixed fs name a m v ∧ C70.valueBefore fs name a m v ≠ C70.initialValue fs name a v := by
    intro h
    have := e1 h
    rw [hset] at this
    cases this
  obtain ⟨r', hr', -, -, -, heff, -⟩ := e2 hno
  rw [hset] at hr'
  obtain rfl : r = r' := by injection hr'
  obtain ⟨h1, h2, h3, h4⟩ := heff v hv
  have h5 : C70.IsFixed fs name a m v → (r.model.var v).value = C70.valueBefore fs name a m v := by
    intro hf
    rw [h4]
    split
    · next hi =>
      by_contra hne
      exact hno ⟨v, hv, hi, hf, fun e => hne e.symm⟩
    · rfl
  -- fixed at `x`, which is asked for
  have fixedAt : ∀ x, C70.IsFixed fs name a m v → C70.valueBefore fs name a m v = x →
      (∀ x', Asked fs a (name v) x' ↔ x' = x) →
      (∀ y, Admits (r.model.var v) y ↔ Admits (m.var v) y ∧ ∀ x, Asked fs a (name v) x → y = x) ∧
      ((r.model.var v).fixed = true → Admits (m.var v) (r.model.var v).value ∧
        ((m.var v).fixed = false → Asked fs a (name v) (r.model.var v).value)) := by
    intro x hF hx hA
    have hval := (h5 hF).trans hx
    have hfix := h3.2 hF
    refine ⟨fun y => ⟨fun h => ?_, fun h => ⟨fun _ => ?_, fun k => ?_⟩⟩, fun _ => ?_⟩
    · have : y = x := (h.1 hfix).trans hval
      subst this
      exact ⟨hin y ((hA y).2 rfl), fun x' hx' => ((hA x').1 hx').symm⟩
    · rw [hval]; exact h.2 x ((hA x).2 rfl)
    · rw [hfix] at k; cases k
    · rw [hval]; exact ⟨hin x ((hA x).2 rfl), fun _ => (hA x).2 rfl⟩
  -- nothing is asked for
  have same : (∀ x, ¬ Asked fs a (name v) x) → (C70.IsFixed fs name a m v → (m.var v).fixed = true ∧
      C70.valueBefore fs name a m v = (m.var v).value) →
      (∀ y, Admits (r.model.var v) y ↔ Admits (m.var v) y ∧ ∀ x, Asked fs a (name v) x → y = x) ∧
      ((r.model.var v).fixed = true → Admits (m.var v) (r.model.var v).value ∧
        ((m.var v).fixed = false → Asked fs a (name v) (r.model.var v).value)) := by
    intro hA hF
    cases hf : (r.model.var v).fixed with
    | true =>
      obtain ⟨k1, k2⟩ := hF (h3.1 hf)
      have hval := (h5 (h3.1 hf)).trans k2
      refine ⟨fun y => ⟨fun h => ⟨⟨fun _ => (h.1 hf).trans hval, fun k => ?_⟩, fun x hx => absurd hx (hA x)⟩,
        fun h => ⟨fun _ => (h.1.1 k1).trans hval.symm, fun k => ?_⟩⟩, fun _ => ⟨⟨fun _ => hval, fun k => ?_⟩, fun k => ?_⟩⟩
      · rw [k1] at k; cases k
      · rw [hf] at k; cases k
      · rw [k1] at k; cases k
      · rw [k1] at k; cases k
    | false =>
      have key : ∀ y, Admits (r.model.var v) y ↔ Admits (m.var v) y := by
        intro y
        unfold Admits
        rw [hf, h1, h2]
        simp only [Bool.false_eq_true, false_implies, true_and, forall_true_left]
        cases hm : (m.var v).fixed with
        | false => simp
        | true =>
          obtain ⟨k1, k2⟩ := hfx hm
          simp only [forall_true_left, Bool.true_eq_false, false_implies, and_true]
          omega
      exact ⟨fun y => ⟨fun h => ⟨(key y).1 h, fun x hx => absurd hx (hA x)⟩, fun h => (key y).2 h.1⟩, fun k => by cases k⟩
  by_cases hm : a.mutables = []
  · have noM : ∀ x : ℤ, ¬ ∃ t, a.mutables ≠ [] ∧ fs a.mutables = some t ∧ ¬ Lists t (name v) ∧ x = 0 :=
      fun x ⟨t, k, _⟩ => k hm
    by_cases hf : a.fixed = []
    · refine same (fun x hx => ?_) fun hF => ?_
      · rcases hx with k | ⟨t, k, _⟩
        · exact noM x k
        · exact k hf
      · unfold C70.IsFixed at hF
        unfold C70.valueBefore
        simpa [hm, hf] using hF
    · obtain ⟨t, ht, hfit⟩ := hr.fixed hf
      have hc : C70.content fs a.fixed = t := by unfold C70.content; rw [ht]; rfl
      cases hg : given t (name v) with
      | none =>
        refine same (fun x hx => ?_) fun hF => ?_
        · rcases hx with k | ⟨t', _, k, k'⟩
          · exact noM x k
          · rw [ht] at k
            obtain rfl := Option.some.inj k
            rw [hg] at k'; cases k'
        · unfold C70.IsFixed at hF
          unfold C70.valueBefore
          simpa [hm, hf, hc, hg] using hF
      | some x =>
        refine fixedAt x ?_ ?_ fun x' => ⟨fun hx => ?_, fun e => ?_⟩
        · unfold C70.IsFixed
          simp [hm, hf, hc, hg]
        · unfold C70.valueBefore
          simp [hm, hf, hc, hg]
        · rcases hx with k | ⟨t', _, k, k'⟩
          · exact absurd k (noM x')
          · rw [ht] at k
            obtain rfl := Option.some.inj k
            rw [hg] at k'
            exact (Option.some.inj k').symm
        · exact Or.inr ⟨t, hf, ht, by rw [hg, e]⟩
  · obtain ⟨t, ht⟩ := hr.mutables hm
    have hf : a.fixed = [] := hr.exclusive.resolve_left hm
    have hc : C70.content fs a.mutables = t := by unfold C70.content; rw [ht]; rfl
    have noF : ∀ x, ¬ ∃ t, a.fixed ≠ [] ∧ fs a.fixed = some t ∧ given t (name v) = some x := fun x ⟨t, k, _⟩ => k hf
    by_cases hl : Lists t (name v)
    · refine same (fun x hx => ?_) fun hF => ?_
      · rcases hx with ⟨t', _, k, k', _⟩ | k
        · rw [ht] at k
          obtain rfl := Option.some.inj k
          exact k' hl
        · exact noF x k
      · unfold C70.IsFixed at hF
        rw [if_pos hm, hc] at hF
        exact absurd hl hF
    · refine fixedAt 0 ?_ ?_ fun x' => ⟨fun hx => ?_, fun e => ?_⟩
      · unfold C70.IsFixed
        rw [if_pos hm, hc]; exact hl
      · unfold C70.valueBefore
        rw [if_pos hm]
      · rcases hx with ⟨_, _, _, _, k⟩ | k
        · exact k
        · exact absurd k (noF x')
      · exact Or.inl ⟨t, hm, ht, hl, e⟩

/-! ## A whole run -/

open Setup Whole Search Nbhd Ctl Stated in
/-- What the setup of a run gives, and what a call then leads to: the part of the proof that does not depend on the search. -/
theorem run_facts (fs : Str → Option (List Char)) (fuel : ℕ) (args : List Str) (w : World) (a : Args)
    (hargs : args ≠ []) (hparse : parse args {} = some a) (hex : a.extract = false)
    (d : Doc) (hd : d.OK) (content : List Char) (hfs : fs a.mps = some content) (hw : Written (lines content) d.lines)
    (hacc : a.accept = true ∨ d.Integer) (hread : C70.Readable fs fuel a) (hsat : ∃ val, Solution fs a d val)
    (m : MState) (names cnames : List Str) (hload : Mps.load a.accept (lines content) = some (m, names, cnames))
    (r : Ready) (hset : Cmd.setup fs fuel (nameOf names) (nameOf cnames) a m = .ok r)
    (s : Setup.Options) (t : Ctl.Opt) (hs : setupOptions r.options = some s) (ht : searchOptions r.options = some t)
    (hres : Restricted s m)
    (hone : s.setConstraints = true ∨ s.setVariables = true → ∀ (k : ℕ) (n : Str), names[k]? = some n → (m.var k).sense = .binary →
      ¬ Asked fs a n 1)
    (m1 : MState) (hprep : prepare s (input w names s r).lt (input w names s r).user r.model = some (.ok m1))
    (hcn : ∀ c ∈ m1.conIds, ∀ e ∈ m1.conIds, w.conName c = w.conName e → c = e)
    (hpairs : ∀ p ∈ r.pairs, p.1 ≠ p.2 ∧ (p.1 ∈ m1.varIds ∧ p.2 ∈ m1.varIds) ∧
      ((m1.var p.1).sense = .binary ∨ (m1.var p.1).sense = .selection) ∧
      ((m1.var p.2).sense = .binary ∨ (m1.var p.2).sense = .selection)) :
    names = d.cols.map Prod.fst ∧ Ordinary s r.model ∧ C76.Unselected r.model ∧
      (∀ v, (r.model.var v).updateMargin = r.model.var v) ∧ C48.Distinct (fun v => String.ofList (nameOf names v)) r.model ∧
      (∃ σ, Feasible r.model σ) ∧ C76.SetUp (neighbourhood w names r m1) (selectionRel w names m1) m1 ∧
      (r.model.objDefined = true ∧ r.model.isMin = true ∧ r.model.obj = m.obj ∧ r.model.varIds = m.varIds) ∧
      ∀ sol m', call (input w names s r) (flag r.options c!"general" c!"is_enabled_fast_evaluation") (selectionRel w names m1)
        (fun v => String.ofList (nameOf names v)) t r.model w.plan = some (sol, m') →
        (sol.feasible = true ↔ Solves r.model sol.values) →
        (r.model.objDefined = true → sol.objective = exprValue r.model.obj sol.values) →
        ∃ text, Cmd.run fs fuel args w = .ok (some text) ∧
          (∃ val, ShowsValues text d val) ∧ ∀ val, ShowsValues text d val →
            (Solution fs a d val → SaysObjective text (d.goal val)) ∧ (¬ Solution fs a d val → SaysInfeasible text) ∧
            ∀ (σ : ℕ → ℤ) val', (∀ (k : ℕ) (n : Str), names[k]? = some n → σ k = val' n) →
              (Solves r.model σ ↔ Solution fs a d val') ∧
              (Solves r.model sol.values → minObjective r.model sol.values ≤ minObjective r.model σ + 1e-5 →
                Solution fs a d val ∧ d.goal val ≤ d.goal val' + 1e-5) := by
  obtain ⟨o, ho⟩ := hd.free
  obtain ⟨p, ep, hp⟩ := import_ok hd ho hw a.accept hacc
  obtain ⟨mm, em, hv, -, hdef, hmin, hsem⟩ := C90.file_gets_its_problem_partial d hd _ hw a.accept hacc
  rw [hload] at ep em
  simp only [Option.some.injEq, Prod.mk.injEq] at ep em
  obtain ⟨rfl, hnames, _⟩ := em
  obtain ⟨em', _, _⟩ := ep
  obtain ⟨hord, hun⟩ := C91.ordinary hp s (em' ▸ hres)
  rw [← em'] at hord hun
  have ref := setup_refixed _ _ _ _ _ _ _ hset
  -- names
  have hlen : names.length = d.cols.length := by rw [hnames, List.length_map]
  have hname : ∀ (k : ℕ) (c : Name × Bool), d.cols[k]? = some c → names[k]? = some c.1 ∧ nameOf names k = c.1 := by
    intro k c hk
    have : names[k]? = some c.1 := by rw [hnames, List.getElem?_map, hk]; rfl
    exact ⟨this, by unfold nameOf; rw [List.getD_eq_getElem?_getD, this]; rfl⟩
  have hmem : ∀ v, v ∈ m.varIds → ∃ c, d.cols[v]? = some c := by
    intro v hvm
    rw [hv] at hvm
    exact ⟨_, List.getElem?_eq_getElem (List.mem_range.1 hvm)⟩
  have hnd : names.Nodup := by rw [hnames]; exact first_nodup _
  have hinj : ∀ v ∈ m.varIds, ∀ u ∈ m.varIds, nameOf names v = nameOf names u → v = u := by
    intro v hvm u hum e
    obtain ⟨c, hc⟩ := hmem v hvm
    obtain ⟨c', hc'⟩ := hmem u hum
    obtain ⟨k1, k2⟩ := hname v c hc
    obtain ⟨k3, k4⟩ := hname u c' hc'
    rw [k2, k4] at e
    rw [e] at k1
    obtain ⟨l1, e1⟩ := List.getElem?_eq_some_iff.1 k1
    obtain ⟨l3, e3⟩ := List.getElem?_eq_some_iff.1 k3
    exact (List.Nodup.getElem_inj_iff hnd).1 (e1.trans e3.symm)
  -- the variables of the file
  have himp : ∀ v ∈ m.varIds, ∃ c, d.cols[v]? = some c ∧ VarImp d c (m.var v) := by
    intro v hvm
    obtain ⟨c, hc⟩ := hmem v hvm
    obtain ⟨y, hy, hi⟩ := forall₂_left hp.vars v c hc
    refine ⟨c, hc, ?_⟩
    have : m.var v = y := by
      rw [em']
      show p.vars.getD v _ = y
      rw [List.getD_eq_getElem?_getD, hy]; rfl
    rw [this]; exact hi
  have hout : ∀ v, v ∉ m.varIds → m.var v = Program.noVar := by
    intro v hvm
    rw [em']
    refine C91.getD_out _ _ _ ?_
    have := hp.vars.length_eq
    rw [hv, List.mem_range] at hvm
    omega
  have hmar : ∀ v, (m.var v).updateMargin = m.var v := by
    intro v
    by_cases hvm : v ∈ m.varIds
    · obtain ⟨c, _, hi⟩ := himp v hvm
      obtain ⟨l, u, y, e, hy⟩ := hi.made
      have k : y.updateMargin = y := by
        unfold Var.setBound at e
        split at e
        · cases e
        · rw [← Option.some.inj e]; rfl
      rcases hy with e' | ⟨x, e'⟩
      · rw [e']; exact k
      · rw [e']; rfl
    · rw [hout v hvm]; rfl
  -- meaning of the names
  have sem : ∀ (σ : ℕ → ℤ) (val : Name → ℤ), (∀ (k : ℕ) (n : Name), names[k]? = some n → σ k = val n) →
      (Solves m σ ↔ d.Satisfied val) ∧ exprValue m.obj σ = d.goal val ∧ minObjective m σ = d.goal val := by
    intro σ val hn
    obtain ⟨h1, _, h3⟩ := hsem σ val (fun k c hk => hn k c.1 (hname k c hk).1)
    refine ⟨h1, h3, ?_⟩
    unfold minObjective
    rw [hdef, hmin, h3]
    rfl
  let lift : (Name → ℤ) → ℕ → ℤ := fun val k => ((d.cols[k]?).map fun c => val c.1).getD 0
  have hlift : ∀ val (k : ℕ) (n : Name), names[k]? = some n → lift val k = val n := by
    intro val k n hk
    rw [hnames, List.getElem?_map] at hk
    obtain ⟨c, hc, rfl⟩ := Option.map_eq_some_iff.1 hk
    show ((d.cols[k]?).map fun c => val c.1).getD 0 = _
    rw [hc]; rfl
  have hasked : ∀ v ∈ m.varIds, ∀ x, Asked fs a (nameOf names v) x → Admits (m.var v) x := by
    intro v hvm x hx
    obtain ⟨val, h1, h2⟩ := hsat
    obtain ⟨c, hc⟩ := hmem v hvm
    obtain ⟨k1, k2⟩ := hname v c hc
    have := ((sem _ val (hlift val)).1.2 h1).1 v hvm
    rw [hlift val v c.1 k1, h2 c (List.mem_of_getElem? hc) x (k2 ▸ hx)] at this
    exact this
  have hadm := fun v (hvm : v ∈ m.varIds) => admits_iff fs fuel (nameOf names) (nameOf cnames) a m r hord.varIds hread hset v hvm
    (fun hf => by obtain ⟨c, _, hi⟩ := himp v hvm; exact hi.fixed hf) (hasked v hvm)
  have eids : r.model.varIds = m.varIds := ref.varIds
  have econ : r.model.con = m.con := by rw [ref.rest]
  have econs : r.model.conIds = m.conIds := by rw [ref.rest]
  have eobj : r.model.obj = m.obj := by rw [ref.rest]
  have edef : r.model.objDefined = m.objDefined := by rw [ref.rest]
  have emin : r.model.isMin = m.isMin := by rw [ref.rest]
  have sem' : ∀ (σ : ℕ → ℤ) (val : Name → ℤ), (∀ (k : ℕ) (n : Name), names[k]? = some n → σ k = val n) →
      (Solves r.model σ ↔ Solution fs a d val) := by
    intro σ val hn
    unfold Solution
    rw [← (sem σ val hn).1]
    unfold Solves
    rw [eids, econ, econs]
    constructor
    · rintro ⟨k1, k2⟩
      refine ⟨⟨fun v hvm => (((hadm v hvm).1 _).1 (k1 v hvm)).1, k2⟩, fun c hc x hx => ?_⟩
      obtain ⟨v, hc'⟩ := List.getElem?_of_mem hc
      have hvm : v ∈ m.varIds := by
        rw [hv]
        exact List.mem_range.2 (List.getElem?_eq_some_iff.1 hc').1
      obtain ⟨n1, n2⟩ := hname v c hc'
      rw [← hn v c.1 n1]
      exact (((hadm v hvm).1 _).1 (k1 v hvm)).2 x (n2.symm ▸ hx)
    · rintro ⟨⟨k1, k2⟩, k3⟩
      refine ⟨fun v hvm => ((hadm v hvm).1 _).2 ⟨k1 v hvm, fun x hx => ?_⟩, k2⟩
      obtain ⟨c, hc⟩ := hmem v hvm
      obtain ⟨n1, n2⟩ := hname v c hc
      rw [hn v c.1 n1]
      exact k3 c (List.mem_of_getElem? hc) x (n2 ▸ hx)
  -- the model is ordinary
  have hord' : Ordinary s r.model := by
    refine ordinary_refixed hord hres ref (fun v hvm hf => ?_) fun hso c hc v hvc hvm hbin hf h1 => ?_
    · have := ((hadm v hvm).2 hf).1
      cases hm : (m.var v).fixed with
      | false => exact this.2 hm
      | true =>
        obtain ⟨c, _, hi⟩ := himp v hvm
        obtain ⟨k1, k2⟩ := hi.fixed hm
        have := this.1 hm
        omega
    · obtain ⟨c', hc', hi⟩ := himp v hvm
      obtain ⟨n1, n2⟩ := hname v c' hc'
      obtain ⟨k1, k2⟩ := (hadm v hvm).2 hf
      cases hm : (m.var v).fixed with
      | false =>
        refine hone hso v c'.1 n1 hbin ?_
        rw [← h1, ← n2]
        exact k2 hm
      | true =>
        have e1 := k1.1 hm
        have e2 := hres.binary hso c hc v hvc hbin
        obtain ⟨e3, e4⟩ := hi.fixed hm
        omega
  have hun' : C76.Unselected r.model := by
    refine ⟨fun v => ?_, fun c => ?_⟩
    · rw [(ref.kind v).2.2.2]; exact hun.ptr v
    · have : r.model.selected = m.selected := by rw [ref.rest]
      rw [this]; exact hun.none c
  have hfeas : ∃ σ, Feasible r.model σ := by
    obtain ⟨val, hval⟩ := hsat
    have hs' := (sem' _ val (hlift val)).2 hval
    refine ⟨lift val, fun v => ?_, hs'.2⟩
    by_cases hvm : v ∈ m.varIds
    · exact hs'.1 v (by rw [eids]; exact hvm)
    · rw [ref.outside v hvm, hout v hvm]
      refine ⟨fun _ => ?_, fun hf => by cases hf⟩
      show ((d.cols[v]?).map fun c => val c.1).getD 0 = 0
      rw [hv, List.mem_range] at hvm
      rw [List.getElem?_eq_none (by omega)]; rfl
  have hdist : C48.Distinct (fun v => String.ofList (nameOf names v)) r.model := by
    intro v hvm u hum e
    rw [eids] at hvm hum
    exact hinj v hvm u hum (C70.ofList_inj e)
  have htr : transformed (input w names s r) r.model = m1 := by
    unfold transformed
    rw [show (input w names s r).options = s from rfl, hprep]
  have hup : C76.SetUp (neighbourhood w names r m1) (selectionRel w names m1) m1 :=
    ⟨rfl, rfl, hcn, hpairs, fun v c hc => by unfold selectionRel; rw [hc]; rfl⟩
  refine ⟨hnames, hord', hun', ref.margins hmar, hdist, hfeas, hup, ⟨edef.trans hdef, emin.trans hmin, eobj, eids⟩, ?_⟩
  intro sol m' h2 h3 h4
  have hrun : Cmd.run fs fuel args w = .ok (some (writeSolution (nameOf names) r.model.varIds sol)) := by
    unfold Cmd.run
    rw [if_neg hargs, hparse]
    dsimp only
    rw [hfs]
    dsimp only
    rw [hload]
    dsimp only
    rw [hset, C70.ok_bind, hex, if_neg (by decide)]
    unfold solveAndWrite
    rw [hs, ht]
    dsimp only
    rw [htr, h2]
    rfl
  refine ⟨_, hrun, ?_⟩
  have hgiven : ∀ v ∈ m.varIds, given (writeSolution (nameOf names) r.model.varIds sol) (nameOf names v) = some (sol.values v) := by
    rw [eids]
    refine written_given _ _ _ (fun v hvm => ?_) hinj
    obtain ⟨c, hc⟩ := hmem v hvm
    rw [(hname v c hc).2]
    exact col_word hw c (List.mem_of_getElem? hc)
  have hfile : ∀ val, ShowsValues (writeSolution (nameOf names) r.model.varIds sol) d val →
      ∀ (k : ℕ) (n : Name), names[k]? = some n → sol.values k = val n := by
    intro val hval k n hk
    have hlt : k < d.cols.length := by rw [← hlen]; exact (List.getElem?_eq_some_iff.1 hk).1
    have hc := List.getElem?_eq_getElem hlt
    obtain ⟨n1, n2⟩ := hname k _ hc
    have e : d.cols[k].1 = n := by rw [n1] at hk; exact Option.some.inj hk
    have g := hgiven k (by rw [hv]; exact List.mem_range.2 hlt)
    have g' := hval _ (List.mem_of_getElem? hc)
    rw [← n2, g] at g'
    rw [← e, ← n2]
    exact Option.some.inj g'
  refine ⟨?_, fun val hval => ?_⟩
  · refine ⟨fun n => sol.values (names.idxOf n), fun c hc => ?_⟩
    obtain ⟨v, hc'⟩ := List.getElem?_of_mem hc
    obtain ⟨n1, n2⟩ := hname v c hc'
    have hlt : v < names.length := (List.getElem?_eq_some_iff.1 n1).1
    have e : names.idxOf c.1 = v := by
      rw [← (List.getElem?_eq_some_iff.1 n1).2]
      exact List.Nodup.idxOf_getElem hnd v hlt
    show given _ c.1 = some (sol.values (names.idxOf c.1))
    rw [e, ← n2]
    exact hgiven v (by rw [hv]; exact List.mem_range.2 (hlen ▸ hlt))
  · have hn := hfile val hval
    obtain ⟨s1, s2, s3⟩ := sem _ _ hn
    have s4 := sem' _ _ hn
    refine ⟨fun hS => ?_, fun hS => ?_, fun σ val' hv' => ⟨sem' _ _ hv', fun k1 k2 => ?_⟩⟩
    · have hf : sol.feasible = true := h3.2 (s4.2 hS)
      refine ⟨format10 sol.objective, ?_, ?_⟩
      · rw [written_head, hf]; rfl
      · have := h4 (by rw [edef]; exact hdef)
        rw [eobj, s2] at this
        rw [this]
        exact format10_close _
    · have hf : sol.feasible = false := by
        cases hf : sol.feasible with
        | false => rfl
        | true => exact absurd (s4.1 (h3.1 hf)) hS
      unfold SaysInfeasible
      rw [written_head, hf]; rfl
    · have e : ∀ σ, minObjective r.model σ = minObjective m σ := by
        intro σ
        unfold minObjective
        rw [eobj, edef, emin]
      rw [e, e, s3, (sem _ _ hv').2.2] at k2
      exact ⟨s4.1 k1, k2⟩

open Setup Whole Search Nbhd Ctl Stated in
/-- **From the command line to the solution file.**  The arguments name an MPS file that obeys the rules of C90 and other
files that can be read; something satisfies the MPS file and what `-m` and `-f` ask for; the setup succeeds and the model
meets the restrictions of a whole call, with bounding switched off.  Then, whatever moves of the neighbourhood the searches
make, the program writes a solution file with a value for every column, and

* if the values in the file satisfy the MPS file and what `-m` and `-f` ask for, the first line is `=obj=` with the value of
  the free row, in eleven digits;
* otherwise the first line is `=infeas=`;
* whenever the search came across values that satisfy the MPS file and what the flags ask for, the values in the file do,
  too, and their objective is at most `1e-5` above that of any of them.

Missing: the restrictions (`hres`, `hone`, `hb`, `hgf`, `hcon`), and a setup that throws. -/
theorem solution_file_is_right_partial (fs : Str → Option (List Char)) (fuel : ℕ) (args : List Str) (w : World) (a : Args)
    (hargs : args ≠ []) (hparse : parse args {} = some a) (hex : a.extract = false)
    (d : Doc) (hd : d.OK) (content : List Char) (hfs : fs a.mps = some content) (hw : Written (lines content) d.lines)
    (hacc : a.accept = true ∨ d.Integer) (hread : C70.Readable fs fuel a) (hsat : ∃ val, Solution fs a d val)
    (m : MState) (names cnames : List Str) (hload : Mps.load a.accept (lines content) = some (m, names, cnames))
    (r : Ready) (hset : Cmd.setup fs fuel (nameOf names) (nameOf cnames) a m = .ok r)
    (s : Setup.Options) (t : Ctl.Opt) (hs : setupOptions r.options = some s) (ht : searchOptions r.options = some t)
    (hb : t.bounding = false) (hres : Restricted s m)
    (hone : s.setConstraints = true ∨ s.setVariables = true → ∀ (k : ℕ) (n : Str), names[k]? = some n → (m.var k).sense = .binary →
      ¬ Asked fs a n 1)
    (m1 m0 : MState) (hprep : prepare s (input w names s r).lt (input w names s r).user r.model = some (.ok m1))
    (hgf : ofType (input w names s r).lt m1 .gf2 = []) (h0 : started (input w names s r) r.model = some m0)
    (hcn : ∀ c ∈ m1.conIds, ∀ e ∈ m1.conIds, w.conName c = w.conName e → c = e)
    (hpairs : ∀ p ∈ r.pairs, p.1 ≠ p.2 ∧ (p.1 ∈ m1.varIds ∧ p.2 ∈ m1.varIds) ∧
      ((m1.var p.1).sense = .binary ∨ (m1.var p.1).sense = .selection) ∧
      ((m1.var p.2).sense = .binary ∨ (m1.var p.2).sense = .selection))
    (hpen : 0 ≤ w.pen) (hcon : C74.Constrained m0)
    (hob : Obeys (neighbourhood w names r m1) (fun v => String.ofList (nameOf names v))
      (Whole.cfg (input w names s r) (flag r.options c!"general" c!"is_enabled_fast_evaluation") (selectionRel w names m1) r.model)
      t m0 w.plan) :
    names = d.cols.map Prod.fst ∧ ∃ text x, Cmd.run fs fuel args w = .ok (some text) ∧
      searches (fun v => String.ofList (nameOf names v))
        (Whole.cfg (input w names s r) (flag r.options c!"general" c!"is_enabled_fast_evaluation") (selectionRel w names m1) r.model)
        t m0 w.plan = some x ∧
      (∃ val, ShowsValues text d val) ∧ ∀ val, ShowsValues text d val →
        (Solution fs a d val → SaysObjective text (d.goal val)) ∧ (¬ Solution fs a d val → SaysInfeasible text) ∧
        ∀ q ∈ C66.all m0 x.done, ∀ val', (∀ (k : ℕ) (n : Str), names[k]? = some n → q.1 k = val' n) → Solution fs a d val' →
          Solution fs a d val ∧ d.goal val ≤ d.goal val' + 1e-5 := by
  obtain ⟨hnames, hord, hun, hmar, hdist, hfeas, hup, -, key⟩ := run_facts fs fuel args w a hargs hparse hex d hd content hfs hw hacc
    hread hsat m names cnames hload r hset s t hs ht hres hone m1 hprep hcn hpairs
  obtain ⟨x, sol, m', h1, h2, -, h3, h4, h5⟩ := C78.call_ends_with_right_report_partial (input w names s r) r.model m1 m0
    (flag r.options c!"general" c!"is_enabled_fast_evaluation") (selectionRel w names m1) (fun v => String.ofList (nameOf names v)) t
    (neighbourhood w names r m1) hord hun hmar hdist hfeas hpen hprep hgf h0 hup hcon hb w.plan hob
  obtain ⟨text, k1, k2, k3⟩ := key sol m' h2 h3 h4
  refine ⟨hnames, text, x, k1, h1, k2, fun val hval => ?_⟩
  obtain ⟨l1, l2, l3⟩ := k3 val hval
  refine ⟨l1, l2, fun q hq val' hv' hS => ?_⟩
  obtain ⟨e1, e2⟩ := l3 q.1 val' hv'
  obtain ⟨g1, g2⟩ := h5 q hq (e1.2 hS)
  exact e2 g1 g2

namespace Sample
open Setup Whole Search Nbhd Ctl Stated

deriving instance DecidableEq for Ctl.Opt

def content : List Char := C90.Sample.text.flatMap fun l => l ++ ['\n']
/-- An option file that switches off dependent variables and bounding. -/
def off : List Char := c!"{\"preprocess\": {\"is_enabled_extract_dependent_exclusive_or\": false, \"is_enabled_extract_dependent_inverted_integers\": false, \"is_enabled_extract_dependent_constant_sum_integers\": false, \"is_enabled_extract_dependent_constant_difference_integers\": false, \"is_enabled_extract_dependent_constant_ratio_integers\": false, \"is_enabled_extract_dependent_intermediate\": false, \"is_enabled_online_bounding\": false}}"
def fs (f : Str) : Option (List Char) :=
  if f = c!"a.mps" then some content else if f = c!"o.json" then some off else if f = c!"f.txt" then some c!"y 2\n"
  else if f = c!"i.sol" then some c!"=obj= 7\nx1 1\ny 2\n" else none
def args : List Str := [c!"-p", c!"o.json", c!"a.mps", c!"-f", c!"f.txt", c!"-i", c!"i.sol"]
def a : Args := { mps := c!"a.mps", option := c!"o.json", fixed := c!"f.txt", initial := c!"i.sol" }
def names : List Str := C91.Sample.names
def cnames : List Str := C91.Sample.cnames
def m : MState := C91.Sample.ex
def okOf : Outcome Ready → Option Ready
  | .ok r => some r
  | _ => none
theorem of_okOf {x : Outcome Ready} (h : (okOf x).isSome = true) (d : Ready) : x = .ok ((okOf x).getD d) := by
  unfold okOf at h ⊢
  split at h
  · rfl
  · exact absurd h (by simp)
def r : Ready := (okOf (Cmd.setup fs 1000 (nameOf names) (nameOf cnames) a m)).getD ⟨m, init, [], []⟩
def s : Setup.Options := C67.opts
def t : Ctl.Opt := { mode := .smart, innerBreaker := true, innerThreshold := 20, outerThreshold := 80, bounding := false }
def swap : Move := { alterations := [(1, 0), (0, 1)], sense := .selection, related := [1], isSelection := true }
def lap : Lap := ⟨[.move swap false], 1, false, fun _ => 3, fun _ => 4⟩
def w : World := ⟨fun c => if c = 0 then c!"one" else c!"cap", 100, [], ⟨none, none, [lap]⟩⟩
def m1 : MState := (C76.Sample.ok (prepare s (input w names s r).lt (input w names s r).user r.model)).getD r.model
def m0 : MState := (started (input w names s r) r.model).getD r.model
def cfg : Search.Cfg := Whole.cfg (input w names s r) (flag r.options c!"general" c!"is_enabled_fast_evaluation") (selectionRel w names m1) r.model
def name (v : ℕ) : String := String.ofList (nameOf names v)
def c1 : Ctl.State := { current := firstSolution name m0 }
def s1 : Dense × Search.St := (startFrom name cfg c1.current (begin m0)).getD (⟨assignment m0, 0, 0, 0, true⟩, begin m0)
def cands : List Move := (candidates (neighbourhood w names r m1) C76.Sample.on C74.Sample.every s1.2.model).getD []

theorem file : lines content = C90.Sample.text := by decide +kernel
theorem loads : Mps.load a.accept (lines content) = some (m, names, cnames) := by rw [file]; exact C91.Sample.loads
theorem isSetup : Cmd.setup fs 1000 (nameOf names) (nameOf cnames) a m = .ok r := of_okOf (by decide +kernel) _
theorem prep : prepare s (input w names s r).lt (input w names s r).user r.model = some (.ok m1) :=
  C76.Sample.of_ok (by decide +kernel) _
theorem start : started (input w names s r) r.model = some m0 := by
  have h : (started (input w names s r) r.model).isSome = true := by decide +kernel
  obtain ⟨m, hm⟩ := Option.isSome_iff_exists.1 h
  unfold m0
  rw [hm]; rfl

theorem readable : C70.Readable fs 1000 a where
  exclusive := Or.inl rfl
  option _ := by
    have h : (setupFile 1000 off).isSome = true := by decide +kernel
    obtain ⟨o, ho⟩ := Option.isSome_iff_exists.1 h
    exact ⟨off, o, by decide +kernel, ho⟩
  mutables h := absurd rfl h
  fixed _ := ⟨c!"y 2\n", by decide +kernel, by unfold Fit; decide +kernel⟩
  selection h := absurd rfl h
  pairs h := absurd rfl h
  initial _ := ⟨c!"=obj= 7\nx1 1\ny 2\n", by decide +kernel, by unfold Fit; decide +kernel⟩

def val (n : Str) : ℤ := if n = c!"x0" then 1 else if n = c!"y" then 2 else 0
theorem satisfiable : ∃ val, Solution fs a C90.Sample.doc val := by
  obtain ⟨m, hm, _, _, _, _, h⟩ := C90.file_gets_its_problem_partial C90.Sample.doc C90.Sample.ok C90.Sample.text
    C90.Sample.written false (Or.inr C90.Sample.integer)
  have e : C91.Sample.ex = m := by
    have := C91.Sample.loads.symm.trans hm
    simp only [Option.some.injEq, Prod.mk.injEq] at this
    exact this.1
  subst e
  have hs : Solves C91.Sample.ex (fun v => if v = 0 then 1 else if v = 3 then 2 else 0) := by
    refine ⟨?_, ?_⟩ <;> decide +kernel
  refine ⟨val, (h _ val fun k n hk => ?_).1.1 hs, fun c hc x hx => ?_⟩
  · have key : ∀ k < 5, (C90.Sample.doc.cols[k]?).map (fun c => val c.1) = some (if k = 0 then (1 : ℤ) else if k = 3 then 2 else 0) := by
      decide +kernel
    have e : C90.Sample.doc.cols.length = 5 := by decide +kernel
    have := key k (e ▸ (List.getElem?_eq_some_iff.1 hk).1)
    rw [hk] at this
    exact (Option.some.inj this).symm
  · rcases hx with ⟨_, k, _⟩ | ⟨t, _, k, k'⟩
    · exact absurd rfl k
    · have e : fs a.fixed = some c!"y 2\n" := by decide +kernel
      rw [e] at k
      obtain rfl := Option.some.inj k
      have key : ∀ c ∈ C90.Sample.doc.cols, given c!"y 2\n" c.1 = none ∨ given c!"y 2\n" c.1 = some (val c.1) := by
        decide +kernel
      rcases key c hc with h | h
      · rw [h] at k'; cases k'
      · rw [h] at k'; exact Option.some.inj k'

theorem obeys : Obeys (neighbourhood w names r m1) name cfg t m0 w.plan := by
  refine ⟨fun b hb => (by cases hb), fun p hp => ?_⟩
  have e : (if applicable m0 then w.plan.lagrange else none) = none := by split <;> rfl
  rw [e] at hp
  obtain rfl := Option.some.inj hp
  refine ⟨fun b hb => (by cases hb), fun q hq => ?_⟩
  obtain rfl := Option.some.inj hq
  refine ⟨fun e he => ⟨_, _, List.mem_singleton.1 he⟩, fun c => by unfold lap; norm_num, fun d st hs => ⟨?_, fun _ _ => trivial⟩,
    fun _ _ => trivial⟩
  have e : (d, st) = s1 := by unfold s1 c1; rw [hs]; rfl
  obtain rfl : st = s1.2 := by rw [← e]
  exact ⟨C76.Sample.on, C74.Sample.every, by simp [C76.Sample.on], .plain cands swap (by decide +kernel) (by decide +kernel)⟩

/-- An MPS file, an option file, a fixed value and initial values; one tabu search with one move. -/
example : parse args {} = some a ∧ fs a.mps = some content ∧ Written (lines content) C90.Sample.doc.lines ∧
    C90.Sample.doc.OK ∧ C90.Sample.doc.Integer ∧ C70.Readable fs 1000 a ∧ (∃ val, Solution fs a C90.Sample.doc val) ∧
    Mps.load a.accept (lines content) = some (m, names, cnames) ∧
    Cmd.setup fs 1000 (nameOf names) (nameOf cnames) a m = .ok r ∧ setupOptions r.options = some s ∧
    searchOptions r.options = some t ∧ t.bounding = false ∧ Restricted s m ∧
    (∀ (k : ℕ) (n : Str), names[k]? = some n → (m.var k).sense = .binary → ¬ Asked fs a n 1) ∧
    prepare s (input w names s r).lt (input w names s r).user r.model = some (.ok m1) ∧
    ofType (input w names s r).lt m1 .gf2 = [] ∧ started (input w names s r) r.model = some m0 ∧
    (∀ c ∈ m1.conIds, ∀ e ∈ m1.conIds, w.conName c = w.conName e → c = e) ∧ r.pairs = [] ∧ 0 ≤ w.pen ∧ C74.Constrained m0 ∧
    Obeys (neighbourhood w names r m1) name cfg t m0 w.plan := by
  refine ⟨by decide +kernel, by decide +kernel, by rw [file]; exact C90.Sample.written, C90.Sample.ok, C90.Sample.integer, readable,
    satisfiable, loads, isSetup, ?_, ?_, rfl, C91.Sample.restricted, ?_, prep, by decide +kernel, start, by decide +kernel,
    by decide +kernel, by decide, by unfold C74.Constrained; decide +kernel, obeys⟩
  · decide +kernel
  · decide +kernel
  · intro k n hn hs hx
    rcases hx with ⟨_, k, _⟩ | ⟨t, _, k, k'⟩
    · exact absurd rfl k
    · have e : fs a.fixed = some c!"y 2\n" := by decide +kernel
      rw [e] at k
      obtain rfl := Option.some.inj k
      have key : ∀ n ∈ names, given c!"y 2\n" n ≠ some 1 := by decide +kernel
      exact key n (List.mem_of_getElem? hn) k'

/-- The solution file that is written. -/
example : Cmd.run fs 1000 args w = .ok (some c!"=obj= -5.0000000000e+00\nx0 1\nx1 0\nx2 0\ny 2\nw 1\n") := by
  decide +kernel

/-- The same files, but `y` is to be -1, below its bound 0: nothing is written. -/
def fsBelow (f : Str) : Option (List Char) := if f = c!"f.txt" then some c!"y -1\n" else fs f
example : Cmd.run fsBelow 1000 [c!"-p", c!"o.json", c!"a.mps", c!"-f", c!"f.txt"] { w with plan := ⟨none, none, []⟩ } = .thrown := by
  decide +kernel

end Sample

end Printemps.C92
