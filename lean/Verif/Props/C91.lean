import Verif.Props.C90
import Verif.Props.C89

/-! # C91: from the MPS file to the report -/

namespace Printemps.C91
open MpsFile Spec Program Stated

theorem getD_out {α : Type} (l : List α) (i : ℕ) (x : α) (h : l.length ≤ i) : l.getD i x = x := by
  rw [List.getD_eq_getElem?_getD, List.getElem?_eq_none h]; rfl

/-- The model of a file is one of those a whole call is proved correct for, if it meets the real restrictions. -/
theorem ordinary {d : Doc} {o : Name} {p : Mps.Imported} (hp : Imports d o p) (opt : Setup.Options)
    (h : Restricted opt (Mps.problem p)) : Ordinary opt (Mps.problem p) ∧ C76.Unselected (Mps.problem p) := by
  have lv : p.vars.length = d.cols.length := hp.vars.length_eq.symm
  have hmem : ∀ v, v < p.vars.length → ∃ c w, VarImp d c w ∧ (Mps.problem p).var v = w ∧ p.vars.getD v Var.init = w := by
    intro v hv
    have e := List.getElem?_eq_getElem hv
    obtain ⟨c, _, hi⟩ := forall₂_left hp.vars.flip v _ e
    refine ⟨c, _, hi, ?_, ?_⟩
    · show p.vars.getD v _ = _
      rw [List.getD_eq_getElem?_getD, e]; rfl
    · rw [List.getD_eq_getElem?_getD, e]; rfl
  have made : ∀ c w, VarImp d c w → C89.VarOK w := by
    intro c w hi
    obtain ⟨l, u, w', e, hw⟩ := hi.made
    have := C89.varOK_setBound C89.varOK_init e
    rcases hw with rfl | ⟨x, rfl⟩
    · exact this
    · exact ⟨this.range, this.kind, this.ptr⟩
  have hok : ∀ v, C89.VarOK (p.vars.getD v Var.init) := by
    intro v
    by_cases hv : v < p.vars.length
    · obtain ⟨c, w, hi, _, e⟩ := hmem v hv
      rw [e]; exact made c w hi
    · rw [getD_out _ _ _ (by omega)]
      exact C89.varOK_init
  have hall : ∀ v, C89.VarOK ((Mps.problem p).var v) := by
    intro v
    by_cases hv : v < p.vars.length
    · obtain ⟨c, w, hi, e, _⟩ := hmem v hv
      rw [e]; exact made c w hi
    · have : (Mps.problem p).var v = noVar := getD_out p.vars v noVar (Nat.le_of_not_lt hv)
      rw [this]
      exact ⟨by decide, Or.inl rfl, rfl⟩
  have hsame : ∀ v, v < p.vars.length → (Mps.problem p).var v = p.vars.getD v Var.init := by
    intro v hv
    obtain ⟨c, w, _, e1, e2⟩ := hmem v hv
    rw [e1, e2]
  have hfix : ∀ v, v < p.vars.length → ((Mps.problem p).var v).fixed = true →
      ((Mps.problem p).var v).value = ((Mps.problem p).var v).lb ∧ ((Mps.problem p).var v).lb = ((Mps.problem p).var v).ub := by
    intro v hv hf
    obtain ⟨c, w, hi, e, _⟩ := hmem v hv
    rw [e] at hf ⊢
    exact hi.fixed hf
  have hcon' : ∀ c ∈ (Mps.problem p).conIds, C89.ConOK p.vars.length (fun v => p.vars.getD v Var.init) ((Mps.problem p).con c) ∧
      ((Mps.problem p).con c).expr.WF := by
    intro c hc
    have hlt : c < p.cons.length := List.mem_range.1 hc
    have e := List.getElem?_eq_getElem hlt
    obtain ⟨x, _, ts, ht, hi⟩ := forall₂_left hp.cons.flip c _ e
    have ec : (Mps.problem p).con c = Con.setup ((Expr.create ts 0).subValue (d.side x.2)) x.1.sense
        (fun v => (p.vars.getD v Var.init).sense) := by
      show p.cons.getD c _ = _
      rw [List.getD_eq_getElem?_getD, e, ← hi]; rfl
    rw [ec]
    refine ⟨C89.conOK_setup hok ?_ _, ht.keys⟩
    intro v hv
    obtain ⟨t, ht', rfl⟩ := List.mem_map.1 hv
    rw [lv]
    exact ht.uses t ht'
  have hcon := fun c hc => (hcon' c hc).1
  have hin : ∀ c ∈ (Mps.problem p).conIds, ∀ v ∈ ((Mps.problem p).con c).expr.vars, v < p.vars.length :=
    fun c hc => (hcon c hc).uses
  have hobj : (Mps.problem p).obj.WF := by
    obtain ⟨ts, ht, e⟩ := hp.obj
    show p.obj.WF
    rw [e]
    exact ht.keys
  have hunfixed : ∀ v, ((Mps.problem p).var v).fixed = false → v < p.vars.length := by
    intro v hv
    by_contra hge
    have : (Mps.problem p).var v = noVar := getD_out p.vars v noVar (Nat.le_of_not_lt hge)
    rw [this] at hv
    cases hv
  refine ⟨{ varIds := List.nodup_range, conIds := List.nodup_range, objective := hobj, terms := fun c hc => (hcon' c hc).2,
            sens := fun _ => rfl, flags := ?_, senses := ?_, box := ?_, integral := h.integral, bounds := ?_,
            enabled := h.enabled, free := ?_, binary := ?_, costs := h.costs, independent := h.independent,
            presolve := h.presolve, const := h.const, inside := fun c hc v hv => List.mem_range.2 (hin c hc v hv),
            ranges := fun v _ => ⟨(hall v).range, (hall v).kind⟩, maxLe := fun c hc => (hcon c hc).maxLe,
            maxEq := fun c hc => (hcon c hc).maxEq, uexpr := (by intro i hi; cases hi), dependents := rfl },
    ⟨fun v => (hall v).ptr, fun _ => rfl⟩⟩
  · intro c hc
    refine ⟨(hcon c hc).coef, fun hbv v hv => ?_⟩
    rw [hsame v (hin c hc v hv)]
    exact (hcon c hc).var hbv v hv
  · intro c hc v hv
    rcases (hall v).kind with k | k
    · exact Or.inr k
    · exact Or.inl k.1
  · intro c hc v hv hs
    rcases (hall v).kind with k | k
    · rw [k] at hs; cases hs
    · refine ⟨fun hf => ?_, fun _ => k.2⟩
      obtain ⟨e1, e2⟩ := hfix v (hin c hc v hv) hf
      rw [e1]
      have h1 := k.2.1
      have h2 := k.2.2
      omega
  · intro v hv
    exact h.bounds v (List.mem_range.2 (hunfixed v hv))
  · intro v hv _ hnot
    exact ⟨(hall v).range, h.free v hv hnot⟩
  · intro ho c hc v hv hs
    have h0 := h.binary ho c hc v hv hs
    rcases (hall v).kind with k | k
    · rw [k] at hs; cases hs
    · refine ⟨fun hf => ?_, fun _ => ⟨h0, h0 ▸ (hall v).range, k.2.2⟩⟩
      rw [(hfix v (hin c hc v hv) hf).1, h0]

open Setup Whole Search Sol Nbhd in
/-- What a loaded file gives a whole call: the part of the proof that does not depend on the search. -/
theorem file_facts (d : Doc) (hd : d.OK)
    (text : List (List Char)) (hw : Written text d.lines) (acceptContinuous : Bool)
    (hacc : acceptContinuous = true ∨ d.Integer) (m : MState) (names cnames : List Name)
    (hload : Mps.load acceptContinuous text = some (m, names, cnames)) (hsat : ∃ val, d.Satisfied val)
    (opt : Setup.Options) (hres : Restricted opt m) :
    names = d.cols.map Prod.fst ∧ m.varIds = List.range d.cols.length ∧ Ordinary opt m ∧ C76.Unselected m ∧ (∃ σ, Feasible m σ) ∧
      m.objDefined = true ∧
      ∀ (σ : ℕ → ℤ) (val : Name → ℤ), (∀ (k : ℕ) (n : Name), names[k]? = some n → σ k = val n) →
        (Solves m σ ↔ d.Satisfied val) ∧ exprValue m.obj σ = d.goal val ∧ minObjective m σ = d.goal val := by
  obtain ⟨o, ho⟩ := hd.free
  obtain ⟨p, ep, hp⟩ := import_ok hd ho hw acceptContinuous hacc
  obtain ⟨mm, em, hv, hc, hdef, hmin, hsem⟩ := C90.file_gets_its_problem_partial d hd text hw acceptContinuous hacc
  rw [hload] at ep em
  simp only [Option.some.injEq, Prod.mk.injEq] at ep em
  obtain ⟨rfl, hnames, _⟩ := em
  obtain ⟨em', _, _⟩ := ep
  obtain ⟨hord, hun⟩ := ordinary hp opt (em' ▸ hres)
  rw [← em'] at hord hun
  have sem : ∀ (σ : ℕ → ℤ) (val : Name → ℤ), (∀ (k : ℕ) (n : Name), names[k]? = some n → σ k = val n) →
      (Solves m σ ↔ d.Satisfied val) ∧ exprValue m.obj σ = d.goal val ∧ minObjective m σ = d.goal val := by
    intro σ val hn
    obtain ⟨h1, _, h3⟩ := hsem σ val (by
      intro k c hk
      exact hn k c.1 (by rw [hnames, List.getElem?_map, hk]; rfl))
    refine ⟨h1, h3, ?_⟩
    unfold minObjective
    rw [hdef, hmin, h3]
    rfl
  have hfeas : ∃ σ, Feasible m σ := by
    obtain ⟨val, hval⟩ := hsat
    let σ : ℕ → ℤ := fun k => ((d.cols[k]?).map fun c => val c.1).getD 0
    have hn : ∀ (k : ℕ) (n : Name), names[k]? = some n → σ k = val n := by
      intro k n hk
      rw [hnames, List.getElem?_map] at hk
      obtain ⟨c, hc, rfl⟩ := Option.map_eq_some_iff.1 hk
      show ((d.cols[k]?).map fun c => val c.1).getD 0 = _
      rw [hc]; rfl
    have hs := (sem σ val hn).1.2 hval
    refine ⟨σ, fun v => ?_, hs.2⟩
    by_cases hlt : v < d.cols.length
    · exact hs.1 v (by rw [hv]; exact List.mem_range.2 hlt)
    · have e : m.var v = noVar := by
        rw [em']
        exact getD_out _ _ _ (by have := hp.vars.length_eq; omega)
      rw [e]
      refine ⟨fun _ => ?_, fun hf => by cases hf⟩
      show ((d.cols[v]?).map fun c => val c.1).getD 0 = 0
      rw [List.getElem?_eq_none (by omega)]; rfl
  exact ⟨hnames, hv, hord, hun, hfeas, hdef, sem⟩

open Setup Whole Search Sol Nbhd in
/-- **From the MPS file to the report.**  A text with the lines of a file `d` that obeys the rules of C90 is loaded; the
file can be satisfied, and the model meets the restrictions of a whole call (`Restricted`).  Then every call on this model
in which the search makes only moves of the neighbourhood (as in C76) ends with a report, and with the reported values
read by name:

* the report says "feasible" exactly when the values satisfy what the file says;
* the reported objective is the free row of the file at these values;
* whenever the search came across values that satisfy what the file says, so do the reported values, and their objective
  is at most `1e-5` above that of any of them.

Missing: the restrictions. -/
theorem file_is_reported_rightly_partial {ν μ : Type} [LinearOrder ν] [LinearOrder μ] (d : Doc) (hd : d.OK)
    (text : List (List Char)) (hw : Written text d.lines) (acceptContinuous : Bool)
    (hacc : acceptContinuous = true ∨ d.Integer) (m : MState) (names cnames : List Name)
    (hload : Mps.load acceptContinuous text = some (m, names, cnames)) (hsat : ∃ val, d.Satisfied val)
    (i : Input) (hres : Restricted i.options m) (m1 m0 : MState)
    (fast : Bool) (selRel : ℕ → List ℕ) (C : Nbhd.Config ν μ) (hpen : 0 ≤ i.pen)
    (hprep : prepare i.options i.lt i.user m = some (.ok m1)) (hgf : ofType i.lt m1 .gf2 = [])
    (h0 : started i m = some m0) (hC : C76.SetUp C selRel m1) (hcon : C74.Constrained m0) (es : List Event)
    (hfol : Follows C (Whole.cfg i fast selRel m) [] (begin m0) es)
    (hrel : ∀ low, Event.relax low ∈ es → selections i.options i.lt i.user m = [])
    (hstart : ∀ pre e post, es = pre ++ Event.start e :: post → ∃ q ∈ C66.all m0 pre, e.values = q.1) :
    names = d.cols.map Prod.fst ∧ ∃ r m', Whole.solve i fast selRel m es = some (r, m') ∧
      ∀ val, (∀ (k : ℕ) (n : Name), names[k]? = some n → r.values k = val n) →
        (r.feasible = true ↔ d.Satisfied val) ∧ r.objective = d.goal val ∧
        ∀ q ∈ C66.all m0 es, ∀ val', (∀ (k : ℕ) (n : Name), names[k]? = some n → q.1 k = val' n) → d.Satisfied val' →
          d.Satisfied val ∧ d.goal val ≤ d.goal val' + 1e-5 := by
  obtain ⟨hnames, -, hord, hun, hfeas, hdef, sem⟩ := file_facts d hd text hw acceptContinuous hacc m names cnames hload hsat i.options hres
  obtain ⟨r, m', h1, h2, h3, h4⟩ := C76.call_ends_with_right_report_partial i m m1 m0 fast selRel C hord hun
    hfeas hpen hprep hgf h0 hC hcon es hfol hrel hstart
  refine ⟨hnames, r, m', h1, ?_⟩
  intro val hval
  obtain ⟨s1, s2, s3⟩ := sem _ _ hval
  refine ⟨by rw [h2, s1], by rw [h3 hdef, s2], ?_⟩
  intro q hq val' hv' hs'
  obtain ⟨t1, t2, t3⟩ := sem _ _ hv'
  obtain ⟨k1, k2⟩ := h4 q hq (t1.2 hs')
  rw [s3, t3] at k2
  exact ⟨s1.1 k1, k2⟩

/-! ### A file meeting the conditions: that of C90 -/

namespace Sample
open Setup Whole Search Sol Nbhd

def loaded : Option (MState × List Name × List Name) := Mps.load false C90.Sample.text
def ex : MState := (loaded.map Prod.fst).getD (model {})
def names : List Name := ["x0".toList, "x1".toList, "x2".toList, "y".toList, "w".toList]
def cnames : List Name := ["one".toList, "cap".toList]
def inp : Input := ⟨C67.opts, C67.lt', fun _ => false, true, 100, []⟩
def m1 : MState := (C76.Sample.ok (prepare inp.options inp.lt inp.user ex)).getD ex
def m0 : MState := (started inp ex).getD ex
def conf : Nbhd.Config ℕ ℕ := { setup := m1, name := id, vname := id, lt := C67.lt', pairs := [] }
def selRel : ℕ → List ℕ := fun _ => selectionRelated id id m1 0
def cfg : Cfg := Whole.cfg inp true selRel ex
def cands (s : Search.St) : List Move := (candidates conf C76.Sample.on C74.Sample.every s.model).getD []
def after (s : Search.St) (ev : Event) : Search.St := (Search.step cfg s ev).getD s
def inc : Move := { alterations := [(3, 2)], sense := .integer, related := [1], isUnivariable := true }
def first : Dense := ⟨assignment m0, 0, 0, 0, true⟩
def s1 : Search.St := after (begin m0) (.start first)
def s2 : Search.St := after s1 (.move inc false)
def s3 : Search.St := after s2 (.penalties (fun _ => 3) (fun _ => 4))
def swap : Move := { alterations := [(0, 0), (1, 1)], sense := .selection, related := [1], isSelection := true }
def events : List Event := [.start first, .move inc false, .penalties (fun _ => 3) (fun _ => 4), .move swap false]

theorem loads : Mps.load false C90.Sample.text = some (ex, names, cnames) := by
  obtain ⟨m, hm, _⟩ := C90.file_gets_its_problem_partial C90.Sample.doc C90.Sample.ok C90.Sample.text C90.Sample.written
    false (Or.inr C90.Sample.integer)
  have e1 : C90.Sample.doc.cols.map Prod.fst = names := by decide +kernel
  have e2 : (C90.Sample.doc.rows.filter (fun r => r.1 ≠ .free)).map Prod.snd = cnames := by decide +kernel
  rw [e1, e2] at hm
  have : ex = m := by unfold ex loaded; rw [hm]; rfl
  rw [this]; exact hm

theorem prep : prepare inp.options inp.lt inp.user ex = some (.ok m1) := C76.Sample.of_ok (by decide +kernel) ex
theorem start : started inp ex = some m0 := by
  have h : (started inp ex).isSome = true := by decide +kernel
  obtain ⟨m, hm⟩ := Option.isSome_iff_exists.1 h
  unfold m0
  rw [hm]; rfl

theorem restricted : Restricted inp.options ex := by
  have key : ∀ c ∈ ex.conIds, ∀ t ∈ (ex.con c).expr.terms, t.2 = 1 ∨ t.2 = 2 ∨ t.2 = 3 := by decide +kernel
  have key2 : ∀ c ∈ ex.conIds, (ex.con c).expr.const = -1 ∨ (ex.con c).expr.const = -6 := by decide +kernel
  refine ⟨by decide, ?_, ?_, by decide +kernel, by decide +kernel, by decide +kernel, fun _ => by decide +kernel,
    fun _ => by decide +kernel, Or.inl (by decide)⟩
  · intro c hc t ht
    rcases key c hc t ht with h | h | h
    · exact ⟨by rw [h]; norm_num, 1, by rw [h]; rfl⟩
    · exact ⟨by rw [h]; norm_num, 2, by rw [h]; rfl⟩
    · exact ⟨by rw [h]; norm_num, 3, by rw [h]; rfl⟩
  · intro c hc
    rcases key2 c hc with h | h
    · exact ⟨-1, by rw [h]; rfl⟩
    · exact ⟨-6, by rw [h]; rfl⟩

theorem satisfiable : ∃ val, C90.Sample.doc.Satisfied val := by
  obtain ⟨m, hm, _, _, _, _, h⟩ := C90.file_gets_its_problem_partial C90.Sample.doc C90.Sample.ok C90.Sample.text
    C90.Sample.written false (Or.inr C90.Sample.integer)
  have e : ex = m := by
    have := loads.symm.trans hm
    simp only [Option.some.injEq, Prod.mk.injEq] at this
    exact this.1
  subst e
  have hs : Solves ex (fun v => if v = 0 then 1 else 0) := by
    refine ⟨?_, ?_⟩ <;> decide +kernel
  obtain ⟨val, hv⟩ := (C90.values_by_name C90.Sample.doc).2 (fun v => if v = 0 then 1 else 0)
  exact ⟨val, (h _ val hv).1.1 hs⟩

theorem feasible : ∃ σ, Feasible ex σ := by
  refine ⟨fun v => if v = 0 then 1 else 0, ?_, by decide +kernel⟩
  intro v
  by_cases hv : v < 5
  · have : ∀ v < 5, Admits (ex.var v) (if v = 0 then 1 else 0) := by decide +kernel
    exact this v hv
  · have hl : ex.varIds.length = 5 := by decide +kernel
    obtain ⟨o, ho⟩ := C90.Sample.ok.free
    obtain ⟨p, ep, hp⟩ := import_ok C90.Sample.ok ho C90.Sample.written false (Or.inr C90.Sample.integer)
    have e : ex = Mps.problem p := by
      have := loads.symm.trans ep
      simp only [Option.some.injEq, Prod.mk.injEq] at this
      exact this.1
    rw [e] at hl ⊢
    have hl' : p.vars.length = 5 := by simpa [Mps.problem] using hl
    have : (Mps.problem p).var v = noVar := getD_out p.vars v noVar (by omega)
    rw [this]
    refine ⟨fun _ => ?_, fun hf => by cases hf⟩
    show (if v = 0 then (1 : ℤ) else 0) = 0
    rw [if_neg (by omega)]

theorem setUp : C76.SetUp conf selRel m1 where
  setup := rfl
  recent := rfl
  names _ _ _ _ h := h
  pairs := by simp [conf]
  selRel v s h := by
    obtain ⟨o, ho⟩ := C90.Sample.ok.free
    obtain ⟨p, ep, hp⟩ := import_ok C90.Sample.ok ho C90.Sample.written false (Or.inr C90.Sample.integer)
    have e : ex = Mps.problem p := by
      have := loads.symm.trans ep
      simp only [Option.some.injEq, Prod.mk.injEq] at this
      exact this.1
    obtain ⟨hord, hu⟩ := ordinary hp inp.options (e ▸ restricted)
    rw [← e] at hord hu
    have : s ∈ selections inp.options inp.lt inp.user ex :=
      ((C76.pointers inp.options inp.lt inp.user ex m1 hord feasible hu prep).owner v s h).1
    have e : selections inp.options inp.lt inp.user ex = [0] := by decide +kernel
    rw [e] at this
    have : s = 0 := by simpa using this
    subst this; rfl

theorem follows : Follows conf (Whole.cfg inp true selRel ex) [] (begin m0) events := by
  refine ⟨trivial, fun t ht => ?_⟩
  obtain rfl : t = s1 := by unfold s1 after cfg; rw [ht]; rfl
  refine ⟨⟨C76.Sample.on, C74.Sample.every, by simp [C76.Sample.on], .plain (cands s1) inc (by decide +kernel) (by decide +kernel)⟩, fun t ht => ?_⟩
  obtain rfl : t = s2 := by unfold s2 after cfg; rw [ht]; rfl
  refine ⟨fun c => by norm_num, fun t ht => ?_⟩
  obtain rfl : t = s3 := by unfold s3 after cfg; rw [ht]; rfl
  exact ⟨⟨C76.Sample.on, C74.Sample.every, by simp [C76.Sample.on], .plain (cands s3) swap (by decide +kernel) (by decide +kernel)⟩, fun t ht => trivial⟩

example : C90.Sample.doc.OK ∧ Written C90.Sample.text C90.Sample.doc.lines ∧ C90.Sample.doc.Integer ∧
    Mps.load false C90.Sample.text = some (ex, names, cnames) ∧ (∃ val, C90.Sample.doc.Satisfied val) ∧
    Restricted inp.options ex ∧ 0 ≤ inp.pen ∧
    prepare inp.options inp.lt inp.user ex = some (.ok m1) ∧ ofType inp.lt m1 .gf2 = [] ∧
    started inp ex = some m0 ∧ C76.SetUp conf selRel m1 ∧ C74.Constrained m0 ∧
    Follows conf (Whole.cfg inp true selRel ex) [] (begin m0) events ∧
    (∀ low, Event.relax low ∈ events → selections inp.options inp.lt inp.user ex = []) ∧
    (∀ pre d post, events = pre ++ Event.start d :: post → ∃ q ∈ C66.all m0 pre, d.values = q.1) := by
  refine ⟨C90.Sample.ok, C90.Sample.written, C90.Sample.integer, loads, satisfiable, restricted, by decide +kernel, prep,
    by decide +kernel, start, setUp, ?_, follows, ?_, ?_⟩
  · unfold C74.Constrained; decide +kernel
  · intro low hl; simp [events] at hl
  · intro pre d post he
    refine ⟨(assignment m0, 0), by simp [C66.all], ?_⟩
    have hd : d = first := by
      have : Event.start d ∈ events := by rw [he]; simp
      simpa [events] using this
    subst hd; rfl

/-- The report of this call. -/
example : (Whole.solve inp true selRel ex events).map
    (fun p => (names.zip ([0, 1, 2, 3, 4].map p.1.values), p.1.objective, p.1.feasible)) =
    some ([("x0".toList, 1), ("x1".toList, 0), ("x2".toList, 0), ("y".toList, 2), ("w".toList, 1)], -5, true) := by
  decide +kernel

end Sample

end Printemps.C91
