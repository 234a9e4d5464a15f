import Verif.Props.C75
import Verif.Props.C68
import Verif.Lemmas.Chosen

/-! # C76 — a whole call, with the moves of the neighbourhood, ends with a right report -/

namespace Printemps.C76
open Spec Setup Whole Search Sol Nbhd

variable {ν μ : Type} [LinearOrder ν] [LinearOrder μ]

/-- As the user builds it, no variable belongs to a selection, and nothing is selected. -/
structure Unselected (O : MState) : Prop where
  ptr : ∀ v, (O.var v).selection = none
  none : ∀ s, O.selected s = none

def NoPtr (_ : ℕ) (v : Var) : Prop := v.selection = none

theorem noPtr_closed : Setup.Closed NoPtr where
  fix _ _ _ h := h
  bound i v old w l u hv _ _ _ _ h := by
    unfold Var.setBound at h
    split at h
    · exact absurd h (by simp)
    · simp only [Option.some.injEq] at h
      subst h
      unfold NoPtr Var.setupSense Var.updateMargin at *
      split <;> exact hv

/-- The pointers after the preparation. -/
structure Pointers (m : MState) (sels : List ℕ) : Prop where
  members : ∀ s ∈ sels, ∀ v ∈ (m.con s).expr.vars, (m.var v).selection = some s
  owner : ∀ v s, (m.var v).selection = some s → s ∈ sels ∧ v ∈ (m.con s).expr.vars
  off : ∀ s ∈ sels, (m.con s).enabled = false
  none : ∀ s, m.selected s = none

theorem pointers (o : Options) (lt : ℕ → ℕ → Bool) (user : ℕ → Bool) (O m : MState) (p : Ordinary o O)
    (hf : ∃ σ, Feasible O σ) (hu : Unselected O) (h : prepare o lt user O = some (.ok m)) :
    Pointers m (selections o lt user O) := by
  obtain ⟨m1, h1, h2, g⟩ := reduce_facts o lt O p.toProper hf
  obtain ⟨k0, k1, -⟩ := reduce_shrunk noPtr_closed o lt O m1 p.toProper hf p.presolve h1
  have k := k0.trans k1.toKept
  have hptr : ∀ v, (m1.var v).selection = none := k.vars hu.ptr
  have hsel : ∀ s, m1.selected s = none := by rw [k.frame]; exact hu.none
  unfold prepare at h
  rw [h1] at h
  simp only [andThen] at h
  have e : selections o lt user O = if o.selection ≠ .off ∧ m1.varIds.length > m1.conIds.length then
      SelectionExtract.chosen lt user o.selection m1 else [] := by
    unfold selections; rw [h1]
  rw [e]
  by_cases hs : o.selection ≠ .off ∧ m1.varIds.length > m1.conIds.length
  · rw [if_pos hs] at h ⊢
    simp only [Option.some.injEq, Outcome.ok.injEq] at h
    obtain ⟨e1, e2, e3⟩ := C30.extraction_effect lt user o.selection m1 g.conIds
    have hcon : ∀ c, m.con c = if c ∈ SelectionExtract.chosen lt user o.selection m1 then
        { m1.con c with enabled := false } else m1.con c := by rw [← h]; exact e1
    have hexpr : ∀ c, (m.con c).expr = (m1.con c).expr := by intro c; rw [hcon]; split <;> rfl
    have hvar : m.var = (SelectionExtract.extract lt user o.selection m1).var := by rw [← h]; rfl
    refine ⟨fun s hsm v hv => ?_, fun v s hv => ?_, fun s hsm => by rw [hcon, if_pos hsm], fun s => ?_⟩
    · rw [hexpr] at hv
      rw [hvar, e2 s hsm v hv]
    · by_cases hex : ∃ c ∈ SelectionExtract.chosen lt user o.selection m1, v ∈ (m1.con c).expr.vars
      · obtain ⟨c, hc, hvc⟩ := hex
        rw [hvar, e2 c hc v hvc] at hv
        have : c = s := by simpa using hv
        subst this
        exact ⟨hc, by rw [hexpr]; exact hvc⟩
      · push Not at hex
        rw [hvar, e3 v hex, hptr] at hv
        exact absurd hv (by simp)
    · have : m.selected s = (SelectionExtract.extract lt user o.selection m1).selected s := by rw [← h]; rfl
      rw [this]
      show (if s ∈ _ then none else _) = _
      split
      · rfl
      · exact hsel s
  · rw [if_neg hs] at h ⊢
    simp only [Option.some.injEq, Outcome.ok.injEq] at h
    have hvar : m.var = m1.var := by rw [← h]; rfl
    have hse : m.selected = m1.selected := by rw [← h]; rfl
    refine ⟨by simp, fun v s hv => ?_, by simp, fun s => by rw [hse]; exact hsel s⟩
    rw [hvar, hptr] at hv
    exact absurd hv (by simp)

/-- The neighbourhood set up for the prepared model `m1`: names of constraints differ, the pairs of the two-flip moves are
pairs of different 0/1 variables of the model (see C71), and the moves of a selection list the constraints stored with it. -/
structure SetUp (C : Nbhd.Config ν μ) (selRel : ℕ → List ℕ) (m1 : MState) : Prop where
  setup : C.setup = m1
  recent : C.recent = m1.var
  names : ∀ c ∈ m1.conIds, ∀ d ∈ m1.conIds, C.name c = C.name d → c = d
  pairs : ∀ p ∈ C.pairs, p.1 ≠ p.2 ∧ (p.1 ∈ m1.varIds ∧ p.2 ∈ m1.varIds) ∧
    ((m1.var p.1).sense = .binary ∨ (m1.var p.1).sense = .selection) ∧
    ((m1.var p.2).sense = .binary ∨ (m1.var p.2).sense = .selection)
  selRel : ∀ v s, (m1.var v).selection = some s → selRel v = selectionRelated C.name C.vname m1 s

theorem launched_rest {o : Options} {O m1 m0 : MState} {sels : List ℕ} (p : Ordinary o O) (h : Prepared O m1 sels)
    (i : Input) (hgf : ofType i.lt m1 .gf2 = []) (hl : launch i sels m1 = some m0) :
    (∀ v, (m0.var v).selection = (m1.var v).selection) ∧
    ∀ s x, m0.selected s = some x → m1.selected s = some x ∨ (s ∈ sels ∧ Verifier.Recorded m0 s x) := by
  unfold launch at hl
  obtain ⟨m2, h2, hl1⟩ := Option.bind_eq_some_iff.1 hl
  obtain ⟨m3, h3, hl2⟩ := Option.map_eq_some_iff.1 hl1
  have e3 : m3 = m2 := by
    unfold gf2Stage at h3
    rw [hgf] at h3
    simp only [List.isEmpty_nil, Bool.not_true, Bool.and_false, Bool.false_eq_true, if_false, Option.some.injEq] at h3
    exact h3.symm
  subst e3
  have rd := C68.ready p h
  have hp : sels.Pairwise (SelectionExtract.Apart m1) :=
    List.Pairwise.imp_of_mem (fun {a b} ha hb hab => rd.apart a ha b hb hab) rd.nodup
  have rest := Verifier.verifyAll_rest i.correct sels m1 m3 rd.nodup rd.varNodup hp h2
  have hv : m0.var = m3.var := by rw [← hl2]; rfl
  have hse : m0.selected = m3.selected := by rw [← hl2]; rfl
  refine ⟨fun v => by rw [hv]; exact (rest.keeps v).selection, fun s x hx => ?_⟩
  rw [hse] at hx
  rcases Verifier.verifyAll_recorded i.correct sels m1 m3 rd.nodup rd.varNodup hp (fun s hs v hvm => rd.sense s hs v hvm) h2 s x hx
    with k | ⟨k1, k2, k3, k4⟩
  · exact Or.inl k
  · refine Or.inr ⟨k1, ?_, by rw [hv]; exact k3, by rw [hv]; exact k4⟩
    have hm : SelectionExtract.members m0 s = SelectionExtract.members m3 s := by
      rw [← hl2]; rfl
    rw [hm]; exact k2

theorem fits {o : Options} {O m1 m0 : MState} {sels : List ℕ} {C : Nbhd.Config ν μ} {selRel : ℕ → List ℕ} {fast : Bool}
    (p : Ordinary o O) (h : Prepared O m1 sels) (hp : Pointers m1 sels) (hc : SetUp C selRel m1)
    (i : Input) (hgf : ofType i.lt m1 .gf2 = []) (hl : launch i sels m1 = some m0) :
    C74.Fits C ⟨fast, sels, selRel⟩ m0 := by
  obtain ⟨l, -, -, -⟩ := C68.launched p h i hgf hl
  obtain ⟨r1, r2, -, -, -, -, -, r8, -⟩ := l.rest
  obtain ⟨q1, q2⟩ := launched_rest p h i hgf hl
  have hcon := l.con
  have hexpr : ∀ c, (m0.con c).expr = (m1.con c).expr := fun c => by rw [hcon]
  have hdep : m0.dependents = [] := by rw [r8, h.dependents, p.dependents]
  have hinside : ∀ c ∈ m1.conIds, ∀ v ∈ (m1.con c).expr.vars, v ∈ m1.varIds := by
    intro c hcm v hv
    obtain ⟨j, hj, e⟩ := h.terms c hcm
    unfold Expr.vars at hv
    rw [e] at hv
    rw [h.varIds]; exact p.inside j hj v hv
  have howner : ∀ v s, (m0.var v).selection = some s → s ∈ sels ∧ v ∈ (m1.con s).expr.vars := by
    intro v s hv; rw [q1] at hv; exact hp.owner v s hv
  exact
    { recent := by rw [hc.recent, hc.setup]
      varIds := by rw [hc.setup, r2]
      conIds := by rw [hc.setup, r1]
      terms := fun c => by rw [hc.setup, hexpr]
      enabled := fun c => by rw [hc.setup, hcon]
      sense := fun v => by rw [hc.setup]; exact (l.bounds v).2.2.1.symm
      fixed := fun v => by rw [hc.setup]; exact (l.bounds v).2.2.2.symm
      names := by rw [r1]; exact hc.names
      vars := fun c hcm _ v hv => by rw [hexpr] at hv; rw [r1] at hcm; rw [r2]; exact hinside c hcm v hv
      deps := by rw [hdep]; simp
      members := fun s hs v hv => by rw [hexpr] at hv; rw [q1]; exact hp.members s hs v hv
      owner := fun v s hv => by
        obtain ⟨a, b⟩ := howner v s hv
        exact ⟨a, by rw [hexpr]; exact b, by rw [r2]; exact hinside s (h.selsIn s a) v b,
          by rw [(l.bounds v).2.2.1]; exact h.selSense s a v b⟩
      off := fun s hs => by rw [hcon]; exact hp.off s hs
      selRel := fun v s hv => by rw [q1] at hv; rw [hc.setup]; exact hc.selRel v s hv
      chosen := fun s u hu => by
        rcases q2 s u hu with k | ⟨k1, k2, k3, -⟩
        · rw [hp.none] at k; exact absurd k (by simp)
        · refine ⟨?_, k3⟩
          rw [q1]
          refine hp.members s k1 u ?_
          rw [← hexpr]; exact k2
      pairs := fun q hq => by
        obtain ⟨a, b, c, d⟩ := hc.pairs q hq
        exact ⟨a, by rw [r2]; exact b, by rw [(l.bounds q.1).2.2.1]; exact c, by rw [(l.bounds q.2).2.2.1]; exact d⟩ }

theorem good {o : Options} {O m1 m0 : MState} {sels : List ℕ} {selRel : ℕ → List ℕ} {fast : Bool}
    (p : Ordinary o O) (h : Prepared O m1 sels) (i : Input) (hgf : ofType i.lt m1 .gf2 = []) (hl : launch i sels m1 = some m0) :
    C66.Good ⟨fast, sels, selRel⟩ m0 (assignment m0) := by
  obtain ⟨l, -, -, -⟩ := C68.launched p h i hgf hl
  obtain ⟨-, r2, -⟩ := l.rest
  have hexpr : ∀ c, (m0.con c).expr = (m1.con c).expr := fun c => by rw [l.con]
  unfold launch at hl
  obtain ⟨m2, h2, hl1⟩ := Option.bind_eq_some_iff.1 hl
  obtain ⟨m3, h3, hl2⟩ := Option.map_eq_some_iff.1 hl1
  have e3 : m3 = m2 := by
    unfold gf2Stage at h3
    rw [hgf] at h3
    simp only [List.isEmpty_nil, Bool.not_true, Bool.and_false, Bool.false_eq_true, if_false, Option.some.injEq] at h3
    exact h3.symm
  subst e3
  obtain ⟨g1, g2, g3, -⟩ := C51.corrected_or_rejected_partial i.correct sels m1 m3 (C68.ready p h) h2
  have hv : ∀ v, assignment m0 v = (m3.var v).value := fun v => by
    show (m0.var v).value = _
    rw [← hl2]; rfl
  refine ⟨fun s hs => ?_, fun v hvm hb => ?_, fun v hvm hb => ?_⟩
  · rw [hexpr]
    obtain ⟨a, b⟩ := g1 s hs
    refine ⟨fun v hvm => by rw [hv]; exact a v hvm, ?_⟩
    rw [← b]; simp only [hv]
  · rw [(l.bounds v).2.2.1] at hb
    rw [hv]; exact g2 v (by rw [← r2]; exact hvm) hb
  · rw [(l.bounds v).2.2.1] at hb
    rw [hv, (l.bounds v).1, (l.bounds v).2.1]; exact g3 v (by rw [← r2]; exact hvm) hb

/-- The guarantee of a whole call.  For an ordinary model with a solution, without parity equations, whose setup succeeds:
if the search takes its moves from the neighbourhood (`Follows`), starts from values visited before, relaxes only models
without selections, and every free variable occurs in an enabled constraint, then the call ends with a report, and

* the reported values are marked feasible exactly if they solve the user's model,
* the reported objective is the user's objective of these values, and
* if the search came across a solution of the user's model, the reported values are one, and at most `1e-5` worse than
  any solution come across.

Missing: the restrictions of `Ordinary`, parity equations (C63, `C74.Late`) and free variables in no enabled constraint
(`C75.Doubled`). -/
theorem call_ends_with_right_report_partial (i : Input) (O m1 m0 : MState) (fast : Bool) (selRel : ℕ → List ℕ)
    (C : Nbhd.Config ν μ) (p : Ordinary i.options O) (hu : Unselected O) (hf : ∃ σ, Feasible O σ) (hpen : 0 ≤ i.pen)
    (hprep : prepare i.options i.lt i.user O = some (.ok m1)) (hgf : ofType i.lt m1 .gf2 = [])
    (h0 : started i O = some m0) (hC : SetUp C selRel m1) (hcon : C74.Constrained m0) (es : List Event)
    (hfol : Follows C (Whole.cfg i fast selRel O) [] (begin m0) es)
    (hrel : ∀ low, Event.relax low ∈ es → selections i.options i.lt i.user O = [])
    (hstart : ∀ pre d post, es = pre ++ Event.start d :: post → ∃ q ∈ C66.all m0 pre, d.values = q.1) :
    ∃ r m', Whole.solve i fast selRel O es = some (r, m') ∧
      (r.feasible = true ↔ Solves O r.values) ∧
      (O.objDefined = true → r.objective = exprValue O.obj r.values) ∧
      ∀ q ∈ C66.all m0 es, Solves O q.1 →
        Solves O r.values ∧ minObjective O r.values ≤ minObjective O q.1 + 1e-5 := by
  have hl : launch i (selections i.options i.lt i.user O) m1 = some m0 := by
    unfold started at h0; rw [hprep] at h0; exact h0
  have pr := prepared i.options i.lt i.user O m1 p hf hprep
  have pt := pointers i.options i.lt i.user O m1 p hf hu hprep
  have st : C66.Setting (Whole.cfg i fast selRel O) m0 := C68.setting p pr i hpen hgf hl fast selRel
  have ft : C74.Fits C (Whole.cfg i fast selRel O) m0 := fits p pr pt hC i hgf hl
  have gd : C66.Good (Whole.cfg i fast selRel O) m0 (assignment m0) := good p pr i hgf hl
  obtain ⟨⟨r, m', hs⟩, -⟩ := C75.every_call_ends_with_a_result_partial st ft hcon gd (fun s _ u hu' => by
      rcases (launched_rest p pr i hgf hl).2 s u hu' with k | ⟨-, -, -, k⟩
      · rw [pt.none] at k; exact absurd k (by simp)
      · exact k) es hfol hrel (fun pre d post e => by
        obtain ⟨q, hq, e'⟩ := hstart pre d post e
        exact ⟨q, hq, fun v _ => by rw [e']⟩)
  have hsome : (run (Whole.cfg i fast selRel O) es (begin m0)).isSome = true := by
    unfold Search.solve at hs
    obtain ⟨s, h1, -⟩ := Option.bind_eq_some_iff.1 hs
    rw [h1]; rfl
  have hle := C74.runs_are_legal_partial st ft hcon es hsome hfol
  have hs' : Whole.solve i fast selRel O es = some (r, m') := by unfold Whole.solve; rw [h0]; exact hs
  refine ⟨r, m', hs', ?_⟩
  exact C68.report_solves_user_model_partial i O m0 fast selRel p hf hpen
    (fun m hm => by
      rw [hprep] at hm
      simp only [Option.some.injEq, Outcome.ok.injEq] at hm
      rw [← hm]; exact hgf) h0 es hle r m' hs'

/-! ### A call meeting the conditions: minimise `-2 x0 + x2 - x3 - x4` under `x0 + x1 + x2 = 1`,
`2 x0 + x1 + 3 x2 + x3 ≤ 6`, with `x3` in `[0,5]` and the others 0/1.  The preparation fixes `x4` at 1 and makes the first
constraint a selection. -/

namespace Sample
open C74

def ex : MState := { Example.raw with
  var := fun v => if v = 3 then Example.int5 else Example.bin0
  varIds := [0, 1, 2, 3, 4]
  con := fun c => if c = 0 then Con.setup ⟨[(0, 1), (1, 1), (2, 1)], -1, 0⟩ .equal C67.kinds
    else Con.setup ⟨[(0, 2), (1, 1), (2, 3), (3, 1)], -6, 0⟩ .less C67.kinds
  conIds := [0, 1]
  obj := ⟨[(0, -2), (2, 1), (3, -1), (4, -1)], 0, 0⟩ }
def inp : Input := ⟨C67.opts, C67.lt', fun _ => false, true, 100, []⟩
def ok : Option (Outcome MState) → Option MState
  | some (.ok m) => some m
  | _ => none
theorem of_ok {r : Option (Outcome MState)} (h : (ok r).isSome = true) (d : MState) : r = some (.ok ((ok r).getD d)) := by
  unfold ok at h ⊢
  split at h
  · rfl
  · exact absurd h (by simp)
def m1 : MState := (ok (prepare inp.options inp.lt inp.user ex)).getD ex
def m0 : MState := (started inp ex).getD ex
def conf : Nbhd.Config ℕ ℕ := { setup := m1, name := id, vname := id, lt := C67.lt', pairs := [] }
def selRel : ℕ → List ℕ := fun _ => selectionRelated id id m1 0
def cfg : Cfg := Whole.cfg inp true selRel ex
def on : Status := { enabled := fun _ => true, available := fun _ _ => true, chain := [] }
def cands (s : St) : List Move := (candidates conf on C74.Sample.every s.model).getD []
def pick (k : ℕ) (s : St) : Move := (cands s).getD k { alterations := [] }
def after (s : St) (ev : Event) : St := (step cfg s ev).getD s
def s0 : St := begin m0
def inc : Move := { alterations := [(3, 2)], sense := .integer, related := [1], isUnivariable := true }
def first : Dense := ⟨assignment m0, 0, 0, 0, true⟩
def s1 : St := after s0 (.start first)
def s2 : St := after s1 (.move inc false)
def s3 : St := after s2 (.penalties (fun _ => 3) (fun _ => 4))
def swap : Move := { alterations := [(0, 0), (1, 1)], sense := .selection, related := [1], isSelection := true }
def events : List Event := [.start first, .move inc false, .penalties (fun _ => 3) (fun _ => 4), .move swap false]

theorem prep : prepare inp.options inp.lt inp.user ex = some (.ok m1) := of_ok (by decide +kernel) ex
theorem start : started inp ex = some m0 := by
  have h : (started inp ex).isSome = true := by decide +kernel
  obtain ⟨m, hm⟩ := Option.isSome_iff_exists.1 h
  unfold m0
  rw [hm]; rfl

theorem ordinary : Ordinary inp.options ex := by
  have key : ∀ c ∈ ex.conIds, ∀ t ∈ (ex.con c).expr.terms, t.2 = 1 ∨ t.2 = 2 ∨ t.2 = 3 := by decide +kernel
  have key2 : ∀ c ∈ ex.conIds, (ex.con c).expr.const = -1 ∨ (ex.con c).expr.const = -6 := by decide +kernel
  refine ⟨⟨by decide, by decide, by decide, by decide, fun v => rfl, by decide +kernel, by decide +kernel, by decide +kernel,
    ?_, fun v _ => ?_, by decide +kernel, by decide +kernel, fun _ => by decide +kernel, fun _ => by decide +kernel,
    Or.inl (by decide)⟩, by decide, ?_, by decide +kernel, by decide +kernel, by decide +kernel, by decide +kernel,
    by decide +kernel, rfl⟩
  · intro c hc t ht
    rcases key c hc t ht with h | h | h
    · exact ⟨by rw [h]; norm_num, 1, by rw [h]; rfl⟩
    · exact ⟨by rw [h]; norm_num, 2, by rw [h]; rfl⟩
    · exact ⟨by rw [h]; norm_num, 3, by rw [h]; rfl⟩
  · rcases C67.ex_var v with h | h <;> rw [show ex.var v = C67.ex.var v from rfl, h] <;> decide
  · intro c hc
    rcases key2 c hc with h | h
    · exact ⟨-1, by rw [h]; rfl⟩
    · exact ⟨-6, by rw [h]; rfl⟩

theorem feasible : ∃ σ, Feasible ex σ := by
  refine ⟨fun v => if v = 0 then 1 else 0, fun v => ?_, by decide +kernel⟩
  by_cases h0 : v = 0
  · subst h0; decide
  · dsimp only
    rw [if_neg h0]
    rcases C67.ex_var v with h | h <;> rw [show ex.var v = C67.ex.var v from rfl, h] <;> decide

theorem unselected : Unselected ex where
  ptr v := by rcases C67.ex_var v with h | h <;> rw [show ex.var v = C67.ex.var v from rfl, h] <;> rfl
  none _ := rfl

theorem setUp : SetUp conf selRel m1 where
  setup := rfl
  recent := rfl
  names _ _ _ _ h := h
  pairs := by simp [conf]
  selRel v s h := by
    have : s ∈ selections inp.options inp.lt inp.user ex :=
      ((pointers inp.options inp.lt inp.user ex m1 ordinary feasible unselected prep).owner v s h).1
    have e : selections inp.options inp.lt inp.user ex = [0] := by decide +kernel
    rw [e] at this
    have : s = 0 := by simpa using this
    subst this; rfl

theorem follows : Follows conf (Whole.cfg inp true selRel ex) [] (begin m0) events := by
  refine ⟨trivial, fun t ht => ?_⟩
  obtain rfl : t = s1 := by unfold s1 after cfg s0; rw [ht]; rfl
  refine ⟨⟨on, C74.Sample.every, by simp [on], .plain (cands s1) inc (by decide +kernel) (by decide +kernel)⟩, fun t ht => ?_⟩
  obtain rfl : t = s2 := by unfold s2 after cfg; rw [ht]; rfl
  refine ⟨fun c => by norm_num, fun t ht => ?_⟩
  obtain rfl : t = s3 := by unfold s3 after cfg; rw [ht]; rfl
  exact ⟨⟨on, C74.Sample.every, by simp [on], .plain (cands s3) swap (by decide +kernel) (by decide +kernel)⟩, fun t ht => trivial⟩

example : Ordinary inp.options ex ∧ Unselected ex ∧ (∃ σ, Feasible ex σ) ∧ 0 ≤ inp.pen ∧
    prepare inp.options inp.lt inp.user ex = some (.ok m1) ∧ ofType inp.lt m1 .gf2 = [] ∧ started inp ex = some m0 ∧
    SetUp conf selRel m1 ∧ C74.Constrained m0 ∧ Follows conf (Whole.cfg inp true selRel ex) [] (begin m0) events ∧
    (∀ low, Event.relax low ∈ events → selections inp.options inp.lt inp.user ex = []) ∧
    (∀ pre d post, events = pre ++ Event.start d :: post → ∃ q ∈ C66.all m0 pre, d.values = q.1) := by
  refine ⟨ordinary, unselected, feasible, by decide +kernel, prep, by decide +kernel, start, setUp, ?_, follows, ?_, ?_⟩
  · unfold C74.Constrained; decide +kernel
  · intro low hl; simp [events] at hl
  · intro pre d post he
    refine ⟨(assignment m0, 0), by simp [C66.all], ?_⟩
    have hd : d = first := by
      have : Event.start d ∈ events := by rw [he]; simp
      simpa [events] using this
    subst hd; rfl

/-- The report of this call. -/
example : (Whole.solve inp true selRel ex events).map
    (fun p => ([0, 1, 2, 3, 4].map p.1.values, p.1.objective, p.1.feasible)) = some ([1, 0, 0, 2, 1], -5, true) := by
  decide +kernel

end Sample

end Printemps.C76

