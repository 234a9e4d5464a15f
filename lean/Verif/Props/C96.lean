import Verif.Props.C92
import Verif.Props.C94

/-! # C96: programs, MPS files and runs of the command line program with bounding switched on, as it is by default -/

namespace Printemps.C96
open Spec Setup Whole Search Sol Nbhd Ctl Stated

open Program C88 in
/-- **From the program to the report, with bounding.**  A program obeys the rules of C88, changes no bounds once a constraint is
stated, and states a problem that can be satisfied; the model it builds meets the restrictions of a whole call (`Restricted`), has
an objective that is minimised, with integers other than zero as coefficients (`PlainObjective`), and no selections.  Then, for
every course of a call whose searches take their moves from the neighbourhood, whether or not bounds are made smaller on the way:
in the mode "smart", the default, the call ends with a report; and if it ends with one, in whichever mode, then with the reported
values read by array and index

* the report says "feasible" exactly when the values satisfy what the program states;
* the reported objective is the stated objective at these values;
* whenever the search came across values that satisfy what the program states, so do the reported values, and they cost at most
  `1e-5` more than any of them.

Missing: the restrictions. -/
theorem stated_problem_is_reported_rightly_with_bounding_partial {ν μ : Type} [LinearOrder ν] [LinearOrder μ] (p : List Stmt)
    (hp : ProgramOK {} p) (hf : BoundsFirst p) (s : Program.St) (hrun : Program.run {} p = .ok s)
    (hsat : ∃ val, (meaning {} p).Satisfied val) (i : Input) (hres : Restricted i.options (model s)) (ob : PlainObjective (model s))
    (hno : selections i.options i.lt i.user (model s) = []) (m1 m0 : MState)
    (fast : Bool) (selRel : ℕ → List ℕ) (name : ℕ → String) (o : Ctl.Opt) (C : Nbhd.Config ν μ) (hpen : 0 ≤ i.pen)
    (hprep : prepare i.options i.lt i.user (model s) = some (.ok m1)) (hgf : ofType i.lt m1 .gf2 = [])
    (h0 : started i (model s) = some m0) (hC : C76.SetUp C selRel m1) (hcon : C74.Constrained m0)
    (hname : ∀ v < s.next, ∀ w < s.next, name v = name w → v = w)
    (pl : Plan) (hob : Obeys C name (Whole.cfg i fast selRel (model s)) o m0 pl) :
    (o.mode = .smart → ∃ r m', call i fast selRel name o (model s) pl = some (r, m')) ∧
    ∀ r m', call i fast selRel name o (model s) pl = some (r, m') →
      ∃ x, searches name (Whole.cfg i fast selRel (model s)) o m0 pl = some x ∧
      ∀ val, Reads s (meaning {} p) r.values val →
        (r.feasible = true ↔ (meaning {} p).Satisfied val) ∧
        ((meaning {} p).hasGoal = true → r.objective = (meaning {} p).goal val) ∧
        ∀ q ∈ C66.all m0 x.done, ∀ val', Reads s (meaning {} p) q.1 val' → (meaning {} p).Satisfied val' →
          (meaning {} p).Satisfied val ∧ (meaning {} p).cost val ≤ (meaning {} p).cost val' + 1e-5 := by
  obtain ⟨ho, hu, hfe, hg, sem⟩ := C89.program_facts p hp hf s hrun hsat i.options hres
  obtain ⟨-, k1, k2⟩ := C94.call_with_bounding_from_neighbourhood_partial i (model s) m1 m0 fast selRel name o C ho ob hu hno hfe
    hpen hprep hgf h0 hC hcon (fun v hv w hw => hname v (List.mem_range.1 hv) w (List.mem_range.1 hw)) pl hob
  refine ⟨k1, fun r m' hc => ?_⟩
  obtain ⟨x, hx, h2, h3, h4, -⟩ := k2 r m' hc
  refine ⟨x, hx, fun val hv => ?_⟩
  obtain ⟨s1, s2, s3⟩ := sem _ _ hv
  refine ⟨by rw [h2, s1], fun h => by rw [h3 (hg.trans h), s2], fun q hq val' hv' hs' => ?_⟩
  obtain ⟨t1, t2, t3⟩ := sem _ _ hv'
  obtain ⟨l1, l2⟩ := h4 q hq (t1.2 hs')
  rw [s3, t3] at l2
  exact ⟨s1.1 l1, l2⟩

open MpsFile in
/-- **From the MPS file to the report, with bounding.**  As C91, whether or not bounds are made smaller on the way, for a model with
integers other than zero as coefficients of the objective and no selections.  In the mode "smart", the default, the call ends with a
report; and if it ends with one, in whichever mode, the report is right in the terms of the file.

Missing: the restrictions. -/
theorem file_is_reported_rightly_with_bounding_partial {ν μ : Type} [LinearOrder ν] [LinearOrder μ] (d : Doc) (hd : d.OK)
    (text : List (List Char)) (hw : Written text d.lines) (acceptContinuous : Bool)
    (hacc : acceptContinuous = true ∨ d.Integer) (m : MState) (names cnames : List Name)
    (hload : Mps.load acceptContinuous text = some (m, names, cnames)) (hsat : ∃ val, d.Satisfied val)
    (i : Input) (hres : Restricted i.options m) (ob : PlainObjective m) (hno : selections i.options i.lt i.user m = []) (m1 m0 : MState)
    (fast : Bool) (selRel : ℕ → List ℕ) (name : ℕ → String) (o : Ctl.Opt) (C : Nbhd.Config ν μ) (hpen : 0 ≤ i.pen)
    (hprep : prepare i.options i.lt i.user m = some (.ok m1)) (hgf : ofType i.lt m1 .gf2 = [])
    (h0 : started i m = some m0) (hC : C76.SetUp C selRel m1) (hcon : C74.Constrained m0)
    (hname : ∀ v < names.length, name v = String.ofList (names.getD v []))
    (pl : Plan) (hob : Obeys C name (Whole.cfg i fast selRel m) o m0 pl) :
    names = d.cols.map Prod.fst ∧
    (o.mode = .smart → ∃ r m', call i fast selRel name o m pl = some (r, m')) ∧
    ∀ r m', call i fast selRel name o m pl = some (r, m') →
      ∃ x, searches name (Whole.cfg i fast selRel m) o m0 pl = some x ∧
      ∀ val, (∀ (k : ℕ) (n : Name), names[k]? = some n → r.values k = val n) →
        (r.feasible = true ↔ d.Satisfied val) ∧ r.objective = d.goal val ∧
        ∀ q ∈ C66.all m0 x.done, ∀ val', (∀ (k : ℕ) (n : Name), names[k]? = some n → q.1 k = val' n) → d.Satisfied val' →
          d.Satisfied val ∧ d.goal val ≤ d.goal val' + 1e-5 := by
  obtain ⟨hnames, hv, ho, hu, hfe, hg, sem⟩ := C91.file_facts d hd text hw acceptContinuous hacc m names cnames hload hsat i.options hres
  have hnd : names.Nodup := by rw [hnames]; exact first_nodup _
  have hlen : names.length = d.cols.length := by rw [hnames, List.length_map]
  have hinj : ∀ v ∈ m.varIds, ∀ w ∈ m.varIds, name v = name w → v = w := by
    intro v hv1 w hw1 e
    rw [hv, List.mem_range, ← hlen] at hv1 hw1
    rw [hname v hv1, hname w hw1] at e
    have e' := C70.ofList_inj e
    rw [List.getD_eq_getElem?_getD, List.getD_eq_getElem?_getD, List.getElem?_eq_getElem hv1, List.getElem?_eq_getElem hw1] at e'
    exact (List.Nodup.getElem_inj_iff hnd).1 e'
  obtain ⟨-, k1, k2⟩ := C94.call_with_bounding_from_neighbourhood_partial i m m1 m0 fast selRel name o C ho ob hu hno hfe
    hpen hprep hgf h0 hC hcon hinj pl hob
  refine ⟨hnames, k1, fun r m' hc => ?_⟩
  obtain ⟨x, hx, h2, h3, h4, -⟩ := k2 r m' hc
  refine ⟨x, hx, fun val hv => ?_⟩
  obtain ⟨s1, s2, s3⟩ := sem _ _ hv
  refine ⟨by rw [h2, s1], by rw [h3 hg, s2], fun q hq val' hv' hs' => ?_⟩
  obtain ⟨t1, t2, t3⟩ := sem _ _ hv'
  obtain ⟨l1, l2⟩ := h4 q hq (t1.2 hs')
  rw [s3, t3] at l2
  exact ⟨s1.1 l1, l2⟩

open MpsFile Json Cmd Opt Text C92 in
/-- **From the command line to the solution file, with bounding.**  As C92, whether or not bounds are made smaller on the way, for a
model with integers other than zero as coefficients of the objective and no selections, in the mode "smart", the default: the program
writes a solution file, and what is in it is right.

Missing: the restrictions (`hres`, `hone`, `ob`, `hno`, `hmode`, `hgf`, `hcon`), and a setup that throws. -/
theorem solution_file_is_right_with_bounding_partial (fs : Str → Option (List Char)) (fuel : ℕ) (args : List Str) (w : World) (a : Args)
    (hargs : args ≠ []) (hparse : parse args {} = some a) (hex : a.extract = false)
    (d : Doc) (hd : d.OK) (content : List Char) (hfs : fs a.mps = some content) (hw : Written (lines content) d.lines)
    (hacc : a.accept = true ∨ d.Integer) (hread : C70.Readable fs fuel a) (hsat : ∃ val, Solution fs a d val)
    (m : MState) (names cnames : List Str) (hload : Mps.load a.accept (lines content) = some (m, names, cnames))
    (r : Ready) (hset : Cmd.setup fs fuel (nameOf names) (nameOf cnames) a m = .ok r)
    (s : Setup.Options) (t : Ctl.Opt) (hs : setupOptions r.options = some s) (ht : searchOptions r.options = some t)
    (hmode : t.mode = .smart) (hres : Restricted s m)
    (hone : s.setConstraints = true ∨ s.setVariables = true → ∀ (k : ℕ) (n : Str), names[k]? = some n → (m.var k).sense = .binary →
      ¬ Asked fs a n 1)
    (ob : PlainObjective m) (hno : selections s (input w names s r).lt (input w names s r).user r.model = [])
    (m1 m0 : MState) (hprep : prepare s (input w names s r).lt (input w names s r).user r.model = some (.ok m1))
    (hgf : ofType (input w names s r).lt m1 .gf2 = []) (h0 : started (input w names s r) r.model = some m0)
    (hcn : ∀ c ∈ m1.conIds, ∀ e ∈ m1.conIds, w.conName c = w.conName e → c = e)
    (hpairs : ∀ p ∈ r.pairs, p.1 ≠ p.2 ∧ (p.1 ∈ m1.varIds ∧ p.2 ∈ m1.varIds) ∧
      ((m1.var p.1).sense = .binary ∨ (m1.var p.1).sense = .selection) ∧
      ((m1.var p.2).sense = .binary ∨ (m1.var p.2).sense = .selection))
    (hpen : 0 ≤ w.pen) (hcon : C74.Constrained m0)
    (hob : Obeys (neighbourhood w names r m1) (fun v => String.ofList (nameOf names v))
      (Whole.cfg (input w names s r) (flag r.options c!"general" c!"is_enabled_fast_evaluation") (selectionRel w names m1) r.model)
      t m0 w.plan) :
    names = d.cols.map Prod.fst ∧ ∃ text x, Cmd.run fs fuel args w = .ok (some text) ∧
      searches (fun v => String.ofList (nameOf names v))
        (Whole.cfg (input w names s r) (flag r.options c!"general" c!"is_enabled_fast_evaluation") (selectionRel w names m1) r.model)
        t m0 w.plan = some x ∧
      (∃ val, ShowsValues text d val) ∧ ∀ val, ShowsValues text d val →
        (Solution fs a d val → SaysObjective text (d.goal val)) ∧ (¬ Solution fs a d val → SaysInfeasible text) ∧
        ∀ q ∈ C66.all m0 x.done, ∀ val', (∀ (k : ℕ) (n : Str), names[k]? = some n → q.1 k = val' n) → Solution fs a d val' →
          Solution fs a d val ∧ d.goal val ≤ d.goal val' + 1e-5 := by
  obtain ⟨hnames, hord, hun, hmar, hdist, hfeas, hup, ⟨e1, e2, e3, e4⟩, key⟩ := run_facts fs fuel args w a hargs hparse hex d hd content
    hfs hw hacc hread hsat m names cnames hload r hset s t hs ht hres hone m1 hprep hcn hpairs
  have ob' : PlainObjective r.model :=
    ⟨e2, fun h => absurd (e1.symm.trans h) (by decide), by rw [e3]; exact ob.nonzero, by rw [e3]; exact ob.integral,
      by rw [e3, e4]; exact ob.listed⟩
  obtain ⟨-, c1, c2⟩ := C94.call_with_bounding_from_neighbourhood_partial (input w names s r) r.model m1 m0
    (flag r.options c!"general" c!"is_enabled_fast_evaluation") (selectionRel w names m1) (fun v => String.ofList (nameOf names v)) t
    (neighbourhood w names r m1) hord ob' hun hno hfeas hpen hprep hgf h0 hup hcon hdist w.plan hob
  obtain ⟨sol, m', h2⟩ := c1 hmode
  obtain ⟨x, h1, h3, h4, h5, -⟩ := c2 sol m' h2
  obtain ⟨text, k1, k2, k3⟩ := key sol m' h2 h3 h4
  refine ⟨hnames, text, x, k1, h1, k2, fun val hval => ?_⟩
  obtain ⟨l1, l2, l3⟩ := k3 val hval
  refine ⟨l1, l2, fun q hq val' hv' hS => ?_⟩
  obtain ⟨e1, e2⟩ := l3 q.1 val' hv'
  obtain ⟨g1, g2⟩ := h5 q hq (e1.2 hS)
  exact e2 g1 g2

/-! ### The problem of `C94.Renewed`: minimise `3 x + y` under `x + y ≥ 1`, `x` 0/1, `y` in `[0,5]`.  The first tabu search flips `x`,
the second one finds `(0, 1)`; the bounding then fixes `x` and makes `y` a 0/1 variable, and the third search flips `y`. -/

namespace Sample

def flip (x : ℤ) : Move := { alterations := [(0, x)], sense := .binary, related := [0], isUnivariable := true }
def inc (x : ℤ) : Move := { alterations := [(1, x)], sense := .integer, related := [0], isUnivariable := true }
def flip' (x : ℤ) : Move := { inc x with sense := .binary }
def lap1 : Lap := ⟨[.move (flip 1) false], 1, false, fun _ => 3, fun _ => 4⟩
def lap2 : Lap := ⟨[.move (inc 1) false, .move (flip 0) false], 1, false, fun _ => 5, fun _ => 6⟩
def lap3 : Lap := ⟨[.move (flip' 0) false], 1, false, fun _ => 5, fun _ => 6⟩
def plan : Plan := ⟨some [.relax (fun _ => true)], none, [lap1, lap2, lap3]⟩

/-! #### As a program -/

namespace Code
open Program C88

def prog : List Stmt :=
  [.variables_ "x".toList [1] (some (0, 1)),
   .variables_ "y".toList [1] none,
   .bounds 1 .whole 0 5,
   .constraintOf "c".toList (.compare .greater (.term (.add (.varArr 0) (.varArr 1))) (.num 1)),
   .goal true (.add (.mulNum (.var 0 [0]) 3) (.varArr 1))]
def st : Program.St := match Program.run {} prog with
  | .ok s => s
  | _ => {}
theorem runs : Program.run {} prog = .ok st := rfl
theorem good : ProgramOK {} prog := by
  simp [ProgramOK, prog, StmtOK, NewOK, ManyOK, OneOK, TermOK, RelationOK, Meaning.after, IndexOK,
    shapeOf, indices, List.range_succ]
theorem first_bounds : BoundsFirst prog := by
  simp [BoundsFirst, prog, statesConstraint, changesBounds]

def ex : MState := model st
def inp : Input := ⟨C67.opts, C67.lt', fun _ => false, true, 100, []⟩
def m1 : MState := (C76.Sample.ok (prepare inp.options inp.lt inp.user ex)).getD ex
def m0 : MState := (started inp ex).getD ex
def conf : Nbhd.Config ℕ ℕ := { setup := m1, name := id, vname := id, lt := C67.lt', pairs := [] }
def name : ℕ → String := fun v => if v = 0 then "x" else "y"
def selRel : ℕ → List ℕ := fun _ => []
def opt : Ctl.Opt := { mode := .smart, innerBreaker := true, innerThreshold := 5, outerThreshold := 2, bounding := true }
theorem prep : prepare inp.options inp.lt inp.user ex = some (.ok m1) := C76.Sample.of_ok (by decide +kernel) ex
theorem start : started inp ex = some m0 := by
  have h : (started inp ex).isSome = true := by decide +kernel
  obtain ⟨m, hm⟩ := Option.isSome_iff_exists.1 h
  unfold m0
  rw [hm]; rfl
theorem restricted : Restricted inp.options ex := by
  have key : ∀ c ∈ ex.conIds, ∀ t ∈ (ex.con c).expr.terms, t.2 = 1 := by decide +kernel
  have key2 : ∀ c ∈ ex.conIds, (ex.con c).expr.const = -1 := by decide +kernel
  refine ⟨by decide, ?_, ?_, by decide +kernel, by decide +kernel, by decide +kernel, fun _ => by decide +kernel,
    fun _ => by decide +kernel, Or.inl (by decide)⟩
  · intro c hc t ht
    rw [key c hc t ht]
    exact ⟨by norm_num, 1, rfl⟩
  · intro c hc
    rw [key2 c hc]
    exact ⟨-1, rfl⟩

theorem plainly : PlainObjective ex := by
  have key : ∀ t ∈ ex.obj.terms, t.2 = 3 ∨ t.2 = 1 := by decide +kernel
  refine ⟨by decide +kernel, fun h => absurd h (by decide +kernel), by decide +kernel, fun t ht => ?_, by decide +kernel⟩
  rcases key t ht with h | h
  · exact ⟨3, by rw [h]; rfl⟩
  · exact ⟨1, by rw [h]; rfl⟩

theorem satisfiable : ∃ val, (meaning {} prog).Satisfied val := by
  obtain ⟨s', e', hr⟩ := run_ok prog {} {} rep_empty good
  rw [runs] at e'
  cases e'
  have h : Solves ex (fun _ => 1) := by
    refine ⟨?_, ?_⟩ <;> decide +kernel
  exact ⟨_, (satisfied_iff hr _ _ (agree_valuesOf st _)).1 h⟩

theorem setUp : C76.SetUp conf selRel m1 where
  setup := rfl
  recent := rfl
  names _ _ _ _ h := h
  pairs := by simp [conf]
  selRel v s h := by
    obtain ⟨ho, hu, hf, -⟩ := C89.program_facts prog good first_bounds st runs satisfiable inp.options restricted
    have : s ∈ selections inp.options inp.lt inp.user ex :=
      ((C76.pointers inp.options inp.lt inp.user ex m1 ho hf hu prep).owner v s h).1
    have e : selections inp.options inp.lt inp.user ex = [] := by decide +kernel
    rw [e] at this
    exact absurd this (by simp)

def cfg : Search.Cfg := Whole.cfg inp true selRel (model st)
def cands (ρ : ℕ → Var) (s : Search.St) : List Move := (Nbhd.candidates { conf with recent := ρ } C94.Renewed.on C74.Sample.every s.model).getD []
def x0 : Sofar := ⟨begin m0, []⟩
def p1 : Sparse × Sofar := (optional name cfg (firstSolution name m0) (if applicable m0 then plan.lagrange else none) x0).getD
  (firstSolution name m0, x0)
def none' : Dense × Search.St := (⟨fun _ => 0, 0, 0, 0, true⟩, begin m0)
def t1 : Dense × Search.St := (startFrom name cfg p1.1 p1.2.st).getD none'
def c1 : Ctl.State := { current := p1.1 }
def p2 : Ctl.State × Sofar := (lapStep name cfg opt lap1 c1 p1.2).getD (c1, x0)
def t2 : Dense × Search.St := (startFrom name cfg p2.1.current p2.2.st).getD none'
def s2 : Search.St := (Search.step cfg t2.2 (.move (inc 1) false)).getD t2.2
def p3 : Ctl.State × Sofar := (lapStep name cfg opt lap2 p2.1 p2.2).getD (c1, x0)
def t3 : Dense × Search.St := (startFrom name cfg p3.1.current p3.2.st).getD none'
def r2 : ℕ → Var := renew (conf).recent p2.2.st.model
def r3 : ℕ → Var := renew r2 p3.2.st.model

theorem obeys : Obeys (conf) name (Whole.cfg inp true selRel (model st)) opt m0 plan := by
  refine ⟨fun b hb e he => ?_, fun p hp => ⟨fun b hb => absurd hb (by simp [plan]), fun q hq => ?_⟩⟩
  · obtain rfl := Option.some.inj hb
    exact ⟨_, List.mem_singleton.1 he⟩
  have hp' : p = p1 := by unfold p1 x0 cfg; rw [hp]; rfl
  obtain rfl : q = (p.1, p.2) := (Option.some.inj hq).symm
  rw [hp']
  refine ⟨fun e he => ⟨_, _, List.mem_singleton.1 he⟩, fun c => by unfold lap1; norm_num, fun d s hs => ⟨?_, fun _ _ => trivial⟩,
    fun y hr => ?_⟩
  · have e : (d, s) = t1 := by unfold t1 cfg; rw [hs]; rfl
    obtain rfl : s = t1.2 := by rw [← e]
    exact ⟨C94.Renewed.on, C74.Sample.every, by simp [C94.Renewed.on], .plain (cands (conf).recent t1.2) (flip 1) (by decide +kernel) (by decide +kernel)⟩
  have hr' : y = p2 := by unfold p2 c1 cfg; rw [hr]; rfl
  subst hr'
  refine ⟨fun e he => ?_, fun c => by unfold lap2; norm_num, fun d s hs => ⟨?_, fun s' hs' => ⟨?_, fun _ _ => trivial⟩⟩, fun y hr => ?_⟩
  · simp only [lap2, List.mem_cons, List.not_mem_nil, or_false] at he
    rcases he with rfl | rfl <;> exact ⟨_, _, rfl⟩
  · have e : (d, s) = t2 := by unfold t2 cfg; rw [hs]; rfl
    obtain rfl : s = t2.2 := by rw [← e]
    exact ⟨C94.Renewed.on, C74.Sample.every, by simp [C94.Renewed.on], .plain (cands r2 t2.2) (inc 1) (by decide +kernel) (by decide +kernel)⟩
  · have e : (d, s) = t2 := by unfold t2 cfg; rw [hs]; rfl
    obtain rfl : s = t2.2 := by rw [← e]
    obtain rfl : s' = s2 := by unfold s2 cfg; rw [hs']; rfl
    exact ⟨C94.Renewed.on, C74.Sample.every, by simp [C94.Renewed.on], .plain (cands r2 s2) (flip 0) (by decide +kernel) (by decide +kernel)⟩
  have hr' : y = p3 := by unfold p3 cfg; rw [hr]; rfl
  subst hr'
  refine ⟨fun e he => ⟨_, _, List.mem_singleton.1 he⟩, fun c => by unfold lap3; norm_num, fun d s hs => ⟨?_, fun _ _ => trivial⟩,
    fun _ _ => trivial⟩
  have e : (d, s) = t3 := by unfold t3 cfg; rw [hs]; rfl
  obtain rfl : s = t3.2 := by rw [← e]
  exact ⟨C94.Renewed.on, C74.Sample.every, by simp [C94.Renewed.on], .plain (cands r3 t3.2) (flip' 0) (by decide +kernel) (by decide +kernel)⟩

/-- All conditions are met. -/
example : ProgramOK {} prog ∧ BoundsFirst prog ∧ Program.run {} prog = .ok st ∧
    (∃ val, (meaning {} prog).Satisfied val) ∧ Restricted inp.options (model st) ∧ PlainObjective (model st) ∧
    selections inp.options inp.lt inp.user (model st) = [] ∧ 0 ≤ inp.pen ∧
    prepare inp.options inp.lt inp.user (model st) = some (.ok m1) ∧ ofType inp.lt m1 .gf2 = [] ∧
    started inp (model st) = some m0 ∧ C76.SetUp conf selRel m1 ∧ C74.Constrained m0 ∧
    (∀ v < st.next, ∀ w < st.next, name v = name w → v = w) ∧ opt.mode = .smart ∧ opt.bounding = true ∧
    Obeys conf name (Whole.cfg inp true selRel (model st)) opt m0 plan :=
  ⟨good, first_bounds, runs, satisfiable, restricted, plainly, by decide +kernel, by decide +kernel, prep, by decide +kernel, start, setUp,
    (by unfold C74.Constrained; decide +kernel), by decide +kernel, rfl, rfl, obeys⟩

/-- The report of this call; `x` has been fixed on the way. -/
example : (call inp true selRel name opt (model st) plan).map (fun p => ([0, 1].map p.1.values, p.1.objective, p.1.feasible)) =
    some ([0, 1], 1, true) := by decide +kernel
example : (call inp true selRel name opt (model st) plan).map (fun p => [0, 1].map fun v => ((p.2.var v).lb, (p.2.var v).ub, (p.2.var v).fixed)) =
    some [(0, 0, true), (0, 1, false)] := by decide +kernel

end Code

/-! #### As a file -/

namespace File
open MpsFile

def int (n : Fin 10) : Number := ⟨.none, [n], none, none⟩
def doc : Doc where
  title := "sample".toList
  rows := [(.free, "cost".toList), (.greater, "c".toList)]
  columns := [.integersBegin "M1".toList "'MARKER'".toList,
    .entries "x".toList [("cost".toList, int 3), ("c".toList, int 1)],
    .entries "y".toList [("cost".toList, int 1), ("c".toList, int 1)],
    .integersEnd "M2".toList "'MARKER'".toList]
  rhs := [("rhs".toList, [("c".toList, int 1)])]
  bounds := [.limit .up "bnd".toList "y".toList (int 5)]

def text : List (List Char) :=
  ["NAME sample".toList, "ROWS".toList, " N  cost".toList, " G  c".toList, "COLUMNS".toList,
   "  M1 'MARKER' 'INTORG'".toList, "  x  cost  3  c  1".toList, "  y  cost  1  c  1".toList,
   "  M2 'MARKER' 'INTEND'".toList, "RHS".toList, "  rhs  c  1".toList, "BOUNDS".toList, " UP  bnd  y  5".toList, "ENDATA".toList]

theorem written : Written text doc.lines := by
  have h1 : text.map Text.tokens = doc.lines ++ [] := by decide +kernel
  have app : ∀ (a b : List (List Char)) (ws : List (List Name)), Written b ws → Written (a ++ b) (a.map Text.tokens ++ ws) := by
    intro a b ws h
    induction a with
    | nil => exact h
    | cons l a ih => exact .line l _ _ _ (spells_from l [] (by simp)) ih
  have := app text [] [] (.done _)
  rw [h1] at this
  simpa using this

theorem ok : doc.OK where
  free := ⟨"cost".toList, by decide +kernel⟩
  rows := by decide +kernel
  columnWords := by simp [doc]
  rhsWords := by simp [doc]
  entries := by decide +kernel
  once := by decide +kernel
  sides := by
    intro e he
    have : e.1 = "c".toList := by
      revert e
      decide +kernel
    rw [this]
    exact ⟨.greater, by decide, by decide +kernel⟩
  sideOnce := by decide +kernel
  bounds := by
    intro b hb
    have : b = .limit .up "bnd".toList "y".toList (int 5) := by simpa [doc] using hb
    subst this
    exact ⟨by decide +kernel, 5, by decide +kernel, by decide, by decide⟩
  fixed := by
    intro s c x h
    simp [doc] at h
  ranges := by decide +kernel

theorem integer : doc.Integer := by
  intro c hc
  left
  revert c
  decide +kernel

def loaded : Option (MState × List Name × List Name) := Mps.load false text
def ex : MState := (loaded.map Prod.fst).getD (Program.model {})
def names : List Name := ["x".toList, "y".toList]
def cnames : List Name := ["c".toList]
theorem loads : Mps.load false text = some (ex, names, cnames) := by
  obtain ⟨m, hm, _⟩ := C90.file_gets_its_problem_partial doc ok text written false (Or.inr integer)
  have e1 : doc.cols.map Prod.fst = names := by decide +kernel
  have e2 : (doc.rows.filter (fun r => r.1 ≠ .free)).map Prod.snd = cnames := by decide +kernel
  rw [e1, e2] at hm
  have : ex = m := by unfold ex loaded; rw [hm]; rfl
  rw [this]; exact hm

def inp : Input := ⟨C67.opts, C67.lt', fun _ => false, true, 100, []⟩
def m1 : MState := (C76.Sample.ok (prepare inp.options inp.lt inp.user ex)).getD ex
def m0 : MState := (started inp ex).getD ex
def conf : Nbhd.Config ℕ ℕ := { setup := m1, name := id, vname := id, lt := C67.lt', pairs := [] }
def name : ℕ → String := fun v => String.ofList (names.getD v [])
def selRel : ℕ → List ℕ := fun _ => []
def opt : Ctl.Opt := { mode := .smart, innerBreaker := true, innerThreshold := 5, outerThreshold := 2, bounding := true }
theorem prep : prepare inp.options inp.lt inp.user ex = some (.ok m1) := C76.Sample.of_ok (by decide +kernel) ex
theorem start : started inp ex = some m0 := by
  have h : (started inp ex).isSome = true := by decide +kernel
  obtain ⟨m, hm⟩ := Option.isSome_iff_exists.1 h
  unfold m0
  rw [hm]; rfl
theorem restricted : Restricted inp.options ex := by
  have key : ∀ c ∈ ex.conIds, ∀ t ∈ (ex.con c).expr.terms, t.2 = 1 := by decide +kernel
  have key2 : ∀ c ∈ ex.conIds, (ex.con c).expr.const = -1 := by decide +kernel
  refine ⟨by decide, ?_, ?_, by decide +kernel, by decide +kernel, by decide +kernel, fun _ => by decide +kernel,
    fun _ => by decide +kernel, Or.inl (by decide)⟩
  · intro c hc t ht
    rw [key c hc t ht]
    exact ⟨by norm_num, 1, rfl⟩
  · intro c hc
    rw [key2 c hc]
    exact ⟨-1, rfl⟩

theorem plainly : PlainObjective ex := by
  have key : ∀ t ∈ ex.obj.terms, t.2 = 3 ∨ t.2 = 1 := by decide +kernel
  refine ⟨by decide +kernel, fun h => absurd h (by decide +kernel), by decide +kernel, fun t ht => ?_, by decide +kernel⟩
  rcases key t ht with h | h
  · exact ⟨3, by rw [h]; rfl⟩
  · exact ⟨1, by rw [h]; rfl⟩

theorem satisfiable : ∃ val, doc.Satisfied val := by
  obtain ⟨m, hm, _, _, _, _, h⟩ := C90.file_gets_its_problem_partial doc ok text written false (Or.inr integer)
  have e : ex = m := by
    have := loads.symm.trans hm
    simp only [Option.some.injEq, Prod.mk.injEq] at this
    exact this.1
  subst e
  have hs : Solves ex (fun _ => 1) := by
    refine ⟨?_, ?_⟩ <;> decide +kernel
  exact ⟨fun _ => 1, (h _ _ fun _ _ _ => rfl).1.1 hs⟩

theorem setUp : C76.SetUp conf selRel m1 where
  setup := rfl
  recent := rfl
  names _ _ _ _ h := h
  pairs := by simp [conf]
  selRel v s h := by
    obtain ⟨-, -, ho, hu, hf, -⟩ := C91.file_facts doc ok text written false (Or.inr integer) ex names cnames loads satisfiable inp.options
      restricted
    have : s ∈ selections inp.options inp.lt inp.user ex :=
      ((C76.pointers inp.options inp.lt inp.user ex m1 ho hf hu prep).owner v s h).1
    have e : selections inp.options inp.lt inp.user ex = [] := by decide +kernel
    rw [e] at this
    exact absurd this (by simp)

def cfg : Search.Cfg := Whole.cfg inp true selRel ex
def cands (ρ : ℕ → Var) (s : Search.St) : List Move := (Nbhd.candidates { conf with recent := ρ } C94.Renewed.on C74.Sample.every s.model).getD []
def x0 : Sofar := ⟨begin m0, []⟩
def p1 : Sparse × Sofar := (optional name cfg (firstSolution name m0) (if applicable m0 then plan.lagrange else none) x0).getD
  (firstSolution name m0, x0)
def none' : Dense × Search.St := (⟨fun _ => 0, 0, 0, 0, true⟩, begin m0)
def t1 : Dense × Search.St := (startFrom name cfg p1.1 p1.2.st).getD none'
def c1 : Ctl.State := { current := p1.1 }
def p2 : Ctl.State × Sofar := (lapStep name cfg opt lap1 c1 p1.2).getD (c1, x0)
def t2 : Dense × Search.St := (startFrom name cfg p2.1.current p2.2.st).getD none'
def s2 : Search.St := (Search.step cfg t2.2 (.move (inc 1) false)).getD t2.2
def p3 : Ctl.State × Sofar := (lapStep name cfg opt lap2 p2.1 p2.2).getD (c1, x0)
def t3 : Dense × Search.St := (startFrom name cfg p3.1.current p3.2.st).getD none'
def r2 : ℕ → Var := renew (conf).recent p2.2.st.model
def r3 : ℕ → Var := renew r2 p3.2.st.model

theorem obeys : Obeys (conf) name (Whole.cfg inp true selRel ex) opt m0 plan := by
  refine ⟨fun b hb e he => ?_, fun p hp => ⟨fun b hb => absurd hb (by simp [plan]), fun q hq => ?_⟩⟩
  · obtain rfl := Option.some.inj hb
    exact ⟨_, List.mem_singleton.1 he⟩
  have hp' : p = p1 := by unfold p1 x0 cfg; rw [hp]; rfl
  obtain rfl : q = (p.1, p.2) := (Option.some.inj hq).symm
  rw [hp']
  refine ⟨fun e he => ⟨_, _, List.mem_singleton.1 he⟩, fun c => by unfold lap1; norm_num, fun d s hs => ⟨?_, fun _ _ => trivial⟩,
    fun y hr => ?_⟩
  · have e : (d, s) = t1 := by unfold t1 cfg; rw [hs]; rfl
    obtain rfl : s = t1.2 := by rw [← e]
    exact ⟨C94.Renewed.on, C74.Sample.every, by simp [C94.Renewed.on], .plain (cands (conf).recent t1.2) (flip 1) (by decide +kernel) (by decide +kernel)⟩
  have hr' : y = p2 := by unfold p2 c1 cfg; rw [hr]; rfl
  subst hr'
  refine ⟨fun e he => ?_, fun c => by unfold lap2; norm_num, fun d s hs => ⟨?_, fun s' hs' => ⟨?_, fun _ _ => trivial⟩⟩, fun y hr => ?_⟩
  · simp only [lap2, List.mem_cons, List.not_mem_nil, or_false] at he
    rcases he with rfl | rfl <;> exact ⟨_, _, rfl⟩
  · have e : (d, s) = t2 := by unfold t2 cfg; rw [hs]; rfl
    obtain rfl : s = t2.2 := by rw [← e]
    exact ⟨C94.Renewed.on, C74.Sample.every, by simp [C94.Renewed.on], .plain (cands r2 t2.2) (inc 1) (by decide +kernel) (by decide +kernel)⟩
  · have e : (d, s) = t2 := by unfold t2 cfg; rw [hs]; rfl
    obtain rfl : s = t2.2 := by rw [← e]
    obtain rfl : s' = s2 := by unfold s2 cfg; rw [hs']; rfl
    exact ⟨C94.Renewed.on, C74.Sample.every, by simp [C94.Renewed.on], .plain (cands r2 s2) (flip 0) (by decide +kernel) (by decide +kernel)⟩
  have hr' : y = p3 := by unfold p3 cfg; rw [hr]; rfl
  subst hr'
  refine ⟨fun e he => ⟨_, _, List.mem_singleton.1 he⟩, fun c => by unfold lap3; norm_num, fun d s hs => ⟨?_, fun _ _ => trivial⟩,
    fun _ _ => trivial⟩
  have e : (d, s) = t3 := by unfold t3 cfg; rw [hs]; rfl
  obtain rfl : s = t3.2 := by rw [← e]
  exact ⟨C94.Renewed.on, C74.Sample.every, by simp [C94.Renewed.on], .plain (cands r3 t3.2) (flip' 0) (by decide +kernel) (by decide +kernel)⟩

/-- All conditions are met. -/
example : doc.OK ∧ Written text doc.lines ∧ doc.Integer ∧ Mps.load false text = some (ex, names, cnames) ∧ (∃ val, doc.Satisfied val) ∧
    Restricted inp.options ex ∧ PlainObjective ex ∧
    selections inp.options inp.lt inp.user ex = [] ∧ 0 ≤ inp.pen ∧
    prepare inp.options inp.lt inp.user ex = some (.ok m1) ∧ ofType inp.lt m1 .gf2 = [] ∧
    started inp ex = some m0 ∧ C76.SetUp conf selRel m1 ∧ C74.Constrained m0 ∧ opt.mode = .smart ∧ opt.bounding = true ∧
    Obeys conf name (Whole.cfg inp true selRel ex) opt m0 plan :=
  ⟨ok, written, integer, loads, satisfiable, restricted, plainly, by decide +kernel, by decide +kernel, prep, by decide +kernel, start, setUp,
    (by unfold C74.Constrained; decide +kernel), rfl, rfl, obeys⟩

/-- The report of this call. -/
example : (call inp true selRel name opt ex plan).map (fun p => ([0, 1].map p.1.values, p.1.objective, p.1.feasible)) =
    some ([0, 1], 1, true) := by decide +kernel
example : (call inp true selRel name opt ex plan).map (fun p => [0, 1].map fun v => ((p.2.var v).lb, (p.2.var v).ub, (p.2.var v).fixed)) =
    some [(0, 0, true), (0, 1, false)] := by decide +kernel

end File

/-! #### As a run of the command line program -/

namespace Run
open MpsFile Json Cmd Opt Text C92

def content : List Char := File.text.flatMap fun l => l ++ ['\n']
/-- An option file that switches off dependent variables; bounding is on by default. -/
def opts : List Char := c!"{\"preprocess\": {\"is_enabled_extract_dependent_exclusive_or\": false, \"is_enabled_extract_dependent_inverted_integers\": false, \"is_enabled_extract_dependent_constant_sum_integers\": false, \"is_enabled_extract_dependent_constant_difference_integers\": false, \"is_enabled_extract_dependent_constant_ratio_integers\": false, \"is_enabled_extract_dependent_intermediate\": false}}"
def fs (f : Str) : Option (List Char) :=
  if f = c!"a.mps" then some content else if f = c!"o.json" then some opts else none
def args : List Str := [c!"-p", c!"o.json", c!"a.mps"]
def a : Args := { mps := c!"a.mps", option := c!"o.json" }
def names : List Str := File.names
def cnames : List Str := File.cnames
def ex : MState := File.ex
def r : Ready := (C92.Sample.okOf (Cmd.setup fs 1000 (nameOf names) (nameOf cnames) a ex)).getD ⟨ex, init, [], []⟩
def s : Setup.Options := C67.opts
def t : Ctl.Opt := { mode := .smart, innerBreaker := true, innerThreshold := 20, outerThreshold := 80, bounding := true }
def w : World := ⟨fun _ => c!"c", 100, [], plan⟩
def m1 : MState := (C76.Sample.ok (prepare s (input w names s r).lt (input w names s r).user r.model)).getD r.model
def m0 : MState := (started (input w names s r) r.model).getD r.model
def name (v : ℕ) : String := String.ofList (nameOf names v)

theorem file : lines content = File.text := by decide +kernel
theorem loads : Mps.load a.accept (lines content) = some (ex, names, cnames) := by rw [file]; exact File.loads
theorem isSetup : Cmd.setup fs 1000 (nameOf names) (nameOf cnames) a ex = .ok r := C92.Sample.of_okOf (by decide +kernel) _
theorem prep : prepare s (input w names s r).lt (input w names s r).user r.model = some (.ok m1) :=
  C76.Sample.of_ok (by decide +kernel) _
theorem start : started (input w names s r) r.model = some m0 := by
  have h : (started (input w names s r) r.model).isSome = true := by decide +kernel
  obtain ⟨m, hm⟩ := Option.isSome_iff_exists.1 h
  unfold m0
  rw [hm]; rfl

theorem readable : C70.Readable fs 1000 a where
  exclusive := Or.inl rfl
  option _ := by
    have h : (setupFile 1000 opts).isSome = true := by decide +kernel
    obtain ⟨o, ho⟩ := Option.isSome_iff_exists.1 h
    exact ⟨opts, o, by decide +kernel, ho⟩
  mutables h := absurd rfl h
  fixed h := absurd rfl h
  selection h := absurd rfl h
  pairs h := absurd rfl h
  initial h := absurd rfl h

theorem unasked (n : Str) (x : ℤ) : ¬ Asked fs a n x := by
  rintro (⟨_, k, _⟩ | ⟨_, k, _⟩) <;> exact absurd rfl k

theorem satisfiable : ∃ val, Solution fs a File.doc val := by
  obtain ⟨val, h⟩ := File.satisfiable
  exact ⟨val, h, fun c _ x hx => absurd hx (unasked _ _)⟩

def cfg : Search.Cfg := Whole.cfg (input w names s r) (flag r.options c!"general" c!"is_enabled_fast_evaluation") (selectionRel w names m1) r.model
def cands (ρ : ℕ → Var) (s : Search.St) : List Move := (Nbhd.candidates { neighbourhood w names r m1 with recent := ρ } C94.Renewed.on C74.Sample.every s.model).getD []
def x0 : Sofar := ⟨begin m0, []⟩
def p1 : Sparse × Sofar := (optional name cfg (firstSolution name m0) (if applicable m0 then plan.lagrange else none) x0).getD
  (firstSolution name m0, x0)
def none' : Dense × Search.St := (⟨fun _ => 0, 0, 0, 0, true⟩, begin m0)
def t1 : Dense × Search.St := (startFrom name cfg p1.1 p1.2.st).getD none'
def c1 : Ctl.State := { current := p1.1 }
def p2 : Ctl.State × Sofar := (lapStep name cfg t lap1 c1 p1.2).getD (c1, x0)
def t2 : Dense × Search.St := (startFrom name cfg p2.1.current p2.2.st).getD none'
def s2 : Search.St := (Search.step cfg t2.2 (.move (inc 1) false)).getD t2.2
def p3 : Ctl.State × Sofar := (lapStep name cfg t lap2 p2.1 p2.2).getD (c1, x0)
def t3 : Dense × Search.St := (startFrom name cfg p3.1.current p3.2.st).getD none'
def r2 : ℕ → Var := renew (neighbourhood w names r m1).recent p2.2.st.model
def r3 : ℕ → Var := renew r2 p3.2.st.model

theorem obeys : Obeys (neighbourhood w names r m1) name (Whole.cfg (input w names s r) (flag r.options c!"general" c!"is_enabled_fast_evaluation") (selectionRel w names m1) r.model) t m0 plan := by
  refine ⟨fun b hb e he => ?_, fun p hp => ⟨fun b hb => absurd hb (by simp [plan]), fun q hq => ?_⟩⟩
  · obtain rfl := Option.some.inj hb
    exact ⟨_, List.mem_singleton.1 he⟩
  have hp' : p = p1 := by unfold p1 x0 cfg; rw [hp]; rfl
  obtain rfl : q = (p.1, p.2) := (Option.some.inj hq).symm
  rw [hp']
  refine ⟨fun e he => ⟨_, _, List.mem_singleton.1 he⟩, fun c => by unfold lap1; norm_num, fun d s hs => ⟨?_, fun _ _ => trivial⟩,
    fun y hr => ?_⟩
  · have e : (d, s) = t1 := by unfold t1 cfg; rw [hs]; rfl
    obtain rfl : s = t1.2 := by rw [← e]
    exact ⟨C94.Renewed.on, C74.Sample.every, by simp [C94.Renewed.on], .plain (cands (neighbourhood w names r m1).recent t1.2) (flip 1) (by decide +kernel) (by decide +kernel)⟩
  have hr' : y = p2 := by unfold p2 c1 cfg; rw [hr]; rfl
  subst hr'
  refine ⟨fun e he => ?_, fun c => by unfold lap2; norm_num, fun d s hs => ⟨?_, fun s' hs' => ⟨?_, fun _ _ => trivial⟩⟩, fun y hr => ?_⟩
  · simp only [lap2, List.mem_cons, List.not_mem_nil, or_false] at he
    rcases he with rfl | rfl <;> exact ⟨_, _, rfl⟩
  · have e : (d, s) = t2 := by unfold t2 cfg; rw [hs]; rfl
    obtain rfl : s = t2.2 := by rw [← e]
    exact ⟨C94.Renewed.on, C74.Sample.every, by simp [C94.Renewed.on], .plain (cands r2 t2.2) (inc 1) (by decide +kernel) (by decide +kernel)⟩
  · have e : (d, s) = t2 := by unfold t2 cfg; rw [hs]; rfl
    obtain rfl : s = t2.2 := by rw [← e]
    obtain rfl : s' = s2 := by unfold s2 cfg; rw [hs']; rfl
    exact ⟨C94.Renewed.on, C74.Sample.every, by simp [C94.Renewed.on], .plain (cands r2 s2) (flip 0) (by decide +kernel) (by decide +kernel)⟩
  have hr' : y = p3 := by unfold p3 cfg; rw [hr]; rfl
  subst hr'
  refine ⟨fun e he => ⟨_, _, List.mem_singleton.1 he⟩, fun c => by unfold lap3; norm_num, fun d s hs => ⟨?_, fun _ _ => trivial⟩,
    fun _ _ => trivial⟩
  have e : (d, s) = t3 := by unfold t3 cfg; rw [hs]; rfl
  obtain rfl : s = t3.2 := by rw [← e]
  exact ⟨C94.Renewed.on, C74.Sample.every, by simp [C94.Renewed.on], .plain (cands r3 t3.2) (flip' 0) (by decide +kernel) (by decide +kernel)⟩

/-- All conditions are met. -/
example : parse args {} = some a ∧ fs a.mps = some content ∧ Written (lines content) File.doc.lines ∧
    File.doc.OK ∧ File.doc.Integer ∧ C70.Readable fs 1000 a ∧ (∃ val, Solution fs a File.doc val) ∧
    Mps.load a.accept (lines content) = some (ex, names, cnames) ∧
    Cmd.setup fs 1000 (nameOf names) (nameOf cnames) a ex = .ok r ∧ setupOptions r.options = some s ∧
    searchOptions r.options = some t ∧ t.mode = .smart ∧ t.bounding = true ∧ Restricted s ex ∧
    (∀ (k : ℕ) (n : Str), names[k]? = some n → (ex.var k).sense = .binary → ¬ Asked fs a n 1) ∧ PlainObjective ex ∧
    selections s (input w names s r).lt (input w names s r).user r.model = [] ∧
    prepare s (input w names s r).lt (input w names s r).user r.model = some (.ok m1) ∧
    ofType (input w names s r).lt m1 .gf2 = [] ∧ started (input w names s r) r.model = some m0 ∧
    (∀ c ∈ m1.conIds, ∀ e ∈ m1.conIds, w.conName c = w.conName e → c = e) ∧ r.pairs = [] ∧ 0 ≤ w.pen ∧ C74.Constrained m0 ∧
    Obeys (neighbourhood w names r m1) name cfg t m0 w.plan := by
  refine ⟨by decide +kernel, by decide +kernel, by rw [file]; exact File.written, File.ok, File.integer, readable,
    satisfiable, loads, isSetup, ?_, ?_, rfl, rfl, File.restricted, fun _ _ _ _ => unasked _ _, File.plainly, by decide +kernel, prep,
    by decide +kernel, start, by decide +kernel, by decide +kernel, by decide, by unfold C74.Constrained; decide +kernel, obeys⟩
  · decide +kernel
  · decide +kernel

/-- The solution file that is written. -/
example : Cmd.run fs 1000 args w = .ok (some c!"=obj= 1.0000000000e+00\nx 0\ny 1\n") := by
  decide +kernel

end Run

end Sample

end Printemps.C96
