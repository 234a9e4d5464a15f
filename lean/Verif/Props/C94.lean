import Verif.Lemmas.BoundedMoves
import Verif.Props.C78

/-! # C94 — a whole call during which the bounds of variables shrink -/

namespace Printemps.C94
open Spec Setup Whole Search Sol Ctl

/-- The conditions on the searches are met by the model with which they begin. -/
theorem ground {i : Input} {O m1 m0 : MState} (fast : Bool) (selRel : ℕ → List ℕ) (p : Ordinary i.options O)
    (ob : PlainObjective O) (hno : selections i.options i.lt i.user O = []) (hf : ∃ σ, Feasible O σ) (hpen : 0 ≤ i.pen)
    (pr : Prepared O m1 (selections i.options i.lt i.user O)) (hgf : ofType i.lt m1 .gf2 = [])
    (hl : launch i (selections i.options i.lt i.user O) m1 = some m0) : Ground (Whole.cfg i fast selRel O) m0 := by
  obtain ⟨l, -, l1, l2⟩ := C68.launched p pr i hgf hl
  have st := C68.setting p pr i hpen hgf hl fast selRel
  obtain ⟨r1, r2, r3, r4, r5, -, -, r8, r9⟩ := l.rest
  have hobj : m0.obj = O.obj := r3.trans pr.obj
  refine ⟨st, hno, by rw [r8, pr.dependents, p.dependents], fun v hv hfx => ?_, by rw [r4, pr.isMin]; exact ob.minimised, fun hd => ?_,
    by rw [hobj]; exact p.objective, by rw [hobj]; exact ob.nonzero, by rw [hobj]; exact ob.integral, fun t ht => ?_, ?_, fun v hv => ⟨fun hb => ?_, fun hb => ?_⟩⟩
  · rw [(l.bounds v).1, (l.bounds v).2.1]
    exact pr.ne v (by rw [← r2]; exact hv) (by rw [← (l.bounds v).2.2.2]; exact hfx)
  · rw [hobj]; exact ob.undefined (by rw [← pr.objDefined, ← r5]; exact hd)
  · rw [r2, pr.varIds]; exact ob.listed t (by rw [← hobj]; exact ht)
  · obtain ⟨σ, hσ⟩ := hf
    obtain ⟨τ, hτ, -⟩ := pr.complete σ hσ
    refine ⟨τ, fun v => ⟨fun hfx => ?_, fun hfx => ?_⟩⟩
    · have hfx1 : (m1.var v).fixed = true := by rw [← (l.bounds v).2.2.2]; exact hfx
      rw [l.fixed v hfx1]; exact (hτ.1.1 v).1 hfx1
    · rw [(l.bounds v).1, (l.bounds v).2.1]
      exact (hτ.1.1 v).2 (by rw [← (l.bounds v).2.2.2]; exact hfx)
  · exact l1 v (by rw [← r2]; exact hv) (by rw [← (l.bounds v).2.2.1]; exact hb)
  · rw [(l.bounds v).1, (l.bounds v).2.1]
    exact l2 v (by rw [← r2]; exact hv) (by rw [← (l.bounds v).2.2.1]; exact hb)

/-- The coefficients and constants of the model with which the searches begin are integral. -/
theorem grid {i : Input} {O m1 m0 : MState} (p : Ordinary i.options O) (pr : Prepared O m1 (selections i.options i.lt i.user O))
    (hgf : ofType i.lt m1 .gf2 = []) (hl : launch i (selections i.options i.lt i.user O) m1 = some m0) :
    OnGrid m0 1 ∧ ∀ c ∈ m1.conIds, (∃ k : ℤ, (m1.con c).expr.const = k) ∧ ∀ t ∈ (m1.con c).expr.terms, ∃ k : ℤ, t.2 = k := by
  obtain ⟨l, -, -, -⟩ := C68.launched p pr i hgf hl
  obtain ⟨r1, -, -, -, -, -, -, -, -⟩ := l.rest
  have hint : ∀ c ∈ m1.conIds, (∃ k : ℤ, (m1.con c).expr.const = k) ∧ ∀ t ∈ (m1.con c).expr.terms, ∃ k : ℤ, t.2 = k := by
    intro c hc
    refine ⟨(pr.plain c hc).2.2, fun t ht => ?_⟩
    obtain ⟨j, hj, e⟩ := pr.terms c hc
    rw [e] at ht
    exact (p.integral j hj t ht).2
  refine ⟨⟨fun c hc _ => ?_, fun c hc _ t ht => ?_⟩, hint⟩
  · rw [l.con]
    obtain ⟨k, hk⟩ := (hint c (by rw [← r1]; exact hc)).1
    exact ⟨k, by rw [mul_one]; exact hk⟩
  · rw [l.con] at ht
    obtain ⟨k, hk⟩ := (hint c (by rw [← r1]; exact hc)).2 t ht
    exact ⟨k, by rw [mul_one]; exact hk⟩

/-- The guarantee of a whole call with the bounding of variables during the search, which is on by default.  For an ordinary model
with a solution, without parity equations and selections, that minimises an objective with integral coefficients: if every
accepted move respects the bounds that hold at the beginning of its search, and the call returns, then

* the reported values are marked feasible exactly if they solve the user's model,
* the reported objective is the user's objective of these values,
* if a search came across a solution of the user's model, the reported values are one, and at most `1e-5` worse than
  any solution come across, and
* bounding excluded nothing of interest: an assignment in the ranges with which the search began is still in the ranges if no
  feasible solution was reported or if it is at least as good as the one reported.

That the call returns is proved below.  Missing: maximisation, fractional coefficients and selections, for which C77 shows that bounding can
throw, can exclude the best solution and can report a wrong one; what is missing in C68. -/
theorem call_with_bounding_reports_right_partial (i : Input) (O m0 : MState) (fast : Bool) (selRel : ℕ → List ℕ)
    (name : ℕ → String) (o : Opt) (p : Ordinary i.options O) (ob : PlainObjective O)
    (hno : selections i.options i.lt i.user O = []) (hf : ∃ σ, Feasible O σ) (hpen : 0 ≤ i.pen)
    (hgf : ∀ m1, prepare i.options i.lt i.user O = some (.ok m1) → ofType i.lt m1 .gf2 = [])
    (h0 : started i O = some m0) (pl : Plan) (hob : PlanLegal name (Whole.cfg i fast selRel O) o m0 pl) (r : Named) (m' : MState)
    (hc : call i fast selRel name o O pl = some (r, m')) :
    ∃ x, searches name (Whole.cfg i fast selRel O) o m0 pl = some x ∧
      (r.feasible = true ↔ Solves O r.values) ∧
      (O.objDefined = true → r.objective = exprValue O.obj r.values) ∧
      (∀ q ∈ C66.all m0 x.done, Solves O q.1 → Solves O r.values ∧ minObjective O r.values ≤ minObjective O q.1 + 1e-5) ∧
      ∀ σ, InRange m0 σ → (r.feasible = true → minObjective O σ ≤ minObjective O r.values) →
        ∀ v ∈ O.varIds, Admits (m'.var v) (σ v) := by
  obtain ⟨m1, hp, -⟩ := C67.preparation_keeps_optimum_partial i.options i.lt i.user O p.toProper hf
  have hl : launch i (selections i.options i.lt i.user O) m1 = some m0 := by
    unfold started at h0; rw [hp] at h0; exact h0
  have pr := prepared i.options i.lt i.user O m1 p hf hp
  obtain ⟨l, -, -, -⟩ := C68.launched p pr i (hgf m1 hp) hl
  obtain ⟨r1, r2, r3, r4, r5, -, -, r8, r9⟩ := l.rest
  have g := ground fast selRel p ob hno hf hpen pr (hgf m1 hp) hl
  obtain ⟨hgrid, hint⟩ := grid p pr (hgf m1 hp) hl
  unfold call at hc
  rw [h0, Option.bind_some] at hc
  unfold Ctl.solve at hc
  obtain ⟨x, hx, hpost⟩ := Option.bind_eq_some_iff.1 hc
  obtain ⟨B, hB⟩ := Held.searches (e := 0) g (Or.inr ⟨rfl, 1, by norm_num, hgrid⟩) hob hx
  obtain ⟨q, hq, hag, hr, hcons, hbest, -, hin⟩ := hB.report g (by rw [r9]; exact hpen) hpost
  simp only [mul_zero, add_zero] at hbest
  obtain ⟨c1, c2, c3⟩ := C68.concluded p hf pr l r (C66.all m0 x.done) q hag hr hcons hbest (by rw [hno]; simp)
  have hobj : ∀ σ, minObjective m0 σ = minObjective O σ := by
    intro σ
    unfold minObjective
    rw [r3, r4, r5, pr.obj, pr.isMin, pr.objDefined]
  have hqr : r.values = q.1 := funext fun v => hag v (by rw [g.deps]; simp)
  refine ⟨x, hx, c1, c2, c3, fun σ hσ hle v hv => hin rfl σ hσ (fun htv => ?_) v (by rw [r2, pr.varIds]; exact hv)⟩
  rw [hobj, hobj, ← hqr]
  refine hle (hcons.feasible.2 fun c hc he => ?_)
  have hviol : violation (m0.con c) r.values = violation (m1.con c) r.values := by rw [l.con]; rfl
  have hle' : violation (m0.con c) q.1 ≤ 1e-5 := by
    refine le_trans ?_ htv
    unfold totalViolation enabledCons
    refine List.single_le_sum (fun x hx => ?_) _ (List.mem_map.2 ⟨m0.con c, List.mem_filter.2 ⟨List.mem_map.2 ⟨c, hc, rfl⟩, he⟩, rfl⟩)
    obtain ⟨d, -, rfl⟩ := List.mem_map.1 hx
    exact C68.violation_nonneg _ _
  rw [hviol, (C68.holds_iff_violation _ _).1 (C68.holds_of_small _ _ (hint c (by rw [← r1]; exact hc)).1 (hint c (by rw [← r1]; exact hc)).2
    (by rw [← hviol, hqr]; exact hle'))]
  norm_num


/-- With the restarts of the mode "smart", which is the default, such a call always returns: every search starts from a solution
that respects the bounds of the moment, no bounding of variables fails, and the report is made.

Missing: the mode "simple"; what is missing above. -/
theorem call_with_bounding_returns_partial (i : Input) (O m0 : MState) (fast : Bool) (selRel : ℕ → List ℕ)
    (name : ℕ → String) (o : Opt) (p : Ordinary i.options O) (ob : PlainObjective O)
    (hno : selections i.options i.lt i.user O = []) (hf : ∃ σ, Feasible O σ) (hpen : 0 ≤ i.pen)
    (hgf : ∀ m1, prepare i.options i.lt i.user O = some (.ok m1) → ofType i.lt m1 .gf2 = [])
    (h0 : started i O = some m0) (pl : Plan) (hob : PlanLegal name (Whole.cfg i fast selRel O) o m0 pl)
    (hname : ∀ v ∈ O.varIds, ∀ w ∈ O.varIds, name v = name w → v = w) (hmode : o.mode = .smart) :
    ∃ r m', call i fast selRel name o O pl = some (r, m') := by
  obtain ⟨m1, hp, -⟩ := C67.preparation_keeps_optimum_partial i.options i.lt i.user O p.toProper hf
  have hl : launch i (selections i.options i.lt i.user O) m1 = some m0 := by
    unfold started at h0; rw [hp] at h0; exact h0
  have pr := prepared i.options i.lt i.user O m1 p hf hp
  obtain ⟨l, -, -, -⟩ := C68.launched p pr i (hgf m1 hp) hl
  obtain ⟨r1, r2, r3, r4, r5, -, -, r8, r9⟩ := l.rest
  have g := ground fast selRel p ob hno hf hpen pr (hgf m1 hp) hl
  obtain ⟨hgrid, -⟩ := grid p pr (hgf m1 hp) hl
  have hname' : C48.Distinct name m0 := by
    intro v hv w hw
    rw [r2, pr.varIds] at hv hw
    exact hname v hv w hw
  obtain ⟨x, B, cur, e1, hx⟩ := Sound.searches g hgrid (by rw [r9]; exact hpen) hname' hmode hob
  obtain ⟨r, m', e2⟩ := hx.report g
  refine ⟨r, m', ?_⟩
  unfold call
  rw [h0, Option.bind_some]
  unfold Ctl.solve
  rw [e1, Option.bind_some]
  exact e2


/-- The same for searches that take their moves from the neighbourhood, as the program does: which moves they accept, and how
often, is left open.  A bounding that fixes variables sets up the generators of the moves of single variables again
(`Ctl.renew`); it does not set up the ones of special moves, and stored chain moves stay, but these check for fixed variables.  So every
accepted move respects the bounds of the moment; in the mode "smart", the default, the call returns; and if it returns, in whichever mode,
its report is right and bounding excluded nothing of interest.

Missing: what is missing above; variables in no enabled constraint. -/
theorem call_with_bounding_from_neighbourhood_partial {ν μ : Type} [LinearOrder ν] [LinearOrder μ] (i : Input) (O m1 m0 : MState)
    (fast : Bool) (selRel : ℕ → List ℕ) (name : ℕ → String) (o : Opt) (C : Nbhd.Config ν μ) (p : Ordinary i.options O)
    (ob : PlainObjective O) (hu : C76.Unselected O) (hno : selections i.options i.lt i.user O = []) (hf : ∃ σ, Feasible O σ) (hpen : 0 ≤ i.pen)
    (hprep : prepare i.options i.lt i.user O = some (.ok m1)) (hgf : ofType i.lt m1 .gf2 = [])
    (h0 : started i O = some m0) (hC : C76.SetUp C selRel m1) (hcon : C74.Constrained m0)
    (hname : ∀ v ∈ O.varIds, ∀ w ∈ O.varIds, name v = name w → v = w)
    (pl : Plan) (hob : Obeys C name (Whole.cfg i fast selRel O) o m0 pl) :
    PlanLegal name (Whole.cfg i fast selRel O) o m0 pl ∧
    (o.mode = .smart → ∃ r m', call i fast selRel name o O pl = some (r, m')) ∧
    ∀ r m', call i fast selRel name o O pl = some (r, m') →
      ∃ x, searches name (Whole.cfg i fast selRel O) o m0 pl = some x ∧
        (r.feasible = true ↔ Solves O r.values) ∧
        (O.objDefined = true → r.objective = exprValue O.obj r.values) ∧
        (∀ q ∈ C66.all m0 x.done, Solves O q.1 → Solves O r.values ∧ minObjective O r.values ≤ minObjective O q.1 + 1e-5) ∧
        ∀ σ, InRange m0 σ → (r.feasible = true → minObjective O σ ≤ minObjective O r.values) →
          ∀ v ∈ O.varIds, Admits (m'.var v) (σ v) := by
  have hl : launch i (selections i.options i.lt i.user O) m1 = some m0 := by
    unfold started at h0; rw [hprep] at h0; exact h0
  have pr := prepared i.options i.lt i.user O m1 p hf hprep
  have pt := C76.pointers i.options i.lt i.user O m1 p hf hu hprep
  have ft : C74.Fits C (Whole.cfg i fast selRel O) m0 := C76.fits p pr pt hC i hgf hl
  have g := ground fast selRel p ob hno hf hpen pr hgf hl
  obtain ⟨hgrid, -⟩ := grid p pr hgf hl
  have hgf' : ∀ m, prepare i.options i.lt i.user O = some (.ok m) → ofType i.lt m .gf2 = [] := fun m hm => by
    rw [hprep] at hm
    simp only [Option.some.injEq, Outcome.ok.injEq] at hm
    rw [← hm]; exact hgf
  have leg : PlanLegal name (Whole.cfg i fast selRel O) o m0 pl :=
    plan_legal (e := 0) g (Or.inr ⟨rfl, 1, by norm_num, hgrid⟩) hcon ft hob
  exact ⟨leg, fun hmode => call_with_bounding_returns_partial i O m0 fast selRel name o p ob hno hf hpen hgf' h0 pl leg hname hmode,
    fun r m' hc => call_with_bounding_reports_right_partial i O m0 fast selRel name o p ob hno hf hpen hgf' h0 pl leg r m' hc⟩

/-! ### A call meeting the conditions: minimise `2 x0 + x1` under `x0 + x1 ≥ 3` with both variables in `[0,5]`.  The first tabu
search finds `x1 = 4`; after the second one the bounds become `x0 ≤ 2` and `x1 ≤ 4`; the third one finds the optimum. -/

namespace Sample

def kinds : ℕ → VarSense := fun _ => .integer
def ex : MState := { Example.raw with
  var := fun _ => Example.int5
  varIds := [0, 1]
  con := fun _ => Con.setup ⟨[(0, 1), (1, 1)], -3, 0⟩ .greater kinds
  conIds := [0]
  obj := ⟨[(0, 2), (1, 1)], 0, 0⟩ }
def inp : Input := ⟨C67.opts, C67.lt', fun _ => false, true, 100, []⟩
def m0 : MState := (started inp ex).getD ex
def name : ℕ → String := fun v => if v = 0 then "x0" else "x1"
def selRel : ℕ → List ℕ := fun _ => []
def cfg : Cfg := Whole.cfg inp true selRel ex
def opt : Opt := { mode := .smart, innerBreaker := true, innerThreshold := 5, outerThreshold := 2, bounding := true }
def set (v : ℕ) (x : ℤ) : Move := { alterations := [(v, x)], related := [0], isUnivariable := true }
def lap1 : Lap := ⟨[.move (set 1 4) false], 1, false, fun _ => 3, fun _ => 4⟩
def lap2 : Lap := ⟨[.move (set 1 5) false], 1, false, fun _ => 5, fun _ => 6⟩
def lap3 : Lap := ⟨[.move (set 1 3) false], 1, false, fun _ => 5, fun _ => 6⟩
def plan : Plan := ⟨some [.relax (fun _ => true)], none, [lap1, lap2, lap3]⟩
def x0 : Sofar := ⟨begin m0, []⟩
def p1 : Sparse × Sofar := (optional name cfg (firstSolution name m0) (if applicable m0 then plan.lagrange else none) x0).getD
  (firstSolution name m0, x0)
def c1 : Ctl.State := { current := p1.1 }
def p2 : Ctl.State × Sofar := (lapStep name cfg opt lap1 c1 p1.2).getD (c1, x0)
def p3 : Ctl.State × Sofar := (lapStep name cfg opt lap2 p2.1 p2.2).getD (c1, x0)

theorem ordinary : Ordinary inp.options ex := by
  have key : ∀ c ∈ ex.conIds, ∀ t ∈ (ex.con c).expr.terms, t.2 = 1 := by decide +kernel
  refine ⟨⟨by decide, by decide, by decide, by decide, fun v => rfl, by decide +kernel, by decide +kernel, by decide +kernel,
    ?_, fun v _ => (by decide : -100000 < Example.int5.lb ∧ Example.int5.ub < 100000), by decide +kernel, by decide +kernel, fun _ => by decide +kernel, fun _ => by decide +kernel,
    Or.inl (by decide)⟩, by decide, fun c hc => ⟨-3, rfl⟩, by decide +kernel, by decide +kernel, by decide +kernel, by decide +kernel,
    by decide +kernel, rfl⟩
  intro c hc t ht
  rw [key c hc t ht]
  exact ⟨by norm_num, 1, rfl⟩

theorem plainly : PlainObjective ex := by
  have key : ∀ t ∈ ex.obj.terms, t.2 = 2 ∨ t.2 = 1 := by decide +kernel
  refine ⟨rfl, fun h => absurd h (by decide), by decide +kernel, fun t ht => ?_, by decide +kernel⟩
  rcases key t ht with h | h
  · exact ⟨2, by rw [h]; rfl⟩
  · exact ⟨1, by rw [h]; rfl⟩

theorem starts : started inp ex = some m0 := by
  have h : (started inp ex).isSome = true := by decide +kernel
  obtain ⟨m, hm⟩ := Option.isSome_iff_exists.1 h
  unfold m0
  rw [hm]; rfl

theorem legal (m : MState) (x : ℤ) (h1 : m.conIds = [0]) (h2 : m.varIds = [0, 1]) (h3 : m.dependents = [])
    (h4 : (m.var 1).fixed = false ∧ (m.var 1).lb ≤ x ∧ x ≤ (m.var 1).ub) : C66.LegalEvent cfg m (.move (set 1 x) false) := by
  refine ⟨by simp [set], fun a ha => ?_, ⟨?_, ?_, fun c hc _ _ => ?_⟩, fun _ => ⟨1, x, rfl⟩, fun h => absurd h (by simp [set])⟩
  · obtain rfl := List.mem_singleton.1 ha
    rw [h2, h3]; simpa using h4
  · exact List.Nodup.filter _ (by simp [set])
  · rw [h1]; simp [set]
  · rw [h1] at hc; exact hc

theorem moves (x : ℤ) : OnlyMoves [.move (set 1 x) false] := fun _ he => ⟨_, _, List.mem_singleton.1 he⟩

theorem allowed : PlanLegal name (Whole.cfg inp true selRel ex) opt m0 plan := by
  refine ⟨fun b hb e he => ?_, fun p hp => ⟨fun b hb => absurd hb (by simp [plan]), fun q hq => ?_⟩⟩
  · obtain rfl := Option.some.inj hb
    exact ⟨_, List.mem_singleton.1 he⟩
  · have hp' : p = p1 := by unfold p1 x0 cfg; rw [hp]; rfl
    obtain rfl : q = (p.1, p.2) := (Option.some.inj hq).symm
    rw [hp']
    refine ⟨moves 4, fun c => by unfold lap1; norm_num, fun _ e he => ?_, fun r hr => ?_⟩
    · rw [List.mem_singleton.1 he]
      exact legal _ _ (by decide +kernel) (by decide +kernel) (by decide +kernel) (by decide +kernel)
    have hr' : r = p2 := by unfold p2 c1 cfg; rw [hr]; rfl
    rw [hr']
    refine ⟨moves 5, fun c => by unfold lap2; norm_num, fun _ e he => ?_, fun r hr => ?_⟩
    · rw [List.mem_singleton.1 he]
      exact legal _ _ (by decide +kernel) (by decide +kernel) (by decide +kernel) (by decide +kernel)
    have hr' : r = p3 := by unfold p3 cfg; rw [hr]; rfl
    rw [hr']
    refine ⟨moves 3, fun c => by unfold lap3; norm_num, fun _ e he => ?_, fun _ _ => trivial⟩
    rw [List.mem_singleton.1 he]
    exact legal _ _ (by decide +kernel) (by decide +kernel) (by decide +kernel) (by decide +kernel)

/-- All conditions are met. -/
example : Ordinary inp.options ex ∧ PlainObjective ex ∧ selections inp.options inp.lt inp.user ex = [] ∧ (∃ σ, Feasible ex σ) ∧
    0 ≤ inp.pen ∧ (∀ m1, prepare inp.options inp.lt inp.user ex = some (.ok m1) → ofType inp.lt m1 .gf2 = []) ∧
    started inp ex = some m0 ∧ PlanLegal name (Whole.cfg inp true selRel ex) opt m0 plan ∧
    (∀ v ∈ ex.varIds, ∀ w ∈ ex.varIds, name v = name w → v = w) ∧ opt.mode = .smart ∧
    ∃ r m', call inp true selRel name opt ex plan = some (r, m') := by
  refine ⟨ordinary, plainly, by decide +kernel, ⟨fun _ => 2, fun v => (by decide : Admits Example.int5 2), by decide +kernel⟩, by decide +kernel, fun m1 h => ?_,
    starts, allowed, by decide +kernel, rfl, ?_⟩
  · have k : (match prepare inp.options inp.lt inp.user ex with
      | some (.ok m) => (ofType inp.lt m .gf2).isEmpty
      | _ => true) = true := by decide +kernel
    rw [h] at k
    exact List.isEmpty_iff.1 k
  · have h : (call inp true selRel name opt ex plan).isSome = true := by decide +kernel
    obtain ⟨⟨r, m⟩, hm⟩ := Option.isSome_iff_exists.1 h
    exact ⟨r, m, hm⟩

/-- The report of this call, and the bounds at its end. -/
example : (call inp true selRel name opt ex plan).map (fun p => ([0, 1].map p.1.values, p.1.objective, p.1.feasible)) =
    some ([0, 3], 3, true) := by decide +kernel
example : (call inp true selRel name opt ex plan).map (fun p => [0, 1].map fun v => ((p.2.var v).lb, (p.2.var v).ub)) =
    some [(0, 2), (0, 4)] := by decide +kernel

/-- A move that respects only the bounds at the beginning of the call is not allowed in the third search. -/
example : C66.LegalEvent cfg m0 (.move (set 1 5) false) ∧ ¬ C66.LegalEvent cfg p3.2.st.model (.move (set 1 5) false) := by
  refine ⟨legal _ _ (by decide +kernel) (by decide +kernel) (by decide +kernel) (by decide +kernel), fun h => ?_⟩
  have := ((h.listed (1, 5) (by simp [set])).2.2.2).2
  exact absurd this (by decide +kernel)

end Sample

/-! ### Moves from the neighbourhood: minimise `3 x0 + x1` under `x0 + x1 ≥ 1`, `x0` in `[0,1]`, `x1` in `[0,5]`.  The first tabu
search flips `x0`, the second one finds `(0, 1)`; the bounding then fixes `x0` and makes `x1` a 0/1 variable, the generators are set up
again, and the third search flips `x1`. -/

namespace Renewed

def kinds : ℕ → VarSense := fun v => if v = 0 then .binary else .integer
def ex : MState := { Example.raw with
  var := fun v => if v = 0 then Example.bin0 else Example.int5
  varIds := [0, 1]
  con := fun _ => Con.setup ⟨[(0, 1), (1, 1)], -1, 0⟩ .greater kinds
  conIds := [0]
  obj := ⟨[(0, 3), (1, 1)], 0, 0⟩ }
def inp : Input := ⟨C67.opts, C67.lt', fun _ => false, true, 100, []⟩
def m1 : MState := (C76.Sample.ok (prepare inp.options inp.lt inp.user ex)).getD ex
def m0 : MState := (started inp ex).getD ex
def conf : Nbhd.Config ℕ ℕ := { setup := m1, name := id, vname := id, lt := C67.lt', pairs := [] }
def name : ℕ → String := fun v => if v = 0 then "x0" else "x1"
def selRel : ℕ → List ℕ := fun _ => []
def cfg : Cfg := Whole.cfg inp true selRel ex
def opt : Opt := { mode := .smart, innerBreaker := true, innerThreshold := 5, outerThreshold := 2, bounding := true }
def on : Nbhd.Status := { enabled := fun _ => true, available := fun _ _ => true, chain := [] }
def cands (r : ℕ → Var) (s : St) : List Move := (Nbhd.candidates { conf with recent := r } on C74.Sample.every s.model).getD []
def flip (x : ℤ) : Move := { alterations := [(0, x)], sense := .binary, related := [0], isUnivariable := true }
def inc (x : ℤ) : Move := { alterations := [(1, x)], sense := .integer, related := [0], isUnivariable := true }
def flip' (x : ℤ) : Move := { inc x with sense := .binary }
def lap1 : Lap := ⟨[.move (flip 1) false], 1, false, fun _ => 3, fun _ => 4⟩
def lap2 : Lap := ⟨[.move (inc 1) false, .move (flip 0) false], 1, false, fun _ => 5, fun _ => 6⟩
def lap3 : Lap := ⟨[.move (flip' 0) false], 1, false, fun _ => 5, fun _ => 6⟩
def plan : Plan := ⟨some [.relax (fun _ => true)], none, [lap1, lap2, lap3]⟩
def x0 : Sofar := ⟨begin m0, []⟩
def p1 : Sparse × Sofar := (optional name cfg (firstSolution name m0) (if applicable m0 then plan.lagrange else none) x0).getD
  (firstSolution name m0, x0)
def none' : Dense × St := (⟨fun _ => 0, 0, 0, 0, true⟩, begin m0)
def t1 : Dense × St := (startFrom name cfg p1.1 p1.2.st).getD none'
def c1 : Ctl.State := { current := p1.1 }
def p2 : Ctl.State × Sofar := (lapStep name cfg opt lap1 c1 p1.2).getD (c1, x0)
def t2 : Dense × St := (startFrom name cfg p2.1.current p2.2.st).getD none'
def s2 : St := (step cfg t2.2 (.move (inc 1) false)).getD t2.2
def p3 : Ctl.State × Sofar := (lapStep name cfg opt lap2 p2.1 p2.2).getD (c1, x0)
def t3 : Dense × St := (startFrom name cfg p3.1.current p3.2.st).getD none'
def r2 : ℕ → Var := renew conf.recent p2.2.st.model
def r3 : ℕ → Var := renew r2 p3.2.st.model

theorem var_cases (v : ℕ) : ex.var v = Example.bin0 ∨ ex.var v = Example.int5 := by
  show (if v = 0 then _ else _) = _ ∨ _
  by_cases h : v = 0
  · exact Or.inl (if_pos h)
  · exact Or.inr (if_neg h)

theorem ordinary : Ordinary inp.options ex := by
  have key : ∀ c ∈ ex.conIds, ∀ t ∈ (ex.con c).expr.terms, t.2 = 1 := by decide +kernel
  refine ⟨⟨by decide, by decide, by decide, by decide, fun v => rfl, by decide +kernel, by decide +kernel, by decide +kernel,
    ?_, fun v _ => ?_, by decide +kernel, by decide +kernel, fun _ => by decide +kernel, fun _ => by decide +kernel,
    Or.inl (by decide)⟩, by decide, fun c hc => ⟨-1, rfl⟩, by decide +kernel, by decide +kernel, by decide +kernel, by decide +kernel,
    by decide +kernel, rfl⟩
  · intro c hc t ht
    rw [key c hc t ht]
    exact ⟨by norm_num, 1, rfl⟩
  · rcases var_cases v with h | h <;> rw [h] <;> decide

theorem plainly : PlainObjective ex := by
  have key : ∀ t ∈ ex.obj.terms, t.2 = 3 ∨ t.2 = 1 := by decide +kernel
  refine ⟨rfl, fun h => absurd h (by decide), by decide +kernel, fun t ht => ?_, by decide +kernel⟩
  rcases key t ht with h | h
  · exact ⟨3, by rw [h]; rfl⟩
  · exact ⟨1, by rw [h]; rfl⟩

theorem starts : started inp ex = some m0 := by
  have h : (started inp ex).isSome = true := by decide +kernel
  obtain ⟨m, hm⟩ := Option.isSome_iff_exists.1 h
  unfold m0
  rw [hm]; rfl

theorem prep : prepare inp.options inp.lt inp.user ex = some (.ok m1) := C76.Sample.of_ok (by decide +kernel) ex

theorem unselected : C76.Unselected ex where
  ptr v := by rcases var_cases v with h | h <;> rw [h] <;> rfl
  none _ := rfl

theorem feasible : ∃ σ, Feasible ex σ := by
  refine ⟨fun _ => 1, fun v => ?_, by decide +kernel⟩
  rcases var_cases v with h | h
  · rw [h]; exact (by decide : Admits Example.bin0 1)
  · rw [h]; exact (by decide : Admits Example.int5 1)

theorem setUp : C76.SetUp conf selRel m1 where
  setup := rfl
  recent := rfl
  names _ _ _ _ h := h
  pairs := by simp [conf]
  selRel v s h := by
    have : s ∈ selections inp.options inp.lt inp.user ex :=
      ((C76.pointers inp.options inp.lt inp.user ex m1 ordinary feasible unselected prep).owner v s h).1
    have e : selections inp.options inp.lt inp.user ex = [] := by decide +kernel
    rw [e] at this
    exact absurd this (by simp)

theorem obeys : Obeys conf name (Whole.cfg inp true selRel ex) opt m0 plan := by
  refine ⟨fun b hb e he => ?_, fun p hp => ⟨fun b hb => absurd hb (by simp [plan]), fun q hq => ?_⟩⟩
  · obtain rfl := Option.some.inj hb
    exact ⟨_, List.mem_singleton.1 he⟩
  have hp' : p = p1 := by unfold p1 x0 cfg; rw [hp]; rfl
  obtain rfl : q = (p.1, p.2) := (Option.some.inj hq).symm
  rw [hp']
  refine ⟨fun e he => ⟨_, _, List.mem_singleton.1 he⟩, fun c => by unfold lap1; norm_num, fun d s hs => ⟨?_, fun _ _ => trivial⟩,
    fun r hr => ?_⟩
  · have e : (d, s) = t1 := by unfold t1 cfg; rw [hs]; rfl
    obtain rfl : s = t1.2 := by rw [← e]
    exact ⟨on, C74.Sample.every, by simp [on], .plain (cands conf.recent t1.2) (flip 1) (by decide +kernel) (by decide +kernel)⟩
  have hr' : r = p2 := by unfold p2 c1 cfg; rw [hr]; rfl
  subst hr'
  refine ⟨fun e he => ?_, fun c => by unfold lap2; norm_num, fun d s hs => ⟨?_, fun s' hs' => ⟨?_, fun _ _ => trivial⟩⟩, fun r hr => ?_⟩
  · simp only [lap2, List.mem_cons, List.not_mem_nil, or_false] at he
    rcases he with rfl | rfl <;> exact ⟨_, _, rfl⟩
  · have e : (d, s) = t2 := by unfold t2 cfg; rw [hs]; rfl
    obtain rfl : s = t2.2 := by rw [← e]
    exact ⟨on, C74.Sample.every, by simp [on], .plain (cands r2 t2.2) (inc 1) (by decide +kernel) (by decide +kernel)⟩
  · have e : (d, s) = t2 := by unfold t2 cfg; rw [hs]; rfl
    obtain rfl : s = t2.2 := by rw [← e]
    obtain rfl : s' = s2 := by unfold s2 cfg; rw [hs']; rfl
    exact ⟨on, C74.Sample.every, by simp [on], .plain (cands r2 s2) (flip 0) (by decide +kernel) (by decide +kernel)⟩
  have hr' : r = p3 := by unfold p3 cfg; rw [hr]; rfl
  subst hr'
  refine ⟨fun e he => ⟨_, _, List.mem_singleton.1 he⟩, fun c => by unfold lap3; norm_num, fun d s hs => ⟨?_, fun _ _ => trivial⟩,
    fun _ _ => trivial⟩
  have e : (d, s) = t3 := by unfold t3 cfg; rw [hs]; rfl
  obtain rfl : s = t3.2 := by rw [← e]
  exact ⟨on, C74.Sample.every, by simp [on], .plain (cands r3 t3.2) (flip' 0) (by decide +kernel) (by decide +kernel)⟩

/-- All conditions are met. -/
example : Ordinary inp.options ex ∧ PlainObjective ex ∧ C76.Unselected ex ∧ selections inp.options inp.lt inp.user ex = [] ∧
    (∃ σ, Feasible ex σ) ∧ 0 ≤ inp.pen ∧ prepare inp.options inp.lt inp.user ex = some (.ok m1) ∧ ofType inp.lt m1 .gf2 = [] ∧
    started inp ex = some m0 ∧ C76.SetUp conf selRel m1 ∧ C74.Constrained m0 ∧
    (∀ v ∈ ex.varIds, ∀ w ∈ ex.varIds, name v = name w → v = w) ∧ opt.mode = .smart ∧
    Obeys conf name (Whole.cfg inp true selRel ex) opt m0 plan :=
  ⟨ordinary, plainly, unselected, by decide +kernel, feasible, by decide +kernel, prep, by decide +kernel, starts, setUp,
    (by unfold C74.Constrained; decide +kernel), by decide +kernel, rfl, obeys⟩

/-- The report of this call, and the variables at its end: `x0` has been fixed. -/
example : (call inp true selRel name opt ex plan).map (fun p => ([0, 1].map p.1.values, p.1.objective, p.1.feasible)) =
    some ([0, 1], 1, true) := by decide +kernel
example : (call inp true selRel name opt ex plan).map (fun p => [0, 1].map fun v => ((p.2.var v).lb, (p.2.var v).ub, (p.2.var v).fixed)) =
    some [(0, 0, true), (0, 1, false)] := by decide +kernel

/-- If the generators were not set up again, the third search could flip the fixed variable. -/
example : flip 1 ∈ cands r2 t3.2 ∧ flip 1 ∉ cands r3 t3.2 ∧ ¬ C66.LegalEvent cfg p3.2.st.model (.move (flip 1) false) := by
  refine ⟨by decide +kernel, by decide +kernel, fun h => ?_⟩
  have := (h.listed (0, 1) (by simp [flip])).2.2.1
  exact absurd this (by decide +kernel)

end Renewed

end Printemps.C94
