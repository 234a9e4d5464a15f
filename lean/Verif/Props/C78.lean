import Verif.Lemmas.Laps
import Verif.Props.C76

/-! # C78 — where the searches start; a whole call that computes its starts itself ends with a right report -/

namespace Printemps.C78
open Spec Setup Whole Search Sol Nbhd Ctl

variable {ν μ : Type} [LinearOrder ν] [LinearOrder μ]

/-! ## The rules -/

theorem simple_flags : ∀ b1 b2 b3 b4 b5 b6 b7 : Bool, let A := flagsSimple ⟨b1, b2, b3, b4, b5, b6, b7⟩
    A.relax = (!A.tighten) ∧ (A.tighten = true → b2 = false ∧ b1 = false ∧ b3 = false) ∧ A.useLocal = true ∧
      A.useGlobal = false ∧ A.reset = false := by decide

theorem smart_flags : ∀ b1 b2 b3 b4 b5 b6 b7 : Bool, let A := flagsSmart ⟨b1, b2, b3, b4, b5, b6, b7⟩
    A.relax = (!A.tighten) ∧ (A.tighten = true → b2 = false ∧ b1 = false ∧ b3 = false) ∧
      (A.useGlobal = false → A.useLocal = false → b6 = true ∧ b7 = false) ∧ A.reset = false ∧
      (b1 = true → A.useGlobal = true ∧ A.relax = true) := by decide

/-- The rules for the next tabu search, for every outcome of the last one.  If the rules can be applied:

* the penalty coefficients are either relaxed or tightened;
* they are tightened only if the last search improved something, but not the global incumbent, and its best solution is
  infeasible;
* the next search starts from the global incumbent, from the best solution of the last search, or from where that one
  started; the last only in `Smart` mode, if a feasible solution is known and the last search did not improve on its start;
* in `Smart` mode, after an improvement of the global incumbent the next search starts there;
* in `Simple` mode the next search starts from the best solution of the last one, unless penalties are reset;
* penalties are reset only while no feasible solution is known, and then the next search starts from the global incumbent. -/
theorem restart_rules (name : ℕ → String) (vs : List ℕ) (o : Opt) (h : Holder Dense) (status : ℕ) (lap : Lap) (c c' : State)
    (fl : Flags) (hu : update name vs o h status lap c = some (fl, c')) :
    (fl.relax = true ↔ fl.tighten = false) ∧
    (fl.tighten = true → status ≠ 0 ∧ status.testBit 1 = false ∧ ∃ sc, h.localScore = some sc ∧ sc.isFeasible = false) ∧
    ((∃ g, h.globalSol = some g ∧ c'.current = g.toSparse name vs) ∨
      (∃ d, h.localSol = some d ∧ c'.current = d.toSparse name vs) ∨
      (c'.current = c.current ∧ o.mode = .smart ∧ h.found = true ∧
        ∃ d, h.localSol = some d ∧ c.current.objective ≤ d.objective ∧ c.current.totalViolation ≤ d.totalViolation)) ∧
    (o.mode = .smart → status.testBit 1 = true →
      (∃ g, h.globalSol = some g ∧ c'.current = g.toSparse name vs) ∧ fl.relax = true) ∧
    (o.mode = .simple → fl.reset = false → ∃ d, h.localSol = some d ∧ c'.current = d.toSparse name vs) ∧
    (fl.reset = true → h.found = false ∧ fl.tighten = true ∧ o.innerBreaker = true ∧
      c'.sinceGlobal ≥ o.outerThreshold ∧ c.sinceRelax > o.innerThreshold ∧
      ∃ g, h.globalSol = some g ∧ c'.current = g.toSparse name vs) := by
  unfold update at hu
  obtain ⟨F, hF, hu⟩ := Option.bind_eq_some_iff.1 hu
  obtain ⟨d, hd, hu⟩ := Option.map_eq_some_iff.1 hu
  unfold facts at hF
  obtain ⟨g, hg, hF⟩ := Option.bind_eq_some_iff.1 hF
  obtain ⟨l, hl, hF⟩ := Option.bind_eq_some_iff.1 hF
  obtain ⟨sc, hsc, hF⟩ := Option.bind_eq_some_iff.1 hF
  obtain ⟨ld, hld, hF⟩ := Option.map_eq_some_iff.1 hF
  have f1 : F.globalUpdated = status.testBit 1 := by rw [← hF]
  have f2 : F.notUpdated = (status == 0) := by rw [← hF]
  have f3 : F.localFeasible = sc.isFeasible := by rw [← hF]
  have f6 : F.found = h.found := by rw [← hF]
  have f7 : F.improved = (decide (ld.objective < c.current.objective) || decide (ld.totalViolation < c.current.totalViolation)) := by
    rw [← hF]
  simp only [Prod.mk.injEq] at hu
  obtain ⟨e1, e2⟩ := hu
  have ec : c'.current = d := by rw [← e2]
  have es : c'.sinceGlobal = if F.globalUpdated then 0 else c.sinceGlobal + 1 := by rw [← e2]
  rw [e1] at hd
  obtain ⟨A, hA, e1⟩ : ∃ A, (match o.mode with | .simple => flagsSimple F | .smart => flagsSmart F) = A ∧
      withReset o (!F.found && decide ((if F.globalUpdated then 0 else c.sinceGlobal + 1) ≥ o.outerThreshold))
        ((lap.exceeded || !F.improved) && decide (c.sinceRelax > o.innerThreshold)) A = fl := ⟨_, rfl, e1⟩
  rw [← es] at e1
  -- the flags before a reset
  obtain ⟨a1, a2, a3, a4, a5, a6⟩ : A.relax = (!A.tighten) ∧
      (A.tighten = true → F.notUpdated = false ∧ F.globalUpdated = false ∧ F.localFeasible = false) ∧
      (A.useGlobal = false → A.useLocal = false → o.mode = .smart ∧ F.found = true ∧ F.improved = false) ∧
      (o.mode = .smart → F.globalUpdated = true → A.useGlobal = true ∧ A.relax = true) ∧
      (o.mode = .simple → A.useLocal = true ∧ A.useGlobal = false) ∧ A.reset = false := by
    rw [← hA]
    cases hm : o.mode
    · obtain ⟨s1, s2, s3, s4, s5⟩ := simple_flags F.globalUpdated F.notUpdated F.localFeasible F.gapSmall F.rangeSmall F.found F.improved
      exact ⟨s1, s2, fun _ hl => by rw [show (flagsSimple F).useLocal = true from s3] at hl; exact absurd hl (by decide),
        fun h => absurd h (by decide), fun _ => ⟨s3, s4⟩, s5⟩
    · obtain ⟨s1, s2, s3, s4, s5⟩ := smart_flags F.globalUpdated F.notUpdated F.localFeasible F.gapSmall F.rangeSmall F.found F.improved
      exact ⟨s1, s2, fun hg hl => ⟨rfl, s3 hg hl⟩, fun _ => s5, fun h => absurd h (by decide), s4⟩
  -- the reset
  have key : (fl = A) ∨ (fl = { A with reset := true, useGlobal := true, forced := true } ∧ A.tighten = true ∧
      o.innerBreaker = true ∧ F.found = false ∧ c'.sinceGlobal ≥ o.outerThreshold ∧ c.sinceRelax > o.innerThreshold) := by
    unfold withReset at e1
    split at e1
    · rename_i h1
      split at e1
      · rename_i h2
        right
        simp only [Bool.and_eq_true, Bool.not_eq_true', decide_eq_true_eq] at h1 h2
        exact ⟨e1.symm, h1.2, h1.1, h2.1.1, h2.1.2, h2.2.2⟩
      · exact Or.inl e1.symm
    · exact Or.inl e1.symm
  have hglob : fl.useGlobal = true → ∃ g, h.globalSol = some g ∧ c'.current = g.toSparse name vs := by
    intro hg'
    unfold nextSolution at hd
    rw [if_pos hg'] at hd
    obtain ⟨x, hx, hd⟩ := Option.map_eq_some_iff.1 hd
    exact ⟨x, hx, by rw [ec, hd]⟩
  have hloc : fl.useGlobal = false → fl.useLocal = true → ∃ d, h.localSol = some d ∧ c'.current = d.toSparse name vs := by
    intro hg' hl'
    unfold nextSolution at hd
    rw [if_neg (by rw [hg']; decide), if_pos hl'] at hd
    obtain ⟨x, hx, hd⟩ := Option.map_eq_some_iff.1 hd
    exact ⟨x, hx, by rw [ec, hd]⟩
  have hprev : fl.useGlobal = false → fl.useLocal = false → c'.current = c.current := by
    intro hg' hl'
    unfold nextSolution at hd
    rw [if_neg (by rw [hg']; decide), if_neg (by rw [hl']; decide)] at hd
    split at hd
    · rw [ec]; exact (Option.some.inj hd).symm
    · exact absurd hd (by simp)
  have rl : fl.relax = A.relax ∧ fl.tighten = A.tighten := by
    rcases key with k | ⟨k, -⟩ <;> rw [k] <;> exact ⟨rfl, rfl⟩
  refine ⟨by rw [rl.1, rl.2, a1]; cases A.tighten <;> simp, fun ht => ?_, ?_, fun hm hb => ?_, fun hm hr => ?_, fun hr => ?_⟩
  · rw [rl.2] at ht
    obtain ⟨b1, b2, b3⟩ := a2 ht
    refine ⟨?_, by rw [← f1]; exact b2, sc, hsc, by rw [← f3]; exact b3⟩
    rw [f2] at b1
    simpa using b1
  · cases hg' : fl.useGlobal
    · cases hl' : fl.useLocal
      · right; right
        have hA' : fl = A := by
          rcases key with k | ⟨k, -⟩
          · exact k
          · rw [k] at hg'; exact absurd hg' (by simp)
        rw [hA'] at hg' hl'
        obtain ⟨b1, b2, b3⟩ := a3 hg' hl'
        rw [hA'] at hprev
        refine ⟨hprev hg' hl', b1, by rw [← f6]; exact b2, ld, hld, ?_⟩
        rw [f7, Bool.or_eq_false_iff, decide_eq_false_iff_not, decide_eq_false_iff_not] at b3
        exact ⟨not_lt.1 b3.1, not_lt.1 b3.2⟩
      · exact Or.inr (Or.inl (hloc hg' hl'))
    · exact Or.inl (hglob hg')
  · rw [← f1] at hb
    obtain ⟨b1, b2⟩ := a4 hm hb
    refine ⟨hglob ?_, by rw [rl.1]; exact b2⟩
    rcases key with k | ⟨k, -⟩ <;> rw [k]
    exact b1
  · obtain ⟨b1, b2⟩ := a5 hm
    have hA' : fl = A := by
      rcases key with k | ⟨k, -⟩
      · exact k
      · rw [k] at hr; exact absurd hr (by simp)
    rw [hA'] at hloc
    exact hloc b2 b1
  · rcases key with k | ⟨k, k1, k2, k3, k4, k5⟩
    · rw [k, a6] at hr; exact absurd hr (by decide)
    · refine ⟨by rw [← f6]; exact k3, by rw [rl.2]; exact k1, k2, k4, k5, hglob ?_⟩
      rw [k]

/-! ## The model after the setup -/

/-- The margins of a variable are up to date (they are when the user has built it). -/
def Margins (_ : ℕ) (v : Var) : Prop := v.updateMargin = v

theorem margins_closed : Setup.Closed Margins where
  fix _ _ _ _ := rfl
  bound i v old w l u _ _ _ _ _ h := by
    unfold Var.setBound at h
    split at h
    · exact absurd h (by simp)
    · simp only [Option.some.injEq] at h
      subst h
      rfl

theorem margins_prepared (o : Options) (lt : ℕ → ℕ → Bool) (user : ℕ → Bool) (O m : MState) (p : Ordinary o O)
    (hf : ∃ σ, Feasible O σ) (hm : ∀ v, (O.var v).updateMargin = O.var v) (h : prepare o lt user O = some (.ok m)) :
    ∀ v, (m.var v).updateMargin = m.var v := by
  obtain ⟨m1, h1, h2, g⟩ := reduce_facts o lt O p.toProper hf
  obtain ⟨k0, k1, -⟩ := reduce_shrunk margins_closed o lt O m1 p.toProper hf p.presolve h1
  have hptr : ∀ v, Margins v (m1.var v) := (k0.trans k1.toKept).vars hm
  unfold prepare at h
  rw [h1] at h
  simp only [andThen] at h
  intro v
  by_cases hs : o.selection ≠ .off ∧ m1.varIds.length > m1.conIds.length
  · rw [if_pos hs] at h
    simp only [Option.some.injEq, Outcome.ok.injEq] at h
    obtain ⟨-, e2, e3⟩ := C30.extraction_effect lt user o.selection m1 g.conIds
    have hvar : m.var = (SelectionExtract.extract lt user o.selection m1).var := by rw [← h]; rfl
    rw [hvar]
    by_cases hex : ∃ c ∈ SelectionExtract.chosen lt user o.selection m1, v ∈ (m1.con c).expr.vars
    · obtain ⟨c, hc, hvc⟩ := hex
      rw [e2 c hc v hvc]
      have := hptr v
      unfold Margins at this
      conv_rhs => rw [← this]
      rfl
    · push Not at hex
      rw [e3 v hex]; exact hptr v
  · rw [if_neg hs] at h
    simp only [Option.some.injEq, Outcome.ok.injEq] at h
    have hvar : m.var = m1.var := by rw [← h]; rfl
    rw [hvar]; exact hptr v

theorem margins_launched {o : Options} {O m1 m0 : MState} {sels : List ℕ} (p : Ordinary o O) (h : Prepared O m1 sels)
    (i : Input) (hgf : ofType i.lt m1 .gf2 = []) (hl : launch i sels m1 = some m0) (hm : ∀ v, (m1.var v).updateMargin = m1.var v) :
    ∀ v, (m0.var v).fixed = true → (m0.var v).updateMargin = m0.var v := by
  unfold launch at hl
  obtain ⟨m2, h2, hl1⟩ := Option.bind_eq_some_iff.1 hl
  obtain ⟨m3, h3, hl2⟩ := Option.map_eq_some_iff.1 hl1
  have e3 : m3 = m2 := by
    unfold gf2Stage at h3
    rw [hgf] at h3
    simp only [List.isEmpty_nil, Bool.not_true, Bool.and_false, Bool.false_eq_true, if_false, Option.some.injEq] at h3
    exact h3.symm
  subst e3
  have rd := C68.ready p h
  have hp : sels.Pairwise (SelectionExtract.Apart m1) :=
    List.Pairwise.imp_of_mem (fun {a b} ha hb hab => rd.apart a ha b hb hab) rd.nodup
  have rest := Verifier.verifyAll_rest i.correct sels m1 m3 rd.nodup rd.varNodup hp h2
  have hv : m0.var = m3.var := by rw [← hl2]; rfl
  intro v hf
  rw [hv] at hf ⊢
  have e := (rest.keeps v).same (by rw [← (rest.keeps v).fixed]; exact hf)
  rw [e]; exact hm v

/-- Lagrange dual is skipped as soon as there is a selection. -/
theorem no_selections {C : Nbhd.Config ν μ} {cfg : Cfg} {m0 : MState} (hf : C74.Fits C cfg m0) (hg : C66.Good cfg m0 (assignment m0))
    (ha : applicable m0 = true) : cfg.sels = [] := by
  rw [List.eq_nil_iff_forall_not_mem]
  intro s hs
  have h1 := (hg.sel s hs).2
  cases hv : (m0.con s).expr.vars with
  | nil => rw [hv] at h1; simp at h1
  | cons v l =>
    have hmem : v ∈ (m0.con s).expr.vars := by rw [hv]; simp
    obtain ⟨-, -, h2, h3⟩ := hf.owner v s (hf.members s hs v hmem)
    have := List.all_eq_true.1 ha v h2
    rw [h3] at this
    simp at this

/-! ## A whole call -/

/-- A problem with the conditions below meets those of the lemmas about laps. -/
theorem base (i : Input) (O m1 m0 : MState) (fast : Bool) (selRel : ℕ → List ℕ)
    (name : ℕ → String) (C : Nbhd.Config ν μ) (p : Ordinary i.options O) (hu : C76.Unselected O)
    (hm : ∀ v, (O.var v).updateMargin = O.var v) (hname : C48.Distinct name O)
    (hf : ∃ σ, Feasible O σ) (hpen : 0 ≤ i.pen)
    (hprep : prepare i.options i.lt i.user O = some (.ok m1)) (hgf : ofType i.lt m1 .gf2 = [])
    (h0 : started i O = some m0) (hC : C76.SetUp C selRel m1) (hcon : C74.Constrained m0) :
    Base C (Whole.cfg i fast selRel O) m0 name ∧ C74.Fits C (Whole.cfg i fast selRel O) m0 ∧
      C66.Good (Whole.cfg i fast selRel O) m0 (assignment m0) ∧ m0.dependents = [] := by
  have hl : launch i (selections i.options i.lt i.user O) m1 = some m0 := by
    unfold started at h0; rw [hprep] at h0; exact h0
  have pr := prepared i.options i.lt i.user O m1 p hf hprep
  have pt := C76.pointers i.options i.lt i.user O m1 p hf hu hprep
  have st : C66.Setting (Whole.cfg i fast selRel O) m0 := C68.setting p pr i hpen hgf hl fast selRel
  have ft : C74.Fits C (Whole.cfg i fast selRel O) m0 := C76.fits p pr pt hC i hgf hl
  have gd : C66.Good (Whole.cfg i fast selRel O) m0 (assignment m0) := C76.good p pr i hgf hl
  obtain ⟨l, -, -, -⟩ := C68.launched p pr i hgf hl
  obtain ⟨-, r2, -, -, -, -, -, r8, -⟩ := l.rest
  have hdep : m0.dependents = [] := by rw [r8, pr.dependents, p.dependents]
  refine ⟨?_, ft, gd, hdep⟩
  exact
    { setting := st, fits := ft, constrained := hcon, good := gd
      selected := fun s _ u hu' => by
        rcases (C76.launched_rest p pr i hgf hl).2 s u hu' with k | ⟨-, -, -, k⟩
        · rw [pt.none] at k; exact absurd k (by simp)
        · exact k
      margins := fun v _ => margins_launched p pr i hgf hl (margins_prepared i.options i.lt i.user O m1 p hf hm hprep) v
      depFree := by rw [hdep]; simp
      names := by
        unfold C48.Distinct
        rw [r2, pr.varIds]; exact hname }

/-- The guarantee of a whole call that computes the starts of its searches itself (`Ctl.call`).  For an ordinary model with
a solution, without parity equations, with different names, whose setup succeeds: if tabu search and local search take their
moves from the neighbourhood, whatever else they do, and every free variable occurs in an enabled constraint, then the call
ends with a report (in particular none of the imports throws, and there always is a solution to start from), every search
starts from values come across before, and

* the reported values are marked feasible exactly if they solve the user's model,
* the reported objective is the user's objective of these values, and
* if a search came across a solution of the user's model, the reported values are one, and at most `1e-5` worse than
  any solution come across.

Missing: the bounding of variables during the search (see C77), and what is missing in C76. -/
theorem call_ends_with_right_report_partial (i : Input) (O m1 m0 : MState) (fast : Bool) (selRel : ℕ → List ℕ)
    (name : ℕ → String) (o : Opt) (C : Nbhd.Config ν μ) (p : Ordinary i.options O) (hu : C76.Unselected O)
    (hm : ∀ v, (O.var v).updateMargin = O.var v) (hname : C48.Distinct name O)
    (hf : ∃ σ, Feasible O σ) (hpen : 0 ≤ i.pen)
    (hprep : prepare i.options i.lt i.user O = some (.ok m1)) (hgf : ofType i.lt m1 .gf2 = [])
    (h0 : started i O = some m0) (hC : C76.SetUp C selRel m1) (hcon : C74.Constrained m0)
    (ho : o.bounding = false) (pl : Plan) (hob : Obeys C name (Whole.cfg i fast selRel O) o m0 pl) :
    ∃ x r m', searches name (Whole.cfg i fast selRel O) o m0 pl = some x ∧
      call i fast selRel name o O pl = some (r, m') ∧
      (∀ pre d post, x.done = pre ++ Event.start d :: post → ∃ q ∈ C66.all m0 pre, ∀ v, d.values v = q.1 v) ∧
      (r.feasible = true ↔ Solves O r.values) ∧
      (O.objDefined = true → r.objective = exprValue O.obj r.values) ∧
      ∀ q ∈ C66.all m0 x.done, Solves O q.1 →
        Solves O r.values ∧ minObjective O r.values ≤ minObjective O q.1 + 1e-5 := by
  obtain ⟨b, ft, gd, hdep⟩ := base i O m1 m0 fast selRel name C p hu hm hname hf hpen hprep hgf h0 hC hcon
  obtain ⟨x, hx, k⟩ := searches_ok b o ho (no_selections ft gd) pl hob
  obtain ⟨⟨r, m', hs⟩, -⟩ := Ok.ends b x.done k.follows k.starts k.relaxes
  have hs2 : call i fast selRel name o O pl = some (r, m') := by
    unfold call
    rw [h0, Option.bind_some]
    unfold Ctl.solve
    rw [hx, Option.bind_some]
    unfold Search.solve at hs
    rw [k.ran, Option.bind_some] at hs
    exact hs
  refine ⟨x, r, m', hx, hs2, fun pre d post e => ?_, ?_⟩
  · obtain ⟨q, hq, ha⟩ := k.starts pre d post e
    exact ⟨q, hq, fun v => ha v (by rw [hdep]; simp)⟩
  · exact C68.report_solves_user_model_partial i O m0 fast selRel p hf hpen
      (fun m hm => by
        rw [hprep] at hm
        simp only [Option.some.injEq, Outcome.ok.injEq] at hm
        rw [← hm]; exact hgf) h0 x.done (k.legal b) r m' (by unfold Whole.solve; rw [h0]; exact hs)

/-! ### A call meeting the conditions: the model of C76 (minimise `-2 x0 + x2 - x3 - x4` under `x0 + x1 + x2 = 1`,
`2 x0 + x1 + 3 x2 + x3 ≤ 6`), with a Lagrange dual (skipped because of the selection), a local search with one move and two
tabu searches. -/

namespace Sample
open C76.Sample

def name : ℕ → String := fun v => if v = 0 then "x0" else if v = 1 then "x1" else if v = 2 then "x2" else if v = 3 then "x3" else "x4"
def opt : Opt := { mode := .smart, innerBreaker := true, innerThreshold := 5, outerThreshold := 2 }
def lap1 : Lap := ⟨[.move swap false], 1, false, fun _ => 3, fun _ => 4⟩
def lap2 : Lap := ⟨[.move swap false], 1, false, fun _ => 5, fun _ => 6⟩
def plan : Plan := ⟨some [.relax (fun _ => true)], some [.move inc false], [lap1, lap2]⟩
def x0 : Sofar := ⟨begin m0, []⟩
def p1 : Sparse × Sofar := (firstSolution name m0, x0)
def p2 : Sparse × Sofar := (optional name cfg p1.1 plan.localSearch p1.2).getD p1
def t1 : Dense × St := (startFrom name cfg p1.1 p1.2.st).getD (first, begin m0)
def c2 : Ctl.State := { current := p2.1 }
def t2 : Dense × St := (startFrom name cfg p2.1 p2.2.st).getD (first, begin m0)
def p3 : Ctl.State × Sofar := (lapStep name cfg opt lap1 c2 p2.2).getD (c2, x0)
def t3 : Dense × St := (startFrom name cfg p3.1.current p3.2.st).getD (first, begin m0)

theorem skipped : applicable m0 = false := by decide +kernel

theorem obeys : Obeys conf name (Whole.cfg inp true selRel ex) opt m0 plan := by
  refine ⟨fun b hb e he => ?_, fun p hp => ?_⟩
  · obtain rfl := Option.some.inj hb
    exact ⟨_, List.mem_singleton.1 he⟩
  have hp' : p = p1 := by
    rw [if_neg (by rw [skipped]; decide)] at hp
    exact (Option.some.inj hp).symm
  subst hp'
  refine ⟨fun b hb => ?_, fun q hq => ?_⟩
  · obtain rfl := Option.some.inj hb
    refine ⟨fun e he => ⟨_, _, List.mem_singleton.1 he⟩, fun d s hs => ⟨?_, fun _ _ => trivial⟩⟩
    have e : (d, s) = t1 := by unfold t1 C76.Sample.cfg; rw [hs]; rfl
    obtain rfl : s = t1.2 := by rw [← e]
    exact ⟨on, C74.Sample.every, by simp [on], .plain (cands t1.2) inc (by decide +kernel) (by decide +kernel)⟩
  · have hq' : q = p2 := by unfold p2 C76.Sample.cfg; rw [hq]; rfl
    subst hq'
    refine ⟨fun e he => ⟨_, _, List.mem_singleton.1 he⟩, fun c => by unfold lap1; norm_num, fun d s hs => ⟨?_, fun _ _ => trivial⟩,
      fun r hr => ?_⟩
    · have e : (d, s) = t2 := by unfold t2 C76.Sample.cfg; rw [hs]; rfl
      obtain rfl : s = t2.2 := by rw [← e]
      exact ⟨on, C74.Sample.every, by simp [on], .plain (cands t2.2) swap (by decide +kernel) (by decide +kernel)⟩
    · have hr' : r = p3 := by unfold p3 c2 C76.Sample.cfg; rw [hr]; rfl
      subst hr'
      refine ⟨fun e he => ⟨_, _, List.mem_singleton.1 he⟩, fun c => by unfold lap2; norm_num, fun d s hs => ⟨?_, fun _ _ => trivial⟩,
        fun _ _ => trivial⟩
      have e : (d, s) = t3 := by unfold t3 C76.Sample.cfg; rw [hs]; rfl
      obtain rfl : s = t3.2 := by rw [← e]
      exact ⟨on, C74.Sample.every, by simp [on], .plain (cands t3.2) swap (by decide +kernel) (by decide +kernel)⟩

example : Ordinary inp.options ex ∧ C76.Unselected ex ∧ (∀ v, (ex.var v).updateMargin = ex.var v) ∧ C48.Distinct name ex ∧
    (∃ σ, Feasible ex σ) ∧ 0 ≤ inp.pen ∧
    prepare inp.options inp.lt inp.user ex = some (.ok m1) ∧ ofType inp.lt m1 .gf2 = [] ∧ started inp ex = some m0 ∧
    C76.SetUp conf selRel m1 ∧ C74.Constrained m0 ∧ opt.bounding = false ∧
    Obeys conf name (Whole.cfg inp true selRel ex) opt m0 plan := by
  refine ⟨ordinary, unselected, fun v => ?_, ?_, feasible, by decide +kernel, prep, by decide +kernel, start, setUp, ?_, rfl, obeys⟩
  · rcases C67.ex_var v with h | h <;> rw [show ex.var v = C67.ex.var v from rfl, h] <;> rfl
  · unfold C48.Distinct; decide +kernel
  · unfold C74.Constrained; decide +kernel

/-- The second tabu search starts from where the local search ended, which is the global incumbent. -/
example : [0, 1, 2, 3, 4].map t2.1.values = [1, 0, 0, 2, 1] ∧ [0, 1, 2, 3, 4].map t3.1.values = [1, 0, 0, 2, 1] := by
  decide +kernel

/-- The report of this call. -/
example : (call inp true selRel name opt ex plan).map
    (fun p => ([0, 1, 2, 3, 4].map p.1.values, p.1.objective, p.1.feasible)) = some ([1, 0, 0, 2, 1], -5, true) := by
  decide +kernel

end Sample

theorem simple_table : ∀ b1 b2 b3 b4 b5 b6 b7 : Bool, (flagsSimple ⟨b1, b2, b3, b4, b5, b6, b7⟩).tighten =
    (!b2 && !b1 && !b3 && !b5) := by decide

theorem smart_table : ∀ b1 b2 b3 b4 b5 b6 b7 : Bool, let A := flagsSmart ⟨b1, b2, b3, b4, b5, b6, b7⟩
    A.tighten = (!b2 && !b1 && !b3 && (b4 || !b5)) ∧
      A.useGlobal = (b1 || (b2 || (b4 || (!b3 && b5)))) ∧ (A.useGlobal = false → A.useLocal = (b3 || (!b6 || b7))) ∧
      (A.useGlobal = false → A.useLocal = false → A.usePrevious = true) := by decide

/-- The rules in full, for a search that ended with the global augmented incumbent objective `g`, the local one `l`, and the
best local solution `d` with the score `sc`.  `better`: that solution is better than the start; `flat`: the range of the
augmented objective during the search was below 1 % of the global one; `close`: the local incumbent reaches the global one.

* Penalties are tightened exactly if the search improved something but not the global incumbent, its best solution is
  infeasible, and the search was not flat (or, in `Smart` mode, it came close).
* They are reset exactly if they are tightened, the option is on, no feasible solution is known, the global incumbent has
  not been improved for long enough, the penalties have not been relaxed for long enough, and the best solution is not
  better than the start or the penalties exceed their initial values.
* In `Smart` mode without a reset, the next start is the global incumbent if the search improved it, improved nothing, came
  close, or was flat without a feasible solution; otherwise the best solution of the search, unless that is infeasible,
  feasible ones are known, and it is not better than the start: then the next search starts where this one did.
* The counters count the searches since the last improvement and since the last relaxation. -/
theorem exact_rules (name : ℕ → String) (vs : List ℕ) (o : Opt) (h : Holder Dense) (status : ℕ) (lap : Lap) (c c' : State)
    (fl : Flags) (hu : update name vs o h status lap c = some (fl, c')) (g l : ℚ) (sc : Score) (gs d : Dense)
    (hg : h.globalObj = some g) (hl : h.localObj = some l) (hsc : h.localScore = some sc) (hgs : h.globalSol = some gs)
    (hld : h.localSol = some d) (better flat close : Prop)
    (hb : better ↔ d.objective < c.current.objective ∨ d.totalViolation < c.current.totalViolation)
    (hfl : flat ↔ lap.range / max 1 |g| < 1 / 100) (hcl : close ↔ g - l < EPSILON) :
    (fl.tighten = true ↔ status ≠ 0 ∧ status.testBit 1 = false ∧ sc.isFeasible = false ∧ (o.mode = .smart ∧ close ∨ ¬ flat)) ∧
    (fl.reset = true ↔ fl.tighten = true ∧ o.innerBreaker = true ∧ h.found = false ∧ c'.sinceGlobal ≥ o.outerThreshold ∧
      c.sinceRelax > o.innerThreshold ∧ (lap.exceeded = true ∨ ¬ better)) ∧
    (o.mode = .smart → fl.reset = false →
      ((status.testBit 1 = true ∨ status = 0 ∨ close ∨ sc.isFeasible = false ∧ flat) → c'.current = gs.toSparse name vs) ∧
      (¬ (status.testBit 1 = true ∨ status = 0 ∨ close ∨ sc.isFeasible = false ∧ flat) →
        (sc.isFeasible = true ∨ h.found = false ∨ better → c'.current = d.toSparse name vs) ∧
        (¬ (sc.isFeasible = true ∨ h.found = false ∨ better) → c'.current = c.current))) ∧
    c'.sinceGlobal = (if status.testBit 1 = true then 0 else c.sinceGlobal + 1) ∧
    c'.sinceRelax = (if fl.tighten = true then c.sinceRelax + 1 else 0) ∧
    c'.feasNow = status.testBit 2 ∧ c'.feasBefore = c.feasNow := by
  have hrel := (restart_rules name vs o h status lap c c' fl hu).1
  unfold update facts at hu
  rw [hg, hl, hsc, hld] at hu
  simp only [Option.bind_some, Option.map_some] at hu
  obtain ⟨cur, hd, hu⟩ := Option.map_eq_some_iff.1 hu
  simp only [Prod.mk.injEq] at hu
  obtain ⟨e1, e2⟩ := hu
  rw [e1] at hd
  have ec : c'.current = cur := by rw [← e2]
  have es : c'.sinceGlobal = if status.testBit 1 = true then 0 else c.sinceGlobal + 1 := by rw [← e2]
  have er : c'.sinceRelax = if fl.tighten = true then c.sinceRelax + 1 else 0 := by
    have : c'.sinceRelax = if fl.relax = true then 0 else c.sinceRelax + 1 := by rw [← e2, e1]
    rw [this]
    cases hr : fl.relax <;> cases ht : fl.tighten <;> rw [hr, ht] at hrel <;> simp at hrel ⊢
  have t1 : c'.feasNow = status.testBit 2 := by rw [← e2]
  have t2 : c'.feasBefore = c.feasNow := by rw [← e2]
  rw [← es] at e1
  clear e2
  obtain ⟨b7, h7⟩ : ∃ b, b = (decide (d.objective < c.current.objective) || decide (d.totalViolation < c.current.totalViolation)) :=
    ⟨_, rfl⟩
  obtain ⟨b5, h5⟩ : ∃ b, b = decide (lap.range / max 1 |g| < 1 / 100) := ⟨_, rfl⟩
  obtain ⟨b4, h4⟩ : ∃ b, b = decide (g - l < EPSILON) := ⟨_, rfl⟩
  obtain ⟨b2, h2⟩ : ∃ b, b = (status == 0) := ⟨_, rfl⟩
  rw [← h7, ← h5, ← h4, ← h2] at e1
  have k7 : better ↔ b7 = true := by rw [hb, h7]; simp
  have k5 : flat ↔ b5 = true := by rw [hfl, h5]; simp
  have k4 : close ↔ b4 = true := by rw [hcl, h4]; simp
  have k2 : status = 0 ↔ b2 = true := by rw [h2]; simp
  obtain ⟨A, hA, e1⟩ : ∃ A, (match o.mode with
      | .simple => flagsSimple ⟨status.testBit 1, b2, sc.isFeasible, b4, b5, h.found, b7⟩
      | .smart => flagsSmart ⟨status.testBit 1, b2, sc.isFeasible, b4, b5, h.found, b7⟩) = A ∧
      withReset o (!h.found && decide (c'.sinceGlobal ≥ o.outerThreshold))
        ((lap.exceeded || !b7) && decide (c.sinceRelax > o.innerThreshold)) A = fl := ⟨_, rfl, e1⟩
  have ht : fl.tighten = A.tighten := by
    rw [← e1]; unfold withReset
    split
    · split <;> rfl
    · rfl
  have hr0 : A.reset = false := by
    rw [← hA]
    cases o.mode
    · exact (simple_flags (status.testBit 1) b2 sc.isFeasible b4 b5 h.found b7).2.2.2.2
    · exact (smart_flags (status.testBit 1) b2 sc.isFeasible b4 b5 h.found b7).2.2.2.1
  refine ⟨?_, ?_, fun hm hr => ?_, es, er, t1, t2⟩
  · rw [ht, ← hA, k5, k4, ne_eq, k2]
    cases hm : o.mode
    · simp only [simple_table]
      cases status.testBit 1 <;> cases b2 <;> cases sc.isFeasible <;> cases b4 <;> cases b5 <;> simp
    · simp only [(smart_table _ _ _ _ _ _ _).1]
      cases status.testBit 1 <;> cases b2 <;> cases sc.isFeasible <;> cases b4 <;> cases b5 <;> simp
  · rw [ht, k7, ← e1]
    unfold withReset
    cases o.innerBreaker <;> cases A.tighten <;> cases h.found <;> cases lap.exceeded <;> cases b7 <;>
      by_cases q1 : c'.sinceGlobal ≥ o.outerThreshold <;> by_cases q2 : c.sinceRelax > o.innerThreshold <;> simp [q1, q2, hr0]
  · have hfA : fl = A := by
      rw [← e1] at hr ⊢
      unfold withReset at hr ⊢
      split
      · rename_i q1
        rw [if_pos q1] at hr
        split
        · rename_i q2
          rw [if_pos q2] at hr
          exact absurd hr (by simp)
        · rfl
      · rfl
    rw [hm] at hA
    replace hA : flagsSmart ⟨status.testBit 1, b2, sc.isFeasible, b4, b5, h.found, b7⟩ = A := hA
    obtain ⟨-, s2, s3, s4⟩ := smart_table (status.testBit 1) b2 sc.isFeasible b4 b5 h.found b7
    rw [hA, ← hfA] at s2 s3 s4
    rw [k2, k4, k5, k7, ec]
    unfold nextSolution at hd
    rw [hgs, hld] at hd
    refine ⟨fun q => ?_, fun q => ⟨fun q' => ?_, fun q' => ?_⟩⟩
    · have : fl.useGlobal = true := by
        rw [s2]; revert q
        cases status.testBit 1 <;> cases b2 <;> cases sc.isFeasible <;> cases b4 <;> cases b5 <;> simp
      rw [if_pos this] at hd
      exact (Option.some.inj hd).symm
    all_goals
      have u1 : fl.useGlobal = false := by
        rw [s2]; revert q
        cases status.testBit 1 <;> cases b2 <;> cases sc.isFeasible <;> cases b4 <;> cases b5 <;> simp
      rw [if_neg (by rw [u1]; decide)] at hd
    · have u2 : fl.useLocal = true := by
        rw [s3 u1]; revert q'
        cases sc.isFeasible <;> cases h.found <;> cases b7 <;> simp
      rw [if_pos u2] at hd
      exact (Option.some.inj hd).symm
    · have u2 : fl.useLocal = false := by
        rw [s3 u1]; revert q'
        cases sc.isFeasible <;> cases h.found <;> cases b7 <;> simp
      rw [if_neg (by rw [u2]; decide), if_pos (s4 u1 u2)] at hd
      exact (Option.some.inj hd).symm

/-- The rules, applied: a search that improved its local incumbent only and found nothing feasible tightens the penalties, and
if that has gone on for long enough the penalties are reset. -/
example : (update (fun _ => "x") [] ⟨.smart, true, 2, 0, false⟩
    { found := false, globalObj := some 7, globalSol := some ⟨fun _ => 0, 3, 1, 5, false⟩,
      localObj := some 5, localSol := some ⟨fun _ => 0, 3, 1, 5, false⟩, localScore := some {} } 1
    ⟨[], 3, true, fun _ => 1, fun _ => 1⟩
    { current := Dense.toSparse (fun _ => "x") [] ⟨fun _ => 0, 3, 1, 5, false⟩, sinceRelax := 3 }).map
      (fun p => (p.1.tighten, p.1.reset, p.2.sinceGlobal)) = some (true, true, 1) := by
  decide +kernel

end Printemps.C78
