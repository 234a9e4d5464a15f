import Verif.Props.C104
import Verif.Props.C68

/-! # C106 — a whole call without presolve and selections tells the truth about the user's problem

`Whole.solve i fast selRel O es` : the setup of the call for the user's problem `O`, the searches described by the events `es` and
the report. -/

namespace Printemps.C106
open Spec Setup Whole Search Sol

/-! ## Specification -/

/-- How problems are built.  Nothing is assumed about the size of the coefficients or about their being integers; variables may be
fixed and constraints switched off. -/
structure Built (O : MState) : Prop where
  conIds : O.conIds.Nodup
  varIds : O.varIds.Nodup
  /-- sums mention a variable once -/
  terms : ∀ c ∈ O.conIds, ((O.con c).expr.terms.map Prod.fst).Nodup
  objective : (O.obj.terms.map Prod.fst).Nodup
  uexpr : ∀ i ∈ O.uexprIds, ((O.uexpr i).expr.terms.map Prod.fst).Nodup
  /-- integer variables and 0/1 variables -/
  ranges : ∀ v ∈ O.varIds, (O.var v).lb ≤ (O.var v).ub ∧ ((O.var v).sense = .integer ∨
    ((O.var v).sense = .binary ∧ 0 ≤ (O.var v).lb ∧ (O.var v).ub ≤ 1))
  /-- 0/1 variables that are not fixed may be 0 and 1 -/
  unit : ∀ v ∈ O.varIds, (O.var v).sense = .binary → (O.var v).fixed = false → (O.var v).lb = 0 ∧ (O.var v).ub = 1
  /-- the numbers stored with constraints -/
  maxLe : ∀ c ∈ O.conIds, ∀ t ∈ (O.con c).expr.terms, |t.2| ≤ (O.con c).maxAbs
  maxEq : ∀ c ∈ O.conIds, (O.con c).maxAbs = 0 ∨ ∃ t ∈ (O.con c).expr.terms, (O.con c).maxAbs = |t.2|
  onlyBin : ∀ c ∈ O.conIds, (O.con c).onlyBinaryVar = true → ∀ v ∈ (O.con c).expr.terms.map Prod.fst,
    (O.var v).fixed = false → 0 ≤ (O.var v).lb ∧ (O.var v).ub ≤ 1
  dependents : O.dependents = []

/-! ## Proof -/

theorem structured_con (m : MState) : (structured m).con = m.con := rfl
theorem structured_var (m : MState) : (structured m).var = m.var := rfl
theorem structured_uexpr (m : MState) : (structured m).uexpr = m.uexpr := rfl
theorem structured_uexprIds (m : MState) : (structured m).uexprIds = m.uexprIds := rfl
theorem structured_varIds (m : MState) : (structured m).varIds = m.varIds := rfl
theorem structured_conIds (m : MState) : (structured m).conIds = m.conIds := rfl

theorem frame (i : Input) (O m0 : MState) (hp : i.options.presolve = false) (hs : i.options.selection = .off)
    (h : started i O = some m0) : Setup.selections i.options i.lt i.user O = [] ∧
    ∃ n m1 : MState, n.con = O.con ∧ n.var = O.var ∧ n.uexpr = O.uexpr ∧ n.uexprIds = O.uexprIds ∧ n.varIds = O.varIds ∧
      n.conIds = O.conIds ∧ Verifier.verifyAll i.correct [] n = some m1 ∧ { m1 with var := n.var } = n ∧
      m0 = Search.setPenalties { m1.setupSens with globalPen := i.pen } (fun _ => i.pen) (fun _ => i.pen) := by
  have hred : reduce i.options i.lt O = some (.ok (structured (structured (structured O)))) := by
    unfold reduce presolveStage dependentStage setVariableStage duplicateStage
    simp only [hp, Bool.false_and, Bool.false_eq_true, if_false, andThen]
  have hprep : prepare i.options i.lt i.user O = some (.ok (structured (structured (structured (structured O))))) := by
    unfold prepare
    rw [hred]
    simp only [andThen, hs, ne_eq, not_true, false_and, if_false]
  have hsel : Setup.selections i.options i.lt i.user O = [] := by
    unfold Setup.selections
    rw [hred]
    simp only [hs, ne_eq, not_true, false_and, if_false]
  refine ⟨hsel, ?_⟩
  unfold started at h
  rw [hprep, hsel] at h
  dsimp only at h
  have e1 : (structured (structured (structured (structured O)))).con = O.con := by simp only [structured_con]
  have e2 : (structured (structured (structured (structured O)))).var = O.var := by simp only [structured_var]
  have e3 : (structured (structured (structured (structured O)))).uexpr = O.uexpr := by simp only [structured_uexpr]
  have e4 : (structured (structured (structured (structured O)))).uexprIds = O.uexprIds := by simp only [structured_uexprIds]
  have e5 : (structured (structured (structured (structured O)))).varIds = O.varIds := by simp only [structured_varIds]
  have e6 : (structured (structured (structured (structured O)))).conIds = O.conIds := by simp only [structured_conIds]
  generalize structured (structured (structured (structured O))) = n at h e1 e2 e3 e4 e5 e6
  unfold launch at h
  obtain ⟨m1, h1, h2⟩ := Option.bind_eq_some_iff.1 h
  obtain ⟨m2, h3, rfl⟩ := Option.map_eq_some_iff.1 h2
  have e : m1 = m2 := by
    unfold gf2Stage at h3
    rw [hp] at h3
    simp only [Bool.false_and, Bool.false_eq_true, if_false, Option.some.injEq] at h3
    exact h3
  subst e
  exact ⟨n, m1, e1, e2, e3, e4, e5, e6, h1, (C104.verifyAll_nil _ _ _ h1).1, rfl⟩

/-- What is stored with the model of the searches besides the problem. -/
structure Stored (i : Input) (O m0 : MState) : Prop where
  con : ∀ c, m0.con c = { O.con c with penLess := i.pen, penGreater := i.pen }
  uexpr : m0.uexpr = O.uexpr
  uexprIds : m0.uexprIds = O.uexprIds
  pen : m0.globalPen = i.pen
  binary : ∀ v ∈ O.varIds, (O.var v).sense = .binary → (m0.var v).value = 0 ∨ (m0.var v).value = 1
  integer : ∀ v ∈ O.varIds, (O.var v).sense = .integer →
    (O.var v).lb ≤ (m0.var v).value ∧ (m0.var v).value ≤ (O.var v).ub
  sens : WellFormed m0 → ∀ v, C07.SensOK m0 v

theorem stored {i : Input} {O m0 : MState} (b : Built O) (hp : i.options.presolve = false)
    (hs : i.options.selection = .off) (h : started i O = some m0) : Stored i O m0 := by
  obtain ⟨-, n, m1, e1, e2, e3, e4, e5, e6, hv, hf, rfl⟩ := frame i O m0 hp hs h
  have hr : C51.Ready [] n := by
    refine ⟨List.nodup_nil, by rw [e5]; exact b.varIds, by simp, by simp, by simp, fun v hv' hb => ?_, fun v hv' _ => ?_⟩
    · rw [e2] at hb ⊢
      rw [e5] at hv'
      obtain ⟨r1, r2⟩ := b.ranges v hv'
      rcases r2 with r2 | r2
      · rw [hb] at r2; exact absurd r2 (by decide)
      · exact ⟨r2.2.1, r1, r2.2.2⟩
    · rw [e2]
      rw [e5] at hv'
      exact (b.ranges v hv').1
  obtain ⟨-, g2, g3, -, -, -⟩ := C51.corrected_or_rejected_partial i.correct [] n m1 hr hv
  rw [e5, e2] at g2 g3
  have f : ∀ {α : Type} (g : MState → α), g { m1 with var := n.var } = g n := fun g => congrArg g hf
  exact {
    con := fun c => by
      have : m1.con = O.con := (f MState.con).trans e1
      show ({ m1.con c with penLess := i.pen, penGreater := i.pen } : Con) = _
      rw [this]
    uexpr := (f MState.uexpr).trans e3
    uexprIds := (f MState.uexprIds).trans e4
    pen := rfl
    binary := g2
    integer := g3
    sens := fun wf v => by
      have := C07.setupSens_ok _ wf v
      unfold C07.SensOK at this ⊢
      exact this }

theorem setting {i : Input} {O m0 : MState} (b : Built O) (hp : i.options.presolve = false)
    (hs : i.options.selection = .off) (hpen : 0 ≤ i.pen) (h : started i O = some m0) (fast : Bool) (selRel : ℕ → List ℕ) :
    C66.Setting ⟨fast, [], selRel⟩ m0 := by
  obtain ⟨p, -⟩ := C104.problem_as_built i O m0 hp hs h
  have s := stored b hp hs h
  have hdep : m0.dependents = [] := p.dependents.trans b.dependents
  have wf : WellFormed m0 := ⟨by rw [p.conIds]; exact b.conIds,
    fun c hc => by rw [p.expr]; exact b.terms c (by rw [← p.conIds]; exact hc),
    by rw [p.obj]; exact b.objective,
    fun j hj => by rw [s.uexpr]; exact b.uexpr j (by rw [← s.uexprIds]; exact hj)⟩
  have hbin : ∀ v ∈ m0.varIds, (m0.var v).fixed = false → (m0.var v).sense = .binary → (m0.var v).lb = 0 ∧ (m0.var v).ub = 1 :=
    fun v hv hf hb => by
      rw [(p.bounds v).1, (p.bounds v).2]
      rw [p.kind] at hb
      rw [p.fixed] at hf
      exact b.unit v (by rw [← p.varIds]; exact hv) hb hf
  have hkind : ∀ v ∈ m0.varIds, (m0.var v).sense = .binary ∨ (m0.var v).sense = .integer := fun v hv => by
    rw [p.kind]
    rcases (b.ranges v (by rw [← p.varIds]; exact hv)).2 with k | k
    · exact Or.inr k
    · exact Or.inl k.1
  exact {
    wf := wf
    ready := ⟨List.nodup_nil, by rw [p.varIds]; exact b.varIds, by simp, by simp, by simp, fun v hv hb => by
        rw [(p.bounds v).1, (p.bounds v).2]
        rw [p.kind] at hb
        obtain ⟨r1, r2⟩ := b.ranges v (by rw [← p.varIds]; exact hv)
        rcases r2 with r2 | r2
        · rw [hb] at r2; exact absurd r2 (by decide)
        · exact ⟨r2.2.1, r1, r2.2.2⟩, fun v hv _ => by
        rw [(p.bounds v).1, (p.bounds v).2]
        exact (b.ranges v (by rw [← p.varIds]; exact hv)).1⟩
    unit := fun v hv hf hk => by
      rcases hk with hk | hk
      · exact hbin v hv hf hk
      · rcases hkind v hv with k | k <;> rw [hk] at k <;> exact absurd k (by decide)
    kinds := fun v hv _ => (hkind v hv).imp id Or.inl
    start := fun v hv _ hf => by
      rcases hkind v hv with k | k
      · obtain ⟨u1, u2⟩ := hbin v hv hf k
        rw [p.kind] at k
        rcases s.binary v (by rw [← p.varIds]; exact hv) k with e | e <;> omega
      · rw [p.kind] at k
        rw [(p.bounds v).1, (p.bounds v).2]
        exact s.integer v (by rw [← p.varIds]; exact hv) k
    sens := s.sens wf
    maxLe := fun c hc _ t ht => by
      rw [s.con] at ht ⊢
      exact b.maxLe c (by rw [← p.conIds]; exact hc) t ht
    maxEq := fun c hc _ => by
      rw [s.con]
      exact b.maxEq c (by rw [← p.conIds]; exact hc)
    onlyBin := fun c hc hb v hv hf => by
      rw [s.con] at hb hv
      rw [p.fixed] at hf
      rw [(p.bounds v).1, (p.bounds v).2]
      exact b.onlyBin c (by rw [← p.conIds]; exact hc) hb v hv hf
    noDep := ⟨fun _ _ _ _ => by rw [hdep]; simp, fun _ _ _ _ _ => by rw [hdep]; simp, fun _ _ => by rw [hdep]; simp⟩
    pen := fun c => by rw [s.con]; exact ⟨hpen, hpen⟩ }

theorem told (i : Input) (O m0 : MState) (fast : Bool) (selRel : ℕ → List ℕ) (b : Built O)
    (hp : i.options.presolve = false) (hs : i.options.selection = .off) (hpen : 0 ≤ i.pen)
    (h0 : started i O = some m0) (e : ℚ) (he : Err m0 e) (es : List Event)
    (hle : ∀ ev ∈ es, C66.LegalEvent (Whole.cfg i fast selRel O) m0 ev) (r : Named) (m' : MState)
    (h : Whole.solve i fast selRel O es = some (r, m')) :
    (∀ v ∈ O.varIds, Admits (O.var v) (r.values v)) ∧ C59.Consistent O r ∧
    ∃ q ∈ C66.all m0 es, r.values = q.1 ∧
      ((∃ p ∈ C66.all m0 es, totalViolation O p.1 + p.2 * e ≤ 1e-5) → totalViolation O r.values ≤ 1e-5 + q.2 * e ∧
        ∀ p ∈ C66.all m0 es, totalViolation O p.1 + p.2 * e ≤ 1e-5 → minObjective O r.values ≤ minObjective O p.1 + 1e-5) ∧
      ((∀ p ∈ C66.all m0 es, 1e-5 + p.2 * e < totalViolation O p.1) → ∀ p ∈ C66.all m0 es,
        minObjective O r.values + totalViolation O r.values * i.pen ≤
          minObjective O p.1 + totalViolation O p.1 * i.pen + 1e-5 + (q.2 * e + p.2 * e) * i.pen) := by
  obtain ⟨p, st0⟩ := C104.problem_as_built i O m0 hp hs h0
  have s := stored b hp hs h0
  have hsel := (frame i O m0 hp hs h0).1
  have ecfg : Whole.cfg i fast selRel O = ⟨fast, [], selRel⟩ := by
    unfold Whole.cfg
    rw [hsel]
  have st := setting b hp hs hpen h0 fast selRel
  have hs' : Search.solve ⟨fast, [], selRel⟩ m0 es = some (r, m') := by
    unfold Whole.solve at h
    rw [h0, ecfg] at h
    exact h
  rw [ecfg] at hle
  obtain ⟨q, hq, hag, hr, hcons, hb1, hb2⟩ := C66.reported_with_tolerance st he
    (by rw [s.pen]; exact hpen) es hle r m' hs'
  have hdep : m0.dependents = [] := p.dependents.trans b.dependents
  have hq1 : r.values = q.1 := funext fun v => hag v (by rw [hdep]; simp)
  have hviol : ∀ c σ, violation (m0.con c) σ = violation (O.con c) σ := fun c σ => by rw [s.con]; rfl
  have htv : ∀ σ, totalViolation m0 σ = totalViolation O σ := fun σ => by
    unfold totalViolation enabledCons
    rw [p.conIds, List.filter_map, List.filter_map, List.map_map, List.map_map]
    have ef : (O.conIds.filter ((fun c : Con => c.enabled) ∘ m0.con)) = O.conIds.filter ((fun c : Con => c.enabled) ∘ O.con) :=
      List.filter_congr fun c _ => p.enabled c
    rw [ef]
    exact congrArg List.sum (List.map_congr_left fun c _ => hviol c σ)
  have hobj : ∀ σ, minObjective m0 σ = minObjective O σ := fun σ => by
    unfold minObjective
    rw [p.obj, p.isMin, p.objDefined]
  simp only [htv, hobj, s.pen] at hb1 hb2
  refine ⟨fun v hv => ⟨fun hf => ?_, fun hf => ?_⟩, ⟨fun c hc => ?_, fun hd => ?_, ?_, ?_⟩, q, hq, hq1, ?_, ?_⟩
  · rw [hr.fixed v (by rw [hdep]; simp) (Or.inr (by rw [p.fixed]; exact hf)), st0.fixed v hf]
  · have := hr.range v (by rw [p.varIds]; exact hv) (by rw [hdep]; simp) (by rw [p.fixed]; exact hf)
    rw [(p.bounds v).1, (p.bounds v).2] at this
    exact this
  · have := hcons.con c (by rw [p.conIds]; exact hc)
    rw [p.expr, hviol] at this
    exact this
  · rw [hcons.objective (by rw [p.objDefined]; exact hd), p.obj]
  · rw [hcons.totalViolation, p.conIds]
    exact congrArg List.sum (List.map_congr_left fun c _ => hviol c _)
  · rw [hcons.feasible, p.conIds]
    exact forall_congr' fun c => forall_congr' fun _ => by rw [p.enabled, hviol]
  · rw [hq1]; exact hb1
  · rw [hq1]; exact hb2

/-- **The guarantee of a whole call without presolve and selections**, for every problem, also with fractional coefficients, fixed
variables and constraints that are switched off, whatever the searches do:

* the reported values respect the bounds and fixings of the user's variables,
* the reported values and violations of constraints, the reported objective and the reported total violation are those of the
  user's problem for the reported values, and the feasibility mark is right,
* the reported values are the best come across: if an assignment within the tolerance was come across, they are one, with an
  objective at most `1e-5` worse than that of any such assignment; otherwise they have the least penalized objective, up to
  `1e-5`.

Missing: constraints with numbers finer than `1e-10`, for which the next theorem has a tolerance that grows with the number of
moves; 0/1 variables that are not fixed but have only one value left, whose bounds the setup ignores (C51). -/
theorem report_tells_the_truth_partial (i : Input) (O m0 : MState) (fast : Bool) (selRel : ℕ → List ℕ) (b : Built O)
    (hp : i.options.presolve = false) (hs : i.options.selection = .off) (hpen : 0 ≤ i.pen)
    (g : ℚ) (hg : 1e-10 < g) (hgrid : OnGrid O g) (h0 : started i O = some m0) (es : List Event)
    (hle : ∀ ev ∈ es, C66.LegalEvent (Whole.cfg i fast selRel O) m0 ev) (r : Named) (m' : MState)
    (h : Whole.solve i fast selRel O es = some (r, m')) :
    (∀ v ∈ O.varIds, Admits (O.var v) (r.values v)) ∧ C59.Consistent O r ∧
    ∃ q ∈ C66.all m0 es, r.values = q.1 ∧
      ((∃ p ∈ C66.all m0 es, totalViolation O p.1 ≤ 1e-5) → totalViolation O r.values ≤ 1e-5 ∧
        ∀ p ∈ C66.all m0 es, totalViolation O p.1 ≤ 1e-5 → minObjective O r.values ≤ minObjective O p.1 + 1e-5) ∧
      ((∀ p ∈ C66.all m0 es, 1e-5 < totalViolation O p.1) → ∀ p ∈ C66.all m0 es,
        minObjective O r.values + totalViolation O r.values * i.pen ≤
          minObjective O p.1 + totalViolation O p.1 * i.pen + 1e-5) := by
  obtain ⟨p, -⟩ := C104.problem_as_built i O m0 hp hs h0
  have hgrid0 : OnGrid m0 g := ⟨
    fun c hc he => by
      rw [p.expr]
      exact hgrid.const c (by rw [← p.conIds]; exact hc) (by rw [← p.enabled]; exact he),
    fun c hc he t ht => by
      rw [p.expr] at ht
      exact hgrid.coef c (by rw [← p.conIds]; exact hc) (by rw [← p.enabled]; exact he) t ht⟩
  obtain ⟨h1, h2, q, hq, hq1, h3, h4⟩ := told i O m0 fast selRel b hp hs hpen h0 0 (Or.inr ⟨rfl, g, hg, hgrid0⟩) es hle r m' h
  simp only [mul_zero, add_zero, zero_mul] at h3 h4
  exact ⟨h1, h2, q, hq, hq1, h3, h4⟩

/-- The same for **all numbers**: every move adds at most `1e-10` per constraint to the tolerance.  In `C66.all` every assignment
come across has the number of moves since the last start beside it. -/
theorem report_with_any_numbers_partial (i : Input) (O m0 : MState) (fast : Bool) (selRel : ℕ → List ℕ) (b : Built O)
    (hp : i.options.presolve = false) (hs : i.options.selection = .off) (hpen : 0 ≤ i.pen)
    (h0 : started i O = some m0) (es : List Event)
    (hle : ∀ ev ∈ es, C66.LegalEvent (Whole.cfg i fast selRel O) m0 ev) (r : Named) (m' : MState)
    (h : Whole.solve i fast selRel O es = some (r, m')) (e : ℚ) (he : e = O.conIds.length * (1e-10 : ℚ)) :
    (∀ v ∈ O.varIds, Admits (O.var v) (r.values v)) ∧ C59.Consistent O r ∧
    ∃ q ∈ C66.all m0 es, r.values = q.1 ∧
      ((∃ p ∈ C66.all m0 es, totalViolation O p.1 + p.2 * e ≤ 1e-5) → totalViolation O r.values ≤ 1e-5 + q.2 * e ∧
        ∀ p ∈ C66.all m0 es, totalViolation O p.1 + p.2 * e ≤ 1e-5 → minObjective O r.values ≤ minObjective O p.1 + 1e-5) ∧
      ((∀ p ∈ C66.all m0 es, 1e-5 + p.2 * e < totalViolation O p.1) → ∀ p ∈ C66.all m0 es,
        minObjective O r.values + totalViolation O r.values * i.pen ≤
          minObjective O p.1 + totalViolation O p.1 * i.pen + 1e-5 + (q.2 * e + p.2 * e) * i.pen) :=
  told i O m0 fast selRel b hp hs hpen h0 e
    (Or.inl (by rw [he, (C104.problem_as_built i O m0 hp hs h0).1.conIds])) es hle r m' h

theorem on_grid {m : MState} {g : ℚ} (hg : OnGrid m g) (c : ℕ) (hc : c ∈ m.conIds) (he : (m.con c).enabled = true) (σ : ℕ → ℤ) :
    ∃ k : ℤ, exprValue (m.con c).expr σ = k * g := by
  obtain ⟨a, ha⟩ := hg.const c hc he
  have key : ∀ l : List (ℕ × ℚ), (∀ t ∈ l, ∃ k : ℤ, t.2 = k * g) → ∃ k : ℤ, (l.map fun t => t.2 * (σ t.1 : ℚ)).sum = k * g := by
    intro l
    induction l with
    | nil => exact fun _ => ⟨0, by simp⟩
    | cons t l ih =>
      intro h
      obtain ⟨x, hx⟩ := h t (List.mem_cons_self ..)
      obtain ⟨y, hy⟩ := ih fun u hu => h u (List.mem_cons_of_mem _ hu)
      refine ⟨x * σ t.1 + y, ?_⟩
      rw [List.map_cons, List.sum_cons, hy, hx]
      push_cast
      ring
  obtain ⟨y, hy⟩ := key _ (hg.coef c hc he)
  refine ⟨y + a, ?_⟩
  unfold exprValue
  rw [hy, ha]
  push_cast
  ring

theorem holds_of_grid {m : MState} {g : ℚ} (h5 : 1e-5 < g) (hg : OnGrid m g) (c : ℕ) (hc : c ∈ m.conIds)
    (he : (m.con c).enabled = true) (σ : ℕ → ℤ) (hv : violation (m.con c) σ ≤ 1e-5) : Holds (m.con c) σ := by
  obtain ⟨k, hk⟩ := on_grid hg c hc he σ
  have hg0 : (0 : ℚ) < g := lt_trans (by norm_num) h5
  have small : ∀ k : ℤ, (k : ℚ) * g ≤ 1e-5 → (k : ℚ) * g ≤ 0 := by
    intro k h
    by_contra hlt
    have hk0 : (0 : ℚ) < k := by
      by_contra hn
      exact hlt (mul_nonpos_of_nonpos_of_nonneg (not_lt.1 hn) hg0.le)
    have h1 : (1 : ℚ) ≤ k := by exact_mod_cast (by exact_mod_cast hk0 : (0 : ℤ) < k)
    nlinarith
  have hneg : -((k : ℚ) * g) = ((-k : ℤ) : ℚ) * g := by push_cast; ring
  unfold violation at hv
  unfold Holds
  rw [hk] at hv ⊢
  cases hs : (m.con c).sense <;> rw [hs] at hv <;> simp only [cmpOf, Cmp.holds, Cmp.gap, sub_zero, zero_sub] at hv ⊢
  · exact small k (le_trans (le_max_left ..) (by simpa using hv))
  · have h1 := small k (le_trans (le_abs_self _) hv)
    have h2 := small (-k) (by rw [← hneg]; exact le_trans (neg_le_abs _) hv)
    rw [← hneg] at h2
    linarith
  · have h2 := small (-k) (by rw [← hneg]; exact le_trans (le_max_left ..) (by simpa using hv))
    rw [← hneg] at h2
    linarith

/-- **With numbers that are not too fine**, for example integers or multiples of 0.01, the tolerance does not matter: the report is
marked feasible exactly if its values solve the user's problem, and if the searches came across a solution then the report is
one, at most `1e-5` worse than any of them.  Missing: as above, and numbers finer than `1e-5`. -/
theorem report_solves_user_problem_partial (i : Input) (O m0 : MState) (fast : Bool) (selRel : ℕ → List ℕ) (b : Built O)
    (hp : i.options.presolve = false) (hs : i.options.selection = .off) (hpen : 0 ≤ i.pen)
    (g : ℚ) (hg : 1e-5 < g) (hgrid : OnGrid O g) (h0 : started i O = some m0) (es : List Event)
    (hle : ∀ ev ∈ es, C66.LegalEvent (Whole.cfg i fast selRel O) m0 ev) (r : Named) (m' : MState)
    (h : Whole.solve i fast selRel O es = some (r, m')) :
    (r.feasible = true ↔ Solves O r.values) ∧
    ∀ q ∈ C66.all m0 es, Solves O q.1 →
      Solves O r.values ∧ minObjective O r.values ≤ minObjective O q.1 + 1e-5 := by
  obtain ⟨h1, h2, q, hq, -, h3, -⟩ := report_tells_the_truth_partial i O m0 fast selRel b hp hs hpen g
    (lt_trans (by norm_num) hg) hgrid h0 es hle r m' h
  refine ⟨?_, fun q' hq' hsol => ?_⟩
  · rw [h2.feasible]
    refine ⟨fun hv => ⟨h1, fun c hc he => holds_of_grid hg hgrid c hc he _ (hv c hc he).le⟩, fun hsol c hc he => ?_⟩
    rw [(C68.holds_iff_violation _ _).1 (hsol.2 c hc he)]
    norm_num
  · have hz : totalViolation O q'.1 = 0 := by
      unfold totalViolation enabledCons
      refine List.sum_eq_zero fun x hx => ?_
      obtain ⟨c, hc, rfl⟩ := List.mem_map.1 hx
      obtain ⟨hc1, he⟩ := List.mem_filter.1 hc
      obtain ⟨j, hj, rfl⟩ := List.mem_map.1 hc1
      exact (C68.holds_iff_violation _ _).1 (hsol.2 j hj he)
    have hz' : totalViolation O q'.1 ≤ 1e-5 := by rw [hz]; norm_num
    obtain ⟨b1, b2⟩ := h3 ⟨q', hq', hz'⟩
    refine ⟨⟨h1, fun c hc he => holds_of_grid hg hgrid c hc he _ (le_trans ?_ b1)⟩, b2 q' hq' hz'⟩
    unfold totalViolation enabledCons
    refine List.single_le_sum (fun x hx => ?_) _ (List.mem_map.2 ⟨O.con c, List.mem_filter.2 ⟨List.mem_map.2
      ⟨c, hc, rfl⟩, he⟩, rfl⟩)
    obtain ⟨d, -, rfl⟩ := List.mem_map.1 hx
    exact C68.violation_nonneg _ _

/-! ## When a call throws -/

/-- A value the setup accepts. -/
def Accepted (x : Var) : Prop :=
  (x.sense = .binary → x.value = 0 ∨ x.value = 1) ∧ (x.sense = .integer → x.lb ≤ x.value ∧ x.value ≤ x.ub)

theorem overVars_none (p : Var → Bool) (f : Var → Option Var) (vs : List ℕ) (hn : vs.Nodup) : ∀ m : MState,
    Verifier.overVars p f vs m = none ↔ ∃ v ∈ vs, p (m.var v) = true ∧ f (m.var v) = none := by
  induction vs with
  | nil =>
    intro m
    unfold Verifier.overVars
    simp
  | cons v vs ih =>
    intro m
    obtain ⟨hv, hn'⟩ := List.nodup_cons.1 hn
    unfold Verifier.overVars
    split
    · rename_i hp
      cases hf : f (m.var v) with
      | none => exact ⟨fun _ => ⟨v, List.mem_cons_self .., hp, hf⟩, fun _ => rfl⟩
      | some x =>
        rw [Option.bind_some, ih hn']
        constructor
        · rintro ⟨w, hw, h1, h2⟩
          have hne : w ≠ v := fun e => hv (e ▸ hw)
          dsimp only at h1 h2
          rw [Function.update_of_ne hne] at h1 h2
          exact ⟨w, List.mem_cons_of_mem _ hw, h1, h2⟩
        · rintro ⟨w, hw, h1, h2⟩
          rcases List.mem_cons.1 hw with rfl | hw
          · rw [hf] at h2; cases h2
          have hne : w ≠ v := fun e => hv (e ▸ hw)
          refine ⟨w, hw, ?_, ?_⟩ <;> dsimp only <;> rw [Function.update_of_ne hne]
          · exact h1
          · exact h2
    · rename_i hp
      rw [ih hn']
      constructor
      · rintro ⟨w, hw, h⟩
        exact ⟨w, List.mem_cons_of_mem _ hw, h⟩
      · rintro ⟨w, hw, h1, h2⟩
        rcases List.mem_cons.1 hw with rfl | hw
        · exact absurd h1 hp
        · exact ⟨w, hw, h1, h2⟩

theorem overVars_other (p : Var → Bool) (f : Var → Option Var) (vs : List ℕ) : ∀ m m' : MState,
    Verifier.overVars p f vs m = some m' → m'.varIds = m.varIds ∧ ∀ v, p (m.var v) = false → m'.var v = m.var v := by
  induction vs with
  | nil =>
    intro m m' h
    obtain rfl := Option.some.inj h
    exact ⟨rfl, fun _ _ => rfl⟩
  | cons w vs ih =>
    intro m m' h
    unfold Verifier.overVars at h
    split at h
    · rename_i hp
      obtain ⟨x, h1, h2⟩ := Option.bind_eq_some_iff.1 h
      obtain ⟨e, k⟩ := ih _ _ h2
      refine ⟨e, fun v hv => ?_⟩
      have hne : v ≠ w := fun e => by rw [e, hp] at hv; cases hv
      have e2 : Function.update m.var w x v = m.var v := Function.update_of_ne hne _ _
      have := k v (by dsimp only; rw [e2]; exact hv)
      rw [this]; exact e2
    · exact ih _ _ h

theorem verifyAll_none (b : Bool) (n : MState) (hn : n.varIds.Nodup) :
    Verifier.verifyAll b [] n = none ↔ ∃ v ∈ n.varIds, ¬ Accepted (n.var v) ∧ ((n.var v).fixed = true ∨ b = false) := by
  have e : Verifier.verifyAll b [] n = (Verifier.overVars (fun x => x.sense == .binary) (Verifier.binaryStep b) n.varIds n).bind
      fun k => Verifier.overVars (fun x => x.sense == .integer) (Verifier.integerStep b) k.varIds k := rfl
  have kb : ∀ x : Var, Verifier.binaryStep b x = none ↔ ¬ (x.value = 0 ∨ x.value = 1) ∧ (x.fixed = true ∨ b = false) := by
    intro x
    unfold Verifier.binaryStep
    by_cases h : x.value = 0 ∨ x.value = 1
    · rw [if_pos h]; simp [h]
    · rw [if_neg h]
      cases hf : x.fixed <;> cases b <;> simp [h]
  have ki : ∀ x : Var, Verifier.integerStep b x = none ↔ ¬ (x.lb ≤ x.value ∧ x.value ≤ x.ub) ∧ (x.fixed = true ∨ b = false) := by
    intro x
    unfold Verifier.integerStep
    by_cases h : x.value ≥ x.lb ∧ x.value ≤ x.ub
    · rw [if_pos h]
      have h' : x.lb ≤ x.value ∧ x.value ≤ x.ub := h
      simp [h']
    · rw [if_neg h]
      have h' : ¬ (x.lb ≤ x.value ∧ x.value ≤ x.ub) := h
      cases hf : x.fixed <;> cases b <;> simp only [h', Bool.false_eq_true, if_false, if_true, Bool.not_true, Bool.not_false,
        not_false_iff, true_and, or_true, or_false, or_self, reduceCtorEq]
  rw [e]
  cases h1 : Verifier.overVars (fun x => x.sense == .binary) (Verifier.binaryStep b) n.varIds n with
  | none =>
    obtain ⟨v, hv, h2, h3⟩ := (overVars_none _ _ _ hn n).1 h1
    obtain ⟨h4, h5⟩ := (kb _).1 h3
    exact ⟨fun _ => ⟨v, hv, fun ha => h4 (ha.1 (beq_iff_eq.1 h2)), h5⟩, fun _ => rfl⟩
  | some k =>
    have hno : ∀ v ∈ n.varIds, (n.var v).sense = .binary → ¬ (¬ ((n.var v).value = 0 ∨ (n.var v).value = 1) ∧
        ((n.var v).fixed = true ∨ b = false)) := by
      intro v hv hb hx
      have : Verifier.overVars (fun x => x.sense == .binary) (Verifier.binaryStep b) n.varIds n = none :=
        (overVars_none _ _ _ hn n).2 ⟨v, hv, beq_iff_eq.2 hb, (kb _).2 hx⟩
      rw [h1] at this; cases this
    obtain ⟨hk, hs⟩ := overVars_other _ _ _ _ _ h1
    obtain ⟨-, hc⟩ := C104.overVars_corrects _ _ (C104.binaryStep_corrects _) _ _ _ h1
    have hint : ∀ v, (n.var v).sense = .integer → k.var v = n.var v := fun v hv => hs v (by rw [hv]; rfl)
    rw [Option.bind_some, hk, overVars_none _ _ _ hn]
    constructor
    · rintro ⟨v, hv, h2, h3⟩
      have hi : (n.var v).sense = .integer := by
        rw [← (hc v).keeps.sense]; exact beq_iff_eq.1 h2
      rw [hint v hi] at h3
      obtain ⟨h4, h5⟩ := (ki _).1 h3
      exact ⟨v, hv, fun ha => h4 (ha.2 hi), h5⟩
    · rintro ⟨v, hv, h2, h3⟩
      by_cases hi : (n.var v).sense = .integer
      · refine ⟨v, hv, ?_, ?_⟩
        · rw [hint v hi]; exact beq_iff_eq.2 hi
        · rw [hint v hi]
          refine (ki _).2 ⟨fun hx => h2 ⟨fun hb => ?_, fun _ => hx⟩, h3⟩
          rw [hi] at hb; exact absurd hb (by decide)
      · exfalso
        refine h2 ⟨fun hb => ?_, fun hx => absurd hx hi⟩
        by_contra hx
        exact hno v hv hb ⟨hx, h3⟩

/-- **The setup throws exactly if** an initial value is not accepted that is fixed or, when values are not to be corrected, any. -/
theorem setup_throws_iff (i : Input) (O : MState) (hn : O.varIds.Nodup) (hp : i.options.presolve = false)
    (hs : i.options.selection = .off) :
    started i O = none ↔ ∃ v ∈ O.varIds, ¬ Accepted (O.var v) ∧ ((O.var v).fixed = true ∨ i.correct = false) := by
  have hred : reduce i.options i.lt O = some (.ok (structured (structured (structured O)))) := by
    unfold reduce presolveStage dependentStage setVariableStage duplicateStage
    simp only [hp, Bool.false_and, Bool.false_eq_true, if_false, andThen]
  have hprep : prepare i.options i.lt i.user O = some (.ok (structured (structured (structured (structured O))))) := by
    unfold prepare
    rw [hred]
    simp only [andThen, hs, ne_eq, not_true, false_and, if_false]
  have hsel : Setup.selections i.options i.lt i.user O = [] := by
    unfold Setup.selections
    rw [hred]
    simp only [hs, ne_eq, not_true, false_and, if_false]
  unfold started
  rw [hprep, hsel]
  dsimp only
  have e2 : (structured (structured (structured (structured O)))).var = O.var := by simp only [structured_var]
  have e5 : (structured (structured (structured (structured O)))).varIds = O.varIds := by simp only [structured_varIds]
  generalize structured (structured (structured (structured O))) = n at e2 e5
  have key := verifyAll_none i.correct n (by rw [e5]; exact hn)
  rw [e2, e5] at key
  rw [← key]
  unfold launch gf2Stage
  simp only [hp, Bool.false_and, Bool.false_eq_true, if_false, Option.map_some]
  cases Verifier.verifyAll i.correct [] n <;> simp

/-- **After the setup nothing throws**: if the searches start from values within the bounds, the call reports. -/
theorem call_reports (i : Input) (O m0 : MState) (fast : Bool) (selRel : ℕ → List ℕ) (b : Built O)
    (hp : i.options.presolve = false) (hs : i.options.selection = .off) (hpen : 0 ≤ i.pen) (h0 : started i O = some m0)
    (es : List Event) (hle : ∀ ev ∈ es, C66.LegalEvent (Whole.cfg i fast selRel O) m0 ev)
    (hstart : ∀ d, Event.start d ∈ es → ∀ v ∈ O.varIds, (O.var v).lb ≤ d.values v ∧ d.values v ≤ (O.var v).ub) :
    ∃ r m', Whole.solve i fast selRel O es = some (r, m') := by
  obtain ⟨p, -⟩ := C104.problem_as_built i O m0 hp hs h0
  have s := stored b hp hs h0
  have ecfg : Whole.cfg i fast selRel O = ⟨fast, [], selRel⟩ := by
    unfold Whole.cfg
    rw [(frame i O m0 hp hs h0).1]
  have st := setting b hp hs hpen h0 fast selRel
  rw [ecfg] at hle
  have hdep : m0.dependents = [] := p.dependents.trans b.dependents
  have hfirst : C66.Good ⟨fast, [], selRel⟩ m0 (assignment m0) := by
    refine ⟨by simp, fun v hv hb => ?_, fun v hv hi => ?_⟩
    · rw [p.kind] at hb; rw [p.varIds] at hv; exact s.binary v hv hb
    · rw [p.kind] at hi; rw [p.varIds] at hv
      rw [(p.bounds v).1, (p.bounds v).2]; exact s.integer v hv hi
  -- a value within the bounds is good
  have ok : ∀ (σ : ℕ → ℤ), (∀ v ∈ m0.varIds, (((m0.var v).lb ≤ σ v ∧ σ v ≤ (m0.var v).ub) ∨ σ v = assignment m0 v)) →
      C66.Good ⟨fast, [], selRel⟩ m0 σ := by
    intro σ h
    refine ⟨by simp, fun v hv hb => ?_, fun v hv hi => ?_⟩
    · rcases h v hv with h | h
      · have := st.ready.binary v hv hb; omega
      · rw [h]; exact hfirst.binary v hv hb
    · rcases h v hv with h | h
      · exact h
      · rw [h]; exact hfirst.integer v hv hi
  have all : ∀ (es : List Event) (q : (ℕ → ℤ) × ℕ), (∀ ev ∈ es, C66.LegalEvent ⟨fast, [], selRel⟩ m0 ev) →
      (∀ d, Event.start d ∈ es → ∀ v ∈ O.varIds, (O.var v).lb ≤ d.values v ∧ d.values v ≤ (O.var v).ub) →
      (∀ v ∈ m0.varIds, (((m0.var v).lb ≤ q.1 v ∧ q.1 v ≤ (m0.var v).ub) ∨ q.1 v = assignment m0 v)) →
      ∀ x ∈ visited m0 q (es.map C66.visitOf), C66.Good ⟨fast, [], selRel⟩ m0 x.1 := by
    intro es
    induction es with
    | nil => intro q _ _ _ x hx; cases hx
    | cons ev es ih =>
      intro q hle hst hq x hx
      have hle' := fun e he => hle e (List.mem_cons_of_mem _ he)
      have hst' := fun d hd => hst d (List.mem_cons_of_mem _ hd)
      have go : ∀ t : (ℕ → ℤ) × ℕ, (∀ v ∈ m0.varIds, (((m0.var v).lb ≤ t.1 v ∧ t.1 v ≤ (m0.var v).ub) ∨ t.1 v = assignment m0 v)) →
          x ∈ t :: visited m0 t (es.map C66.visitOf) → C66.Good ⟨fast, [], selRel⟩ m0 x.1 := by
        intro t ht hx
        rcases List.mem_cons.1 hx with rfl | hx
        · exact ok _ ht
        · exact ih t hle' hst' ht x hx
      cases ev with
      | penalties l g => exact ih q hle' hst' hq x hx
      | start d =>
        refine go _ (fun v hv => ?_) hx
        simp only [visit]
        split
        · rw [(p.bounds v).1, (p.bounds v).2]
          exact Or.inl (hst d (List.mem_cons_self ..) v (by rw [← p.varIds]; exact hv))
        · exact Or.inr rfl
      | relax low =>
        refine go _ (fun v hv => ?_) hx
        simp only [visit]
        have hr : (m0.var v).lb ≤ (m0.var v).ub := by
          rw [(p.bounds v).1, (p.bounds v).2]
          exact (b.ranges v (by rw [← p.varIds]; exact hv)).1
        split
        · left; split <;> omega
        · exact Or.inr rfl
      | move mv ren =>
        have hl : C66.Legal ⟨fast, [], selRel⟩ m0 mv := hle _ (List.mem_cons_self ..)
        refine go _ (fun v hv => ?_) hx
        show ((m0.var v).lb ≤ applyMove q.1 mv.alterations v ∧ applyMove q.1 mv.alterations v ≤ _) ∨
          applyMove q.1 mv.alterations v = _
        have key : ∀ (l : List (ℕ × ℤ)) (σ : ℕ → ℤ), (∀ a ∈ l, (m0.var a.1).lb ≤ a.2 ∧ a.2 ≤ (m0.var a.1).ub) →
            (((m0.var v).lb ≤ σ v ∧ σ v ≤ (m0.var v).ub) ∨ σ v = assignment m0 v) →
            (((m0.var v).lb ≤ applyMove σ l v ∧ applyMove σ l v ≤ (m0.var v).ub) ∨ applyMove σ l v = assignment m0 v) := by
          intro l
          induction l with
          | nil => exact fun σ _ h => h
          | cons a l ihl =>
            obtain ⟨w, x⟩ := a
            intro σ ha h
            refine ihl _ (fun a h => ha a (List.mem_cons_of_mem _ h)) ?_
            by_cases hw : v = w
            · subst hw
              rw [Function.update_self]
              exact Or.inl (ha _ (List.mem_cons_self ..))
            · rw [Function.update_of_ne hw]
              exact h
        exact key _ _ (fun a ha => (hl.listed a ha).2.2.2) (hq v hv)
  obtain ⟨r, m', h⟩ := C66.never_throws st (by rw [hdep]; simp) es hle (fun x hx => by
    rcases List.mem_cons.1 hx with rfl | hx
    · exact hfirst
    · exact all es _ hle hstart (fun v _ => Or.inr rfl) x hx)
  refine ⟨r, m', ?_⟩
  unfold Whole.solve
  rw [h0, ecfg]
  exact h

/-! ### A call meeting the conditions: minimise `-x0 + x1 - x2 / 4` under `x0 / 2 + x2 / 4 ≤ 13 / 10`, with `x1` fixed at 1, `x2` in
`[0,5]` and initially 9, and a constraint that is switched off. -/

private def ex : MState := { Example.raw with
  var := fun v => if v = 2 then { Example.int5 with value := 9, hasUpperMargin := false } else if v = 1 then
    { Example.bin0 with value := 1, fixed := true } else Example.bin0
  varIds := [0, 1, 2]
  con := fun c => if c = 0 then Con.setup ⟨[(0, 1 / 2), (2, 1 / 4)], -13 / 10, 0⟩ .less Example.senses
    else { Con.setup ⟨[(0, 1), (1, 1)], -1, 0⟩ .equal Example.senses with enabled := false }
  conIds := [0, 1]
  obj := ⟨[(0, -1), (1, 1), (2, -1 / 4)], 0, 0⟩ }
private def inp : Input := ⟨{ presolve := false, selection := .off }, fun a b => decide (a < b), fun _ => false, true, 100, []⟩
private def e0 : MState := (started inp ex).getD ex
private def step (v : ℕ) (x : ℤ) : Move := { alterations := [(v, x)], related := [0], isUnivariable := true }
private def events : List Event := [.move (step 0 1) false, .penalties (fun _ => 3) (fun _ => 4), .move (step 2 3) true,
  .move (step 2 2) false]

private theorem ex_started : started inp ex = some e0 := by
  have h : (started inp ex).isSome = true := by decide +kernel
  obtain ⟨m, hm⟩ := Option.isSome_iff_exists.1 h
  unfold e0
  rw [hm]; rfl

private theorem ex_built : Built ex := by
  refine ⟨by decide, by decide, by decide +kernel, by decide +kernel, by decide +kernel, by decide +kernel, by decide +kernel,
    by decide +kernel, by decide +kernel, by decide +kernel, rfl⟩

private theorem ex_grid : OnGrid ex (1 / 20) := by
  have k1 : ∀ c ∈ ex.conIds, (ex.con c).enabled = true → (ex.con c).expr.const = -13 / 10 := by decide +kernel
  have k2 : ∀ c ∈ ex.conIds, (ex.con c).enabled = true → ∀ t ∈ (ex.con c).expr.terms, t.2 = 1 / 2 ∨ t.2 = 1 / 4 := by
    decide +kernel
  refine ⟨fun c hc he => ⟨-26, by rw [k1 c hc he]; norm_num⟩, fun c hc he t ht => ?_⟩
  rcases k2 c hc he t ht with e | e
  · exact ⟨10, by rw [e]; norm_num⟩
  · exact ⟨5, by rw [e]; norm_num⟩

private theorem in0 : ∀ c ∈ e0.conIds, (e0.con c).enabled = true → c ∈ [0] := by decide +kernel
private theorem covers (alts) : Covers e0 alts [0] := ⟨List.Nodup.filter _ (by decide), by decide +kernel, fun c hc he _ => in0 c hc he⟩

/-- All conditions are met. -/
example : Built ex ∧ inp.options.presolve = false ∧ inp.options.selection = .off ∧ 0 ≤ inp.pen ∧ (1e-5 : ℚ) < 1 / 20 ∧
    OnGrid ex (1 / 20) ∧ started inp ex = some e0 ∧
    (∀ ev ∈ events, C66.LegalEvent (Whole.cfg inp true (fun _ => []) ex) e0 ev) := by
  refine ⟨ex_built, rfl, rfl, by decide +kernel, by norm_num, ex_grid, ex_started, fun ev hev => ?_⟩
  simp only [events, List.mem_cons, List.not_mem_nil, or_false] at hev
  rcases hev with rfl | rfl | rfl | rfl
  · exact ⟨by decide, by decide +kernel, covers _, fun _ => ⟨0, 1, rfl⟩, fun h => absurd h (by decide)⟩
  · intro c; norm_num
  · exact ⟨by decide, by decide +kernel, covers _, fun _ => ⟨2, 3, rfl⟩, fun h => absurd h (by decide)⟩
  · exact ⟨by decide, by decide +kernel, covers _, fun _ => ⟨2, 2, rfl⟩, fun h => absurd h (by decide)⟩

/-- The run visits four assignments; the initial value 9 is corrected to 5; the best of the three solutions is reported. -/
example : (C66.all e0 events).map (fun q => [0, 1, 2].map q.1) = [[0, 1, 5], [1, 1, 5], [1, 1, 3], [1, 1, 2]] ∧
    (Whole.solve inp true (fun _ => []) ex events).map (fun p => ([0, 1, 2].map p.1.values, p.1.objective, p.1.feasible)) =
      some ([1, 1, 3], -3 / 4, true) := by
  decide +kernel

/-- The same call, when values are not to be corrected or the value out of range is fixed, throws. -/
example : started { inp with correct := false } ex = none ∧
    started inp { ex with var := fun v => if v = 2 then { ex.var 2 with fixed := true } else ex.var v } = none ∧
    ex.varIds.Nodup ∧ ∀ d, Event.start d ∈ events → ∀ v ∈ ex.varIds, (ex.var v).lb ≤ d.values v ∧ d.values v ≤ (ex.var v).ub := by
  refine ⟨?_, ?_, by decide, fun d hd => ?_⟩
  · exact (setup_throws_iff _ _ (by decide) rfl rfl).2 ⟨2, by decide, by unfold Accepted; decide +kernel, Or.inr rfl⟩
  · exact (setup_throws_iff _ _ (by decide) rfl rfl).2 ⟨2, by decide, by unfold Accepted; decide +kernel, Or.inl rfl⟩
  · simp [events] at hd

end Printemps.C106
