import Verif.Lemmas.Whole

/-! # C68 — a whole call of the solver, from the user's model to the report -/

namespace Printemps.C68
open Spec Setup Whole Search Sol

/-- The model at the start of the search: the prepared one up to values, penalty coefficients and stored
coefficients. -/
structure Launched (m1 m0 : MState) (pen : ℚ) : Prop where
  frame : ∃ var sel, m0 = Search.setPenalties { ({ m1 with var := var, selected := sel } : MState).setupSens with globalPen := pen }
    (fun _ => pen) (fun _ => pen)
  bounds : ∀ v, (m0.var v).lb = (m1.var v).lb ∧ (m0.var v).ub = (m1.var v).ub ∧ (m0.var v).sense = (m1.var v).sense ∧
    (m0.var v).fixed = (m1.var v).fixed
  fixed : ∀ v, (m1.var v).fixed = true → m0.var v = m1.var v

theorem ready {o : Options} {O m1 : MState} {sels : List ℕ} (p : Ordinary o O) (h : Prepared O m1 sels) :
    C51.Ready sels m1 where
  nodup := h.selsNodup
  varNodup := by rw [h.varIds]; exact p.varIds
  once s hs := by
    obtain ⟨i, hi, e⟩ := h.terms s (h.selsIn s hs)
    unfold Expr.vars
    rw [e]; exact p.terms i hi
  apart := h.apart
  sense := h.selSense
  binary v hv hb := by
    rcases h.kinds v hv with k | k | k
    · exact ⟨k.2.1, h.range v hv, k.2.2⟩
    · rw [hb] at k; exact absurd k (by decide)
    · rw [hb] at k; exact absurd k.1.1 (by decide)
  integer v hv _ := h.range v hv

theorem launched {o : Options} {O m1 m0 : MState} {sels : List ℕ} (p : Ordinary o O) (h : Prepared O m1 sels)
    (i : Input) (hgf : ofType i.lt m1 .gf2 = []) (hl : launch i sels m1 = some m0) :
    Launched m1 m0 i.pen ∧
    (∀ s ∈ sels, ∀ v ∈ (m1.con s).expr.vars, (m0.var v).value = 0 ∨ (m0.var v).value = 1) ∧
    (∀ v ∈ m1.varIds, (m1.var v).sense = .binary → (m0.var v).value = 0 ∨ (m0.var v).value = 1) ∧
    (∀ v ∈ m1.varIds, (m1.var v).sense = .integer →
      (m1.var v).lb ≤ (m0.var v).value ∧ (m0.var v).value ≤ (m1.var v).ub) := by
  unfold launch at hl
  obtain ⟨m2, h2, hl1⟩ := Option.bind_eq_some_iff.1 hl
  obtain ⟨m3, h3, hl2⟩ := Option.map_eq_some_iff.1 hl1
  have e3 : m3 = m2 := by
    unfold gf2Stage at h3
    rw [hgf] at h3
    simp only [List.isEmpty_nil, Bool.not_true, Bool.and_false, Bool.false_eq_true, if_false, Option.some.injEq] at h3
    exact h3.symm
  subst e3
  obtain ⟨g1, g2, g3, g4, g5, _⟩ := C51.corrected_or_rejected_partial i.correct sels m1 m3 (ready p h) h2
  obtain ⟨var, sel, e⟩ := verifyAll_frame _ _ _ _ h2
  have hv : m0.var = m3.var := by rw [← hl2]; rfl
  refine ⟨⟨⟨var, sel, by rw [← hl2, e]⟩, fun v => by rw [hv]; exact g5 v, fun v hf => by rw [hv]; exact g4 v hf⟩,
    fun s hs => ?_, fun v => ?_, fun v => ?_⟩
  · rw [hv]; exact (g1 s hs).1
  · rw [hv]; exact g2 v
  · rw [hv]; exact g3 v

theorem Launched.con {m1 m0 : MState} {pen : ℚ} (h : Launched m1 m0 pen) (c : ℕ) :
    m0.con c = { m1.con c with penLess := pen, penGreater := pen } := by
  obtain ⟨var, sel, e⟩ := h.frame
  rw [e]; rfl

theorem Launched.rest {m1 m0 : MState} {pen : ℚ} (h : Launched m1 m0 pen) : m0.conIds = m1.conIds ∧ m0.varIds = m1.varIds ∧
    m0.obj = m1.obj ∧ m0.isMin = m1.isMin ∧ m0.objDefined = m1.objDefined ∧ m0.uexpr = m1.uexpr ∧
    m0.uexprIds = m1.uexprIds ∧ m0.dependents = m1.dependents ∧ m0.globalPen = pen := by
  obtain ⟨var, sel, e⟩ := h.frame
  rw [e]; exact ⟨rfl, rfl, rfl, rfl, rfl, rfl, rfl, rfl, rfl⟩

/-- The setting of the search is reached. -/
theorem setting {o : Options} {O m1 m0 : MState} {sels : List ℕ} (p : Ordinary o O) (h : Prepared O m1 sels)
    (i : Input) (hpen : 0 ≤ i.pen) (hgf : ofType i.lt m1 .gf2 = []) (hl : launch i sels m1 = some m0) (fast : Bool)
    (selRel : ℕ → List ℕ) : C66.Setting ⟨fast, sels, selRel⟩ m0 := by
  obtain ⟨l, v1, v2, v3⟩ := launched p h i hgf hl
  obtain ⟨r1, r2, r3, r4, r5, r6, r7, r8, r9⟩ := l.rest
  have hcon := l.con
  have hexpr : ∀ c, (m0.con c).expr = (m1.con c).expr := fun c => by rw [hcon]
  have hnod : ∀ c ∈ m1.conIds, ((m1.con c).expr.terms.map Prod.fst).Nodup := by
    intro c hc
    obtain ⟨j, hj, e⟩ := h.terms c hc
    rw [e]; exact p.terms j hj
  have hdep : m0.dependents = [] := by rw [r8, h.dependents, p.dependents]
  have wf : WellFormed m0 := by
    refine ⟨by rw [r1]; exact h.conIds, fun c hc => ?_, by rw [r3, h.obj]; exact p.objective, fun j hj => ?_⟩
    · rw [hexpr]; exact hnod c (by rw [← r1]; exact hc)
    · rw [r6, h.uexpr]
      rw [r7, h.uexprIds] at hj
      exact p.uexpr j hj
  have rd := ready p h
  have unit : ∀ v ∈ m1.varIds, (m1.var v).fixed = false → (m1.var v).sense = .binary ∨ (m1.var v).sense = .selection →
      (m1.var v).lb = 0 ∧ (m1.var v).ub = 1 := by
    intro v hv hf hk
    have hr := h.range v hv
    have hne := h.ne v hv hf
    have : 0 ≤ (m1.var v).lb ∧ (m1.var v).ub ≤ 1 := by
      rcases h.kinds v hv with k | k | k
      · exact k.2
      · rw [k] at hk; rcases hk with hk | hk <;> exact absurd hk (by decide)
      · exact k.1.2
    omega
  refine
    { wf := wf
      ready := ⟨rd.nodup, by rw [r2]; exact rd.varNodup, fun s hs => by rw [hexpr]; exact rd.once s hs,
        fun s hs t ht hst v hv => by rw [hexpr] at hv ⊢; exact rd.apart s hs t ht hst v hv,
        fun s hs v hv => by rw [hexpr] at hv; rw [(l.bounds v).2.2.1]; exact rd.sense s hs v hv,
        fun v hv hb => by
          rw [(l.bounds v).2.2.1] at hb
          rw [(l.bounds v).1, (l.bounds v).2.1]; exact rd.binary v (by rw [← r2]; exact hv) hb,
        fun v hv hb => by
          rw [(l.bounds v).2.2.1] at hb
          rw [(l.bounds v).1, (l.bounds v).2.1]; exact rd.integer v (by rw [← r2]; exact hv) hb⟩
      unit := fun v hv hf hk => by
        rw [(l.bounds v).2.2.2] at hf
        rw [(l.bounds v).2.2.1] at hk
        rw [(l.bounds v).1, (l.bounds v).2.1]
        exact unit v (by rw [← r2]; exact hv) hf hk
      kinds := fun v hv _ => by
        rw [(l.bounds v).2.2.1]
        rcases h.kinds v (by rw [← r2]; exact hv) with k | k | ⟨k, s, hs, hvs⟩
        · exact Or.inl k.1
        · exact Or.inr (Or.inl k)
        · exact Or.inr (Or.inr ⟨k.1, s, hs, by rw [hexpr]; exact hvs⟩)
      start := fun v hv _ hf => by
        rw [r2] at hv
        rw [(l.bounds v).2.2.2] at hf
        rw [(l.bounds v).1, (l.bounds v).2.1]
        rcases h.kinds v hv with k | k | ⟨k, s, hs, hvs⟩
        · obtain ⟨u1, u2⟩ := unit v hv hf (Or.inl k.1)
          rcases v2 v hv k.1 with e | e <;> omega
        · exact v3 v hv k
        · obtain ⟨u1, u2⟩ := unit v hv hf (Or.inr k.1)
          rcases v1 s hs v hvs with e | e <;> omega
      sens := fun v => by
        obtain ⟨var, sel, e⟩ := l.frame
        have := C07.setupSens_ok m0 wf v
        have e2 : m0.sens v = m0.setupSens.sens v := by rw [e]; rfl
        unfold C07.SensOK at this ⊢
        rw [e2]; exact this
      maxLe := fun c hc _ t ht => by
        rw [hexpr] at ht
        rw [hcon]; exact (h.plain c (by rw [← r1]; exact hc)).1 t ht
      maxEq := fun c hc _ => by
        rw [hcon]; exact (h.plain c (by rw [← r1]; exact hc)).2.1
      onlyBin := fun c hc hb v hv hf => by
        rw [r1] at hc
        have hb' : (m1.con c).onlyBinaryVar = true := by rw [hcon] at hb; exact hb
        rw [hexpr] at hv
        rw [(l.bounds v).2.2.2] at hf
        rw [(l.bounds v).1, (l.bounds v).2.1]
        obtain ⟨n1, n2, n3⟩ := h.narrow v hf
        have hs := h.bin c hc hb' v hv
        obtain ⟨j, hj, e⟩ := h.terms c hc
        rw [e] at hv
        have := (p.box j hj v hv hs).2 n1
        omega
      noDep := ⟨fun _ _ _ _ => by rw [hdep]; simp, fun _ _ _ _ _ => by rw [hdep]; simp, fun _ _ => by rw [hdep]; simp⟩
      pen := fun c => by rw [hcon]; exact ⟨hpen, hpen⟩ }

/-- The selections of the reported values: exactly one variable is 1, the others are 0. -/
theorem reported_selections {m0 : MState} {cfg : Cfg} (hs : C66.Setting cfg m0) (hdep : m0.dependents = [])
    {e : ℚ} (he : Err m0 e) (es : List Event) (hle : ∀ ev ∈ es, C66.LegalEvent cfg m0 ev)
    (r : Named) (m' : MState) (h : Search.solve cfg m0 es = some (r, m')) :
    ∀ s ∈ cfg.sels, ∃ v ∈ (m0.con s).expr.vars, r.values v = 1 ∧ ∀ u ∈ (m0.con s).expr.vars, u ≠ v → r.values u = 0 := by
  obtain ⟨s, h1, h2⟩ := Option.bind_eq_some_iff.1 h
  obtain ⟨⟨q', i⟩, -⟩ := C66.run_inv hs he es _ s _ (C66.begin_inv (e := e) hs).1 hle h1
  obtain ⟨⟨l, g, hn, st⟩, hl, hag, hr, -, -⟩ := i
  unfold postprocess at h2
  obtain ⟨d, hd, h2⟩ := Option.bind_eq_some_iff.1 h2
  obtain ⟨m1, h3, h4⟩ := Option.map_eq_some_iff.1 h2
  simp only [Prod.mk.injEq] at h4
  obtain ⟨rfl, rfl⟩ := h4
  obtain ⟨st1, -, -, hcon⟩ := C66.import_facts hs st d h3 q'.1 hag hr
  intro k hk
  have hv : ∀ v, (exportNamed m1.update).values v = (m1.var v).value := by
    intro v
    exact update_agree st1 v (by rw [hdep]; simp)
  have hready : C51.Ready cfg.sels { s.model with
      var := fun v => if v ∈ s.model.varIds then (s.model.var v).setValueIfMutable (d.values v) else s.model.var v } := by
    refine C66.stat_ready (st.withVars _ s.model.selected ?_ ?_ ?_ ?_) hs.ready <;> intro v <;> split <;>
      first | rfl | exact (mutable_frame _ _).1 | exact (mutable_frame _ _).2.1 | exact (mutable_frame _ _).2.2.1 |
        exact (mutable_frame _ _).2.2.2.1
  obtain ⟨g1, -⟩ := C51.corrected_or_rejected_partial false cfg.sels _ m1 hready h3
  have hvars : (s.model.con k).expr.vars = (m0.con k).expr.vars := C66.stat_vars st k
  obtain ⟨x, hx, hx1, hx2⟩ := (Verifier.oneHot_iff m1 _ (hready.once k hk)).2 (g1 k hk)
  have hvars' : (({ s.model with
      var := fun v => if v ∈ s.model.varIds then (s.model.var v).setValueIfMutable (d.values v) else s.model.var v } :
        MState).con k).expr.vars = (m0.con k).expr.vars := hvars
  rw [hvars'] at hx hx2
  exact ⟨x, hx, by rw [hv]; exact hx1, fun u hu hux => by rw [hv]; exact hx2 u hu hux⟩

theorem holds_iff_violation (c : Con) (σ : ℕ → ℤ) : Holds c σ ↔ violation c σ = 0 := by
  unfold Holds violation
  cases c.sense <;> simp [cmpOf, Cmp.holds, Cmp.gap]

theorem exprValue_int (e : Expr) (σ : ℕ → ℤ) (h1 : ∃ k : ℤ, e.const = k) (h2 : ∀ t ∈ e.terms, ∃ k : ℤ, t.2 = k) :
    ∃ k : ℤ, exprValue e σ = k := by
  unfold exprValue
  obtain ⟨a, ha⟩ := h1
  have : ∀ ts : List (ℕ × ℚ), (∀ t ∈ ts, ∃ k : ℤ, t.2 = k) → ∃ k : ℤ, (ts.map (fun t => t.2 * (σ t.1 : ℚ))).sum = k := by
    intro ts
    induction ts with
    | nil => intro _; exact ⟨0, by simp⟩
    | cons t ts ih =>
      intro h
      obtain ⟨k, hk⟩ := ih (fun u hu => h u (by simp [hu]))
      obtain ⟨b, hb⟩ := h t (by simp)
      exact ⟨b * σ t.1 + k, by rw [List.map_cons, List.sum_cons, hk, hb]; push_cast; ring⟩
  obtain ⟨k, hk⟩ := this e.terms h2
  exact ⟨a + k, by rw [ha, hk]; push_cast; ring⟩

/-- With integral numbers a violation of at most `1e-5` is none. -/
theorem holds_of_small (c : Con) (σ : ℕ → ℤ) (h1 : ∃ k : ℤ, c.expr.const = k) (h2 : ∀ t ∈ c.expr.terms, ∃ k : ℤ, t.2 = k)
    (h : violation c σ ≤ 1e-5) : Holds c σ := by
  obtain ⟨k, hk⟩ := exprValue_int c.expr σ h1 h2
  unfold violation at h
  unfold Holds
  rw [hk] at h ⊢
  have key : ∀ x : ℤ, ((x : ℤ) : ℚ) ≤ 1e-5 → x ≤ 0 := by
    intro x hx
    by_contra hn
    have : (1 : ℚ) ≤ x := by exact_mod_cast (by omega : 1 ≤ x)
    norm_num at hx
    linarith
  cases hs : c.sense <;> rw [hs] at h <;> simp only [cmpOf, Cmp.holds, Cmp.gap] at h ⊢
  · have := key k (le_trans (by simp) h)
    exact_mod_cast this
  · have := key |k| (by push_cast; simpa using h)
    have : k = 0 := abs_eq_zero.1 (le_antisymm this (abs_nonneg k))
    exact_mod_cast this
  · have := key (-k) (le_trans (by simp) h)
    have : 0 ≤ k := by omega
    exact_mod_cast this

theorem violation_nonneg (c : Con) (σ : ℕ → ℤ) : 0 ≤ violation c σ := by
  unfold violation
  cases c.sense <;> simp [cmpOf, Cmp.gap]

theorem solves_iff {o : Options} {O : MState} (p : Ordinary o O) (τ : ℕ → ℤ) (hτ : Feasible O τ) (σ : ℕ → ℤ) :
    Solves O σ ↔ Feasible O (fun v => if v ∈ O.varIds then σ v else τ v) := by
  have hval : ∀ c ∈ O.conIds, exprValue (O.con c).expr (fun v => if v ∈ O.varIds then σ v else τ v) =
      exprValue (O.con c).expr σ := by
    intro c hc
    unfold exprValue
    congr 1
    refine sum_map_congr _ _ _ fun t ht => ?_
    dsimp only
    rw [if_pos (p.inside c hc t.1 (List.mem_map.2 ⟨t, ht, rfl⟩))]
  constructor
  · rintro ⟨h1, h2⟩
    refine ⟨fun v => ?_, fun c hc he => ?_⟩
    · dsimp only
      split
      · rename_i hv; exact h1 v hv
      · exact hτ.1 v
    · have := h2 c hc he
      unfold Holds at this ⊢
      rw [hval c hc]; exact this
  · rintro ⟨h1, h2⟩
    refine ⟨fun v hv => ?_, fun c hc he => ?_⟩
    · have := h1 v; dsimp only at this; rw [if_pos hv] at this; exact this
    · have := h2 c hc he
      unfold Holds at this ⊢
      rw [hval c hc] at this; exact this

/-- A report on a problem in terms of the prepared model is right in terms of the user's model. -/
theorem concluded {i : Input} {O m1 m0 : MState} (p : Ordinary i.options O) (hf : ∃ σ, Feasible O σ)
    (pr : Prepared O m1 (selections i.options i.lt i.user O)) (l : Launched m1 m0 i.pen) (r : Named)
    (L : List ((ℕ → ℤ) × ℕ)) (q : (ℕ → ℤ) × ℕ) (hag : Agree m0 r.values q.1) (hr : InRange m0 r.values)
    (hcons : C59.Consistent m0 r)
    (hbest : (∃ p ∈ L, totalViolation m0 p.1 ≤ 1e-5) → totalViolation m0 q.1 ≤ 1e-5 ∧
      ∀ p ∈ L, totalViolation m0 p.1 ≤ 1e-5 → minObjective m0 q.1 ≤ minObjective m0 p.1 + 1e-5)
    (hsel : ∀ s ∈ selections i.options i.lt i.user O, ∃ v ∈ (m0.con s).expr.vars, r.values v = 1 ∧
      ∀ u ∈ (m0.con s).expr.vars, u ≠ v → r.values u = 0) :
    (r.feasible = true ↔ Solves O r.values) ∧
    (O.objDefined = true → r.objective = exprValue O.obj r.values) ∧
    ∀ q ∈ L, Solves O q.1 → Solves O r.values ∧ minObjective O r.values ≤ minObjective O q.1 + 1e-5 := by
  obtain ⟨r1, r2, r3, r4, r5, -, -, r8, r9⟩ := l.rest
  have hdep : m0.dependents = [] := by rw [r8, pr.dependents, p.dependents]
  have hint : ∀ c ∈ m1.conIds, (∃ k : ℤ, (m1.con c).expr.const = k) ∧ ∀ t ∈ (m1.con c).expr.terms, ∃ k : ℤ, t.2 = k := by
    intro c hc
    refine ⟨(pr.plain c hc).2.2, fun t ht => ?_⟩
    obtain ⟨j, hj, e⟩ := pr.terms c hc
    rw [e] at ht
    exact (p.integral j hj t ht).2
  have hq1 : r.values = q.1 := funext fun v => hag v (by rw [hdep]; simp)
  have hviol : ∀ c σ, violation (m0.con c) σ = violation (m1.con c) σ := fun c σ => by rw [l.con]; rfl
  have hen : ∀ c, (m0.con c).enabled = (m1.con c).enabled := fun c => by rw [l.con]
  obtain ⟨σ0, hσ0⟩ := hf
  obtain ⟨τ, hτw, -⟩ := pr.complete σ0 hσ0
  have hτ := hτw.1
  have hglue : ∀ σ : ℕ → ℤ, ∀ ρ : ℕ → ℤ, ∀ c ∈ m1.conIds,
      exprValue (m1.con c).expr (fun v => if v ∈ O.varIds then σ v else ρ v) = exprValue (m1.con c).expr σ := by
    intro σ ρ c hc
    obtain ⟨j, hj, e⟩ := pr.terms c hc
    unfold exprValue
    rw [e]
    congr 1
    refine sum_map_congr _ _ _ fun t ht => ?_
    dsimp only
    rw [if_pos (p.inside j hj t.1 (List.mem_map.2 ⟨t, ht, rfl⟩))]
  -- enabled constraints of the prepared model hold for solutions of the user's model
  have down : ∀ σ, Solves O σ → ∀ c ∈ m1.conIds, (m1.con c).enabled = true → Holds (m1.con c) σ := by
    intro σ hσ c hc he
    have := pr.holds _ ((solves_iff p σ0 hσ0 σ).1 hσ) c hc he
    unfold Holds at this ⊢
    rw [hglue σ σ0 c hc] at this; exact this
  -- and back for the reported values
  have up : (∀ c ∈ m1.conIds, (m1.con c).enabled = true → Holds (m1.con c) r.values) → Solves O r.values := by
    intro hh
    have hadm : ∀ v ∈ O.varIds, Admits (m1.var v) (r.values v) := by
      intro v hv
      refine ⟨fun hfx => ?_, fun hfx => ?_⟩
      · rw [hr.fixed v (by rw [hdep]; simp) (Or.inr (by rw [(l.bounds v).2.2.2]; exact hfx)), l.fixed v hfx]
      · have := hr.range v (by rw [r2, pr.varIds]; exact hv) (by rw [hdep]; simp) (by rw [(l.bounds v).2.2.2]; exact hfx)
        rw [(l.bounds v).1, (l.bounds v).2.1] at this; exact this
    have hfw : FeasibleWith (selections i.options i.lt i.user O) m1 (fun v => if v ∈ O.varIds then r.values v else τ v) := by
      refine ⟨⟨fun v => ?_, fun c hc he => ?_⟩, fun s hsm => ?_⟩
      · dsimp only
        split
        · rename_i hv; exact hadm v hv
        · exact hτ.1 v
      · have := hh c hc he
        unfold Holds at this ⊢
        rw [hglue r.values τ c hc]; exact this
      · obtain ⟨v, hv, h1, h2⟩ := hsel s hsm
        rw [l.con] at hv h2
        have hin : ∀ u ∈ (m1.con s).expr.vars, u ∈ O.varIds := by
          intro u hu
          obtain ⟨j, hj, e⟩ := pr.terms s (pr.selsIn s hsm)
          unfold Expr.vars at hu
          rw [e] at hu
          exact p.inside j hj u hu
        refine ⟨v, hv, ?_, fun u hu huv => ?_⟩ <;> dsimp only
        · rw [if_pos (hin v hv)]; exact h1
        · rw [if_pos (hin u hu)]; exact h2 u hu huv
    exact (solves_iff p τ (pr.sound τ hτw) r.values).2 (pr.sound _ hfw)
  have flag : r.feasible = true ↔ Solves O r.values := by
    rw [hcons.feasible]
    constructor
    · intro hv
      refine up fun c hc he => ?_
      have := hv c (by rw [r1]; exact hc) (by rw [hen]; exact he)
      rw [hviol] at this
      exact holds_of_small _ _ (hint c hc).1 (hint c hc).2 this.le
    · intro hsol c hc he
      have := down _ hsol c (by rw [← r1]; exact hc) (by rw [← hen]; exact he)
      rw [hviol, (holds_iff_violation _ _).1 this]; norm_num
  have hobj : ∀ σ, minObjective m0 σ = minObjective O σ := by
    intro σ
    unfold minObjective
    rw [r3, r4, r5, pr.obj, pr.isMin, pr.objDefined]
  refine ⟨flag, fun hd => ?_, fun q' hq' hsol => ?_⟩
  · rw [hcons.objective (by rw [r5, pr.objDefined]; exact hd), r3, pr.obj]
  · have hz : totalViolation m0 q'.1 ≤ 1e-5 := by
      have : totalViolation m0 q'.1 = 0 := by
        unfold totalViolation enabledCons
        refine List.sum_eq_zero fun x hx => ?_
        obtain ⟨c, hc, rfl⟩ := List.mem_map.1 hx
        obtain ⟨hc1, he⟩ := List.mem_filter.1 hc
        obtain ⟨j, hj, rfl⟩ := List.mem_map.1 hc1
        rw [hviol]
        exact (holds_iff_violation _ _).1 (down _ hsol j (by rw [← r1]; exact hj) (by rw [← hen]; exact he))
      rw [this]; norm_num
    obtain ⟨b1, b2⟩ := hbest ⟨q', hq', hz⟩
    refine ⟨up fun c hc he => ?_, ?_⟩
    · refine holds_of_small _ _ (hint c hc).1 (hint c hc).2 (le_trans ?_ b1)
      rw [hq1, ← hviol]
      unfold totalViolation enabledCons
      refine List.single_le_sum (fun x hx => ?_) _ (List.mem_map.2 ⟨m0.con c, List.mem_filter.2 ⟨List.mem_map.2
        ⟨c, by rw [r1]; exact hc, rfl⟩, by rw [hen]; exact he⟩, rfl⟩)
      obtain ⟨d, -, rfl⟩ := List.mem_map.1 hx
      exact violation_nonneg _ _
    · have := b2 q' hq' hz
      rw [hobj, hobj] at this
      rw [hq1]; exact this

/-- The guarantee of a whole call.  For an ordinary model that has a solution, without parity equations: whatever the
search does,

* the reported values are marked feasible exactly if they solve the user's model,
* the reported objective is the user's objective of these values, and
* if the search came across a solution of the user's model, the reported values are one, and at most `1e-5` worse than
  any solution come across.

Missing: the restrictions of `Ordinary`; models with parity equations, for which see C63. -/
theorem report_solves_user_model_partial (i : Input) (O m0 : MState) (fast : Bool) (selRel : ℕ → List ℕ)
    (p : Ordinary i.options O) (hf : ∃ σ, Feasible O σ) (hpen : 0 ≤ i.pen)
    (hgf : ∀ m1, prepare i.options i.lt i.user O = some (.ok m1) → ofType i.lt m1 .gf2 = [])
    (h0 : started i O = some m0) (es : List Event)
    (hle : ∀ ev ∈ es, C66.LegalEvent (Whole.cfg i fast selRel O) m0 ev) (r : Named) (m' : MState)
    (hs : Whole.solve i fast selRel O es = some (r, m')) :
    (r.feasible = true ↔ Solves O r.values) ∧
    (O.objDefined = true → r.objective = exprValue O.obj r.values) ∧
    ∀ q ∈ C66.all m0 es, Solves O q.1 →
      Solves O r.values ∧ minObjective O r.values ≤ minObjective O q.1 + 1e-5 := by
  -- the prepared model
  obtain ⟨m1, hp, -⟩ := C67.preparation_keeps_optimum_partial i.options i.lt i.user O p.toProper hf
  have hl : launch i (selections i.options i.lt i.user O) m1 = some m0 := by
    unfold started at h0; rw [hp] at h0; exact h0
  have pr := prepared i.options i.lt i.user O m1 p hf hp
  obtain ⟨l, -, -, -⟩ := launched p pr i (hgf m1 hp) hl
  have st := setting p pr i hpen (hgf m1 hp) hl fast selRel
  obtain ⟨r1, r2, r3, r4, r5, -, -, r8, r9⟩ := l.rest
  have hdep : m0.dependents = [] := by rw [r8, pr.dependents, p.dependents]
  have hs' : Search.solve (Whole.cfg i fast selRel O) m0 es = some (r, m') := by
    unfold Whole.solve at hs; rw [h0] at hs; exact hs
  have hint : ∀ c ∈ m1.conIds, (∃ k : ℤ, (m1.con c).expr.const = k) ∧ ∀ t ∈ (m1.con c).expr.terms, ∃ k : ℤ, t.2 = k := by
    intro c hc
    refine ⟨(pr.plain c hc).2.2, fun t ht => ?_⟩
    obtain ⟨j, hj, e⟩ := pr.terms c hc
    rw [e] at ht
    exact (p.integral j hj t ht).2
  have hgrid : OnGrid m0 1 := by
    refine ⟨fun c hc _ => ?_, fun c hc _ t ht => ?_⟩
    · rw [l.con]
      obtain ⟨k, hk⟩ := (hint c (by rw [← r1]; exact hc)).1
      exact ⟨k, by rw [mul_one]; exact hk⟩
    · rw [l.con] at ht
      obtain ⟨k, hk⟩ := (hint c (by rw [← r1]; exact hc)).2 t ht
      exact ⟨k, by rw [mul_one]; exact hk⟩
  obtain ⟨q, hq, hag, hr, hcons, hbest, -⟩ := C66.reported_is_best_visited st 1 (by norm_num) hgrid es hle
    (by rw [r9]; exact hpen) r m' hs'
  have hsel := reported_selections st hdep (Or.inr ⟨rfl, 1, by norm_num, hgrid⟩) es hle r m' hs'
  exact concluded p hf pr l r _ q hag hr hcons hbest hsel

/-! ### A call meeting the conditions: minimise `-2 x0 + x2 - x3 - x4` under `x0 + x1 + x2 = 1`, `2 x0 + x3 ≤ 6`, with
`x3` in `[0,5]` and the others 0/1.  The preparation fixes `x4` at 1 and makes the first constraint a selection. -/

private def ex : MState := { Example.raw with
  var := fun v => if v = 3 then Example.int5 else Example.bin0
  varIds := [0, 1, 2, 3, 4]
  con := fun c => if c = 0 then Con.setup ⟨[(0, 1), (1, 1), (2, 1)], -1, 0⟩ .equal C67.kinds
    else Con.setup ⟨[(0, 2), (3, 1)], -6, 0⟩ .less C67.kinds
  conIds := [0, 1]
  obj := ⟨[(0, -2), (2, 1), (3, -1), (4, -1)], 0, 0⟩ }
private def inp : Input := ⟨C67.opts, C67.lt', fun _ => false, true, 100, []⟩
private def e0 : MState := (started inp ex).getD ex
private def swap : Move := { alterations := [(0, 0), (1, 1)], sense := .selection, related := [1], isSelection := true }
private def step3 (x : ℤ) : Move := { alterations := [(3, x)], related := [1], isUnivariable := true }
private def events : List Event := [.move (step3 5) false, .penalties (fun _ => 3) (fun _ => 4), .move swap false,
  .start ⟨fun v => if v = 2 then 1 else 0, 0, 0, 0, false⟩, .move (step3 4) true]

private theorem ex_var (v : ℕ) : ex.var v = Example.int5 ∨ ex.var v = Example.bin0 := C67.ex_var v

private theorem ex_ordinary : Ordinary inp.options ex := by
  have key : ∀ c ∈ ex.conIds, ∀ t ∈ (ex.con c).expr.terms, t.2 = 1 ∨ t.2 = 2 := by decide +kernel
  have key2 : ∀ c ∈ ex.conIds, (ex.con c).expr.const = -1 ∨ (ex.con c).expr.const = -6 := by decide +kernel
  refine ⟨⟨by decide, by decide, by decide, by decide, fun v => rfl, by decide +kernel, by decide +kernel, by decide +kernel,
    ?_, fun v _ => ?_, by decide +kernel, by decide +kernel, fun _ => by decide +kernel, fun _ => by decide +kernel,
    Or.inl (by decide)⟩, by decide, ?_, by decide +kernel, by decide +kernel, by decide +kernel, by decide +kernel,
    by decide +kernel, rfl⟩
  · intro c hc t ht
    rcases key c hc t ht with h | h
    · exact ⟨by rw [h]; norm_num, 1, by rw [h]; rfl⟩
    · exact ⟨by rw [h]; norm_num, 2, by rw [h]; rfl⟩
  · rcases ex_var v with h | h <;> rw [h] <;> decide
  · intro c hc
    rcases key2 c hc with h | h
    · exact ⟨-1, by rw [h]; rfl⟩
    · exact ⟨-6, by rw [h]; rfl⟩

private theorem ex_started : started inp ex = some e0 := by
  have h : (started inp ex).isSome = true := by decide +kernel
  obtain ⟨m, hm⟩ := Option.isSome_iff_exists.1 h
  unfold e0
  rw [hm]; rfl

private theorem in1 : ∀ c ∈ e0.conIds, (e0.con c).enabled = true → c ∈ [1] := by decide +kernel
private theorem covers (alts) : Covers e0 alts [1] := ⟨List.Nodup.filter _ (by decide), by decide +kernel, fun c hc he _ => in1 c hc he⟩

/-- All conditions are met, by a list of events with moves, a change of penalties and a second start. -/
example : Ordinary inp.options ex ∧ (∃ σ, Feasible ex σ) ∧ 0 ≤ inp.pen ∧
    (∀ m1, prepare inp.options inp.lt inp.user ex = some (.ok m1) → ofType inp.lt m1 .gf2 = []) ∧
    started inp ex = some e0 ∧
    (∀ ev ∈ events, C66.LegalEvent (Whole.cfg inp true (fun _ => [1]) ex) e0 ev) := by
  refine ⟨ex_ordinary, ⟨fun v => if v = 0 then 1 else 0, fun v => ?_, by decide +kernel⟩, by decide +kernel, fun m1 h => ?_,
    ex_started, fun ev hev => ?_⟩
  · by_cases h0 : v = 0
    · subst h0; decide
    · dsimp only
      rw [if_neg h0]
      rcases ex_var v with h | h <;> rw [h] <;> decide
  · have k : (match prepare inp.options inp.lt inp.user ex with
      | some (.ok m) => (ofType inp.lt m .gf2).isEmpty
      | _ => true) = true := by decide +kernel
    rw [h] at k
    exact List.isEmpty_iff.1 k
  · simp only [events, List.mem_cons, List.not_mem_nil, or_false] at hev
    rcases hev with rfl | rfl | rfl | rfl | rfl
    · exact ⟨by decide, by decide +kernel, covers _, fun _ => ⟨3, 5, rfl⟩, fun h => absurd h (by decide)⟩
    · intro c; norm_num
    · exact ⟨by decide, by decide +kernel, covers _, fun h => absurd h (by decide), fun _ _ => ⟨0, 1, 0, 1, rfl,
        by decide, by decide +kernel, fun c hc he _ => in1 c hc he⟩⟩
    · trivial
    · exact ⟨by decide, by decide +kernel, covers _, fun _ => ⟨3, 4, rfl⟩, fun h => absurd h (by decide)⟩

/-- The run visits five assignments; `x0 = 1, x3 = 5` violates a constraint, and the best of the other four is reported. -/
example : (C66.all e0 events).map (fun q => [0, 1, 2, 3, 4].map q.1) =
    [[1, 0, 0, 0, 1], [1, 0, 0, 5, 1], [0, 1, 0, 5, 1], [0, 0, 1, 0, 1], [0, 0, 1, 4, 1]] := by decide +kernel
example : (Whole.solve inp true (fun _ => [1]) ex events).map
    (fun p => ([0, 1, 2, 3, 4].map p.1.values, p.1.objective, p.1.feasible)) = some ([0, 1, 0, 5, 1], -6, true) := by
  decide +kernel

end Printemps.C68
