import Verif.Lemmas.WholeDep
import Verif.Props.C68

/-! # C82 — a whole call of the solver with dependent variables, from the user's model to the report -/

namespace Printemps.C82
open Spec Expr Presolve Setup Whole Search Sol Dependent

/-- What is known of the model after the transformation. -/
structure PreparedDep (O m : MState) (sels : List ℕ) : Prop where
  conIds : m.conIds.Nodup
  varIds : m.varIds = O.varIds
  wfC : ∀ c ∈ m.conIds, (m.con c).expr.WF
  wfE : ∀ i, (m.uexpr i).expr.WF
  wfO : m.obj.WF
  int : ∀ c ∈ m.conIds, IntAll (m.con c).expr
  intDef : ∀ d ∈ m.dependents, IntAll (m.uexpr d.2).expr
  inC : ∀ c ∈ m.conIds, ∀ v ∈ (m.con c).expr.vars, v ∈ O.varIds
  inE : ∀ d ∈ m.dependents, ∀ v ∈ (m.uexpr d.2).expr.vars, v ∈ O.varIds
  objIn : ∀ v ∈ m.obj.vars, v ∈ O.varIds
  depIds : ∀ d ∈ m.dependents, d.1 ∈ O.varIds
  flags : ∀ c ∈ m.conIds, (m.con c).onlyBinaryVar = true →
    (∀ v ∈ (m.con c).expr.vars, 0 ≤ (m.var v).lb ∧ (m.var v).ub ≤ 1) ∧ (∀ t ∈ (m.con c).expr.terms, |t.2| ≤ (m.con c).maxAbs) ∧
    ((m.con c).maxAbs = 0 ∨ ∃ t ∈ (m.con c).expr.terms, (m.con c).maxAbs = |t.2|)
  range : ∀ v ∈ m.varIds, ¬ IsDependent m v → (m.var v).lb ≤ (m.var v).ub
  kinds : ∀ v ∈ m.varIds, ¬ IsDependent m v → ((m.var v).sense = .binary ∧ 0 ≤ (m.var v).lb ∧ (m.var v).ub ≤ 1) ∨
    (m.var v).sense = .integer ∨
    (((m.var v).sense = .selection ∧ 0 ≤ (m.var v).lb ∧ (m.var v).ub ≤ 1) ∧ ∃ s ∈ sels, v ∈ (m.con s).expr.vars)
  depSense : ∀ v, IsDependent m v → (m.var v).sense = .dependentBinary ∨ (m.var v).sense = .dependentInteger
  ne : ∀ v ∈ m.varIds, ¬ IsDependent m v → (m.var v).fixed = false → (m.var v).lb ≠ (m.var v).ub
  exprs : FreeExprs m
  rest : FreeRest m
  ids : ∀ d ∈ m.dependents, d.2 ∈ m.uexprIds
  nodup : (m.dependents.map Prod.fst).Nodup
  selsNodup : sels.Nodup
  selsIn : ∀ s ∈ sels, s ∈ m.conIds
  apart : ∀ s ∈ sels, ∀ t ∈ sels, s ≠ t → ∀ v ∈ (m.con s).expr.vars, v ∉ (m.con t).expr.vars
  selSense : ∀ s ∈ sels, ∀ v ∈ (m.con s).expr.vars, (m.var v).sense = .selection
  isMin : m.isMin = O.isMin
  objDefined : m.objDefined = O.objDefined
  sound : ∀ σ, FeasibleDepWith sels m σ → Feasible O σ
  objective : ∀ σ, FeasibleDepWith sels m σ → exprValue m.obj σ = exprValue O.obj σ
  back : ∀ σ, Feasible O σ → (∀ v, ¬ IsDependent m v → Admits (m.var v) (σ v)) →
    FeasibleDep m σ ∧ exprValue m.obj σ = exprValue O.obj σ
  complete : ∀ σ, Feasible O σ → ∃ τ, FeasibleDep m τ ∧ Feasible O τ ∧ minObjective O τ ≤ minObjective O σ

theorem prepared {o : Options} {lt : ℕ → ℕ → Bool} {user : ℕ → Bool} {O m : MState} (p : OrdinaryDep o lt O)
    (h : prepare o lt user O = some (.ok m)) : PreparedDep O m (selections o lt user O) := by
  unfold prepare at h
  obtain ⟨m1, h1, h⟩ := andThen_ok h
  have R := reduce_whole o lt O m1 p h1
  have hsel : selections o lt user O = if o.selection ≠ .off ∧ m1.varIds.length > m1.conIds.length then
      SelectionExtract.chosen lt user o.selection m1 else [] := by
    unfold selections; rw [h1]
  obtain ⟨e1, e2, e3⟩ := C30.extraction_effect lt user o.selection m1 R.base.conIds
  obtain ⟨q1, q2, q3⟩ := C30.selections_do_not_overlap lt user o.selection m1 R.base.conIds
  have hraw := SelectionExtract.chosen_raw lt user o.selection m1
  rw [hsel]
  -- both cases in one
  obtain ⟨S, hS, s1, s2, s3, s4, hcon, hvar, hids, hvids, hobj, hmin, hdef, hu, hui, hdp⟩ : ∃ S,
      (if o.selection ≠ .off ∧ m1.varIds.length > m1.conIds.length then
        SelectionExtract.chosen lt user o.selection m1 else []) = S ∧
      S.Nodup ∧ (∀ c ∈ S, c ∈ m1.conIds ∧ (m1.con c).enabled = true ∧ ∀ v ∈ (m1.con c).expr.vars, (m1.var v).sense = .binary) ∧
      (∀ c ∈ S, ∀ d ∈ S, c ≠ d → ∀ v ∈ (m1.con c).expr.vars, v ∉ (m1.con d).expr.vars) ∧
      (∀ c ∈ S, (ConType.classify m1.var lt (m1.con c)).1 = .setPartitioning) ∧
      (∀ c, m.con c = if c ∈ S then { m1.con c with enabled := false } else m1.con c) ∧
      (∀ v, (m.var v = m1.var v ∧ ∀ c ∈ S, v ∉ (m1.con c).expr.vars) ∨
        ∃ c ∈ S, v ∈ (m1.con c).expr.vars ∧ m.var v = { m1.var v with selection := some c, sense := .selection }) ∧
      m.conIds = m1.conIds ∧ m.varIds = m1.varIds ∧ m.obj = m1.obj ∧ m.isMin = m1.isMin ∧ m.objDefined = m1.objDefined ∧
      m.uexpr = m1.uexpr ∧ m.uexprIds = m1.uexprIds ∧ m.dependents = m1.dependents := by
    by_cases hs : o.selection ≠ .off ∧ m1.varIds.length > m1.conIds.length
    · rw [if_pos hs] at h ⊢
      simp only [Option.some.injEq, Outcome.ok.injEq] at h
      subst h
      refine ⟨_, rfl, q1, q2, q3, fun c hc => ((SelectionExtract.isRaw_iff _ _ _).1 (hraw c hc).2).1, e1, fun v => ?_,
        rfl, rfl, rfl, rfl, rfl, rfl, rfl, rfl⟩
      by_cases hv : ∃ c ∈ SelectionExtract.chosen lt user o.selection m1, v ∈ (m1.con c).expr.vars
      · obtain ⟨c, hc, hvc⟩ := hv
        exact Or.inr ⟨c, hc, hvc, e2 c hc v hvc⟩
      · push Not at hv
        exact Or.inl ⟨e3 v hv, hv⟩
    · rw [if_neg hs] at h ⊢
      simp only [Option.some.injEq, Outcome.ok.injEq] at h
      subst h
      exact ⟨[], rfl, List.nodup_nil, by simp, by simp, by simp, fun c => by simp; rfl, fun v => Or.inl ⟨rfl, by simp⟩,
        rfl, rfl, rfl, rfl, rfl, rfl, rfl, rfl⟩
  rw [hS]
  have hexpr : ∀ c, (m.con c).expr = (m1.con c).expr := by intro c; rw [hcon]; split <;> rfl
  have hsame : ∀ v, (m.var v).fixed = (m1.var v).fixed ∧ (m.var v).lb = (m1.var v).lb ∧ (m.var v).ub = (m1.var v).ub ∧
      (m.var v).value = (m1.var v).value := by
    intro v
    rcases hvar v with ⟨e, _⟩ | ⟨c, _, _, e⟩ <;> rw [e] <;> exact ⟨rfl, rfl, rfl, rfl⟩
  have hadm : ∀ v x, Admits (m.var v) x ↔ Admits (m1.var v) x := by
    intro v x
    obtain ⟨a1, a2, a3, a4⟩ := hsame v
    unfold Admits
    rw [a1, a2, a3, a4]
  have hisdep : ∀ v, IsDependent m v ↔ IsDependent m1 v := fun v => by unfold IsDependent; rw [hdp]
  have hflags : ∀ c ∈ m1.conIds, FlagsRight m1.var (m1.con c) := R.flags.flags
  have up : ∀ σ, FeasibleDepWith S m σ → FeasibleDep m1 σ := by
    rintro σ ⟨f, hs⟩
    refine ⟨fun v hv => (hadm v _).1 (f.bounds v (fun k => hv ((hisdep v).1 k))), ?_, fun c hc he => ?_⟩
    · have := f.defs
      rw [hdp, hu] at this; exact this
    · by_cases hcs : c ∈ S
      · obtain ⟨v, hv, h3, h4⟩ := hs c hcs
        rw [hexpr] at hv h4
        have sh := classify_shape m1.var lt (m1.con c)
        rw [s4 c hcs] at sh
        obtain ⟨t1, t2, t3, t4⟩ := sh
        have h01 : ∀ u ∈ (m1.con c).expr.vars, σ u = 0 ∨ σ u = 1 := by
          intro u hu
          by_cases e : u = v
          · rw [e]; exact Or.inr h3
          · exact Or.inl (h4 u hu e)
        have := (C67.sum_one_iff σ _ (R.base.wfC c hc) h01).2 ⟨v, hv, h3, h4⟩
        unfold Holds
        rw [t4, exprValue_setForm (m1.con c) ⟨(hflags c hc t2).2.2.1 t1, t3⟩]
        show ((((m1.con c).expr.vars.map σ).sum : ℤ) : ℚ) - 1 = 0
        rw [this]; norm_num
      · have := f.cons c (by rw [hids]; exact hc)
        rw [hcon, if_neg hcs] at this
        exact this he
  have down : ∀ σ, FeasibleDep m1 σ → FeasibleDep m σ := by
    intro σ f
    refine ⟨fun v hv => (hadm v _).2 (f.bounds v (fun k => hv ((hisdep v).2 k))), by rw [hdp, hu]; exact f.defs,
      fun c hc he => ?_⟩
    rw [hids] at hc
    rw [hcon] at he ⊢
    split at he
    · exact absurd he (by simp)
    · rename_i hn; rw [if_neg hn]; exact f.cons c hc he
  exact
    { conIds := by rw [hids]; exact R.base.conIds
      varIds := hvids.trans R.varIds
      wfC := fun c hc => by rw [hexpr]; exact R.base.wfC c (by rw [← hids]; exact hc)
      wfE := by rw [hu]; exact R.base.wfE
      wfO := by rw [hobj]; exact R.base.wfO
      int := fun c hc => by rw [hexpr]; exact R.extra.con c (by rw [← hids]; exact hc)
      intDef := by rw [hdp, hu]; exact R.extra.def'
      inC := fun c hc => by rw [hexpr, ← R.varIds]; exact R.base.inC c (by rw [← hids]; exact hc)
      inE := by rw [hdp, hu, ← R.varIds]; exact R.base.inE
      objIn := by rw [hobj]; exact R.objIn
      depIds := by rw [hdp, ← R.varIds]; exact R.base.depIds
      flags := fun c hc hb => by
        rw [hids] at hc
        have hb' : (m1.con c).onlyBinaryVar = true := by rw [hcon] at hb; split at hb <;> exact hb
        have hm : (m.con c).maxAbs = (m1.con c).maxAbs := by rw [hcon]; split <;> rfl
        obtain ⟨f1, f2, _, f4⟩ := hflags c hc hb'
        rw [hexpr, hm]
        refine ⟨fun v hv => ?_, f2, f4⟩
        rw [(hsame v).2.1, (hsame v).2.2.1]
        exact R.flags.box v (f1 v hv)
      range := fun v hv hd => by
        rw [(hsame v).2.1, (hsame v).2.2.1]
        exact (R.extra.varOK v (by rw [← hvids]; exact hv) (fun k => hd ((hisdep v).2 k))).1
      kinds := fun v hv hd => by
        have tv := R.extra.varOK v (by rw [← hvids]; exact hv) (fun k => hd ((hisdep v).2 k))
        rcases hvar v with ⟨e, _⟩ | ⟨c, hc, hvc, e⟩
        · rw [e]
          rcases tv.2 with t | t
          · exact Or.inr (Or.inl t)
          · exact Or.inl t
        · refine Or.inr (Or.inr ⟨?_, c, hc, by rw [hexpr]; exact hvc⟩)
          rw [e]
          have hb := (s2 c hc).2.2 v hvc
          rcases tv.2 with t | t
          · rw [hb] at t; exact absurd t (by decide)
          · exact ⟨rfl, t.2⟩
      depSense := fun v hd => by
        obtain ⟨d, hdm, rfl⟩ := (hisdep v).1 hd
        have hse := R.base.sense d hdm
        rcases hvar d.1 with ⟨e, _⟩ | ⟨c, hc, hvc, e⟩
        · rw [e]; exact hse
        · have hb := (s2 c hc).2.2 d.1 hvc
          rw [hb] at hse
          rcases hse with k | k <;> exact absurd k (by decide)
      ne := fun v hv hd hf => by
        rw [(hsame v).1] at hf
        rw [(hsame v).2.1, (hsame v).2.2.1]
        exact R.extra.ne v (by rw [← hvids]; exact hv) (fun k => hd ((hisdep v).2 k)) hf
      exprs := fun i hi w hw hd => by
        rw [hui] at hi; rw [hu] at hw
        exact R.exprs i hi w hw ((hisdep w).1 hd)
      rest := by
        refine ⟨fun w hw hd => ?_, fun c hc he w hw hd => ?_⟩
        · rw [hobj] at hw; exact R.rest.1 w hw ((hisdep w).1 hd)
        · rw [hexpr] at hw
          rw [hids] at hc
          rw [hcon] at he
          split at he
          · exact absurd he (by simp)
          · exact R.rest.2 c hc he w hw ((hisdep w).1 hd)
      ids := by rw [hdp, hui]; exact R.base.ids
      nodup := by rw [hdp]; exact R.base.nodup
      selsNodup := s1
      selsIn := fun s hs => by rw [hids]; exact (s2 s hs).1
      apart := fun s hs t ht hst v hv => by rw [hexpr] at hv ⊢; exact s3 s hs t ht hst v hv
      selSense := fun s hs v hv => by
        rw [hexpr] at hv
        rcases hvar v with ⟨_, e⟩ | ⟨c, hc, hvc, e⟩
        · exact absurd hv (e s hs)
        · rw [e]
      isMin := hmin.trans R.isMin
      objDefined := hdef.trans R.objDefined
      sound := fun σ hσ => R.sound σ (up σ hσ)
      objective := fun σ hσ => by rw [hobj]; exact R.objective σ (up σ hσ)
      back := fun σ hσ hv => by
        have := R.back σ hσ (fun v hd => (hadm v _).1 (hv v (fun k => hd ((hisdep v).1 k))))
        exact ⟨down σ this, by rw [hobj]; exact R.objective σ this⟩
      complete := fun σ hσ => by
        obtain ⟨τ, t1, t2⟩ := R.complete σ hσ
        exact ⟨τ, down τ t1, R.sound τ t1, t2⟩ }

theorem ready {o : Options} {lt : ℕ → ℕ → Bool} {O m1 : MState} {sels : List ℕ} (p : OrdinaryDep o lt O)
    (h : PreparedDep O m1 sels) : C51.Ready sels m1 where
  nodup := h.selsNodup
  varNodup := by rw [h.varIds]; exact p.proper.varIds
  once s hs := h.wfC s (h.selsIn s hs)
  apart := h.apart
  sense := h.selSense
  binary v hv hb := by
    have hd : ¬ IsDependent m1 v := fun k => by
      rcases h.depSense v k with e | e <;> rw [hb] at e <;> exact absurd e (by decide)
    rcases h.kinds v hv hd with k | k | k
    · exact ⟨k.2.1, h.range v hv hd, k.2.2⟩
    · rw [hb] at k; exact absurd k (by decide)
    · rw [hb] at k; exact absurd k.1.1 (by decide)
  integer v hv hb := h.range v hv (fun k => by
    rcases h.depSense v k with e | e <;> rw [hb] at e <;> exact absurd e (by decide))

theorem launched {m1 m0 : MState} {sels : List ℕ} (rd : C51.Ready sels m1)
    (i : Input) (hgf : ofType i.lt m1 .gf2 = []) (hl : launch i sels m1 = some m0) :
    C68.Launched m1 m0 i.pen ∧
    (∀ s ∈ sels, ∀ v ∈ (m1.con s).expr.vars, (m0.var v).value = 0 ∨ (m0.var v).value = 1) ∧
    (∀ v ∈ m1.varIds, (m1.var v).sense = .binary → (m0.var v).value = 0 ∨ (m0.var v).value = 1) ∧
    (∀ v ∈ m1.varIds, (m1.var v).sense = .integer →
      (m1.var v).lb ≤ (m0.var v).value ∧ (m0.var v).value ≤ (m1.var v).ub) := by
  unfold launch at hl
  obtain ⟨m2, h2, hl1⟩ := Option.bind_eq_some_iff.1 hl
  obtain ⟨m3, h3, hl2⟩ := Option.map_eq_some_iff.1 hl1
  have e3 : m3 = m2 := by
    unfold gf2Stage at h3
    rw [hgf] at h3
    simp only [List.isEmpty_nil, Bool.not_true, Bool.and_false, Bool.false_eq_true, if_false, Option.some.injEq] at h3
    exact h3.symm
  subst e3
  obtain ⟨g1, g2, g3, g4, g5, _⟩ := C51.corrected_or_rejected_partial i.correct sels m1 m3 rd h2
  obtain ⟨var, sel, e⟩ := verifyAll_frame _ _ _ _ h2
  have hv : m0.var = m3.var := by rw [← hl2]; rfl
  refine ⟨⟨⟨var, sel, by rw [← hl2, e]⟩, fun v => by rw [hv]; exact g5 v, fun v hf => by rw [hv]; exact g4 v hf⟩,
    fun s hs => ?_, fun v => ?_, fun v => ?_⟩
  · rw [hv]; exact (g1 s hs).1
  · rw [hv]; exact g2 v
  · rw [hv]; exact g3 v

/-- The setting of the search is reached. -/
theorem setting {o : Options} {lt : ℕ → ℕ → Bool} {O m1 m0 : MState} {sels : List ℕ} (p : OrdinaryDep o lt O)
    (h : PreparedDep O m1 sels) (i : Input) (hpen : 0 ≤ i.pen) (hgf : ofType i.lt m1 .gf2 = [])
    (hl : launch i sels m1 = some m0) (fast : Bool) (selRel : ℕ → List ℕ) : C66.Setting ⟨fast, sels, selRel⟩ m0 := by
  have rd := ready p h
  obtain ⟨l, v1, v2, v3⟩ := launched rd i hgf hl
  obtain ⟨r1, r2, r3, r4, r5, r6, r7, r8, r9⟩ := l.rest
  have hcon := l.con
  have hexpr : ∀ c, (m0.con c).expr = (m1.con c).expr := fun c => by rw [hcon]
  have hnd : ∀ v, v ∉ m0.dependents.map Prod.fst ↔ ¬ IsDependent m1 v := fun v => by
    rw [isDependent_iff, r8]
  have wf : WellFormed m0 := by
    refine ⟨by rw [r1]; exact h.conIds, fun c hc => ?_, by rw [r3]; exact h.wfO, fun j hj => ?_⟩
    · rw [hexpr]; exact h.wfC c (by rw [← r1]; exact hc)
    · rw [r6]; exact h.wfE j
  have unit : ∀ v ∈ m1.varIds, (m1.var v).fixed = false → (m1.var v).sense = .binary ∨ (m1.var v).sense = .selection →
      (m1.var v).lb = 0 ∧ (m1.var v).ub = 1 := by
    intro v hv hf hk
    have hd : ¬ IsDependent m1 v := fun k => by
      rcases h.depSense v k with e | e <;> rw [e] at hk <;> rcases hk with hk | hk <;> exact absurd hk (by decide)
    have hr := h.range v hv hd
    have hne := h.ne v hv hd hf
    have : 0 ≤ (m1.var v).lb ∧ (m1.var v).ub ≤ 1 := by
      rcases h.kinds v hv hd with k | k | k
      · exact k.2
      · rw [k] at hk; rcases hk with hk | hk <;> exact absurd hk (by decide)
      · exact k.1.2
    omega
  refine
    { wf := wf
      ready := ⟨rd.nodup, by rw [r2]; exact rd.varNodup, fun s hs => by rw [hexpr]; exact rd.once s hs,
        fun s hs t ht hst v hv => by rw [hexpr] at hv ⊢; exact rd.apart s hs t ht hst v hv,
        fun s hs v hv => by rw [hexpr] at hv; rw [(l.bounds v).2.2.1]; exact rd.sense s hs v hv,
        fun v hv hb => by
          rw [(l.bounds v).2.2.1] at hb
          rw [(l.bounds v).1, (l.bounds v).2.1]; exact rd.binary v (by rw [← r2]; exact hv) hb,
        fun v hv hb => by
          rw [(l.bounds v).2.2.1] at hb
          rw [(l.bounds v).1, (l.bounds v).2.1]; exact rd.integer v (by rw [← r2]; exact hv) hb⟩
      unit := fun v hv hf hk => by
        rw [(l.bounds v).2.2.2] at hf
        rw [(l.bounds v).2.2.1] at hk
        rw [(l.bounds v).1, (l.bounds v).2.1]
        exact unit v (by rw [← r2]; exact hv) hf hk
      kinds := fun v hv hd => by
        rw [(l.bounds v).2.2.1]
        rcases h.kinds v (by rw [← r2]; exact hv) ((hnd v).1 hd) with k | k | ⟨k, s, hs, hvs⟩
        · exact Or.inl k.1
        · exact Or.inr (Or.inl k)
        · exact Or.inr (Or.inr ⟨k.1, s, hs, by rw [hexpr]; exact hvs⟩)
      start := fun v hv hd hf => by
        rw [r2] at hv
        rw [(l.bounds v).2.2.2] at hf
        rw [(l.bounds v).1, (l.bounds v).2.1]
        rcases h.kinds v hv ((hnd v).1 hd) with k | k | ⟨k, s, hs, hvs⟩
        · obtain ⟨u1, u2⟩ := unit v hv hf (Or.inl k.1)
          rcases v2 v hv k.1 with e | e <;> omega
        · exact v3 v hv k
        · obtain ⟨u1, u2⟩ := unit v hv hf (Or.inr k.1)
          rcases v1 s hs v hvs with e | e <;> omega
      sens := fun v => by
        obtain ⟨var, sel, e⟩ := l.frame
        have := C07.setupSens_ok m0 wf v
        have e2 : m0.sens v = m0.setupSens.sens v := by rw [e]; rfl
        unfold C07.SensOK at this ⊢
        rw [e2]; exact this
      maxLe := fun c hc hb t ht => by
        rw [hexpr] at ht
        rw [hcon] at hb ⊢; exact (h.flags c (by rw [← r1]; exact hc) hb).2.1 t ht
      maxEq := fun c hc hb => by
        rw [hcon] at hb ⊢; exact (h.flags c (by rw [← r1]; exact hc) hb).2.2
      onlyBin := fun c hc hb v hv hf => by
        rw [r1] at hc
        rw [hcon] at hb
        rw [hexpr] at hv
        rw [(l.bounds v).1, (l.bounds v).2.1]
        exact (h.flags c hc hb).1 v hv
      noDep := ⟨fun j hj v hv => by
          rw [hnd]
          rw [r7] at hj
          rw [r6] at hv
          exact h.exprs j hj v hv,
        fun c hc he v hv => by
          rw [hnd]
          rw [r1] at hc
          rw [hexpr] at hv
          rw [hcon] at he
          exact h.rest.2 c hc he v hv,
        fun v hv => by
          rw [hnd]
          rw [r3] at hv
          exact h.rest.1 v hv⟩
      pen := fun c => by rw [hcon]; exact ⟨hpen, hpen⟩ }

/-- The reported values: in each selection exactly one variable is 1, the others are 0, and each dependent variable has
the value of its definition. -/
theorem reported_values {m0 : MState} {cfg : Cfg} (hs : C66.Setting cfg m0)
    (hsens : ∀ v ∈ m0.dependents.map Prod.fst, (m0.var v).sense = .dependentBinary ∨ (m0.var v).sense = .dependentInteger)
    (hn : (m0.dependents.map Prod.fst).Nodup) (hids : ∀ d ∈ m0.dependents, d.2 ∈ m0.uexprIds)
    (hint : ∀ d ∈ m0.dependents, IntAll (m0.uexpr d.2).expr)
    {e : ℚ} (he : Err m0 e) (es : List Event) (hle : ∀ ev ∈ es, C66.LegalEvent cfg m0 ev)
    (r : Named) (m' : MState) (h : Search.solve cfg m0 es = some (r, m')) :
    (∀ s ∈ cfg.sels, ∃ v ∈ (m0.con s).expr.vars, r.values v = 1 ∧ ∀ u ∈ (m0.con s).expr.vars, u ≠ v → r.values u = 0) ∧
    ∀ d ∈ m0.dependents, (r.values d.1 : ℚ) = exprValue (m0.uexpr d.2).expr r.values := by
  obtain ⟨s, h1, h2⟩ := Option.bind_eq_some_iff.1 h
  obtain ⟨⟨q', i⟩, -⟩ := C66.run_inv hs he es _ s _ (C66.begin_inv (e := e) hs).1 hle h1
  obtain ⟨⟨l, g, hn0, st⟩, hl, hag, hr, -, -⟩ := i
  unfold postprocess at h2
  obtain ⟨d, hd, h2⟩ := Option.bind_eq_some_iff.1 h2
  obtain ⟨m1, h3, h4⟩ := Option.map_eq_some_iff.1 h2
  simp only [Prod.mk.injEq] at h4
  obtain ⟨rfl, rfl⟩ := h4
  obtain ⟨st1, -, -, hcon⟩ := C66.import_facts hs st d h3 q'.1 hag hr
  constructor
  · intro k hk
    have hv : ∀ v ∈ (m0.con k).expr.vars, (exportNamed m1.update).values v = (m1.var v).value := by
      intro v hv
      refine update_agree st1 v (fun hm => ?_)
      have := hs.ready.sense k hk v hv
      rcases hsens v hm with e | e <;> rw [e] at this <;> exact absurd this (by decide)
    have hready : C51.Ready cfg.sels { s.model with
        var := fun v => if v ∈ s.model.varIds then (s.model.var v).setValueIfMutable (d.values v) else s.model.var v } := by
      refine C66.stat_ready (st.withVars _ s.model.selected ?_ ?_ ?_ ?_) hs.ready <;> intro v <;> split <;>
        first | rfl | exact (mutable_frame _ _).1 | exact (mutable_frame _ _).2.1 | exact (mutable_frame _ _).2.2.1 |
          exact (mutable_frame _ _).2.2.2.1
    obtain ⟨g1, -⟩ := C51.corrected_or_rejected_partial false cfg.sels _ m1 hready h3
    have hvars : (s.model.con k).expr.vars = (m0.con k).expr.vars := C66.stat_vars st k
    obtain ⟨x, hx, hx1, hx2⟩ := (Verifier.oneHot_iff m1 _ (hready.once k hk)).2 (g1 k hk)
    have hvars' : (({ s.model with
        var := fun v => if v ∈ s.model.varIds then (s.model.var v).setValueIfMutable (d.values v) else s.model.var v } :
          MState).con k).expr.vars = (m0.con k).expr.vars := hvars
    rw [hvars'] at hx hx2
    exact ⟨x, hx, by rw [hv x hx]; exact hx1, fun u hu hux => by rw [hv u hu]; exact hx2 u hu hux⟩
  · have hde : m1.dependents = m0.dependents := st1.dependents
    have hue : ∀ j σ, exprValue (m1.uexpr j).expr σ = exprValue (m0.uexpr j).expr σ := by
      intro j σ
      unfold exprValue
      rw [st1.shape.uTerms, st1.shape.uConst]; rfl
    have hfe : FreeExprs m1 := by
      intro j hj w hw hdw
      rw [isDependent_iff, hde] at hdw
      rw [st1.shape.uexprIds] at hj
      unfold Expr.vars at hw
      rw [st1.shape.uTerms] at hw
      exact hs.noDep.uexpr j hj w hw hdw
    obtain ⟨-, u2⟩ := update_restores m1 (by rw [hde]; exact hn) hfe
      (fun d hd => by rw [hde] at hd; rw [st1.shape.uexprIds]; exact hids d hd)
      (fun d hd => by
        rw [hde] at hd
        rw [hue]
        exact C68.exprValue_int _ _ (hint d hd).2 (hint d hd).1)
    intro d hd
    have := u2 d (by rw [hde]; exact hd)
    rw [hue] at this
    exact this

theorem exprValue_glue (e : Expr) (V : List ℕ) (h : ∀ v ∈ e.vars, v ∈ V) (σ ρ : ℕ → ℤ) :
    exprValue e (fun v => if v ∈ V then σ v else ρ v) = exprValue e σ :=
  exprValue_congr _ _ _ fun v hv => if_pos (h v hv)

theorem solves_iff {O : MState} (hin : ∀ c ∈ O.conIds, ∀ v ∈ (O.con c).expr.vars, v ∈ O.varIds) (τ : ℕ → ℤ)
    (hτ : Feasible O τ) (σ : ℕ → ℤ) : Solves O σ ↔ Feasible O (fun v => if v ∈ O.varIds then σ v else τ v) := by
  constructor
  · rintro ⟨h1, h2⟩
    refine ⟨fun v => ?_, fun c hc he => ?_⟩
    · dsimp only
      split
      · rename_i hv; exact h1 v hv
      · exact hτ.1 v
    · have := h2 c hc he
      unfold Holds at this ⊢
      rw [exprValue_glue _ _ (hin c hc)]; exact this
  · rintro ⟨h1, h2⟩
    refine ⟨fun v hv => ?_, fun c hc he => ?_⟩
    · have := h1 v; dsimp only at this; rw [if_pos hv] at this; exact this
    · have := h2 c hc he
      unfold Holds at this ⊢
      rw [exprValue_glue _ _ (hin c hc)] at this; exact this

/-- The guarantee of a whole call in which variables are replaced by definitions.  For a model built by the user that has
a solution, whose equalities are not used in a circle (`OrdinaryDep`), without parity equations: whatever the search does,

* the reported values, those of the replaced variables included, are marked feasible exactly if they solve the user's
  model,
* if they do, the reported objective is the user's objective of these values, and
* if the search came across a solution of the user's model (that is, its values of the variables not replaced belong to
  a solution), the reported values are one, and at most `1e-5` worse than any solution come across.

Missing: the restrictions of `OrdinaryDep`; models with parity equations. -/
theorem report_solves_user_model_with_dependents_partial (i : Input) (O m0 : MState) (fast : Bool) (selRel : ℕ → List ℕ)
    (p : OrdinaryDep i.options i.lt O) (hpen : 0 ≤ i.pen)
    (hgf : ∀ m1, prepare i.options i.lt i.user O = some (.ok m1) → ofType i.lt m1 .gf2 = [])
    (h0 : started i O = some m0) (es : List Event)
    (hle : ∀ ev ∈ es, C66.LegalEvent (Whole.cfg i fast selRel O) m0 ev) (r : Named) (m' : MState)
    (hs : Whole.solve i fast selRel O es = some (r, m')) :
    (r.feasible = true ↔ Solves O r.values) ∧
    (r.feasible = true → O.objDefined = true → r.objective = exprValue O.obj r.values) ∧
    ∀ q ∈ C66.all m0 es, ∀ σ, Agree m0 σ q.1 → Solves O σ →
      Solves O r.values ∧ minObjective O r.values ≤ minObjective O σ + 1e-5 := by
  obtain ⟨m1, hp, hl⟩ : ∃ m1, prepare i.options i.lt i.user O = some (.ok m1) ∧
      launch i (selections i.options i.lt i.user O) m1 = some m0 := by
    unfold started at h0
    split at h0
    · rename_i m1 e; exact ⟨m1, e, h0⟩
    · exact absurd h0 (by simp)
  have pr := prepared p hp
  obtain ⟨l, -, -, -⟩ := launched (ready p pr) i (hgf m1 hp) hl
  have st := setting p pr i hpen (hgf m1 hp) hl fast selRel
  obtain ⟨r1, r2, r3, r4, r5, r6, r7, r8, r9⟩ := l.rest
  have hnd : ∀ v, v ∉ m0.dependents.map Prod.fst ↔ ¬ IsDependent m1 v := fun v => by
    rw [isDependent_iff, r8]
  have hs' : Search.solve (Whole.cfg i fast selRel O) m0 es = some (r, m') := by
    unfold Whole.solve at hs; rw [h0] at hs; exact hs
  have hgrid : OnGrid m0 1 := by
    refine ⟨fun c hc _ => ?_, fun c hc _ t ht => ?_⟩
    · rw [l.con]
      obtain ⟨k, hk⟩ := (pr.int c (by rw [← r1]; exact hc)).2
      exact ⟨k, by rw [mul_one]; exact hk⟩
    · rw [l.con] at ht
      obtain ⟨k, hk⟩ := (pr.int c (by rw [← r1]; exact hc)).1 t ht
      exact ⟨k, by rw [mul_one]; exact hk⟩
  have herr : Err m0 0 := Or.inr ⟨rfl, 1, by norm_num, hgrid⟩
  obtain ⟨q, hq, hag, hr, hcons, hbest, -⟩ := C66.reported_is_best_visited st 1 (by norm_num) hgrid es hle
    (by rw [r9]; exact hpen) r m' hs'
  obtain ⟨hsel, hdefs⟩ := reported_values st
    (fun v hv => by
      rw [(l.bounds v).2.2.1]
      exact pr.depSense v (by rw [isDependent_iff, ← r8]; exact hv))
    (by rw [r8]; exact pr.nodup) (by rw [r8, r7]; exact pr.ids) (by rw [r8, r6]; exact pr.intDef) herr es hle r m' hs'
  rw [r8, r6] at hdefs
  have hviol : ∀ c σ, violation (m0.con c) σ = violation (m1.con c) σ := fun c σ => by rw [l.con]; rfl
  have hen : ∀ c, (m0.con c).enabled = (m1.con c).enabled := fun c => by rw [l.con]
  obtain ⟨σ0, hσ0⟩ := p.feasible
  obtain ⟨τ, hτ, hτO, -⟩ := pr.complete σ0 hσ0
  have hin := p.listed
  -- values in range are admissible
  have adm : ∀ ρ : ℕ → ℤ, InRange m0 ρ → ∀ σ : ℕ → ℤ, Agree m0 σ ρ → ∀ v, ¬ IsDependent m1 v →
      Admits (m1.var v) (if v ∈ O.varIds then σ v else τ v) := by
    intro ρ hρ σ hσ v hv
    have hv' := (hnd v).2 hv
    split
    · rename_i hvm
      rw [hσ v hv']
      refine ⟨fun hfx => ?_, fun hfx => ?_⟩
      · rw [hρ.fixed v hv' (Or.inr (by rw [(l.bounds v).2.2.2]; exact hfx)), l.fixed v hfx]
      · have := hρ.range v (by rw [r2, pr.varIds]; exact hvm) hv' (by rw [(l.bounds v).2.2.2]; exact hfx)
        rw [(l.bounds v).1, (l.bounds v).2.1] at this; exact this
    · exact hτ.bounds v hv
  -- enabled constraints of the prepared model hold for solutions of the user's model in range
  have down : ∀ ρ : ℕ → ℤ, InRange m0 ρ → ∀ σ : ℕ → ℤ, Agree m0 σ ρ → Solves O σ →
      (∀ c ∈ m1.conIds, (m1.con c).enabled = true → Holds (m1.con c) σ) ∧ exprValue m1.obj σ = exprValue O.obj σ := by
    intro ρ hρ σ hσ hsol
    obtain ⟨b1, b2⟩ := pr.back _ ((solves_iff hin τ hτO σ).1 hsol) (adm ρ hρ σ hσ)
    rw [exprValue_glue _ _ pr.objIn, exprValue_glue _ _ p.objIn] at b2
    refine ⟨fun c hc he => ?_, b2⟩
    have := b1.cons c hc he
    unfold Holds at this ⊢
    rw [exprValue_glue _ _ (pr.inC c hc)] at this; exact this
  -- and back for the reported values
  have up : (∀ c ∈ m1.conIds, (m1.con c).enabled = true → Holds (m1.con c) r.values) → Solves O r.values := by
    intro hh
    have hfw : FeasibleDepWith (selections i.options i.lt i.user O) m1 (fun v => if v ∈ O.varIds then r.values v else τ v) := by
      refine ⟨⟨fun v hv => adm r.values hr r.values (fun _ _ => rfl) v hv, fun d hd => ?_, fun c hc he => ?_⟩, fun s hsm => ?_⟩
      · rw [exprValue_glue _ _ (pr.inE d hd), if_pos (pr.depIds d hd)]
        exact hdefs d hd
      · have := hh c hc he
        unfold Holds at this ⊢
        rw [exprValue_glue _ _ (pr.inC c hc)]; exact this
      · obtain ⟨v, hv, h1, h2⟩ := hsel s hsm
        rw [l.con] at hv h2
        have hin' := pr.inC s (pr.selsIn s hsm)
        refine ⟨v, hv, ?_, fun u hu huv => ?_⟩ <;> dsimp only
        · rw [if_pos (hin' v hv)]; exact h1
        · rw [if_pos (hin' u hu)]; exact h2 u hu huv
    exact (solves_iff hin τ hτO r.values).2 (pr.sound _ hfw)
  have hint : ∀ c ∈ m1.conIds, ∀ σ, violation (m1.con c) σ ≤ 1e-5 → Holds (m1.con c) σ := fun c hc σ hv =>
    C68.holds_of_small _ _ (pr.int c hc).2 (pr.int c hc).1 hv
  have flag : r.feasible = true ↔ Solves O r.values := by
    rw [hcons.feasible]
    constructor
    · intro hv
      refine up fun c hc he => hint c hc _ ?_
      have := hv c (by rw [r1]; exact hc) (by rw [hen]; exact he)
      rw [hviol] at this
      exact this.le
    · intro hsol c hc he
      have := (down _ hr _ (fun _ _ => rfl) hsol).1 c (by rw [← r1]; exact hc) (by rw [← hen]; exact he)
      rw [hviol, (C68.holds_iff_violation _ _).1 this]; norm_num
  have hobj : ∀ σ, exprValue m1.obj σ = exprValue O.obj σ → minObjective m0 σ = minObjective O σ := by
    intro σ h
    unfold minObjective
    rw [r3, r4, r5, pr.isMin, pr.objDefined, h]
  refine ⟨flag, fun hfl hd => ?_, fun q' hq' σ hσ hsol => ?_⟩
  · rw [hcons.objective (by rw [r5, pr.objDefined]; exact hd), r3]
    exact (down _ hr _ (fun _ _ => rfl) (flag.1 hfl)).2
  · -- the visited assignment is in range
    have hrq : InRange m0 q'.1 := by
      obtain ⟨s, h1, -⟩ := Option.bind_eq_some_iff.1 hs'
      obtain ⟨calls, -, hF⟩ := C66.history st herr es s hle h1
      obtain ⟨a, -, ha⟩ := C66.forall₂_right hF q' hq'
      exact ha.range
    obtain ⟨dn1, dn2⟩ := down q'.1 hrq σ hσ hsol
    have hz : totalViolation m0 q'.1 ≤ 1e-5 := by
      rw [totalViolation_agree m0 st.noDep q'.1 σ (Agree.symm hσ)]
      have : totalViolation m0 σ = 0 := by
        unfold totalViolation enabledCons
        refine List.sum_eq_zero fun x hx => ?_
        obtain ⟨c, hc, rfl⟩ := List.mem_map.1 hx
        obtain ⟨hc1, he⟩ := List.mem_filter.1 hc
        obtain ⟨j, hj, rfl⟩ := List.mem_map.1 hc1
        rw [hviol]
        exact (C68.holds_iff_violation _ _).1 (dn1 j (by rw [← r1]; exact hj) (by rw [← hen]; exact he))
      rw [this]; norm_num
    obtain ⟨b1, b2⟩ := hbest ⟨q', hq', hz⟩
    rw [totalViolation_agree m0 st.noDep q.1 r.values (Agree.symm hag)] at b1
    have hsolr : Solves O r.values := by
      refine up fun c hc he => hint c hc _ (le_trans ?_ b1)
      rw [← hviol]
      unfold totalViolation enabledCons
      refine List.single_le_sum (fun x hx => ?_) _ (List.mem_map.2 ⟨m0.con c, List.mem_filter.2 ⟨List.mem_map.2
        ⟨c, by rw [r1]; exact hc, rfl⟩, by rw [hen]; exact he⟩, rfl⟩)
      obtain ⟨d, -, rfl⟩ := List.mem_map.1 hx
      exact C68.violation_nonneg _ _
    refine ⟨hsolr, ?_⟩
    have := b2 q' hq' hz
    rw [minObjective_agree m0 st.noDep q.1 r.values (Agree.symm hag), minObjective_agree m0 st.noDep q'.1 σ (Agree.symm hσ),
      hobj σ dn2, hobj r.values (down _ hr _ (fun _ _ => rfl) hsolr).2] at this
    exact this

/-! ### A call meeting the conditions: minimise `- x0 - x1 - x3 + 2 x4` under `x0 = x1 + x2`, `x3 + x4 + x5 = 1`,
`x0 + x1 + 5 x3 ≤ 15`, with `x0`, `x1`, `x2` in `[0,10]` and the others 0/1.  The preparation defines `x0` as `x1 + x2`,
so that the last constraint becomes `2 x1 + 5 x3 + x2 ≤ 15`, adds `x1 + x2 ≤ 10` and makes the second constraint a
selection. -/

private def int10 : Var := { Example.int5 with ub := 10 }
private def kinds : ℕ → VarSense := fun v => if v < 3 then .integer else .binary
private def ex : MState := { Example.raw with
  var := fun v => if v < 3 then int10 else Example.bin0
  varIds := [0, 1, 2, 3, 4, 5]
  con := fun c => if c = 0 then Con.setup ⟨[(0, 1), (1, -1), (2, -1)], 0, 0⟩ .equal kinds
    else if c = 1 then Con.setup ⟨[(3, 1), (4, 1), (5, 1)], -1, 0⟩ .equal kinds
    else Con.setup ⟨[(0, 1), (1, 1), (3, 5)], -15, 0⟩ .less kinds
  conIds := [0, 1, 2]
  obj := ⟨[(0, -1), (1, -1), (3, -1), (4, 2)], 0, 0⟩ }
private def opts : Options := { exclusiveOr := false, duplicates := false }
private def lt' : ℕ → ℕ → Bool := fun a b => decide (a < b)
private def inp : Input := ⟨opts, lt', fun _ => false, true, 100, []⟩
private def e0 : MState := (started inp ex).getD ex
private def step1 (v : ℕ) (x : ℤ) : Move := { alterations := [(v, x)], related := [2, 3], isUnivariable := true }
private def swap : Move := { alterations := [(3, 0), (5, 1)], sense := .selection, related := [2, 3], isSelection := true }
private def events : List Event := [.move (step1 1 4) false, .move (step1 2 2) true, .penalties (fun _ => 3) (fun _ => 4),
  .move swap false, .move (step1 1 6) false]

private theorem ex_var (v : ℕ) : ex.var v = int10 ∨ ex.var v = Example.bin0 := by
  by_cases h : v < 3
  · exact Or.inl (if_pos h)
  · exact Or.inr (if_neg h)

private def getOk (r : Option (Outcome MState)) : MState := match r with
  | some (.ok m) => m
  | _ => ex

private theorem getOk_eq {r : Option (Outcome MState)} {m : MState} (h : r = some (.ok m)) : m = getOk r := by
  rw [h]; rfl

private def isOk (r : Option (Outcome MState)) : Bool := match r with
  | some (.ok _) => true
  | _ => false

/-- the model before the first round, and what one round makes of a model -/
private def start : MState := structured (getOk (presolveStage opts lt' (structured ex)))
private def next (m : MState) : MState :=
  let m1 := (extract (fun v => (m.var v).sense) (keyOf lt' m) (dependentCandidates opts lt' m) (fresh m.conIds)
    (fresh m.uexprIds) m).getD ex
  let m2 := (eliminateLoop (eliminationOrder m1) 4 m1).getD ex
  structured (getOk (reduceProblemSize (structured m2)))

private theorem next_eq (m m1 m2 m3 : MState)
    (h1 : extract (fun v => (m.var v).sense) (keyOf lt' m) (dependentCandidates opts lt' m) (fresh m.conIds)
      (fresh m.uexprIds) m = some m1)
    (h2 : eliminateLoop (eliminationOrder m1) 4 m1 = some m2)
    (h3 : reduceProblemSize (structured m2) = some (.ok m3)) : structured m3 = next m := by
  unfold next
  rw [h1]
  dsimp only [Option.getD_some]
  rw [h2]
  dsimp only [Option.getD_some]
  rw [h3]; rfl

private theorem few_candidates (m : MState) (h : (chosen m (keyOf lt' m) (dependentCandidates opts lt' m)).length ≤ 1) :
    NoCycle m (keyOf lt' m) (chosen m (keyOf lt' m) (dependentCandidates opts lt' m)) := by
  refine ⟨fun _ => 0, fun c hc w _ hne hw => ?_⟩
  generalize chosen m (keyOf lt' m) (dependentCandidates opts lt' m) = l at h hc hw
  match l, h with
  | [a], _ =>
    rw [List.mem_singleton] at hc
    subst hc
    simp at hw; exact absurd hw hne

private theorem ex_ordinary : OrdinaryDep inp.options inp.lt ex := by
  have key : ∀ c ∈ ex.conIds, ∀ t ∈ (ex.con c).expr.terms, t.2 = 1 ∨ t.2 = -1 ∨ t.2 = 5 := by decide +kernel
  have key2 : ∀ c ∈ ex.conIds, (ex.con c).expr.const = 0 ∨ (ex.con c).expr.const = -1 ∨ (ex.con c).expr.const = -15 := by
    decide +kernel
  have hadm : ∀ z : ℤ, 0 ≤ z → z ≤ 1 → ∀ v, Admits (ex.var v) z := by
    intro z h1 h2 v
    rcases ex_var v with h | h <;> rw [h]
    · exact ⟨fun h => absurd h (by decide), fun _ => ⟨h1, by show z ≤ 10; omega⟩⟩
    · exact ⟨fun h => absurd h (by decide), fun _ => ⟨h1, h2⟩⟩
  refine ⟨⟨rfl, ⟨by decide, by decide, by decide, by decide, fun v => rfl, by decide +kernel, by decide +kernel,
    by decide +kernel, ?_, fun v _ => ?_, by decide +kernel, by decide +kernel, fun _ => by decide +kernel,
    fun _ => by decide +kernel, Or.inl (by decide)⟩, rfl, by decide +kernel, fun i => List.nodup_nil, ?_, fun _ m1 e => ?_,
    Or.inr ?_⟩, rfl, rfl, ?_, by decide +kernel, fun v => ?_, by decide +kernel, by decide +kernel⟩
  · intro c hc t ht
    rcases key c hc t ht with h | h | h
    · exact ⟨by rw [h]; norm_num, 1, by rw [h]; rfl⟩
    · exact ⟨by rw [h]; norm_num, -1, by rw [h]; norm_num⟩
    · exact ⟨by rw [h]; norm_num, 5, by rw [h]; norm_num⟩
  · rcases ex_var v with h | h <;> rw [h] <;> decide
  · refine ⟨fun v => if v = 4 then 1 else 0, fun v => ?_, by decide +kernel⟩
    dsimp only
    split
    · exact hadm 1 (by decide) (by decide) v
    · exact hadm 0 (by decide) (by decide) v
  · have hs : structured m1 = start := by rw [getOk_eq e]; rfl
    have hl : m1.varIds.length + 1 = 7 := by rw [getOk_eq e]; decide +kernel
    rw [hs, hl]
    refine ⟨few_candidates _ (by decide +kernel), fun a b c h1 _ h2 h3 => ?_⟩
    rw [next_eq _ a b c h1 h2 h3]
    refine ⟨few_candidates _ (by decide +kernel), fun a b c _ h4 _ _ => ?_⟩
    exact absurd (show chosen (next start) (keyOf lt' (next start))
      (dependentCandidates opts lt' (next start)) = [] by decide +kernel) h4
  · intro m1 m2 e1 e2
    rw [getOk_eq e1] at e2
    rw [getOk_eq e2]
    exact ⟨2, by decide +kernel, by decide +kernel⟩
  · intro c hc
    rcases key2 c hc with h | h | h
    · exact ⟨0, by rw [h]; rfl⟩
    · exact ⟨-1, by rw [h]; rfl⟩
    · exact ⟨-15, by rw [h]; rfl⟩
  · rcases ex_var v with h | h <;> rw [h] <;> decide

private theorem ex_started : started inp ex = some e0 := by
  have h : (started inp ex).isSome = true := by decide +kernel
  obtain ⟨m, hm⟩ := Option.isSome_iff_exists.1 h
  unfold e0
  rw [hm]; rfl

private theorem in23 : ∀ c ∈ e0.conIds, (e0.con c).enabled = true → c ∈ [2, 3] := by decide +kernel
private theorem covers (alts) : Covers e0 alts [2, 3] :=
  ⟨List.Nodup.filter _ (by decide), by decide +kernel, fun c hc he _ => in23 c hc he⟩

/-- All conditions are met. -/
example : OrdinaryDep inp.options inp.lt ex ∧ 0 ≤ inp.pen ∧
    (∀ m1, prepare inp.options inp.lt inp.user ex = some (.ok m1) → ofType inp.lt m1 .gf2 = []) ∧
    started inp ex = some e0 ∧ e0.dependents = [(0, 0)] ∧ (e0.uexpr 0).expr.terms = [(1, 1), (2, 1)] ∧
    selections inp.options inp.lt inp.user ex = [1] ∧
    (∀ ev ∈ events, C66.LegalEvent (Whole.cfg inp true (fun _ => [2, 3]) ex) e0 ev) := by
  refine ⟨ex_ordinary, by decide +kernel, fun m1 h => ?_,
    ex_started, by decide +kernel, by decide +kernel, by decide +kernel, fun ev hev => ?_⟩
  · have k : (match prepare inp.options inp.lt inp.user ex with
      | some (.ok m) => (ofType inp.lt m .gf2).isEmpty
      | _ => true) = true := by decide +kernel
    rw [h] at k
    exact List.isEmpty_iff.1 k
  · simp only [events, List.mem_cons, List.not_mem_nil, or_false] at hev
    rcases hev with rfl | rfl | rfl | rfl | rfl
    · exact ⟨by decide, by decide +kernel, covers _, fun _ => ⟨1, 4, rfl⟩, fun h => absurd h (by decide)⟩
    · exact ⟨by decide, by decide +kernel, covers _, fun _ => ⟨2, 2, rfl⟩, fun h => absurd h (by decide)⟩
    · intro c; norm_num
    · exact ⟨by decide, by decide +kernel, covers _, fun h => absurd h (by decide), fun _ _ => ⟨3, 5, 0, 1, rfl,
        by decide, by decide +kernel, fun c hc he _ => in23 c hc he⟩⟩
    · exact ⟨by decide, by decide +kernel, covers _, fun _ => ⟨1, 6, rfl⟩, fun h => absurd h (by decide)⟩

/-- The last assignment visited is the best solution of the user's model among those visited; it is reported, with `x0 = x1 + x2` restored. -/
example : (C66.all e0 events).map (fun q => [1, 2, 3, 4, 5].map q.1) =
    [[0, 0, 1, 0, 0], [4, 0, 1, 0, 0], [4, 2, 1, 0, 0], [4, 2, 0, 0, 1], [6, 2, 0, 0, 1]] := by decide +kernel
example : (Whole.solve inp true (fun _ => [2, 3]) ex events).map
    (fun p => ([0, 1, 2, 3, 4, 5].map p.1.values, p.1.objective, p.1.feasible)) =
      some ([8, 6, 2, 0, 0, 1], -14, true) := by
  decide +kernel

/-! ### The condition on the exclusive "or" pairs is needed -/

private def stale : MState := { Example.raw with
  var := fun v => if v = 0 then { Example.bin0 with value := 1 } else Example.bin0
  varIds := [0, 1, 2]
  con := fun c => if c = 0 then Con.setup ⟨[(0, 1), (1, 1)], -1, 0⟩ .equal (fun _ => .binary)
    else Con.setup ⟨[(0, -1), (1, 1), (2, 1)], -1, 0⟩ .less (fun _ => .binary)
  conIds := [0, 1]
  obj := ⟨[(1, -1), (2, -1)], 0, 0⟩ }
private def sinp : Input := ⟨{}, lt', fun _ => false, true, 100, []⟩
private def s0 : MState := (started sinp stale).getD stale
private def flip (v : ℕ) (x : ℤ) : Move := { alterations := [(v, x)], related := [1], isUnivariable := true }
private def flips : List Event := [.move (flip 2 1) false, .move (flip 1 1) false]

private theorem stale_proper : Proper ({} : Options).withoutDependents stale := by
  refine ⟨by decide, by decide, by decide, by decide, fun v => ?_, by decide +kernel, by decide +kernel,
    by decide +kernel, ?_, fun v _ => ?_, by decide +kernel, by decide +kernel, fun _ => by decide +kernel,
    fun _ => by decide +kernel, Or.inl (by decide)⟩
  · rfl
  · have key : ∀ c ∈ stale.conIds, ∀ t ∈ (stale.con c).expr.terms, t.2 = 1 ∨ t.2 = -1 := by decide +kernel
    intro c hc t ht
    rcases key c hc t ht with h | h
    · exact ⟨by rw [h]; norm_num, 1, by rw [h]; rfl⟩
    · exact ⟨by rw [h]; norm_num, -1, by rw [h]; norm_num⟩
  · by_cases h : v = 0
    · rw [show stale.var v = { Example.bin0 with value := 1 } from if_pos h]; decide
    · rw [show stale.var v = Example.bin0 from if_neg h]; decide

private theorem stale_started : started sinp stale = some s0 := by
  have h : (started sinp stale).isSome = true := by decide +kernel
  obtain ⟨m, hm⟩ := Option.isSome_iff_exists.1 h
  unfold s0
  rw [hm]; rfl

/-- With the default options a call can visit a solution of the user's model and still report an infeasible one.  From
`x0 + x1 = 1` the preprocessing makes `x0 = 1 - x1`, so that `- x0 + x1 + x2 ≤ 1` becomes `2 x1 + x2 ≤ 2`; the recorded
largest coefficient stays 1.  After the move to `x2 = 1` the slack is 1, and the fast evaluation takes the next move,
`x1 = 1`, for one that cannot violate the constraint, which has slack 1 and seemingly no coefficient above 1.  That move
is recorded as a feasible solution with a better objective and replaces the solution visited before.  If exclusive "or"
pairs are not replaced the theorem above excludes this. -/
theorem stale_margin_loses_feasible_solution : ∃ (i : Input) (O m0 : MState) (selRel : ℕ → List ℕ) (es : List Event)
    (r : Named) (m' : MState), i.options = {} ∧ Proper i.options.withoutDependents O ∧ started i O = some m0 ∧
    (∀ ev ∈ es, C66.LegalEvent (Whole.cfg i true selRel O) m0 ev) ∧
    Whole.solve i true selRel O es = some (r, m') ∧ r.feasible = false ∧ ¬ Solves O r.values ∧
    ∃ q ∈ C66.all m0 es, Solves O q.1 := by
  have hev : ((Whole.solve sinp true (fun _ => [1]) stale flips).map
      (fun p => ([0, 1, 2].map p.1.values, p.1.objective, p.1.feasible))) = some ([0, 1, 1], -2, false) := by
    decide +kernel
  obtain ⟨⟨r, m'⟩, hs, he⟩ := Option.map_eq_some_iff.1 hev
  simp only [List.map_cons, List.map_nil, Prod.mk.injEq, List.cons.injEq, and_true] at he
  obtain ⟨⟨h0, h1, h2⟩, -, hf⟩ := he
  have hin : ∀ c ∈ s0.conIds, (s0.con c).enabled = true → c ∈ [1] := by decide +kernel
  have hcov : ∀ alts, Covers s0 alts [1] := fun alts =>
    ⟨List.Nodup.filter _ (by decide), by decide +kernel, fun c hc he _ => hin c hc he⟩
  refine ⟨sinp, stale, s0, fun _ => [1], flips, r, m', rfl, stale_proper, stale_started, fun ev hev => ?_, hs, hf,
    fun h => ?_, ((C66.all s0 flips).getD 1 default), by
      rw [getD_of_lt _ _ (show 1 < (C66.all s0 flips).length by decide +kernel)]; exact List.getElem_mem _, ?_⟩
  · simp only [flips, List.mem_cons, List.not_mem_nil, or_false] at hev
    rcases hev with rfl | rfl
    · exact ⟨by decide, by decide +kernel, hcov _, fun _ => ⟨2, 1, rfl⟩, fun h => absurd h (by decide)⟩
    · exact ⟨by decide, by decide +kernel, hcov _, fun _ => ⟨1, 1, rfl⟩, fun h => absurd h (by decide)⟩
  · have k := h.2 1 (by decide) rfl
    replace k : exprValue ⟨[(0, -1), (1, 1), (2, 1)], -1, 0⟩ r.values ≤ 0 := k
    simp [exprValue, h0, h1, h2] at k
    norm_num at k
  · unfold Solves; decide +kernel

end Printemps.C82
