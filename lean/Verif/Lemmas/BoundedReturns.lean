import Verif.Lemmas.BoundedScore

/-! Lemmas about searches between which the bounds of variables shrink: every search finds a start within the bounds. -/

namespace Printemps.Ctl
open Spec Sol Search Presolve

variable {cfg : Cfg} {m0 B : MState}

/-! ### During a search -/

/-- What holds during a search, apart from the start of one. -/
structure Keen (m0 B : MState) (s : St) (q : (ℕ → ℤ) × ℕ) : Prop where
  inv : C66.Inv B 0 s q
  pen : s.cur.localPenalty = localPenalty s.model (assignment s.model)
  tidy : Tidy m0 s.holder
  loc : s.holder.localObj.isSome = true
  glo : s.holder.globalObj.isSome = true

theorem Narrow.none (g : Ground cfg m0) (n : Narrow m0 B) (v : ℕ) : v ∉ B.dependents.map Prod.fst := by
  have hd : B.dependents = [] := by rw [n.frame]; exact g.deps
  rw [hd]; simp

theorem Narrow.same (g : Ground cfg m0) (n : Narrow m0 B) {σ τ : ℕ → ℤ} (h : Agree B σ τ) : σ = τ :=
  funext fun v => h v (n.none g v)

theorem Narrow.minObjective (n : Narrow m0 B) (σ : ℕ → ℤ) : minObjective B σ = minObjective m0 σ := by
  rw [n.frame]; rfl

theorem Narrow.totalViolation (n : Narrow m0 B) (σ : ℕ → ℤ) : totalViolation B σ = totalViolation m0 σ := by
  rw [n.frame]; rfl

theorem Narrow.objDefined (n : Narrow m0 B) : B.objDefined = m0.objDefined := by rw [n.frame]
theorem Narrow.isMin (n : Narrow m0 B) : B.isMin = m0.isMin := by rw [n.frame]

/-- The export of a model with right numbers. -/
theorem fit_export {m : MState} {l gg : ℕ → ℚ} (g : Ground cfg m0) (n : Narrow m0 B) (st : Stat B l gg m) (hl : Live m) {σ : ℕ → ℤ}
    (hag : assignment m = σ) (hr : InRange B σ) : Fit m0 (exportDense m) := by
  have hv : (exportDense m).values = σ := hag
  refine ⟨by rw [hv]; exact n.inRange g hr, fun ho => ?_⟩
  have hod : m.objDefined = true := by rw [st.shape.objDefined]; exact n.objDefined.trans ho
  have hmin : m.isMin = true := by rw [st.shape.isMin]; exact n.isMin.trans g.isMin
  have e1 : (exportDense m).objective = m.objValue := rfl
  rw [e1, (hl.current.obj hod).2, ← n.minObjective, ← C66.stat_obj st, hv, hag]
  unfold Spec.minObjective
  rw [if_pos hod, if_pos hmin]

/-- Offering a solution with its right score. -/
theorem offer_tidy (hgrid : OnGrid m0 1) (hpen : 0 ≤ m0.globalPen) (n : Narrow m0 B) (h h' : Holder Dense)
    (m : MState) (sc : Score) (q : (ℕ → ℤ) × ℕ) (hi : C66.Inv B 0 ⟨m, sc, h'⟩ q)
    (hf : sc.isFeasible = true ↔ sc.totalViolation ≤ 1e-5) (ha : sc.globalAug = sc.objective + sc.totalViolation * B.globalPen)
    (hp : sc.localPenalty = localPenalty m (assignment m)) (hl : sc.localAug = sc.objective + sc.localPenalty) (t : Tidy m0 h)
    (d : Dense) (fit : Fit m0 d) (hval : d.values = q.1) :
    Tidy m0 (h.tryUpdate d sc).1 ∧ (h.tryUpdate d sc).1.localObj.isSome = true ∧ (h.tryUpdate d sc).1.globalObj.isSome = true := by
  obtain ⟨⟨l, gg, hn, st⟩, hlive, hag, hr, ho, hv⟩ := hi
  dsimp only at st hlive hag ho hv
  have htv : sc.totalViolation = Spec.totalViolation m0 q.1 := by
    rw [← n.totalViolation]
    have : |sc.totalViolation - Spec.totalViolation B q.1| ≤ 0 := by simpa using hv
    exact sub_eq_zero.1 (abs_nonpos_iff.1 this)
  have hgp : B.globalPen = m0.globalPen := by rw [n.frame]
  obtain ⟨k, hk⟩ := totalViolation_int m0 hgrid q.1
  have htv0 : 0 ≤ sc.totalViolation := by
    rw [htv, MState.totalViolation_eq]
    refine sum_nonneg' _ _ fun c _ => ?_
    split
    · exact C68.violation_nonneg _ _
    · exact le_refl _
  have hlp : 0 ≤ sc.localPenalty := by
    rw [hp]
    refine localPenalty_nonneg m (fun c _ => ?_) _
    rw [st.shape.penLess, st.shape.penGreater]; exact hn c
  refine t.offer d sc fit (by rw [hval, ho, n.minObjective]) (by rw [hl]; linarith)
    (by rw [ha, hgp]; have := mul_nonneg htv0 hpen; linarith) (fun hfe => ?_)
  have h1 := hf.1 hfe
  have h2 : sc.totalViolation = 0 := by
    rw [htv, hk] at h1 htv0 ⊢
    have a1 : (0 : ℤ) ≤ k := by exact_mod_cast htv0
    have a2 : k < 1 := by
      by_contra hc
      have : (1 : ℤ) ≤ k := by omega
      have : (1 : ℚ) ≤ k := by exact_mod_cast this
      norm_num at h1; linarith
    have : k = 0 := by omega
    rw [this]; rfl
  rw [ha, h2]; ring

theorem offer_keen (g : Ground cfg m0) (hgrid : OnGrid m0 1) (hpen : 0 ≤ m0.globalPen) (n : Narrow m0 B) (h : Holder Dense)
    (m : MState) (sc : Score) (q : (ℕ → ℤ) × ℕ) (hi : C66.Inv B 0 ⟨m, sc, h⟩ q)
    (hf : sc.isFeasible = true ↔ sc.totalViolation ≤ 1e-5) (ha : sc.globalAug = sc.objective + sc.totalViolation * B.globalPen)
    (hp : sc.localPenalty = localPenalty m (assignment m)) (hl : sc.localAug = sc.objective + sc.localPenalty) (t : Tidy m0 h) :
    Keen m0 B (Search.offer h m sc) q := by
  have hs := n.setting g
  obtain ⟨o1, -⟩ := C66.offer_inv hs.noDep h sc q hi hf ha
  have hi' := hi
  obtain ⟨⟨l, gg, hn, st⟩, hlive, hag, hr, ho, hv⟩ := hi
  dsimp only at st hlive hag ho hv
  obtain ⟨e1, -, e3⟩ := C11.model_overload_agrees refresh exportDense h m sc
  have e1 : (Search.offer h m sc).holder = (h.tryUpdate (exportDense (refresh m)) sc).1 := e1
  have hm : (Search.offer h m sc).model = m ∨ (Search.offer h m sc).model = refresh m := by
    show (h.tryUpdateModel refresh exportDense m sc).2.1 = _ ∨ (h.tryUpdateModel refresh exportDense m sc).2.1 = _
    rw [e3]; split <;> simp
  have hrl := refresh_live m (hs.noDep.of_stat st) hlive
  have hra : assignment (refresh m) = q.1 := n.same g (Agree.trans (refresh_agree st) hag)
  have hma : assignment m = q.1 := n.same g hag
  obtain ⟨t1, t2, t3⟩ := offer_tidy hgrid hpen n h h m sc q hi' hf ha hp hl t (exportDense (refresh m))
    (fit_export g n st.refresh hrl hra hr) hra
  refine ⟨o1, ?_, by rw [e1]; exact t1, by rw [e1]; exact t2, by rw [e1]; exact t3⟩
  have ec : (Search.offer h m sc).cur = sc := rfl
  rw [ec, hp]
  rcases hm with hm | hm
  · rw [hm]
  · rw [hm, hra, hma, st.refresh.shape.localPenalty, st.shape.localPenalty]

/-- A score computed from scratch. -/
theorem full_keen (g : Ground cfg m0) (hgrid : OnGrid m0 1) (hpen : 0 ≤ m0.globalPen) (n : Narrow m0 B) (h : Holder Dense) {m : MState}
    {l gg : ℕ → ℚ} (hn : ∀ c, 0 ≤ l c ∧ 0 ≤ gg c) (st : Stat B l gg m) (hl : Live m) (σ : ℕ → ℤ) (hag : Agree B (assignment m) σ)
    (hr : InRange B σ) (t : Tidy m0 h) : Keen m0 B (Search.offer h m (m.evaluateFull { alterations := [] })) (σ, 0) := by
  have hs := n.setting g
  obtain ⟨i1, i2, i3⟩ := C66.full_inv (e := 0) hs.wf hs.noDep h hn st hl σ hag hr
  have hwm : WellFormed m := st.shape.wellFormed ⟨hs.wf.conIds, hs.wf.con, hs.wf.obj, hs.wf.uexpr⟩
  have hfull := C06.full_score_describes_moved_assignment m { alterations := [] } hwm hl.current (by simp)
  dsimp only [applyMove] at hfull
  exact offer_keen g hgrid hpen n h m _ _ i1 i2 i3 hfull.2.2.1 (by rw [hfull.2.2.2.2.1, hfull.1, hfull.2.2.1]) t

theorem grid_stat {m : MState} {l gg : ℕ → ℚ} (hgrid : OnGrid m0 1) (n : Narrow m0 B) (st : Stat B l gg m) : OnGrid m 1 := by
  have key : ∀ w : ℕ → Var, Stat { m0 with var := w } l gg m → OnGrid m 1 := by
    intro w st
    refine ⟨fun c hc he => ?_, fun c hc he t ht => ?_⟩
    · rw [st.shape.conIds] at hc; rw [st.shape.conEnabled] at he; rw [st.shape.conConst]; exact hgrid.const c hc he
    · rw [st.shape.conIds] at hc; rw [st.shape.conEnabled] at he; rw [st.shape.conTerms] at ht; exact hgrid.coef c hc he t ht
  exact key B.var (by rw [← n.frame]; exact st)

/-- Moves and relaxations never fail, and keep what holds during a search. -/
theorem run_keen (g : Ground cfg m0) (hgrid : OnGrid m0 1) (hpen : 0 ≤ m0.globalPen) (n : Narrow m0 B) (es : List Event) :
    ∀ (s : St) (q : (ℕ → ℤ) × ℕ), Keen m0 B s q → (∀ ev ∈ es, C66.LegalEvent cfg B ev) →
      (∀ ev ∈ es, (∃ mv r, ev = .move mv r) ∨ ∃ low, ev = .relax low) → ∃ s' q', run cfg es s = some s' ∧ Keen m0 B s' q' := by
  have hs := n.setting g
  induction es with
  | nil => intro s q k _ _; exact ⟨s, q, rfl, k⟩
  | cons ev es ih =>
    intro s q k hle hk
    have hstep : ∃ s1 q1, step cfg s ev = some s1 ∧ Keen m0 B s1 q1 := by
      obtain ⟨⟨l, gg, hn, st⟩, hl, hag, hr, ho, hv⟩ := k.inv
      rcases hk ev (by simp) with ⟨mv, ren, rfl⟩ | ⟨low, rfl⟩
      · have hm : C66.Legal cfg B mv := hle (.move mv ren) (by simp)
        refine ⟨_, (applyMove q.1 mv.alterations, q.2 + 1), rfl, ?_⟩
        obtain ⟨i1, i2, i3⟩ := C66.move_inv hs (err_narrow n (Or.inr ⟨rfl, 1, by norm_num, hgrid⟩)) s q k.inv mv ren hm s.holder
        have hu := C66.usable hs st hn hl q.1 hag hr mv hm
        have htv : s.cur.totalViolation = totalViolation s.model (assignment s.model) := by
          rw [C66.stat_tv st, totalViolation_agree B hs.noDep _ _ hag]
          have : |s.cur.totalViolation - totalViolation B q.1| ≤ 0 := by simpa using hv
          exact sub_eq_zero.1 (abs_nonpos_iff.1 this)
        obtain ⟨a1, a2⟩ := accepted_penalty cfg s.model mv ren s.cur ⟨1, by norm_num, grid_stat hgrid n st⟩ hu htv k.pen
        refine offer_keen g hgrid hpen n s.holder _ _ _ i1 i2 i3 ?_ a2 k.tidy
        rw [a1]
        have hgood : GoodMove s.model mv.alterations :=
          ⟨hm.distinct, fun a ha => by rw [C66.stat_fixed st]; exact (hm.listed a ha).2.2.1⟩
        obtain ⟨sel, hsel⟩ := afterMove_eq s.model mv
        have st2 := (st.updateMove mv).withVars (s.model.updateMove mv).var sel (fun _ => rfl) (fun _ => rfl) (fun _ => rfl) (fun _ => rfl)
        have has : assignment (afterMove s.model mv) = applyMove (assignment s.model) mv.alterations := by
          rw [hsel]; exact MState.updateMove_assignment s.model mv hgood
        rw [has, hsel, st2.shape.localPenalty, st.shape.localPenalty]
      · obtain ⟨st1, ag1, r1⟩ := C66.relax_facts hs st low q.1 hag hr
        exact ⟨_, _, rfl, full_keen g hgrid hpen n s.holder hn st1.update (update_live _ (hs.noDep.of_stat st1).uexpr) _
          (Agree.trans (update_agree st1) ag1) r1 k.tidy⟩
    obtain ⟨s1, q1, h1, k1⟩ := hstep
    obtain ⟨s', q', h2, k2⟩ := ih s1 q1 k1 (fun e he => hle e (by simp [he])) (fun e he => hk e (by simp [he]))
    exact ⟨s', q', by unfold run; rw [h1]; exact h2, k2⟩

/-! ### The start of a search -/

theorem Narrow.good (g : Ground cfg m0) (n : Narrow m0 B) {σ : ℕ → ℤ} (hσ : InRange B σ) : C66.Good cfg B σ := by
  have hvi : B.varIds = m0.varIds := by rw [n.frame]
  have hp : ∀ v ∈ B.varIds, ((B.var v).sense = .binary → σ v = 0 ∨ σ v = 1) ∧
      ((B.var v).sense = .integer → (B.var v).lb ≤ σ v ∧ σ v ≤ (B.var v).ub) := by
    intro v hv
    rw [hvi] at hv
    cases hf : (B.var v).fixed
    · obtain ⟨h1, h2⟩ := hσ.range v (by rw [hvi]; exact hv) (n.none g v) hf
      refine ⟨fun hb => ?_, fun _ => ⟨h1, h2⟩⟩
      rcases (n.sort v hv).2 with k | k
      · omega
      · rw [hb] at k; exact absurd k (by decide)
    · rw [hσ.fixed v (n.none g v) (Or.inr hf)]
      exact n.passes v hv hf
  refine ⟨fun s hs => ?_, fun v hv => (hp v hv).1, fun v hv => (hp v hv).2⟩
  rw [g.sels] at hs; exact absurd hs (by simp)

/-- A start whose values are within the bounds is accepted. -/
theorem start_keen {l gg : ℕ → ℚ} {name : ℕ → String} {cur : Sparse} {s : St} (g : Ground cfg m0) (hgrid : OnGrid m0 1)
    (hpen : 0 ≤ m0.globalPen) (n : Narrow m0 B) (hn : ∀ c, 0 ≤ l c ∧ 0 ≤ gg c) (st : Stat B l gg s.model) (fx : Fixes B s.model)
    (t : Tidy m0 s.holder) (σ : ℕ → ℤ) (hget : ∀ v ∈ m0.varIds, (cur.entries.get (name v)).getD 0 = σ v) (hσ : InRange B σ) :
    ∃ d s1 q, startFrom name cfg cur s = some (d, s1) ∧ Keen m0 B s1 q := by
  have hs := n.setting g
  have hvi : B.varIds = m0.varIds := by rw [n.frame]
  have hsv : s.model.varIds = m0.varIds := st.varIds.trans hvi
  have hgood := n.good g hσ
  have hass := assignAll_eq name cur.entries s.model.varIds (C66.stat_ready st hs.ready).varNodup s.model (fun v hv hf => by
    rw [C66.stat_fixed st] at hf
    rw [hget v (by rw [← hsv]; exact hv), fx v (Or.inr hf), hσ.fixed v (n.none g v) (Or.inr hf)])
  obtain ⟨w, hw⟩ : ∃ w : ℕ → Var, w = fun v => if v ∈ s.model.varIds then
      ({ s.model.var v with value := (cur.entries.get (name v)).getD 0 } : Var).updateMargin else s.model.var v := ⟨_, rfl⟩
  rw [← hw] at hass
  have hwv : ∀ v, (w v).fixed = (s.model.var v).fixed ∧ (w v).lb = (s.model.var v).lb ∧ (w v).ub = (s.model.var v).ub ∧
      (w v).sense = (s.model.var v).sense ∧ (w v).value = σ v := by
    intro v
    rw [hw]
    dsimp only
    split
    · next hv => exact ⟨rfl, rfl, rfl, rfl, hget v (by rw [← hsv]; exact hv)⟩
    · next hv =>
      have hv' : v ∉ B.varIds := by rw [hvi, ← hsv]; exact hv
      exact ⟨rfl, rfl, rfl, rfl, (fx v (Or.inl hv')).trans (hσ.fixed v (n.none g v) (Or.inl hv')).symm⟩
  have st2 : Stat B l gg { s.model with var := w } :=
    st.withVars w s.model.selected (fun v => (hwv v).1) (fun v => (hwv v).2.1) (fun v => (hwv v).2.2.1) (fun v => (hwv v).2.2.2.1)
  obtain ⟨m1, h1, h1v⟩ := C51.good_values_are_accepted false cfg.sels _ (C66.stat_ready st2 hs.ready)
    (fun a ha => by rw [g.sels] at ha; exact absurd ha (by simp))
    (fun v hv hb => by
      rw [st2.varIds] at hv; rw [st2.sense] at hb
      show (w v).value = 0 ∨ (w v).value = 1
      rw [(hwv v).2.2.2.2]; exact hgood.binary v hv hb)
    (fun v hv hb => by
      rw [st2.varIds] at hv; rw [st2.sense] at hb; rw [st2.lb, st2.ub]
      show (B.var v).lb ≤ (w v).value ∧ (w v).value ≤ (B.var v).ub
      rw [(hwv v).2.2.2.2]; exact hgood.integer v hv hb)
  have himp : importSparse name cfg.sels cur s.model = some m1 := by
    unfold importSparse; rw [hass]; exact h1
  obtain ⟨st1, fx1⟩ := import_by_name hs st fx himp
  have hval : ∀ v, (m1.var v).value = σ v := fun v => by rw [h1v]; exact (hwv v).2.2.2.2
  have hvis : visit B σ (.start (exportDense m1).values) = σ := by
    funext v
    show (if v ∈ B.varIds ∧ (B.var v).fixed = false then (m1.var v).value else assignment B v) = σ v
    split
    · exact hval v
    · next hc =>
      refine (hσ.fixed v (n.none g v) ?_).symm
      by_cases hm : v ∈ B.varIds
      · right
        cases hf : (B.var v).fixed
        · exact absurd ⟨hm, hf⟩ hc
        · rfl
      · exact Or.inl hm
  have hag : Agree B (assignment m1) σ := fun v _ => hval v
  obtain ⟨m2, h2⟩ := C66.import_accepts hs st1 (exportDense m1) (fun v hv => absurd hv (n.none g v)) σ hag hσ (by rw [hvis]; exact hgood)
  obtain ⟨st3, ag, rg, -⟩ := C66.import_still hs st1 (exportDense m1) h2 σ (fun v _ hf => fx1 v hf)
  refine ⟨exportDense m1, _, _, ?_, full_keen g hgrid hpen n s.holder.resetLocal hn st3.update
    (update_live m2 (hs.noDep.of_stat st3).uexpr) _ (Agree.trans (update_agree st3) ag) rg t.resetLocal⟩
  unfold startFrom
  rw [himp, Option.bind_some]
  unfold step
  dsimp only
  rw [h2]
  rfl

/-! ### Objective values -/

/-- The objective values of two assignments differ by an integer. -/
theorem Ground.apart (g : Ground cfg m0) (σ τ : ℕ → ℤ) : ∃ k : ℤ, minObjective m0 σ - minObjective m0 τ = k := by
  have key : ∀ ts : List (ℕ × ℚ), (∀ t ∈ ts, ∃ k : ℤ, t.2 = k) → ∀ ρ : ℕ → ℤ, ∃ k : ℤ, (ts.map (fun t => t.2 * (ρ t.1 : ℚ))).sum = k := by
    intro ts
    induction ts with
    | nil => intro _ ρ; exact ⟨0, by simp⟩
    | cons t ts ih =>
      intro h ρ
      obtain ⟨a, ha⟩ := h t (by simp)
      obtain ⟨b, hb⟩ := ih (fun t ht => h t (by simp [ht])) ρ
      refine ⟨a * ρ t.1 + b, ?_⟩
      rw [List.map_cons, List.sum_cons, ha, hb]; push_cast; ring
  obtain ⟨a, ha⟩ := key _ g.objIntegral σ
  obtain ⟨b, hb⟩ := key _ g.objIntegral τ
  refine ⟨if m0.objDefined = true then a - b else 0, ?_⟩
  unfold minObjective
  split
  · rw [if_pos g.isMin, if_pos g.isMin]
    unfold exprValue
    rw [ha, hb]; push_cast; ring
  · simp

theorem Ground.close (g : Ground cfg m0) (σ τ : ℕ → ℤ) (h : minObjective m0 σ ≤ minObjective m0 τ + 1e-5) :
    minObjective m0 σ ≤ minObjective m0 τ := by
  obtain ⟨k, hk⟩ := g.apart σ τ
  have h1 : (k : ℚ) < 1 := by
    have : (k : ℚ) ≤ 1e-5 := by rw [← hk]; linarith
    refine lt_of_le_of_lt this (by norm_num)
  have h2 : k ≤ 0 := by
    have : k < 1 := by exact_mod_cast h1
    omega
  have h3 : (k : ℚ) ≤ 0 := by exact_mod_cast h2
  linarith

/-! ### Laps -/

/-- A solution given by names has values within the bounds, and its objective is right. -/
def StartOk (m0 B : MState) (name : ℕ → String) (cur : Sparse) : Prop :=
  ∃ σ, (∀ v ∈ m0.varIds, (cur.entries.get (name v)).getD 0 = σ v) ∧ (m0.objDefined = true → cur.objective = minObjective m0 σ) ∧ InRange B σ

theorem StartOk.ofDense {name : ℕ → String} (hname : C48.Distinct name m0) {d : Dense} (f : Fit m0 d) (hr : InRange B d.values) :
    StartOk m0 B name (d.toSparse name m0.varIds) := by
  refine ⟨d.values, fun v hv => ?_, f.objective, hr⟩
  show ((sparseVars name d.values m0.varIds).get (name v)).getD 0 = _
  rw [(sparseVars_get name d.values m0.varIds hname).1 v hv]
  split
  · rfl
  · rename_i h0; simpa using (not_not.1 h0).symm

/-- The state between two searches, with the start of the next one. -/
structure Sound (m0 B : MState) (name : ℕ → String) (cur : Sparse) (x : Sofar) : Prop where
  held : Held m0 B 0 x
  tidy : Tidy m0 x.st.holder
  glo : x.st.holder.globalObj.isSome = true
  start : StartOk m0 B name cur

/-- What the rules of the mode "smart" guarantee. -/
theorem flags_safe (o : Opt) (ho : o.mode = .smart) (outer inner : Bool) (f : Facts) :
    let fl := withReset o outer inner (match o.mode with | .simple => flagsSimple f | .smart => flagsSmart f)
    fl.useGlobal = true ∨ (f.gapSmall = false ∧ fl.useLocal = true) ∨
      (f.gapSmall = false ∧ fl.useLocal = false ∧ fl.usePrevious = true ∧ f.improved = false) := by
  dsimp only
  rw [ho]
  obtain ⟨a1, a2, a3, a4, a5, a6, a7⟩ := f
  have key : ∀ b : Bool, ∀ a1 a2 a3 a4 a5 a6 a7 outer inner : Bool,
      let fs := flagsSmart ⟨a1, a2, a3, a4, a5, a6, a7⟩
      let fl := if (b && fs.tighten) = true then
        (if (outer && inner) = true then { fs with reset := true, useGlobal := true, forced := true } else fs) else fs
      fl.useGlobal = true ∨ (a4 = false ∧ fl.useLocal = true) ∨ (a4 = false ∧ fl.useLocal = false ∧ fl.usePrevious = true ∧ a7 = false) := by
    decide
  exact key o.innerBreaker a1 a2 a3 a4 a5 a6 a7 outer inner

/-- The next start is within the bounds. -/
theorem update_sound {name : ℕ → String} {o : Opt} {c : State} {h : Holder Dense} {st : ℕ} {lap : Lap} (g : Ground cfg m0)
    (hname : C48.Distinct name m0) (ho : o.mode = .smart) (t : Tidy m0 h) (hl : h.localObj.isSome = true) (hg : h.globalObj.isSome = true)
    (hin : ∀ σ, InRange m0 σ → (∀ z, h.feasObj = some z → minObjective m0 σ ≤ z) → InRange B σ) 
    (hc : ∃ σ, (∀ v ∈ m0.varIds, (c.current.entries.get (name v)).getD 0 = σ v) ∧
      (m0.objDefined = true → c.current.objective = minObjective m0 σ) ∧ InRange m0 σ) :
    ∃ fl c', update name m0.varIds o h st lap c = some (fl, c') ∧ StartOk m0 B name c'.current := by
  obtain ⟨l, hl⟩ := Option.isSome_iff_exists.1 hl
  obtain ⟨gv, hg⟩ := Option.isSome_iff_exists.1 hg
  obtain ⟨dl, sc, hdl, hsc, fl1, fl2⟩ := t.loc l hl
  obtain ⟨dg, hdg, fg1, fg2⟩ := t.glo gv hg
  have hbest : ∀ z, h.feasObj = some z → gv ≤ z + 1e-5 ∧ ∃ τ, minObjective m0 τ = z := by
    intro z hz
    obtain ⟨⟨l', e1, e2⟩, d, -, -, e3⟩ := t.feas z hz
    rw [hg] at e1
    obtain rfl := Option.some.inj e1
    exact ⟨e2, _, e3⟩
  have hG : InRange B dg.values := hin _ fg1.range fun z hz => by
    obtain ⟨h1, τ, rfl⟩ := hbest z hz
    exact g.close _ _ (by linarith)
  obtain ⟨F, hF⟩ : ∃ F : Facts, F = { globalUpdated := st.testBit 1, notUpdated := st == 0, localFeasible := sc.isFeasible, gapSmall := decide (gv - l < EPSILON), rangeSmall := decide (lap.range / max 1 |gv| < 1 / 100), found := h.found, improved := decide (dl.objective < c.current.objective) || decide (dl.totalViolation < c.current.totalViolation) } := ⟨_, rfl⟩
  have hfacts : facts h st lap.range c.current = some F := by
    unfold facts
    rw [hg, hl, hsc, hdl, hF]; rfl
  have safe := fun outer inner => flags_safe o ho outer inner F
  have hgap : F.gapSmall = false → ∀ z, h.feasObj = some z → l ≤ z := by
    intro hgf z hz
    rw [hF] at hgf
    simp only [decide_eq_false_iff_not, not_lt] at hgf
    rw [← C11.eps_eq] at hgf
    have := (hbest z hz).1
    linarith
  have himp : F.improved = false → c.current.objective ≤ dl.objective := by
    intro hi
    rw [hF] at hi
    simp only [Bool.or_eq_false_iff, decide_eq_false_iff_not, not_lt] at hi
    exact hi.1
  have hnext : ∀ outer inner : Bool, ∀ fl : Flags,
      fl = withReset o outer inner (match o.mode with | .simple => flagsSimple F | .smart => flagsSmart F) →
      ∃ d, nextSolution name m0.varIds h c.current fl = some d ∧ StartOk m0 B name d := by
    intro outer inner fl hfl
    have sf := safe outer inner
    dsimp only at sf
    rw [← hfl] at sf
    unfold nextSolution
    cases hug : fl.useGlobal
    · rw [hug] at sf
      have sf := sf.resolve_left (by simp)
      rw [if_neg (by simp)]
      rcases sf with ⟨s1, s2⟩ | ⟨s1, s2, s3, s4⟩
      · rw [s2, if_pos rfl, hdl]
        exact ⟨_, rfl, StartOk.ofDense hname fl1 (hin _ fl1.range fun z hz => fl2.trans (hgap s1 z hz))⟩
      · rw [s2, if_neg (by simp), s3, if_pos rfl]
        obtain ⟨σ, c1, c2, c3⟩ := hc
        refine ⟨_, rfl, σ, c1, c2, hin σ c3 fun z hz => ?_⟩
        cases hod : m0.objDefined
        · obtain ⟨-, τ, rfl⟩ := hbest z hz
          unfold minObjective
          rw [hod]; simp
        · rw [← c2 hod]
          refine (himp s4).trans ?_
          rw [fl1.objective hod]
          exact fl2.trans (hgap s1 z hz)
    · rw [if_pos rfl, hdg]
      exact ⟨_, rfl, StartOk.ofDense hname fg1 hG⟩
  unfold update
  rw [hfacts, Option.bind_some]
  obtain ⟨d, hd, hok⟩ := hnext (!F.found && decide ((if F.globalUpdated then 0 else c.sinceGlobal + 1) ≥ o.outerThreshold))
    ((lap.exceeded || !F.improved) && decide (c.sinceRelax > o.innerThreshold)) _ rfl
  exact ⟨_, _, Option.map_eq_some_iff.2 ⟨d, hd, rfl⟩, hok⟩

theorem Held.inRange {e : ℚ} {x : Sofar} (g : Ground cfg m0) (h : Held m0 B e x) {σ : ℕ → ℤ} (hσ : InRange B σ) : InRange m0 σ :=
  h.narrow.inRange g hσ

/-- Bounding never fails. -/
theorem Held.boundable {e : ℚ} {x : Sofar} {o : Opt} {c : State} (g : Ground cfg m0) (h : Held m0 B e x)
    (hc : c.feasNow = true → x.st.holder.found = true) : ∃ b, Ctl.bound o c x.st = some b := by
  unfold Ctl.bound Online.onlineBounding
  split
  · exact ⟨_, rfl⟩
  · next hm =>
    exfalso
    split at hm
    · next hflag =>
      have hfn : c.feasNow = true := by
        cases hq : c.feasNow
        · rw [hq] at hflag; simp at hflag
        · rfl
      obtain ⟨σ, z, hz, hσ, ho⟩ := h.best (hc hfn)
      rw [hz, Option.getD_some] at hm
      obtain ⟨l, gg, hn, st⟩ := h.stat
      obtain ⟨m', B', e', -⟩ := bounding g h.narrow st h.fixes σ hσ z ho.le
      exact hm m' e'
    · exact hm _ rfl

theorem Sound.lap {name : ℕ → String} {o : Opt} {c : State} {x : Sofar} {lap : Lap} (g : Ground cfg m0) (hgrid : OnGrid m0 1)
    (hpen : 0 ≤ m0.globalPen) (hname : C48.Distinct name m0) (ho : o.mode = .smart) (h : Sound m0 B name c.current x)
    (hc : c.feasNow = true → x.st.holder.found = true) (hom : OnlyMoves lap.body)
    (hp : ∀ i, 0 ≤ lap.less i ∧ 0 ≤ lap.greater i) (hle : (startFrom name cfg c.current x.st).isSome = true → ∀ ev ∈ lap.body, C66.LegalEvent cfg x.st.model ev) :
    ∃ r, lapStep name cfg o lap c x = some r ∧ ∃ B', Sound m0 B' name r.1.current r.2 := by
  have n := h.held.narrow
  obtain ⟨l, gg, hn, st⟩ := h.held.stat
  obtain ⟨σ, s1, s2, s3⟩ := h.start
  obtain ⟨d, s, q, e1, k1⟩ := start_keen g hgrid hpen n hn st h.held.fixes h.tidy σ s1 s3
  have hleB : ∀ ev ∈ lap.body, C66.LegalEvent cfg B ev := fun ev hev => legal_back st ev (hle (by rw [e1]; rfl) ev hev)
  obtain ⟨s', q', e2, k2⟩ := run_keen g hgrid hpen n lap.body s q k1 hleB (fun ev hev => Or.inl (hom ev hev))
  obtain ⟨t, e3⟩ := runStatus_run cfg lap.body s s' 0 e2
  have hh := h.held.search g (Or.inr ⟨rfl, 1, by norm_num, hgrid⟩) lap.body hleB (visited_moves B m0 lap.body hom) d s s' e1 e2
  have hst : x.st.holder.found = true → s.holder.found = true := by
    have h1 := e1
    unfold startFrom at h1
    obtain ⟨m, -, h6⟩ := Option.bind_eq_some_iff.1 h1
    obtain ⟨s3, h7, h8⟩ := Option.map_eq_some_iff.1 h6
    simp only [Prod.mk.injEq] at h8
    obtain ⟨-, rfl⟩ := h8
    exact (step_found (cfg := cfg) _ _ _ h7).1
  have hfound : c.feasNow = true → s'.holder.found = true := fun hf => (runStatus_back _ _ _ _ _ e3).2.1 (hst (hc hf))
  obtain ⟨b, e4⟩ := hh.boundable (o := o) (c := c) g hfound
  obtain ⟨hb, B', hB⟩ := hh.bound (o := o) (c := c) g hfound e4
  have hb : b.holder = s'.holder := hb
  have hbv : b.model.varIds = m0.varIds := by
    obtain ⟨l', g', -, st'⟩ := hB.stat
    have : B'.varIds = m0.varIds := by rw [hB.narrow.frame]
    exact st'.varIds.trans this
  obtain ⟨fl, c', e5, hok⟩ := update_sound (B := B') (st := t) (lap := lap) (c := c) (h := s'.holder) g hname ho k2.tidy k2.loc k2.glo
    (fun τ hτ hz => hB.inside τ hτ (fun z hzz => hz z (by rw [← hb]; exact hzz))) ⟨σ, s1, s2, n.inRange g s3⟩
  have hr : lapStep name cfg o lap c x = some (c', ⟨{ b with model := setPenalties b.model lap.less lap.greater },
      x.done ++ (.start d :: lap.body) ++ [.penalties lap.less lap.greater]⟩) := by
    unfold lapStep
    rw [e1, Option.bind_some]
    dsimp only
    rw [e3, Option.bind_some]
    dsimp only
    rw [e4, Option.bind_some, hbv]
    have e6 : update name m0.varIds o b.holder t lap c = some (fl, c') := by rw [hb]; exact e5
    rw [e6]
    rfl
  refine ⟨_, hr, ?_⟩
  obtain ⟨⟨B2, hB2⟩, -⟩ := h.held.lap g (Or.inr ⟨rfl, 1, by norm_num, hgrid⟩) hc hom hp hle hr
  refine ⟨B', ⟨hB.narrow, ?_, hB.fixes, hB2.calls, hB.inside⟩, (by show Tidy m0 b.holder; rw [hb]; exact k2.tidy), ?_, hok⟩
  · obtain ⟨l', g', -, st'⟩ := hB.stat
    exact ⟨lap.less, lap.greater, hp, st'.setPenalties _ _⟩
  · show b.holder.globalObj.isSome = true
    rw [hb]; exact k2.glo

theorem Sound.laps {name : ℕ → String} {o : Opt} (g : Ground cfg m0) (hgrid : OnGrid m0 1) (hpen : 0 ≤ m0.globalPen)
    (hname : C48.Distinct name m0) (ho : o.mode = .smart) (ls : List Lap) :
    ∀ (c : State) (x : Sofar) (B : MState), Sound m0 B name c.current x → (c.feasNow = true → x.st.holder.found = true) →
      LapsLegal name cfg o ls c x → ∃ x' B', Ctl.laps name cfg o ls c x = some x' ∧ ∃ cur, Sound m0 B' name cur x' := by
  induction ls with
  | nil => intro c x B h _ _; exact ⟨x, B, rfl, _, h⟩
  | cons lap ls ih =>
    intro c x B h hc hl
    obtain ⟨l1, l2, l3, l4⟩ := hl
    obtain ⟨r, e1, B', hB⟩ := h.lap g hgrid hpen hname ho hc l1 l2 l3
    obtain ⟨-, hc'⟩ := h.held.lap g (Or.inr ⟨rfl, 1, by norm_num, hgrid⟩) hc l1 l2 l3 e1
    obtain ⟨x', B2, e2, h2⟩ := ih r.1 r.2 B' hB hc' (l4 r e1)
    refine ⟨x', B2, ?_, h2⟩
    show (lapStep name cfg o lap c x).bind _ = _
    rw [e1]; exact e2

/-! ### The phases before tabu search -/

theorem Sound.optional {name : ℕ → String} (g : Ground cfg m0) (hgrid : OnGrid m0 1) (hpen : 0 ≤ m0.globalPen)
    (hname : C48.Distinct name m0) (cur : Sparse) (body : Option (List Event)) (x : Sofar) (h : Sound m0 m0 name cur x)
    (hle : ∀ b, body = some b → ((startFrom name cfg cur x.st).isSome = true → ∀ ev ∈ b, C66.LegalEvent cfg m0 ev) ∧ ∀ ev ∈ b, (∃ mv r, ev = .move mv r) ∨ ∃ low, ev = .relax low) :
    ∃ r, Ctl.optional name cfg cur body x = some r ∧ Sound m0 m0 name r.1 r.2 := by
  cases body with
  | none => exact ⟨_, rfl, h⟩
  | some b =>
    obtain ⟨l1, l2⟩ := hle b rfl
    have n := h.held.narrow
    obtain ⟨l, gg, hn, st⟩ := h.held.stat
    obtain ⟨σ, s1, s2, s3⟩ := h.start
    obtain ⟨d, s, q, e1, k1⟩ := start_keen g hgrid hpen n hn st h.held.fixes h.tidy σ s1 s3
    obtain ⟨s', q', e2, k2⟩ := run_keen g hgrid hpen n b s q k1 (l1 (by rw [e1]; rfl)) l2
    obtain ⟨gv, hgv⟩ := Option.isSome_iff_exists.1 k2.glo
    obtain ⟨dg, hdg, fg, -⟩ := k2.tidy.glo gv hgv
    have hsv : s'.model.varIds = m0.varIds := by
      obtain ⟨l', g', -, st'⟩ := k2.inv.stat
      exact st'.varIds
    have hr : Ctl.optional name cfg cur (some b) x = some (dg.toSparse name m0.varIds, ⟨s', x.done ++ (.start d :: b)⟩) := by
      show phase name cfg cur b x = _
      unfold phase
      rw [e1, Option.bind_some]
      dsimp only
      rw [e2, Option.bind_some, hdg, hsv]; rfl
    refine ⟨_, hr, Held.optional g (Or.inr ⟨rfl, 1, by norm_num, hgrid⟩) cur (some b) x h.held (fun b' hb => (hle b' hb).1) _ hr, k2.tidy, k2.glo,
      StartOk.ofDense hname fg fg.range⟩

theorem Sound.begin {name : ℕ → String} (g : Ground cfg m0) (hgrid : OnGrid m0 1) (hpen : 0 ≤ m0.globalPen)
    (hname : C48.Distinct name m0) : Sound m0 m0 name (firstSolution name m0) ⟨Search.begin m0, []⟩ := by
  have hs := g.setting
  have n := Narrow.refl g
  have st := C66.stat_refl m0
  have hr : InRange m0 (assignment m0) := ⟨fun _ _ _ => rfl, fun v hm hd hf => hs.start v hm hd hf⟩
  have hlive := update_live m0 hs.noDep.uexpr
  have hag := n.same g (update_agree st)
  have fit : Fit m0 (exportDense m0.update) := fit_export g n st.update hlive hag hr
  obtain ⟨i1, i2, i3⟩ := C66.full_inv (e := 0) hs.wf hs.noDep Holder.init hs.pen st.update hlive _ (update_agree st) hr
  have hwm : WellFormed m0.update := st.update.shape.wellFormed ⟨hs.wf.conIds, hs.wf.con, hs.wf.obj, hs.wf.uexpr⟩
  have hfull := C06.full_score_describes_moved_assignment m0.update { alterations := [] } hwm hlive.current (by simp)
  dsimp only [applyMove] at hfull
  obtain ⟨t1, t2, t3⟩ := offer_tidy hgrid hpen n Holder.init Holder.init m0.update _ _ i1 i2 i3 hfull.2.2.1
    (by rw [hfull.2.2.2.2.1, hfull.1, hfull.2.2.1]) (Tidy.init m0) (exportDense m0.update) fit hag
  refine ⟨Held.begin g, t1, t3, StartOk.ofDense hname fit ?_⟩
  exact fit.range

/-- All searches of a call return. -/
theorem Sound.searches {name : ℕ → String} {o : Opt} {pl : Plan} (g : Ground cfg m0) (hgrid : OnGrid m0 1) (hpen : 0 ≤ m0.globalPen)
    (hname : C48.Distinct name m0) (ho : o.mode = .smart) (hl : PlanLegal name cfg o m0 pl) :
    ∃ x B cur, Ctl.searches name cfg o m0 pl = some x ∧ Sound m0 B name cur x := by
  obtain ⟨l1, l2⟩ := hl
  obtain ⟨p, e1, h1⟩ := Sound.optional g hgrid hpen hname _ (if applicable m0 then pl.lagrange else none) _
    (Sound.begin g hgrid hpen hname) (fun b hb => by
      split at hb
      · refine ⟨fun _ ev hev => ?_, fun ev hev => Or.inr (l1 b hb ev hev)⟩
        obtain ⟨low, rfl⟩ := l1 b hb ev hev
        trivial
      · exact absurd hb (by simp))
  obtain ⟨q, e2, h2⟩ := Sound.optional g hgrid hpen hname p.1 pl.localSearch p.2 h1
    (fun b hb => ⟨((l2 p e1).1 b hb).2, fun ev hev => Or.inl (((l2 p e1).1 b hb).1 ev hev)⟩)
  obtain ⟨x, B, e3, cur, h3⟩ := Sound.laps g hgrid hpen hname ho pl.laps { current := q.1 } q.2 m0 h2 (fun hf => absurd hf (by simp))
    ((l2 p e1).2 q e2)
  refine ⟨x, B, cur, ?_, h3⟩
  unfold Ctl.searches
  rw [e1, Option.bind_some, e2, Option.bind_some]; exact e3

/-- Values within the bounds are accepted, whatever the values of the variables that are not fixed were before. -/
theorem import_in_range {m : MState} {l gg : ℕ → ℚ} (g : Ground cfg m0) (n : Narrow m0 B) (st : Stat B l gg m) (fx : Fixes B m)
    (d : Dense) (hd : InRange B d.values) : ∃ m1, importDense cfg.sels d m = some m1 := by
  have hs := n.setting g
  unfold importDense
  have st1 : Stat B l gg { m with
      var := fun v => if v ∈ m.varIds then (m.var v).setValueIfMutable (d.values v) else m.var v } := by
    refine st.withVars _ m.selected ?_ ?_ ?_ ?_ <;> intro v <;> split <;>
      first | rfl | exact (mutable_frame _ _).1 | exact (mutable_frame _ _).2.1 | exact (mutable_frame _ _).2.2.1 |
        exact (mutable_frame _ _).2.2.2.1
  have hval : ∀ v, (if v ∈ m.varIds then (m.var v).setValueIfMutable (d.values v) else m.var v).value = d.values v := by
    intro v
    by_cases hm : v ∈ m.varIds
    · rw [if_pos hm, (mutable_frame _ _).2.2.2.2, C66.stat_fixed st]
      cases hf : (B.var v).fixed
      · rfl
      · rw [if_pos rfl, fx v (Or.inr hf), hd.fixed v (n.none g v) (Or.inr hf)]
    · have hm' : v ∉ B.varIds := by rw [← st.varIds]; exact hm
      rw [if_neg hm, fx v (Or.inl hm'), hd.fixed v (n.none g v) (Or.inl hm')]
  have hgood := n.good g hd
  obtain ⟨m1, h1, -⟩ := C51.good_values_are_accepted false cfg.sels _ (C66.stat_ready st1 hs.ready)
    (fun a ha => by rw [g.sels] at ha; exact absurd ha (by simp))
    (fun v hv hb => by
      rw [st1.varIds] at hv; rw [st1.sense] at hb
      dsimp only
      rw [hval]; exact hgood.binary v hv hb)
    (fun v hv hb => by
      rw [st1.varIds] at hv; rw [st1.sense] at hb; rw [st1.lb, st1.ub]
      dsimp only
      rw [hval]; exact hgood.integer v hv hb)
  exact ⟨m1, h1⟩

/-- The report is made. -/
theorem Sound.report {name : ℕ → String} {cur : Sparse} {x : Sofar} (g : Ground cfg m0) (h : Sound m0 B name cur x) :
    ∃ r m', postprocess cfg.sels x.st.holder x.st.model = some (r, m') := by
  obtain ⟨l, gg, hn, st⟩ := h.held.stat
  have key : ∃ d, (if x.st.holder.found then x.st.holder.feasSol else x.st.holder.globalSol) = some d ∧ InRange B d.values := by
    cases hf : x.st.holder.found
    · obtain ⟨gv, hgv⟩ := Option.isSome_iff_exists.1 h.glo
      obtain ⟨d, hd, fit, -⟩ := h.tidy.glo gv hgv
      refine ⟨d, by rw [if_neg (by simp)]; exact hd, h.held.inside _ fit.range fun z hz => ?_⟩
      exfalso
      obtain ⟨calls, ec, -⟩ := h.held.calls
      obtain ⟨f1, f2⟩ := C11.feasible_incumbent_is_best calls
      rw [← ec] at f1 f2
      rcases f2 with ⟨f2, -⟩ | ⟨d2, sc2, hm2, -⟩
      · rw [f2] at hz; exact absurd hz (by simp)
      · rw [f1.2 (List.ne_nil_of_mem hm2)] at hf; exact absurd hf (by simp)
    · obtain ⟨z, hz⟩ := Option.isSome_iff_exists.1 (h.tidy.found hf)
      obtain ⟨-, d, hd, fit, ho⟩ := h.tidy.feas z hz
      refine ⟨d, by rw [if_pos rfl]; exact hd, h.held.inside _ fit.range fun z' hz' => ?_⟩
      rw [hz] at hz'
      obtain rfl := Option.some.inj hz'
      exact ho.le
  obtain ⟨d, hd, hr⟩ := key
  obtain ⟨m1, h1⟩ := import_in_range g h.held.narrow st h.held.fixes d hr
  refine ⟨exportNamed m1.update, m1.update, ?_⟩
  unfold postprocess
  rw [hd, Option.bind_some, h1]; rfl

end Printemps.Ctl
