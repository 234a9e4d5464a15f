import Verif.Lemmas.SearchScore

/-! # C66 — what a whole run of the solver guarantees

The model after its setup is `m`.  The searches (tabu search, local search, Lagrange dual) do what they like, in any
number and order, as long as every accepted move is legal; see `Setting`, `Legal` for what is assumed. -/

namespace Printemps.C66
open Spec Sol Search

/-- What is assumed about the model after its setup. -/
structure Setting (cfg : Cfg) (m : MState) : Prop where
  wf : WellFormed m
  ready : C51.Ready cfg.sels m
  /-- 0/1 variables that are not fixed have the bounds 0 and 1 -/
  unit : ∀ v ∈ m.varIds, (m.var v).fixed = false → (m.var v).sense = .binary ∨ (m.var v).sense = .selection →
    (m.var v).lb = 0 ∧ (m.var v).ub = 1
  /-- every variable that is not dependent is a 0/1 variable, an integer variable or belongs to a selection -/
  kinds : ∀ v ∈ m.varIds, v ∉ m.dependents.map Prod.fst → (m.var v).sense = .binary ∨ (m.var v).sense = .integer ∨
    ((m.var v).sense = .selection ∧ ∃ s ∈ cfg.sels, v ∈ (m.con s).expr.vars)
  /-- the values at the start are within the bounds -/
  start : ∀ v ∈ m.varIds, v ∉ m.dependents.map Prod.fst → (m.var v).fixed = false →
    (m.var v).lb ≤ (m.var v).value ∧ (m.var v).value ≤ (m.var v).ub
  /-- the coefficients stored with the variables -/
  sens : ∀ v, C07.SensOK m v
  /-- the largest coefficient stored with a constraint of 0/1 variables -/
  maxLe : ∀ c ∈ m.conIds, (m.con c).onlyBinaryVar = true → ∀ t ∈ (m.con c).expr.terms, |t.2| ≤ (m.con c).maxAbs
  maxEq : ∀ c ∈ m.conIds, (m.con c).onlyBinaryVar = true →
    (m.con c).maxAbs = 0 ∨ ∃ t ∈ (m.con c).expr.terms, (m.con c).maxAbs = |t.2|
  /-- the mark "has only 0/1 variables" -/
  onlyBin : ∀ c ∈ m.conIds, (m.con c).onlyBinaryVar = true → ∀ v ∈ (m.con c).expr.terms.map Prod.fst,
    (m.var v).fixed = false → 0 ≤ (m.var v).lb ∧ (m.var v).ub ≤ 1
  /-- dependent variables have been replaced by their definitions -/
  noDep : NoDep m
  pen : ∀ c, 0 ≤ (m.con c).penLess ∧ 0 ≤ (m.con c).penGreater

/-- A legal move: it changes different variables of the model, none of them fixed or dependent, to values within
their bounds; its list of related constraints is complete; the marks "single variable" and "selection" are right. -/
structure Legal (cfg : Cfg) (m : MState) (mv : Move) : Prop where
  distinct : (mv.alterations.map Prod.fst).Nodup
  listed : ∀ a ∈ mv.alterations, a.1 ∈ m.varIds ∧ a.1 ∉ m.dependents.map Prod.fst ∧ (m.var a.1).fixed = false ∧
    (m.var a.1).lb ≤ a.2 ∧ a.2 ≤ (m.var a.1).ub
  related : Covers m mv.alterations mv.related
  single : mv.isUnivariable = true → ∃ v x, mv.alterations = [(v, x)]
  selection : mv.isUnivariable = false → mv.isSelection = true →
    ∃ v w x y, mv.alterations = [(v, x), (w, y)] ∧ C09.RelOK m (cfg.selRel v) v w

/-- Legal events: legal moves, nonnegative penalty coefficients; starts and relaxations are always legal. -/
def LegalEvent (cfg : Cfg) (m : MState) : Event → Prop
  | .move mv _ => Legal cfg m mv
  | .penalties l g => ∀ c, 0 ≤ l c ∧ 0 ≤ g c
  | .start _ => True
  | .relax _ => True

/-- An event as far as the values of the variables are concerned. -/
def visitOf : Event → Visit
  | .start d => .start d.values
  | .move mv _ => .move mv.alterations
  | .relax low => .relax low
  | .penalties _ _ => .stay

/-- The assignments visited in a run, the initial one included, each with the number of moves since the last start. -/
def all (m : MState) (es : List Event) : List ((ℕ → ℤ) × ℕ) :=
  (assignment m, 0) :: visited m (assignment m, 0) (es.map visitOf)

/-- An offered solution and its score describe a visited assignment, up to an error `e` per move. -/
structure Describes (m : MState) (e : ℚ) (p : Dense × Score) (q : (ℕ → ℤ) × ℕ) : Prop where
  values : Agree m p.1.values q.1
  range : InRange m q.1
  objective : p.2.objective = minObjective m q.1
  violation : |p.2.totalViolation - totalViolation m q.1| ≤ q.2 * e
  feasible : p.2.isFeasible = true ↔ p.2.totalViolation ≤ 1e-5
  augmented : p.2.globalAug = p.2.objective + p.2.totalViolation * m.globalPen

/-- The invariant of the search. -/
structure Inv (m0 : MState) (e : ℚ) (s : St) (q : (ℕ → ℤ) × ℕ) : Prop where
  stat : ∃ l g, (∀ c, 0 ≤ l c ∧ 0 ≤ g c) ∧ Stat m0 l g s.model
  live : Live s.model
  agree : Agree m0 (assignment s.model) q.1
  range : InRange m0 q.1
  objective : s.cur.objective = minObjective m0 q.1
  violation : |s.cur.totalViolation - totalViolation m0 q.1| ≤ q.2 * e

theorem tv_set (m : MState) (l g σ) : totalViolation (setPenalties m l g) σ = totalViolation m σ := by
  rw [MState.totalViolation_eq, MState.totalViolation_eq]; rfl

theorem stat_tv {m0 m : MState} {l g} (s : Stat m0 l g m) (σ) : totalViolation m σ = totalViolation m0 σ := by
  rw [s.shape.totalViolation, tv_set]

theorem stat_obj {m0 m : MState} {l g} (s : Stat m0 l g m) (σ) : minObjective m σ = minObjective m0 σ := by
  rw [s.shape.minObjective]; rfl

theorem stat_pen {m0 m : MState} {l g} (s : Stat m0 l g m) : m.globalPen = m0.globalPen := s.shape.globalPen

theorem stat_vars {m0 m : MState} {l g} (s : Stat m0 l g m) (c) : (m.con c).expr.vars = (m0.con c).expr.vars := by
  unfold Expr.vars; rw [s.shape.conTerms]; rfl

theorem stat_fixed {m0 m : MState} {l g} (s : Stat m0 l g m) (v) : (m.var v).fixed = (m0.var v).fixed := s.shape.fixed v

theorem stat_ready {m0 m : MState} {l g} {sels} (s : Stat m0 l g m) (h : C51.Ready sels m0) : C51.Ready sels m := by
  refine ⟨h.nodup, by rw [s.varIds]; exact h.varNodup, fun a ha => by rw [stat_vars s]; exact h.once a ha,
    fun a ha b hb hab v hv => ?_, fun a ha v hv => ?_, fun v hv hb => ?_, fun v hv hb => ?_⟩
  · rw [stat_vars s] at hv ⊢; exact h.apart a ha b hb hab v hv
  · rw [stat_vars s] at hv; rw [s.sense]; exact h.sense a ha v hv
  · rw [s.varIds] at hv; rw [s.sense] at hb; rw [s.lb, s.ub]; exact h.binary v hv hb
  · rw [s.varIds] at hv; rw [s.sense] at hb; rw [s.lb, s.ub]; exact h.integer v hv hb

theorem stat_refl (m : MState) : Stat m (fun c => (m.con c).penLess) (fun c => (m.con c).penGreater) m :=
  ⟨by constructor <;> intros <;> rfl, rfl, rfl, rfl, fun _ => rfl, fun _ => rfl, fun _ => rfl, fun _ => rfl, fun _ => rfl⟩

/-! ### Offering a solution -/

theorem offer_inv {m0 m : MState} {e : ℚ} (hd : NoDep m0) (h : Holder Dense) (sc : Score) (q : (ℕ → ℤ) × ℕ)
    (hi : Inv m0 e ⟨m, sc, h⟩ q) (hf : sc.isFeasible = true ↔ sc.totalViolation ≤ 1e-5)
    (ha : sc.globalAug = sc.objective + sc.totalViolation * m0.globalPen) :
    Inv m0 e (offer h m sc) q ∧ ∃ d, (offer h m sc).holder = h.step (.offer d sc) ∧ Describes m0 e (d, sc) q := by
  obtain ⟨⟨l, g, hn, st⟩, hl, hag, hr, ho, hv⟩ := hi
  dsimp only at st hl hag ho hv
  obtain ⟨e1, -, e3⟩ := C11.model_overload_agrees refresh exportDense h m sc
  have hag' : Agree m0 (assignment (refresh m)) q.1 := Agree.trans (refresh_agree st) hag
  refine ⟨?_, exportDense (refresh m), e1, ⟨?_, hr, ho, hv, hf, ha⟩⟩
  · have hm : (offer h m sc).model = m ∨ (offer h m sc).model = refresh m := by
      show (h.tryUpdateModel refresh exportDense m sc).2.1 = _ ∨ (h.tryUpdateModel refresh exportDense m sc).2.1 = _
      rw [e3]; split <;> simp
    rcases hm with hm | hm
    · exact ⟨⟨l, g, hn, by rw [hm]; exact st⟩, by rw [hm]; exact hl, by rw [hm]; exact hag, hr, ho, hv⟩
    · exact ⟨⟨l, g, hn, by rw [hm]; exact st.refresh⟩, by rw [hm]; exact refresh_live m (hd.of_stat st) hl,
        by rw [hm]; exact hag', hr, ho, hv⟩
  · exact hag'

/-- The score computed from scratch. -/
theorem full_inv {m0 m : MState} {e : ℚ} (hw : WellFormed m0) (hd : NoDep m0) (h : Holder Dense) {l g}
    (hn : ∀ c, 0 ≤ l c ∧ 0 ≤ g c) (st : Stat m0 l g m) (hl : Live m) (σ : ℕ → ℤ) (hag : Agree m0 (assignment m) σ)
    (hr : InRange m0 σ) :
    let sc := m.evaluateFull { alterations := [] }
    Inv m0 e ⟨m, sc, h⟩ (σ, 0) ∧ (sc.isFeasible = true ↔ sc.totalViolation ≤ 1e-5) ∧
      sc.globalAug = sc.objective + sc.totalViolation * m0.globalPen := by
  intro sc
  have hwm : WellFormed m := st.shape.wellFormed ⟨hw.conIds, hw.con, hw.obj, hw.uexpr⟩
  have hfull := C06.full_score_describes_moved_assignment m { alterations := [] } hwm hl.current (by simp)
  dsimp only [applyMove] at hfull
  obtain ⟨h1, h2, -, -, -, h6, h7, -, -⟩ := hfull
  have e1 : minObjective m (assignment m) = minObjective m0 σ := by
    rw [stat_obj st, minObjective_agree m0 hd _ _ hag]
  have e2 : totalViolation m (assignment m) = totalViolation m0 σ := by
    rw [stat_tv st, totalViolation_agree m0 hd _ _ hag]
  rw [e1] at h1 h6
  rw [e2] at h2 h6 h7
  refine ⟨⟨⟨l, g, hn, st⟩, hl, hag, hr, h1, ?_⟩, ?_, ?_⟩
  · show |sc.totalViolation - _| ≤ _
    rw [show sc.totalViolation = _ from h2, sub_self, abs_zero]; simp
  · rw [show sc.totalViolation = _ from h2, C11.eps_eq]; exact h7
  · rw [show sc.globalAug = _ from h6, show sc.totalViolation = _ from h2, show sc.objective = _ from h1, stat_pen st]

/-! ### Importing a solution -/

theorem import_still {m0 m m1 : MState} {l g} {cfg : Cfg} (hs : Setting cfg m0) (st : Stat m0 l g m) (d : Dense)
    (h : importDense cfg.sels d m = some m1) (σ : ℕ → ℤ) (hfx : ∀ v, v ∉ m0.dependents.map Prod.fst →
      (v ∉ m0.varIds ∨ (m0.var v).fixed = true) → (m.var v).value = (m0.var v).value) :
    Stat m0 l g m1 ∧ Agree m0 (assignment m1) (visit m0 σ (.start d.values)) ∧
    InRange m0 (visit m0 σ (.start d.values)) ∧ m1.con = m.con := by
  unfold importDense at h
  have st1 : Stat m0 l g { m with
      var := fun v => if v ∈ m.varIds then (m.var v).setValueIfMutable (d.values v) else m.var v } := by
    refine st.withVars _ m.selected ?_ ?_ ?_ ?_ <;> intro v <;> split <;>
      first | rfl | exact (mutable_frame _ _).1 | exact (mutable_frame _ _).2.1 | exact (mutable_frame _ _).2.2.1 |
        exact (mutable_frame _ _).2.2.2.1
  have hready := stat_ready st1 hs.ready
  have hvar := (C51.check_only_changes_nothing cfg.sels _ m1 hready h).1
  obtain ⟨g1, g2, g3, g4, -, g6⟩ := C51.corrected_or_rejected_partial false cfg.sels _ m1 hready h
  obtain ⟨var, sel, e⟩ := verifyAll_frame _ _ _ _ h
  have hv1 : ∀ v, (m1.var v).value = if v ∈ m.varIds ∧ (m.var v).fixed = false then d.values v else (m.var v).value := by
    intro v
    rw [hvar]
    dsimp only
    by_cases hm : v ∈ m.varIds
    · rw [if_pos hm, (mutable_frame _ _).2.2.2.2]
      cases hf : (m.var v).fixed <;> simp [hm]
    · rw [if_neg hm, if_neg (fun hh => hm hh.1)]
  have hst : Stat m0 l g m1 := by
    have e' : m1 = { m with var := m1.var, selected := sel } := by
      rw [e]
    rw [e']
    refine st.withVars _ sel ?_ ?_ ?_ ?_ <;> intro v <;> rw [hvar] <;> dsimp only <;> split <;>
      first | rfl | exact (mutable_frame _ _).1 | exact (mutable_frame _ _).2.1 | exact (mutable_frame _ _).2.2.1 |
        exact (mutable_frame _ _).2.2.2.1
  have hagree : Agree m0 (assignment m1) (visit m0 σ (.start d.values)) := by
    intro v hv
    show (m1.var v).value = if v ∈ m0.varIds ∧ (m0.var v).fixed = false then d.values v else assignment m0 v
    rw [hv1, st.varIds, stat_fixed st]
    by_cases hc : v ∈ m0.varIds ∧ (m0.var v).fixed = false
    · rw [if_pos hc, if_pos hc]
    · rw [if_neg hc, if_neg hc]
      refine hfx v hv ?_
      by_cases hm : v ∈ m0.varIds
      · right
        cases hf : (m0.var v).fixed
        · exact absurd ⟨hm, hf⟩ hc
        · rfl
      · exact Or.inl hm
  refine ⟨hst, hagree, ⟨fun v hv hf => ?_, fun v hm hv hf => ?_⟩, ?_⟩
  · show (if v ∈ m0.varIds ∧ (m0.var v).fixed = false then d.values v else assignment m0 v) = _
    rw [if_neg]
    · rfl
    · rintro ⟨h1, h2⟩
      rcases hf with hf | hf
      · exact hf h1
      · rw [h2] at hf; exact absurd hf (by decide)
  · rw [← hagree v hv]
    show (m0.var v).lb ≤ (m1.var v).value ∧ (m1.var v).value ≤ _
    have hb : ((m1.var v).value = 0 ∨ (m1.var v).value = 1) → ((m0.var v).sense = .binary ∨ (m0.var v).sense = .selection) →
        (m0.var v).lb ≤ (m1.var v).value ∧ (m1.var v).value ≤ (m0.var v).ub := by
      intro hz hk
      obtain ⟨u1, u2⟩ := hs.unit v hm hf hk
      rw [u1, u2]
      rcases hz with hz | hz <;> rw [hz] <;> decide
    rcases hs.kinds v hm hv with hk | hk | ⟨hk, s, hsm, hvs⟩
    · exact hb (g2 v (by rw [st1.varIds]; exact hm) (by rw [st1.sense]; exact hk)) (Or.inl hk)
    · have := g3 v (by rw [st1.varIds]; exact hm) (by rw [st1.sense]; exact hk)
      rw [st1.lb, st1.ub] at this; exact this
    · exact hb ((g1 s hsm).1 v (by rw [stat_vars st1]; exact hvs)) (Or.inr hk)
  · rw [e]

theorem import_facts {m0 m m1 : MState} {l g} {cfg : Cfg} (hs : Setting cfg m0) (st : Stat m0 l g m) (d : Dense)
    (h : importDense cfg.sels d m = some m1) (σ : ℕ → ℤ) (hag : Agree m0 (assignment m) σ) (hr : InRange m0 σ) :
    Stat m0 l g m1 ∧ Agree m0 (assignment m1) (visit m0 σ (.start d.values)) ∧
    InRange m0 (visit m0 σ (.start d.values)) ∧ m1.con = m.con :=
  import_still hs st d h σ fun v hv hf => (hag v hv).trans (hr.fixed v hv hf)

/-! ### Moves -/

theorem usable {m0 m : MState} {l g} {cfg : Cfg} (hs : Setting cfg m0) (st : Stat m0 l g m)
    (hn : ∀ c, 0 ≤ l c ∧ 0 ≤ g c) (hl : Live m) (σ : ℕ → ℤ) (hag : Agree m0 (assignment m) σ) (hr : InRange m0 σ)
    (mv : Move) (hm : Legal cfg m0 mv) : Usable cfg m mv := by
  have hids : m.conIds = m0.conIds := st.shape.conIds
  have hterms : ∀ c, (m.con c).expr.terms = (m0.con c).expr.terms := st.shape.conTerms
  have hen : ∀ c, (m.con c).enabled = (m0.con c).enabled := st.shape.conEnabled
  refine ⟨st.shape.wellFormed ⟨hs.wf.conIds, hs.wf.con, hs.wf.obj, hs.wf.uexpr⟩, hl, ?_, ?_, ?_, ?_, ?_, hm.distinct, ?_,
    hm.single, ?_⟩
  · intro v
    obtain ⟨h1, h2⟩ := hs.sens v
    refine ⟨by rw [st.sens]; exact h1, fun c q => ?_⟩
    rw [st.sens, hids, hterms]; exact h2 c q
  · intro c hc hb t ht
    rw [hids] at hc; rw [st.onlyBin] at hb; rw [hterms] at ht; rw [st.maxAbs]; exact hs.maxLe c hc hb t ht
  · intro c hc hb
    rw [hids] at hc; rw [st.onlyBin] at hb; rw [hterms, st.maxAbs]; exact hs.maxEq c hc hb
  · intro c hc hb a ha hmem
    rw [hids] at hc; rw [hterms] at hmem; rw [st.onlyBin] at hb
    obtain ⟨l1, l2, l3, l4, l5⟩ := hm.listed a ha
    obtain ⟨b1, b2⟩ := hs.onlyBin c hc hb a.1 hmem l3
    rw [hag a.1 l2]
    obtain ⟨r1, r2⟩ := hr.range a.1 l1 l2 l3
    rw [abs_le]; constructor <;> omega
  · intro c _
    rw [st.shape.penLess, st.shape.penGreater]; exact hn c
  · exact ⟨by simpa only [hen] using hm.related.nodup, fun c hc => by rw [hids]; exact hm.related.mem c hc, fun c hc he hex => by
      rw [hids] at hc; rw [hen] at he; rw [hterms] at hex; exact hm.related.covers c hc he hex⟩
  · intro h1 h2
    obtain ⟨v, w, x, y, e1, r⟩ := hm.selection h1 h2
    refine ⟨v, w, x, y, e1, r.nodup, fun c hc => by rw [hids]; exact r.mem c hc, fun c hc he hex => ?_⟩
    rw [hids] at hc; rw [hen] at he; rw [hterms] at hex; exact r.covers c hc he hex

theorem err_stat {m0 m : MState} {l g} {e : ℚ} (st : Stat m0 l g m) (h : Err m0 e) : Err m e := by
  have hids : m.conIds = m0.conIds := st.shape.conIds
  have hterms : ∀ c, (m.con c).expr.terms = (m0.con c).expr.terms := st.shape.conTerms
  have hen : ∀ c, (m.con c).enabled = (m0.con c).enabled := st.shape.conEnabled
  have hconst : ∀ c, (m.con c).expr.const = (m0.con c).expr.const := st.shape.conConst
  rcases h with h | ⟨h, k, hk, o⟩
  · left; rw [h, hids]
  · refine Or.inr ⟨h, k, hk, fun c hc he => ?_, fun c hc he t ht => ?_⟩
    · rw [hids] at hc; rw [hen] at he; rw [hconst]; exact o.const c hc he
    · rw [hids] at hc; rw [hen] at he; rw [hterms] at ht; exact o.coef c hc he t ht

theorem applyMove_agree (m : MState) (σ τ : ℕ → ℤ) (h : Agree m σ τ) (alts : List (ℕ × ℤ)) :
    Agree m (applyMove σ alts) (applyMove τ alts) := by
  induction alts generalizing σ τ with
  | nil => exact h
  | cons a l ih =>
    refine ih _ _ fun v hv => ?_
    by_cases e : v = a.1
    · subst e; rw [Function.update_self, Function.update_self]
    · rw [Function.update_of_ne e, Function.update_of_ne e]; exact h v hv

theorem move_inv {m0 : MState} {e : ℚ} {cfg : Cfg} (hs : Setting cfg m0) (he : Err m0 e) (s : St) (q : (ℕ → ℤ) × ℕ)
    (hi : Inv m0 e s q) (mv : Move) (ren : Bool) (hm : Legal cfg m0 mv) (h : Holder Dense) :
    let sc := acceptedScore cfg s.model mv ren s.cur
    Inv m0 e ⟨afterMove s.model mv, sc, h⟩ (applyMove q.1 mv.alterations, q.2 + 1) ∧
    (sc.isFeasible = true ↔ sc.totalViolation ≤ 1e-5) ∧
    sc.globalAug = sc.objective + sc.totalViolation * m0.globalPen := by
  intro sc
  obtain ⟨⟨l, g, hn, st⟩, hl, hag, hr, ho, hv⟩ := hi
  have hu := usable hs st hn hl q.1 hag hr mv hm
  obtain ⟨a1, a2, a3, a4⟩ := accepted_close cfg s.model mv ren s.cur e (err_stat st he) hu
  have hgood : GoodMove s.model mv.alterations :=
    ⟨hm.distinct, fun a ha => by rw [stat_fixed st]; exact (hm.listed a ha).2.2.1⟩
  have hag2 : Agree m0 (applyMove (assignment s.model) mv.alterations) (applyMove q.1 mv.alterations) :=
    applyMove_agree m0 _ _ hag _
  have hass := MState.updateMove_assignment s.model mv hgood
  obtain ⟨sel, hsel⟩ := afterMove_eq s.model mv
  refine ⟨⟨⟨l, g, hn, by rw [hsel]; exact (st.updateMove mv).withVars _ sel (fun _ => rfl) (fun _ => rfl) (fun _ => rfl) (fun _ => rfl)⟩,
    by rw [hsel]; exact (updateMove_live s.model mv hu.wf hl hgood hu.covers).withSelected sel, ?_, ?_, ?_, ?_⟩, a4, ?_⟩
  · rw [hsel]
    show Agree m0 (assignment (s.model.updateMove mv)) _
    rw [hass]; exact hag2
  · refine ⟨fun v hvd hf => ?_, fun v hvm hvd hf => ?_⟩
    · show applyMove q.1 mv.alterations v = _
      rw [Expr.applyMove_of_not_mem]
      · exact hr.fixed v hvd hf
      · intro hmem
        obtain ⟨a, ha, rfl⟩ := List.mem_map.1 hmem
        obtain ⟨l1, -, l3, -, -⟩ := hm.listed a ha
        rcases hf with hf | hf
        · exact hf l1
        · rw [l3] at hf; exact absurd hf (by decide)
    · show (m0.var v).lb ≤ applyMove q.1 mv.alterations v ∧ applyMove q.1 mv.alterations v ≤ _
      by_cases hmem : v ∈ mv.alterations.map Prod.fst
      · obtain ⟨a, ha, rfl⟩ := List.mem_map.1 hmem
        rw [Expr.applyMove_of_mem _ _ hm.distinct a ha]
        exact (hm.listed a ha).2.2.2
      · rw [Expr.applyMove_of_not_mem _ _ _ hmem]; exact hr.range v hvm hvd hf
  · show sc.objective = _
    rw [show sc.objective = _ from a1, stat_obj st, minObjective_agree m0 hs.noDep _ _ hag2]
  · show |sc.totalViolation - _| ≤ _
    rw [stat_tv st, stat_tv st, totalViolation_agree m0 hs.noDep _ _ hag2, totalViolation_agree m0 hs.noDep _ _ hag] at a2
    refine a2.trans ?_
    push_cast
    linarith
  · rw [show sc.globalAug = _ from a3, stat_pen st]

/-! ### Relaxation -/

theorem relax_facts {m0 m : MState} {l g} {cfg : Cfg} (hs : Setting cfg m0) (st : Stat m0 l g m) (low : ℕ → Bool)
    (σ : ℕ → ℤ) (hag : Agree m0 (assignment m) σ) (hr : InRange m0 σ) :
    Stat m0 l g (relaxed m low) ∧ Agree m0 (assignment (relaxed m low)) (visit m0 σ (.relax low)) ∧
    InRange m0 (visit m0 σ (.relax low)) := by
  have hst : Stat m0 l g (relaxed m low) := by
    refine st.withVars _ m.selected ?_ ?_ ?_ ?_ <;> intro v <;> split <;>
      first | rfl | exact (mutable_frame _ _).1 | exact (mutable_frame _ _).2.1 | exact (mutable_frame _ _).2.2.1 |
        exact (mutable_frame _ _).2.2.2.1
  refine ⟨hst, fun v hv => ?_, ⟨fun v hv hf => ?_, fun v hm hv hf => ?_⟩⟩
  · show (if v ∈ m.varIds then (m.var v).setLowerOrUpper (low v) else m.var v).value =
      if v ∈ m0.varIds ∧ (m0.var v).fixed = false then (if low v then (m0.var v).lb else (m0.var v).ub) else assignment m0 v
    have hk : (v ∉ m0.varIds ∨ (m0.var v).fixed = true) → (m.var v).value = assignment m0 v := fun hf => by
      have : (m.var v).value = σ v := hag v hv
      rw [this]; exact hr.fixed v hv hf
    rw [st.varIds]
    by_cases hm : v ∈ m0.varIds
    · rw [if_pos hm]
      unfold Var.setLowerOrUpper
      rw [(mutable_frame _ _).2.2.2.2, stat_fixed st, st.lb, st.ub]
      cases hf : (m0.var v).fixed
      · simp [hm]
      · rw [if_pos rfl, if_neg (by simp)]; exact hk (Or.inr hf)
    · rw [if_neg hm, if_neg (fun hh => hm hh.1)]; exact hk (Or.inl hm)
  · show (if v ∈ m0.varIds ∧ (m0.var v).fixed = false then (if low v then (m0.var v).lb else (m0.var v).ub)
      else assignment m0 v) = _
    rw [if_neg]
    · rfl
    · rintro ⟨h1, h2⟩
      rcases hf with hf | hf
      · exact hf h1
      · rw [h2] at hf; exact absurd hf (by decide)
  · show (m0.var v).lb ≤ (if v ∈ m0.varIds ∧ (m0.var v).fixed = false then (if low v then (m0.var v).lb else (m0.var v).ub)
      else assignment m0 v) ∧ (if v ∈ m0.varIds ∧ (m0.var v).fixed = false then (if low v then (m0.var v).lb
      else (m0.var v).ub) else assignment m0 v) ≤ _
    rw [if_pos ⟨hm, hf⟩]
    have hle := le_trans (hs.start v hm hv hf).1 (hs.start v hm hv hf).2
    split
    · exact ⟨le_refl _, hle⟩
    · exact ⟨hle, le_refl _⟩

/-! ### Runs -/

/-- The assignment after an event, with the number of moves since the last start. -/
def next (m : MState) (q : (ℕ → ℤ) × ℕ) : Visit → (ℕ → ℤ) × ℕ
  | .stay => q
  | .move alts => (visit m q.1 (.move alts), q.2 + 1)
  | .start x => (visit m q.1 (.start x), 0)
  | .relax low => (visit m q.1 (.relax low), 0)

/-- The list of what one event adds. -/
def added (m : MState) (q : (ℕ → ℤ) × ℕ) : Visit → List ((ℕ → ℤ) × ℕ)
  | .stay => []
  | e => [next m q e]

theorem visited_cons (m : MState) (q e es) : visited m q (e :: es) = added m q e ++ visited m (next m q e) es := by
  cases e <;> rfl

theorem step_inv {m0 : MState} {e : ℚ} {cfg : Cfg} (hs : Setting cfg m0) (he : Err m0 e) (s s' : St) (q : (ℕ → ℤ) × ℕ)
    (hi : Inv m0 e s q) (ev : Event) (hle : LegalEvent cfg m0 ev) (h : step cfg s ev = some s') :
    Inv m0 e s' (next m0 q (visitOf ev)) ∧ ∃ calls : List (HolderCall Dense),
      s'.holder = calls.foldl Holder.step s.holder ∧
      List.Forall₂ (Describes m0 e) (C11.offers calls) (added m0 q (visitOf ev)) := by
  cases ev with
  | start d =>
    obtain ⟨m1, h1, h2⟩ := Option.map_eq_some_iff.1 h
    obtain ⟨⟨l, g, hn, st⟩, hl, hag, hr, ho, hv⟩ := hi
    obtain ⟨st1, ag1, r1, -⟩ := import_facts hs st d h1 q.1 hag hr
    obtain ⟨i1, i2, i3⟩ := full_inv (e := e) hs.wf hs.noDep s.holder.resetLocal hn st1.update
      (update_live m1 (hs.noDep.of_stat st1).uexpr) _ (Agree.trans (update_agree st1) ag1) r1
    obtain ⟨o1, d', o2, o3⟩ := offer_inv hs.noDep _ _ _ i1 i2 i3
    rw [h2] at o1 o2
    exact ⟨o1, [.resetLocal, .offer d' _], o2, List.Forall₂.cons o3 List.Forall₂.nil⟩
  | move mv ren =>
    obtain rfl := Option.some.inj h
    obtain ⟨i1, i2, i3⟩ := move_inv hs he s q hi mv ren hle s.holder
    obtain ⟨o1, d', o2, o3⟩ := offer_inv hs.noDep _ _ _ i1 i2 i3
    exact ⟨o1, [.offer d' _], o2, List.Forall₂.cons o3 List.Forall₂.nil⟩
  | relax low =>
    obtain rfl := Option.some.inj h
    obtain ⟨⟨l, g, hn, st⟩, hl, hag, hr, ho, hv⟩ := hi
    obtain ⟨st1, ag1, r1⟩ := relax_facts hs st low q.1 hag hr
    obtain ⟨i1, i2, i3⟩ := full_inv (e := e) hs.wf hs.noDep s.holder hn st1.update
      (update_live _ (hs.noDep.of_stat st1).uexpr) _ (Agree.trans (update_agree st1) ag1) r1
    obtain ⟨o1, d', o2, o3⟩ := offer_inv hs.noDep _ _ _ i1 i2 i3
    exact ⟨o1, [.offer d' _], o2, List.Forall₂.cons o3 List.Forall₂.nil⟩
  | penalties l' g' =>
    obtain rfl := Option.some.inj h
    obtain ⟨⟨l, g, hn, st⟩, hl, hag, hr, ho, hv⟩ := hi
    refine ⟨⟨⟨l', g', hle, st.setPenalties l' g'⟩, setPenalties_live _ _ _ hl, hag, hr, ho, hv⟩, [], rfl, List.Forall₂.nil⟩

theorem offers_foldl_append (a b : List (HolderCall Dense)) (h : Holder Dense) :
    (a ++ b).foldl Holder.step h = b.foldl Holder.step (a.foldl Holder.step h) := List.foldl_append

theorem run_inv {m0 : MState} {e : ℚ} {cfg : Cfg} (hs : Setting cfg m0) (he : Err m0 e) (es : List Event) (s s' : St)
    (q : (ℕ → ℤ) × ℕ) (hi : Inv m0 e s q) (hle : ∀ ev ∈ es, LegalEvent cfg m0 ev) (h : run cfg es s = some s') :
    (∃ q', Inv m0 e s' q') ∧ ∃ calls : List (HolderCall Dense), s'.holder = calls.foldl Holder.step s.holder ∧
      List.Forall₂ (Describes m0 e) (C11.offers calls) (visited m0 q (es.map visitOf)) := by
  induction es generalizing s q with
  | nil =>
    obtain rfl := Option.some.inj h
    exact ⟨⟨q, hi⟩, [], rfl, List.Forall₂.nil⟩
  | cons ev es ih =>
    obtain ⟨s1, h1, h2⟩ := Option.bind_eq_some_iff.1 h
    obtain ⟨i1, c1, e1, f1⟩ := step_inv hs he s s1 q hi ev (hle ev (by simp)) h1
    obtain ⟨i2, c2, e2, f2⟩ := ih s1 _ i1 (fun ev' hev => hle ev' (by simp [hev])) h2
    refine ⟨i2, c1 ++ c2, by rw [offers_foldl_append, ← e1]; exact e2, ?_⟩
    rw [C11.offers_append, List.map_cons, visited_cons]
    exact List.rel_append f1 f2

theorem begin_inv {m0 : MState} {e : ℚ} {cfg : Cfg} (hs : Setting cfg m0) :
    Inv m0 e (begin m0) (assignment m0, 0) ∧ ∃ d sc, (begin m0).holder = C11.after [.offer d sc] ∧
      Describes m0 e (d, sc) (assignment m0, 0) := by
  have st := stat_refl m0
  have hr : InRange m0 (assignment m0) := ⟨fun _ _ _ => rfl, fun v hm hd hf => hs.start v hm hd hf⟩
  obtain ⟨i1, i2, i3⟩ := full_inv (e := e) hs.wf hs.noDep (begin m0).holder hs.pen st.update
    (update_live _ hs.noDep.uexpr) _ (update_agree st) hr
  exact ⟨i1, exportDense m0.update, m0.update.evaluateFull { alterations := [] }, rfl,
    ⟨update_agree st, hr, i1.objective, i1.violation, i2, i3⟩⟩

/-- Every run: the incumbents are those of a history of offers, and these offers describe, one by one and in order,
the assignments that the events lead to (computed in Spec/Search without the model): the values, the objective, the
total violation (up to `e` for each move since the last start), the feasibility mark and the augmented objective. -/
theorem history {m0 : MState} {e : ℚ} {cfg : Cfg} (hs : Setting cfg m0) (he : Err m0 e) (es : List Event) (s : St)
    (hle : ∀ ev ∈ es, LegalEvent cfg m0 ev) (h : run cfg es (begin m0) = some s) :
    ∃ calls : List (HolderCall Dense), s.holder = C11.after calls ∧
      List.Forall₂ (Describes m0 e) (C11.offers calls) (all m0 es) := by
  obtain ⟨i1, d, sc, e1, f1⟩ := begin_inv (e := e) hs
  obtain ⟨-, calls, e2, f2⟩ := run_inv hs he es _ s _ i1 hle h
  refine ⟨.offer d sc :: calls, ?_, List.Forall₂.cons f1 f2⟩
  rw [e2, e1]; rfl

theorem forall₂_left {α β} {R : α → β → Prop} {l k} (h : List.Forall₂ R l k) : ∀ a ∈ l, ∃ b ∈ k, R a b := by
  induction h with
  | nil => simp
  | cons hr _ ih =>
    intro a ha
    rcases List.mem_cons.1 ha with rfl | ha
    · exact ⟨_, by simp, hr⟩
    · obtain ⟨b, hb, r⟩ := ih a ha; exact ⟨b, by simp [hb], r⟩

theorem forall₂_right {α β} {R : α → β → Prop} {l k} (h : List.Forall₂ R l k) : ∀ b ∈ k, ∃ a ∈ l, R a b := by
  induction h with
  | nil => simp
  | cons hr _ ih =>
    intro b hb
    rcases List.mem_cons.1 hb with rfl | hb
    · exact ⟨_, by simp, hr⟩
    · obtain ⟨a, ha, r⟩ := ih b hb; exact ⟨a, by simp [ha], r⟩

/-- The best of the offers, as far as they describe the assignments of a list. -/
theorem judged {m0 : MState} {e : ℚ} (hpen : 0 ≤ m0.globalPen) (l : List (Dense × Score)) (L : List ((ℕ → ℤ) × ℕ))
    (fa : List.Forall₂ (Describes m0 e) l L) (d : Dense) (hch : C59.Chosen l d) :
    ∃ q ∈ L, ∃ sc, (d, sc) ∈ l ∧ Describes m0 e (d, sc) q ∧
      ((∃ p ∈ L, totalViolation m0 p.1 + p.2 * e ≤ 1e-5) →
        totalViolation m0 q.1 ≤ 1e-5 + q.2 * e ∧
        ∀ p ∈ L, totalViolation m0 p.1 + p.2 * e ≤ 1e-5 → minObjective m0 q.1 ≤ minObjective m0 p.1 + 1e-5) ∧
      ((∀ p ∈ L, 1e-5 + p.2 * e < totalViolation m0 p.1) → ∀ p ∈ L,
        minObjective m0 q.1 + totalViolation m0 q.1 * m0.globalPen ≤
          minObjective m0 p.1 + totalViolation m0 p.1 * m0.globalPen + 1e-5 + (q.2 * e + p.2 * e) * m0.globalPen) := by
  have tvb : ∀ p q, Describes m0 e p q → p.2.totalViolation ≤ totalViolation m0 q.1 + q.2 * e ∧
      totalViolation m0 q.1 ≤ p.2.totalViolation + q.2 * e := by
    intro p q hd
    have := abs_le.1 hd.violation
    constructor <;> linarith [this.1, this.2]
  have feas : ∀ p q, Describes m0 e p q → totalViolation m0 q.1 + q.2 * e ≤ 1e-5 → p.2.isFeasible = true :=
    fun p q hd hq => hd.feasible.2 ((tvb p q hd).1.trans hq)
  rcases hch with ⟨sc, hm, hf, hb⟩ | ⟨hnone, sc, hm, hb⟩
  · obtain ⟨q, hq, hdes⟩ := forall₂_left fa _ hm
    refine ⟨q, hq, sc, hm, hdes, fun _ => ⟨?_, fun p hp hpf => ?_⟩,
      fun hall => ?_⟩
    · exact (tvb _ _ hdes).2.trans (by have := hdes.feasible.1 hf; linarith)
    · obtain ⟨a, ha, hda⟩ := forall₂_right fa p hp
      have := hb a ha (feas a p hda hpf)
      have e1 := hdes.objective
      dsimp only at e1
      rw [e1, hda.objective] at this
      exact this
    · have := hall q hq
      have h5 := (tvb _ _ hdes).2
      have h6 := hdes.feasible.1 hf
      linarith
  · obtain ⟨q, hq, hdes⟩ := forall₂_left fa _ hm
    refine ⟨q, hq, sc, hm, hdes, fun hex => ?_, fun hall p hp => ?_⟩
    · obtain ⟨p, hp, hpf⟩ := hex
      obtain ⟨a, ha, hda⟩ := forall₂_right fa p hp
      have := hnone a ha
      rw [feas a p hda hpf] at this
      exact absurd this (by decide)
    · obtain ⟨a, ha, hda⟩ := forall₂_right fa p hp
      have hle2 := hb a ha
      have e1 := hdes.augmented
      have e2 := hdes.objective
      have e3 := hda.augmented
      have e4 := hda.objective
      have t1 := (tvb _ _ hdes).2
      have t2 := (tvb _ _ hda).1
      dsimp only at e1 e2 e3 e4 t1 t2
      rw [e1, e3, e2, e4] at hle2
      nlinarith [mul_le_mul_of_nonneg_right t1 hpen, mul_le_mul_of_nonneg_right t2 hpen]

/-- The guarantee with the tolerance `e` per move: what `solve` reports is a visited assignment `q`.
If some visited assignment is feasible beyond doubt, the reported one is feasible up to the accumulated error and its
objective is at most `1e-5` above that of every such assignment; if none can pass as feasible, its augmented objective
is within `1e-5` and the accumulated errors of all others. -/
theorem reported_with_tolerance {m0 : MState} {e : ℚ} {cfg : Cfg} (hs : Setting cfg m0) (he : Err m0 e)
    (hpen : 0 ≤ m0.globalPen) (es : List Event) (hle : ∀ ev ∈ es, LegalEvent cfg m0 ev) (r : Named) (m' : MState)
    (h : solve cfg m0 es = some (r, m')) :
    ∃ q ∈ all m0 es, Agree m0 r.values q.1 ∧ InRange m0 r.values ∧ C59.Consistent m0 r ∧
      ((∃ p ∈ all m0 es, totalViolation m0 p.1 + p.2 * e ≤ 1e-5) →
        totalViolation m0 q.1 ≤ 1e-5 + q.2 * e ∧
        ∀ p ∈ all m0 es, totalViolation m0 p.1 + p.2 * e ≤ 1e-5 → minObjective m0 q.1 ≤ minObjective m0 p.1 + 1e-5) ∧
      ((∀ p ∈ all m0 es, 1e-5 + p.2 * e < totalViolation m0 p.1) → ∀ p ∈ all m0 es,
        minObjective m0 q.1 + totalViolation m0 q.1 * m0.globalPen ≤
          minObjective m0 p.1 + totalViolation m0 p.1 * m0.globalPen + 1e-5 + (q.2 * e + p.2 * e) * m0.globalPen) := by
  obtain ⟨s, h1, h2⟩ := Option.bind_eq_some_iff.1 h
  obtain ⟨calls, ec, fa⟩ := history hs he es s hle h1
  obtain ⟨⟨q', i⟩, -⟩ := run_inv hs he es _ s _ (begin_inv (e := e) hs).1 hle h1
  obtain ⟨⟨l, g, hn, st⟩, hl, hag, hr, -, -⟩ := i
  unfold postprocess at h2
  rw [ec] at h2
  obtain ⟨d, hd, h2⟩ := Option.bind_eq_some_iff.1 h2
  obtain ⟨m1, h3, h4⟩ := Option.map_eq_some_iff.1 h2
  simp only [Prod.mk.injEq] at h4
  obtain ⟨rfl, rfl⟩ := h4
  have hne : C11.offers calls ≠ [] := by
    intro hnil; rw [hnil] at fa; cases fa
  have hch := C59.slot calls d hd hne
  obtain ⟨st1, ag1, r1, hcon⟩ := import_facts hs st d h3 q'.1 hag hr
  -- the reported values are those of any visited assignment that the chosen solution describes
  have hrep : ∀ sc q, Describes m0 e (d, sc) q → Agree m0 (exportNamed m1.update).values q.1 := by
    intro sc q hq v hv
    have e1 : (exportNamed m1.update).values v = assignment m1.update v := rfl
    rw [e1, update_agree st1 v hv, ag1 v hv]
    show (if v ∈ m0.varIds ∧ (m0.var v).fixed = false then d.values v else assignment m0 v) = _
    have hv2 := hq.values v hv
    by_cases hc : v ∈ m0.varIds ∧ (m0.var v).fixed = false
    · rw [if_pos hc]; exact hv2
    · rw [if_neg hc]
      refine (hq.range.fixed v hv ?_).symm
      by_cases hm : v ∈ m0.varIds
      · right
        cases hf : (m0.var v).fixed
        · exact absurd ⟨hm, hf⟩ hc
        · rfl
      · exact Or.inl hm
  have hcons : C59.Consistent m0 (exportNamed m1.update) := by
    have hc := C59.export_consistent m1
    have hv : ∀ c σ, exprValue (m1.con c).expr σ = exprValue (m0.con c).expr σ := fun c σ => st1.shape.conValue c σ
    have hvi : ∀ c σ, violation (m1.con c) σ = violation (m0.con c) σ := fun c σ => st1.shape.violation c σ
    have hids : m1.conIds = m0.conIds := st1.shape.conIds
    refine ⟨fun c hcm => ?_, fun ho => ?_, ?_, ?_⟩
    · have := hc.con c (by rw [hids]; exact hcm); rw [hv, hvi] at this; exact this
    · rw [hc.objective (by rw [st1.shape.objDefined]; exact ho), exprValue, exprValue, st1.shape.objTerms, st1.shape.objConst]
      rfl
    · rw [hc.totalViolation, hids]; exact sum_map_congr _ _ _ fun c _ => hvi c _
    · rw [hc.feasible, hids]
      have hen : ∀ c, (m1.con c).enabled = (m0.con c).enabled := st1.shape.conEnabled
      constructor
      · intro hh c hcm hec; rw [← hvi]; exact hh c hcm (by rw [hen]; exact hec)
      · intro hh c hcm hec; rw [hvi]; exact hh c hcm (by rw [← hen]; exact hec)
  obtain ⟨q, hq, sc, -, hdes, h5, h6⟩ := judged hpen _ _ fa d hch
  exact ⟨q, hq, hrep sc q hdes, hdes.range.congr (Agree.symm (hrep sc q hdes)), hcons, h5, h6⟩

/-- The guarantee for models whose numbers are multiples of some `g > 1e-10` (for instance integers, or decimals with
at most nine digits after the point), without any error term: `solve` reports a visited assignment (up to the dependent
variables, which are computed from the others), within the bounds and with the fixed values, with the numbers that
belong to it.  If the search met a feasible assignment, the reported one is feasible and at most `1e-5` worse than any
feasible one met; otherwise its augmented objective is at most `1e-5` above that of any assignment met. -/
theorem reported_is_best_visited {m0 : MState} {cfg : Cfg} (hs : Setting cfg m0) (g : ℚ) (hg : 1e-10 < g)
    (hgrid : OnGrid m0 g) (es : List Event) (hle : ∀ ev ∈ es, LegalEvent cfg m0 ev)
    (hpen : 0 ≤ m0.globalPen) (r : Named) (m' : MState) (h : solve cfg m0 es = some (r, m')) :
    ∃ q ∈ all m0 es, Agree m0 r.values q.1 ∧ InRange m0 r.values ∧ C59.Consistent m0 r ∧
      ((∃ p ∈ all m0 es, totalViolation m0 p.1 ≤ 1e-5) →
        totalViolation m0 q.1 ≤ 1e-5 ∧
        ∀ p ∈ all m0 es, totalViolation m0 p.1 ≤ 1e-5 → minObjective m0 q.1 ≤ minObjective m0 p.1 + 1e-5) ∧
      ((∀ p ∈ all m0 es, 1e-5 < totalViolation m0 p.1) → ∀ p ∈ all m0 es,
        minObjective m0 q.1 + totalViolation m0 q.1 * m0.globalPen ≤
          minObjective m0 p.1 + totalViolation m0 p.1 * m0.globalPen + 1e-5) := by
  obtain ⟨q, hq, h1, h2, h3, h4, h5⟩ := reported_with_tolerance hs (Or.inr ⟨rfl, g, hg, hgrid⟩) hpen es hle r m' h
  simp only [mul_zero, add_zero, zero_mul] at h4 h5
  exact ⟨q, hq, h1, h2, h3, h4, h5⟩

/-! ### No exception -/

/-- Values that the solver accepts: every selection has exactly one variable with value 1 and otherwise zeros, 0/1
variables are 0 or 1, integer variables are within their bounds. -/
structure Good (cfg : Cfg) (m : MState) (σ : ℕ → ℤ) : Prop where
  sel : ∀ s ∈ cfg.sels, (∀ v ∈ (m.con s).expr.vars, σ v = 0 ∨ σ v = 1) ∧
    ((m.con s).expr.vars.filter (fun v => σ v = 1)).length = 1
  binary : ∀ v ∈ m.varIds, (m.var v).sense = .binary → σ v = 0 ∨ σ v = 1
  integer : ∀ v ∈ m.varIds, (m.var v).sense = .integer → (m.var v).lb ≤ σ v ∧ σ v ≤ (m.var v).ub

theorem Good.congr {cfg : Cfg} {m : MState} {σ τ : ℕ → ℤ} (h : Good cfg m σ) (hs : Setting cfg m)
    (hdep : ∀ v ∈ m.dependents.map Prod.fst, (m.var v).sense = .dependentBinary ∨ (m.var v).sense = .dependentInteger)
    (a : Agree m σ τ) : Good cfg m τ := by
  have hsel : ∀ s ∈ cfg.sels, ∀ v ∈ (m.con s).expr.vars, σ v = τ v := fun s hsm v hv => a v (fun hd => by
    have := hs.ready.sense s hsm v hv
    rcases hdep v hd with h1 | h1 <;> rw [h1] at this <;> exact absurd this (by decide))
  refine ⟨fun s hsm => ⟨fun v hv => ?_, ?_⟩, fun v hv hb => ?_, fun v hv hi => ?_⟩
  · rw [← hsel s hsm v hv]; exact (h.sel s hsm).1 v hv
  · rw [← (h.sel s hsm).2]
    congr 1
    refine List.filter_congr fun v hv => ?_
    rw [hsel s hsm v hv]
  · rw [← a v (fun hd => by rcases hdep v hd with h1 | h1 <;> rw [h1] at hb <;> exact absurd hb (by decide))]
    exact h.binary v hv hb
  · rw [← a v (fun hd => by rcases hdep v hd with h1 | h1 <;> rw [h1] at hi <;> exact absurd hi (by decide))]
    exact h.integer v hv hi

theorem import_accepts {m0 m : MState} {l g} {cfg : Cfg} (hs : Setting cfg m0) (st : Stat m0 l g m) (d : Dense)
    (hdep : ∀ v ∈ m0.dependents.map Prod.fst, (m0.var v).sense = .dependentBinary ∨ (m0.var v).sense = .dependentInteger)
    (σ : ℕ → ℤ) (hag : Agree m0 (assignment m) σ) (hr : InRange m0 σ)
    (hg : Good cfg m0 (visit m0 σ (.start d.values))) : ∃ m1, importDense cfg.sels d m = some m1 := by
  unfold importDense
  have st1 : Stat m0 l g { m with
      var := fun v => if v ∈ m.varIds then (m.var v).setValueIfMutable (d.values v) else m.var v } := by
    refine st.withVars _ m.selected ?_ ?_ ?_ ?_ <;> intro v <;> split <;>
      first | rfl | exact (mutable_frame _ _).1 | exact (mutable_frame _ _).2.1 | exact (mutable_frame _ _).2.2.1 |
        exact (mutable_frame _ _).2.2.2.1
  have hready := stat_ready st1 hs.ready
  have hagree : Agree m0 (visit m0 σ (.start d.values)) (assignment { m with
      var := fun v => if v ∈ m.varIds then (m.var v).setValueIfMutable (d.values v) else m.var v }) := by
    intro v hv
    show (if v ∈ m0.varIds ∧ (m0.var v).fixed = false then d.values v else assignment m0 v) =
      (if v ∈ m.varIds then (m.var v).setValueIfMutable (d.values v) else m.var v).value
    have hk : (v ∉ m0.varIds ∨ (m0.var v).fixed = true) → assignment m0 v = (m.var v).value := fun hf => by
      have : (m.var v).value = σ v := hag v hv
      rw [this]; exact (hr.fixed v hv hf).symm
    rw [st.varIds]
    by_cases hm : v ∈ m0.varIds
    · rw [if_pos hm, (mutable_frame _ _).2.2.2.2, stat_fixed st]
      cases hf : (m0.var v).fixed
      · simp [hm]
      · simp [hk (Or.inr hf)]
    · rw [if_neg hm, if_neg (fun hh => hm hh.1)]; exact hk (Or.inl hm)
  have hg2 := hg.congr hs hdep hagree
  obtain ⟨m1, h1, -⟩ := C51.good_values_are_accepted false cfg.sels _ hready
    (fun s hsm => by rw [stat_vars st1]; exact hg2.sel s hsm)
    (fun v hv hb => by rw [st1.varIds] at hv; rw [st1.sense] at hb; exact hg2.binary v hv hb)
    (fun v hv hb => by rw [st1.varIds] at hv; rw [st1.sense] at hb; rw [st1.lb, st1.ub]; exact hg2.integer v hv hb)
  exact ⟨m1, h1⟩

theorem run_exists {m0 : MState} {e : ℚ} {cfg : Cfg} (hs : Setting cfg m0) (he : Err m0 e)
    (hdep : ∀ v ∈ m0.dependents.map Prod.fst, (m0.var v).sense = .dependentBinary ∨ (m0.var v).sense = .dependentInteger)
    (es : List Event) (s : St) (q : (ℕ → ℤ) × ℕ) (hi : Inv m0 e s q) (hle : ∀ ev ∈ es, LegalEvent cfg m0 ev)
    (hgood : ∀ p ∈ visited m0 q (es.map visitOf), Good cfg m0 p.1) : ∃ s', run cfg es s = some s' := by
  induction es generalizing s q with
  | nil => exact ⟨s, rfl⟩
  | cons ev es ih =>
    have hstep : ∃ s1, step cfg s ev = some s1 := by
      cases ev with
      | start d =>
        obtain ⟨⟨l, g, hn, st⟩, hl, hag, hr, ho, hv⟩ := hi
        obtain ⟨m1, h1⟩ := import_accepts hs st d hdep q.1 hag hr (hgood (visit m0 q.1 (.start d.values), 0) (by
          simp [visited, visitOf]))
        exact ⟨_, by simp only [step, h1, Option.map_some]; rfl⟩
      | move mv ren => exact ⟨_, rfl⟩
      | relax low => exact ⟨_, rfl⟩
      | penalties l g => exact ⟨_, rfl⟩
    obtain ⟨s1, h1⟩ := hstep
    obtain ⟨i1, -⟩ := step_inv hs he s s1 q hi ev (hle ev (by simp)) h1
    obtain ⟨s', h2⟩ := ih s1 _ i1 (fun ev' hev => hle ev' (by simp [hev])) (fun p hp => hgood p (by
      rw [List.map_cons, visited_cons]; exact List.mem_append_right _ hp))
    exact ⟨s', by unfold run; rw [h1]; exact h2⟩

/-- If the assignments that the events lead to have acceptable values (in particular: every selection has exactly one
selected variable), no search and no import throws, and `solve` reports a solution. -/
theorem never_throws {m0 : MState} {cfg : Cfg} (hs : Setting cfg m0)
    (hdep : ∀ v ∈ m0.dependents.map Prod.fst, (m0.var v).sense = .dependentBinary ∨ (m0.var v).sense = .dependentInteger)
    (es : List Event) (hle : ∀ ev ∈ es, LegalEvent cfg m0 ev) (hgood : ∀ p ∈ all m0 es, Good cfg m0 p.1) :
    ∃ r m', solve cfg m0 es = some (r, m') := by
  have he : Err m0 (m0.conIds.length * (1e-10 : ℚ)) := Or.inl rfl
  have hb := (begin_inv (e := m0.conIds.length * (1e-10 : ℚ)) hs).1
  obtain ⟨s, h1⟩ := run_exists hs he hdep es _ _ hb hle (fun p hp => hgood p (List.mem_cons_of_mem _ hp))
  obtain ⟨calls, ec, fa⟩ := history hs he es s hle h1
  obtain ⟨⟨q', i⟩, -⟩ := run_inv hs he es _ s _ hb hle h1
  obtain ⟨⟨l, g, hn, st⟩, hl, hag, hr, -, -⟩ := i
  have hne : C11.offers calls ≠ [] := by
    intro hnil; rw [hnil] at fa; cases fa
  have hsome : ∃ d, (if (C11.after calls).found then (C11.after calls).feasSol else (C11.after calls).globalSol) = some d := by
    obtain ⟨h2, h3⟩ := C11.feasible_incumbent_is_best calls
    have h4 := C11.global_incumbent_is_best calls
    dsimp only at h2 h3 h4
    split
    · next hf =>
      rcases h3 with ⟨-, h3⟩ | ⟨x, sc, hm, -, e, -, -⟩
      · exact absurd h3 (h2.1 hf)
      · exact ⟨x, e⟩
    · rcases h4 with ⟨-, h4⟩ | ⟨x, sc, hm, -, e, -, -⟩
      · exact absurd h4 hne
      · exact ⟨x, e⟩
  obtain ⟨d, hd⟩ := hsome
  have hmem : ∃ sc, (d, sc) ∈ C11.offers calls := by
    rcases C59.slot calls d hd hne with ⟨sc, hm, -, -⟩ | ⟨-, sc, hm, -⟩ <;> exact ⟨sc, hm⟩
  obtain ⟨sc, hm⟩ := hmem
  obtain ⟨p, hp, hdes⟩ := forall₂_left fa _ hm
  have hvis : Agree m0 p.1 (visit m0 q'.1 (.start d.values)) := by
    intro v hv
    show p.1 v = if v ∈ m0.varIds ∧ (m0.var v).fixed = false then d.values v else assignment m0 v
    by_cases hc : v ∈ m0.varIds ∧ (m0.var v).fixed = false
    · rw [if_pos hc]; exact (hdes.values v hv).symm
    · rw [if_neg hc]
      refine hdes.range.fixed v hv ?_
      by_cases hm : v ∈ m0.varIds
      · right
        cases hf : (m0.var v).fixed
        · exact absurd ⟨hm, hf⟩ hc
        · rfl
      · exact Or.inl hm
  obtain ⟨m1, h5⟩ := import_accepts hs st d hdep q'.1 hag hr ((hgood p hp).congr hs hdep hvis)
  refine ⟨exportNamed m1.update, m1.update, ?_⟩
  unfold solve
  rw [h1, Option.bind_some]
  unfold postprocess
  rw [ec, hd, Option.bind_some, h5, Option.map_some]

/-! ### Non-vacuity

`x0 + x1 = 1` is a selection (its constraint is disabled), `x2` an integer variable in `[0, 5]`, `x3` is defined as
`x2 + x0`.  Minimise `x2 - 2 x0` under `2 x0 + x2 <= 4`, `x1 + x2 >= 1`. -/

private def selVar (x : ℤ) : Var := { Example.bin0 with sense := .selection, value := x }.updateMargin
private def kinds : ℕ → VarSense := fun v => if v = 2 then .integer else .selection
private def m0 : MState := MState.setupSens { Example.raw with
  var := fun v => if v = 0 then selVar 0 else if v = 1 then selVar 1 else if v = 2 then Example.int5
    else { Example.int5 with sense := .dependentInteger, lb := -10, ub := 10 }
  varIds := [0, 1, 2, 3]
  con := fun c => if c = 0 then { Con.setup ⟨[(0, 1), (1, 1)], -1, 0⟩ .equal kinds with enabled := false }
    else if c = 1 then { Con.setup ⟨[(0, 2), (2, 1)], -4, 0⟩ .less kinds with penLess := 10, penGreater := 10 }
    else { Con.setup ⟨[(1, 1), (2, 1)], -1, 0⟩ .greater kinds with penLess := 10, penGreater := 10 }
  uexpr := fun _ => { expr := ⟨[(2, 1), (0, 1)], 0, 0⟩ }
  uexprIds := [0]
  dependents := [(3, 0)]
  obj := ⟨[(0, -2), (2, 1)], 0, 0⟩ }
private def cfg : Cfg := { fast := true, sels := [0], selRel := fun _ => [1, 2] }
private def swap : Move := { alterations := [(0, 1), (1, 0)], sense := .selection, related := [1, 2], isSelection := true }
private def step2 (x : ℤ) : Move := { alterations := [(2, x)], related := [1, 2], isUnivariable := true }
private def both : Move := { alterations := [(2, 0), (0, 0), (1, 1)], related := [1, 2] }
private def events : List Event := [.move (step2 1) false, .penalties (fun _ => 3) (fun _ => 4), .move swap false,
  .start ⟨fun v => if v = 1 then 1 else if v = 0 then 0 else 2, 0, 0, 0, false⟩, .move both true]

private theorem m0_wf : WellFormed m0 where
  conIds := by decide
  con c hc := by
    have hc' : c ∈ [0, 1, 2] := hc
    simp only [List.mem_cons, List.not_mem_nil, or_false] at hc'
    rcases hc' with rfl | rfl | rfl <;> decide +kernel
  obj := by decide
  uexpr i _ := by show (([(2, (1 : ℚ)), (0, 1)] : List (ℕ × ℚ)).map Prod.fst).Nodup; decide

private theorem setting : Setting cfg m0 where
  wf := m0_wf
  ready := ⟨by decide, by decide, by decide, by decide, by decide, by decide, by decide⟩
  unit := by decide
  kinds := by decide
  start := by decide
  sens v := C07.setupSens_ok _ ⟨m0_wf.conIds, m0_wf.con, m0_wf.obj, m0_wf.uexpr⟩ v
  maxLe := by decide +kernel
  maxEq := by decide +kernel
  onlyBin := by decide +kernel
  noDep := ⟨by decide, by decide +kernel, by decide +kernel⟩
  pen c := by
    show 0 ≤ (Con.penLess (if _ then _ else if _ then _ else _)) ∧ 0 ≤ (Con.penGreater (if _ then _ else if _ then _ else _))
    split
    · decide +kernel
    · split <;> decide +kernel

private theorem in12 : ∀ c ∈ m0.conIds, (m0.con c).enabled = true → c ∈ [1, 2] := by decide
private theorem relOK (v w) : C09.RelOK m0 [1, 2] v w := ⟨by decide, by decide, fun c hc he _ => in12 c hc he⟩
private theorem covers (alts) : Covers m0 alts [1, 2] := ⟨List.Nodup.filter _ (by decide), by decide, fun c hc he _ => in12 c hc he⟩

private theorem legal : ∀ ev ∈ events, LegalEvent cfg m0 ev := by
  intro ev hev
  simp only [events, List.mem_cons, List.not_mem_nil, or_false] at hev
  rcases hev with rfl | rfl | rfl | rfl | rfl
  · exact ⟨by decide, by decide, covers _, fun _ => ⟨2, 1, rfl⟩, fun h => absurd h (by decide)⟩
  · intro c; norm_num
  · exact ⟨by decide, by decide, covers _, fun h => absurd h (by decide), fun _ _ => ⟨0, 1, 1, 0, rfl, relOK _ _⟩⟩
  · trivial
  · exact ⟨by decide, by decide, covers _, fun h => absurd h (by decide), fun _ h => absurd h (by decide)⟩

/-- All numbers of the example are integers. -/
example : OnGrid m0 1 := ⟨fun c hc he => by
    have hc' : c ∈ [0, 1, 2] := hc
    simp only [List.mem_cons, List.not_mem_nil, or_false] at hc'
    rcases hc' with rfl | rfl | rfl
    · exact absurd he (by decide)
    · exact ⟨-4, by decide +kernel⟩
    · exact ⟨-1, by decide +kernel⟩, fun c hc he t ht => by
    have hc' : c ∈ [0, 1, 2] := hc
    simp only [List.mem_cons, List.not_mem_nil, or_false] at hc'
    have key : ∀ c ∈ m0.conIds, ∀ t ∈ (m0.con c).expr.terms, t.2 = 1 ∨ t.2 = 2 := by decide +kernel
    rcases key c hc t ht with h | h
    · exact ⟨1, by rw [h]; norm_num⟩
    · exact ⟨2, by rw [h]; norm_num⟩⟩

/-- The run of the example does not throw; it reports the second of the five assignments visited after the start:
`x0 = 1, x1 = 0, x2 = 1`, with the dependent variable `x3 = 2`. -/
example : ((solve cfg m0 events).map (fun p => ([0, 1, 2, 3].map p.1.values, p.1.objective, p.1.feasible)))
    = some ([1, 0, 1, 2], -1, true) := by decide +kernel
example : (all m0 events).map (fun q => ([0, 1, 2].map q.1, q.2)) =
    [([0, 1, 0], 0), ([0, 1, 1], 1), ([1, 0, 1], 2), ([0, 1, 2], 0), ([0, 1, 0], 1)] := by decide +kernel
/-- ... and all assignments visited are acceptable. -/
example : ∀ p ∈ all m0 events, Good cfg m0 p.1 := by
  have h : ∀ p ∈ all m0 events,
      (∀ s ∈ cfg.sels, (∀ v ∈ (m0.con s).expr.vars, p.1 v = 0 ∨ p.1 v = 1) ∧
        ((m0.con s).expr.vars.filter (fun v => p.1 v = 1)).length = 1) ∧
      (∀ v ∈ m0.varIds, (m0.var v).sense = .binary → p.1 v = 0 ∨ p.1 v = 1) ∧
      (∀ v ∈ m0.varIds, (m0.var v).sense = .integer → (m0.var v).lb ≤ p.1 v ∧ p.1 v ≤ (m0.var v).ub) := by decide +kernel
  exact fun p hp => ⟨(h p hp).1, (h p hp).2.1, (h p hp).2.2⟩
example : ∀ v ∈ m0.dependents.map Prod.fst, (m0.var v).sense = .dependentBinary ∨ (m0.var v).sense = .dependentInteger := by
  decide
example : Setting cfg m0 ∧ ∀ ev ∈ events, LegalEvent cfg m0 ev := ⟨setting, legal⟩

end Printemps.C66
