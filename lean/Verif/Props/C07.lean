import Verif.Lemmas.Fast
import Verif.Lemmas.Example
import Verif.Props.C06

/-! # C07 — fast single-variable scoring equals full scoring -/

namespace Printemps.C07
open Spec

/-- The cached per-variable list names exactly the constraints containing `v`, once each, with the
coefficient of `v`. -/
def SensOK (m : MState) (v : ℕ) : Prop :=
  ((m.sens v).map Prod.fst).Nodup ∧
  ∀ c q, (c, q) ∈ m.sens v ↔ c ∈ m.conIds ∧ (v, q) ∈ (m.con c).expr.terms

/-- Facts about the skip flag: it is set only for constraints marked as having only 0/1 variables, for these the
recorded maximal coefficient bounds all coefficients, and a set flag means that the margin is at least the maximal
coefficient, up to `tol`. -/
structure FlagOK (m : MState) (tol : ℚ) : Prop where
  maxAbs : ∀ c ∈ m.conIds, (m.con c).onlyBinaryVar = true → ∀ t ∈ (m.con c).expr.terms, |t.2| ≤ (m.con c).maxAbs
  margin : ∀ c ∈ m.conIds, (m.con c).enabled = true → (m.con c).hasMargin = true →
    (m.con c).margin ≥ (m.con c).maxAbs - tol
  marked : ∀ c ∈ m.conIds, (m.con c).hasMargin = true → (m.con c).onlyBinaryVar = true

/-- The constraints the fast path skips for variable `v`. -/
def skipped (m : MState) (v : ℕ) : List ℕ :=
  m.conIds.filter (fun c => (m.con c).enabled && (m.con c).hasMargin &&
    decide (v ∈ (m.con c).expr.terms.map Prod.fst))

theorem sens_sum (m : MState) (hw : WellFormed m) (v) (hs : SensOK m v) (F : ℕ × ℚ → ℚ) :
    ((m.sens v).map F).sum = (m.conIds.map (fun c =>
      if v ∈ (m.con c).expr.terms.map Prod.fst then F (c, Expr.lookup (m.con c).expr.terms v) else 0)).sum := by
  have e : ((m.sens v).map F).sum = (((m.sens v).map Prod.fst).map (fun c =>
      if v ∈ (m.con c).expr.terms.map Prod.fst then F (c, Expr.lookup (m.con c).expr.terms v) else 0)).sum := by
    rw [List.map_map]
    refine sum_map_congr _ _ _ fun s hsm => ?_
    obtain ⟨c, q⟩ := s
    obtain ⟨hcm, hq⟩ := (hs.2 c q).1 hsm
    simp only [Function.comp]
    rw [if_pos (List.mem_map.2 ⟨_, hq, rfl⟩), Expr.lookup_of_mem _ (hw.con c hcm) _ _ hq]
  rw [e]
  symm
  refine sum_subset _ _ _ hw.conIds hs.1 ?_ ?_
  · intro c hc
    obtain ⟨⟨c', q⟩, h1, rfl⟩ := List.mem_map.1 hc
    exact ((hs.2 c' q).1 h1).1
  · intro c hcm hn
    rw [if_neg]
    intro hv
    obtain ⟨⟨v', q⟩, h1, h2⟩ := List.mem_map.1 hv
    simp only at h2; subst h2
    exact hn (List.mem_map.2 ⟨(c, q), (hs.2 c q).2 ⟨hcm, h1⟩, rfl⟩)

/-- General statement, with an explicit tolerance: the fast score differs from the quantities of the
moved assignment by at most `tol` per skipped constraint (times its penalty weights for the local
penalty); the objective is exact. -/
theorem single_score_within_tolerance (m : MState) (mv : Move) (v : ℕ) (x : ℤ)
    (hmv : mv.alterations = [(v, x)]) (cur : Score) (tol : ℚ) (ht : 0 ≤ tol)
    (hw : WellFormed m) (hc : Current m) (hs : SensOK m v) (hf : FlagOK m tol)
    (htv : cur.totalViolation = totalViolation m (assignment m))
    (hlp : cur.localPenalty = localPenalty m (assignment m))
    (hstep : skipped m v ≠ [] → |x - assignment m v| ≤ 1)
    (hpen : ∀ c ∈ m.conIds, 0 ≤ (m.con c).penLess ∧ 0 ≤ (m.con c).penGreater) :
    let σ' := applyMove (assignment m) mv.alterations
    let s := m.evaluateSingle mv cur
    |s.totalViolation - totalViolation m σ'| ≤ (skipped m v).length * tol ∧
    |s.localPenalty - localPenalty m σ'|
      ≤ tol * ((skipped m v).map (fun c => (m.con c).penLess + (m.con c).penGreater)).sum ∧
    s.objective = minObjective m σ' ∧
    s.objectiveImprovement = minObjective m (assignment m) - minObjective m σ' := by
  intro σ' s
  have hd : (mv.alterations.map Prod.fst).Nodup := by rw [hmv]; simp
  have hobj := C06.full_score_describes_moved_assignment m mv hw hc hd
  obtain ⟨ho, -, -, -, -, -, -, hoi, -⟩ := hobj
  -- one constraint
  have key : ∀ c ∈ m.conIds,
      let g := fun F : ℕ × ℚ → ℚ => if v ∈ (m.con c).expr.terms.map Prod.fst then
        F (c, Expr.lookup (m.con c).expr.terms v) else 0
      |g (m.sensTV Con.ignorable (x - assignment m v)) - m.dTV (assignment m) σ' c|
        ≤ (if (m.con c).enabled && (m.con c).hasMargin &&
            decide (v ∈ (m.con c).expr.terms.map Prod.fst) then tol else 0) ∧
      |g (m.sensLP Con.ignorable (x - assignment m v)) - m.dLP (assignment m) σ' c|
        ≤ (if (m.con c).enabled && (m.con c).hasMargin &&
            decide (v ∈ (m.con c).expr.terms.map Prod.fst) then
            tol * ((m.con c).penLess + (m.con c).penGreater) else 0) := by
    intro c hcm g
    have hσ' : σ' = applyMove (assignment m) [(v, x)] := by show applyMove _ mv.alterations = _; rw [hmv]
    by_cases hv : v ∈ (m.con c).expr.terms.map Prod.fst
    · by_cases he : (m.con c).enabled = true
      · by_cases hm : (m.con c).hasMargin = true
        · -- skipped
          have hig : Con.ignorable (m.con c) = true := by simp [Con.ignorable, he, hm]
          have z1 : g (m.sensTV Con.ignorable (x - assignment m v)) = 0 := by
            simp only [g, hv, if_true, MState.sensTV, hig]
          have z2 : g (m.sensLP Con.ignorable (x - assignment m v)) = 0 := by
            simp only [g, hv, if_true, MState.sensLP, hig]
          have hne : skipped m v ≠ [] := by
            intro h0
            have : c ∈ skipped m v := by
              simp only [skipped, List.mem_filter]; exact ⟨hcm, by simp only [he, hm, hv]; rfl⟩
            rw [h0] at this; simp at this
          have hst := hstep hne
          have hcc := hc.con c hcm he
          have hev := MState.exprValue_single (m.con c).expr (hw.con c hcm) (assignment m) v x
          have hM : |exprValue (m.con c).expr σ' - exprValue (m.con c).expr (assignment m)|
              ≤ (m.con c).maxAbs := by
            rw [hσ', hev, add_sub_cancel_left, abs_mul]
            have h1 := hf.maxAbs c hcm (hf.marked c hcm hm) _ (Expr.mem_of_mem_keys _ (hw.con c hcm) v hv)
            have h2 : |(((x - assignment m v : ℤ)) : ℚ)| ≤ 1 := by exact_mod_cast hst
            calc _ ≤ |Expr.lookup (m.con c).expr.terms v| * 1 :=
                  mul_le_mul_of_nonneg_left h2 (abs_nonneg _)
              _ ≤ _ := by simpa using h1
          have hsl : (cmpOf (m.con c).sense).slack (exprValue (m.con c).expr (assignment m)) 0
              ≥ (m.con c).maxAbs - tol := by
            rw [← hcc.margin]; exact hf.margin c hcm he hm
          rw [z1, z2]
          have hcond : ((m.con c).enabled && (m.con c).hasMargin &&
            decide (v ∈ (m.con c).expr.terms.map Prod.fst)) = true := by simp only [he, hm, hv]; rfl
          rw [if_pos hcond, if_pos hcond]
          simp only [MState.dTV, MState.dLP, he, if_true, zero_sub, abs_neg, Con.violation_eq, Con.penalty_eq]
          exact ⟨tvPart_skip _ _ _ _ _ ht hM hsl,
            lpPart_skip _ _ _ _ _ ht hM hsl (hpen c hcm).1 (hpen c hcm).2⟩
        · have hig : Con.ignorable (m.con c) = false := by simp [Con.ignorable, he, hm]
          have := MState.sens_eq m hw hc v x Con.ignorable c hcm he hig
          simp only [g, hv, if_true]
          rw [this.1, this.2, hσ']
          simp [he, hm]
      · have hig : Con.ignorable (m.con c) = true := by simp [Con.ignorable, he]
        simp only [g, hv, if_true, MState.sensTV, MState.sensLP, MState.dTV, MState.dLP, hig, he]
        simp
    · have hz := MState.d_zero_of_untouched m (assignment m) [(v, x)] c (by simpa using hv)
      rw [hσ', hz.1, hz.2]
      simp only [g, hv, if_false]
      simp
  have hfold : s = m.finishScore mv.alterations
      (cur.totalViolation + ((m.sens v).map (m.sensTV Con.ignorable (x - assignment m v))).sum)
      (cur.localPenalty + ((m.sens v).map (m.sensLP Con.ignorable (x - assignment m v))).sum) true := by
    show m.evaluateSingle mv cur = _
    simp only [MState.evaluateSingle, hmv]
    rw [MState.foldl_add2 _ _ _ _ (MState.evalSensStep_eq m _ _)]
    rfl
  have hTV : s.totalViolation = cur.totalViolation +
      ((m.sens v).map (m.sensTV Con.ignorable (x - assignment m v))).sum := by rw [hfold]; rfl
  have hLP : s.localPenalty = cur.localPenalty +
      ((m.sens v).map (m.sensLP Con.ignorable (x - assignment m v))).sum := by rw [hfold]; rfl
  refine ⟨?_, ?_, ?_, ?_⟩
  · have hdiff := MState.totalViolation_diff m (assignment m) σ'
    rw [hTV, htv, sens_sum m hw v hs]
    have : ∀ a b : ℚ, a + b - totalViolation m σ' = b - (totalViolation m σ' - a) := fun a b => by ring
    rw [this, hdiff, ← sum_map_sub]
    refine (abs_sum_le _ _ _ fun c hcm => (key c hcm).1).trans (le_of_eq ?_)
    rw [skipped, ← sum_filter, sum_const]
  · have hdiff := MState.localPenalty_diff m (assignment m) σ'
    rw [hLP, hlp, sens_sum m hw v hs]
    have : ∀ a b : ℚ, a + b - localPenalty m σ' = b - (localPenalty m σ' - a) := fun a b => by ring
    rw [this, hdiff, ← sum_map_sub]
    refine (abs_sum_le _ _ _ fun c hcm => (key c hcm).2).trans (le_of_eq ?_)
    rw [skipped, ← sum_filter, mul_comm, ← sum_map_mul_right]
    refine sum_map_congr _ _ _ fun c _ => by ring
  · rw [hfold]; exact ho
  · rw [hfold]; exact hoi

/-- When the margin flags are exact (as `update(move)` leaves them) the fast score equals the full score in
every field except the "do not care" flag. -/
theorem single_score_eq_full (m : MState) (mv : Move) (v : ℕ) (x : ℤ)
    (hmv : mv.alterations = [(v, x)]) (cur : Score)
    (hw : WellFormed m) (hc : Current m) (hs : SensOK m v) (hf : FlagOK m 0)
    (htv : cur.totalViolation = totalViolation m (assignment m))
    (hlp : cur.localPenalty = localPenalty m (assignment m))
    (hstep : skipped m v ≠ [] → |x - assignment m v| ≤ 1)
    (hpen : ∀ c ∈ m.conIds, 0 ≤ (m.con c).penLess ∧ 0 ≤ (m.con c).penGreater) :
    m.evaluateSingle mv cur = { m.evaluateFull mv with isFeasibilityImprovable := true } := by
  have h := single_score_within_tolerance m mv v x hmv cur 0 le_rfl hw hc hs hf htv hlp hstep hpen
  have hd : (mv.alterations.map Prod.fst).Nodup := by rw [hmv]; simp
  have hF := C06.full_score_describes_moved_assignment m mv hw hc hd
  simp only [mul_zero, zero_mul] at h
  obtain ⟨h1, h2, -, -⟩ := h
  obtain ⟨-, f2, f3, -⟩ := hF
  have e1 : (m.evaluateSingle mv cur).totalViolation = (m.evaluateFull mv).totalViolation := by
    rw [f2]; exact sub_eq_zero.1 (abs_eq_zero.1 (le_antisymm h1 (abs_nonneg _)))
  have e2 : (m.evaluateSingle mv cur).localPenalty = (m.evaluateFull mv).localPenalty := by
    rw [f3]; exact sub_eq_zero.1 (abs_eq_zero.1 (le_antisymm h2 (abs_nonneg _)))
  simp only [MState.evaluateSingle, MState.evaluateFull, MState.finishScore, hmv] at e1 e2 ⊢
  rw [e1, e2]

/-! ### The hypotheses are reachable invariants -/

/-- `setup_variable_constraint_sensitivities` establishes `SensOK`. -/
theorem setupSens_ok (m : MState) (hw : WellFormed m) (v) : SensOK m.setupSens v := by
  constructor
  · simp only [MState.setupSens, List.map_map, Function.comp_def, List.map_id']
    exact hw.conIds.filter _
  · intro c q
    simp only [MState.setupSens, List.mem_map, List.mem_filter, decide_eq_true_eq, Prod.mk.injEq, Expr.vars]
    constructor
    · rintro ⟨c', ⟨h1, h2⟩, rfl, rfl⟩
      exact ⟨h1, Expr.mem_of_mem_keys _ (hw.con _ h1) _ (List.mem_map.2 h2)⟩
    · rintro ⟨h1, h2⟩
      exact ⟨c, ⟨h1, ⟨_, h2, rfl⟩⟩, rfl, Expr.lookup_of_mem _ (hw.con _ h1) _ _ h2⟩

/-- A freshly created constraint records a correct maximal coefficient. -/
theorem setup_maxAbs (e : Expr) (s : Sense) (so : ℕ → VarSense) (t) (ht : t ∈ e.terms) :
    |t.2| ≤ (Con.setup e s so).maxAbs := by
  have gen : ∀ (l : List (ℕ × ℚ)) (m0 : ℚ), m0 ≤ l.foldl (fun m t => max m |t.2|) m0 ∧
      ∀ t ∈ l, |t.2| ≤ l.foldl (fun m t => max m |t.2|) m0 := by
    intro l
    induction l with
    | nil => intro m0; simp
    | cons a l ih =>
      intro m0
      obtain ⟨i1, i2⟩ := ih (max m0 |a.2|)
      refine ⟨(le_max_left _ _).trans i1, fun t ht => ?_⟩
      rcases List.mem_cons.1 ht with rfl | ht
      · exact (le_max_right _ _).trans i1
      · exact i2 t ht
  exact (gen e.terms 0).2 t ht

/-- The full update leaves flags correct up to 1e-10. -/
theorem update_flagOK (m : MState)
    (hmax : ∀ c ∈ m.conIds, (m.con c).onlyBinaryVar = true → ∀ t ∈ (m.con c).expr.terms, |t.2| ≤ (m.con c).maxAbs) :
    FlagOK m.update EPSILON_10 := by
  obtain ⟨o, ov, h, -, -, -⟩ := MState.update_desc m
  have hsh := MState.update_shape m
  have hcon : ∀ c ∈ m.conIds, m.update.con c = (m.con c).update m.pre.vals := by
    intro c hcm; rw [h]; show (if c ∈ m.conIds then _ else _) = _; rw [if_pos hcm]
  refine ⟨?_, ?_, ?_⟩
  · intro c hcm hb t ht
    rw [hsh.conIds] at hcm
    rw [hcon c hcm] at hb ht ⊢
    exact hmax c hcm hb t ht
  · intro c hcm _ hm
    rw [hsh.conIds] at hcm
    rw [hcon c hcm] at hm ⊢
    simp only [Con.update, Bool.and_eq_true, decide_eq_true_eq] at hm ⊢
    exact hm.2
  · intro c hcm hm
    rw [hsh.conIds] at hcm
    rw [hcon c hcm] at hm ⊢
    simp only [Con.update, Bool.and_eq_true, decide_eq_true_eq] at hm ⊢
    exact hm.1

/-- `update(move)` keeps flags correct (for any tolerance already valid), and makes the flags of the updated
constraints exact. -/
theorem updateMove_flagOK (m : MState) (mv : Move) (tol : ℚ) (ht : 0 ≤ tol) (hf : FlagOK m tol) :
    FlagOK (m.updateMove mv) tol := by
  have hsh := MState.updateMove_shape m mv
  obtain ⟨o, ov, s, h, -⟩ := MState.updateMove_desc m mv
  have gen : ∀ (ids : List ℕ) (con : ℕ → Con), (∀ c ∈ m.conIds, (con c).hasMargin = true →
      (con c).enabled = true → (con c).margin ≥ (con c).maxAbs - tol) →
      ∀ c ∈ m.conIds, let k := ids.foldl (fun con c => Function.update con c
        ((con c).updateMove m.vals mv.alterations)) con c
      k.hasMargin = true → k.enabled = true → k.margin ≥ k.maxAbs - tol := by
    intro ids
    induction ids with
    | nil => intro con hcon c hcm; exact hcon c hcm
    | cons i l ih =>
      intro con hcon c hcm
      refine ih _ (fun c hcm => ?_) c hcm
      by_cases hci : c = i
      · subst hci
        intro hm _
        simp only [Function.update_self] at hm ⊢
        simp only [Con.updateMove, Bool.and_eq_true, decide_eq_true_eq] at hm ⊢
        have := hm.2
        linarith
      · simp only [Function.update_of_ne hci]; exact hcon c hcm
  have hb : ∀ c, ((m.updateMove mv).con c).onlyBinaryVar = (m.con c).onlyBinaryVar := by
    intro c
    rw [h]
    exact MState.fold_con_field (fun k => k.onlyBinaryVar) _ _
      (fun k => k.updateMove m.vals mv.alterations) (fun _ => rfl) c
  have genBin : ∀ (ids : List ℕ) (con : ℕ → Con), (∀ c ∈ m.conIds, (con c).hasMargin = true →
      (con c).onlyBinaryVar = true) →
      ∀ c ∈ m.conIds, let k := ids.foldl (fun con c => Function.update con c
        ((con c).updateMove m.vals mv.alterations)) con c
      k.hasMargin = true → k.onlyBinaryVar = true := by
    intro ids
    induction ids with
    | nil => intro con hcon c hcm; exact hcon c hcm
    | cons i l ih =>
      intro con hcon c hcm
      refine ih _ (fun c hcm => ?_) c hcm
      by_cases hci : c = i
      · subst hci
        intro hm
        simp only [Function.update_self] at hm ⊢
        simp only [Con.updateMove, Bool.and_eq_true] at hm ⊢
        exact hm.1
      · simp only [Function.update_of_ne hci]; exact hcon c hcm
  refine ⟨?_, ?_, ?_⟩
  · intro c hcm hbc t htm
    rw [hsh.conIds] at hcm
    rw [hsh.conTerms] at htm
    rw [hb] at hbc
    have : ((m.updateMove mv).con c).maxAbs = (m.con c).maxAbs := by
      rw [h]
      exact MState.fold_con_field (fun k => k.maxAbs) _ _
        (fun k => k.updateMove m.vals mv.alterations) (fun _ => rfl) c
    rw [this]
    exact hf.maxAbs c hcm hbc t htm
  · intro c hcm he hm
    rw [hsh.conIds] at hcm
    rw [h] at he hm ⊢
    exact gen _ m.con (fun c hcm hm he => hf.margin c hcm he hm) c hcm hm he
  · intro c hcm hm
    rw [hsh.conIds] at hcm
    rw [h] at hm ⊢
    exact genBin _ m.con hf.marked c hcm hm

/-- The flags of the constraints refreshed by `update(move)` are exact. -/
theorem updateMove_flag_exact (m : MState) (mv : Move) (hn : mv.related.Nodup)
    (hu : m.userDefinedMoves = false) (c) (hc : c ∈ mv.related)
    (hm : ((m.updateMove mv).con c).hasMargin = true) :
    ((m.updateMove mv).con c).margin ≥ ((m.updateMove mv).con c).maxAbs := by
  obtain ⟨o, ov, s, h, -⟩ := MState.updateMove_desc m mv
  have hcon : (m.updateMove mv).con c = (m.con c).updateMove m.vals mv.alterations := by
    rw [h, hu]
    have := MState.fold_con mv.related hn m.con (fun k => k.updateMove m.vals mv.alterations) c
    rw [if_pos hc] at this
    exact this
  rw [hcon] at hm ⊢
  simp only [Con.updateMove, Bool.and_eq_true, decide_eq_true_eq] at hm ⊢
  exact hm.2

/-- The constraint `x0 - 1 <= 0` created while `x0` is binary, then refreshed at `x0 = 0`. -/
def staleCon : Con := (Con.setup ⟨[(0, 1)], -1, 0⟩ .less (fun _ => .binary)).update (fun _ => 0)

/-- A model with that constraint; `x0` was given bounds `[0,5]` after the constraint was created. -/
def staleModel : MState :=
  { Example.raw with
    var := fun _ => Example.int5, varIds := [0], con := fun _ => staleCon, conIds := [0]
    objDefined := false, obj := ⟨[], 0, 0⟩, sens := fun v => if v = 0 then [(0, 1)] else [] }

/-- The step-size hypothesis cannot be dropped: the skip flag is computed from the variable kinds at constraint
creation, so if a "binary" variable's bounds are widened later (set_bound), a move by 3 on a skipped constraint
is scored as free although it violates the constraint. -/
theorem stale_binary_flag_breaks : ∃ (m : MState) (mv : Move) (cur : Score), WellFormed m ∧ Current m ∧
    SensOK m 0 ∧ FlagOK m 0 ∧ cur.totalViolation = totalViolation m (assignment m) ∧
    cur.localPenalty = localPenalty m (assignment m) ∧ mv.alterations = [(0, 3)] ∧
    (m.evaluateSingle mv cur).totalViolation ≠ (m.evaluateFull mv).totalViolation := by
  have hT : staleCon.expr.terms = [(0, 1)] := rfl
  have hM : staleCon.maxAbs = 1 := by norm_num [staleCon, Con.setup, Con.update, Con.setValue]
  have hE : staleCon.enabled = true := rfl
  have hG : staleCon.margin = 1 := by
    norm_num [staleCon, Con.setup, Con.update, Con.setValue, Expr.update, Expr.evaluate]
  have hH : staleCon.hasMargin = true := by
    norm_num [staleCon, Con.setup, Con.update, Con.setValue, Expr.update, Expr.evaluate, EPSILON_10]
  have hw : WellFormed staleModel := ⟨by decide, fun c _ => by
    show ([(0, (1 : ℚ))].map Prod.fst).Nodup; decide, by decide,
    fun i hi => by simp [staleModel, Example.raw] at hi⟩
  have hc : Current staleModel := ⟨fun c _ _ => Con.update_current _ _,
    fun h => by simp [staleModel] at h, fun i hi => by simp [staleModel, Example.raw] at hi⟩
  have ha : assignment staleModel = fun _ => 0 := rfl
  refine ⟨staleModel, { alterations := [(0, 3)] }, {}, hw, hc, ⟨by decide, ?_⟩, ⟨?_, ?_, fun _ _ _ => rfl⟩, ?_, ?_, rfl, ?_⟩
  · intro c q
    simp [staleModel, hT]
  · intro c _ _ t ht
    change t ∈ staleCon.expr.terms at ht
    rw [hT, List.mem_singleton] at ht
    subst ht
    show |(1 : ℚ)| ≤ staleCon.maxAbs
    rw [hM]; norm_num
  · intro c _ _ _
    show staleCon.margin ≥ staleCon.maxAbs - 0
    rw [hM, hG]; norm_num
  · rw [ha]
    norm_num [totalViolation, enabledCons, staleModel, staleCon, Con.setup, Con.update, Con.setValue, cmpOf,
      Cmp.gap, exprValue, violation, Expr.update]
  · rw [ha]
    norm_num [localPenalty, enabledCons, staleModel, staleCon, Con.setup, Con.update, Con.setValue,
      exprValue, penalty, Expr.update]
  · rw [(C06.full_score_describes_moved_assignment _ { alterations := [(0, 3)] } hw hc (by decide)).2.1, ha]
    have h0 : (staleModel.evaluateSingle { alterations := [(0, 3)] } {}).totalViolation = 0 := by
      simp only [MState.evaluateSingle, staleModel, List.foldl_cons, List.foldl_nil, MState.evalSensStep,
        Con.ignorable, hH, Bool.or_true, if_true, MState.finishScore]
    rw [h0]
    norm_num [totalViolation, enabledCons, staleModel, staleCon, Con.setup, Con.update, Con.setValue, cmpOf,
      Cmp.gap, exprValue, violation, Expr.update, applyMove, Function.update]

/-- Non-vacuity on the example model (binary flip of `x0`). -/
example : SensOK Example.model 0 ∧ FlagOK Example.model EPSILON_10 ∧
    |(1 : ℤ) - assignment Example.model 0| ≤ 1 := by
  refine ⟨?_, ?_, by rw [Example.assignment_eq]; norm_num⟩
  · have := setupSens_ok Example.raw ⟨Example.raw_wf.conIds, Example.raw_wf.con, Example.raw_wf.obj,
      Example.raw_wf.uexpr⟩ 0
    refine ⟨this.1, fun c q => ?_⟩
    rw [Example.shape.conIds, Example.shape.conTerms]
    exact this.2 c q
  · refine update_flagOK _ fun c hc _ t ht => ?_
    simp only [Example.raw, MState.setupSens, MState.setupObjSens, List.mem_cons, List.not_mem_nil,
      or_false] at hc ht ⊢
    rcases hc with rfl | rfl | rfl
    · exact setup_maxAbs ⟨[(0, 1), (1, 1)], -1, 0⟩ .less Example.senses t ht
    · exact setup_maxAbs ⟨[(0, 2), (2, -1)], -1, 0⟩ .greater Example.senses t ht
    · exact setup_maxAbs ⟨[(1, 1), (2, 1)], -1, 0⟩ .equal Example.senses t ht

end Printemps.C07
