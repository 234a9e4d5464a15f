import Verif.Lemmas.Fast
import Verif.Lemmas.Example
import Verif.Props.C06
import Verif.Props.C07

/-! # C08 — fast multi-variable scoring equals full scoring -/

namespace Printemps.C08
open Spec

/-- The fold of `evaluate_multi` written with sums. -/
theorem multi_sums (m : MState) (mv : Move) (cur : Score) :
    (m.evaluateMulti mv cur).totalViolation
      = cur.totalViolation + (mv.related.map (m.multiTV mv.alterations)).sum ∧
    (m.evaluateMulti mv cur).localPenalty
      = cur.localPenalty + (mv.related.map (m.multiLP mv.alterations)).sum := by
  have h := MState.foldl_add3 mv.related _ _ _ _ (MState.evalMultiStep_eq m mv.alterations)
    (cur.totalViolation, cur.localPenalty, false)
  constructor
  · exact congrArg (fun t : ℚ × ℚ × Bool => t.1) h
  · exact congrArg (fun t : ℚ × ℚ × Bool => t.2.1) h

/-- Disabled constraints make no difference to the score. -/
theorem multi_filter (m : MState) (mv : Move) (cur : Score) :
    m.evaluateMulti mv cur =
      m.evaluateMulti { mv with related := mv.related.filter (fun c => (m.con c).enabled) } cur := by
  have key : ∀ (l : List ℕ) (acc : ℚ × ℚ × Bool), l.foldl (m.evalMultiStep mv.alterations) acc =
      (l.filter (fun c => (m.con c).enabled)).foldl (m.evalMultiStep mv.alterations) acc := by
    intro l
    induction l with
    | nil => intro acc; rfl
    | cons c l ih =>
      intro acc
      cases h : (m.con c).enabled
      · rw [List.filter_cons_of_neg (by simp [h]), List.foldl_cons, ← ih]
        simp [MState.evalMultiStep, h]
      · rw [List.filter_cons_of_pos (p := fun c => (m.con c).enabled) h, List.foldl_cons, List.foldl_cons, ih]
  show m.finishScore _ _ _ _ = m.finishScore _ _ _ _
  rw [key]

/-- The list without the disabled constraints. -/
theorem covers_filter {m : MState} {alts : List (ℕ × ℤ)} {rel : List ℕ} (h : Covers m alts rel) :
    Covers m alts (rel.filter (fun c => (m.con c).enabled)) :=
  ⟨h.nodup.filter _, fun c hc => h.mem c (List.mem_filter.1 hc).1,
    fun c hc he hex => List.mem_filter.2 ⟨h.covers c hc he hex, he⟩⟩

theorem related_sum (m : MState) (hw : WellFormed m) (mv : Move)
    (hcov : Covers m mv.alterations mv.related) :
    let σ := assignment m
    let τ := applyMove (assignment m) mv.alterations
    totalViolation m τ = totalViolation m σ + (mv.related.map (m.dTV σ τ)).sum ∧
    localPenalty m τ = localPenalty m σ + (mv.related.map (m.dLP σ τ)).sum := by
  intro σ τ
  have hz : ∀ c ∈ m.conIds, c ∉ mv.related → m.dTV σ τ c = 0 ∧ m.dLP σ τ c = 0 := by
    intro c hcm hn
    by_cases he : (m.con c).enabled = true
    · exact MState.d_zero_of_untouched m σ mv.alterations c fun h => hn (hcov.covers c hcm he h)
    · simp [MState.dTV, MState.dLP, he]
  constructor
  · rw [← sum_subset_filter _ _ _ _ hw.conIds hcov.nodup hcov.mem (fun c h1 h2 => (hz c h1 h2).1)
        (fun c _ h => by simp [MState.dTV, h]),
      ← MState.totalViolation_diff]; ring
  · rw [← sum_subset_filter _ _ _ _ hw.conIds hcov.nodup hcov.mem (fun c h1 h2 => (hz c h1 h2).2)
        (fun c _ h => by simp [MState.dLP, h]),
      ← MState.localPenalty_diff]; ring

/-- The fast score of a move differs from the quantities of the moved assignment by less than 1e-10 per
related constraint; the objective is exact. -/
theorem multi_score_within_tolerance (m : MState) (mv : Move) (cur : Score)
    (hw : WellFormed m) (hc : Current m)
    (hd : (mv.alterations.map Prod.fst).Nodup) (hcov : Covers m mv.alterations mv.related)
    (htv : cur.totalViolation = totalViolation m (assignment m))
    (hlp : cur.localPenalty = localPenalty m (assignment m))
    (hpen : ∀ c ∈ m.conIds, 0 ≤ (m.con c).penLess ∧ 0 ≤ (m.con c).penGreater) :
    let σ' := applyMove (assignment m) mv.alterations
    let s := m.evaluateMulti mv cur
    |s.totalViolation - totalViolation m σ'| ≤ mv.related.length * (1e-10 : ℚ) ∧
    |s.localPenalty - localPenalty m σ'|
      ≤ 1e-10 * (mv.related.map (fun c => (m.con c).penLess + (m.con c).penGreater)).sum ∧
    s.objective = minObjective m σ' ∧
    s.objectiveImprovement = minObjective m (assignment m) - minObjective m σ' := by
  intro σ' s
  obtain ⟨ho, -, -, -, -, -, -, hoi, -⟩ := C06.full_score_describes_moved_assignment m mv hw hc hd
  obtain ⟨h1, h2⟩ := multi_sums m mv cur
  obtain ⟨r1, r2⟩ := related_sum m hw mv hcov
  have hE : (1e-10 : ℚ) = EPSILON_10 := by norm_num [EPSILON_10]
  rw [hE]
  refine ⟨?_, ?_, ho, hoi⟩
  · show |(m.evaluateMulti mv cur).totalViolation - _| ≤ _
    rw [h1, htv, r1, add_sub_add_left_eq_sub, ← sum_map_sub]
    refine (abs_sum_le _ _ (fun _ => EPSILON_10) fun c hcr => ?_).trans (le_of_eq (sum_const _ _))
    exact (MState.multi_eq m hw hc mv.alterations hd c (hcov.mem c hcr)).1
  · show |(m.evaluateMulti mv cur).localPenalty - _| ≤ _
    rw [h2, hlp, r2, add_sub_add_left_eq_sub, ← sum_map_sub, mul_comm, ← sum_map_mul_right]
    refine abs_sum_le _ _ _ fun c hcr => ?_
    have hp := hpen c (hcov.mem c hcr)
    have := (MState.multi_eq m hw hc mv.alterations hd c (hcov.mem c hcr)).2.1 hp.1 hp.2
    linarith

/-- If no related constraint moves by a non-zero amount below 1e-10 (for instance when coefficients are
integers), the fast score equals the full score exactly, apart from the improvability flag. -/
theorem multi_score_eq_full (m : MState) (mv : Move) (cur : Score)
    (hw : WellFormed m) (hc : Current m)
    (hd : (mv.alterations.map Prod.fst).Nodup) (hcov : Covers m mv.alterations mv.related)
    (htv : cur.totalViolation = totalViolation m (assignment m))
    (hlp : cur.localPenalty = localPenalty m (assignment m))
    (hex : ∀ c ∈ mv.related, (m.con c).enabled = true →
      let d := exprValue (m.con c).expr (applyMove (assignment m) mv.alterations)
        - exprValue (m.con c).expr (assignment m)
      d = 0 ∨ 1e-10 ≤ |d|) :
    { m.evaluateMulti mv cur with isFeasibilityImprovable := false }
      = { m.evaluateFull mv with isFeasibilityImprovable := false } := by
  have hE : (1e-10 : ℚ) = EPSILON_10 := by norm_num [EPSILON_10]
  obtain ⟨h1, h2⟩ := multi_sums m mv cur
  obtain ⟨r1, r2⟩ := related_sum m hw mv hcov
  obtain ⟨-, f2, f3, -⟩ := C06.full_score_describes_moved_assignment m mv hw hc hd
  have key : ∀ c ∈ mv.related, _ := fun c hcr =>
    (MState.multi_eq m hw hc mv.alterations hd c (hcov.mem c hcr)).2.2 (by
      rintro ⟨he, hne, hlt⟩
      rcases hex c hcr he with h0 | h0
      · exact hne (sub_eq_zero.1 h0)
      · rw [hE] at h0; exact absurd hlt (not_lt.2 h0))
  have e1 : (m.evaluateMulti mv cur).totalViolation = (m.evaluateFull mv).totalViolation := by
    rw [h1, f2, htv, r1, sum_map_congr _ _ _ fun c hcr => (key c hcr).1]
  have e2 : (m.evaluateMulti mv cur).localPenalty = (m.evaluateFull mv).localPenalty := by
    rw [h2, f3, hlp, r2, sum_map_congr _ _ _ fun c hcr => (key c hcr).2]
  simp only [MState.evaluateMulti, MState.evaluateFull, MState.finishScore] at e1 e2 ⊢
  rw [e1, e2]

/-- The improvability flag of the fast path: some related enabled constraint's violation drops by more
than 1e-5. -/
theorem multi_score_improvable (m : MState) (mv : Move) (cur : Score)
    (hw : WellFormed m) (hc : Current m)
    (hd : (mv.alterations.map Prod.fst).Nodup) (hcov : Covers m mv.alterations mv.related) :
    (m.evaluateMulti mv cur).isFeasibilityImprovable = true ↔
    ∃ c ∈ m.conIds, (m.con c).enabled = true ∧
      violation (m.con c) (applyMove (assignment m) mv.alterations) + 1e-5
        < violation (m.con c) (assignment m) := by
  have hE : (1e-5 : ℚ) = EPSILON := by norm_num [EPSILON]
  rw [hE]
  have h := MState.foldl_add3 mv.related _ _ _ _ (MState.evalMultiStep_eq m mv.alterations)
    (cur.totalViolation, cur.localPenalty, false)
  have h3 : (m.evaluateMulti mv cur).isFeasibilityImprovable
      = mv.related.any (m.multiImp mv.alterations) := by
    refine (congrArg (fun t : ℚ × ℚ × Bool => t.2.2) h).trans ?_
    simp
  rw [h3, List.any_eq_true]
  have one : ∀ c ∈ m.conIds, (m.con c).enabled = true → (m.multiImp mv.alterations c = true ↔
      violation (m.con c) (applyMove (assignment m) mv.alterations) + EPSILON
        < violation (m.con c) (assignment m)) := by
    intro c hcm he
    have hcc := hc.con c hcm he
    have hv : (m.con c).expr.evaluateMove m.vals mv.alterations = exprValue (m.con c).expr
        (applyMove (assignment m) mv.alterations) := evalMove_eq_spec _ (hw.con c hcm) _ hcc.expr _ hd
    unfold MState.multiImp
    simp only [he, hv, hcc.value, hcc.pos, hcc.neg, Bool.true_and, Bool.and_eq_true, Bool.not_eq_true',
      decide_eq_false_iff_not, decide_eq_true_eq, Con.violation_eq]
    generalize exprValue (m.con c).expr (applyMove (assignment m) mv.alterations) = x
    generalize exprValue (m.con c).expr (assignment m) = y
    have e : ((if (m.con c).isLe then max x 0 - max y 0 else 0) +
        (if (m.con c).isGe then max (-x) 0 - max (-y) 0 else 0))
        = Con.tvPart (m.con c) x - Con.tvPart (m.con c) y := by
      unfold Con.tvPart; split <;> split <;> ring
    rw [e]
    constructor
    · rintro ⟨-, h⟩; linarith
    · intro h
      refine ⟨fun hlt => ?_, by linarith⟩
      have h1 := tvPart_lipschitz (m.con c) y x
      have h2 := abs_lt.1 (h1.trans_lt hlt)
      have : EPSILON_10 < EPSILON := by norm_num [EPSILON, EPSILON_10]
      linarith [h2.2]
  constructor
  · rintro ⟨c, hcr, hi⟩
    have he : (m.con c).enabled = true := by
      unfold MState.multiImp at hi
      simp only [Bool.and_eq_true] at hi; exact hi.1.1
    exact ⟨c, hcov.mem c hcr, he, (one c (hcov.mem c hcr) he).1 hi⟩
  · rintro ⟨c, hcm, he, hlt⟩
    by_cases hcr : c ∈ mv.related
    · exact ⟨c, hcr, (one c hcm he).2 hlt⟩
    · exfalso
      have hz := MState.d_zero_of_untouched m (assignment m) mv.alterations c fun h =>
        hcr (hcov.covers c hcm he h)
      have h1 := hz.1
      simp only [MState.dTV, he, if_true] at h1
      have : (0 : ℚ) < EPSILON := by norm_num [EPSILON]
      linarith

/-- **The score of any move**, of one variable or more, chosen by the way it is evaluated: it equals the full score in every
field except the "do not care" flag. -/
theorem dispatched_score_eq_full (m : MState) (mv : Move) (cur : Score)
    (hw : WellFormed m) (hc : Current m)
    (hd : (mv.alterations.map Prod.fst).Nodup) (hcov : Covers m mv.alterations mv.related)
    (htv : cur.totalViolation = totalViolation m (assignment m))
    (hlp : cur.localPenalty = localPenalty m (assignment m))
    (hpen : ∀ c ∈ m.conIds, 0 ≤ (m.con c).penLess ∧ 0 ≤ (m.con c).penGreater)
    (hf : C07.FlagOK m 0)
    (hone : ∀ v x, mv.alterations = [(v, x)] → C07.SensOK m v ∧ (C07.skipped m v ≠ [] → |x - assignment m v| ≤ 1))
    (hex : ∀ c ∈ mv.related, (m.con c).enabled = true →
      let d := exprValue (m.con c).expr (applyMove (assignment m) mv.alterations)
        - exprValue (m.con c).expr (assignment m)
      d = 0 ∨ 1e-10 ≤ |d|) :
    { m.evaluateDispatch mv cur with isFeasibilityImprovable := false }
      = { m.evaluateFull mv with isFeasibilityImprovable := false } := by
  unfold MState.evaluateDispatch
  split
  · rename_i h1
    obtain ⟨⟨v, x⟩, e⟩ := List.length_eq_one_iff.1 h1
    obtain ⟨hs, hstep⟩ := hone v x e
    rw [C07.single_score_eq_full m mv v x e cur hw hc hs hf htv hlp hstep hpen]
  · exact multi_score_eq_full m mv cur hw hc hd hcov htv hlp hex

/-- Non-vacuity: the example model and move meet the hypotheses. -/
example : WellFormed Example.model ∧ Current Example.model ∧
    (Example.move.alterations.map Prod.fst).Nodup ∧
    Covers Example.model Example.move.alterations Example.move.related :=
  ⟨Example.wf, Example.current, Example.good.distinct, Example.covers⟩

end Printemps.C08
