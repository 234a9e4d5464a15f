import Verif.Lemmas.Search

/-! Scores of accepted moves: how far the carried total violation can be off. -/

namespace Printemps.Search
open Spec Sol

/-- `cur` with the exact total violation and penalty. -/
def exact (m : MState) (cur : Score) : Score :=
  { cur with totalViolation := totalViolation m (assignment m), localPenalty := localPenalty m (assignment m) }

theorem single_shift (m : MState) (mv : Move) (v x) (hmv : mv.alterations = [(v, x)]) (a b : Score) :
    (m.evaluateSingle mv a).totalViolation - a.totalViolation = (m.evaluateSingle mv b).totalViolation - b.totalViolation := by
  unfold MState.evaluateSingle
  rw [hmv]
  simp only [MState.finishScore]
  rw [MState.foldl_add2 _ _ _ _ (MState.evalSensStep_eq m _ _), MState.foldl_add2 _ _ _ _ (MState.evalSensStep_eq m _ _)]
  dsimp only
  ring

theorem multi_shift (m : MState) (mv : Move) (a b : Score) :
    (m.evaluateMulti mv a).totalViolation - a.totalViolation = (m.evaluateMulti mv b).totalViolation - b.totalViolation := by
  rw [(C08.multi_sums m mv a).1, (C08.multi_sums m mv b).1]
  ring

theorem selection_shift (m : MState) (rel : List ℕ) (mv : Move) (v w x y) (hmv : mv.alterations = [(v, x), (w, y)])
    (a b : Score) :
    (m.evaluateSelection rel mv a).totalViolation - a.totalViolation
      = (m.evaluateSelection rel mv b).totalViolation - b.totalViolation := by
  unfold MState.evaluateSelection
  rw [hmv]
  dsimp only
  split
  · split
    · simp only [MState.finishScore]
      simp only [List.foldl_cons, List.foldl_nil]
      rw [MState.foldl_add2 _ _ _ _ (MState.evalSensStep_eq m _ _), MState.foldl_add2 _ _ _ _ (MState.evalSensStep_eq m _ _),
        MState.foldl_add2 _ _ _ _ (MState.evalSensStep_eq m _ _), MState.foldl_add2 _ _ _ _ (MState.evalSensStep_eq m _ _)]
      dsimp only
      ring
    · simp only [MState.finishScore]
      rw [MState.foldl_add3 _ _ _ _ _ (MState.evalMultiStep_eq m _), MState.foldl_add3 _ _ _ _ _ (MState.evalMultiStep_eq m _)]
      dsimp only
      ring
  · show a.totalViolation - a.totalViolation = b.totalViolation - b.totalViolation
    ring

/-! ### Grids -/

theorem grid_sum {g : ℚ} (l : List (ℕ × ℚ)) (f : ℕ → ℤ) (h : ∀ t ∈ l, ∃ k : ℤ, t.2 = k * g) :
    ∃ k : ℤ, (l.map (fun t => t.2 * (f t.1 : ℚ))).sum = k * g := by
  induction l with
  | nil => exact ⟨0, by simp⟩
  | cons t l ih =>
    obtain ⟨a, ha⟩ := h t (by simp)
    obtain ⟨b, hb⟩ := ih (fun t ht => h t (by simp [ht]))
    refine ⟨a * f t.1 + b, ?_⟩
    rw [List.map_cons, List.sum_cons, ha, hb]
    push_cast
    ring

theorem grid_value {m : MState} {g : ℚ} (h : OnGrid m g) (c) (hc : c ∈ m.conIds) (he : (m.con c).enabled = true) (σ) :
    ∃ k : ℤ, exprValue (m.con c).expr σ = k * g := by
  obtain ⟨a, ha⟩ := h.const c hc he
  obtain ⟨b, hb⟩ := grid_sum _ σ (h.coef c hc he)
  refine ⟨a + b, ?_⟩
  rw [exprValue, ha, hb]
  push_cast
  ring

theorem grid_gap {g : ℚ} (hg : (1e-10 : ℚ) < g) (a b : ℤ) : (a * g - b * g : ℚ) = 0 ∨ 1e-10 ≤ |(a * g - b * g : ℚ)| := by
  have hg0 : 0 < g := lt_trans (by norm_num) hg
  by_cases h : a = b
  · left; rw [h]; ring
  · right
    have h1 : (1 : ℚ) ≤ |((a - b : ℤ) : ℚ)| := by
      have : (1 : ℤ) ≤ |a - b| := Int.one_le_abs (by omega)
      have e : |((a - b : ℤ) : ℚ)| = ((|a - b| : ℤ) : ℚ) := by push_cast; rfl
      rw [e]; exact_mod_cast this
    have e : (a * g - b * g : ℚ) = ((a - b : ℤ) : ℚ) * g := by push_cast; ring
    rw [e, abs_mul, abs_of_pos hg0]
    nlinarith

theorem grid_slack {g : ℚ} (k : Cmp) (x : ℚ) (h : ∃ a : ℤ, x = a * g) : ∃ a : ℤ, k.slack x 0 = a * g := by
  obtain ⟨a, rfl⟩ := h
  have key : ∀ b : ℤ, ∃ c : ℤ, max (b * g : ℚ) 0 = c * g := by
    intro b
    rcases le_total (b * g : ℚ) 0 with hb | hb
    · exact ⟨0, by rw [max_eq_right hb]; simp⟩
    · exact ⟨b, by rw [max_eq_left hb]⟩
  cases k
  · obtain ⟨c, hc⟩ := key (-a)
    refine ⟨c, ?_⟩
    unfold Cmp.slack
    rw [← hc]; push_cast; ring_nf
  · exact ⟨0, by simp [Cmp.slack]⟩
  · obtain ⟨c, hc⟩ := key a
    exact ⟨c, by unfold Cmp.slack; rw [← hc]; ring_nf⟩

/-- On a grid that is wider than `1e-10` the tolerance of the skip flag has no effect. -/
theorem grid_flag {m : MState} {g : ℚ} (hg : (1e-10 : ℚ) < g) (h : OnGrid m g) (hl : Live m)
    (hmax : ∀ c ∈ m.conIds, (m.con c).onlyBinaryVar = true →
      (m.con c).maxAbs = 0 ∨ ∃ t ∈ (m.con c).expr.terms, (m.con c).maxAbs = |t.2|) :
    ∀ c ∈ m.conIds, (m.con c).enabled = true → (m.con c).hasMargin = true → (m.con c).margin ≥ (m.con c).maxAbs - 0 := by
  intro c hc he hm
  have hg0 : 0 < g := lt_trans (by norm_num) hg
  have h1 := hl.flag c hc he hm
  have hm1 := (hl.current.con c hc he).margin
  obtain ⟨a, ha⟩ := grid_slack (cmpOf (m.con c).sense) _ (grid_value h c hc he (assignment m))
  rw [ha] at hm1
  have hb : ∃ b : ℤ, (m.con c).maxAbs = b * g := by
    rcases hmax c hc (hl.flagBin c hc hm) with h0 | ⟨t, ht, h0⟩
    · exact ⟨0, by rw [h0]; simp⟩
    · obtain ⟨b, hb⟩ := h.coef c hc he t ht
      refine ⟨|b|, ?_⟩
      rw [h0, hb, abs_mul, abs_of_pos hg0]; push_cast; rfl
  obtain ⟨b, hb⟩ := hb
  rw [hm1, hb] at h1 ⊢
  have hE : EPSILON_10 = (1e-10 : ℚ) := by norm_num [EPSILON_10]
  rw [hE] at h1
  have : (b - 1 : ℚ) < a := by
    by_contra hcon
    push Not at hcon
    nlinarith
  have h2 : b - 1 < a := by exact_mod_cast this
  have h3 : (b : ℚ) ≤ a := by exact_mod_cast (by omega : b ≤ a)
  nlinarith

/-- The error a single step may add to the total violation: none on a grid wider than `1e-10`, otherwise `1e-10` for
each constraint. -/
def Err (m : MState) (e : ℚ) : Prop :=
  e = m.conIds.length * (1e-10 : ℚ) ∨ (e = 0 ∧ ∃ g : ℚ, 1e-10 < g ∧ OnGrid m g)

theorem Err.nonneg {m : MState} {e : ℚ} (h : Err m e) : 0 ≤ e := by
  rcases h with rfl | ⟨rfl, -⟩
  · positivity
  · exact le_refl _

theorem length_le {l k : List ℕ} (hl : l.Nodup) (h : ∀ x ∈ l, x ∈ k) : l.length ≤ k.length :=
  (hl.subperm h).length_le

/-- What is needed of a model and a move for the score of an accepted move. -/
structure Usable (cfg : Cfg) (m : MState) (mv : Move) : Prop where
  wf : WellFormed m
  live : Live m
  sens : ∀ v, C07.SensOK m v
  maxLe : ∀ c ∈ m.conIds, (m.con c).onlyBinaryVar = true → ∀ t ∈ (m.con c).expr.terms, |t.2| ≤ (m.con c).maxAbs
  maxEq : ∀ c ∈ m.conIds, (m.con c).onlyBinaryVar = true →
    (m.con c).maxAbs = 0 ∨ ∃ t ∈ (m.con c).expr.terms, (m.con c).maxAbs = |t.2|
  bin : ∀ c ∈ m.conIds, (m.con c).onlyBinaryVar = true → ∀ a ∈ mv.alterations,
    a.1 ∈ (m.con c).expr.terms.map Prod.fst → |a.2 - assignment m a.1| ≤ 1
  pen : ∀ c ∈ m.conIds, 0 ≤ (m.con c).penLess ∧ 0 ≤ (m.con c).penGreater
  distinct : (mv.alterations.map Prod.fst).Nodup
  covers : Covers m mv.alterations mv.related
  single : mv.isUnivariable = true → ∃ v x, mv.alterations = [(v, x)]
  selection : mv.isUnivariable = false → mv.isSelection = true →
    ∃ v w x y, mv.alterations = [(v, x), (w, y)] ∧ C09.RelOK m (cfg.selRel v) v w

theorem finish_facts (m : MState) (alts tv lp b) :
    let s := m.finishScore alts tv lp b
    s.globalAug = s.objective + s.totalViolation * m.globalPen ∧ (s.isFeasible = true ↔ s.totalViolation ≤ 1e-5) := by
  refine ⟨rfl, ?_⟩
  show (!decide (tv > EPSILON)) = true ↔ tv ≤ 1e-5
  rw [C11.eps_eq]
  simp

theorem finish_objective (m : MState) (alts tv lp b tv' lp' b') :
    (m.finishScore alts tv lp b).objective = (m.finishScore alts tv' lp' b').objective := rfl

theorem selection_finish (m : MState) (rel mv cur) :
    ∃ tv lp b, m.evaluateSelection rel mv cur = m.finishScore mv.alterations tv lp b := by
  unfold MState.evaluateSelection
  split
  · dsimp only
    split
    · split
      · exact ⟨_, _, _, rfl⟩
      · exact ⟨_, _, _, rfl⟩
    · exact ⟨_, _, _, rfl⟩
  · exact ⟨_, _, _, rfl⟩

theorem accepted_finish (cfg : Cfg) (m : MState) (mv : Move) (ren) (cur) :
    ∃ tv lp b, acceptedScore cfg m mv ren cur = m.finishScore mv.alterations tv lp b := by
  unfold acceptedScore trialScore
  split
  · exact ⟨_, _, _, rfl⟩
  · split
    · split
      · unfold MState.evaluateSingle
        split
        · next h => exact ⟨_, _, _, by rw [h]⟩
        · exact ⟨_, _, _, rfl⟩
      · split
        · exact selection_finish _ _ _ _
        · exact ⟨_, _, _, rfl⟩
    · exact ⟨_, _, _, rfl⟩

/-- The score with which a move is accepted. -/
theorem accepted_close (cfg : Cfg) (m : MState) (mv : Move) (ren : Bool) (cur : Score) (e : ℚ) (he : Err m e)
    (h : Usable cfg m mv) :
    let σ' := applyMove (assignment m) mv.alterations
    let s := acceptedScore cfg m mv ren cur
    s.objective = minObjective m σ' ∧
    |s.totalViolation - totalViolation m σ'| ≤ |cur.totalViolation - totalViolation m (assignment m)| + e ∧
    s.globalAug = s.objective + s.totalViolation * m.globalPen ∧ (s.isFeasible = true ↔ s.totalViolation ≤ 1e-5) := by
  intro σ' s
  have hfull := C06.full_score_describes_moved_assignment m mv h.wf h.live.current h.distinct
  dsimp only at hfull
  obtain ⟨tv, lp, b, hs⟩ := accepted_finish cfg m mv ren cur
  have hobj : s.objective = minObjective m σ' := by
    show (acceptedScore cfg m mv ren cur).objective = _
    rw [hs, ← hfull.1]; rfl
  have hff : s.globalAug = s.objective + s.totalViolation * m.globalPen ∧
      (s.isFeasible = true ↔ s.totalViolation ≤ 1e-5) := by
    show (acceptedScore cfg m mv ren cur).globalAug = _ ∧ _
    simp only [s]
    rw [hs]; exact finish_facts m _ _ _ _
  refine ⟨hobj, ?_, hff⟩
  -- the shift argument
  have shift : ∀ (f : Score → Score), (∀ a b, (f a).totalViolation - a.totalViolation = (f b).totalViolation - b.totalViolation) →
      |(f (exact m cur)).totalViolation - totalViolation m σ'| ≤ e →
      |(f cur).totalViolation - totalViolation m σ'| ≤ |cur.totalViolation - totalViolation m (assignment m)| + e := by
    intro f hf hb
    have h1 := hf cur (exact m cur)
    have h2 : (f cur).totalViolation - totalViolation m σ' = (cur.totalViolation - totalViolation m (assignment m)) +
        ((f (exact m cur)).totalViolation - totalViolation m σ') := by
      have : (exact m cur).totalViolation = totalViolation m (assignment m) := rfl
      rw [this] at h1
      linarith
    rw [h2]
    exact (abs_add_le _ _).trans (by linarith)
  -- constraints that move do so by at least the tolerance
  have hex : e = 0 → (∃ g : ℚ, 1e-10 < g ∧ OnGrid m g) → ∀ c ∈ m.conIds, (m.con c).enabled = true →
      let d := exprValue (m.con c).expr (applyMove (assignment m) mv.alterations) - exprValue (m.con c).expr (assignment m)
      d = 0 ∨ 1e-10 ≤ |d| := by
    rintro - ⟨g, hg, hgrid⟩ c hc hen
    obtain ⟨a, ha⟩ := grid_value hgrid c hc hen (applyMove (assignment m) mv.alterations)
    obtain ⟨b, hb⟩ := grid_value hgrid c hc hen (assignment m)
    dsimp only
    rw [ha, hb]
    exact grid_gap hg a b
  have hmulti : |(m.evaluateMulti mv (exact m cur)).totalViolation - totalViolation m σ'| ≤ e := by
    rcases he with rfl | ⟨rfl, hgrid⟩
    · rw [C08.multi_filter]
      refine (C08.multi_score_within_tolerance m { mv with related := mv.related.filter (fun c => (m.con c).enabled) }
        (exact m cur) h.wf h.live.current h.distinct (C08.covers_filter h.covers) rfl rfl h.pen).1.trans ?_
      have : ((mv.related.filter (fun c => (m.con c).enabled)).length : ℚ) ≤ m.conIds.length := by
        exact_mod_cast length_le h.covers.nodup (C08.covers_filter h.covers).mem
      exact mul_le_mul_of_nonneg_right this (by norm_num)
    · have := C08.multi_score_eq_full m mv (exact m cur) h.wf h.live.current h.distinct h.covers rfl rfl
        (fun c hc hen => hex rfl hgrid c (h.covers.mem c hc) hen)
      have e1 : (m.evaluateMulti mv (exact m cur)).totalViolation = (m.evaluateFull mv).totalViolation :=
        by simpa using congrArg Score.totalViolation this
      rw [e1, hfull.2.1, sub_self, abs_zero]
  show |(acceptedScore cfg m mv ren cur).totalViolation - _| ≤ _
  unfold acceptedScore
  split
  · exact shift (m.evaluateMulti mv) (multi_shift m mv) hmulti
  unfold trialScore
  split
  · split
    · next hu =>
      obtain ⟨v, x, hmv⟩ := h.single hu
      refine shift (m.evaluateSingle mv) (single_shift m mv v x hmv) ?_
      have hstep : C07.skipped m v ≠ [] → |x - assignment m v| ≤ 1 := by
        intro hne
        obtain ⟨c, hcm⟩ := List.exists_mem_of_ne_nil _ hne
        simp only [C07.skipped, List.mem_filter, Bool.and_eq_true, decide_eq_true_eq] at hcm
        exact h.bin c hcm.1 (h.live.flagBin c hcm.1 hcm.2.1.2) (v, x) (by rw [hmv]; simp) hcm.2.2
      rcases he with rfl | ⟨rfl, g, hg, hgrid⟩
      · have hE : (0 : ℚ) ≤ EPSILON_10 := by norm_num [EPSILON_10]
        refine (C07.single_score_within_tolerance m mv v x hmv (exact m cur) EPSILON_10 hE h.wf h.live.current (h.sens v)
          ⟨h.maxLe, h.live.flag, h.live.flagBin⟩ rfl rfl hstep h.pen).1.trans ?_
        have : ((C07.skipped m v).length : ℚ) ≤ m.conIds.length := by exact_mod_cast List.length_filter_le _ _
        have hE' : EPSILON_10 = (1e-10 : ℚ) := by norm_num [EPSILON_10]
        rw [hE']
        exact mul_le_mul_of_nonneg_right this (by norm_num)
      · have := C07.single_score_eq_full m mv v x hmv (exact m cur) h.wf h.live.current (h.sens v)
          ⟨h.maxLe, grid_flag hg hgrid h.live h.maxEq, h.live.flagBin⟩ rfl rfl hstep h.pen
        have e1 : (m.evaluateSingle mv (exact m cur)).totalViolation = (m.evaluateFull mv).totalViolation :=
          by simpa using congrArg Score.totalViolation this
        rw [e1, hfull.2.1, sub_self, abs_zero]
    · split
      · next hu hsel =>
        obtain ⟨v, w, x, y, hmv, hrel⟩ := h.selection (by simpa using hu) hsel
        have hvw : v ≠ w := by have := h.distinct; rw [hmv] at this; simpa using this
        have hmatch : cfg.relOf mv.alterations = cfg.selRel v := by rw [hmv]; rfl
        rw [hmatch]
        refine shift (m.evaluateSelection (cfg.selRel v) mv) (selection_shift m _ mv v w x y hmv) ?_
        have hσ : σ' = applyMove (assignment m) [(v, x), (w, y)] := by show applyMove _ _ = _; rw [hmv]
        rcases he with rfl | ⟨rfl, hgrid⟩
        · rw [hσ]
          refine (C09.selection_score_within_tolerance m _ mv (exact m cur) v w x y hmv hvw h.wf h.live.current (h.sens v)
            (h.sens w) hrel rfl rfl h.pen).1.trans ?_
          have : ((cfg.selRel v).length : ℚ) ≤ m.conIds.length := by exact_mod_cast length_le hrel.nodup hrel.mem
          exact mul_le_mul_of_nonneg_right this (by norm_num)
        · have := C09.selection_score_eq_full m _ mv (exact m cur) v w x y hmv hvw h.wf h.live.current (h.sens v)
            (h.sens w) hrel rfl rfl (fun c hc hen => by
              have := hex rfl hgrid c (hrel.mem c hc) hen
              rw [hmv] at this; exact this)
          have e1 : (m.evaluateSelection (cfg.selRel v) mv (exact m cur)).totalViolation = (m.evaluateFull mv).totalViolation :=
            by simpa using congrArg Score.totalViolation this
          rw [e1, hfull.2.1, sub_self, abs_zero]
      · exact shift (m.evaluateMulti mv) (multi_shift m mv) hmulti
  · rw [hfull.2.1, sub_self, abs_zero]
    exact add_nonneg (abs_nonneg _) he.nonneg

end Printemps.Search
