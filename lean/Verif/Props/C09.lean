import Verif.Model.Selection
import Verif.Props.C07
import Verif.Props.C08

/-! # C09 — fast selection scoring equals full scoring -/

namespace Printemps.C09
open Spec

/-- The related list of a selection holds, for every swap of two of its variables, every enabled constraint
in which one of them occurs (each once). -/
structure RelOK (m : MState) (rel : List ℕ) (v w : ℕ) : Prop where
  nodup : rel.Nodup
  mem : ∀ c ∈ rel, c ∈ m.conIds
  covers : ∀ c ∈ m.conIds, (m.con c).enabled = true →
    (v ∈ (m.con c).expr.terms.map Prod.fst ∨ w ∈ (m.con c).expr.terms.map Prod.fst) → c ∈ rel

theorem touches_iff (m : MState) (v c) (hcm : c ∈ m.conIds) : m.touches v c = true ↔
    (m.con c).enabled = true ∧ v ∈ (m.con c).expr.terms.map Prod.fst := by
  simp only [MState.touches, MState.relatedOf, Expr.vars, List.mem_filter, Bool.and_eq_true,
    decide_eq_true_eq, hcm, true_and]
  exact and_congr Iff.rfl decide_eq_true_iff

/-! ### index search -/

theorem idx_bounds (p : ℕ → Bool) (rel : List ℕ) (i : ℕ) (hi : i < rel.length) (hp : p rel[i] = true) :
    0 ≤ idxMin p rel ∧ idxMin p rel ≤ i ∧ (i : ℤ) ≤ idxMax p rel := by
  constructor
  · unfold idxMin
    cases h : rel.findIdx? p with
    | none => exact absurd hp (by simpa using (List.findIdx?_eq_none_iff.1 h) _ (List.getElem_mem hi))
    | some j => simp
  constructor
  · unfold idxMin
    cases h : rel.findIdx? p with
    | none => simp
    | some j =>
      obtain ⟨hj, -, h2⟩ := List.findIdx?_eq_some_iff_getElem.1 h
      show (j : ℤ) ≤ i
      by_contra hlt
      exact absurd hp (by simpa using h2 i (by omega))
  · unfold idxMax
    cases h : rel.reverse.findIdx? p with
    | none =>
      exact absurd hp (by simpa using (List.findIdx?_eq_none_iff.1 h) _ (List.mem_reverse.2 (List.getElem_mem hi)))
    | some j =>
      obtain ⟨hj, -, h2⟩ := List.findIdx?_eq_some_iff_getElem.1 h
      show (i : ℤ) ≤ (rel.length : ℤ) - 1 - j
      by_contra hlt
      have hk : rel.length - 1 - i < j := by omega
      have := h2 _ hk
      rw [List.getElem_reverse] at this
      have e : rel.length - 1 - (rel.length - 1 - i) = i := by omega
      simp only [e] at this
      exact this hp

theorem idx_none (p : ℕ → Bool) (rel : List ℕ) (h : idxMin p rel < 0) : ∀ c ∈ rel, p c = false := by
  unfold idxMin at h
  cases h1 : rel.findIdx? p with
  | none => simpa using List.findIdx?_eq_none_iff.1 h1
  | some j => rw [h1] at h; simp at h; omega

theorem idx_neg_one (p : ℕ → Bool) (rel : List ℕ) : idxMin p rel ≥ -1 ∧ idxMax p rel ≥ -1 ∧
    (idxMin p rel = -1 ↔ idxMax p rel = -1) := by
  unfold idxMin idxMax
  cases h1 : rel.findIdx? p with
  | none =>
    have : rel.reverse.findIdx? p = none := by
      rw [List.findIdx?_eq_none_iff] at h1 ⊢
      intro x hx; exact h1 x (List.mem_reverse.1 hx)
    rw [this]; simp
  | some j =>
    cases h2 : rel.reverse.findIdx? p with
    | none =>
      have : rel.findIdx? p = none := by
        rw [List.findIdx?_eq_none_iff] at h2 ⊢
        intro x hx; exact h2 x (List.mem_reverse.2 hx)
      rw [this] at h1; simp at h1
    | some k =>
      obtain ⟨hk, -⟩ := List.findIdx?_eq_some_iff_getElem.1 h2
      rw [List.length_reverse] at hk
      simp only
      refine ⟨by omega, by omega, ?_⟩
      constructor <;> intro h <;> omega

theorem mem_slice (rel : List ℕ) (lo n i : ℕ) (hi : i < rel.length) (h1 : lo ≤ i) (h2 : i < lo + n) :
    rel[i] ∈ (rel.drop lo).take n := by
  refine List.mem_iff_getElem.2 ⟨i - lo, ?_, ?_⟩
  · simp; omega
  · simp only [List.getElem_take, List.getElem_drop]
    congr 1; omega

/-- The two ways the code goes, written without indices: either nothing / a list of constraints that covers
everything touched is scanned, or no enabled constraint contains both variables and the per-variable lists
are scanned. -/
theorem selection_cases (m : MState) (rel : List ℕ) (mv : Move) (cur : Score)
    (v w : ℕ) (x y : ℤ) (hmv : mv.alterations = [(v, x), (w, y)]) (hrel : RelOK m rel v w) :
    (∃ L : List ℕ, Covers m mv.alterations L ∧ L.Sublist rel ∧
      m.evaluateSelection rel mv cur = m.evaluateMulti { mv with related := L } cur) ∨
    ((∀ c ∈ m.conIds, (m.con c).enabled = true → ¬ (v ∈ (m.con c).expr.terms.map Prod.fst ∧
        w ∈ (m.con c).expr.terms.map Prod.fst)) ∧
      ∃ r : ℚ × ℚ, r = (m.sens w).foldl (m.evalSensStep (fun k => !k.enabled) (y - m.vals w))
        ((m.sens v).foldl (m.evalSensStep (fun k => !k.enabled) (x - m.vals v))
          (cur.totalViolation, cur.localPenalty)) ∧
        m.evaluateSelection rel mv cur = m.finishScore mv.alterations r.1 r.2 true) := by
  obtain ⟨a1, a2, a3⟩ := idx_neg_one (m.touches v) rel
  obtain ⟨b1, b2, b3⟩ := idx_neg_one (m.touches w) rel
  have pos : ∀ u c, c ∈ m.conIds → (m.con c).enabled = true → u ∈ (m.con c).expr.terms.map Prod.fst →
      (u = v ∨ u = w) → ∃ i, ∃ h : i < rel.length, rel[i] = c ∧ m.touches u rel[i] = true := by
    intro u c hcm he hu huv
    have hc : c ∈ rel := hrel.covers c hcm he (by rcases huv with rfl | rfl <;> simp only [hu, true_or, or_true])
    obtain ⟨i, h, rfl⟩ := List.getElem_of_mem hc
    exact ⟨i, h, rfl, (touches_iff m u _ hcm).2 ⟨he, hu⟩⟩
  unfold MState.evaluateSelection
  rw [hmv]
  dsimp only
  by_cases hcond : combineMin (idxMin (m.touches v) rel) (idxMin (m.touches w) rel) ≥ 0 ∧
      combineMax (idxMax (m.touches v) rel) (idxMax (m.touches w) rel) ≥ 0
  · rw [if_pos hcond]
    by_cases hdis : idxMax (m.touches v) rel < idxMin (m.touches w) rel ∨
        idxMax (m.touches w) rel < idxMin (m.touches v) rel
    · right
      rw [if_pos hdis]
      refine ⟨?_, _, rfl, rfl⟩
      rintro c hcm he ⟨hv, hw⟩
      obtain ⟨i, h, hic, hi⟩ := pos v c hcm he hv (Or.inl rfl)
      have hi2 : m.touches w rel[i] = true := by
        rw [hic]; exact (touches_iff m w c hcm).2 ⟨he, hw⟩
      have e1 := idx_bounds _ rel i h hi
      have e2 := idx_bounds _ rel i h hi2
      omega
    · left
      rw [if_neg hdis]
      refine ⟨_, ⟨?_, ?_, ?_⟩, (List.take_sublist _ _).trans (List.drop_sublist _ _), rfl⟩
      · exact (((List.take_sublist _ _).trans (List.drop_sublist _ _)).nodup hrel.nodup).filter _
      · intro c hc
        exact hrel.mem c (((List.take_sublist _ _).trans (List.drop_sublist _ _)).subset hc)
      · rintro c hcm he ⟨a, ha, hav⟩
        have hav' : a.1 = v ∨ a.1 = w := by
          simp only [List.mem_cons, List.not_mem_nil, or_false] at ha
          rcases ha with rfl | rfl <;> simp
        obtain ⟨i, h, rfl, hi⟩ := pos a.1 c hcm he hav hav'
        have e := idx_bounds _ rel i h hi
        refine mem_slice rel _ _ i h ?_ ?_
        · rcases hav' with hav' | hav' <;> rw [hav'] at e <;> unfold combineMin <;> split_ifs <;> omega
        · revert hcond
          rcases hav' with hav' | hav' <;> rw [hav'] at e <;> unfold combineMin combineMax <;>
            split_ifs <;> omega
  · left
    rw [if_neg hcond]
    refine ⟨[], ⟨by simp, by simp, ?_⟩, List.nil_sublist _, rfl⟩
    rintro c hcm he ⟨a, ha, hav⟩
    exfalso
    have hav' : a.1 = v ∨ a.1 = w := by
      simp only [List.mem_cons, List.not_mem_nil, or_false] at ha
      rcases ha with rfl | rfl <;> simp
    obtain ⟨i, h, rfl, hi⟩ := pos a.1 c hcm he hav hav'
    have e := idx_bounds _ rel i h hi
    apply hcond
    rcases hav' with hav' | hav' <;> rw [hav'] at e <;> unfold combineMin combineMax <;>
      split_ifs <;> omega

/-- The per-variable scan is exact when no enabled constraint contains both variables. -/
theorem disjoint_scan (m : MState) (cur : Score) (v w : ℕ) (x y : ℤ) (hvw : v ≠ w)
    (hw : WellFormed m) (hc : Current m) (hsv : C07.SensOK m v) (hsw : C07.SensOK m w)
    (htv : cur.totalViolation = totalViolation m (assignment m))
    (hlp : cur.localPenalty = localPenalty m (assignment m))
    (hdis : ∀ c ∈ m.conIds, (m.con c).enabled = true → ¬ (v ∈ (m.con c).expr.terms.map Prod.fst ∧
        w ∈ (m.con c).expr.terms.map Prod.fst)) :
    (m.sens w).foldl (m.evalSensStep (fun k => !k.enabled) (y - m.vals w))
        ((m.sens v).foldl (m.evalSensStep (fun k => !k.enabled) (x - m.vals v))
          (cur.totalViolation, cur.localPenalty))
    = (totalViolation m (applyMove (assignment m) [(v, x), (w, y)]),
       localPenalty m (applyMove (assignment m) [(v, x), (w, y)])) := by
  let σ := assignment m
  rw [MState.foldl_add2 _ _ _ _ (MState.evalSensStep_eq m _ _),
    MState.foldl_add2 _ _ _ _ (MState.evalSensStep_eq m _ _)]
  -- one variable
  have one : ∀ u z c, c ∈ m.conIds →
      (if u ∈ (m.con c).expr.terms.map Prod.fst then
        m.sensTV (fun k => !k.enabled) (z - m.vals u) (c, Expr.lookup (m.con c).expr.terms u) else 0)
        = m.dTV σ (applyMove σ [(u, z)]) c ∧
      (if u ∈ (m.con c).expr.terms.map Prod.fst then
        m.sensLP (fun k => !k.enabled) (z - m.vals u) (c, Expr.lookup (m.con c).expr.terms u) else 0)
        = m.dLP σ (applyMove σ [(u, z)]) c := by
    intro u z c hcm
    by_cases hu : u ∈ (m.con c).expr.terms.map Prod.fst
    · rw [if_pos hu, if_pos hu]
      by_cases he : (m.con c).enabled = true
      · exact MState.sens_eq m hw hc u z _ c hcm he (by simp [he])
      · simp [MState.sensTV, MState.sensLP, MState.dTV, MState.dLP, he]
    · rw [if_neg hu, if_neg hu]
      have := MState.d_zero_of_untouched m σ [(u, z)] c (by simpa using hu)
      exact ⟨this.1.symm, this.2.symm⟩
  have two : ∀ c, c ∈ m.conIds →
      m.dTV σ (applyMove σ [(v, x)]) c + m.dTV σ (applyMove σ [(w, y)]) c
        = m.dTV σ (applyMove σ [(v, x), (w, y)]) c ∧
      m.dLP σ (applyMove σ [(v, x)]) c + m.dLP σ (applyMove σ [(w, y)]) c
        = m.dLP σ (applyMove σ [(v, x), (w, y)]) c := by
    intro c hcm
    by_cases he : (m.con c).enabled = true
    · by_cases hv : v ∈ (m.con c).expr.terms.map Prod.fst
      · have hnw : w ∉ (m.con c).expr.terms.map Prod.fst := fun h => hdis c hcm he ⟨hv, h⟩
        have z := MState.d_zero_of_untouched m σ [(w, y)] c (by simpa using hnw)
        have e : exprValue (m.con c).expr (applyMove σ [(v, x), (w, y)])
            = exprValue (m.con c).expr (applyMove σ [(v, x)]) :=
          exprValue_applyMove_of_disjoint (m.con c).expr (applyMove σ [(v, x)]) [(w, y)] (by simpa using hnw)
        rw [z.1, z.2, add_zero, add_zero]
        simp only [MState.dTV, MState.dLP, violation, penalty, e, and_self]
      · have z := MState.d_zero_of_untouched m σ [(v, x)] c (by simpa using hv)
        have hcomm : applyMove σ [(v, x), (w, y)] = applyMove (applyMove σ [(w, y)]) [(v, x)] := by
          simp only [applyMove]; rw [Function.update_comm (Ne.symm hvw)]
        have e : exprValue (m.con c).expr (applyMove σ [(v, x), (w, y)])
            = exprValue (m.con c).expr (applyMove σ [(w, y)]) := by
          rw [hcomm]
          exact exprValue_applyMove_of_disjoint (m.con c).expr (applyMove σ [(w, y)]) [(v, x)] (by simpa using hv)
        rw [z.1, z.2, zero_add, zero_add]
        simp only [MState.dTV, MState.dLP, violation, penalty, e, and_self]
    · simp [MState.dTV, MState.dLP, he]
  refine Prod.ext ?_ ?_
  · show cur.totalViolation + _ + _ = totalViolation m _
    rw [C07.sens_sum m hw v hsv, C07.sens_sum m hw w hsw, htv, add_assoc, ← sum_map_add,
      sum_map_congr _ _ _ fun c hcm => by rw [(one v x c hcm).1, (one w y c hcm).1, (two c hcm).1],
      ← MState.totalViolation_diff]
    ring
  · show cur.localPenalty + _ + _ = localPenalty m _
    rw [C07.sens_sum m hw v hsv, C07.sens_sum m hw w hsw, hlp, add_assoc, ← sum_map_add,
      sum_map_congr _ _ _ fun c hcm => by rw [(one v x c hcm).2, (one w y c hcm).2, (two c hcm).2],
      ← MState.localPenalty_diff]
    ring

/-- The selection score describes the swapped assignment, up to 1e-10 per related constraint, whether or
not the two variables share constraints; the objective is exact. -/
theorem selection_score_within_tolerance (m : MState) (rel : List ℕ) (mv : Move) (cur : Score)
    (v w : ℕ) (x y : ℤ) (hmv : mv.alterations = [(v, x), (w, y)]) (hvw : v ≠ w)
    (hw : WellFormed m) (hc : Current m) (hsv : C07.SensOK m v) (hsw : C07.SensOK m w)
    (hrel : RelOK m rel v w)
    (htv : cur.totalViolation = totalViolation m (assignment m))
    (hlp : cur.localPenalty = localPenalty m (assignment m))
    (hpen : ∀ c ∈ m.conIds, 0 ≤ (m.con c).penLess ∧ 0 ≤ (m.con c).penGreater) :
    let σ' := applyMove (assignment m) [(v, x), (w, y)]
    let s := m.evaluateSelection rel mv cur
    |s.totalViolation - totalViolation m σ'| ≤ rel.length * (1e-10 : ℚ) ∧
    |s.localPenalty - localPenalty m σ'|
      ≤ 1e-10 * (rel.map (fun c => (m.con c).penLess + (m.con c).penGreater)).sum ∧
    s.objective = minObjective m σ' ∧
    s.objectiveImprovement = minObjective m (assignment m) - minObjective m σ' := by
  intro σ' s
  have hd : (mv.alterations.map Prod.fst).Nodup := by rw [hmv]; simpa using hvw
  have hpos : 0 ≤ (rel.map (fun c => (m.con c).penLess + (m.con c).penGreater)).sum :=
    sum_map_nonneg _ _ fun c hcr => add_nonneg (hpen c (hrel.mem c hcr)).1 (hpen c (hrel.mem c hcr)).2
  rcases selection_cases m rel mv cur v w x y hmv hrel with ⟨L, hcov, hsub, he⟩ | ⟨hdis, r, hr, he⟩
  · have h := C08.multi_score_within_tolerance m { mv with related := L } cur hw hc hd hcov htv hlp hpen
    simp only [hmv] at h
    obtain ⟨h1, h2, h3, h4⟩ := h
    show |(m.evaluateSelection rel mv cur).totalViolation - _| ≤ _ ∧
      |(m.evaluateSelection rel mv cur).localPenalty - _| ≤ _ ∧
      (m.evaluateSelection rel mv cur).objective = _ ∧ (m.evaluateSelection rel mv cur).objectiveImprovement = _
    rw [he]; simp only [hmv]
    refine ⟨h1.trans ?_, h2.trans ?_, h3, h4⟩
    · have : (L.length : ℚ) ≤ rel.length := by exact_mod_cast hsub.length_le
      exact mul_le_mul_of_nonneg_right this (by norm_num)
    · refine mul_le_mul_of_nonneg_left ?_ (by norm_num)
      refine List.Sublist.sum_le_sum (hsub.map _) ?_
      intro q hq
      obtain ⟨c, hcr, rfl⟩ := List.mem_map.1 hq
      exact add_nonneg (hpen c (hrel.mem c hcr)).1 (hpen c (hrel.mem c hcr)).2
  · have hsc := disjoint_scan m cur v w x y hvw hw hc hsv hsw htv hlp hdis
    rw [← hr] at hsc
    obtain ⟨ho, -, -, -, -, -, -, hoi, -⟩ := C06.full_score_describes_moved_assignment m mv hw hc hd
    rw [hmv] at ho hoi
    show |(m.evaluateSelection rel mv cur).totalViolation - _| ≤ _ ∧
      |(m.evaluateSelection rel mv cur).localPenalty - _| ≤ _ ∧
      (m.evaluateSelection rel mv cur).objective = _ ∧ (m.evaluateSelection rel mv cur).objectiveImprovement = _
    rw [he]
    refine ⟨?_, ?_, ho, hoi⟩
    · show |r.1 - _| ≤ _
      rw [hsc]; simp only [σ', sub_self, abs_zero]; positivity
    · show |r.2 - _| ≤ _
      rw [hsc]; simp only [σ', sub_self, abs_zero]; exact mul_nonneg (by norm_num) hpos

/-- Exact version: equality with the full score in all fields except the improvability flag, if no related
constraint moves by a non-zero amount below 1e-10. -/
theorem selection_score_eq_full (m : MState) (rel : List ℕ) (mv : Move) (cur : Score)
    (v w : ℕ) (x y : ℤ) (hmv : mv.alterations = [(v, x), (w, y)]) (hvw : v ≠ w)
    (hw : WellFormed m) (hc : Current m) (hsv : C07.SensOK m v) (hsw : C07.SensOK m w)
    (hrel : RelOK m rel v w)
    (htv : cur.totalViolation = totalViolation m (assignment m))
    (hlp : cur.localPenalty = localPenalty m (assignment m))
    (hex : ∀ c ∈ rel, (m.con c).enabled = true →
      let d := exprValue (m.con c).expr (applyMove (assignment m) [(v, x), (w, y)])
        - exprValue (m.con c).expr (assignment m)
      d = 0 ∨ 1e-10 ≤ |d|) :
    { m.evaluateSelection rel mv cur with isFeasibilityImprovable := false }
      = { m.evaluateFull mv with isFeasibilityImprovable := false } := by
  have hd : (mv.alterations.map Prod.fst).Nodup := by rw [hmv]; simpa using hvw
  rcases selection_cases m rel mv cur v w x y hmv hrel with ⟨L, hcov, hsub, he⟩ | ⟨hdis, r, hr, he⟩
  · rw [he]
    exact C08.multi_score_eq_full m { mv with related := L } cur hw hc hd hcov htv hlp
      (fun c hcL => by
        have := hex c (hsub.subset hcL)
        simp only [hmv]; exact this)
  · have hsc := disjoint_scan m cur v w x y hvw hw hc hsv hsw htv hlp hdis
    rw [← hr] at hsc
    obtain ⟨-, f2, f3, -⟩ := C06.full_score_describes_moved_assignment m mv hw hc hd
    rw [he, hsc]
    rw [hmv] at f2 f3
    simp only [MState.evaluateFull, MState.finishScore, hmv] at f2 f3 ⊢
    rw [f2, f3]

/-- Swaps between variables with disjoint constraints are scored exactly, with no tolerance. -/
theorem selection_disjoint_exact (m : MState) (rel : List ℕ) (mv : Move) (cur : Score)
    (v w : ℕ) (x y : ℤ) (hmv : mv.alterations = [(v, x), (w, y)]) (hvw : v ≠ w)
    (hw : WellFormed m) (hc : Current m) (hsv : C07.SensOK m v) (hsw : C07.SensOK m w)
    (htv : cur.totalViolation = totalViolation m (assignment m))
    (hlp : cur.localPenalty = localPenalty m (assignment m))
    (hidx : idxMin (m.touches v) rel ≥ 0 ∧ idxMax (m.touches v) rel < idxMin (m.touches w) rel)
    (hrel : RelOK m rel v w) :
    (m.evaluateSelection rel mv cur).totalViolation
      = totalViolation m (applyMove (assignment m) [(v, x), (w, y)]) ∧
    (m.evaluateSelection rel mv cur).localPenalty
      = localPenalty m (applyMove (assignment m) [(v, x), (w, y)]) := by
  have hdis : ∀ c ∈ m.conIds, (m.con c).enabled = true → ¬ (v ∈ (m.con c).expr.terms.map Prod.fst ∧
        w ∈ (m.con c).expr.terms.map Prod.fst) := by
    rintro c hcm he ⟨hv, hw'⟩
    have hc' : c ∈ rel := hrel.covers c hcm he (Or.inl hv)
    obtain ⟨i, h, rfl⟩ := List.getElem_of_mem hc'
    have e1 := idx_bounds _ rel i h ((touches_iff m v _ hcm).2 ⟨he, hv⟩)
    have e2 := idx_bounds _ rel i h ((touches_iff m w _ hcm).2 ⟨he, hw'⟩)
    omega
  have hsc := disjoint_scan m cur v w x y hvw hw hc hsv hsw htv hlp hdis
  have a := idx_neg_one (m.touches v) rel
  have b := idx_neg_one (m.touches w) rel
  have he : m.evaluateSelection rel mv cur = m.finishScore mv.alterations
      (totalViolation m (applyMove (assignment m) [(v, x), (w, y)]))
      (localPenalty m (applyMove (assignment m) [(v, x), (w, y)])) true := by
    unfold MState.evaluateSelection
    rw [hmv]
    dsimp only [List.foldl_cons, List.foldl_nil]
    rw [hsc, if_pos, if_pos (Or.inl hidx.2)]
    unfold combineMin combineMax
    split_ifs <;> omega
  rw [he]
  exact ⟨rfl, rfl⟩

/-- `Selection::setup_related_constraint_ptrs` produces a related list meeting `RelOK` for any two variables
of the selection, in whatever order the heuristic sorts leave variables and constraints, provided the
selection's own constraint is disabled (as `extract` does). -/
theorem buildRelated_ok (m : MState) (own : ℕ) (hown : (m.con own).enabled = false)
    (vars : List ℕ) (lists : List (List ℕ))
    (hperm : ∀ v ∈ vars, ∃ l ∈ lists, ∀ c, c ∈ l ↔ c ∈ m.conIds ∧ v ∈ (m.con c).expr.terms.map Prod.fst)
    (honly : ∀ l ∈ lists, ∀ c ∈ l, c ∈ m.conIds) (v w) (hv : v ∈ vars) (hw : w ∈ vars) :
    RelOK m (buildRelated own lists) v w := by
  have inner : ∀ (l acc : List ℕ), acc.Nodup →
      let r := l.foldl (fun acc c => if c = own then acc else if c ∈ acc then acc else acc ++ [c]) acc
      r.Nodup ∧ ∀ c, c ∈ r ↔ c ∈ acc ∨ (c ∈ l ∧ c ≠ own) := by
    intro l
    induction l with
    | nil => intro acc h; simp [h]
    | cons a l ih =>
      intro acc h
      simp only [List.foldl_cons]
      by_cases h1 : a = own
      · simp only [h1, if_true]
        obtain ⟨i1, i2⟩ := ih acc h
        refine ⟨i1, fun c => ?_⟩
        rw [i2 c, List.mem_cons]
        tauto
      · by_cases h2 : a ∈ acc
        · simp only [h1, h2, if_true, if_false]
          obtain ⟨i1, i2⟩ := ih acc h
          refine ⟨i1, fun c => ?_⟩
          rw [i2 c, List.mem_cons]
          constructor
          · tauto
          · rintro (h | ⟨rfl | h, h'⟩)
            · exact Or.inl h
            · exact Or.inl h2
            · exact Or.inr ⟨h, h'⟩
        · simp only [h1, h2, if_false]
          obtain ⟨i1, i2⟩ := ih (acc ++ [a]) (by
            rw [List.nodup_append]
            exact ⟨h, by simp, fun x hx y hy => by
              simp only [List.mem_singleton] at hy; subst hy; rintro rfl; exact h2 hx⟩)
          refine ⟨i1, fun c => ?_⟩
          rw [i2 c, List.mem_append, List.mem_singleton, List.mem_cons]
          constructor
          · rintro ((h | rfl) | h)
            · exact Or.inl h
            · exact Or.inr ⟨Or.inl rfl, h1⟩
            · exact Or.inr ⟨Or.inr h.1, h.2⟩
          · tauto
  have outer : ∀ (ls : List (List ℕ)) (acc : List ℕ), acc.Nodup →
      let r := ls.foldl (fun acc l => l.foldl (fun acc c =>
        if c = own then acc else if c ∈ acc then acc else acc ++ [c]) acc) acc
      r.Nodup ∧ ∀ c, c ∈ r ↔ c ∈ acc ∨ ((∃ l ∈ ls, c ∈ l) ∧ c ≠ own) := by
    intro ls
    induction ls with
    | nil => intro acc h; simp [h]
    | cons l ls ih =>
      intro acc h
      simp only [List.foldl_cons]
      obtain ⟨j1, j2⟩ := inner l acc h
      obtain ⟨i1, i2⟩ := ih _ j1
      refine ⟨i1, fun c => ?_⟩
      rw [i2 c, j2 c]
      simp only [List.mem_cons, exists_eq_or_imp]
      tauto
  obtain ⟨h1, h2⟩ := outer lists [] List.nodup_nil
  refine ⟨h1, fun c hc => ?_, fun c hcm he hor => ?_⟩
  · rcases (h2 c).1 hc with h | ⟨⟨l, hl, hcl⟩, -⟩
    · simp at h
    · exact honly l hl c hcl
  · refine (h2 c).2 (Or.inr ⟨?_, ?_⟩)
    · rcases hor with h | h
      · obtain ⟨l, hl, hi⟩ := hperm v hv
        exact ⟨l, hl, (hi c).2 ⟨hcm, h⟩⟩
      · obtain ⟨l, hl, hi⟩ := hperm w hw
        exact ⟨l, hl, (hi c).2 ⟨hcm, h⟩⟩
    · rintro rfl; rw [hown] at he; simp at he

/-- Non-vacuity: a swap of `x0` and `x1` on the example model, sharing constraint 0. -/
example : RelOK Example.model [1, 0, 2] 0 1 ∧ C07.SensOK Example.model 0 ∧ C07.SensOK Example.model 1 := by
  have hids : Example.model.conIds = [0, 1, 2] := (MState.update_shape _).conIds
  have hs : ∀ v, C07.SensOK Example.model v := fun v => by
    have := C07.setupSens_ok Example.raw ⟨Example.raw_wf.conIds, Example.raw_wf.con, Example.raw_wf.obj,
      Example.raw_wf.uexpr⟩ v
    refine ⟨this.1, fun c q => ?_⟩
    rw [Example.shape.conIds, Example.shape.conTerms]
    exact this.2 c q
  refine ⟨⟨by decide, fun c hc => ?_, fun c hc _ _ => ?_⟩, hs 0, hs 1⟩
  · rw [hids]; simp only [List.mem_cons, List.not_mem_nil, or_false] at hc ⊢; tauto
  · rw [hids] at hc; simp only [List.mem_cons, List.not_mem_nil, or_false] at hc ⊢; tauto

end Printemps.C09
