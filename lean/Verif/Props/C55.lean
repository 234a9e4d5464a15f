import Verif.Model.LocalSearch
import Verif.Props.C37

/-! # C55 — combined local-search moves add up -/

namespace Printemps.C55
open Spec LocalSearch

/-- Two moves have nothing in common: no variable, and no enabled constraint in which both have a variable. -/
structure Apart (m : MState) (a b : List (ℕ × ℤ)) : Prop where
  vars : ∀ x ∈ a, ∀ y ∈ b, x.1 ≠ y.1
  constraints : ∀ c ∈ m.conIds, (m.con c).enabled = true →
    ¬ ((∃ x ∈ a, x.1 ∈ (m.con c).expr.terms.map Prod.fst) ∧ ∃ y ∈ b, y.1 ∈ (m.con c).expr.terms.map Prod.fst)

/-- The change of total violation a move makes. -/
def violationChange (m : MState) (a : List (ℕ × ℤ)) : ℚ :=
  totalViolation m (applyMove (assignment m) a) - totalViolation m (assignment m)
/-- The change of the total local penalty a move makes. -/
def penaltyChange (m : MState) (a : List (ℕ × ℤ)) : ℚ :=
  localPenalty m (applyMove (assignment m) a) - localPenalty m (assignment m)
/-- The change of the objective (as minimised) a move makes. -/
def objectiveChange (m : MState) (a : List (ℕ × ℤ)) : ℚ :=
  minObjective m (applyMove (assignment m) a) - minObjective m (assignment m)

/-- A move is an improvement: it reduces the total violation, or it leads to a solution without violation and
with a better objective. -/
def Improves (m : MState) (a : List (ℕ × ℤ)) : Prop :=
  totalViolation m (applyMove (assignment m) a) < totalViolation m (assignment m) ∨
  (totalViolation m (applyMove (assignment m) a) = 0 ∧ minObjective m (applyMove (assignment m) a) < minObjective m (assignment m))

theorem expr_append (e : Expr) (hwf : (e.terms.map Prod.fst).Nodup) (σ : ℕ → ℤ) (a b : List (ℕ × ℤ))
    (hd : ((a ++ b).map Prod.fst).Nodup) :
    exprValue e (applyMove σ (a ++ b)) - exprValue e σ =
      (exprValue e (applyMove σ a) - exprValue e σ) + (exprValue e (applyMove σ b) - exprValue e σ) := by
  have ha : (a.map Prod.fst).Nodup := by
    rw [List.map_append, List.nodup_append] at hd; exact hd.1
  have hb : (b.map Prod.fst).Nodup := by
    rw [List.map_append, List.nodup_append] at hd; exact hd.2.1
  simp only [exprValue_eq, Expr.evaluate_eq]
  rw [Expr.lin_applyMove _ hwf _ _ hd, Expr.lin_applyMove _ hwf _ _ ha, Expr.lin_applyMove _ hwf _ _ hb,
    List.map_append, List.sum_append]
  ring

theorem nodup_append_of (m : MState) (a b : List (ℕ × ℤ)) (ha : (a.map Prod.fst).Nodup) (hb : (b.map Prod.fst).Nodup)
    (h : Apart m a b) : ((a ++ b).map Prod.fst).Nodup := by
  rw [List.map_append, List.nodup_append]
  refine ⟨ha, hb, fun x hx y hy => ?_⟩
  obtain ⟨x', hx', rfl⟩ := List.mem_map.1 hx
  obtain ⟨y', hy', rfl⟩ := List.mem_map.1 hy
  exact h.vars _ hx' _ hy'

/-- Two moves. -/
theorem two_add_up (m : MState) (hw : WellFormed m) (a b : List (ℕ × ℤ)) (ha : (a.map Prod.fst).Nodup)
    (hb : (b.map Prod.fst).Nodup) (h : Apart m a b) :
    violationChange m (a ++ b) = violationChange m a + violationChange m b ∧
    penaltyChange m (a ++ b) = penaltyChange m a + penaltyChange m b ∧
    objectiveChange m (a ++ b) = objectiveChange m a + objectiveChange m b := by
  have hd := nodup_append_of m a b ha hb h
  have hcon : ∀ c ∈ m.conIds,
      m.dTV (assignment m) (applyMove (assignment m) (a ++ b)) c =
        m.dTV (assignment m) (applyMove (assignment m) a) c + m.dTV (assignment m) (applyMove (assignment m) b) c ∧
      m.dLP (assignment m) (applyMove (assignment m) (a ++ b)) c =
        m.dLP (assignment m) (applyMove (assignment m) a) c + m.dLP (assignment m) (applyMove (assignment m) b) c := by
    intro c hc
    by_cases he : (m.con c).enabled = true
    · have hx := expr_append (m.con c).expr (hw.con c hc) (assignment m) a b hd
      have hn := h.constraints c hc he
      by_cases h1 : ∃ x ∈ a, x.1 ∈ (m.con c).expr.terms.map Prod.fst
      · have h2 : ¬ ∃ y ∈ b, y.1 ∈ (m.con c).expr.terms.map Prod.fst := fun h2 => hn ⟨h1, h2⟩
        have e2 := exprValue_applyMove_of_disjoint (m.con c).expr (assignment m) b h2
        obtain ⟨d1, d2⟩ := MState.d_zero_of_untouched m (assignment m) b c h2
        rw [d1, d2]
        have e : exprValue (m.con c).expr (applyMove (assignment m) (a ++ b)) = exprValue (m.con c).expr (applyMove (assignment m) a) := by
          rw [e2] at hx; linarith
        simp [MState.dTV, MState.dLP, Spec.violation, Spec.penalty, e]
      · have e2 := exprValue_applyMove_of_disjoint (m.con c).expr (assignment m) a h1
        obtain ⟨d1, d2⟩ := MState.d_zero_of_untouched m (assignment m) a c h1
        rw [d1, d2]
        have e : exprValue (m.con c).expr (applyMove (assignment m) (a ++ b)) = exprValue (m.con c).expr (applyMove (assignment m) b) := by
          rw [e2] at hx; linarith
        simp [MState.dTV, MState.dLP, Spec.violation, Spec.penalty, e]
    · simp [MState.dTV, MState.dLP, he]
  refine ⟨?_, ?_, ?_⟩
  · unfold violationChange
    rw [MState.totalViolation_diff, MState.totalViolation_diff, MState.totalViolation_diff, ← sum_map_add]
    exact sum_map_congr _ _ _ fun c hc => (hcon c hc).1
  · unfold penaltyChange
    rw [MState.localPenalty_diff, MState.localPenalty_diff, MState.localPenalty_diff, ← sum_map_add]
    exact sum_map_congr _ _ _ fun c hc => (hcon c hc).2
  · unfold objectiveChange minObjective
    have hx := expr_append m.obj hw.obj (assignment m) a b hd
    split
    · split
      · exact hx
      · linarith
    · simp

theorem apart_flatten (m : MState) (a : List (ℕ × ℤ)) (ps : List (List (ℕ × ℤ))) (h : ∀ p ∈ ps, Apart m a p) :
    Apart m a ps.flatten := by
  constructor
  · intro x hx y hy
    obtain ⟨p, hp, hy⟩ := List.mem_flatten.1 hy
    exact (h p hp).vars x hx y hy
  · rintro c hc he ⟨h1, y, hy, h2⟩
    obtain ⟨p, hp, hy⟩ := List.mem_flatten.1 hy
    exact (h p hp).constraints c hc he ⟨h1, y, hy, h2⟩

theorem flatten_nodup (m : MState) (ps : List (List (ℕ × ℤ))) (hd : ∀ p ∈ ps, (p.map Prod.fst).Nodup)
    (h : ps.Pairwise (Apart m)) : (ps.flatten.map Prod.fst).Nodup := by
  induction ps with
  | nil => simp
  | cons p ps ih =>
    rw [List.pairwise_cons] at h
    rw [List.flatten_cons]
    exact nodup_append_of m p ps.flatten (hd p (by simp)) (ih (fun p hp => hd p (by simp [hp])) h.2) (apart_flatten m p ps h.1)

/-- The changes of total violation, local penalty and objective of moves that have nothing in common add up when
the moves are made at once. -/
theorem changes_add_up (m : MState) (hw : WellFormed m) (ps : List (List (ℕ × ℤ)))
    (hd : ∀ p ∈ ps, (p.map Prod.fst).Nodup) (h : ps.Pairwise (Apart m)) :
    violationChange m ps.flatten = (ps.map (violationChange m)).sum ∧
    penaltyChange m ps.flatten = (ps.map (penaltyChange m)).sum ∧
    objectiveChange m ps.flatten = (ps.map (objectiveChange m)).sum := by
  induction ps with
  | nil => simp [violationChange, penaltyChange, objectiveChange, applyMove]
  | cons p ps ih =>
    rw [List.pairwise_cons] at h
    have hd' := fun q hq => hd q (List.mem_cons_of_mem _ hq)
    obtain ⟨i1, i2, i3⟩ := ih hd' h.2
    obtain ⟨t1, t2, t3⟩ := two_add_up m hw p ps.flatten (hd p (by simp)) (flatten_nodup m ps hd' h.2) (apart_flatten m p ps h.1)
    simp only [List.flatten_cons, List.map_cons, List.sum_cons, t1, t2, t3, i1, i2, i3, and_self]

theorem sum_neg_of {α : Type} (l : List α) (f : α → ℚ) (hne : l ≠ []) (h : ∀ a ∈ l, f a < 0) : (l.map f).sum < 0 := by
  induction l with
  | nil => exact absurd rfl hne
  | cons a l ih =>
    rw [List.map_cons, List.sum_cons]
    by_cases hl : l = []
    · subst hl; simpa using h a (by simp)
    · have := ih hl (fun b hb => h b (by simp [hb]))
      have := h a (by simp)
      linarith

/-- Hence improvements that have nothing in common are an improvement together. -/
theorem improvements_combine (m : MState) (hw : WellFormed m) (ps : List (List (ℕ × ℤ))) (hne : ps ≠ [])
    (hd : ∀ p ∈ ps, (p.map Prod.fst).Nodup) (h : ps.Pairwise (Apart m)) (hi : ∀ p ∈ ps, Improves m p) :
    Improves m ps.flatten := by
  obtain ⟨h1, -, h3⟩ := changes_add_up m hw ps hd h
  have hnn : ∀ σ, 0 ≤ totalViolation m σ := by
    intro σ
    rw [MState.totalViolation_eq]
    refine sum_map_nonneg _ _ fun c _ => ?_
    split
    · rw [Con.violation_eq, ← Con.gap_eq_tvPart]
      cases (m.con c).sense <;> simp [cmpOf, Cmp.gap]
    · exact le_refl _
  rcases (hnn (assignment m)).lt_or_eq with hpos | hz
  · left
    have : violationChange m ps.flatten < 0 := by
      rw [h1]
      refine sum_neg_of _ _ hne fun p hp => ?_
      unfold violationChange
      rcases hi p hp with hp | hp
      · linarith
      · rw [hp.1]; linarith
    unfold violationChange at this
    linarith
  · right
    have key : ∀ p ∈ ps, totalViolation m (applyMove (assignment m) p) = 0 ∧
        minObjective m (applyMove (assignment m) p) < minObjective m (assignment m) := by
      intro p hp
      rcases hi p hp with h | h
      · rw [← hz] at h
        exact absurd h (not_lt.2 (hnn _))
      · exact h
    constructor
    · have : violationChange m ps.flatten = 0 := by
        rw [h1]
        refine sum_map_zero _ _ fun p hp => ?_
        unfold violationChange
        rw [(key p hp).1, ← hz]; ring
      unfold violationChange at this
      linarith
    · have : objectiveChange m ps.flatten < 0 := by
        rw [h3]
        refine sum_neg_of _ _ hne fun p hp => ?_
        unfold objectiveChange
        linarith [(key p hp).2]
      unfold objectiveChange at this
      linarith

/-! ## The loop -/

/-- What the loop guarantees about the moves it puts together. -/
structure Parts (m : MState) (cur : Score) (trials : List (Move × Score)) (s : Merged) : Prop where
  chosen : ∀ p ∈ s.performed, ∃ sc, (p, sc) ∈ trials ∧ worthwhile cur sc = true
  related : s.move.related = s.performed.flatMap Move.related
  taken : s.taken = s.performed.flatMap Move.related
  vars : s.move.alterations.map Prod.fst = (s.performed.flatMap Move.alterations).map Prod.fst
  apart : s.performed.Pairwise (fun a b => ∀ c ∈ a.related, (m.con c).enabled = true → c ∉ b.related)

theorem adjust_keeps (m : MState) (cur : Score) (fuel : ℕ) (mv r : Move) (h : StepSize.adjust m cur fuel mv = some r) :
    r.related = mv.related ∧ r.alterations.map Prod.fst = mv.alterations.map Prod.fst := by
  unfold StepSize.adjust at h
  split at h
  · cases h
  · next a ha =>
    obtain ⟨t, -, rfl⟩ := Option.map_eq_some_iff.1 h
    refine ⟨rfl, ?_⟩
    obtain ⟨l, hl⟩ : ∃ l, mv.alterations = l ++ [a] := by
      have hne : mv.alterations ≠ [] := fun e => by rw [e] at ha; simp at ha
      refine ⟨mv.alterations.dropLast, ?_⟩
      have := List.dropLast_append_getLast hne
      rw [List.getLast?_eq_some_getLast hne] at ha
      rw [Option.some.inj ha] at this
      exact this.symm
    unfold StepSize.withTarget
    simp [hl]

theorem loop_parts (m : MState) (cur : Score) (adj : Bool) (fuel : ℕ) (all rest : List (Move × Score)) (s r : Merged)
    (hsub : ∀ t ∈ rest, t ∈ all) (hs : Parts m cur all s) (h : mergeLoop m cur adj fuel rest s = some r) :
    Parts m cur all r := by
  induction rest generalizing s with
  | nil => rw [mergeLoop] at h; cases h; exact hs
  | cons t rest ih =>
    obtain ⟨mv, sc⟩ := t
    rw [mergeLoop] at h
    dsimp only at h
    have hsub' := fun t ht => hsub t (List.mem_cons_of_mem _ ht)
    split at h
    · cases h; exact hs
    · next hw =>
      have hw' : worthwhile cur sc = true := by simpa using hw
      split at h
      · exact ih s hsub' hs h
      · next hm =>
        have step : ∀ move', move'.related = (append s.move mv).related →
            move'.alterations.map Prod.fst = (append s.move mv).alterations.map Prod.fst →
            Parts m cur all ⟨move', s.taken ++ mv.related, s.performed ++ [mv]⟩ := by
          intro move' e1 e2
          refine ⟨fun p hp => ?_, ?_, ?_, ?_, ?_⟩
          · rcases List.mem_append.1 hp with hp | hp
            · exact hs.chosen p hp
            · rw [List.mem_singleton.1 hp]
              exact ⟨sc, hsub _ (by simp), hw'⟩
          · rw [e1]; simp [append, hs.related]
          · simp [hs.taken]
          · rw [e2]; simp only [append, List.map_append, hs.vars, List.flatMap_append, List.flatMap_cons, List.flatMap_nil, List.append_nil]
          · rw [List.pairwise_append]
            refine ⟨hs.apart, by simp, fun a ha b hb c hc he hcb => ?_⟩
            rw [List.mem_singleton.1 hb] at hcb
            apply hm
            unfold meets
            rw [List.any_eq_true]
            refine ⟨c, hcb, ?_⟩
            rw [he, hs.taken]
            simp only [Bool.true_and, decide_eq_true_eq]
            exact List.mem_flatMap.2 ⟨a, ha, hc⟩
        split at h
        · obtain ⟨move', h1, h2⟩ := Option.bind_eq_some_iff.1 h
          obtain ⟨k1, k2⟩ := adjust_keeps m cur fuel _ _ h1
          exact ih _ hsub' (step move' k1 k2) h2
        · exact ih _ hsub' (step _ rfl rfl) h

theorem order_mem (trials : List (Move × Score)) (t : Move × Score) : t ∈ order trials ↔ t ∈ trials := by
  unfold order
  rw [List.mem_mergeSort, List.mem_mergeSort]

/-- The trial moves are considered in the order of their augmented objective. -/
theorem best_first (trials : List (Move × Score)) :
    (order trials).Perm trials ∧ (order trials).Pairwise (fun a b => a.2.globalAug ≤ b.2.globalAug) := by
  constructor
  · exact (List.mergeSort_perm _ _).trans (List.mergeSort_perm _ _)
  · have := List.pairwise_mergeSort (le := fun a b : Move × Score => decide (a.2.globalAug ≤ b.2.globalAug))
      (fun a b c h1 h2 => by simp only [decide_eq_true_eq] at *; exact h1.trans h2)
      (fun a b => by simp only [Bool.or_eq_true, decide_eq_true_eq]; exact le_total _ _)
      (trials.mergeSort (fun a b => decide (a.1.related.length ≤ b.1.related.length)))
    exact this.imp (by simp)

/-- The merged move is put together from trial moves that the tests let pass and that pairwise share no enabled
constraint. -/
theorem merged_parts (m : MState) (cur : Score) (adj : Bool) (fuel : ℕ) (trials : List (Move × Score)) (r : Merged)
    (h : merge m cur adj fuel trials = some r) : Parts m cur trials r := by
  have := loop_parts m cur adj fuel (order trials) (order trials) _ r (fun _ h => h)
    ⟨by simp, by simp, by simp, by simp, by simp⟩ h
  exact ⟨fun p hp => by obtain ⟨sc, h1, h2⟩ := this.chosen p hp; exact ⟨sc, (order_mem _ _).1 h1, h2⟩,
    this.related, this.taken, this.vars, this.apart⟩

/-- Without step-size adjustment the merged move makes exactly the alterations of its parts. -/
theorem merged_alterations (m : MState) (cur : Score) (fuel : ℕ) (trials : List (Move × Score)) (r : Merged)
    (h : merge m cur false fuel trials = some r) : r.move.alterations = (r.performed.map Move.alterations).flatten := by
  have gen : ∀ (rest : List (Move × Score)) (s : Merged), s.move.alterations = (s.performed.map Move.alterations).flatten →
      mergeLoop m cur false fuel rest s = some r → r.move.alterations = (r.performed.map Move.alterations).flatten := by
    intro rest
    induction rest with
    | nil => intro s hs h; rw [mergeLoop] at h; cases h; exact hs
    | cons t rest ih =>
      obtain ⟨mv, sc⟩ := t
      intro s hs h
      rw [mergeLoop] at h
      dsimp only at h
      split at h
      · cases h; exact hs
      · split at h
        · exact ih s hs h
        · rw [if_neg (by simp)] at h
          refine ih _ ?_ h
          simp [append, hs]
  exact gen _ _ (by simp) h

/-- The trial moves of a neighbourhood: distinct unfixed variables, the related constraints are exactly enough, and
every variable occurs in an enabled constraint of the model. -/
structure Ordinary (m : MState) (mv : Move) : Prop where
  good : GoodMove m mv.alterations
  covers : Covers m mv.alterations mv.related
  constrained : ∀ a ∈ mv.alterations, ∃ c ∈ m.conIds, (m.con c).enabled = true ∧ a.1 ∈ (m.con c).expr.terms.map Prod.fst

theorem ordinary_apart (m : MState) (a b : Move) (ha : Ordinary m a) (hb : Ordinary m b)
    (h : ∀ c ∈ a.related, (m.con c).enabled = true → c ∉ b.related) : Apart m a.alterations b.alterations := by
  have key : ∀ c ∈ m.conIds, (m.con c).enabled = true → ¬ ((∃ x ∈ a.alterations, x.1 ∈ (m.con c).expr.terms.map Prod.fst) ∧
      ∃ y ∈ b.alterations, y.1 ∈ (m.con c).expr.terms.map Prod.fst) := by
    rintro c hc he ⟨h1, h2⟩
    exact h c (ha.covers.covers c hc he h1) he (hb.covers.covers c hc he h2)
  refine ⟨fun x hx y hy e => ?_, key⟩
  obtain ⟨c, hc, he, hm⟩ := ha.constrained x hx
  exact key c hc he ⟨⟨x, hx, hm⟩, y, hy, by rw [← e]; exact hm⟩

/-- A score that describes the assignment after the move. -/
structure Exact (m : MState) (mv : Move) (sc : Score) : Prop where
  violation : sc.totalViolation = totalViolation m (applyMove (assignment m) mv.alterations)
  feasible : sc.isFeasible = !decide (sc.totalViolation > EPSILON)
  improvable : sc.isObjectiveImprovable = true →
    minObjective m (applyMove (assignment m) mv.alterations) < minObjective m (assignment m)

/-- A move that passes the tests of the loop is an improvement, if violations within the tolerance are zero (for
example when all coefficients are integers). -/
theorem accepted_improves (m : MState) (cur sc : Score) (mv : Move) (hcur : cur.totalViolation = totalViolation m (assignment m))
    (hx : Exact m mv sc) (hz : sc.totalViolation ≤ EPSILON → sc.totalViolation = 0) (h : worthwhile cur sc = true) :
    Improves m mv.alterations := by
  unfold worthwhile at h
  split at h
  · next hf =>
    rw [hx.feasible] at hf
    have : sc.totalViolation ≤ EPSILON := by simpa using hf
    right
    rw [← hx.violation]
    exact ⟨hz this, hx.improvable h⟩
  · left
    rw [← hx.violation, ← hcur]
    exact of_decide_eq_true h

/-- All together: the merged move of local search changes distinct, unfixed variables, its change of violation and
objective is the sum of the changes of its parts, and it is an improvement. -/
theorem merged_move_improves (m : MState) (hw : WellFormed m) (cur : Score) (fuel : ℕ) (trials : List (Move × Score)) (r : Merged)
    (hcur : cur.totalViolation = totalViolation m (assignment m))
    (ho : ∀ t ∈ trials, Ordinary m t.1) (hx : ∀ t ∈ trials, Exact m t.1 t.2)
    (hz : ∀ t ∈ trials, t.2.totalViolation ≤ EPSILON → t.2.totalViolation = 0)
    (h : merge m cur false fuel trials = some r) (hne : r.performed ≠ []) :
    GoodMove m r.move.alterations ∧
    violationChange m r.move.alterations = (r.performed.map (fun p => violationChange m p.alterations)).sum ∧
    penaltyChange m r.move.alterations = (r.performed.map (fun p => penaltyChange m p.alterations)).sum ∧
    objectiveChange m r.move.alterations = (r.performed.map (fun p => objectiveChange m p.alterations)).sum ∧
    Improves m r.move.alterations := by
  have hp := merged_parts m cur false fuel trials r h
  have ha := merged_alterations m cur fuel trials r h
  have hord : ∀ p ∈ r.performed, Ordinary m p := fun p hpp => by
    obtain ⟨sc, h1, -⟩ := hp.chosen p hpp
    exact ho _ h1
  have hpw : (r.performed.map Move.alterations).Pairwise (Apart m) := by
    rw [List.pairwise_map]
    exact hp.apart.imp_of_mem (fun ha hb hab => ordinary_apart m _ _ (hord _ ha) (hord _ hb) hab)
  have hd : ∀ p ∈ r.performed.map Move.alterations, (p.map Prod.fst).Nodup := by
    intro p hpp
    obtain ⟨q, hq, rfl⟩ := List.mem_map.1 hpp
    exact (hord q hq).good.distinct
  obtain ⟨s1, s2, s3⟩ := changes_add_up m hw _ hd hpw
  rw [← ha] at s1 s2 s3
  simp only [List.map_map, Function.comp_def] at s1 s2 s3
  refine ⟨⟨?_, ?_⟩, s1, s2, s3, ?_⟩
  · rw [ha]; exact flatten_nodup m _ hd hpw
  · intro a haa
    rw [ha] at haa
    obtain ⟨p, hpp, haa⟩ := List.mem_flatten.1 haa
    obtain ⟨q, hq, rfl⟩ := List.mem_map.1 hpp
    exact (hord q hq).good.mutable a haa
  · rw [ha]
    refine improvements_combine m hw _ (by simpa using hne) hd hpw fun p hpp => ?_
    obtain ⟨q, hq, rfl⟩ := List.mem_map.1 hpp
    obtain ⟨sc, h1, h2⟩ := hp.chosen q hq
    exact accepted_improves m cur sc q hcur (hx _ h1) (hz _ h1) h2

/-- The merged move is one the model can apply: its list of related constraints is complete and has no enabled
constraint twice. -/
theorem merged_move_covers (m : MState) (cur : Score) (adj : Bool) (fuel : ℕ) (trials : List (Move × Score)) (r : Merged)
    (ho : ∀ t ∈ trials, Covers m t.1.alterations t.1.related)
    (h : merge m cur adj fuel trials = some r) : Covers m r.move.alterations r.move.related := by
  have hp := merged_parts m cur adj fuel trials r h
  have hcov : ∀ p ∈ r.performed, Covers m p.alterations p.related := fun p hpp => by
    obtain ⟨sc, h1, -⟩ := hp.chosen p hpp
    exact ho _ h1
  refine ⟨?_, ?_, ?_⟩
  · rw [hp.related, List.filter_flatMap, List.nodup_flatMap]
    refine ⟨fun p hpp => (hcov p hpp).nodup, hp.apart.imp_of_mem fun ha hb hab => ?_⟩
    show List.Disjoint _ _
    intro c hc hcb
    rw [List.mem_filter] at hc hcb
    exact hab c hc.1 hc.2 hcb.1
  · intro c hc
    rw [hp.related] at hc
    obtain ⟨p, hpp, hc⟩ := List.mem_flatMap.1 hc
    exact (hcov p hpp).mem c hc
  · rintro c hc he ⟨a, ha, hm⟩
    rw [hp.related]
    have : a.1 ∈ r.move.alterations.map Prod.fst := List.mem_map.2 ⟨a, ha, rfl⟩
    rw [hp.vars] at this
    obtain ⟨a', ha', e⟩ := List.mem_map.1 this
    obtain ⟨p, hpp, ha'⟩ := List.mem_flatMap.1 ha'
    exact List.mem_flatMap.2 ⟨p, hpp, (hcov p hpp).covers c hc he ⟨a', ha', by rw [e]; exact hm⟩⟩

/-! ## With step-size adjustment -/

/-- The augmented objective `evaluate_multi` computes for a move, relative to that of the empty move. -/
def gain (m : MState) (cur : Score) (mv : Move) : ℚ :=
  (m.evaluateMulti mv cur).globalAug - (m.evaluateMulti { alterations := [] } cur).globalAug

theorem multi_fold (m : MState) (alts : List (ℕ × ℤ)) (rel : List ℕ) (acc : ℚ × ℚ × Bool) :
    (rel.foldl (m.evalMultiStep alts) acc).1 = acc.1 + (rel.map (m.multiTV alts)).sum := by
  induction rel generalizing acc with
  | nil => simp
  | cons c rel ih => rw [List.foldl_cons, ih, MState.evalMultiStep_eq]; simp only [List.map_cons, List.sum_cons]; ring

theorem gain_eq (m : MState) (cur : Score) (mv : Move) : gain m cur mv =
    (if m.objDefined then ((mv.alterations.map (fun a => Expr.lookup m.obj.terms a.1 * (((a.2 - m.vals a.1 : ℤ)) : ℚ))).sum) * m.sign else 0) +
    (mv.related.map (m.multiTV mv.alterations)).sum * m.globalPen := by
  unfold gain MState.evaluateMulti MState.finishScore
  dsimp only
  rw [multi_fold, Expr.evaluateMove_sum, Expr.evaluateMove_sum]
  simp only [List.map_nil, List.sum_nil, List.foldl_nil, add_zero]
  split <;> ring

theorem multiTV_append (m : MState) (a b : List (ℕ × ℤ)) (c : ℕ)
    (h : (m.con c).enabled = true → ¬ ∃ y ∈ b, y.1 ∈ (m.con c).expr.terms.map Prod.fst) :
    m.multiTV (a ++ b) c = m.multiTV a c ∧ m.multiTV (b ++ a) c = m.multiTV a c := by
  by_cases he : (m.con c).enabled = true
  · have hz : (b.map (fun y => Expr.lookup (m.con c).expr.terms y.1 * (((y.2 - m.vals y.1 : ℤ)) : ℚ))).sum = 0 := by
      refine sum_map_zero _ _ fun y hy => ?_
      rw [Expr.lookup_of_not_mem _ _ (fun hm => h he ⟨y, hy, hm⟩)]
      ring
    have e1 : (m.con c).expr.evaluateMove m.vals (a ++ b) = (m.con c).expr.evaluateMove m.vals a := by
      rw [Expr.evaluateMove_sum, Expr.evaluateMove_sum, List.map_append, List.sum_append, hz, add_zero]
    have e2 : (m.con c).expr.evaluateMove m.vals (b ++ a) = (m.con c).expr.evaluateMove m.vals a := by
      rw [Expr.evaluateMove_sum, Expr.evaluateMove_sum, List.map_append, List.sum_append, hz, zero_add]
    unfold MState.multiTV
    dsimp only
    rw [e1, e2]
    exact ⟨rfl, rfl⟩
  · unfold MState.multiTV
    simp [he]

/-- The computed gains of two moves add up. -/
theorem gain_append (m : MState) (cur : Score) (a b : Move)
    (hca : ∀ c ∈ a.related, c ∈ m.conIds) (hcb : ∀ c ∈ b.related, c ∈ m.conIds)
    (hcov : ∀ c ∈ m.conIds, (m.con c).enabled = true → (∃ x ∈ b.alterations, x.1 ∈ (m.con c).expr.terms.map Prod.fst) → c ∈ b.related)
    (hcov' : ∀ c ∈ m.conIds, (m.con c).enabled = true → (∃ x ∈ a.alterations, x.1 ∈ (m.con c).expr.terms.map Prod.fst) → c ∈ a.related)
    (h : ∀ c ∈ a.related, (m.con c).enabled = true → c ∉ b.related) :
    gain m cur (append a b) = gain m cur a + gain m cur b := by
  have e1 : (a.related.map (m.multiTV (a.alterations ++ b.alterations))).sum = (a.related.map (m.multiTV a.alterations)).sum := by
    refine sum_map_congr _ _ _ fun c hc => (multiTV_append m _ _ c fun he hy => ?_).1
    exact h c hc he (hcov c (hca c hc) he hy)
  have e2 : (b.related.map (m.multiTV (a.alterations ++ b.alterations))).sum = (b.related.map (m.multiTV b.alterations)).sum := by
    refine sum_map_congr _ _ _ fun c hc => (multiTV_append m _ _ c fun he hy => ?_).2
    exact h c (hcov' c (hcb c hc) he hy) he hc
  rw [gain_eq, gain_eq, gain_eq]
  simp only [append, List.map_append, List.sum_append, e1, e2]
  split <;> ring

/-- A trial move of the integer neighbourhood that stays within the bounds and changes the variable. -/
def StepOk (m : MState) (mv : Move) : Prop := mv.sense = .integer →
  ∃ v t, mv.alterations = [(v, t)] ∧ (m.var v).lb ≤ (m.var v).value ∧ (m.var v).value ≤ (m.var v).ub ∧
    (m.var v).lb ≤ t ∧ t ≤ (m.var v).ub ∧ t ≠ (m.var v).value

/-- Whether or not steps are adjusted, the computed augmented objective of the merged move is at most what the gains
of its parts add up to, and the merged move changes the same variables as its parts. -/
theorem merged_gain (m : MState) (cur : Score) (adj : Bool) (trials : List (Move × Score))
    (ho : ∀ t ∈ trials, Covers m t.1.alterations t.1.related) (hs : ∀ t ∈ trials, StepOk m t.1)
    (fuel : ℕ) (hf : ∀ v, (m.var v).ub - (m.var v).lb < fuel) :
    ∃ r, merge m cur adj fuel trials = some r ∧ gain m cur r.move ≤ (r.performed.map (gain m cur)).sum ∧
      r.move.alterations.map Prod.fst = (r.performed.flatMap Move.alterations).map Prod.fst := by
  have gen : ∀ (rest : List (Move × Score)) (s : Merged), (∀ t ∈ rest, t ∈ trials) → Parts m cur trials s →
      gain m cur s.move ≤ (s.performed.map (gain m cur)).sum →
      ∃ r, mergeLoop m cur adj fuel rest s = some r ∧ gain m cur r.move ≤ (r.performed.map (gain m cur)).sum := by
    intro rest
    induction rest with
    | nil => intro s _ _ hg; exact ⟨s, by rw [mergeLoop], hg⟩
    | cons t rest ih =>
      obtain ⟨mv, sc⟩ := t
      intro s hsub hp hg
      have hsub' := fun t ht => hsub t (List.mem_cons_of_mem _ ht)
      rw [mergeLoop]
      dsimp only
      split
      · exact ⟨s, rfl, hg⟩
      · next hw =>
        have hw' : worthwhile cur sc = true := by simpa using hw
        split
        · exact ih s hsub' hp hg
        · next hm =>
          have hmem : (mv, sc) ∈ trials := hsub _ (by simp)
          have hc2 := ho _ hmem
          have hmems : ∀ c ∈ s.move.related, c ∈ m.conIds := by
            intro c hc
            rw [hp.related] at hc
            obtain ⟨q, hq, hc⟩ := List.mem_flatMap.1 hc
            obtain ⟨sc', h1, -⟩ := hp.chosen q hq
            exact (ho _ h1).mem c hc
          have hcovs : ∀ c ∈ m.conIds, (m.con c).enabled = true →
              (∃ x ∈ s.move.alterations, x.1 ∈ (m.con c).expr.terms.map Prod.fst) → c ∈ s.move.related := by
            rintro c hc he ⟨x, hx, hxm⟩
            have : x.1 ∈ s.move.alterations.map Prod.fst := List.mem_map.2 ⟨x, hx, rfl⟩
            rw [hp.vars] at this
            obtain ⟨y, hy, e⟩ := List.mem_map.1 this
            obtain ⟨q, hq, hy⟩ := List.mem_flatMap.1 hy
            obtain ⟨sc', h1, -⟩ := hp.chosen q hq
            rw [hp.related]
            exact List.mem_flatMap.2 ⟨q, hq, (ho _ h1).covers c hc he ⟨y, hy, by rw [e]; exact hxm⟩⟩
          have hdis : ∀ c ∈ s.move.related, (m.con c).enabled = true → c ∉ mv.related := by
            intro c hc he hcb
            apply hm
            unfold meets
            rw [List.any_eq_true]
            refine ⟨c, hcb, ?_⟩
            rw [he, hp.taken, ← hp.related]
            simpa using hc
          have hgain := gain_append m cur s.move mv hmems hc2.mem hc2.covers hcovs hdis
          have step : ∀ move', move'.related = (append s.move mv).related →
              move'.alterations.map Prod.fst = (append s.move mv).alterations.map Prod.fst →
              gain m cur move' ≤ gain m cur (append s.move mv) →
              ∃ r, mergeLoop m cur adj fuel rest ⟨move', s.taken ++ mv.related, s.performed ++ [mv]⟩ = some r ∧
                gain m cur r.move ≤ (r.performed.map (gain m cur)).sum := by
            intro move' e1 e2 e3
            refine ih _ hsub' ?_ ?_
            · refine ⟨fun p hpp => ?_, ?_, ?_, ?_, ?_⟩
              · rcases List.mem_append.1 hpp with hpp | hpp
                · exact hp.chosen p hpp
                · rw [List.mem_singleton.1 hpp]
                  exact ⟨sc, hmem, hw'⟩
              · rw [e1]; simp [append, hp.related]
              · simp [hp.taken]
              · rw [e2]; simp only [append, List.map_append, hp.vars, List.flatMap_append, List.flatMap_cons, List.flatMap_nil, List.append_nil]
              · rw [List.pairwise_append]
                refine ⟨hp.apart, by simp, fun a ha b hb c hc he hcb => ?_⟩
                rw [List.mem_singleton.1 hb] at hcb
                refine hdis c ?_ he hcb
                rw [hp.related]
                exact List.mem_flatMap.2 ⟨a, ha, hc⟩
            · simp only [List.map_append, List.sum_append, List.map_cons, List.map_nil, List.sum_cons, List.sum_nil]
              linarith
          split
          · next hadj =>
            obtain ⟨v, t, hv, b1, b2, b3, b4, b5⟩ := hs _ hmem hadj.2
            have hva : (append s.move mv).alterations = s.move.alterations ++ [(v, t)] := by
              show s.move.alterations ++ mv.alterations = _
              rw [hv]
            obtain ⟨t', mv', k1, k2, -, -, -, -, k7⟩ := C37.adjusted_move m cur (append s.move mv) s.move.alterations v t hva b1 b2 b3 b4 b5
            rw [k1 fuel (hf v), Option.bind_some]
            refine step mv' (by rw [k2]) (by rw [k2, hva]; simp) ?_
            rcases k7 with k7 | k7
            · have : mv' = append s.move mv := by
                rw [k2, k7, ← hva]
              rw [this]
            · unfold gain
              linarith
          · exact step _ rfl rfl (le_refl _)
  obtain ⟨r, h1, h2⟩ := gen (order trials) ⟨{ alterations := [] }, [], []⟩ (fun t ht => (order_mem _ _).1 ht)
    ⟨by simp, by simp, by simp, by simp, by simp⟩ (by simp [gain])
  exact ⟨r, h1, h2, (merged_parts m cur adj fuel trials r h1).vars⟩

/-! ## Examples -/

/-- `x0 >= 1` and `x2 >= 1`, both violated at zero; minimise `-2*x0 + x1 + 3*x2`. -/
def raw : MState := { Example.raw with
  con := fun c => if c = 0 then Con.setup ⟨[(0, 1)], -1, 0⟩ .greater Example.senses else Con.setup ⟨[(2, 1)], -1, 0⟩ .greater Example.senses
  conIds := [0, 1] }
/-- After `update()`. -/
def model : MState := raw.update

theorem raw_wf : WellFormed raw where
  conIds := by decide
  con c hc := by
    simp only [raw]
    split <;> decide
  obj := Example.raw_wf.obj
  uexpr i hi := by simp [raw, Example.raw] at hi

theorem model_wf : WellFormed model := (MState.update_shape _).wellFormed raw_wf

def moveA : Move := { alterations := [(0, 1)], related := [0], sense := .binary }
def moveB : Move := { alterations := [(2, 1)], related := [1], sense := .integer }
def cur : Score := model.evaluateFull { alterations := [] }
def trials : List (Move × Score) := [(moveA, model.evaluateFull moveA), (moveB, model.evaluateFull moveB)]

theorem model_ids : model.conIds = [0, 1] := rfl

theorem value_model (v) : assignment model v = 0 := by
  simp only [assignment, model, MState.update, MState.updateFeasibility, MState.updateObj,
    MState.updateCons, MState.updateDependents, MState.updateExprs, raw, Example.raw, List.foldl_nil, if_true]
  split <;> rfl

theorem fixed_model (v) : (model.var v).fixed = false := by
  simp only [model, MState.update, MState.updateFeasibility, MState.updateObj,
    MState.updateCons, MState.updateDependents, MState.updateExprs, raw, Example.raw, List.foldl_nil, if_true]
  split <;> rfl

theorem model_current : Current model := MState.update_current _ (by intro i hi; simp [raw, Example.raw] at hi)

theorem exact_full (m : MState) (hw : WellFormed m) (hc : Current m) (mv : Move) (hd : (mv.alterations.map Prod.fst).Nodup) :
    Exact m mv (m.evaluateFull mv) := by
  obtain ⟨h1, h2, -⟩ := C06.full_score_describes_moved_assignment m mv hw hc hd
  refine ⟨h2, rfl, fun hi => ?_⟩
  have hi' : decide ((m.evaluateFull mv).objectiveImprovement > EPSILON) = true := hi
  have h := of_decide_eq_true hi'
  have hpos : (0 : ℚ) < EPSILON := by norm_num [EPSILON]
  rw [← h1]
  have ho : minObjective m (assignment m) - (m.evaluateFull mv).objective = (m.evaluateFull mv).objectiveImprovement := by
    unfold MState.evaluateFull MState.finishScore minObjective
    dsimp only
    split
    · next hdef =>
      rw [(hc.obj hdef).2]
      unfold MState.sign
      split <;> ring
    · ring
  linarith

theorem order_sorted (ts : List (Move × Score)) (h1 : ts.Pairwise (fun a b => a.1.related.length ≤ b.1.related.length))
    (h2 : ts.Pairwise (fun a b => a.2.globalAug ≤ b.2.globalAug)) : order ts = ts := by
  unfold order
  rw [List.mergeSort_of_pairwise (h1.imp (by simp)), List.mergeSort_of_pairwise (h2.imp (by simp))]

theorem order_trials : order trials = trials :=
  order_sorted _ (by unfold trials; simp [moveA, moveB]) (by unfold trials; simp only [List.pairwise_cons]; simp; decide +kernel)

theorem ordinary_trials : ∀ t ∈ trials, Ordinary model t.1 := by
  have gen : ∀ mv : Move, (mv = moveA ∨ mv = moveB) → Ordinary model mv := by
    rintro mv (rfl | rfl)
    · refine ⟨⟨by decide, fun a _ => fixed_model a.1⟩, ⟨by decide, fun c hc => ?_, fun c hc he h => ?_⟩, fun a ha => ?_⟩
      · rw [model_ids]; revert hc; show c ∈ [0] → _; simp +contextual
      · rw [model_ids] at hc
        have : c = 0 ∨ c = 1 := by simpa using hc
        rcases this with rfl | rfl
        · decide
        · exact absurd h (by decide +kernel)
      · refine ⟨0, by decide, by decide +kernel, ?_⟩
        have : a = (0, 1) := by simpa [moveA] using ha
        subst this
        decide +kernel
    · refine ⟨⟨by decide, fun a _ => fixed_model a.1⟩, ⟨by decide, fun c hc => ?_, fun c hc he h => ?_⟩, fun a ha => ?_⟩
      · rw [model_ids]; revert hc; show c ∈ [1] → _; simp +contextual
      · rw [model_ids] at hc
        have : c = 0 ∨ c = 1 := by simpa using hc
        rcases this with rfl | rfl
        · exact absurd h (by decide +kernel)
        · decide
      · refine ⟨1, by decide, by decide +kernel, ?_⟩
        have : a = (2, 1) := by simpa [moveB] using ha
        subst this
        decide +kernel
  intro t ht
  apply gen
  unfold trials at ht
  simp only [List.mem_cons, List.not_mem_nil, or_false] at ht
  rcases ht with rfl | rfl <;> simp

/-- Both moves reduce the violation and are merged. -/
theorem merged_trials : merge model cur false 10 trials =
    some ⟨{ alterations := [(0, 1), (2, 1)], related := [0, 1] }, [0, 1], [moveA, moveB]⟩ := by
  have hA : worthwhile cur (model.evaluateFull moveA) = true := by decide +kernel
  have hB : worthwhile cur (model.evaluateFull moveB) = true := by decide +kernel
  unfold merge
  rw [order_trials]
  unfold trials
  rw [mergeLoop, hA, if_neg (by decide), if_neg (by decide +kernel)]
  dsimp only
  rw [if_neg (by decide), mergeLoop, hB, if_neg (by decide), if_neg (by decide +kernel)]
  dsimp only
  rw [if_neg (by decide), mergeLoop]
  rfl

/-- The hypotheses of `merged_move_improves` are met, and the merged move is an improvement. -/
example : Improves model [(0, 1), (2, 1)] := by
  refine (merged_move_improves model model_wf cur 10 trials _ ?_ ordinary_trials ?_ ?_ merged_trials (by simp)).2.2.2.2
  · exact (C06.full_score_describes_moved_assignment model { alterations := [] } model_wf model_current (by simp)).2.1
  · intro t ht
    have hd := (ordinary_trials t ht).good.distinct
    unfold trials at ht
    simp only [List.mem_cons, List.not_mem_nil, or_false] at ht
    rcases ht with rfl | rfl <;> exact exact_full model model_wf model_current _ hd
  · intro t ht
    unfold trials at ht
    simp only [List.mem_cons, List.not_mem_nil, or_false] at ht
    rcases ht with rfl | rfl <;> (dsimp only; decide +kernel)

/-- The hypotheses of `merged_gain` are met with step-size adjustment. -/
example : ∃ r, merge model cur true 10 trials = some r ∧ gain model cur r.move ≤ (r.performed.map (gain model cur)).sum := by
  have hs : ∀ t ∈ trials, StepOk model t.1 := by
    intro t ht hs
    unfold trials at ht
    simp only [List.mem_cons, List.not_mem_nil, or_false] at ht
    rcases ht with rfl | rfl
    · exact absurd hs (by decide)
    · exact ⟨2, 1, rfl, by decide +kernel, by decide +kernel, by decide +kernel, by decide +kernel, by decide +kernel⟩
  have hf : ∀ v, (model.var v).ub - (model.var v).lb < (10 : ℕ) := by
    intro v
    simp only [model, MState.update, MState.updateFeasibility, MState.updateObj,
      MState.updateCons, MState.updateDependents, MState.updateExprs, raw, Example.raw, List.foldl_nil, if_true]
    split <;> decide
  obtain ⟨r, h1, h2, -⟩ := merged_gain model cur true trials (fun t ht => (ordinary_trials t ht).covers) hs 10 hf
  exact ⟨r, h1, h2⟩

/-! ## What goes wrong -/

/-- A model without constraints on `x2`: minimise `-x2`, `x2` in `[0,5]`. -/
def free : MState := ({ raw with conIds := [], obj := ⟨[(2, -1)], 0, 0⟩ } : MState).update
def step1 : Move := { alterations := [(2, 1)], sense := .integer }
def step2 : Move := { alterations := [(2, 2)], sense := .integer }

/-- Moves of a variable without constraints share no constraint, so two moves of the same variable are merged; the
merged move is then scored with the sum of both changes (objective -3), although the variable ends at 2
(objective -2). -/
theorem unconstrained_variable_counted_twice :
    ∃ r, merge free (free.evaluateFull { alterations := [] }) false 10
        [(step2, free.evaluateFull step2), (step1, free.evaluateFull step1)] = some r ∧
      r.performed = [step2, step1] ∧
      (free.evaluateMulti r.move (free.evaluateFull { alterations := [] })).objective = -3 ∧
      minObjective free (applyMove (assignment free) r.move.alterations) = -1 := by
  refine ⟨⟨{ alterations := [(2, 2), (2, 1)] }, [], [step2, step1]⟩, ?_, rfl, by decide +kernel, by decide +kernel⟩
  have h1 : worthwhile (free.evaluateFull { alterations := [] }) (free.evaluateFull step1) = true := by decide +kernel
  have h2 : worthwhile (free.evaluateFull { alterations := [] }) (free.evaluateFull step2) = true := by decide +kernel
  unfold merge
  rw [order_sorted _ (by simp [step1, step2]) (by simp only [List.pairwise_cons]; simp; decide +kernel)]
  rw [mergeLoop, h2, if_neg (by decide), if_neg (by decide +kernel)]
  dsimp only
  rw [if_neg (by decide), mergeLoop, h1, if_neg (by decide), if_neg (by decide +kernel)]
  dsimp only
  rw [if_neg (by decide), mergeLoop]
  rfl

/-- `6e-6*x0 <= 0` and `6e-6*x1 <= 0`; minimise `-x0 - x1`. -/
def slack : MState := ({ raw with
  con := fun c => if c = 0 then Con.setup ⟨[(0, 6 / 1000000)], 0, 0⟩ .less Example.senses else Con.setup ⟨[(1, 6 / 1000000)], 0, 0⟩ .less Example.senses
  obj := ⟨[(0, -1), (1, -1)], 0, 0⟩ } : MState).update
def flip0 : Move := { alterations := [(0, 1)], related := [0], sense := .binary }
def flip1 : Move := { alterations := [(1, 1)], related := [1], sense := .binary }

/-- Violations within the tolerance add up as well: from a feasible solution two moves that are scored feasible are
merged into a move that is not. -/
theorem tolerated_violations_add_up :
    ∃ r, merge slack (slack.evaluateFull { alterations := [] }) false 10
        [(flip0, slack.evaluateFull flip0), (flip1, slack.evaluateFull flip1)] = some r ∧
      (slack.evaluateFull flip0).isFeasible = true ∧ (slack.evaluateFull flip1).isFeasible = true ∧
      (slack.evaluateFull r.move).isFeasible = false := by
  refine ⟨⟨{ alterations := [(0, 1), (1, 1)], related := [0, 1] }, [0, 1], [flip0, flip1]⟩, ?_, by decide +kernel, by decide +kernel, by decide +kernel⟩
  have h1 : worthwhile (slack.evaluateFull { alterations := [] }) (slack.evaluateFull flip0) = true := by decide +kernel
  have h2 : worthwhile (slack.evaluateFull { alterations := [] }) (slack.evaluateFull flip1) = true := by decide +kernel
  unfold merge
  rw [order_sorted _ (by simp [flip0, flip1]) (by simp only [List.pairwise_cons]; simp; decide +kernel)]
  rw [mergeLoop, h1, if_neg (by decide), if_neg (by decide +kernel)]
  dsimp only
  rw [if_neg (by decide), mergeLoop, h2, if_neg (by decide), if_neg (by decide +kernel)]
  dsimp only
  rw [if_neg (by decide), mergeLoop]
  rfl

end Printemps.C55
