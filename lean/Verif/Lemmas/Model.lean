import Verif.Spec.Score
import Verif.Lemmas.Expression
import Verif.Lemmas.Sums

/-! Helper lemmas about the evaluation core. -/

namespace Printemps
open Spec

theorem exprValue_eq (e : Expr) (σ) : exprValue e σ = e.evaluate σ := (Expr.evaluate_eq e σ).symm

theorem vals_eq (m : MState) : m.vals = assignment m := rfl

theorem evalMove_eq_spec (e : Expr) (hwf : (e.terms.map Prod.fst).Nodup) (σ : ℕ → ℤ)
    (hcur : e.value = exprValue e σ) (alts : List (ℕ × ℤ)) (hd : (alts.map Prod.fst).Nodup) :
    e.evaluateMove σ alts = exprValue e (applyMove σ alts) := by
  rw [exprValue_eq]
  exact Expr.evaluateMove_eq e hwf σ (by rw [hcur, exprValue_eq]) alts hd

namespace Con

/-- violation contribution as the code accumulates it -/
def tvPart (k : Con) (x : ℚ) : ℚ := (if k.isLe then max x 0 else 0) + (if k.isGe then max (-x) 0 else 0)
/-- penalty contribution as the code accumulates it -/
def lpPart (k : Con) (x : ℚ) : ℚ :=
  (if k.isLe then max x 0 * k.penLess else 0) + (if k.isGe then max (-x) 0 * k.penGreater else 0)

theorem abs_eq_parts (x : ℚ) : |x| = max x 0 + max (-x) 0 := by
  rcases le_total x 0 with h | h
  · rw [abs_of_nonpos h, max_eq_right h, max_eq_left (by linarith)]; ring
  · rw [abs_of_nonneg h, max_eq_left h, max_eq_right (by linarith)]; ring

theorem gap_eq_tvPart (k : Con) (x : ℚ) : (cmpOf k.sense).gap x 0 = k.tvPart x := by
  unfold tvPart isLe isGe
  cases k.sense <;> simp [cmpOf, Cmp.gap]

theorem violation_eq (k : Con) (σ) : Spec.violation k σ = k.tvPart (exprValue k.expr σ) :=
  gap_eq_tvPart _ _

theorem penalty_eq (k : Con) (σ) : Spec.penalty k σ = k.lpPart (exprValue k.expr σ) := by
  unfold Spec.penalty lpPart isLe isGe
  cases k.sense <;> simp

theorem neg_min_eq (x : ℚ) : - min x 0 = max (-x) 0 := by
  rcases le_total x 0 with h | h
  · rw [min_eq_left h, max_eq_left (by linarith)]
  · rw [min_eq_right h, max_eq_right (by linarith)]; ring

theorem setValue_current (c : Con) (x : ℚ) :
    (c.setValue x).violation = (cmpOf c.sense).gap x 0 ∧
    (c.setValue x).margin = (cmpOf c.sense).slack x 0 ∧
    (c.setValue x).neg = max (-x) 0 := by
  simp only [setValue]
  refine ⟨?_, ?_, neg_min_eq x⟩ <;> cases c.sense <;>
    simp [cmpOf, Cmp.gap, Cmp.slack, neg_min_eq]

theorem update_current (c : Con) (σ) : ConCurrent (c.update σ) σ := by
  have h := setValue_current { c with expr := c.expr.update σ } (c.expr.evaluate σ)
  have he : exprValue (c.update σ).expr σ = c.expr.evaluate σ := by
    rw [exprValue_eq]; rfl
  refine ⟨?_, ?_, ?_, ?_, ?_, ?_⟩
  · rw [he]; rfl
  · rw [he]; rfl
  · rw [he]; rfl
  · rw [he]; exact h.2.2
  · rw [Spec.violation, he]; exact h.1
  · rw [he]; exact h.2.1

theorem updateMove_current (c : Con) (hwf : (c.expr.terms.map Prod.fst).Nodup) (σ)
    (hc : c.expr.value = exprValue c.expr σ) (alts : List (ℕ × ℤ)) (hd : (alts.map Prod.fst).Nodup) :
    ConCurrent (c.updateMove σ alts) (applyMove σ alts) := by
  have hm := evalMove_eq_spec c.expr hwf σ hc alts hd
  have h := setValue_current c (c.expr.evaluateMove σ alts)
  have he : exprValue (c.updateMove σ alts).expr (applyMove σ alts) = c.expr.evaluateMove σ alts := by
    rw [hm]; rfl
  refine ⟨?_, ?_, ?_, ?_, ?_, ?_⟩
  · rw [he]; rfl
  · rw [he]; rfl
  · rw [he]; rfl
  · rw [he]; exact h.2.2
  · rw [Spec.violation, he]; exact h.1
  · rw [he]; exact h.2.1

/-- Untouched constraints stay current. -/
theorem ConCurrent.of_eq {c : Con} {σ τ} (h : ConCurrent c σ)
    (he : exprValue c.expr τ = exprValue c.expr σ) : ConCurrent c τ := by
  refine ⟨?_, ?_, ?_, ?_, ?_, ?_⟩
  · rw [he]; exact h.expr
  · rw [he]; exact h.value
  · rw [he]; exact h.pos
  · rw [he]; exact h.neg
  · rw [Spec.violation, he]; exact h.violation
  · rw [he]; exact h.margin

end Con

theorem exprValue_applyMove_of_disjoint (e : Expr) (σ) (alts : List (ℕ × ℤ))
    (h : ¬ ∃ a ∈ alts, a.1 ∈ e.terms.map Prod.fst) :
    exprValue e (applyMove σ alts) = exprValue e σ := by
  rw [exprValue_eq, exprValue_eq, Expr.evaluate_eq, Expr.evaluate_eq]
  congr 1
  refine Expr.lin_congr _ _ _ fun t ht => Expr.applyMove_of_not_mem _ _ _ fun hm => h ?_
  obtain ⟨a, ha, hh⟩ := List.mem_map.1 hm
  exact ⟨a, ha, by rw [hh]; exact List.mem_map.2 ⟨t, ht, rfl⟩⟩

namespace MState

/-! ### spec totals as sums over all ids -/

theorem totalViolation_eq (m : MState) (σ) : totalViolation m σ =
    (m.conIds.map (fun c => if (m.con c).enabled then Spec.violation (m.con c) σ else 0)).sum := by
  rw [totalViolation, enabledCons, sum_filter, List.map_map]
  rfl

theorem localPenalty_eq (m : MState) (σ) : localPenalty m σ =
    (m.conIds.map (fun c => if (m.con c).enabled then Spec.penalty (m.con c) σ else 0)).sum := by
  rw [localPenalty, enabledCons, sum_filter, List.map_map]
  rfl

/-! ### full evaluation -/

/-- improvability test of the full evaluation for one constraint -/
def fullImp (m : MState) (alts : List (VarId × ℤ)) (c : ConId) : Bool :=
  let k := m.con c
  let x := k.expr.evaluateMove m.vals alts
  k.enabled && ((k.isLe && decide (max x 0 + EPSILON < k.pos)) ||
    (k.isGe && decide (max (-x) 0 + EPSILON < k.neg)))

theorem evalFullStep_eq (m : MState) (alts) (acc c) : m.evalFullStep alts acc c =
    (acc.1 + (if (m.con c).enabled then (m.con c).tvPart ((m.con c).expr.evaluateMove m.vals alts) else 0),
     acc.2.1 + (if (m.con c).enabled then (m.con c).lpPart ((m.con c).expr.evaluateMove m.vals alts) else 0),
     acc.2.2 || m.fullImp alts c) := by
  obtain ⟨a, b, d⟩ := acc
  unfold evalFullStep fullImp Con.tvPart Con.lpPart
  by_cases h : (m.con c).enabled = true
  · by_cases h1 : (m.con c).isLe = true <;> by_cases h2 : (m.con c).isGe = true <;>
      simp [h, h1, h2, Bool.or_assoc, -max_zero_add_max_neg_zero_eq_abs_self, add_assoc]
  · simp [h]

theorem foldl_add3 {α} (l : List α) (step : ℚ × ℚ × Bool → α → ℚ × ℚ × Bool) (f g : α → ℚ)
    (p : α → Bool) (h : ∀ acc a, step acc a = (acc.1 + f a, acc.2.1 + g a, acc.2.2 || p a)) (acc) :
    l.foldl step acc = (acc.1 + (l.map f).sum, acc.2.1 + (l.map g).sum, acc.2.2 || l.any p) := by
  induction l generalizing acc with
  | nil => simp
  | cons a l ih =>
    rw [List.foldl_cons, ih, h]
    simp only [List.map_cons, List.sum_cons, List.any_cons, Bool.or_assoc, add_assoc]

theorem foldl_add2 {α} (l : List α) (step : ℚ × ℚ → α → ℚ × ℚ) (f g : α → ℚ)
    (h : ∀ acc a, step acc a = (acc.1 + f a, acc.2 + g a)) (acc) :
    l.foldl step acc = (acc.1 + (l.map f).sum, acc.2 + (l.map g).sum) := by
  induction l generalizing acc with
  | nil => simp
  | cons a l ih =>
    rw [List.foldl_cons, ih, h]
    simp only [List.map_cons, List.sum_cons, add_assoc]

theorem fold_full (m : MState) (hw : WellFormed m) (hc : Current m) (alts : List (ℕ × ℤ))
    (hd : (alts.map Prod.fst).Nodup) :
    m.conIds.foldl (m.evalFullStep alts) (0, 0, false) =
      (totalViolation m (applyMove (assignment m) alts), localPenalty m (applyMove (assignment m) alts),
        m.conIds.any (m.fullImp alts)) := by
  rw [foldl_add3 _ _ _ _ _ (evalFullStep_eq m alts), totalViolation_eq, localPenalty_eq]
  have key : ∀ c ∈ m.conIds, (m.con c).enabled = true →
      (m.con c).expr.evaluateMove m.vals alts
        = exprValue (m.con c).expr (applyMove (assignment m) alts) := fun c hcm he =>
    evalMove_eq_spec _ (hw.con c hcm) _ (hc.con c hcm he).expr _ hd
  refine Prod.ext ?_ (Prod.ext ?_ ?_)
  · simp only [zero_add]
    refine sum_map_congr _ _ _ fun c hcm => ?_
    by_cases he : (m.con c).enabled = true
    · simp only [he, if_true]; rw [key c hcm he, Con.violation_eq]
    · simp [he]
  · simp only [zero_add]
    refine sum_map_congr _ _ _ fun c hcm => ?_
    by_cases he : (m.con c).enabled = true
    · simp only [he, if_true]; rw [key c hcm he, Con.penalty_eq]
    · simp [he]
  · simp

theorem obj_move (m : MState) (hw : WellFormed m) (hc : Current m) (alts : List (ℕ × ℤ))
    (hd : (alts.map Prod.fst).Nodup) :
    (if m.objDefined then m.obj.evaluateMove m.vals alts * m.sign else 0)
      = minObjective m (applyMove (assignment m) alts) := by
  unfold minObjective sign
  by_cases h : m.objDefined = true
  · rw [if_pos h, if_pos h, vals_eq, evalMove_eq_spec _ hw.obj _ (hc.obj h).1 _ hd]
    cases m.isMin <;> simp
  · rw [if_neg h, if_neg h]

theorem obj_imp (m : MState) (hc : Current m) (o : ℚ) :
    (if m.objDefined then m.objValue * m.sign - o else 0)
      = if m.objDefined then minObjective m (assignment m) - o else 0 := by
  unfold minObjective sign
  by_cases h : m.objDefined = true
  · rw [if_pos h, if_pos h, if_pos h, (hc.obj h).2]
    cases m.isMin <;> simp
  · rw [if_neg h, if_neg h]

end MState
end Printemps
