import Verif.Lemmas.ExportLP
import Verif.Lemmas.Example

/-! # C42 — the LP dual objective is a bound

`Sound lp` says that the vectors and the two matrices of an LP fit together; it holds for every exported and
scaled instance. -/

namespace Printemps.C42
open Spec Lp

/-- For every dual vector that is nonnegative outside the equality rows, the computed dual objective exceeds
the objective of a feasible point at most by the residual times the point. -/
theorem dual_objective_with_residual (lp : LP) (hs : Sound lp) (y : List ℚ) (hy : DualFeasible lp y) (x : ℕ → ℚ)
    (hx : PrimalFeasible lp x) : ∃ D r, dualObjective lp y = some D ∧ residual lp y = some r ∧ r.length = lp.cols ∧
      D ≤ primalObjective lp x - ∑ j ∈ Finset.range lp.cols, r.getD j 0 * x j := by
  obtain ⟨D, hD, hle⟩ := weak_duality lp hs y hy x hx
  refine ⟨D, _, hD, residual_eq lp hs y hy.1, by simp, le_of_le_of_eq hle ?_⟩
  congr 1
  refine Finset.sum_congr rfl fun j hj => ?_
  simp [List.getD, Finset.mem_range.1 hj]

/-- With vanishing residual the dual objective is at most the objective of any feasible point. -/
theorem dual_objective_is_lower_bound (lp : LP) (hs : Sound lp) (y : List ℚ) (hy : DualFeasible lp y) (x : ℕ → ℚ)
    (hx : PrimalFeasible lp x) (D : ℚ) (hD : dualObjective lp y = some D) (r : List ℚ) (hr : residual lp y = some r)
    (h0 : ∀ v ∈ r, v = 0) : D ≤ primalObjective lp x := by
  obtain ⟨D', r', h1, h2, h3, h4⟩ := dual_objective_with_residual lp hs y hy x hx
  rw [hD] at h1
  rw [hr] at h2
  have h1 := Option.some.inj h1
  have h2 := Option.some.inj h2
  subst h1 h2
  have : ∑ j ∈ Finset.range lp.cols, r.getD j 0 * x j = 0 := by
    refine Finset.sum_eq_zero fun j hj => ?_
    have hj := Finset.mem_range.1 hj
    rw [← h3] at hj
    have hm : r.getD j 0 ∈ r := by
      simp [List.getD, List.getElem?_eq_getElem hj]
    rw [h0 _ hm, zero_mul]
  linarith

/-- Every state PDLP can reach, whatever points and positive step sizes its iterations choose: the run never
fails, and the reported objective with a vanishing reported residual is a lower bound. -/
theorem reported_objective_is_lower_bound (lp : LP) (hs : Sound lp) (es : List Event)
    (he : ∀ e ∈ es, 0 < e.step ∧ e.trial.length = lp.rows) :
    ∃ s, run lp es = some s ∧
      ((∀ v ∈ s.residual, v = 0) → ∀ x, PrimalFeasible lp x → s.objective ≤ primalObjective lp x) := by
  obtain ⟨s, h1, h2⟩ := run_inv lp hs es he
  obtain ⟨a, a1, a2, a3⟩ := h2.reported
  exact ⟨s, h1, fun h0 x hx => dual_objective_is_lower_bound lp hs a a1 x hx _ a2 _ a3 h0⟩

/-- Between restarts the averaged point is the mean of the points weighted by the accepted step sizes. -/
theorem average_is_weighted_mean (lp : LP) (hs : Sound lp) (es : List Event)
    (he : ∀ e ∈ es, 0 < e.step ∧ e.trial.length = lp.rows ∧ e.restart = none) :
    ∃ s, run lp es = some s ∧ s.total = (es.map Event.step).sum ∧ ∀ i < lp.rows,
      s.total * s.average.getD i 0 = (es.map (fun e => e.step * (clampDual lp.dualLb e.trial).getD i 0)).sum := by
  have main : ∀ (es : List Event) (s : DualState), Inv lp s →
      (∀ e ∈ es, 0 < e.step ∧ e.trial.length = lp.rows ∧ e.restart = none) →
      ∃ s', es.foldlM (iterate lp) s = some s' ∧ s'.total = s.total + (es.map Event.step).sum ∧ ∀ i < lp.rows,
        s'.total * s'.average.getD i 0 = s.total * s.average.getD i 0 +
          (es.map (fun e => e.step * (clampDual lp.dualLb e.trial).getD i 0)).sum := by
    intro es
    induction es with
    | nil => intro s _ _; exact ⟨s, rfl, by simp, by simp⟩
    | cons e es ih =>
      intro s inv he
      obtain ⟨hp, ht, hn⟩ := he e (by simp)
      obtain ⟨s1, e1, inv1⟩ := iterate_inv lp hs s inv e hp ht
      obtain ⟨s2, e2, t2, a2⟩ := ih s1 inv1 (fun x hx => he x (by simp [hx]))
      have hpos : s.total + e.step ≠ 0 := by linarith [inv.total]
      have hst : s1.total = s.total + e.step ∧
          s1.average = learn (e.step / (s.total + e.step)) s.average (clampDual lp.dualLb e.trial) := by
        unfold iterate at e1
        rw [hn] at e1
        obtain ⟨s3, e3, e4⟩ := Option.map_eq_some_iff.1 e1
        dsimp only at e4
        subst e4
        split at e3
        · unfold converge at e3
          obtain ⟨o, -, e5⟩ := Option.bind_eq_some_iff.1 e3
          obtain ⟨r, -, e6⟩ := Option.map_eq_some_iff.1 e5
          subst e6
          exact ⟨rfl, rfl⟩
        · have := Option.some.inj e3
          subst this
          exact ⟨rfl, rfl⟩
      refine ⟨s2, by rw [List.foldlM_cons, e1]; exact e2, ?_, fun i hi => ?_⟩
      · rw [t2, hst.1, List.map_cons, List.sum_cons]; ring
      · rw [a2 i hi, hst.1, hst.2, List.map_cons, List.sum_cons]
        have hc := clampDual_feasible lp hs e.trial ht
        obtain ⟨v, hv⟩ : ∃ v, (clampDual lp.dualLb e.trial)[i]? = some v := ⟨_, List.getElem?_eq_getElem (by rw [hc.1]; exact hi)⟩
        obtain ⟨w, hw⟩ : ∃ v, s.average[i]? = some v := ⟨_, List.getElem?_eq_getElem (by rw [inv.average.1]; exact hi)⟩
        unfold learn
        simp only [List.getD, List.getElem?_zipWith, hv, hw, Option.getD_some]
        field_simp
        ring
  obtain ⟨s0, h0, i0⟩ := start_inv lp hs
  obtain ⟨s, h1, h2, h3⟩ := main es s0 i0 he
  have ht0 : s0.total = 0 := by
    unfold start converge at h0
    obtain ⟨o, -, e5⟩ := Option.bind_eq_some_iff.1 h0
    obtain ⟨r, -, e6⟩ := Option.map_eq_some_iff.1 e5
    rw [← e6]
  rw [ht0] at h2 h3
  refine ⟨s, ?_, by rw [h2, zero_add], fun i hi => by rw [h3 i hi, zero_mul, zero_add]⟩
  unfold run
  rw [h0, Option.bind_some]
  exact h1

/-- Export, scaling and run together: with vanishing residual the reported objective is, up to the objective
constant, a bound on the user's objective of every feasible assignment, below for minimisation and (negated)
above for maximisation.  `sels` are the equality constraints of the selections. -/
theorem exported_bound_up_to_constant (m : MState) (hr : ObjectiveReady m) (sels : List ConId)
    (hsel : ∀ c ∈ sels, (m.con c).sense = .equal) (lp : LP) (hexp : exportLP m sels = some lp)
    (sqrtf : ℚ → ℚ) (hq : C47.SqrtPositive sqrtf) (n : ℕ) (pock : Bool) (es : List Event)
    (he : ∀ e ∈ es, 0 < e.step ∧ e.trial.length = lp.rows) :
    ∃ lp' s, scaling sqrtf n pock lp = some lp' ∧ run lp' es = some s ∧
      ((∀ v ∈ s.residual, v = 0) → ∀ σ, Feasible m σ → (∀ c ∈ sels, Holds (m.con c) σ) →
        (m.isMin = true → s.objective ≤ exprValue m.obj σ - m.obj.const) ∧
        (m.isMin = false → exprValue m.obj σ - m.obj.const ≤ - s.objective)) := by
  obtain ⟨hs, s1, s2, _, h5, _⟩ := export_shape m sels lp hexp
  obtain ⟨lp', e1, e2, _, _, _, e6, e7⟩ := scaling_sound lp hs s1 s2 sqrtf hq n pock
  obtain ⟨s, r1, r2⟩ := reported_objective_is_lower_bound lp' e2 es (fun e h => ⟨(he e h).1, by rw [e6]; exact (he e h).2⟩)
  refine ⟨lp', s, e1, r1, fun h0 σ hf hss => ?_⟩
  have hp := export_feasible m sels hsel lp hexp σ hf hss
  obtain ⟨p1, p2⟩ := e7 _ hp
  have := r2 h0 _ p1
  rw [p2, export_objective m hr sels lp hexp σ hf.1] at this
  constructor
  · intro hm; rw [hm, if_pos rfl, one_mul] at this; exact this
  · intro hm; rw [hm, if_neg (by simp)] at this; linarith

/-- The controller's bound stays a bound on the user's objective, if the objective has no constant and the
violation test is passed only with a vanishing residual. -/
theorem controller_bound_partial (m : MState) (hr : ObjectiveReady m) (hconst : m.obj.const = 0) (sels : List ConId)
    (hsel : ∀ c ∈ sels, (m.con c).sense = .equal) (lp : LP) (hexp : exportLP m sels = some lp)
    (sqrtf : ℚ → ℚ) (hq : C47.SqrtPositive sqrtf) (n : ℕ) (pock : Bool) (es : List Event)
    (he : ∀ e ∈ es, 0 < e.step ∧ e.trial.length = lp.rows) (small : List ℚ → Bool)
    (hsmall : ∀ r, small r = true → ∀ v ∈ r, v = 0) (bound : ℚ) (σ : ℕ → ℤ) (hf : Feasible m σ)
    (hss : ∀ c ∈ sels, Holds (m.con c) σ) :
    ∃ lp' s, scaling sqrtf n pock lp = some lp' ∧ run lp' es = some s ∧
      (m.isMin = true → bound ≤ exprValue m.obj σ →
        controllerBound m.isMin (small s.residual) s.objective bound ≤ exprValue m.obj σ) ∧
      (m.isMin = false → exprValue m.obj σ ≤ bound →
        exprValue m.obj σ ≤ controllerBound m.isMin (small s.residual) s.objective bound) := by
  obtain ⟨lp', s, h1, h2, h3⟩ := exported_bound_up_to_constant m hr sels hsel lp hexp sqrtf hq n pock es he
  refine ⟨lp', s, h1, h2, fun hm hb => ?_, fun hm hb => ?_⟩
  · unfold controllerBound
    split
    · next hsm =>
      have := (h3 (hsmall _ hsm) σ hf hss).1 hm
      rw [hconst, sub_zero] at this
      split
      · exact this
      · exact hb
    · exact hb
  · unfold controllerBound
    split
    · next hsm =>
      have := (h3 (hsmall _ hsm) σ hf hss).2 hm
      rw [hconst, sub_zero] at this
      rw [if_neg (by simp [hm])]
      split
      · exact this
      · exact hb
    · exact hb

/-- The exported instance does not depend on the constant of the objective. -/
theorem constant_is_ignored (m : MState) (sels : List ConId) (k : ℚ) :
    exportLP { m with obj := { m.obj with const := k } } sels = exportLP m sels := by
  have h : ∀ (cs : List ConId) (cols : List VarId) (i : ℕ),
      records { m with obj := { m.obj with const := k } } cols i cs = records m cols i cs := by
    intro cs
    induction cs with
    | nil => intro cols i; rfl
    | cons c cs ih =>
      intro cols i
      show ((rowRecords m cols i c).bind fun r => (records _ cols (i + 1) cs).map fun rest => r ++ rest) = _
      rw [ih]; rfl
  unfold exportLP
  dsimp only
  rw [h]
  rfl

/-- So the bound is wrong: for every model with a feasible assignment and every value `D` PDLP may report, with
some constant in the objective (everything else unchanged) `D` exceeds the objective of that assignment. -/
theorem constant_breaks_the_bound (m : MState) (σ : ℕ → ℤ) (hf : Feasible m σ) (D : ℚ) :
    ∃ k, Feasible { m with obj := { m.obj with const := k } } σ ∧
      exprValue { m with obj := { m.obj with const := k } }.obj σ < D := by
  refine ⟨D - (m.obj.terms.map (fun t => t.2 * (σ t.1 : ℚ))).sum - 1, hf, ?_⟩
  show D - (m.obj.terms.map (fun t => t.2 * (σ t.1 : ℚ))).sum - 1 + (m.obj.terms.map (fun t => t.2 * (σ t.1 : ℚ))).sum < D
  linarith

/-! ### A residual below the tolerance is not enough

One free column with cost `-1/1000000` and upper bound `INT_HALF_MAX`, no row that matters: with `y = 0` the
reduced cost is clipped to `0`, the dual objective is `0`, yet the point `x = INT_HALF_MAX` is below `-1000`. -/

/-- the instance: minimise `-x/1000000`, `0 ≤ x ≤ INT_HALF_MAX`, one row `0 ≥ 0` -/
def tinyOf (A : Sparse.Matrix) : LP :=
  { rows := 1, cols := 1, offset := 0, c := [-1/1000000], lb := [0], ub := [1073741823], A := A
    lowerUnbounded := [false], upperUnbounded := [true], b := [0], dualLb := [some 0], At := A
    less := (0, 1), equal := (1, 1), greater := (1, 1), isMin := true }

theorem small_residual_is_not_enough : ∃ A, Sparse.construct [] 1 1 = some A ∧ Sound (tinyOf A) ∧
    PrimalFeasible (tinyOf A) (fun _ => 1073741823) ∧
    dualObjective (tinyOf A) [0] = some 0 ∧ residual (tinyOf A) [0] = some [-1/1000000] ∧
    primalObjective (tinyOf A) (fun _ => 1073741823) < -1000 := by
  refine ⟨_, rfl, ?_⟩
  have hok := Sparse.construct_rowsOK [] 1 1 _ rfl (by simp)
  have hz : ∀ i j, Sparse.toMatrix [] i j = 0 := by
    intro i j; simp [Sparse.toMatrix, matrixOf]
  refine ⟨⟨Nat.zero_lt_one, Nat.zero_lt_one, hok, rfl, rfl, hok, rfl, rfl, fun i j => by rfl, rfl, rfl, rfl, rfl, rfl, ?_⟩, ?_, ?_, ?_, ?_⟩
  · intro i hi
    have : i = 0 := by
      have : i < 1 := hi
      omega
    subst this
    decide
  · refine ⟨fun j hj => ?_, fun i hi a b => ?_, fun i hi _ => ?_⟩
    · have : j = 0 := by
        have : j < 1 := hj
        omega
      subst this
      norm_num [List.getD, tinyOf]
    · simp only [tinyOf] at a b hi; omega
    · have : i = 0 := by
        have : i < 1 := hi
        omega
      subst this
      refine le_of_eq (Eq.symm (Finset.sum_eq_zero fun j _ => ?_))
      rw [coef_eq]
      show Sparse.toMatrix [] 0 j * _ = 0
      rw [hz]; ring
  · decide +kernel
  · decide +kernel
  · norm_num [primalObjective, List.getD, tinyOf]

/-- The export is defined exactly if there is a free variable, there is a row, and every variable of a row is fixed or a
binary, integer or selection variable of the model. -/
theorem export_defined_iff (m : MState) (sels : List ConId) :
    (∃ lp, exportLP m sels = some lp) ↔ columns m ≠ [] ∧ rowCons m sels ≠ [] ∧
      ∀ c ∈ rowCons m sels, ∀ t ∈ (m.con c).expr.terms, (m.var t.1).fixed = true ∨ t.1 ∈ columns m := by
  rw [export_defined]
  refine and_congr_right fun _ => and_congr_right fun _ => ?_
  constructor
  · intro h c hc t ht
    cases hf : (m.var t.1).fixed
    · exact Or.inr (h c hc t ht hf)
    · exact Or.inl rfl
  · intro h c hc t ht hf
    rcases h c hc t ht with h | h
    · rw [hf] at h; exact absurd h (by decide)
    · exact h

/-- The rows of the relaxation are exactly the enabled constraints and the selections: an assignment within the bounds gives a
feasible point if and only if it satisfies them. -/
theorem export_exact (m : MState) (sels : List ConId) (hsel : ∀ c ∈ sels, (m.con c).sense = .equal ∧ c ∈ m.conIds) (lp : LP)
    (h : exportLP m sels = some lp) (σ : ℕ → ℤ) (hb : InBounds m.var σ) :
    PrimalFeasible lp (pointOf m σ) ↔ Feasible m σ ∧ ∀ c ∈ sels, Holds (m.con c) σ := by
  refine ⟨fun hp => ?_, fun hf => export_feasible m sels (fun c hc => (hsel c hc).1) lp h σ hf.1 hf.2⟩
  obtain ⟨-, -, -, -, h5, -, -, h8, -⟩ := export_shape m sels lp h
  have row : ∀ i c, (rowCons m sels)[i]? = some c → i < lp.rows := fun i c hc => by
    rw [h5]; exact (List.getElem?_eq_some_iff.1 hc).1
  have hless : ∀ c ∈ enabledOf m .less, Holds (m.con c) σ := fun c hc => by
    have hs : (m.con c).sense = .less := by
      have := (List.mem_filter.1 hc).2
      simp only [Bool.and_eq_true, beq_iff_eq] at this
      exact this.1
    obtain ⟨i, hi, e⟩ := List.getElem_of_mem hc
    have hg : (rowCons m sels)[i]? = some c := by
      unfold rowCons
      rw [List.getElem?_append_left hi, List.getElem?_eq_getElem hi, e]
    have h1 := hp.atLeast i (row i c hg) (Or.inl (by rw [h8]; exact hi))
    have h2 := row_value m sels lp h σ hb i c hg
    rw [if_pos hs] at h2
    unfold Holds
    rw [hs]
    show exprValue (m.con c).expr σ ≤ 0
    linarith
  have hequal : ∀ c ∈ selectionRows m sels ++ enabledOf m .equal, Holds (m.con c) σ := fun c hc => by
    have hs : (m.con c).sense = .equal := by
      rcases List.mem_append.1 hc with hc | hc
      · exact (hsel c (List.mem_filter.1 hc).1).1
      · have := (List.mem_filter.1 hc).2
        simp only [Bool.and_eq_true, beq_iff_eq] at this
        exact this.1
    obtain ⟨i, hi, e⟩ := List.getElem_of_mem hc
    have hg : (rowCons m sels)[(enabledOf m .less).length + i]? = some c := by
      unfold rowCons
      rw [List.getElem?_append_right (by omega), Nat.add_sub_cancel_left, List.getElem?_append_left hi,
        List.getElem?_eq_getElem hi, e]
    have h1 := hp.equal _ (row _ c hg) (by rw [h8]; exact Nat.le_add_right _ _) (by rw [h8]; exact Nat.add_lt_add_left hi _)
    have h2 := row_value m sels lp h σ hb _ c hg
    rw [if_neg (by rw [hs]; decide)] at h2
    unfold Holds
    rw [hs]
    show exprValue (m.con c).expr σ = 0
    linarith
  have hgreater : ∀ c ∈ enabledOf m .greater, Holds (m.con c) σ := fun c hc => by
    have hs : (m.con c).sense = .greater := by
      have := (List.mem_filter.1 hc).2
      simp only [Bool.and_eq_true, beq_iff_eq] at this
      exact this.1
    obtain ⟨i, hi, e⟩ := List.getElem_of_mem hc
    have hg : (rowCons m sels)[(enabledOf m .less).length + ((selectionRows m sels ++ enabledOf m .equal).length + i)]? = some c := by
      unfold rowCons
      rw [List.getElem?_append_right (by omega), Nat.add_sub_cancel_left, List.getElem?_append_right (by omega),
        Nat.add_sub_cancel_left, List.getElem?_eq_getElem hi, e]
    have h1 := hp.atLeast _ (row _ c hg) (Or.inr (by rw [h8, ← Nat.add_assoc]; exact Nat.le_add_right _ _))
    have h2 := row_value m sels lp h σ hb _ c hg
    rw [if_neg (by rw [hs]; decide)] at h2
    unfold Holds
    rw [hs]
    show 0 ≤ exprValue (m.con c).expr σ
    linarith
  have henabled : ∀ c ∈ m.conIds, (m.con c).enabled = true → Holds (m.con c) σ := fun c hc he => by
    have hm : c ∈ enabledOf m (m.con c).sense := List.mem_filter.2 ⟨hc, by simp [he]⟩
    cases hs : (m.con c).sense <;> rw [hs] at hm
    · exact hless c hm
    · exact hequal c (List.mem_append_right _ hm)
    · exact hgreater c hm
  refine ⟨⟨hb, henabled⟩, fun c hc => ?_⟩
  cases he : (m.con c).enabled
  · exact hequal c (List.mem_append_left _ (List.mem_filter.2 ⟨hc, by simp [he]⟩))
  · exact henabled c (hsel c hc).2 he

/-- A model without enabled constraints and without selections cannot be exported: the norms of a matrix without
columns (the transpose) are read from an empty vector. -/
theorem unconstrained_export_is_undefined (m : MState) (sels : List ConId) (h : rowCons m sels = []) :
    exportLP m sels = none := by
  by_contra hne
  obtain ⟨lp, hlp⟩ := Option.ne_none_iff_exists'.1 hne
  exact ((export_defined_iff m sels).1 ⟨lp, hlp⟩).2.1 h

example : rowCons { Example.raw with conIds := [] } [] = [] ∧ columns { Example.raw with conIds := [] } ≠ [] := by
  decide +kernel

/-! ### Non-vacuity: the example model with `x1` fixed at 0 -/

/-- the example model with `x1` fixed at 0 -/
def fixedExample : MState :=
  { Example.raw with
    var := Function.update Example.raw.var 1 (Example.bin0.fixBy 0)
    objSens := fun v => Expr.lookup Example.raw.obj.terms v }

example : ObjectiveReady fixedExample ∧ (∃ lp, exportLP fixedExample [] = some lp) ∧ fixedExample.obj.const = 0 ∧
    (∃ σ, Feasible fixedExample σ ∧ exprValue fixedExample.obj σ = 1) ∧
    rowCons fixedExample [] = [0, 2, 1] ∧ columns fixedExample = [0, 2] ∧
    C47.SqrtPositive (fun x => x) := by
  refine ⟨⟨by decide, by decide, fun v => rfl, by decide +kernel⟩, ?_, rfl, ⟨fun v => if v = 1 then 0 else 1, ⟨?_, ?_⟩,
    by decide +kernel⟩, by decide +kernel, by decide +kernel, fun x h => h⟩
  · rw [export_defined_iff]; decide +kernel
  · intro v
    by_cases h1 : v = 1
    · subst h1; unfold Admits; decide
    · have : fixedExample.var v = if v = 2 then Example.int5 else Example.bin0 := by
        show Function.update _ _ _ v = _
        rw [Function.update_of_ne h1]; rfl
      rw [this]
      dsimp only
      rw [if_neg h1]
      unfold Admits
      split <;> decide
  · intro c hc _
    have hc : c ∈ [0, 1, 2] := hc
    have hc : c = 0 ∨ c = 1 ∨ c = 2 := by simpa using hc
    rcases hc with rfl | rfl | rfl
    · show (_ : ℚ) ≤ 0
      decide +kernel
    · show (0 : ℚ) ≤ _
      decide +kernel
    · show (_ : ℚ) = 0
      decide +kernel

/-- the example model with its equation turned into a selection, which disables it -/
def selected : MState :=
  { fixedExample with con := Function.update fixedExample.con 2 { fixedExample.con 2 with enabled := false } }

example : (∀ c ∈ [2], (selected.con c).sense = .equal ∧ c ∈ selected.conIds) ∧ (∃ lp, exportLP selected [2] = some lp) ∧
    2 ∉ enabledOf selected .equal ∧ rowCons selected [2] = [0, 2, 1] := by
  refine ⟨by decide +kernel, ?_, by decide +kernel, by decide +kernel⟩
  rw [export_defined_iff]; decide +kernel

/-- PDLP histories exist for every number of rows. -/
example (n : ℕ) : ∀ e ∈ [(⟨List.replicate n 1, 1, true, some false⟩ : Event), ⟨List.replicate n (-2), 1 / 2, true, none⟩],
    0 < e.step ∧ e.trial.length = n := by
  intro e he
  simp only [List.mem_cons, List.not_mem_nil, or_false] at he
  rcases he with rfl | rfl <;> exact ⟨by norm_num, by simp⟩

end Printemps.C42
