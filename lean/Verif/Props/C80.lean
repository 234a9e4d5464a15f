import Verif.Lemmas.Pdlp
import Verif.Lemmas.ExportLP
import Verif.Props.C42
import Mathlib.Algebra.Order.Ring.Abs

/-! # C80 — the LP solver ends, stays within bounds, and its verdicts mean what they say -/

namespace Printemps.C80
open Pdlp Lp Sparse Spec

/-! ## The run ends and stays within the bounds -/

/-- PDLP ends, for all data, for every decision about restarts and all times read from the clock: the search for a step
size ends in every iteration, and there are at most `iteration_max` iterations. -/
theorem run_ends (f : Fn) (κ : ℚ) (hf : FnOK f κ) (o : Opt) (ho : OptOK o) (plan : Plan) (lp : LP) (hs : Sound lp)
    (x0 : List ℚ) (hx : Box lp x0) (hn : normInfty lp.A ≠ 0) (clock : ℕ → ℚ) :
    ∃ attempts r, run f o plan lp x0 clock attempts = some r ∧ r.2.iteration ≤ o.iterationMax.toNat := by
  obtain ⟨st, h1, h2, h3⟩ := start_inv f lp hs x0 hx hn
  obtain ⟨a, r, hr⟩ := loop_ends f κ hf o ho plan lp hs clock o.iterationMax.toNat st h2 (by omega)
  refine ⟨a, r, ?_, ?_⟩
  · unfold Pdlp.run
    rw [h1, Option.bind_some]
    exact hr
  · have := (loop_inv f κ hf o ho plan lp hs clock a _ st h2 r hr).2.2.2
    rwa [h3, Nat.zero_max] at this

theorem run_inv (f : Fn) (κ : ℚ) (hf : FnOK f κ) (o : Opt) (ho : OptOK o) (plan : Plan) (lp : LP) (hs : Sound lp)
    (x0 : List ℚ) (hx : Box lp x0) (clock : ℕ → ℚ) (attempts : ℕ → ℕ) (v : Verdict) (st : State)
    (hr : run f o plan lp x0 clock attempts = some (v, st)) :
    Pdlp.Inv f lp st ∧ test o (clock st.iteration) st = some v := by
  unfold Pdlp.run at hr
  obtain ⟨s0, h0, hl⟩ := Option.bind_eq_some_iff.1 hr
  have hn : normInfty lp.A ≠ 0 := by
    intro hz
    unfold Pdlp.start at h0
    rw [if_pos hz] at h0
    exact absurd h0 (by simp)
  obtain ⟨s1, h1, h2, h3⟩ := start_inv f lp hs x0 hx hn
  rw [h1] at h0
  rw [← Option.some.inj h0] at hl
  have := loop_inv f κ hf o ho plan lp hs clock attempts _ s1 h2 (v, st) hl
  exact ⟨this.1, this.2.1⟩

/-- The points of a finished run: the primal point is within the bounds, the dual points have the right signs, the average
primal point is within the bounds once it has been computed; the step size is positive. -/
theorem points_within_bounds (f : Fn) (κ : ℚ) (hf : FnOK f κ) (o : Opt) (ho : OptOK o) (plan : Plan) (lp : LP) (hs : Sound lp)
    (x0 : List ℚ) (hx : Box lp x0) (clock : ℕ → ℚ) (attempts : ℕ → ℕ) (v : Verdict) (st : State)
    (hr : run f o plan lp x0 clock attempts = some (v, st)) :
    Box lp st.x ∧ DualFeasible lp st.y ∧ DualFeasible lp st.yAvg ∧ (st.total ≠ 0 → Box lp st.xAvg) ∧ 0 < st.step := by
  obtain ⟨h, -⟩ := run_inv f κ hf o ho plan lp hs x0 hx clock attempts v st hr
  exact ⟨h.x, h.y, h.yAvg, fun h0 => h.xAvg.resolve_left h0, h.step⟩

/-! ## Verdicts -/

theorem norm_nonneg (f : Fn) (κ : ℚ) (hf : FnOK f κ) (v : List ℚ) : 0 ≤ norm f v := hf.sqrtNonneg _

/-- Every entry of a vector is at most `R` if its norm is. -/
theorem entry_le (f : Fn) (κ : ℚ) (hf : FnOK f κ) (v : List ℚ) (R : ℚ) (hR : 0 ≤ R) (h : norm f v * norm f v ≤ κ * (R * R))
    (j : ℕ) : |v.getD j 0| ≤ R := by
  by_cases hj : j < v.length
  · have h1 : v.getD j 0 * v.getD j 0 ≤ inner v v := by
      rw [inner_eq v v v.length rfl rfl]
      exact Finset.single_le_sum (f := fun i => v.getD i 0 * v.getD i 0) (fun i _ => mul_self_nonneg _) (Finset.mem_range.2 hj)
    have h2 := hf.square _ (inner_self_nonneg v)
    have h3 : κ * (v.getD j 0 * v.getD j 0) ≤ κ * (R * R) :=
      le_trans (mul_le_mul_of_nonneg_left h1 hf.pos.le) (le_trans h2 h)
    exact abs_le_of_sq_le_sq (by rw [sq, sq]; exact le_of_mul_le_mul_left h3 hf.pos) hR
  · rw [List.getD, List.getElem?_eq_none (not_lt.1 hj)]
    simpa using hR

/-- The violation norm times its scale is the norm. -/
theorem scale_back (n s : ℚ) (hs : 0 ≤ s) : n / (1 + s) * (1 + s) = n := by
  have : (1 + s) ≠ 0 := by positivity
  field_simp

/-- The dual objective and the objective of any feasible point, for a computed convergence information. -/
theorem info_bound (f : Fn) (κ : ℚ) (hf : FnOK f κ) (lp : LP) (hs : Sound lp) (x y : List ℚ) (hy : DualFeasible lp y)
    (i : Info) (hi : convergence f lp x y = some i) (R : ℚ) (hR : 0 ≤ R)
    (h : (i.dualViolation * (1 + norm f lp.c)) * (i.dualViolation * (1 + norm f lp.c)) ≤ κ * (R * R))
    (z : ℕ → ℚ) (hz : PrimalFeasible lp z) :
    i.dualObjective ≤ primalObjective lp z + R * ∑ j ∈ Finset.range lp.cols, |z j| := by
  obtain ⟨D, r, h1, h2, h3, h4⟩ := C42.dual_objective_with_residual lp hs y hy z hz
  unfold convergence at hi
  rw [h1, Option.bind_some] at hi
  obtain ⟨v, -, hi⟩ := Option.bind_eq_some_iff.1 hi
  rw [h2, Option.map_some] at hi
  have hi := Option.some.inj hi
  subst hi
  dsimp only at h ⊢
  rw [scale_back _ _ (norm_nonneg f κ hf _)] at h
  refine le_trans h4 ?_
  have hsum : - ∑ j ∈ Finset.range lp.cols, r.getD j 0 * z j ≤ R * ∑ j ∈ Finset.range lp.cols, |z j| := by
    rw [← Finset.sum_neg_distrib, Finset.mul_sum]
    refine Finset.sum_le_sum fun j _ => ?_
    have e := entry_le f κ hf r R hR h j
    calc -(r.getD j 0 * z j) ≤ |r.getD j 0 * z j| := neg_le_abs _
      _ = |r.getD j 0| * |z j| := abs_mul _ _
      _ ≤ R * |z j| := mul_le_mul_of_nonneg_right e (abs_nonneg _)
  linarith

/-- The dual objective that is reported is at most the objective of every feasible point, up to the error allowed by the
reported dual violation (`R` bounds the entries of the residual). -/
theorem reported_objective_is_bound (f : Fn) (κ : ℚ) (hf : FnOK f κ) (o : Opt) (ho : OptOK o) (plan : Plan) (lp : LP)
    (hs : Sound lp) (x0 : List ℚ) (hx : Box lp x0) (clock : ℕ → ℚ) (attempts : ℕ → ℕ) (v : Verdict) (st : State)
    (hr : run f o plan lp x0 clock attempts = some (v, st)) (R : ℚ) (hR : 0 ≤ R)
    (h : (st.info.dualViolation * (1 + norm f lp.c)) * (st.info.dualViolation * (1 + norm f lp.c)) ≤ κ * (R * R))
    (z : ℕ → ℚ) (hz : PrimalFeasible lp z) :
    st.info.dualObjective ≤ primalObjective lp z + R * ∑ j ∈ Finset.range lp.cols, |z j| := by
  obtain ⟨hi, -⟩ := run_inv f κ hf o ho plan lp hs x0 hx clock attempts v st hr
  obtain ⟨x, y, -, fy, hc⟩ := hi.info
  exact info_bound f κ hf lp hs x y fy st.info hc R hR h z hz

/-- With a vanishing dual violation the dual objective is a lower bound without error. -/
theorem exact_bound (f : Fn) (κ : ℚ) (hf : FnOK f κ) (o : Opt) (ho : OptOK o) (plan : Plan) (lp : LP)
    (hs : Sound lp) (x0 : List ℚ) (hx : Box lp x0) (clock : ℕ → ℚ) (attempts : ℕ → ℕ) (v : Verdict) (st : State)
    (hr : run f o plan lp x0 clock attempts = some (v, st)) (h0 : st.info.dualViolation = 0) (z : ℕ → ℚ)
    (hz : PrimalFeasible lp z) : st.info.dualObjective ≤ primalObjective lp z := by
  have := reported_objective_is_bound f κ hf o ho plan lp hs x0 hx clock attempts v st hr 0 (le_refl _)
    (by rw [h0]; simp) z hz
  simpa using this

theorem violation_nonneg (f : Fn) (κ : ℚ) (hf : FnOK f κ) (lp : LP) (x y : List ℚ) (i : Info)
    (hi : convergence f lp x y = some i) : 0 ≤ i.dualViolation ∧ 0 ≤ i.primalViolation := by
  unfold convergence at hi
  obtain ⟨d, -, hi⟩ := Option.bind_eq_some_iff.1 hi
  obtain ⟨v, -, hi⟩ := Option.bind_eq_some_iff.1 hi
  obtain ⟨r, -, hi⟩ := Option.map_eq_some_iff.1 hi
  subst hi
  have := norm_nonneg f κ hf
  exact ⟨div_nonneg (this _) (by linarith [this lp.c]), div_nonneg (this _) (by linarith [this lp.b])⟩

/-- A violation up to the tolerance gives entries up to `R`. -/
theorem within_tolerance (v t s κ R : ℚ) (h0 : 0 ≤ v) (h : v ≤ t) (hs : 0 ≤ s) (hR : (t * (1 + s)) * (t * (1 + s)) ≤ κ * (R * R)) :
    (v * (1 + s)) * (v * (1 + s)) ≤ κ * (R * R) := by
  have h1 : 0 ≤ v * (1 + s) := by positivity
  have h2 : v * (1 + s) ≤ t * (1 + s) := mul_le_mul_of_nonneg_right h (by linarith)
  exact le_trans (mul_self_le_mul_self h1 h2) hR

/-- The violation of a row. -/
theorem violation_entry (lp : LP) (hs : Sound lp) (hrg : Ranges lp) (x : List ℚ) (hx : x.length = lp.cols) :
    ∃ v, violation lp x = some v ∧ ∀ i < lp.rows,
      v.getD i 0 = if lp.equal.1 ≤ i ∧ i < lp.equal.2 then
          lp.b.getD i 0 - mulVec (LP.coef lp) lp.cols (fun j => x.getD j 0) i
        else max (lp.b.getD i 0 - mulVec (LP.coef lp) lp.cols (fun j => x.getD j 0) i) 0 := by
  obtain ⟨g1, g2, g3, g4⟩ := hrg
  unfold Pdlp.violation
  rw [linComb_of_rowsOK lp.A hs.A x lp.b (by rw [hs.Acols]; exact hx) (by rw [hs.Arows]; exact hs.b), Option.map_some,
    mapIdx_range, hs.Arows, hs.Acols]
  refine ⟨_, rfl, fun i hi => ?_⟩
  have e : (1 : ℚ) * lp.b.getD i 0 + -1 * mulVec (toMatrix lp.A.entries) lp.cols (fun j => x.getD j 0) i =
      lp.b.getD i 0 - mulVec (LP.coef lp) lp.cols (fun j => x.getD j 0) i := by
    show _ = lp.b.getD i 0 - mulVec (toMatrix lp.A.entries) lp.cols (fun j => x.getD j 0) i
    ring
  have hget : ∀ g : ℕ → ℚ, ((List.range lp.rows).map g).getD i 0 = g i := fun g => by simp [List.getD, hi]
  rw [hget]
  dsimp only
  rw [e, g1, g2]
  dsimp only
  by_cases c1 : lp.equal.1 ≤ i ∧ i < lp.equal.2
  · rw [if_pos c1, if_neg (by omega), if_neg (by omega)]
  · rw [if_neg c1]
    by_cases c2 : i < lp.equal.1
    · rw [if_neg (by omega), if_pos (by omega)]
    · rw [if_pos (by omega), if_neg (by omega)]

/-- OPTIMAL: there is a point within the bounds whose objective is the one reported; it misses each row by at most `P`, and
its objective is at most that of any feasible point, up to the tolerance (`P` and `R` are what the tolerance `τ` allows for an
entry of the two violation vectors). -/
theorem optimal_verdict (f : Fn) (κ : ℚ) (hf : FnOK f κ) (o : Opt) (ho : OptOK o) (plan : Plan) (lp : LP)
    (hs : Sound lp) (hrg : Ranges lp) (x0 : List ℚ) (hx : Box lp x0) (clock : ℕ → ℚ) (attempts : ℕ → ℕ) (st : State)
    (hr : run f o plan lp x0 clock attempts = some (.optimal, st)) (P R : ℚ) (hP : 0 ≤ P) (hR : 0 ≤ R)
    (hP' : (o.tolerance * (1 + norm f lp.b)) * (o.tolerance * (1 + norm f lp.b)) ≤ κ * (P * P))
    (hR' : (o.tolerance * (1 + norm f lp.c)) * (o.tolerance * (1 + norm f lp.c)) ≤ κ * (R * R)) :
    ∃ x, Box lp x ∧ st.info.primalObjective = primalObjective lp (fun j => x.getD j 0) ∧
      (∀ i < lp.rows, lp.equal.1 ≤ i → i < lp.equal.2 →
        |lp.b.getD i 0 - mulVec (LP.coef lp) lp.cols (fun j => x.getD j 0) i| ≤ P) ∧
      (∀ i < lp.rows, (i < lp.equal.1 ∨ lp.equal.2 ≤ i) →
        lp.b.getD i 0 - P ≤ mulVec (LP.coef lp) lp.cols (fun j => x.getD j 0) i) ∧
      ∀ z, PrimalFeasible lp z → st.info.primalObjective ≤ primalObjective lp z + R * ∑ j ∈ Finset.range lp.cols, |z j| +
        o.tolerance * (1 + |st.info.dualObjective| + |st.info.primalObjective|) := by
  obtain ⟨hi, ht⟩ := run_inv f κ hf o ho plan lp hs x0 hx clock attempts _ st hr
  obtain ⟨x, y, bx, fy, hc⟩ := hi.info
  have hopt : isOptimal o st.info = true := by
    unfold test at ht
    split at ht
    · exact absurd ht (by simp)
    split at ht
    · exact absurd ht (by simp)
    split at ht
    · next h => exact h
    split at ht
    · exact absurd ht (by simp)
    · exact absurd ht (by simp)
  unfold isOptimal at hopt
  simp only [Bool.and_eq_true, Bool.not_eq_true', decide_eq_false_iff_not, not_lt] at hopt
  obtain ⟨⟨o1, o2⟩, o3⟩ := hopt
  obtain ⟨n1, n2⟩ := violation_nonneg f κ hf lp x y _ hc
  have wR := within_tolerance _ _ _ κ R n1 o2 (norm_nonneg f κ hf lp.c) hR'
  have wP := within_tolerance _ _ _ κ P n2 o1 (norm_nonneg f κ hf lp.b) hP'
  have hb := info_bound f κ hf lp hs x y fy _ hc R hR wR
  obtain ⟨v, hv, hv2⟩ := violation_entry lp hs hrg x bx.1
  have hc' := hc
  unfold convergence at hc'
  obtain ⟨d, hd, hc'⟩ := Option.bind_eq_some_iff.1 hc'
  rw [hv, Option.bind_some] at hc'
  obtain ⟨r, hr', hc'⟩ := Option.map_eq_some_iff.1 hc'
  have ep : st.info.primalObjective = inner x lp.c + lp.offset := by rw [← hc']
  have ed : st.info.dualObjective = d := by rw [← hc']
  have eg : st.info.gap = |st.info.primalObjective - st.info.dualObjective| /
      (1 + |st.info.dualObjective| + |st.info.primalObjective|) := by rw [← hc']
  have ev : st.info.primalViolation = norm f v / (1 + norm f lp.b) := by rw [← hc']
  rw [ev, scale_back _ _ (norm_nonneg f κ hf _)] at wP
  have hent := entry_le f κ hf v P hP wP
  refine ⟨x, bx, ?_, fun i hi e1 e2 => ?_, fun i hi e => ?_, fun z hz => ?_⟩
  · rw [ep, inner_eq x lp.c lp.cols bx.1 hs.c]
    unfold primalObjective
    congr 1
    exact Finset.sum_congr rfl fun j _ => mul_comm _ _
  · have := hent i
    rwa [hv2 i hi, if_pos ⟨e1, e2⟩] at this
  · have := hent i
    rw [hv2 i hi, if_neg (by omega)] at this
    have h1 := le_trans (le_trans (le_max_left _ 0) (le_abs_self _)) this
    linarith
  · have h1 := hb z hz
    have hpos : 0 < 1 + |st.info.dualObjective| + |st.info.primalObjective| := by positivity
    rw [eg, div_le_iff₀ hpos] at o3
    have h2 := le_trans (le_abs_self _) o3
    linarith

/-- With tolerance 0, OPTIMAL means that the reported objective is the optimum, attained by a feasible point. -/
theorem exact_optimum (f : Fn) (κ : ℚ) (hf : FnOK f κ) (o : Opt) (ho : OptOK o) (plan : Plan) (lp : LP)
    (hs : Sound lp) (hrg : Ranges lp) (x0 : List ℚ) (hx : Box lp x0) (clock : ℕ → ℚ) (attempts : ℕ → ℕ) (st : State)
    (hr : run f o plan lp x0 clock attempts = some (.optimal, st)) (h0 : o.tolerance = 0) :
    (∃ z, PrimalFeasible lp z ∧ primalObjective lp z = st.info.primalObjective) ∧
      ∀ z, PrimalFeasible lp z → st.info.primalObjective ≤ primalObjective lp z := by
  obtain ⟨x, h1, h2, h3, h4, h5⟩ := optimal_verdict f κ hf o ho plan lp hs hrg x0 hx clock attempts st hr 0 0 (le_refl _)
    (le_refl _) (by rw [h0]; simp) (by rw [h0]; simp)
  refine ⟨⟨fun j => x.getD j 0, ⟨h1.2, fun i hi e1 e2 => ?_, fun i hi e => ?_⟩, h2.symm⟩, fun z hz => ?_⟩
  · have := abs_nonpos_iff.1 (h3 i hi e1 e2)
    linarith
  · have := h4 i hi e
    linarith
  · have := h5 z hz
    rw [h0] at this
    linarith

theorem sum_le_upper (lp : LP) (hs : Sound lp) (z : ℕ → ℚ) (hz : PrimalFeasible lp z) :
    ∑ j ∈ Finset.range lp.cols, lp.c.getD j 0 * z j ≤ upperBound lp := by
  have e : upperBound lp = ∑ j ∈ Finset.range lp.cols,
      (if lp.c.getD j 0 > 0 then lp.c.getD j 0 * lp.ub.getD j 0 else lp.c.getD j 0 * lp.lb.getD j 0) := by
    unfold upperBound
    rw [foldl_add, zero_add, ← sum_map_range]
    congr 1
    apply List.ext_getElem?
    intro j
    by_cases hj : j < lp.cols
    · have h1 : j < lp.c.length := by rw [hs.c]; exact hj
      have h2 : j < lp.lb.length := by rw [hs.lb]; exact hj
      have h3 : j < lp.ub.length := by rw [hs.ub]; exact hj
      simp [List.zip, List.getElem?_zipWith, List.getD, hj, List.getElem?_eq_getElem h1,
        List.getElem?_eq_getElem h2, List.getElem?_eq_getElem h3]
    · rw [List.getElem?_eq_none (by simp [hs.c, hs.lb, hs.ub]; omega), List.getElem?_eq_none (by simp; omega)]
  rw [e]
  refine Finset.sum_le_sum fun j hj => ?_
  obtain ⟨h1, h2⟩ := hz.bounds j (Finset.mem_range.1 hj)
  split
  · next h => exact mul_le_mul_of_nonneg_left h2 (le_of_lt h)
  · next h => exact mul_le_mul_of_nonpos_left h1 (not_lt.1 h)

/-- INFEASIBLE: a feasible point would need an offset of the objective, or an error allowed by the tolerance, of at
least 1.  The offset (the contribution of the fixed variables) is in the way because the code compares the dual
objective, with the offset, with an upper bound of the primal objective without it (see `infeasible_verdict_is_wrong`). -/
theorem infeasible_verdict_partial (f : Fn) (κ : ℚ) (hf : FnOK f κ) (o : Opt) (ho : OptOK o) (plan : Plan) (lp : LP)
    (hs : Sound lp) (x0 : List ℚ) (hx : Box lp x0) (clock : ℕ → ℚ) (attempts : ℕ → ℕ) (st : State)
    (hr : run f o plan lp x0 clock attempts = some (.infeasible, st)) (R : ℚ) (hR : 0 ≤ R)
    (hR' : (o.tolerance * (1 + norm f lp.c)) * (o.tolerance * (1 + norm f lp.c)) ≤ κ * (R * R))
    (z : ℕ → ℚ) (hz : PrimalFeasible lp z) : 1 ≤ lp.offset + R * ∑ j ∈ Finset.range lp.cols, |z j| := by
  obtain ⟨hi, ht⟩ := run_inv f κ hf o ho plan lp hs x0 hx clock attempts _ st hr
  obtain ⟨x, y, bx, fy, hc⟩ := hi.info
  have hinf : isInfeasible o st = true := by
    unfold test at ht
    split at ht
    · exact absurd ht (by simp)
    split at ht
    · exact absurd ht (by simp)
    split at ht
    · exact absurd ht (by simp)
    split at ht
    · next h => exact h
    · exact absurd ht (by simp)
  unfold isInfeasible at hinf
  simp only [Bool.and_eq_true, Bool.not_eq_true', decide_eq_false_iff_not, not_lt] at hinf
  obtain ⟨o2, o3⟩ := hinf
  obtain ⟨n1, -⟩ := violation_nonneg f κ hf lp x y _ hc
  have wR := within_tolerance _ _ _ κ R n1 o2 (norm_nonneg f κ hf lp.c) hR'
  have hb := info_bound f κ hf lp hs x y fy _ hc R hR wR z hz
  rw [hi.upper] at o3
  have h1 := sum_le_upper lp hs z hz
  have h2 : (1 : ℚ) ≤ max 1 (|upperBound lp| * Pdlp.EPSILON) := le_max_left _ _
  unfold primalObjective at hb
  linarith

/-! ## The whole call: export, scaling, core -/

theorem toMatrix_zero (es : List Entry) (h : ∀ e ∈ es, e.value = 0) (i j : ℕ) : toMatrix es i j = 0 := by
  induction es with
  | nil => rfl
  | cons e es ih =>
    rw [toMatrix_cons, ih fun e' h' => h e' (List.mem_cons_of_mem _ h'), h e (List.mem_cons_self ..)]
    simp

theorem normInfty_ne_zero (m : Matrix) (i j : ℕ) (h : toMatrix m.entries i j ≠ 0) : normInfty m ≠ 0 := by
  intro h0
  apply h
  have mono : ∀ (es : List Entry) (a : ℚ), a ≤ es.foldl (fun n e => max n |e.value|) a ∧
      ∀ e ∈ es, |e.value| ≤ es.foldl (fun n e => max n |e.value|) a := by
    intro es
    induction es with
    | nil => intro a; exact ⟨le_refl _, by simp⟩
    | cons e es ih =>
      intro a
      obtain ⟨h1, h2⟩ := ih (max a |e.value|)
      refine ⟨le_trans (le_max_left _ _) h1, fun e' he' => ?_⟩
      rcases List.mem_cons.1 he' with rfl | he'
      · exact le_trans (le_max_right _ _) h1
      · exact h2 e' he'
  refine toMatrix_zero _ (fun e he => ?_) i j
  have := (mono m.entries 0).2 e he
  have h0' : m.entries.foldl (fun n e => max n |e.value|) 0 = 0 := h0
  rw [h0'] at this
  exact abs_nonpos_iff.1 this

/-- Some row of the export has a nonzero coefficient of a variable that is not fixed. -/
def HasCoefficient (m : MState) (sels : List ConId) : Prop :=
  ∃ c ∈ rowCons m sels, ((m.con c).expr.terms.map Prod.fst).Nodup ∧
    ∃ t ∈ (m.con c).expr.terms, (m.var t.1).fixed = false ∧ t.2 ≠ 0

theorem export_nonzero (m : MState) (sels : List ConId) (lp : LP) (h : exportLP m sels = some lp)
    (hc : HasCoefficient m sels) : ∃ i j, LP.coef lp i j ≠ 0 := by
  obtain ⟨c, hc, hnd, t, ht, hfix, hne⟩ := hc
  obtain ⟨-, -, -, -, -, -, hrec, -⟩ := export_shape m sels lp h
  obtain ⟨k, hk⟩ := List.mem_iff_getElem?.1 hc
  obtain ⟨-, -, r3⟩ := records_spec m _ 0 _ _ hrec
  obtain ⟨r, hr, hf⟩ := r3 k c hk
  obtain ⟨q1, q2⟩ := rowRecords_spec m _ _ c r hr
  rw [Nat.zero_add] at hf hr q2
  have hv := q1 t ht hfix
  refine ⟨k, (columns m).idxOf t.1, ?_⟩
  rw [coef_eq]
  have e1 : ∀ (es : List Entry) (i j : ℕ), toMatrix es i j =
      (((es.filter (fun e => decide (e.row = i))).filter (fun e => decide (e.col = j))).map Entry.value).sum := by
    intro es i j
    induction es with
    | nil => rfl
    | cons e es ih =>
      rw [toMatrix_cons, ih]
      by_cases a : e.row = i
      · by_cases b : e.col = j
        · simp [a, b]
        · simp [a, b]
      · simp [a]
  rw [e1, hf, ((q2.filter _).map _).sum_eq]
  set s : ℚ → ℚ := fun q => if (m.con c).sense = .less then -q else q with hs
  have e2 : ∀ ts : List (VarId × ℚ), (∀ u ∈ ts, (m.var u.1).fixed = false → u.1 ∈ columns m) →
      ((((ts.filter (fun t => !(m.var t.1).fixed)).map
        (fun u => (⟨k, (columns m).idxOf u.1, s u.2⟩ : Entry))).filter
          (fun e => decide (e.col = (columns m).idxOf t.1))).map Entry.value) =
      (ts.filter (fun u => decide (u.1 = t.1))).map (fun u => s u.2) := by
    intro ts
    induction ts with
    | nil => intro _; rfl
    | cons u ts ih =>
      intro hu
      have ih := ih fun w hw => hu w (List.mem_cons_of_mem _ hw)
      by_cases a : u.1 = t.1
      · have hu1 : (m.var u.1).fixed = false := by rw [a]; exact hfix
        rw [List.filter_cons_of_pos (by simp [hu1]), List.map_cons, List.filter_cons_of_pos (by simp [a]), List.map_cons, ih,
          List.filter_cons_of_pos (by simp [a]), List.map_cons]
      · rw [List.filter_cons_of_neg (p := fun u : VarId × ℚ => decide (u.1 = t.1)) (by simp [a])]
        by_cases b : (m.var u.1).fixed = false
        · have hmem := hu u (List.mem_cons_self ..) b
          rw [List.filter_cons_of_pos (by simp [b]), List.map_cons, List.filter_cons_of_neg, ih]
          simp only [decide_eq_true_eq]
          intro e
          apply a
          have g1 := List.getElem_idxOf (List.idxOf_lt_length_iff.2 hmem)
          have g2 := List.getElem_idxOf (List.idxOf_lt_length_iff.2 hv)
          rw [← g1, ← g2]
          congr 1
        · rw [List.filter_cons_of_neg (by simpa using b), ih]
  rw [e2 _ q1]
  have e3 : ∀ ts : List (VarId × ℚ), (ts.map Prod.fst).Nodup → t ∈ ts → ts.filter (fun u => decide (u.1 = t.1)) = [t] := by
    intro ts
    induction ts with
    | nil => intro _ h; exact absurd h (by simp)
    | cons u ts ih =>
      intro hn hm
      rw [List.map_cons, List.nodup_cons] at hn
      rcases List.mem_cons.1 hm with rfl | hm
      · rw [List.filter_cons_of_pos (by simp), List.filter_eq_nil_iff.2]
        intro w hw
        simp only [decide_eq_true_eq]
        intro e
        exact hn.1 (List.mem_map.2 ⟨w, hw, e⟩)
      · rw [List.filter_cons_of_neg, ih hn.2 hm]
        simp only [decide_eq_true_eq]
        intro e
        exact hn.1 (List.mem_map.2 ⟨t, hm, e.symm⟩)
  rw [e3 _ hnd ht, List.map_singleton, List.sum_singleton, hs]
  dsimp only
  split
  · exact neg_ne_zero.2 hne
  · exact hne

/-- What the scaling keeps: bounds of points, the kinds of the rows, a nonzero coefficient. -/
theorem scaling_keeps (lp lp' : LP) (h1 : ∀ i, lp.A.rowScaler i = 1) (h2 : ∀ j, lp.A.colScaler j = 1)
    (sqrtf : ℚ → ℚ) (hq : C47.SqrtPositive sqrtf) (n : ℕ) (pock : Bool) (h : scaling sqrtf n pock lp = some lp') :
    (∀ x, Box lp x → Box lp' (diag lp'.A.colScaler x)) ∧ (Ranges lp → Ranges lp') ∧ lp'.offset = lp.offset ∧
      ((∃ i j, LP.coef lp i j ≠ 0) → ∃ i j, LP.coef lp' i j ≠ 0) := by
  obtain ⟨r1, r2, r3, r4, r5, r6, r7⟩ := scaledMatrix_scaled hq n pock lp.A h1 h2
  unfold scaling at h
  dsimp only at h
  obtain ⟨At, -, h⟩ := Option.map_eq_some_iff.1 h
  subst h
  refine ⟨fun x hx => ⟨by simp [diag, hx.1], fun j hj => ?_⟩, fun hr => hr, rfl, ?_⟩
  · have := hx.2 j hj
    simp only [getD_diag]
    exact ⟨mul_le_mul_of_nonneg_right this.1 (r2 j).le, mul_le_mul_of_nonneg_right this.2 (r2 j).le⟩
  · rintro ⟨i, j, hne⟩
    refine ⟨i, j, fun hz => hne ?_⟩
    have := r3 i j
    rw [h1, h2, one_mul, mul_one] at this
    rw [coef_eq] at hz ⊢
    show matrixOf (C47.triples lp.A.entries) i j = 0
    rw [← this]
    have hz' : matrixOf (C47.triples (scaledMatrix sqrtf n pock lp.A).entries) i j = 0 := hz
    rw [hz']
    ring

/-- What a call of PDLP on a model needs: the variables of the enabled constraints belong to the model, their bounds are
in order, some coefficient is not 0. -/
structure Usable (m : MState) (sels : List ConId) : Prop where
  rows : rowCons m sels ≠ []
  known : ∀ c ∈ rowCons m sels, ∀ t ∈ (m.con c).expr.terms, (m.var t.1).fixed = false → t.1 ∈ columns m
  bounds : ∀ v ∈ columns m, (m.var v).lb ≤ (m.var v).ub
  coefficient : HasCoefficient m sels

theorem initialPoint_box (m : MState) (sels : List ConId) (lp : LP) (h : exportLP m sels = some lp)
    (hb : ∀ v ∈ columns m, (m.var v).lb ≤ (m.var v).ub) : Box lp (initialPoint m) := by
  obtain ⟨hs, -, -, h4, -, -, -, -, -, h10, h11, -⟩ := export_shape m sels lp h
  have := clamp_box lp hs (fun j hj => by
    rw [h10, h11]
    rw [h4] at hj
    have hm := List.getElem_mem hj
    simp only [List.getD, List.getElem?_map, List.getElem?_eq_getElem hj, Option.map_some, Option.getD_some]
    exact_mod_cast hb _ hm) ((columns m).map fun v => ((m.var v).value : ℚ)) (by simp [h4])
  rw [h10, h11] at this
  exact this

theorem export_ranges (m : MState) (sels : List ConId) (lp : LP) (h : exportLP m sels = some lp) : Ranges lp := by
  unfold exportLP at h
  dsimp only at h
  obtain ⟨es, -, h⟩ := Option.bind_eq_some_iff.1 h
  obtain ⟨A, -, h⟩ := Option.bind_eq_some_iff.1 h
  obtain ⟨At, -, h⟩ := Option.map_eq_some_iff.1 h
  subst h
  refine ⟨rfl, rfl, Nat.le_add_right _ _, ?_⟩
  dsimp only
  unfold rowCons
  simp only [List.length_append]
  omega

/-- A call of PDLP on a usable model ends (or PDLP is skipped): nothing undefined happens on the way. -/
theorem controller_ends (f : Fn) (κ : ℚ) (hf : FnOK f κ) (o : Opt) (ho : OptOK o) (plan : Plan) (ruizCount : ℕ) (pock : Bool)
    (clock : ℕ → ℚ) (m : MState) (sels : List ConId) (hu : Usable m sels) :
    ∃ attempts r, controller f o plan ruizCount pock clock attempts m sels = some r := by
  by_cases c0 : columns m = []
  · exact ⟨fun _ => 0, none, by unfold controller; rw [if_pos c0]⟩
  by_cases c1 : o.timeOffset > o.generalTimeMax
  · exact ⟨fun _ => 0, none, by unfold controller; rw [if_neg c0, if_pos c1]⟩
  obtain ⟨lp, hlp⟩ := (export_defined m sels).2 ⟨c0, hu.rows, hu.known⟩
  by_cases c2 : lp.cols ≤ 1 ∨ lp.rows ≤ 1
  · exact ⟨fun _ => 0, none, by unfold controller; rw [if_neg c0, if_neg c1, hlp, Option.bind_some, if_pos c2]⟩
  have hsh := export_shape m sels lp hlp
  obtain ⟨lp', hlp', hs', -⟩ := scaling_sound lp hsh.1 hsh.2.1 hsh.2.2.1 f.sqrtf hf.sqrtPos ruizCount pock
  obtain ⟨k1, -, -, k4⟩ := scaling_keeps lp lp' hsh.2.1 hsh.2.2.1 f.sqrtf hf.sqrtPos ruizCount pock hlp'
  obtain ⟨i, j, hne⟩ := k4 (export_nonzero m sels lp hlp hu.coefficient)
  obtain ⟨a, r, hr, -⟩ := run_ends f κ hf o ho plan lp' hs' _ (k1 _ (initialPoint_box m sels lp hlp hu.bounds))
    (normInfty_ne_zero _ i j hne) clock
  refine ⟨a, some (lp', r.1, r.2), ?_⟩
  unfold controller
  rw [if_neg c0, if_neg c1, hlp, Option.bind_some, if_neg c2, hlp', Option.bind_some, hr, Option.map_some]

/-- What a call that was not skipped did. -/
theorem controller_result (f : Fn) (κ : ℚ) (hf : FnOK f κ) (o : Opt) (plan : Plan) (ruizCount : ℕ) (pock : Bool)
    (clock : ℕ → ℚ) (attempts : ℕ → ℕ) (m : MState) (sels : List ConId)
    (hb : ∀ v ∈ columns m, (m.var v).lb ≤ (m.var v).ub) (lp' : LP) (v : Verdict) (st : State)
    (h : controller f o plan ruizCount pock clock attempts m sels = some (some (lp', v, st))) :
    ∃ lp, exportLP m sels = some lp ∧ Sound lp' ∧ Ranges lp' ∧ lp'.offset = lp.offset ∧ lp'.cols = lp.cols ∧
      (∀ x, PrimalFeasible lp x → PrimalFeasible lp' (fun j => x j * lp'.A.colScaler j) ∧
        primalObjective lp' (fun j => x j * lp'.A.colScaler j) = primalObjective lp x) ∧
      ∃ x0, Box lp' x0 ∧ Pdlp.run f o plan lp' x0 clock attempts = some (v, st) := by
  unfold controller at h
  by_cases c0 : columns m = []
  · rw [if_pos c0] at h; exact absurd h (by simp)
  rw [if_neg c0] at h
  by_cases c1 : o.timeOffset > o.generalTimeMax
  · rw [if_pos c1] at h; exact absurd h (by simp)
  rw [if_neg c1] at h
  obtain ⟨lp, hlp, h⟩ := Option.bind_eq_some_iff.1 h
  by_cases c2 : lp.cols ≤ 1 ∨ lp.rows ≤ 1
  · rw [if_pos c2] at h; exact absurd h (by simp)
  rw [if_neg c2] at h
  obtain ⟨lq, hlq, h⟩ := Option.bind_eq_some_iff.1 h
  obtain ⟨r, hr, h⟩ := Option.map_eq_some_iff.1 h
  have h := Option.some.inj h
  injection h with e1 e2
  injection e2 with e2 e3
  subst e1 e2 e3
  have hsh := export_shape m sels lp hlp
  obtain ⟨lq', hlq', hs', -, -, q1, -, q2⟩ := scaling_sound lp hsh.1 hsh.2.1 hsh.2.2.1 f.sqrtf hf.sqrtPos ruizCount pock
  rw [hlq] at hlq'
  have hlq' := Option.some.inj hlq'
  subst hlq'
  obtain ⟨k1, k2, k3, -⟩ := scaling_keeps lp lq hsh.2.1 hsh.2.2.1 f.sqrtf hf.sqrtPos ruizCount pock hlq
  exact ⟨lp, hlp, hs', k2 (export_ranges m sels lp hlp), k3, q1, q2, _, k1 _ (initialPoint_box m sels lp hlp hb), hr⟩

/-- The reported dual objective is, for a vanishing dual violation, a bound of the objective of every feasible assignment
of the model — up to the constant of the objective, which the export leaves out (`C42.constant_breaks_the_bound`). -/
theorem controller_bound (f : Fn) (κ : ℚ) (hf : FnOK f κ) (o : Opt) (ho : OptOK o) (plan : Plan) (ruizCount : ℕ) (pock : Bool)
    (clock : ℕ → ℚ) (attempts : ℕ → ℕ) (m : MState) (hr : ObjectiveReady m) (sels : List ConId)
    (hsel : ∀ c ∈ sels, (m.con c).sense = .equal) (hb : ∀ v ∈ columns m, (m.var v).lb ≤ (m.var v).ub) (lp' : LP)
    (v : Verdict) (st : State)
    (h : controller f o plan ruizCount pock clock attempts m sels = some (some (lp', v, st)))
    (h0 : st.info.dualViolation = 0) (σ : ℕ → ℤ) (hfe : Feasible m σ) (hss : ∀ c ∈ sels, Holds (m.con c) σ) :
    st.info.dualObjective ≤ (if m.isMin then 1 else -1) * (exprValue m.obj σ - m.obj.const) := by
  obtain ⟨lp, hlp, hs, -, -, -, q, x0, hx0, hrun⟩ :=
    controller_result f κ hf o plan ruizCount pock clock attempts m sels hb lp' v st h
  obtain ⟨p1, p2⟩ := q _ (export_feasible m sels hsel lp hlp σ hfe hss)
  have := exact_bound f κ hf o ho plan lp' hs x0 hx0 clock attempts v st hrun h0 _ p1
  rw [p2, export_objective m hr sels lp hlp σ hfe.1] at this
  exact this

/-- INFEASIBLE with tolerance 0: the model has no feasible assignment, if the contribution of the fixed variables to the
objective (with the sign of the direction) is below 1. -/
theorem controller_infeasible_partial (f : Fn) (κ : ℚ) (hf : FnOK f κ) (o : Opt) (ho : OptOK o) (h0 : o.tolerance = 0)
    (plan : Plan) (ruizCount : ℕ) (pock : Bool)
    (clock : ℕ → ℚ) (attempts : ℕ → ℕ) (m : MState) (sels : List ConId)
    (hsel : ∀ c ∈ sels, (m.con c).sense = .equal) (hb : ∀ v ∈ columns m, (m.var v).lb ≤ (m.var v).ub)
    (hoff : (if m.isMin then fixedOffset m else fixedOffset m * -1) < 1) (lp' : LP) (st : State)
    (h : controller f o plan ruizCount pock clock attempts m sels = some (some (lp', .infeasible, st))) :
    ¬ ∃ σ, Feasible m σ ∧ ∀ c ∈ sels, Holds (m.con c) σ := by
  rintro ⟨σ, hfe, hss⟩
  obtain ⟨lp, hlp, hs, -, ho', -, q, x0, hx0, hrun⟩ :=
    controller_result f κ hf o plan ruizCount pock clock attempts m sels hb lp' _ st h
  obtain ⟨p1, -⟩ := q _ (export_feasible m sels hsel lp hlp σ hfe hss)
  have := infeasible_verdict_partial f κ hf o ho plan lp' hs x0 hx0 clock attempts st hrun 0 (le_refl _)
    (by rw [h0]; simp) _ p1
  rw [ho', (export_shape m sels lp hlp).2.2.2.2.2.2.2.2.2.2.2.1, zero_mul, add_zero] at this
  exact absurd this (not_le.2 hoff)

/-! ## Samples and findings -/

namespace Sample

/-- Functions that meet `FnOK` with `κ = 1` and can be evaluated. -/
def fn : Fn :=
  { sqrtf := fun v => if v ≤ 0 then 0 else if v < 1 then 1 else v
    weight := fun _ _ w => w
    reduce := fun n => 1 / ((n : ℚ) + 1)
    extend := fun n => 1 / ((n : ℚ) + 1) }

theorem fn_ok : FnOK fn 1 := by
  refine ⟨by norm_num, fun v => ?_, fun v hv => ?_, fun v hv => ?_, fun _ _ w _ _ h => h, fun n hn => ?_,
    fun n _ => le_refl _, fun n => ?_⟩
  · show (0 : ℚ) ≤ if v ≤ 0 then 0 else if v < 1 then 1 else v
    split
    · norm_num
    · split
      · norm_num
      · linarith
  · show (0 : ℚ) < if v ≤ 0 then 0 else if v < 1 then 1 else v
    rw [if_neg (not_le.2 hv)]
    split
    · norm_num
    · exact hv
  · show 1 * v ≤ (if v ≤ 0 then 0 else if v < 1 then 1 else v) * (if v ≤ 0 then 0 else if v < 1 then 1 else v)
    by_cases h1 : v ≤ 0
    · rw [if_pos h1]; linarith
    · by_cases h2 : v < 1
      · rw [if_neg h1, if_pos h2]; linarith
      · rw [if_neg h1, if_neg h2]
        rw [one_mul]
        nlinarith
  · show 1 / ((n : ℚ) + 1) < 1
    have : (1 : ℚ) ≤ n := by exact_mod_cast hn
    rw [div_lt_one (by linarith)]
    linarith
  · show (0 : ℚ) ≤ 1 / ((n : ℚ) + 1)
    positivity

/-- Options: tolerance `t`, at most `n` iterations, every interval 1. -/
def opt (t : ℚ) (n : ℤ) : Opt :=
  { iterationMax := n, timeMax := 100, timeOffset := 0, generalTimeMax := 100, tolerance := t, restartInterval := 1
    convergenceInterval := 1, logInterval := 1, big := 1000000 }

theorem opt_ok (t : ℚ) (n : ℤ) : OptOK (opt t n) := ⟨by simp [opt], by simp [opt], by simp [opt], by norm_num [opt]⟩

deriving instance Inhabited for Matrix

def matrix : Matrix := (construct [⟨0, 0, 1⟩, ⟨0, 1, 1⟩, ⟨1, 0, 1⟩] 2 2).getD default

/-- `x0 + x1 = 1` and `x0 ≥ 0`, both variables in `[0, 1]`, objective `q x0 + k`. -/
def lp (q k : ℚ) : LP :=
  { rows := 2, cols := 2, offset := k, c := [q, 0], lb := [0, 0], ub := [1, 1]
    A := matrix
    lowerUnbounded := [false, false], upperUnbounded := [false, false], b := [1, 0], dualLb := [none, some 0]
    At := matrix
    less := (0, 0), equal := (0, 1), greater := (1, 2), isMin := true }

theorem lp_sound (q k : ℚ) : Sound (lp q k) := by
  have hok : ∀ m, construct [⟨0, 0, 1⟩, ⟨0, 1, 1⟩, ⟨1, 0, 1⟩] 2 2 = some m → RowsOK m := fun m h =>
    construct_rowsOK _ _ _ m h (by decide)
  have hd : construct [⟨0, 0, 1⟩, ⟨0, 1, 1⟩, ⟨1, 0, 1⟩] 2 2 =
      some (matrix) := rfl
  refine ⟨Nat.two_pos, Nat.two_pos, hok _ hd, rfl, rfl, hok _ hd, rfl, rfl, fun i j => ?_, rfl, rfl, rfl, rfl, rfl, fun i hi => ?_⟩
  · show toMatrix [⟨0, 0, 1⟩, ⟨0, 1, 1⟩, ⟨1, 0, 1⟩] j i = toMatrix [⟨0, 0, 1⟩, ⟨0, 1, 1⟩, ⟨1, 0, 1⟩] i j
    simp only [toMatrix_cons]
    have : ∀ a b : ℕ, toMatrix [] a b = 0 := fun _ _ => rfl
    rw [this, this]
    by_cases h1 : i = 0 <;> by_cases h2 : j = 0 <;> by_cases h3 : i = 1 <;> by_cases h4 : j = 1 <;>
      simp [h1, h2, h3, h4, eq_comm]
  · have : i = 0 ∨ i = 1 := by
      change i < 2 at hi
      omega
    rcases this with rfl | rfl <;> rfl

theorem lp_feasible (q k : ℚ) : PrimalFeasible (lp q k) (fun j => if j = 1 then 1 else 0) := by
  refine ⟨fun j hj => ?_, fun i hi e1 e2 => ?_, fun i hi _ => ?_⟩
  · have : j = 0 ∨ j = 1 := by change j < 2 at hj; omega
    rcases this with rfl | rfl <;> norm_num [lp]
  · have : i = 0 := by change i < 1 at e2; omega
    rcases this with rfl
    · show mulVec (toMatrix [⟨0, 0, 1⟩, ⟨0, 1, 1⟩, ⟨1, 0, 1⟩]) 2 _ 0 = 1
      decide +kernel
  · have : i = 0 ∨ i = 1 := by change i < 2 at hi; omega
    rcases this with rfl | rfl
    · show (1 : ℚ) ≤ mulVec (toMatrix [⟨0, 0, 1⟩, ⟨0, 1, 1⟩, ⟨1, 0, 1⟩]) 2 _ 0
      decide +kernel
    · show (0 : ℚ) ≤ mulVec (toMatrix [⟨0, 0, 1⟩, ⟨0, 1, 1⟩, ⟨1, 0, 1⟩]) 2 _ 1
      decide +kernel

end Sample


/-- INFEASIBLE can be wrong: with an offset of 10 in the objective (the contribution of fixed variables) the verdict is
INFEASIBLE before the first iteration, even with tolerance 0, although the LP has a feasible point: the dual objective
contains the offset, the upper bound it is compared with does not. -/
theorem infeasible_verdict_is_wrong :
    Sound (Sample.lp 0 10) ∧ Box (Sample.lp 0 10) [0, 0] ∧
    (∃ st, Pdlp.run Sample.fn (Sample.opt 0 1000) (fun _ => none) (Sample.lp 0 10) [0, 0] (fun _ => 0) (fun _ => 10) =
      some (.infeasible, st)) ∧
    ∃ z, PrimalFeasible (Sample.lp 0 10) z := by
  refine ⟨Sample.lp_sound _ _, ⟨rfl, fun j hj => ?_⟩, ?_, _, Sample.lp_feasible _ _⟩
  · have : j = 0 ∨ j = 1 := by change j < 2 at hj; omega
    rcases this with rfl | rfl <;> norm_num [Sample.lp]
  · have h : (Pdlp.run Sample.fn (Sample.opt 0 1000) (fun _ => none) (Sample.lp 0 10) [0, 0] (fun _ => 0)
        (fun _ => 10)).map Prod.fst = some .infeasible := by decide +kernel
    obtain ⟨r, h1, h2⟩ := Option.map_eq_some_iff.1 h
    exact ⟨r.2, by rw [h1, ← h2]⟩

/-- OPTIMAL can come with a point that is not the one it was found for: the averages are emptied by the start (and by the
first restart) after the convergence information is computed, so that the reported average point is `0`, which violates
`x0 + x1 = 1`, although the information that is reported says that the violation is 0. -/
theorem optimal_reports_another_point :
    ∃ st, Pdlp.run Sample.fn (Sample.opt 0 1000) (fun _ => none) (Sample.lp 0 0) [1, 0] (fun _ => 0) (fun _ => 10) =
        some (.optimal, st) ∧ st.info.primalViolation = 0 ∧ st.xAvg = [0, 0] ∧
      ¬ PrimalFeasible (Sample.lp 0 0) (fun j => st.xAvg.getD j 0) := by
  have h : (Pdlp.run Sample.fn (Sample.opt 0 1000) (fun _ => none) (Sample.lp 0 0) [1, 0] (fun _ => 0)
      (fun _ => 10)).map (fun r => (r.1, r.2.info.primalViolation, r.2.xAvg)) = some (.optimal, 0, [0, 0]) := by decide +kernel
  obtain ⟨r, h1, h2⟩ := Option.map_eq_some_iff.1 h
  injection h2 with e1 e2
  injection e2 with e2 e3
  refine ⟨r.2, by rw [h1, ← e1], e2, e3, fun hz => ?_⟩
  have := hz.equal 0 (by show 0 < 2; omega) (by show 0 ≤ 0; omega) (by show 0 < 1; omega)
  rw [e3] at this
  have e : mulVec (toMatrix [⟨0, 0, 1⟩, ⟨0, 1, 1⟩, ⟨1, 0, 1⟩]) 2 (fun j => ([0, 0] : List ℚ).getD j 0) 0 = 0 := by decide +kernel
  have h' : mulVec (toMatrix [⟨0, 0, 1⟩, ⟨0, 1, 1⟩, ⟨1, 0, 1⟩]) 2 (fun j => ([0, 0] : List ℚ).getD j 0) 0 = 1 := this
  rw [e] at h'
  exact absurd h' (by norm_num)

/-! ### Non-vacuity -/

example : FnOK Sample.fn 1 ∧ OptOK (Sample.opt (1 / 10) 20) ∧ Sound (Sample.lp 1 0) ∧ Ranges (Sample.lp 1 0) ∧
    Box (Sample.lp 1 0) [1, 0] ∧ normInfty (Sample.lp 1 0).A ≠ 0 ∧ ∃ z, PrimalFeasible (Sample.lp 1 0) z := by
  refine ⟨Sample.fn_ok, Sample.opt_ok _ _, Sample.lp_sound _ _, ⟨rfl, rfl, by decide +kernel, by decide +kernel⟩, ⟨rfl, fun j hj => ?_⟩, by decide +kernel, _,
    Sample.lp_feasible _ _⟩
  have : j = 0 ∨ j = 1 := by change j < 2 at hj; omega
  rcases this with rfl | rfl <;> norm_num [Sample.lp]

/-- Runs with twenty iterations, without restarts and with restarts from the average point. -/
example : (Pdlp.run Sample.fn (Sample.opt (1 / 10) 20) (fun _ => none) (Sample.lp 1 0) [1, 0] (fun _ => 0) (fun _ => 10)).map
    (fun r => (r.1, r.2.xAvg, r.2.iteration)) = some (.iterationOver, [12 / 23, 12 / 23], 20) := by decide +kernel

example : (Pdlp.run Sample.fn (Sample.opt (1 / 10) 20) (fun _ => some false) (Sample.lp 1 0) [1, 0] (fun _ => 0)
    (fun _ => 10)).map (fun r => (r.1, r.2.xAvg)) = some (.iterationOver, [24266537 / 46769982, 24266537 / 46769982]) := by
  decide +kernel


/-- A model for which a call is defined. -/
example : Usable C42.fixedExample [] ∧ ObjectiveReady C42.fixedExample ∧
    (if C42.fixedExample.isMin then fixedOffset C42.fixedExample else fixedOffset C42.fixedExample * -1) < 1 := by
  refine ⟨⟨by decide +kernel, by decide +kernel, by decide +kernel, 0, by decide +kernel, by decide +kernel, ?_⟩,
    ⟨by decide, by decide, fun v => rfl, by decide +kernel⟩, by decide +kernel⟩
  decide +kernel

/-- An interval of 0 is undefined behaviour (a remainder by 0) in the first iteration. -/
theorem zero_interval_is_undefined (f : Fn) (o : Opt) (plan : Plan) (lp : LP) (fuel : ℕ) (st : State)
    (h : o.restartInterval = 0 ∨ o.convergenceInterval = 0 ∨ o.logInterval = 0) : iterate f o plan lp fuel st = none := by
  unfold Pdlp.iterate
  cases updateSolution f o lp fuel st with
  | none => rfl
  | some st1 =>
    rw [Option.bind_some]
    dsimp only
    rw [if_pos h]

end Printemps.C80
