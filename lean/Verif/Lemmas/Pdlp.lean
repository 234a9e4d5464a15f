import Verif.Spec.Pdlp
import Verif.Lemmas.LinearProgram
import Mathlib.Algebra.Order.BigOperators.Group.Finset
import Mathlib.Algebra.Order.Archimedean.Basic
import Mathlib.Tactic.Positivity
import Mathlib.Tactic.Ring
import Mathlib.Tactic.Linarith

/-! Lemmas on PDLP: points stay within bounds, steps stay positive, the step size search ends. -/

namespace Printemps.Pdlp
open Lp Sparse Spec

theorem getD_zipWith {α β} (g : α → β → ℚ) (x : List α) (y : List β) (a : α) (b : β) (i : ℕ) (hx : i < x.length) (hy : i < y.length) :
    (List.zipWith g x y).getD i 0 = g (x.getD i a) (y.getD i b) := by
  simp [List.getD, List.getElem?_zipWith, List.getElem?_eq_getElem hx, List.getElem?_eq_getElem hy]

theorem dot_eq (m : Matrix) (hm : RowsOK m) (x : List ℚ) (hx : x.length = m.cols) :
    dot m x = some ((List.range m.rows).map (mulVec (toMatrix m.entries) m.cols (fun j => x.getD j 0))) := by
  unfold dot
  rw [if_neg (by rw [hx]; simp)]
  apply mapM_range
  intro i hi
  rw [rowLoop_eq m hm 1 x hx 0 i hi]
  congr 1
  ring

theorem length_combine (a b c : ℚ) (x y z : List ℚ) (n : ℕ) (hx : x.length = n) (hy : y.length = n) (hz : z.length = n) :
    (combine a x b y c z).length = n := by simp [combine, hx, hy, hz]

theorem length_subtract (x y : List ℚ) (n : ℕ) (hx : x.length = n) (hy : y.length = n) : (subtract x y).length = n := by
  simp [subtract, hx, hy]

theorem inner_self_nonneg (x : List ℚ) : 0 ≤ inner x x := by
  rw [inner_eq x x x.length rfl rfl]
  exact Finset.sum_nonneg fun i _ => mul_self_nonneg _

/-- Clamping gives a point within the bounds. -/
theorem clamp_box (lp : LP) (hs : Sound lp) (h0 : ∀ j < lp.cols, lp.lb.getD j 0 ≤ lp.ub.getD j 0) (x : List ℚ)
    (hx : x.length = lp.cols) : Box lp (clampPrimal lp.lb lp.ub x) := by
  unfold clampPrimal
  refine ⟨by simp [hx, hs.lb, hs.ub], fun j hj => ?_⟩
  have hle := h0 j hj
  rw [getD_zipWith _ _ _ 0 ((0 : ℚ), (0 : ℚ)) j (by omega) (by simp [hs.lb, hs.ub, hj])]
  have hz : (List.zip lp.lb lp.ub).getD j (0, 0) = (lp.lb.getD j 0, lp.ub.getD j 0) := by
    have h1 : j < lp.lb.length := by rw [hs.lb]; exact hj
    have h2 : j < lp.ub.length := by rw [hs.ub]; exact hj
    simp [List.getD, List.zip, List.getElem?_zipWith, List.getElem?_eq_getElem h1, List.getElem?_eq_getElem h2]
  rw [hz]
  dsimp only
  split
  · exact ⟨le_refl _, hle⟩
  · split
    · exact ⟨hle, le_refl _⟩
    · constructor <;> linarith

theorem learn_box (lp : LP) (r : ℚ) (h0 : 0 ≤ r) (h1 : r ≤ 1) (a x : List ℚ) (ha : Box lp a) (hx : Box lp x) :
    Box lp (learn r a x) := by
  unfold learn
  refine ⟨by simp [ha.1, hx.1], fun j hj => ?_⟩
  rw [getD_zipWith _ _ _ 0 0 j (by rw [ha.1]; exact hj) (by rw [hx.1]; exact hj)]
  obtain ⟨a1, a2⟩ := ha.2 j hj
  obtain ⟨x1, x2⟩ := hx.2 j hj
  constructor
  · nlinarith
  · nlinarith

/-- Learning with rate 1 takes over the new point. -/
theorem learn_one (a x : List ℚ) (h : a.length = x.length) : learn 1 a x = x := by
  unfold learn
  apply List.ext_getElem?
  intro i
  rw [List.getElem?_zipWith]
  by_cases hi : i < x.length
  · rw [List.getElem?_eq_getElem hi, List.getElem?_eq_getElem (by omega)]
    simp
  · simp [List.getElem?_eq_none (not_lt.1 hi)]

/-- The sum of the absolute values of the coefficients. -/
def absSum (lp : LP) : ℚ := ∑ i ∈ Finset.range lp.rows, ∑ j ∈ Finset.range lp.cols, |LP.coef lp i j|

theorem absSum_nonneg (lp : LP) : 0 ≤ absSum lp :=
  Finset.sum_nonneg fun _ _ => Finset.sum_nonneg fun _ _ => abs_nonneg _

/-- The limit of the step size never falls below this. -/
def lowest (o : Opt) (lp : LP) (κ : ℚ) : ℚ := min o.big (κ * κ / (absSum lp + 1))

theorem lowest_pos (o : Opt) (ho : OptOK o) (lp : LP) (κ : ℚ) (hκ : 0 < κ) : 0 < lowest o lp κ := by
  have := absSum_nonneg lp
  exact lt_min ho.big (by positivity)

theorem product_le (w a b : ℚ) (hw : 0 < w) : |a| * |b| ≤ (w * (b * b) + 1 / w * (a * a)) / 2 := by
  have h : 0 ≤ 1 / w * ((w * |b| - |a|) * (w * |b| - |a|)) := mul_nonneg (by positivity) (mul_self_nonneg _)
  have e : 1 / w * ((w * |b| - |a|) * (w * |b| - |a|)) = w * (|b| * |b|) - 2 * (|a| * |b|) + 1 / w * (|a| * |a|) := by
    field_simp
    ring
  rw [e, abs_mul_abs_self, abs_mul_abs_self] at h
  linarith

theorem abs_inner_product (lp : LP) (w : ℚ) (hw : 0 < w) (dx dy : ℕ → ℚ) :
    |∑ i ∈ Finset.range lp.rows, dy i * mulVec (LP.coef lp) lp.cols dx i| ≤
      absSum lp * ((w * ∑ j ∈ Finset.range lp.cols, dx j * dx j + 1 / w * ∑ i ∈ Finset.range lp.rows, dy i * dy i) / 2) := by
  unfold absSum
  rw [Finset.sum_mul]
  refine le_trans (Finset.abs_sum_le_sum_abs _ _) (Finset.sum_le_sum fun i hi => ?_)
  unfold mulVec
  rw [abs_mul, Finset.sum_mul]
  refine le_trans (mul_le_mul_of_nonneg_left (Finset.abs_sum_le_sum_abs _ _) (abs_nonneg _)) ?_
  rw [Finset.mul_sum]
  refine Finset.sum_le_sum fun j hj => ?_
  rw [abs_mul]
  have e : |dy i| * (|LP.coef lp i j| * |dx j|) = |LP.coef lp i j| * (|dy i| * |dx j|) := by ring
  rw [e]
  refine mul_le_mul_of_nonneg_left ?_ (abs_nonneg _)
  refine le_trans (product_le w (dy i) (dx j) hw) ?_
  have h1 : dx j * dx j ≤ ∑ j ∈ Finset.range lp.cols, dx j * dx j :=
    Finset.single_le_sum (f := fun j => dx j * dx j) (fun j _ => mul_self_nonneg _) hj
  have h2 : dy i * dy i ≤ ∑ i ∈ Finset.range lp.rows, dy i * dy i :=
    Finset.single_le_sum (f := fun i => dy i * dy i) (fun i _ => mul_self_nonneg _) hi
  have h3 : w * (dx j * dx j) ≤ w * ∑ j ∈ Finset.range lp.cols, dx j * dx j := mul_le_mul_of_nonneg_left h1 hw.le
  have h4 : 1 / w * (dy i * dy i) ≤ 1 / w * ∑ i ∈ Finset.range lp.rows, dy i * dy i :=
    mul_le_mul_of_nonneg_left h2 (by positivity)
  linarith

/-- An attempt is defined, its points are within bounds, and the limit is at least `lowest`. -/
theorem attempt_spec (f : Fn) (κ : ℚ) (hf : FnOK f κ) (o : Opt) (lp : LP) (hs : Sound lp) (w : ℚ) (hw : 0 < w)
    (x y lhs : List ℚ) (hx : Box lp x) (hy : DualFeasible lp y) (hl : lhs.length = lp.cols) (s : ℚ) :
    ∃ x1 y1 l, attempt f o lp w x y lhs s = some (x1, y1, l) ∧ Box lp x1 ∧ DualFeasible lp y1 ∧ lowest o lp κ ≤ l := by
  unfold attempt
  have bx1 := clamp_box lp hs (fun j hj => le_trans (hx.2 j hj).1 (hx.2 j hj).2) (combine 1 x (-(s / w)) lp.c (s / w) lhs)
    (length_combine _ _ _ _ _ _ _ hx.1 hs.c hl)
  generalize clampPrimal lp.lb lp.ub (combine 1 x (-(s / w)) lp.c (s / w) lhs) = x1 at bx1 ⊢
  dsimp only
  rw [dot_eq lp.A hs.A _ (by simp [bx1.1, hx.1, hs.Acols]), Option.bind_some]
  have fy1 := clampDual_feasible lp hs (combine 1 y (s * w) lp.b (-(s * w))
    ((List.range lp.A.rows).map (mulVec (toMatrix lp.A.entries) lp.A.cols
      (fun j => (List.zipWith (fun a b => 2 * a + -1 * b) x1 x).getD j 0))))
    (length_combine _ _ _ _ _ _ _ hy.1 hs.b (by simp [hs.Arows]))
  generalize clampDual lp.dualLb _ = y1 at fy1 ⊢
  have ldx := length_subtract x1 x lp.cols bx1.1 hx.1
  have ldy := length_subtract y1 y lp.rows fy1.1 hy.1
  generalize subtract x1 x = dx at ldx ⊢
  generalize subtract y1 y = dy at ldy ⊢
  rw [dot_eq lp.A hs.A dx (by rw [hs.Acols]; exact ldx)]
  refine ⟨x1, y1, _, rfl, bx1, fy1, ?_⟩
  split
  case isFalse => exact min_le_left _ _
  case isTrue hI =>
  refine le_trans (min_le_right _ _) ?_
  rw [inner_eq dy _ lp.rows ldy (by simp [hs.Arows])] at hI ⊢
  have e1 : ∑ i ∈ Finset.range lp.rows, dy.getD i 0 * ((List.range lp.A.rows).map (mulVec (toMatrix lp.A.entries) lp.A.cols
      (fun j => dx.getD j 0))).getD i 0 =
      ∑ i ∈ Finset.range lp.rows, dy.getD i 0 * mulVec (LP.coef lp) lp.cols (fun j => dx.getD j 0) i := by
    refine Finset.sum_congr rfl fun i hi => ?_
    congr 1
    have hi := Finset.mem_range.1 hi
    rw [hs.Arows, hs.Acols]
    simp [List.getD, hi]
    rfl
  rw [e1] at hI ⊢
  have hI0 := abs_inner_product lp w hw (fun j => dx.getD j 0) (fun i => dy.getD i 0)
  rw [← inner_eq dx dx lp.cols ldx ldx, ← inner_eq dy dy lp.rows ldy ldy] at hI0
  generalize |∑ i ∈ Finset.range lp.rows, dy.getD i 0 * mulVec (LP.coef lp) lp.cols (fun j => dx.getD j 0) i| = I at hI hI0 ⊢
  have hIpos : 0 < I := lt_trans (by norm_num [EPSILON]) hI
  have qx := hf.square _ (inner_self_nonneg dx)
  have qy := hf.square _ (inner_self_nonneg dy)
  have nx := inner_self_nonneg dx
  have ny := inner_self_nonneg dy
  have hw' : 0 < 1 / w := by positivity
  have e2 : w * norm f dx * norm f dx + 1 / w * norm f dy * norm f dy =
      w * (norm f dx * norm f dx) + 1 / w * (norm f dy * norm f dy) := by ring
  rw [e2]
  have hN : κ * (w * inner dx dx + 1 / w * inner dy dy) ≤
      w * (norm f dx * norm f dx) + 1 / w * (norm f dy * norm f dy) := by
    have h1 := mul_le_mul_of_nonneg_left qx hw.le
    have h2 := mul_le_mul_of_nonneg_left qy hw'.le
    calc κ * (w * inner dx dx + 1 / w * inner dy dy) = w * (κ * inner dx dx) + 1 / w * (κ * inner dy dy) := by ring
      _ ≤ _ := add_le_add h1 h2
  have hN0 : 0 ≤ w * inner dx dx + 1 / w * inner dy dy := add_nonneg (mul_nonneg hw.le nx) (mul_nonneg hw'.le ny)
  generalize w * inner dx dx + 1 / w * inner dy dy = N at hN hN0 hI0
  have hM0 : 0 ≤ w * (norm f dx * norm f dx) + 1 / w * (norm f dy * norm f dy) :=
    le_trans (mul_nonneg hf.pos.le hN0) hN
  have hM := hf.square _ hM0
  generalize w * (norm f dx * norm f dx) + 1 / w * (norm f dy * norm f dy) = M at hN hM0 hM ⊢
  have hS := absSum_nonneg lp
  rw [div_le_div_iff₀ (by positivity) hIpos]
  have k1 : κ * κ * N ≤ f.sqrtf M * f.sqrtf M :=
    calc κ * κ * N = κ * (κ * N) := by ring
      _ ≤ κ * M := mul_le_mul_of_nonneg_left hN hf.pos.le
      _ ≤ _ := hM
  have k2 : κ * κ * I ≤ κ * κ * (absSum lp * (N / 2)) := mul_le_mul_of_nonneg_left hI0 (mul_self_nonneg _)
  have k3 : 0 ≤ κ * κ * N := mul_nonneg (mul_self_nonneg _) hN0
  have k4 : κ * κ * N * (absSum lp + 1) ≤ f.sqrtf M * f.sqrtf M * (absSum lp + 1) :=
    mul_le_mul_of_nonneg_right k1 (by positivity)
  nlinarith

theorem candidate_pos (f : Fn) (κ : ℚ) (hf : FnOK f κ) (n : ℕ) (hn : 1 ≤ n) (l s : ℚ) (hl : 0 < l) (hs : 0 < s) :
    0 < candidate f n l s := by
  have h1 := hf.reduceLt n hn
  have h2 := hf.extend n
  unfold candidate
  refine lt_min ?_ ?_
  · exact mul_pos (by linarith) hl
  · exact mul_pos (by linarith) hs

/-- What the step size search leaves unchanged, and what it gives. -/
structure Found (lp : LP) (st st' : State) : Prop where
  x : Box lp st'.x
  y : DualFeasible lp st'.y
  step : 0 < st'.step
  prev : 0 < st'.stepPrev
  xAvg : st'.xAvg = st.xAvg
  yAvg : st'.yAvg = st.yAvg
  xBase : st'.xBase = st.xBase
  yBase : st'.yBase = st.yBase
  total : st'.total = st.total
  weight : st'.weight = st.weight
  inner : st'.inner = st.inner
  outer : st'.outer = st.outer
  iteration : st'.iteration = st.iteration
  info : st'.info = st.info
  upper : st'.upper = st.upper

/-- The step size search ends as soon as the fuel is large enough for the step size it starts with. -/
theorem search_ends (f : Fn) (κ : ℚ) (hf : FnOK f κ) (o : Opt) (ho : OptOK o) (lp : LP) (hs : Sound lp) (lhs : List ℚ)
    (hl : lhs.length = lp.cols) (Q : ℚ) (fuel : ℕ) (st : State) (s : ℚ) (hw : 0 < st.weight) (hx : Box lp st.x)
    (hy : DualFeasible lp st.y) (hpos : 0 < s) (hQ : s * (st.attempts + 1) ≤ Q)
    (hfuel : Q < lowest o lp κ * (st.attempts + 1 + fuel)) : ∃ st', search f o lp lhs (fuel + 1) st s = some st' := by
  have hL := lowest_pos o ho lp κ hf.pos
  induction fuel generalizing st s with
  | zero =>
    unfold search
    obtain ⟨x1, y1, l, h1, h2, h3, h4⟩ := attempt_spec f κ hf o lp hs st.weight hw st.x st.y lhs hx hy hl s
    rw [h1, Option.bind_some]
    dsimp only
    rw [if_pos]
    · exact ⟨_, rfl⟩
    · by_contra hge
      have hle : lowest o lp κ ≤ s := le_trans h4 (not_lt.1 hge)
      have : lowest o lp κ * (st.attempts + 1) ≤ s * (st.attempts + 1) := mul_le_mul_of_nonneg_right hle (by positivity)
      simp only [Nat.cast_zero, add_zero] at hfuel
      linarith
  | succ fuel ih =>
    unfold search
    obtain ⟨x1, y1, l, h1, h2, h3, h4⟩ := attempt_spec f κ hf o lp hs st.weight hw st.x st.y lhs hx hy hl s
    rw [h1, Option.bind_some]
    dsimp only
    split
    · exact ⟨_, rfl⟩
    · next hge =>
      have hlpos : 0 < l := lt_of_lt_of_le hL h4
      have hn : 1 ≤ st.attempts + 1 := by omega
      refine ih { st with attempts := st.attempts + 1 } (candidate f (st.attempts + 1) l s) hw hx hy
        (candidate_pos f κ hf _ hn l s hlpos hpos) ?_ ?_
      · have r1 := hf.reduceGe (st.attempts + 1) hn
        have r2 := hf.reduceLt (st.attempts + 1) hn
        have c1 : candidate f (st.attempts + 1) l s ≤ (1 - f.reduce (st.attempts + 1)) * s :=
          le_trans (min_le_left _ _) (mul_le_mul_of_nonneg_left (not_lt.1 hge) (by linarith))
        have c2 : (1 - f.reduce (st.attempts + 1)) * s ≤ (1 - 1 / (((st.attempts + 1 : ℕ) : ℚ) + 1)) * s :=
          mul_le_mul_of_nonneg_right (by linarith) hpos.le
        have hp : (0 : ℚ) < ((st.attempts + 1 : ℕ) : ℚ) + 1 := by positivity
        have c3 : (1 - 1 / (((st.attempts + 1 : ℕ) : ℚ) + 1)) * s * (((st.attempts + 1 : ℕ) : ℚ) + 1) = s * (st.attempts + 1) := by
          have := ne_of_gt hp
          field_simp
          push_cast
          ring
        refine le_trans (mul_le_mul_of_nonneg_right (le_trans c1 c2) hp.le) ?_
        rw [c3]
        exact hQ
      · push_cast at hfuel ⊢
        have : (st.attempts : ℚ) + 1 + 1 + fuel = st.attempts + 1 + (fuel + 1) := by ring
        rw [this]
        exact hfuel

/-- Whatever the fuel, a search that ends gives points within bounds and positive step sizes. -/
theorem search_found (f : Fn) (κ : ℚ) (hf : FnOK f κ) (o : Opt) (ho : OptOK o) (lp : LP) (hs : Sound lp) (lhs : List ℚ)
    (hl : lhs.length = lp.cols) (fuel : ℕ) (st st' : State) (s : ℚ) (hw : 0 < st.weight) (hx : Box lp st.x)
    (hy : DualFeasible lp st.y) (hpos : 0 < s) (h : search f o lp lhs fuel st s = some st') : Found lp st st' := by
  have hL := lowest_pos o ho lp κ hf.pos
  induction fuel generalizing st s with
  | zero => exact absurd h (by simp [search])
  | succ fuel ih =>
    unfold search at h
    obtain ⟨x1, y1, l, h1, h2, h3, h4⟩ := attempt_spec f κ hf o lp hs st.weight hw st.x st.y lhs hx hy hl s
    rw [h1, Option.bind_some] at h
    dsimp only at h
    have hlpos : 0 < l := lt_of_lt_of_le hL h4
    have hc := candidate_pos f κ hf (st.attempts + 1) (by omega) l s hlpos hpos
    split at h
    · rw [← Option.some.inj h]
      exact ⟨h2, h3, hc, hpos, rfl, rfl, rfl, rfl, rfl, rfl, rfl, rfl, rfl, rfl, rfl⟩
    · have := ih { st with attempts := st.attempts + 1 } _ hw hx hy hc h
      exact ⟨this.x, this.y, this.step, this.prev, this.xAvg, this.yAvg, this.xBase, this.yBase, this.total, this.weight,
        this.inner, this.outer, this.iteration, this.info, this.upper⟩

/-! ### The invariant of the loop -/

/-- The point of the loop: both solutions within bounds, positive step sizes and weight, averages within bounds unless just
emptied, and convergence information of some point within bounds. -/
structure Inv (f : Fn) (lp : LP) (st : State) : Prop where
  x : Box lp st.x
  y : DualFeasible lp st.y
  xAvgLen : st.xAvg.length = lp.cols
  xAvg : st.total = 0 ∨ Box lp st.xAvg
  yAvg : DualFeasible lp st.yAvg
  total : 0 ≤ st.total
  step : 0 < st.step
  weight : 0 < st.weight
  info : ∃ x y, Box lp x ∧ DualFeasible lp y ∧ convergence f lp x y = some st.info
  upper : st.upper = upperBound lp

theorem zeros_feasible (lp : LP) (n : ℕ) (hn : n = lp.rows) : DualFeasible lp (List.replicate n 0) := by
  refine ⟨by simp [hn], fun i hi _ => ?_⟩
  rw [← hn] at hi
  simp [List.getD, hi]

theorem convergence_defined (f : Fn) (lp : LP) (hs : Sound lp) (x y : List ℚ) (hx : x.length = lp.cols)
    (hy : y.length = lp.rows) : ∃ i, convergence f lp x y = some i := by
  unfold convergence violation
  rw [dualObjective_eq lp hs y hy, residual_eq lp hs y hy, Option.bind_some,
    linComb_of_rowsOK lp.A hs.A x lp.b (by rw [hs.Acols]; exact hx) (by rw [hs.Arows]; exact hs.b)]
  exact ⟨_, rfl⟩

theorem updateSolution_ends (f : Fn) (κ : ℚ) (hf : FnOK f κ) (o : Opt) (ho : OptOK o) (lp : LP) (hs : Sound lp)
    (st : State) (h : Inv f lp st) : ∃ fuel st', updateSolution f o lp fuel st = some st' := by
  have hL := lowest_pos o ho lp κ hf.pos
  obtain ⟨n, hn⟩ := exists_nat_gt (st.step * (st.attempts + 1) / lowest o lp κ)
  have hfuel : st.step * (st.attempts + 1) < lowest o lp κ * (st.attempts + 1 + n) := by
    rw [div_lt_iff₀ hL] at hn
    have : 0 ≤ lowest o lp κ * ((st.attempts : ℚ) + 1) := by positivity
    nlinarith
  refine ⟨n + 1, ?_⟩
  unfold updateSolution
  rw [dot_eq lp.At hs.At st.y (by rw [hs.Atcols]; exact h.y.1), Option.bind_some]
  exact search_ends f κ hf o ho lp hs _ (by simp [hs.Atrows]) _ n st st.step h.weight h.x h.y h.step (le_refl _) hfuel

theorem updateSolution_found (f : Fn) (κ : ℚ) (hf : FnOK f κ) (o : Opt) (ho : OptOK o) (lp : LP) (hs : Sound lp)
    (st st' : State) (h : Inv f lp st) (fuel : ℕ) (hu : updateSolution f o lp fuel st = some st') : Found lp st st' := by
  unfold updateSolution at hu
  rw [dot_eq lp.At hs.At st.y (by rw [hs.Atcols]; exact h.y.1), Option.bind_some] at hu
  exact search_found f κ hf o ho lp hs _ (by simp [hs.Atrows]) fuel st st' st.step h.weight h.x h.y h.step hu

theorem updateAverage_inv (f : Fn) (lp : LP) (st st1 : State) (h : Inv f lp st) (hfd : Found lp st st1) :
    Inv f lp (updateAverage st1) ∧ 0 < (updateAverage st1).total ∧ Box lp (updateAverage st1).xAvg ∧
      (updateAverage st1).iteration = st.iteration := by
  have ht : 0 ≤ st1.total := by rw [hfd.total]; exact h.total
  have htp : 0 < st1.total + st1.stepPrev := by linarith [hfd.prev]
  have r0 : 0 ≤ st1.stepPrev / (st1.total + st1.stepPrev) := div_nonneg hfd.prev.le htp.le
  have r1 : st1.stepPrev / (st1.total + st1.stepPrev) ≤ 1 := by
    rw [div_le_one htp]; linarith
  have hxa : Box lp (learn (st1.stepPrev / (st1.total + st1.stepPrev)) st1.xAvg st1.x) := by
    rcases h.xAvg with h0 | hb
    · have e : st1.stepPrev / (st1.total + st1.stepPrev) = 1 := by
        rw [hfd.total, h0, zero_add, div_self (ne_of_gt hfd.prev)]
      rw [e, learn_one _ _ (by rw [hfd.xAvg, h.xAvgLen, hfd.x.1])]
      exact hfd.x
    · exact learn_box lp _ r0 r1 _ _ (by rw [hfd.xAvg]; exact hb) hfd.x
  have hya := learn_feasible lp _ r0 r1 st1.yAvg st1.y (by rw [hfd.yAvg]; exact h.yAvg) hfd.y
  refine ⟨⟨hfd.x, hfd.y, hxa.1, Or.inr hxa, hya, htp.le, hfd.step, ?_, ?_, ?_⟩, htp, hxa, hfd.iteration⟩
  · show 0 < st1.weight
    rw [hfd.weight]; exact h.weight
  · show ∃ x y, Box lp x ∧ DualFeasible lp y ∧ convergence f lp x y = some st1.info
    rw [hfd.info]; exact h.info
  · show st1.upper = _
    rw [hfd.upper]; exact h.upper

theorem updateWeight_pos (f : Fn) (κ : ℚ) (hf : FnOK f κ) (st : State) (h : 0 < st.weight) : 0 < updateWeight f st := by
  have he : (0 : ℚ) < EPSILON := by norm_num [EPSILON]
  unfold updateWeight
  dsimp only
  split
  · next hc => exact hf.weight _ _ _ (lt_trans he hc.2.1) (lt_trans he hc.1) h
  · exact h

theorem newInnerLoop_inv (f : Fn) (lp : LP) (st : State) (h : Inv f lp st) : Inv f lp (newInnerLoop st) := by
  unfold newInnerLoop
  dsimp only
  split
  · exact ⟨h.x, h.y, by simp [h.xAvgLen], Or.inl rfl, zeros_feasible lp _ h.yAvg.1, le_refl _, h.step, h.weight, h.info, h.upper⟩
  · exact ⟨h.x, h.y, h.x.1, Or.inr h.x, h.y, by norm_num, h.step, h.weight, h.info, h.upper⟩

theorem newInnerLoop_iteration (st : State) : (newInnerLoop st).iteration = st.iteration := by
  unfold newInnerLoop
  dsimp only
  split <;> rfl

theorem finishIteration_inv (f : Fn) (κ : ℚ) (hf : FnOK f κ) (lp : LP) (d : Option Bool) (st : State) (h : Inv f lp st)
    (hb : Box lp st.xAvg) : Inv f lp (finishIteration f d st) ∧ (finishIteration f d st).iteration = st.iteration := by
  cases d with
  | none => exact ⟨⟨h.x, h.y, h.xAvgLen, h.xAvg, h.yAvg, h.total, h.step, h.weight, h.info, h.upper⟩, rfl⟩
  | some current =>
    cases current with
    | true =>
      refine ⟨newInnerLoop_inv f lp _ ⟨h.x, h.y, h.xAvgLen, h.xAvg, h.yAvg, h.total, h.step, ?_, h.info, h.upper⟩, ?_⟩
      · exact updateWeight_pos f κ hf _ h.weight
      · exact newInnerLoop_iteration _
    | false =>
      refine ⟨newInnerLoop_inv f lp _ ⟨hb, h.yAvg, h.xAvgLen, h.xAvg, h.yAvg, h.total, h.step, ?_, h.info, h.upper⟩, ?_⟩
      · exact updateWeight_pos f κ hf _ h.weight
      · exact newInnerLoop_iteration _

/-- The part of an iteration after the step. -/
def rest (f : Fn) (o : Opt) (plan : Plan) (lp : LP) (st1 : State) : Option State :=
    let st2 := updateAverage st1
    if o.restartInterval = 0 ∨ o.convergenceInterval = 0 ∨ o.logInterval = 0 then none
    else
      let d := restartDecision o plan st2
      (if (st2.iteration : ℤ) % o.convergenceInterval = 0 ∨ (st2.iteration : ℤ) % o.logInterval = 0 then
          (convergence f lp st2.xAvg st2.yAvg).map fun i => { st2 with info := i }
        else some st2).map fun st3 =>
      let st4 := finishIteration f d st3
      { st4 with iteration := st4.iteration + 1 }

theorem iterate_eq (f : Fn) (o : Opt) (plan : Plan) (lp : LP) (fuel : ℕ) (st : State) :
    iterate f o plan lp fuel st = (updateSolution f o lp fuel st).bind (rest f o plan lp) := rfl

theorem rest_inv (f : Fn) (κ : ℚ) (hf : FnOK f κ) (o : Opt) (ho : OptOK o) (plan : Plan) (lp : LP) (hs : Sound lp)
    (st st1 : State) (h : Inv f lp st) (hfd : Found lp st st1) :
    ∃ st', rest f o plan lp st1 = some st' ∧ Inv f lp st' ∧ st'.iteration = st.iteration + 1 := by
  obtain ⟨i2, t2, b2, n2⟩ := updateAverage_inv f lp st st1 h hfd
  unfold rest
  dsimp only
  rw [if_neg (by simp [ho.restart, ho.convergence, ho.log])]
  generalize updateAverage st1 = st2 at *
  have key : ∀ st3 : State, Inv f lp st3 → Box lp st3.xAvg → st3.iteration = st.iteration → ∀ d, ∃ st',
      some { finishIteration f d st3 with iteration := (finishIteration f d st3).iteration + 1 } = some st' ∧
      Inv f lp st' ∧ st'.iteration = st.iteration + 1 := by
    intro st3 i3 b3 n3 d
    obtain ⟨i4, n4⟩ := finishIteration_inv f κ hf lp d st3 i3 b3
    exact ⟨_, rfl, ⟨i4.x, i4.y, i4.xAvgLen, i4.xAvg, i4.yAvg, i4.total, i4.step, i4.weight, i4.info, i4.upper⟩,
      by dsimp only; rw [n4, n3]⟩
  split
  · obtain ⟨i, hi⟩ := convergence_defined f lp hs st2.xAvg st2.yAvg b2.1 i2.yAvg.1
    rw [hi]
    exact key { st2 with info := i } ⟨i2.x, i2.y, i2.xAvgLen, i2.xAvg, i2.yAvg, i2.total, i2.step, i2.weight,
      ⟨_, _, b2, i2.yAvg, hi⟩, i2.upper⟩ b2 n2 _
  · exact key st2 i2 b2 n2 _

/-- An iteration that is defined keeps the invariant. -/
theorem iterate_inv (f : Fn) (κ : ℚ) (hf : FnOK f κ) (o : Opt) (ho : OptOK o) (plan : Plan) (lp : LP) (hs : Sound lp)
    (st st' : State) (h : Inv f lp st) (fuel : ℕ) (hit : iterate f o plan lp fuel st = some st') :
    Inv f lp st' ∧ st'.iteration = st.iteration + 1 := by
  rw [iterate_eq] at hit
  obtain ⟨st1, h1, h2⟩ := Option.bind_eq_some_iff.1 hit
  obtain ⟨st2, e1, e2, e3⟩ := rest_inv f κ hf o ho plan lp hs st st1 h (updateSolution_found f κ hf o ho lp hs st st1 h fuel h1)
  rw [e1] at h2
  rw [← Option.some.inj h2]
  exact ⟨e2, e3⟩

theorem iterate_ends (f : Fn) (κ : ℚ) (hf : FnOK f κ) (o : Opt) (ho : OptOK o) (plan : Plan) (lp : LP) (hs : Sound lp)
    (st : State) (h : Inv f lp st) : ∃ fuel st', iterate f o plan lp fuel st = some st' := by
  obtain ⟨fuel, st1, h1⟩ := updateSolution_ends f κ hf o ho lp hs st h
  obtain ⟨st2, e1, -⟩ := rest_inv f κ hf o ho plan lp hs st st1 h (updateSolution_found f κ hf o ho lp hs st st1 h fuel h1)
  exact ⟨fuel, st2, by rw [iterate_eq, h1, Option.bind_some, e1]⟩

theorem normInfty_nonneg (m : Matrix) : 0 ≤ normInfty m := by
  unfold normInfty
  have : ∀ (es : List Entry) (a : ℚ), 0 ≤ a → 0 ≤ es.foldl (fun n e => max n |e.value|) a := by
    intro es
    induction es with
    | nil => intro a h; exact h
    | cons e es ih => intro a h; exact ih _ (le_trans h (le_max_left _ _))
  exact this _ _ (le_refl _)

theorem initialWeight_pos (f : Fn) (lp : LP) : 0 < initialWeight f lp := by
  have he : (0 : ℚ) < EPSILON := by norm_num [EPSILON]
  unfold initialWeight
  split
  · next h => exact div_pos (lt_trans he h.1) (lt_trans he h.2)
  · norm_num

theorem start_inv (f : Fn) (lp : LP) (hs : Sound lp) (x0 : List ℚ) (hx : Box lp x0) (hn : normInfty lp.A ≠ 0) :
    ∃ st, start f lp x0 = some st ∧ Inv f lp st ∧ st.iteration = 0 := by
  have hz := zeros_feasible lp lp.rows rfl
  obtain ⟨i, hi⟩ := convergence_defined f lp hs x0 _ hx.1 hz.1
  have hpos : 0 < normInfty lp.A := lt_of_le_of_ne (normInfty_nonneg _) (Ne.symm hn)
  unfold start
  rw [if_neg hn]
  dsimp only
  rw [hi]
  refine ⟨_, rfl, ?_, rfl⟩
  have := newInnerLoop_inv f lp
    { x := x0, y := List.replicate lp.rows 0, xAvg := x0, yAvg := List.replicate lp.rows 0, xBase := List.replicate lp.cols 0
      yBase := List.replicate lp.rows 0
      step := 1 / normInfty lp.A, stepPrev := 1 / normInfty lp.A, total := 0, weight := initialWeight f lp
      attempts := 0, inner := 0, outer := 0, iteration := 0, info := i, upper := upperBound lp }
    ⟨hx, hz, hx.1, Or.inl rfl, hz, le_refl _, by dsimp only; positivity, initialWeight_pos f lp, ⟨_, _, hx, hz, hi⟩, rfl⟩
  exact ⟨this.x, this.y, this.xAvgLen, this.xAvg, this.yAvg, this.total, this.step, this.weight, this.info, this.upper⟩

/-- The loop reads the fuel of the iterations from its own on only. -/
theorem loop_congr (f : Fn) (o : Opt) (ho : OptOK o) (κ : ℚ) (hf : FnOK f κ) (plan : Plan) (lp : LP) (hs : Sound lp) (clock : ℕ → ℚ)
    (a b : ℕ → ℕ) (fuel : ℕ) (st : State) (h : Inv f lp st) (hab : ∀ n, st.iteration ≤ n → a n = b n) :
    loop f o plan lp clock a fuel st = loop f o plan lp clock b fuel st := by
  induction fuel generalizing st with
  | zero => rfl
  | succ fuel ih =>
    unfold loop
    cases test o (clock st.iteration) st with
    | some v => rfl
    | none =>
      dsimp only
      rw [hab st.iteration (le_refl _)]
      cases hit : iterate f o plan lp (b st.iteration) st with
      | none => rfl
      | some st' =>
        obtain ⟨i', n'⟩ := iterate_inv f κ hf o ho plan lp hs st st' h _ hit
        exact ih st' i' fun n hn => hab n (by omega)

theorem loop_ends (f : Fn) (κ : ℚ) (hf : FnOK f κ) (o : Opt) (ho : OptOK o) (plan : Plan) (lp : LP) (hs : Sound lp)
    (clock : ℕ → ℚ) (fuel : ℕ) (st : State) (h : Inv f lp st) (hfuel : o.iterationMax.toNat ≤ st.iteration + fuel) :
    ∃ a r, loop f o plan lp clock a (fuel + 1) st = some r := by
  induction fuel generalizing st with
  | zero =>
    cases ht : test o (clock st.iteration) st with
    | some v => exact ⟨fun _ => 0, (v, st), by unfold loop; rw [ht]⟩
    | none =>
      unfold test at ht
      split at ht
      · exact absurd ht (by simp)
      split at ht
      · exact absurd ht (by simp)
      · next hlt => exact absurd (not_le.1 hlt) (by omega)
  | succ fuel ih =>
    cases ht : test o (clock st.iteration) st with
    | some v => exact ⟨fun _ => 0, (v, st), by unfold loop; rw [ht]⟩
    | none =>
      obtain ⟨k, st', hit⟩ := iterate_ends f κ hf o ho plan lp hs st h
      obtain ⟨i', n'⟩ := iterate_inv f κ hf o ho plan lp hs st st' h k hit
      obtain ⟨a, r, hr⟩ := ih st' i' (by omega)
      refine ⟨fun n => if n = st.iteration then k else a n, r, ?_⟩
      unfold loop
      rw [ht]
      dsimp only
      rw [if_pos rfl, hit, Option.bind_some, ← hr]
      exact loop_congr f o ho κ hf plan lp hs clock _ a (fuel + 1) st' i' fun n hn => if_neg (by omega)

theorem loop_inv (f : Fn) (κ : ℚ) (hf : FnOK f κ) (o : Opt) (ho : OptOK o) (plan : Plan) (lp : LP) (hs : Sound lp)
    (clock : ℕ → ℚ) (a : ℕ → ℕ) (fuel : ℕ) (st : State) (h : Inv f lp st) (r : Verdict × State)
    (hr : loop f o plan lp clock a fuel st = some r) :
    Inv f lp r.2 ∧ test o (clock r.2.iteration) r.2 = some r.1 ∧ st.iteration ≤ r.2.iteration ∧
      r.2.iteration ≤ max st.iteration o.iterationMax.toNat := by
  induction fuel generalizing st with
  | zero => exact absurd hr (by simp [loop])
  | succ fuel ih =>
    unfold loop at hr
    cases ht : test o (clock st.iteration) st with
    | some v =>
      rw [ht] at hr
      rw [← Option.some.inj hr]
      exact ⟨h, ht, le_refl _, le_max_left _ _⟩
    | none =>
      rw [ht] at hr
      obtain ⟨st', hit, hl⟩ := Option.bind_eq_some_iff.1 hr
      obtain ⟨i', n'⟩ := iterate_inv f κ hf o ho plan lp hs st st' h _ hit
      obtain ⟨j1, j2, j3, j4⟩ := ih st' i' hl
      refine ⟨j1, j2, by omega, ?_⟩
      have : (st.iteration : ℤ) < o.iterationMax := by
        unfold test at ht
        split at ht
        · exact absurd ht (by simp)
        split at ht
        · exact absurd ht (by simp)
        · next hlt => exact not_le.1 hlt
      have : st'.iteration ≤ o.iterationMax.toNat := by omega
      rw [max_eq_right this] at j4
      exact le_trans j4 (le_max_right _ _)

end Printemps.Pdlp
