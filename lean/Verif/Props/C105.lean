import Verif.Model.Gap
import Verif.Lemmas.Pdlp

/-! # C105 — what the normalized gap of PDLP measures

The gap decides when the solver of the relaxation restarts and from which point.  It should tell how far a point is from a
solution: never be negative, be zero at solutions and only there. -/

namespace Printemps.C105
open Lp Sparse Spec Pdlp

/-! ## Specification -/

/-- The column cannot improve the Lagrangian: no reduced cost, or at the bound the reduced cost pushes to. -/
def ColumnSettled (lp : LP) (x : List ℚ) (y : List ℚ) (j : ℕ) : Prop :=
  let r := lp.c.getD j 0 - ∑ i ∈ Finset.range lp.rows, LP.coef lp i j * y.getD i 0
  r = 0 ∨ (r < 0 ∧ lp.ub.getD j 0 ≤ x.getD j 0) ∨ (0 < r ∧ x.getD j 0 ≤ lp.lb.getD j 0)

/-- By how much a point falls short of the right hand side of a row; negative: by how much it exceeds it. -/
def shortfall (lp : LP) (x : List ℚ) (i : ℕ) : ℚ := lp.b.getD i 0 - mulVec (LP.coef lp) lp.cols (fun j => x.getD j 0) i

/-- A solution of the LP together with multipliers: feasible, and both complementarity conditions hold. -/
structure Solves (lp : LP) (x y : List ℚ) : Prop where
  primal : PrimalFeasible lp fun j => x.getD j 0
  dual : DualFeasible lp y
  columns : ∀ j < lp.cols, ColumnSettled lp x y j
  rows : ∀ i < lp.rows, y.getD i 0 * shortfall lp x i = 0

/-! ## Proof -/

/-- The direction of a column. -/
def dirX (w : ℚ) (lp : LP) (x y : List ℚ) (j : ℕ) : ℚ :=
  columnDirection w (lp.lb.getD j 0) (lp.ub.getD j 0) (x.getD j 0) (costOf lp y j)

/-- The direction of a row. -/
def dirY (w : ℚ) (lp : LP) (x : List ℚ) (i : ℕ) : ℚ := rowDirection w (shortfall lp x i)

/-- The norm of the directions. -/
def dirNorm (f : Fn) (w : ℚ) (lp : LP) (x y : List ℚ) : ℚ :=
  weightedNorm f w ((List.range lp.cols).map (dirX w lp x y)) ((List.range lp.rows).map (dirY w lp x))

theorem getD_range (n : ℕ) (g : ℕ → ℚ) (i : ℕ) (hi : i < n) : ((List.range n).map g).getD i 0 = g i := by
  simp [List.getD, hi]

theorem inner_range (l : List ℚ) (n : ℕ) (g : ℕ → ℚ) (h : l.length = n) :
    inner l ((List.range n).map g) = ∑ i ∈ Finset.range n, l.getD i 0 * g i := by
  rw [inner_eq l _ n h (by simp)]
  exact Finset.sum_congr rfl fun i hi => by rw [getD_range n g i (Finset.mem_range.1 hi)]

theorem sum_range_list (l : List ℚ) (n : ℕ) (g : ℕ → ℚ) (h : l.length = n) :
    List.zipWith (· + ·) l ((List.range n).map g) = (List.range n).map fun i => l.getD i 0 + g i := by
  conv_lhs => rw [eq_map_range l, h]
  exact zipWith_range n _ _ _

/-- The gap is the rate at which the Lagrangian changes in the directions. -/
theorem gap_eq (f : Fn) (w : ℚ) (lp : LP) (hs : Sound lp) (x y : List ℚ) (radius : ℚ) (hx : x.length = lp.cols)
    (hy : y.length = lp.rows) :
    normalizedGap f w lp x y radius = some (if dirNorm f w lp x y < 1 / 10000000000 then 0
      else (∑ j ∈ Finset.range lp.cols, -costOf lp y j * (dirX w lp x y j / (dirNorm f w lp x y * radius)) +
        ∑ i ∈ Finset.range lp.rows, shortfall lp x i * (dirY w lp x i / (dirNorm f w lp x y * radius))) / radius) := by
  unfold normalizedGap
  have hry : linearCombination (-1) lp.A x 1 lp.b = some ((List.range lp.rows).map (shortfall lp x)) := by
    rw [linComb_of_rowsOK lp.A hs.A x lp.b (by rw [hx, hs.Acols]) (by rw [hs.b, hs.Arows]), hs.Arows, hs.Acols]
    congr 1
    refine List.map_congr_left fun i _ => ?_
    unfold shortfall
    rw [one_mul]
    show _ + -1 * mulVec (LP.coef lp) lp.cols _ i = _
    ring
  rw [rawCosts_eq lp hs y hy, hry]
  simp only [Option.bind_eq_bind, Option.bind_some, mapIdx_range, List.map_map]
  have e1 : ((List.range lp.rows).map (rowDirection w ∘ shortfall lp x)) = (List.range lp.rows).map (dirY w lp x) := rfl
  have e2 : ((List.range lp.cols).map fun j => columnDirection w (lp.lb.getD j 0) (lp.ub.getD j 0) (x.getD j 0) (costOf lp y j)) =
      (List.range lp.cols).map (dirX w lp x y) := rfl
  rw [e1, e2]
  have e0 : weightedNorm f w ((List.range lp.cols).map (dirX w lp x y)) ((List.range lp.rows).map (dirY w lp x)) =
      dirNorm f w lp x y := rfl
  rw [e0]
  generalize dirNorm f w lp x y = n
  split
  · rfl
  · have e3 : ((fun v : ℚ => v / (n * radius)) ∘ (fun j => columnDirection w (lp.lb.getD j 0) (lp.ub.getD j 0) (x.getD j 0)
        (costOf lp y j))) = fun j => dirX w lp x y j / (n * radius) := rfl
    have e4 : (((fun v : ℚ => v / (n * radius)) ∘ rowDirection w) ∘ shortfall lp x) = fun i => dirY w lp x i / (n * radius) := rfl
    obtain ⟨gx, hgx⟩ : ∃ gx : ℕ → ℚ, ∀ j, dirX w lp x y j / (n * radius) = gx j := ⟨_, fun _ => rfl⟩
    obtain ⟨gy, hgy⟩ : ∃ gy : ℕ → ℚ, ∀ i, dirY w lp x i / (n * radius) = gy i := ⟨_, fun _ => rfl⟩
    rw [e3, e4]
    simp only [hgx, hgy]
    rw [sum_range_list y lp.rows gy hy, sum_range_list x lp.cols gx hx,
      dot_eq lp.At hs.At _ (by rw [hs.Atcols]; simp), Option.bind_some, dot_eq lp.A hs.A _ (by rw [hs.Acols]; simp),
      Option.bind_some, hs.Atrows, hs.Atcols, hs.Arows, hs.Acols, inner_range _ _ _ hs.c, inner_range _ _ _ hs.b,
      inner_range _ _ _ hx, inner_range _ _ _ hy]
    congr 2
    have a1 : ∑ j ∈ Finset.range lp.cols, x.getD j 0 * mulVec (toMatrix lp.At.entries) lp.rows
        (fun k => ((List.range lp.rows).map fun i => y.getD i 0 + gy i).getD k 0) j =
        ∑ j ∈ Finset.range lp.cols, ∑ i ∈ Finset.range lp.rows, (LP.coef lp i j * x.getD j 0 * y.getD i 0 +
          LP.coef lp i j * x.getD j 0 * gy i) := by
      refine Finset.sum_congr rfl fun j _ => ?_
      unfold mulVec
      rw [Finset.mul_sum]
      refine Finset.sum_congr rfl fun i hi => ?_
      dsimp only
      rw [getD_range _ _ _ (Finset.mem_range.1 hi), hs.transpose, ← coef_eq]
      ring
    have a2 : ∑ i ∈ Finset.range lp.rows, y.getD i 0 * mulVec (toMatrix lp.A.entries) lp.cols
        (fun k => ((List.range lp.cols).map fun j => x.getD j 0 + gx j).getD k 0) i =
        ∑ j ∈ Finset.range lp.cols, ∑ i ∈ Finset.range lp.rows, (LP.coef lp i j * x.getD j 0 * y.getD i 0 +
          LP.coef lp i j * y.getD i 0 * gx j) := by
      rw [Finset.sum_comm]
      refine Finset.sum_congr rfl fun i _ => ?_
      unfold mulVec
      rw [Finset.mul_sum]
      refine Finset.sum_congr rfl fun j hj => ?_
      dsimp only
      rw [getD_range _ _ _ (Finset.mem_range.1 hj), ← coef_eq]
      ring
    have a3 : ∑ j ∈ Finset.range lp.cols, -costOf lp y j * gx j = -∑ j ∈ Finset.range lp.cols, lp.c.getD j 0 * gx j +
        ∑ j ∈ Finset.range lp.cols, ∑ i ∈ Finset.range lp.rows, LP.coef lp i j * y.getD i 0 * gx j := by
      rw [← Finset.sum_neg_distrib, ← Finset.sum_add_distrib]
      refine Finset.sum_congr rfl fun j _ => ?_
      unfold costOf
      rw [← Finset.sum_mul]
      ring
    have a4 : ∑ i ∈ Finset.range lp.rows, shortfall lp x i * gy i = ∑ i ∈ Finset.range lp.rows, lp.b.getD i 0 * gy i -
        ∑ j ∈ Finset.range lp.cols, ∑ i ∈ Finset.range lp.rows, LP.coef lp i j * x.getD j 0 * gy i := by
      rw [Finset.sum_comm, ← Finset.sum_sub_distrib]
      refine Finset.sum_congr rfl fun i _ => ?_
      unfold shortfall mulVec
      rw [← Finset.sum_mul]
      ring
    rw [a1, a2, a3, a4]
    simp only [Finset.sum_add_distrib]
    ring

/-- **The gap is never negative**, for every LP, every point and all multipliers. -/
theorem gap_never_negative (f : Fn) (w : ℚ) (hw : 0 < w) (lp : LP) (hs : Sound lp) (x y : List ℚ) (radius : ℚ)
    (hr : 0 < radius) (hx : x.length = lp.cols) (hy : y.length = lp.rows) :
    ∃ g, normalizedGap f w lp x y radius = some g ∧ 0 ≤ g := by
  refine ⟨_, gap_eq f w lp hs x y radius hx hy, ?_⟩
  split
  · exact le_refl _
  · next hn =>
    have hn' : 0 < dirNorm f w lp x y * radius := mul_pos (lt_of_lt_of_le (by norm_num) (not_lt.1 hn)) hr
    refine div_nonneg (add_nonneg (Finset.sum_nonneg fun j _ => ?_) (Finset.sum_nonneg fun i _ => ?_)) hr.le
    · rw [← mul_div_assoc]
      refine div_nonneg ?_ hn'.le
      unfold dirX columnDirection
      split
      · simp
      split
      · simp
      · nlinarith [mul_nonneg (mul_self_nonneg (costOf lp y j)) hw.le]
    · rw [← mul_div_assoc]
      refine div_nonneg ?_ hn'.le
      unfold dirY rowDirection
      split
      · simp
      · rw [← mul_div_assoc]
        exact div_nonneg (mul_self_nonneg _) hw.le

/-- **The gap is zero** at solutions none of whose rows exceeds its right hand side.  Missing: solutions with a row that is not
tight (`positive_at_a_solution`). -/
theorem zero_at_solutions_partial (f : Fn) (hf : f.sqrtf 0 = 0) (w : ℚ) (lp : LP) (hs : Sound lp) (x y : List ℚ) (radius : ℚ)
    (hx : x.length = lp.cols) (h : Solves lp x y) (ht : ∀ i < lp.rows, 0 ≤ shortfall lp x i) :
    normalizedGap f w lp x y radius = some 0 := by
  rw [gap_eq f w lp hs x y radius hx h.dual.1]
  have e1 : (List.range lp.cols).map (dirX w lp x y) = (List.range lp.cols).map fun _ => 0 := by
    refine List.map_congr_left fun j hj => ?_
    have hc := h.columns j (List.mem_range.1 hj)
    change costOf lp y j = 0 ∨ (costOf lp y j < 0 ∧ _) ∨ (0 < costOf lp y j ∧ _) at hc
    unfold dirX columnDirection
    rcases hc with hc | ⟨hc, hb⟩ | ⟨hc, hb⟩
    · rw [hc]; simp
    · rw [if_pos ⟨hb, hc.le⟩]
    · split
      · rfl
      · rw [if_pos ⟨hb, hc.le⟩]
  have e2 : (List.range lp.rows).map (dirY w lp x) = (List.range lp.rows).map fun _ => 0 := by
    refine List.map_congr_left fun i hi => ?_
    unfold dirY rowDirection
    rw [if_pos (ht i (List.mem_range.1 hi))]
  have z : ∀ n, norm f ((List.range n).map fun _ => (0 : ℚ)) = 0 := fun n => by
    unfold norm
    rw [inner_range _ n _ (by simp)]
    simp [hf]
  have e3 : dirNorm f w lp x y = 0 := by
    unfold dirNorm weightedNorm
    rw [e1, e2, z, z]
    simp [hf]
  rw [e3, if_pos (by norm_num)]

/-! ## Where the gap misleads: `x ≥ 1` with `0 ≤ x ≤ 5` and no objective -/

/-- the matrix with the single coefficient 1 -/
def one : Matrix := ⟨[⟨0, 0, 1⟩], fun i => i, fun _ => 1, fun _ => 1, 1, 1⟩
/-- the LP -/
def small : LP :=
  ⟨1, 1, 0, [0], [0], [5], one, [false], [false], [1], [some 0], one, (0, 0), (0, 0), (0, 1), true⟩
/-- functions that are right where they are used: the square roots of 0 and 1 -/
def fn : Fn := ⟨fun q => q, fun _ _ w => w, fun _ => 0, fun _ => 0⟩

theorem one_rowsOK : RowsOK one := by
  refine ⟨by decide, by decide, fun i hi => ?_⟩
  have : i = 0 ∨ i = 1 := by
    have : i ≤ 1 := hi
    omega
  rcases this with rfl | rfl <;> decide

theorem small_sound : Sound small where
  rowsPos := by decide
  colsPos := by decide
  A := one_rowsOK
  Arows := rfl
  Acols := rfl
  At := one_rowsOK
  Atrows := rfl
  Atcols := rfl
  transpose := fun i j => by simp [small, one, toMatrix, matrixOf, List.filter_cons, Entry.triple, and_comm]
  c := rfl
  lb := rfl
  ub := rfl
  b := rfl
  dualLen := rfl
  dualLb := fun i hi => by
    have : i = 0 := by
      have : i < 1 := hi
      omega
    subst this
    decide

theorem small_coef : LP.coef small 0 0 = 1 := by decide +kernel

theorem small_row (x : List ℚ) : mulVec (LP.coef small) small.cols (fun j => x.getD j 0) 0 = x.getD 0 0 := by
  have : small.cols = 1 := rfl
  simp [mulVec, this, small_coef]

theorem small_solves (a : ℚ) (h1 : 1 ≤ a) (h5 : a ≤ 5) : Solves small [a] [0] where
  primal := by
    refine ⟨fun j hj => ?_, fun i _ _ h => ?_, fun i hi _ => ?_⟩
    · have : j = 0 := by
        have : j < 1 := hj
        omega
      subst this
      exact ⟨by show (0 : ℚ) ≤ a; linarith, h5⟩
    · exact absurd h (by show ¬ i < 0; omega)
    · have : i = 0 := by
        have : i < 1 := hi
        omega
      subst this
      rw [small_row]
      exact h1
  dual := ⟨rfl, fun i hi _ => by
    have : i = 0 := by
      have : i < 1 := hi
      omega
    subst this
    exact le_refl _⟩
  columns := fun j hj => by
    have : j = 0 := by
      have : j < 1 := hj
      omega
    subst this
    left
    simp [small]
  rows := fun i hi => by
    have : i = 0 := by
      have : i < 1 := hi
      omega
    subst this
    show 0 * _ = (0 : ℚ)
    ring

/-- Finding: the gap is **zero at a point that violates a row**: shortfalls of rows are not counted. -/
theorem zero_at_an_infeasible_point : normalizedGap fn 1 small [0] [0] 1 = some 0 ∧
    ¬ PrimalFeasible small (fun j => ([0] : List ℚ).getD j 0) := by
  refine ⟨by decide +kernel, fun h => ?_⟩
  have := h.atLeast 0 (by decide) (Or.inr (by decide))
  rw [small_row [0]] at this
  exact absurd this (by show ¬ (1 : ℚ) ≤ 0; norm_num)

/-- Finding: the gap is **positive at a solution** one of whose rows is not tight. -/
theorem positive_at_a_solution : Solves small [2] [0] ∧ normalizedGap fn 1 small [2] [0] 1 = some 1 :=
  ⟨small_solves 2 (by norm_num) (by norm_num), by decide +kernel⟩

/-- hypotheses of the theorems: the LP is consistent, its tight solution has no gap, the gap of another point is positive -/
example : Sound small ∧ normalizedGap fn 1 small [1] [0] 1 = some 0 ∧ normalizedGap fn 1 small [3] [1] 1 ≠ some 0 :=
  ⟨small_sound, zero_at_solutions_partial fn rfl 1 small small_sound [1] [0] 1 rfl (small_solves 1 (by norm_num) (by norm_num))
    (fun i hi => by
      have : i = 0 := by
        have : i < 1 := hi
        omega
      subst this
      unfold shortfall
      rw [small_row]
      show (0 : ℚ) ≤ 1 - 1
      norm_num), by decide +kernel⟩

end Printemps.C105
