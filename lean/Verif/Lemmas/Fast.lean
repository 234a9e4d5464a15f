import Verif.Lemmas.Update

/-! Fast evaluation paths. -/

namespace Printemps
open Spec

/-! ### numeric facts -/

theorem max_zero_lipschitz (x y : ℚ) : |max y 0 - max x 0| ≤ |y - x| := by
  rcases le_total x 0 with h | h <;> rcases le_total y 0 with h' | h' <;>
    simp only [max_eq_left, max_eq_right, h, h', sub_zero, zero_sub, abs_neg, sub_self, abs_zero,
      abs_nonneg, le_refl]
  · rw [abs_of_nonneg h', abs_of_nonneg (by linarith)]; linarith
  · rw [abs_of_nonneg h, abs_of_nonpos (by linarith)]; linarith

theorem tvPart_lipschitz (k : Con) (x y : ℚ) : |k.tvPart y - k.tvPart x| ≤ |y - x| := by
  rw [← Con.gap_eq_tvPart, ← Con.gap_eq_tvPart]
  cases k.sense <;> simp only [cmpOf, Cmp.gap, sub_zero, zero_sub]
  · exact max_zero_lipschitz x y
  · exact abs_abs_sub_abs_le_abs_sub y x
  · refine (max_zero_lipschitz (-x) (-y)).trans ?_
    rw [← abs_neg]; apply le_of_eq; congr 1; ring

/-- excess/shortage change of a restricted direction when a constraint with margin is skipped -/
theorem part_skip (x y M tol : ℚ) (ht : 0 ≤ tol) (hy : |y - x| ≤ M) (hs : max (-x) 0 ≥ M - tol) :
    |max y 0 - max x 0| ≤ tol := by
  have h1 := max_zero_lipschitz x y
  by_cases hM : M ≤ tol
  · linarith
  · have : -x ≥ M - tol := by
      rcases le_total (-x) 0 with h | h
      · rw [max_eq_right h] at hs; linarith
      · rw [max_eq_left h] at hs; exact hs
    have hx : x ≤ 0 := by linarith
    have hyt : y ≤ tol := by have := le_abs_self (y - x); linarith
    rw [max_eq_right hx, sub_zero, abs_of_nonneg (le_max_right _ _)]
    exact max_le hyt ht

theorem tvPart_skip (k : Con) (x y M tol : ℚ) (ht : 0 ≤ tol) (hy : |y - x| ≤ M)
    (hs : (cmpOf k.sense).slack x 0 ≥ M - tol) : |k.tvPart y - k.tvPart x| ≤ tol := by
  rw [← Con.gap_eq_tvPart, ← Con.gap_eq_tvPart]
  cases h : k.sense <;> rw [h] at hs <;> simp only [cmpOf, Cmp.gap, Cmp.slack, sub_zero, zero_sub] at *
  · exact part_skip x y M tol ht hy hs
  · exact (abs_abs_sub_abs_le_abs_sub y x).trans (by linarith)
  · refine part_skip (-x) (-y) M tol ht ?_ (by simpa using hs)
    rw [← abs_neg]; convert hy using 2; ring

theorem lpPart_skip (k : Con) (x y M tol : ℚ) (ht : 0 ≤ tol) (hy : |y - x| ≤ M)
    (hs : (cmpOf k.sense).slack x 0 ≥ M - tol) (h1 : 0 ≤ k.penLess) (h2 : 0 ≤ k.penGreater) :
    |k.lpPart y - k.lpPart x| ≤ tol * (k.penLess + k.penGreater) := by
  have hy' : |(-y) - (-x)| ≤ M := by rw [← abs_neg]; convert hy using 2; ring
  unfold Con.lpPart Con.isLe Con.isGe
  cases h : k.sense <;> rw [h] at hs <;> simp only [cmpOf, Cmp.slack, sub_zero, zero_sub] at hs <;> simp only [bne_self_eq_false, Bool.false_eq_true, if_false, reduceCtorEq, bne_iff_ne, ne_eq, not_false_eq_true, if_true, add_zero, zero_add]
  · rw [← sub_mul, abs_mul, abs_of_nonneg h1]
    have := part_skip x y M tol ht hy hs
    nlinarith [mul_nonneg ht h2, mul_le_mul_of_nonneg_right this h1]
  · have a := (max_zero_lipschitz x y).trans (show _ ≤ tol by linarith)
    have b := (max_zero_lipschitz (-x) (-y)).trans (show _ ≤ tol by linarith)
    have e : max y 0 * k.penLess + max (-y) 0 * k.penGreater - (max x 0 * k.penLess + max (-x) 0 * k.penGreater)
      = (max y 0 - max x 0) * k.penLess + (max (-y) 0 - max (-x) 0) * k.penGreater := by ring
    rw [e]
    refine (abs_add_le _ _).trans ?_
    rw [abs_mul, abs_mul, abs_of_nonneg h1, abs_of_nonneg h2, mul_add]
    exact add_le_add (mul_le_mul_of_nonneg_right a h1) (mul_le_mul_of_nonneg_right b h2)
  · rw [← sub_mul, abs_mul, abs_of_nonneg h2]
    have := part_skip (-x) (-y) M tol ht hy' (by simpa using hs)
    nlinarith [mul_nonneg ht h1, mul_le_mul_of_nonneg_right this h2]

theorem lpPart_lipschitz (k : Con) (x y : ℚ) (h1 : 0 ≤ k.penLess) (h2 : 0 ≤ k.penGreater) :
    |k.lpPart y - k.lpPart x| ≤ |y - x| * (k.penLess + k.penGreater) := by
  have a := max_zero_lipschitz x y
  have b := max_zero_lipschitz (-x) (-y)
  have hb : |(-y) - (-x)| = |y - x| := by rw [← abs_neg]; congr 1; ring
  rw [hb] at b
  have e1 := mul_le_mul_of_nonneg_right a h1
  have e2 := mul_le_mul_of_nonneg_right b h2
  have n1 := mul_nonneg (abs_nonneg (y - x)) h1
  have n2 := mul_nonneg (abs_nonneg (y - x)) h2
  unfold Con.lpPart Con.isLe Con.isGe
  cases k.sense <;> simp only [bne_self_eq_false, Bool.false_eq_true, if_false, reduceCtorEq, bne_iff_ne, ne_eq, not_false_eq_true, if_true, add_zero, zero_add, mul_add]
  · rw [← sub_mul, abs_mul, abs_of_nonneg h1]; linarith
  · have e : max y 0 * k.penLess + max (-y) 0 * k.penGreater - (max x 0 * k.penLess + max (-x) 0 * k.penGreater)
      = (max y 0 - max x 0) * k.penLess + (max (-y) 0 - max (-x) 0) * k.penGreater := by ring
    rw [e]
    refine (abs_add_le _ _).trans ?_
    rw [abs_mul, abs_mul, abs_of_nonneg h1, abs_of_nonneg h2]
    linarith
  · rw [← sub_mul, abs_mul, abs_of_nonneg h2]; linarith

/-! ### difference of totals as a sum over touched constraints -/

namespace MState

/-- change of the violation of constraint `c` (0 when disabled) -/
def dTV (m : MState) (σ τ : ℕ → ℤ) (c : ℕ) : ℚ :=
  if (m.con c).enabled then Spec.violation (m.con c) τ - Spec.violation (m.con c) σ else 0

/-- change of the penalty of constraint `c` (0 when disabled) -/
def dLP (m : MState) (σ τ : ℕ → ℤ) (c : ℕ) : ℚ :=
  if (m.con c).enabled then Spec.penalty (m.con c) τ - Spec.penalty (m.con c) σ else 0

theorem totalViolation_diff (m : MState) (σ τ) :
    totalViolation m τ - totalViolation m σ = (m.conIds.map (m.dTV σ τ)).sum := by
  rw [totalViolation_eq, totalViolation_eq, ← sum_map_sub]
  refine sum_map_congr _ _ _ fun c _ => ?_
  unfold dTV; split <;> simp

theorem localPenalty_diff (m : MState) (σ τ) :
    localPenalty m τ - localPenalty m σ = (m.conIds.map (m.dLP σ τ)).sum := by
  rw [localPenalty_eq, localPenalty_eq, ← sum_map_sub]
  refine sum_map_congr _ _ _ fun c _ => ?_
  unfold dLP; split <;> simp

theorem d_zero_of_untouched (m : MState) (σ) (alts : List (ℕ × ℤ)) (c)
    (h : ¬ ∃ a ∈ alts, a.1 ∈ (m.con c).expr.terms.map Prod.fst) :
    m.dTV σ (applyMove σ alts) c = 0 ∧ m.dLP σ (applyMove σ alts) c = 0 := by
  have e := exprValue_applyMove_of_disjoint (m.con c).expr σ alts h
  simp [dTV, dLP, Spec.violation, Spec.penalty, e]

/-- per-pair contribution of the sensitivity loop -/
def sensTV (m : MState) (skip : Con → Bool) (d : ℤ) (s : ConId × ℚ) : ℚ :=
  if skip (m.con s.1) then 0 else
    (if (m.con s.1).isLe then max ((m.con s.1).value + s.2 * (d : ℚ)) 0 - (m.con s.1).pos else 0)
    + (if (m.con s.1).isGe then -(min ((m.con s.1).value + s.2 * (d : ℚ)) 0 + (m.con s.1).neg) else 0)
/-- per-pair penalty contribution of the sensitivity loop -/
def sensLP (m : MState) (skip : Con → Bool) (d : ℤ) (s : ConId × ℚ) : ℚ :=
  if skip (m.con s.1) then 0 else
    (if (m.con s.1).isLe then (max ((m.con s.1).value + s.2 * (d : ℚ)) 0 - (m.con s.1).pos) * (m.con s.1).penLess else 0)
    + (if (m.con s.1).isGe then -((min ((m.con s.1).value + s.2 * (d : ℚ)) 0 + (m.con s.1).neg) * (m.con s.1).penGreater) else 0)

theorem evalSensStep_eq (m : MState) (skip d acc s) : m.evalSensStep skip d acc s =
    (acc.1 + m.sensTV skip d s, acc.2 + m.sensLP skip d s) := by
  obtain ⟨a, b⟩ := acc
  unfold evalSensStep sensTV sensLP
  by_cases h : skip (m.con s.1) = true
  · simp [h]
  · by_cases h1 : (m.con s.1).isLe = true <;> by_cases h2 : (m.con s.1).isGe = true <;>
      simp only [h, h1, h2, if_true, if_false, Bool.false_eq_true, add_zero, zero_add] <;>
      refine Prod.ext ?_ ?_ <;> dsimp only <;> ring

theorem exprValue_single (e : Expr) (hwf : (e.terms.map Prod.fst).Nodup) (σ : ℕ → ℤ) (v x) :
    exprValue e (applyMove σ [(v, x)]) = exprValue e σ + Expr.lookup e.terms v * ((x - σ v : ℤ) : ℚ) := by
  rw [exprValue_eq, exprValue_eq, Expr.evaluate_eq, Expr.evaluate_eq]
  simp only [applyMove]
  rw [Expr.lin_update _ hwf]; ring

/-- For an enabled, current constraint the sensitivity loop adds the true change. -/
theorem sens_eq (m : MState) (hw : WellFormed m) (hc : Current m) (v : ℕ) (x : ℤ) (skip) (c)
    (hcm : c ∈ m.conIds) (he : (m.con c).enabled = true) (hns : skip (m.con c) = false) :
    m.sensTV skip (x - assignment m v) (c, Expr.lookup (m.con c).expr.terms v)
      = m.dTV (assignment m) (applyMove (assignment m) [(v, x)]) c ∧
    m.sensLP skip (x - assignment m v) (c, Expr.lookup (m.con c).expr.terms v)
      = m.dLP (assignment m) (applyMove (assignment m) [(v, x)]) c := by
  have hcc := hc.con c hcm he
  have hv := exprValue_single (m.con c).expr (hw.con c hcm) (assignment m) v x
  have hmin : ∀ y : ℚ, min y 0 = - max (-y) 0 := fun y => by rw [← Con.neg_min_eq]; ring
  constructor
  · unfold sensTV dTV
    simp only [hns, Bool.false_eq_true, if_false, he, if_true, Con.violation_eq]
    rw [hcc.value, hcc.pos, hcc.neg, ← hv, hmin]
    unfold Con.tvPart
    split <;> split <;> ring
  · unfold sensLP dLP
    simp only [hns, Bool.false_eq_true, if_false, he, if_true, Con.penalty_eq]
    rw [hcc.value, hcc.pos, hcc.neg, ← hv, hmin]
    unfold Con.lpPart
    split <;> split <;> ring

/-! ### multi -/

/-- per-constraint contribution of `evaluate_multi` -/
def multiTV (m : MState) (alts : List (VarId × ℤ)) (c : ConId) : ℚ :=
  let k := m.con c
  let x := k.expr.evaluateMove m.vals alts
  if k.enabled = true ∧ ¬ |x - k.value| < EPSILON_10 then
    (if k.isLe then max x 0 - k.pos else 0) + (if k.isGe then max (-x) 0 - k.neg else 0) else 0
/-- per-constraint penalty contribution of `evaluate_multi` -/
def multiLP (m : MState) (alts : List (VarId × ℤ)) (c : ConId) : ℚ :=
  let k := m.con c
  let x := k.expr.evaluateMove m.vals alts
  if k.enabled = true ∧ ¬ |x - k.value| < EPSILON_10 then
    (if k.isLe then max x 0 - k.pos else 0) * k.penLess + (if k.isGe then max (-x) 0 - k.neg else 0) * k.penGreater else 0
/-- per-constraint improvability flag of `evaluate_multi` -/
def multiImp (m : MState) (alts : List (VarId × ℤ)) (c : ConId) : Bool :=
  let k := m.con c
  let x := k.expr.evaluateMove m.vals alts
  k.enabled && !decide (|x - k.value| < EPSILON_10) &&
    decide ((if k.isLe then max x 0 - k.pos else 0) + (if k.isGe then max (-x) 0 - k.neg else 0) < -EPSILON)

theorem evalMultiStep_eq (m : MState) (alts) (acc c) : m.evalMultiStep alts acc c =
    (acc.1 + m.multiTV alts c, acc.2.1 + m.multiLP alts c, acc.2.2 || m.multiImp alts c) := by
  obtain ⟨a, b, d⟩ := acc
  unfold evalMultiStep multiTV multiLP multiImp
  dsimp only
  by_cases h : (m.con c).enabled = true
  · by_cases h1 : |(m.con c).expr.evaluateMove m.vals alts - (m.con c).value| < EPSILON_10
    · simp [h, h1]
    · simp only [h, h1, Bool.not_true, Bool.false_eq_true, if_false, not_false_eq_true, and_self, if_true,
        decide_false, Bool.not_false, Bool.true_and]
  · simp [h]

theorem multi_eq (m : MState) (hw : WellFormed m) (hc : Current m) (alts : List (ℕ × ℤ))
    (hd : (alts.map Prod.fst).Nodup) (c) (hcm : c ∈ m.conIds) :
    let σ := assignment m
    let τ := applyMove (assignment m) alts
    |m.multiTV alts c - m.dTV σ τ c| ≤ EPSILON_10 ∧
    (0 ≤ (m.con c).penLess → 0 ≤ (m.con c).penGreater →
      |m.multiLP alts c - m.dLP σ τ c| ≤ EPSILON_10 * ((m.con c).penLess + (m.con c).penGreater)) ∧
    (¬ ((m.con c).enabled = true ∧ exprValue (m.con c).expr τ ≠ exprValue (m.con c).expr σ ∧
        |exprValue (m.con c).expr τ - exprValue (m.con c).expr σ| < EPSILON_10) →
      m.multiTV alts c = m.dTV σ τ c ∧ m.multiLP alts c = m.dLP σ τ c) := by
  intro σ τ
  have h10 : (0 : ℚ) ≤ EPSILON_10 := by norm_num [EPSILON_10]
  by_cases he : (m.con c).enabled = true
  · have hcc := hc.con c hcm he
    have hv : (m.con c).expr.evaluateMove m.vals alts = exprValue (m.con c).expr τ :=
      evalMove_eq_spec _ (hw.con c hcm) _ hcc.expr _ hd
    have hkv := hcc.value
    change (m.con c).value = exprValue (m.con c).expr σ at hkv
    by_cases h1 : |exprValue (m.con c).expr τ - exprValue (m.con c).expr σ| < EPSILON_10
    · have e1 : m.multiTV alts c = 0 := by
        unfold multiTV; simp only [he, hv, hkv, h1, not_true_eq_false, and_false, if_false]
      have e2 : m.multiLP alts c = 0 := by
        unfold multiLP; simp only [he, hv, hkv, h1, not_true_eq_false, and_false, if_false]
      rw [e1, e2]
      simp only [dTV, dLP, he, if_true, Con.violation_eq, Con.penalty_eq, zero_sub, abs_neg]
      refine ⟨(tvPart_lipschitz _ _ _).trans h1.le, fun p1 p2 => (lpPart_lipschitz _ _ _ p1 p2).trans
        (mul_le_mul_of_nonneg_right h1.le (add_nonneg p1 p2)), fun hn => ?_⟩
      have heq : exprValue (m.con c).expr τ = exprValue (m.con c).expr σ := by
        by_contra hne; exact hn ⟨trivial, hne, h1⟩
      rw [heq]; simp
    · have e1 : m.multiTV alts c = m.dTV σ τ c := by
        unfold multiTV dTV
        simp only [he, hv, hkv, h1, not_false_eq_true, and_self, if_true, Con.violation_eq, hcc.pos, hcc.neg]
        unfold Con.tvPart
        split <;> split <;> ring
      have e2 : m.multiLP alts c = m.dLP σ τ c := by
        unfold multiLP dLP
        simp only [he, hv, hkv, h1, not_false_eq_true, and_self, if_true, Con.penalty_eq, hcc.pos, hcc.neg]
        unfold Con.lpPart
        split <;> split <;> ring
      rw [e1, e2]
      simp only [sub_self, abs_zero, h10, true_and, and_self, implies_true, and_true]
      intro p1 p2
      exact mul_nonneg h10 (add_nonneg p1 p2)
  · simp [multiTV, multiLP, dTV, dLP, he, h10]
    intro p1 p2
    exact mul_nonneg h10 (add_nonneg p1 p2)

end MState
end Printemps
