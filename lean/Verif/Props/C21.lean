import Verif.Lemmas.PresolveLoop
import Verif.Lemmas.Example

/-! # C21 — bound tightening loses no solution

`tightenConstraint` is the presolve step for one constraint, `reduceLoop` the loop that repeats it
over all constraints together with the fixing of variables with equal bounds. -/

namespace Printemps.C21
open Spec Presolve

/-- The step ends normally (no exception from `set_bound`) and keeps every assignment that satisfied the
constraint and the old bounds.  Partial: the variables of the constraint are distinct (an
`unordered_map` guarantees it), coefficients are nonzero, and the contributions of fixed variables are
integers; see `fractional_fixed_terms_lose_a_solution` and `zero_coefficient_is_undefined` for what
happens otherwise. -/
theorem tightening_keeps_solutions_partial (c : Con) (var : ℕ → Var)
    (hwf : (c.expr.terms.map Prod.fst).Nodup) (hz : ∀ t ∈ c.expr.terms, t.2 ≠ 0)
    (hint : ∀ t ∈ c.expr.terms, (var t.1).fixed = true → ∃ k : ℤ, t.2 * ((var t.1).value : ℚ) = k)
    (σ : ℕ → ℤ) (hb : InBounds var σ) (hh : Holds c σ) :
    ∃ var' d, tightenConstraint c var = .ok (var', d) ∧ InBounds var' σ :=
  tightenConstraint_keeps c ⟨hwf, hz⟩ var hint σ hb hh

/-- When at least two (or no) variables of the constraint are unfixed, fractional contributions of the
fixed variables do no harm. -/
theorem tightening_keeps_solutions_of_two_mutable (c : Con) (var : ℕ → Var)
    (hwf : (c.expr.terms.map Prod.fst).Nodup) (hz : ∀ t ∈ c.expr.terms, t.2 ≠ 0)
    (h1 : (c.expr.terms.filter (fun t => !(var t.1).fixed)).length ≠ 1)
    (σ : ℕ → ℤ) (hb : InBounds var σ) (hh : Holds c σ) :
    ∃ var' d, tightenConstraint c var = .ok (var', d) ∧ InBounds var' σ ∧
      (∀ v, (var v).lb ≤ (var' v).lb ∧ (var' v).ub ≤ (var v).ub) := by
  rcases tightenConstraint_cases c var with ⟨_, e⟩ | ⟨_, v, a, hm, _⟩ | ⟨_, _, e⟩
  · exact ⟨var, true, e, hb, fun _ => ⟨le_rfl, le_rfl⟩⟩
  · unfold mutableTerms at hm
    rw [hm] at h1
    exact absurd rfl h1
  · obtain ⟨var', k1, k2⟩ := tightenGeneral_spec c hwf hz var σ hb hh
    refine ⟨var', false, e.trans k1, k2.inBounds hb, fun v => ?_⟩
    rcases k2 v with e' | ⟨_, t⟩
    · rw [e']; exact ⟨le_rfl, le_rfl⟩
    · exact ⟨t.2.1, t.2.2.1⟩

/-- The reduction loop ends after at most one round more than there are enabled constraints and unfixed
variables, whatever the model. -/
theorem reduction_terminates (m : MState) :
    ∃ r, reduceLoop (m.conIds.length + m.varIds.length + 1) m = some r := by
  refine reduceLoop_terminates _ m ?_
  have h1 : numEnabled m ≤ m.conIds.length := List.length_filter_le _ _
  have h2 : numUnfixed m ≤ m.varIds.length := List.length_filter_le _ _
  omega

/-- The whole reduction loop keeps every feasible assignment of a model with integral nonzero
coefficients. -/
theorem reduction_keeps_solutions (m : MState) (hg : ∀ c ∈ m.conIds, ((m.con c).expr.terms.map Prod.fst).Nodup ∧
      ∀ t ∈ (m.con c).expr.terms, t.2 ≠ 0 ∧ ∃ k : ℤ, t.2 = k) (σ : ℕ → ℤ) (hf : Feasible m σ) :
    ∃ m', reduceLoop (m.conIds.length + m.varIds.length + 1) m = some (.ok m') ∧ Feasible m' σ := by
  obtain ⟨r, hr⟩ := reduction_terminates m
  obtain ⟨m', rfl, _, h⟩ := reduceLoop_keeps _ m r hg hr σ hf
  exact ⟨m', hr, h⟩

/-- If moreover the model has a feasible assignment and its bounds are smaller than 100000 in size, the
loop leaves the set of feasible assignments unchanged. -/
theorem reduction_exact (m : MState) (hg : ∀ c ∈ m.conIds, ((m.con c).expr.terms.map Prod.fst).Nodup ∧
      ∀ t ∈ (m.con c).expr.terms, t.2 ≠ 0 ∧ ∃ k : ℤ, t.2 = k)
    (hs : ∀ v, (m.var v).fixed = false → -100000 < (m.var v).lb ∧ (m.var v).ub < 100000)
    (hf : ∃ σ, Feasible m σ) :
    ∃ m', reduceLoop (m.conIds.length + m.varIds.length + 1) m = some (.ok m') ∧
      ∀ σ, Feasible m σ ↔ Feasible m' σ := by
  obtain ⟨r, hr⟩ := reduction_terminates m
  obtain ⟨m', rfl, _, h⟩ := reduceLoop_exact _ m r hg hs hf hr
  exact ⟨m', hr, h⟩

/-! ### Non-vacuity -/

/-- `2*x0 - x2 >= 1` with binary `x0` and `0 <= x2 <= 5`, satisfied by `x0 = 1, x2 = 1`: the step
tightens `x0 >= 1` and `x2 <= 1`. -/
example :
    InBounds Example.raw.var (fun v => if v = 0 ∨ v = 2 then 1 else 0) ∧
    Holds Example.c1 (fun v => if v = 0 ∨ v = 2 then 1 else 0) ∧
    (∀ t ∈ Example.c1.expr.terms, t.2 ≠ 0) ∧
    test (tightenConstraint Example.c1 Example.raw.var)
      (fun r => decide (((r.1 0).lb, (r.1 2).ub, r.2) = (1, 1, false))) = true := by
  refine ⟨fun v => ?_, by decide +kernel, by decide, by decide +kernel⟩
  by_cases h0 : v = 0
  · subst h0; decide
  · by_cases h2 : v = 2
    · subst h2; decide
    · have : Example.raw.var v = Example.bin0 := by
        show (if v = 2 then Example.int5 else Example.bin0) = _
        rw [if_neg h2]
      rw [this]
      simp only [h0, h2, or_self, if_false]
      decide

/-- The example model has integral data, small bounds and the feasible assignment `x0 = 1, x2 = 1`. -/
example : GoodData Example.raw ∧
    (∀ v, (Example.raw.var v).fixed = false → -100000 < (Example.raw.var v).lb ∧ (Example.raw.var v).ub < 100000) ∧
    Feasible Example.raw (fun v => if v = 0 ∨ v = 2 then 1 else 0) := by
  have hv : ∀ v, Example.raw.var v = Example.int5 ∨ Example.raw.var v = Example.bin0 := by
    intro v
    show (if v = 2 then Example.int5 else Example.bin0) = _ ∨ (if v = 2 then Example.int5 else Example.bin0) = _
    split <;> simp
  refine ⟨?_, ?_, ?_, ?_⟩
  · intro c hc
    have hc : c = 0 ∨ c = 1 ∨ c = 2 := by simpa [Example.raw] using hc
    refine ⟨?_, ?_⟩
    · unfold Expr.WF; rcases hc with rfl | rfl | rfl <;> decide
    · have : ∀ q : ℚ, q.den = 1 → IsInt q := fun q h => ⟨q.num, (Rat.coe_int_num_of_den_eq_one h).symm⟩
      have h2 : ∀ t ∈ (Example.raw.con c).expr.terms, t.2 ≠ 0 ∧ t.2.den = 1 := by
        rcases hc with rfl | rfl | rfl <;> decide +kernel
      exact fun t ht => ⟨(h2 t ht).1, this _ (h2 t ht).2⟩
  · intro v _
    rcases hv v with e | e <;> rw [e] <;> decide
  · intro v
    by_cases h0 : v = 0
    · subst h0; decide
    · by_cases h2 : v = 2
      · subst h2; decide
      · have : Example.raw.var v = Example.bin0 := by
          show (if v = 2 then Example.int5 else Example.bin0) = _
          rw [if_neg h2]
        rw [this]
        simp only [h0, h2, or_self, if_false]
        decide
  · intro c hc _
    have hc : c = 0 ∨ c = 1 ∨ c = 2 := by simpa [Example.raw] using hc
    rcases hc with rfl | rfl | rfl <;> decide +kernel

/-! ### Counterexamples: what the hypotheses exclude -/

/-- binary variable fixed at 1 -/
def fixed1 : Var := { Example.bin0 with value := 1, fixed := true }

/-- `0.5*x0 + 0.5*x1 >= 1` with `x0` fixed at 1, `0 <= x1 <= 5`: the assignment `x1 = 1` satisfies
everything but is cut off, because the fixed part `0.5` is truncated to `0`
(model_component/expression.h:394-403). -/
theorem fractional_fixed_terms_lose_a_solution :
    ∃ (c : Con) (var var' : ℕ → Var) (d : Bool) (σ : ℕ → ℤ), InBounds var σ ∧ Holds c σ ∧
      tightenConstraint c var = .ok (var', d) ∧ ¬ InBounds var' σ := by
  have h : test (tightenConstraint { expr := ⟨[(0, 1/2), (1, 1/2)], -1, 0⟩, sense := .greater }
      (fun v => if v = 0 then fixed1 else Example.int5)) (fun r => decide (¬ Admits (r.1 1) 1)) = true := by
    decide +kernel
  obtain ⟨⟨var', d⟩, h1, h2⟩ := test_ok h
  refine ⟨_, _, var', d, fun _ => 1, fun v => ?_, by decide +kernel, h1, fun hb => ?_⟩
  · by_cases h : v = 0
    · subst h; decide
    · simp only [h, if_false]; decide
  · exact of_decide_eq_true h2 (hb 1)

/-- `0*x0 + x1 - x2 >= -1` (for instance written as `x0 - x0 + x1 - x2 >= -1`): the quotient with the
zero coefficient is infinite, its conversion to `int` undefined. -/
theorem zero_coefficient_is_undefined :
    tightenConstraint { expr := ⟨[(0, 0), (1, 1), (2, -1)], 1, 0⟩, sense := .greater }
      (fun _ => Example.int5) = .undefined := isUndefined_eq (by decide +kernel)

end Printemps.C21
