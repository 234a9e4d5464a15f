import Verif.Props.C21

/-! # C23 — single-variable constraints are absorbed into bounds

A constraint is a singleton when exactly one of its variables is unfixed. -/

namespace Printemps.C23
open Spec Presolve

/-- Partial: when the constraint can be satisfied within the bounds and the bounds of unfixed variables
are smaller than 100000 in size, the step disables the constraint and the new bounds or fixed value admit
exactly the assignments that the old bounds and the constraint admitted.  (Distinct variables, nonzero
coefficients and integral contributions of the fixed variables are assumed as in C21.)  The three
counterexamples below show that none of the conditions can be dropped. -/
theorem singleton_absorbed_partial (c : Con) (var : ℕ → Var)
    (hwf : (c.expr.terms.map Prod.fst).Nodup) (hz : ∀ t ∈ c.expr.terms, t.2 ≠ 0)
    (hint : ∀ t ∈ c.expr.terms, (var t.1).fixed = true → ∃ k : ℤ, t.2 * ((var t.1).value : ℚ) = k)
    (h1 : (c.expr.terms.filter (fun t => !(var t.1).fixed)).length = 1)
    (hs : ∀ v, (var v).fixed = false → -100000 < (var v).lb ∧ (var v).ub < 100000)
    (hsat : ∃ σ, InBounds var σ ∧ Holds c σ) :
    ∃ var', tightenConstraint c var = .ok (var', true) ∧
      ∀ σ, InBounds var' σ ↔ InBounds var σ ∧ Holds c σ := by
  obtain ⟨σ, hb, hh⟩ := hsat
  obtain ⟨var', d, k1, _, k3⟩ := tightenConstraint_exact c ⟨hwf, hz⟩ var hint σ hb hh hs
  have hd : d = true := by
    rcases tightenConstraint_cases c var with ⟨_, e⟩ | ⟨_, v, a, hm, e⟩ | ⟨_, hne, _⟩
    · rw [e] at k1; cases k1; rfl
    · obtain ⟨hmem, hf⟩ := mutable_singleton hm
      unfold Holds at hh
      rw [exprValue_singleton c.expr var σ hb hint v a hm] at hh
      obtain ⟨w, e1, _⟩ := singleton_keeps c var v a hf (hz _ hmem) (σ v) (hb v) hh
      rw [e, e1] at k1
      cases k1; rfl
    · exact absurd h1 hne
  subst hd
  refine ⟨var', k1, fun τ => ?_⟩
  rw [k3 τ]
  simp

/-- The same for one constraint `a*x + b (≤,=,≥) 0` under the exact arithmetic conditions: for an equality
the root `-b/a` is an integer within the bounds; for an inequality a bound that would be tightened is
smaller than 100000 in size (`SingletonOK`). -/
theorem singleton_value_set_partial (c : Con) (var var' : ℕ → Var) (v : ℕ) (a : ℚ) (d : Bool)
    (hf : (var v).fixed = false) (ha : a ≠ 0) (hr : singleton c var v a = .ok (var', d))
    (hok : SingletonOK c var v a) (x : ℤ) :
    d = true ∧ (Admits (var' v) x ↔ Admits (var v) x ∧
      (cmpOf c.sense).holds (a * x + (c.expr.fixedTermValue (boxes var) + c.expr.const)) 0) := by
  obtain ⟨h1, _, h3⟩ := singleton_exact c var var' v a d hf hr ha hok
  exact ⟨h1, h3 x⟩

/-! ### Non-vacuity: `3*x2 - 7 <= 0` with `0 <= x2 <= 5` gives `x2 <= 2`. -/

def ex : Con := { expr := ⟨[(2, 3)], -7, 0⟩, sense := .less }

example : (∃ σ, InBounds (fun _ => Example.int5) σ ∧ Holds ex σ) ∧
    (ex.expr.terms.filter (fun _ => !Example.int5.fixed)).length = 1 ∧
    (-100000 < Example.int5.lb ∧ Example.int5.ub < 100000) ∧
    test (tightenConstraint ex (fun _ => Example.int5)) (fun r => decide ((r.1 2).ub = 2 ∧ r.2 = true)) = true := by
  refine ⟨⟨fun _ => 2, fun v => ?_, by decide +kernel⟩, by decide, by decide, by decide +kernel⟩
  show Admits Example.int5 2
  decide

/-! ### Counterexamples -/

/-- `2*x2 = 1` (no integer solution) is disabled and `x2` fixed at 0: the model gains assignments. -/
theorem fractional_equality_is_lost :
    ∃ (c : Con) (var var' : ℕ → Var) (σ : ℕ → ℤ), tightenConstraint c var = .ok (var', true) ∧
      InBounds var' σ ∧ InBounds var σ ∧ ¬ Holds c σ := by
  have h : test (tightenConstraint { expr := ⟨[(2, 2)], -1, 0⟩, sense := .equal } (fun _ => Example.int5))
      (fun r => decide (Admits (r.1 2) 0 ∧ r.2 = true)) = true := by decide +kernel
  obtain ⟨⟨var', d⟩, h1, h2⟩ := test_ok h
  have h2 := of_decide_eq_true h2
  obtain ⟨h2, hd⟩ := h2
  subst hd
  refine ⟨_, _, var', fun _ => 0, h1, fun v => ?_, fun v => ?_, by decide +kernel⟩
  · by_cases hv : v = 2
    · subst hv; exact h2
    · have : var' v = Example.int5 := by
        rcases tightenConstraint_cases { expr := ⟨[(2, 2)], -1, 0⟩, sense := .equal } (fun _ => Example.int5)
          with ⟨hr, _⟩ | ⟨_, w, a, hm, e⟩ | ⟨_, hl, _⟩
        · exact absurd hr (by decide +kernel)
        · have hm' : mutableTerms ⟨[(2, 2)], -1, 0⟩ (fun _ => Example.int5) = [(2, 2)] := by decide +kernel
          rw [hm'] at hm
          cases hm
          rw [e] at h1
          unfold Presolve.singleton at h1
          simp only [] at h1
          rw [if_neg (by norm_num)] at h1
          cases h1
          rw [Function.update_of_ne hv]
        · exact absurd (by decide +kernel) hl
      rw [this]; show Admits Example.int5 0; decide
  · show Admits Example.int5 0; decide

/-- `x2 = 7` with `0 <= x2 <= 5`: `x2` is fixed at 7, outside its bounds, and the constraint disabled. -/
theorem equality_outside_bounds_is_accepted :
    ∃ (c : Con) (var var' : ℕ → Var) (σ : ℕ → ℤ), tightenConstraint c var = .ok (var', true) ∧
      Admits (var' 2) (σ 2) ∧ ¬ Admits (var 2) (σ 2) := by
  have h : test (tightenConstraint { expr := ⟨[(2, 1)], -7, 0⟩, sense := .equal } (fun _ => Example.int5))
      (fun r => decide (Admits (r.1 2) 7 ∧ r.2 = true)) = true := by decide +kernel
  obtain ⟨⟨var', d⟩, h1, h2⟩ := test_ok h
  obtain ⟨h2, hd⟩ := of_decide_eq_true h2
  subst hd
  exact ⟨_, _, var', fun _ => 7, h1, h2, by decide⟩

/-- integer variable in `[0, 200000]` -/
def big : Var := { Example.int5 with ub := 200000 }

/-- `x2 <= 100000` with `0 <= x2 <= 200000`: the constraint is disabled but the bound is not installed,
so `x2 = 150000` becomes possible. -/
theorem large_bound_is_lost :
    ∃ (c : Con) (var var' : ℕ → Var) (σ : ℕ → ℤ), tightenConstraint c var = .ok (var', true) ∧
      InBounds var σ ∧ Admits (var' 2) (σ 2) ∧ ¬ Holds c σ := by
  have h : test (tightenConstraint { expr := ⟨[(2, 1)], -100000, 0⟩, sense := .less } (fun _ => big))
      (fun r => decide (Admits (r.1 2) 150000 ∧ r.2 = true)) = true := by decide +kernel
  obtain ⟨⟨var', d⟩, h1, h2⟩ := test_ok h
  obtain ⟨h2, hd⟩ := of_decide_eq_true h2
  subst hd
  exact ⟨_, _, var', fun _ => 150000, h1, fun v => by show Admits big 150000; decide, h2, by decide +kernel⟩

end Printemps.C23
