import Verif.Props.C21

/-! # C22 — only implied constraints are dropped as redundant -/

namespace Printemps.C22
open Spec Presolve

/-- If the presolve step disables a constraint without it being a singleton (exactly one unfixed variable),
then nothing else changes and every assignment within bounds and fixings satisfies the constraint. -/
theorem dropped_constraint_is_implied (c : Con) (var var' : ℕ → Var)
    (h : tightenConstraint c var = .ok (var', true))
    (h1 : (c.expr.terms.filter (fun t => !(var t.1).fixed)).length ≠ 1) :
    var' = var ∧ ∀ σ, InBounds var σ → Holds c σ := by
  rcases tightenConstraint_cases c var with ⟨hr, e⟩ | ⟨_, v, a, hm, _⟩ | ⟨_, _, e⟩
  · rw [e] at h
    cases h
    exact ⟨rfl, fun σ hb => isRedundant_holds c var hr σ hb⟩
  · unfold mutableTerms at hm
    rw [hm] at h1
    exact absurd rfl h1
  · rw [e] at h
    unfold tightenGeneral at h
    obtain ⟨v1, _, h2⟩ := bind_ok h
    obtain ⟨v2, _, h3⟩ := bind_ok h2
    cases h3

/-- Conversely a constraint satisfied by every assignment within the bounds is recognised (the test is
complete): for an inequality always, as the interval bounds are attained. -/
theorem implied_inequality_is_dropped (c : Con) (var : ℕ → Var) (hs : c.sense ≠ .equal)
    (hwf : (c.expr.terms.map Prod.fst).Nodup)
    (hb : ∀ v, (var v).lb ≤ (var v).ub)
    (h : ∀ σ, InBounds var σ → Holds c σ) : tightenConstraint c var = .ok (var, true) := by
  obtain ⟨σ, s1, s2⟩ := C03.lower_bound_attained c.expr hwf (boxes var) hb
  obtain ⟨τ, t1, t2⟩ := C03.upper_bound_attained c.expr hwf (boxes var) hb
  have hr : isRedundant c var = true := by
    unfold isRedundant
    cases hc : c.sense
    · have := h τ t1
      unfold Holds at this
      rw [hc, exprValue_eq, t2] at this
      simpa [cmpOf, Cmp.holds] using this
    · exact absurd hc hs
    · have := h σ s1
      unfold Holds at this
      rw [hc, exprValue_eq, s2] at this
      simpa [cmpOf, Cmp.holds] using this
  unfold tightenConstraint
  rw [if_pos hr]

/-- `x0 + x1 <= 2` over binaries is dropped. -/
example : test (tightenConstraint { expr := ⟨[(0, 1), (1, 1)], -2, 0⟩, sense := .less }
    (fun _ => Example.bin0)) (fun r => r.2) = true ∧
    (([(0, 1), (1, 1)] : List (ℕ × ℚ)).filter (fun _ => !Example.bin0.fixed)).length ≠ 1 ∧
    Example.bin0.lb ≤ Example.bin0.ub := by
  refine ⟨by decide +kernel, by decide, by decide⟩

end Printemps.C22
