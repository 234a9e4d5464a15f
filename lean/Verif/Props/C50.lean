import Verif.Lemmas.ConstraintType
import Verif.Lemmas.Example

/-! # C50 — constraint classification is semantically right

`classify` models `setup_constraint_type`; `Spec.Meaning` gives the relation each class stands for. -/

namespace Printemps.C50
open Spec ConType

/-- A constraint that has just been set up from an expression without repeated variables and without zero
coefficients satisfies, for every assignment of its variables, exactly the relation of the class it is given.
Missing: three-variable constraints with a constant are classified as "all equal" without looking at the
constant, so a zero constant is assumed there. -/
theorem class_names_the_relation_partial (var : ℕ → Var) (lt : ℕ → ℕ → Bool) (e : Expr) (s : Sense)
    (he : (e.terms.map Prod.fst).Nodup) (hnz : ∀ t ∈ e.terms, t.2 ≠ 0) (hlen : e.terms.length ≤ 1000000000)
    (c : Con) (hc : c = Con.setup e s (fun v => (var v).sense))
    (hk : (classify var lt c).1 = .trinomialExclusiveNor → e.const = 0) :
    Meaning var c (classify var lt c).1 (classify var lt c).2 := by
  subst hc
  refine classify_meaning var lt _ he ⟨fun h t ht => ?_, fun h t ht => ?_⟩ hlen hnz hk
  · have := List.all_eq_true.1 h t ht
    simpa using this
  · have := List.all_eq_true.1 h t ht
    simp only [Bool.or_eq_true, beq_iff_eq] at this
    tauto

/-- The same later on, when senses and expression may have changed, as long as the stored flags "all
coefficients are 1" and "all variables are binary" are still true of the expression if they are set. -/
theorem class_names_the_relation_later_partial (var : ℕ → Var) (lt : ℕ → ℕ → Bool) (c : Con)
    (he : (c.expr.terms.map Prod.fst).Nodup) (hnz : ∀ t ∈ c.expr.terms, t.2 ≠ 0)
    (hlen : c.expr.terms.length ≤ 1000000000)
    (hcoef : c.onlyBinaryCoef = true → ∀ t ∈ c.expr.terms, t.2 = 1)
    (hvar : c.onlyBinaryVar = true → ∀ t ∈ c.expr.terms,
      (var t.1).sense = .binary ∨ (var t.1).sense = .dependentBinary ∨ (var t.1).sense = .selection)
    (hk : (classify var lt c).1 = .trinomialExclusiveNor → c.expr.const = 0) :
    Meaning var c (classify var lt c).1 (classify var lt c).2 :=
  classify_meaning var lt c he ⟨hcoef, hvar⟩ hlen hnz hk

private def vars' (v : ℕ) : Var := if v < 10 then Example.bin0 else Example.int5
private def lt' (x y : ℕ) : Bool := decide (x < y)
private def mk (ts : List (ℕ × ℚ)) (k : ℚ) (s : Sense) : Con :=
  Con.setup { terms := ts, const := k } s (fun v => (vars' v).sense)

/-! The theorem applies to constraints of many classes. -/
example : classify vars' lt' (mk [(0, 1), (1, 1)] (-1) .equal) = (.exclusiveOr, some 0) := by decide +kernel
example : classify vars' lt' (mk [(0, 1), (1, -1)] 0 .equal) = (.exclusiveNor, some 0) := by decide +kernel
example : classify vars' lt' (mk [(10, 1), (11, -1)] 3 .equal) = (.constantDifference, some 10) := by
  decide +kernel
example : classify vars' lt' (mk [(0, 1), (1, 1), (2, -2)] 0 .equal) = (.trinomialExclusiveNor, some 2) := by
  decide +kernel
example : classify vars' lt' (mk [(0, 1), (1, 1), (2, 1)] (-1) .equal) = (.setPartitioning, none) := by
  decide +kernel
example : classify vars' lt' (mk [(0, 1), (1, 1), (2, 1), (3, 1)] (-2) .less) = (.invariantKnapsack, none) := by
  decide +kernel
example : (mk [(0, 1), (1, 1), (2, 1), (3, 1)] (-2) .less).expr.const = -2 ∧
    ((mk [(0, 1), (1, 1), (2, 1), (3, 1)] (-2) .less).expr.terms.map Prod.fst).Nodup := by decide +kernel

/-- The constant is ignored for three variables: `x + y - 2z + 1 = 0` (say `x = 1`, `y = 0`, `z = 1`) is
classified as "all three equal", which is false of each of its solutions. -/
theorem constant_is_ignored : ∃ (var : ℕ → Var) (lt : ℕ → ℕ → Bool) (c : Con) (σ : ℕ → ℤ),
    c = Con.setup c.expr c.sense (fun v => (var v).sense) ∧ (c.expr.terms.map Prod.fst).Nodup ∧
    (∀ t ∈ c.expr.terms, t.2 ≠ 0) ∧ ZeroOne var c σ ∧ Holds c σ ∧
    (classify var lt c).1 = .trinomialExclusiveNor ∧
    ¬ Meaning var c (classify var lt c).1 (classify var lt c).2 := by
  let c := mk [(0, 1), (1, 1), (2, -2)] 1 .equal
  let σ : ℕ → ℤ := fun v => if v = 1 then 0 else 1
  have hcl : classify vars' lt' c = (.trinomialExclusiveNor, some 2) := by decide +kernel
  have hz : ZeroOne vars' c σ := by
    intro v _ _
    show (if v = 1 then (0 : ℤ) else 1) = 0 ∨ (if v = 1 then (0 : ℤ) else 1) = 1
    split <;> simp
  have hh : Holds c σ := by
    rw [holds_iff]
    show (1 : ℚ) + Expr.lin [(0, 1), (1, 1), (2, -2)] σ = 0
    decide +kernel
  refine ⟨vars', lt', c, σ, rfl, by decide +kernel, by decide +kernel, hz, hh, by rw [hcl], ?_⟩
  rw [hcl]
  rintro ⟨x, y, z, hp, _, hm⟩
  obtain ⟨h1, h2⟩ := (hm σ hz).1 hh
  have m1 : (0 : ℕ) ∈ [x, y, z] := hp.mem_iff.1 (by decide +kernel)
  have m2 : (1 : ℕ) ∈ [x, y, z] := hp.mem_iff.1 (by decide +kernel)
  have e0 : σ 0 = σ z := by
    simp only [List.mem_cons, List.not_mem_nil, or_false] at m1
    rcases m1 with h | h | h
    · rw [h]; exact h1
    · rw [h]; exact h2
    · rw [h]
  have e1 : σ 1 = σ z := by
    simp only [List.mem_cons, List.not_mem_nil, or_false] at m2
    rcases m2 with h | h | h
    · rw [h]; exact h1
    · rw [h]; exact h2
    · rw [h]
  rw [← e1] at e0
  exact absurd e0 (by decide)

/-- The stored flags are not refreshed when a definition is substituted: `x₀ + x₁ + x₂ + x₃ = 1` with `x₂`
defined as `x₁` becomes `x₀ + 2 x₁ + x₃ = 1` and is still classified as set partitioning, although setting
just `x₁` to 1 does not satisfy it. -/
theorem stale_flags_after_substitution : ∃ (var : ℕ → Var) (lt : ℕ → ℕ → Bool) (c : Con) (f : Expr) (σ : ℕ → ℤ),
    c = Con.setup c.expr c.sense (fun v => (var v).sense) ∧ (c.expr.terms.map Prod.fst).Nodup ∧
    (classify var lt c).1 = .setPartitioning ∧
    (classify var lt { c with expr := c.expr.substitute 2 f }).1 = .setPartitioning ∧
    ZeroOne var { c with expr := c.expr.substitute 2 f } σ ∧
    ones { c with expr := c.expr.substitute 2 f } σ = 1 ∧
    ¬ Holds { c with expr := c.expr.substitute 2 f } σ := by
  refine ⟨vars', lt', mk [(0, 1), (1, 1), (2, 1), (3, 1)] (-1) .equal, { terms := [(1, 1)], const := 0 },
    fun v => if v = 1 then 1 else 0, rfl, by decide +kernel, by decide +kernel, by decide +kernel, ?_,
    by decide +kernel, ?_⟩
  · intro v _ _
    show (if v = 1 then (1 : ℤ) else 0) = 0 ∨ (if v = 1 then (1 : ℤ) else 0) = 1
    split <;> simp
  · rw [holds_iff]
    let e : Expr := ((mk [(0, 1), (1, 1), (2, 1), (3, 1)] (-1) .equal).expr.substitute 2 { terms := [(1, 1)], const := 0 })
    show ¬ (e.const + Expr.lin e.terms (fun v => if v = 1 then 1 else 0) = 0)
    decide +kernel

/-- The classes for two or three variables only. -/
def small : List ConType :=
  [.exclusiveOr, .exclusiveNor, .invertedIntegers, .balancedIntegers, .constantSum, .constantDifference, .constantRatio,
    .aggregation, .precedence, .variableBound, .trinomialExclusiveNor]

theorem setTypes_large (c : Con) (r : Result) (h : setTypes c = some r) : r.1 ∉ small := by
  unfold setTypes at h
  repeat' split at h
  all_goals first | (injection h with h; subst h; decide) | exact nomatch h

theorem flowTypes_large (var : ℕ → Var) (c : Con) (r : Result) (h : flowTypes var c = some r) : r.1 ∉ small := by
  unfold flowTypes at h
  dsimp only at h
  repeat' split at h
  all_goals first | (injection h with h; subst h; simp [small]) | exact nomatch h

theorem boundTypes_large (var : ℕ → Var) (c : Con) (r : Result) (h : boundTypes var c = some r) : r.1 ∉ small := by
  unfold boundTypes at h
  dsimp only at h
  repeat' split at h
  all_goals first | (injection h with h; subst h; simp [small]) | exact nomatch h

theorem knapsackTypes_large (var : ℕ → Var) (c : Con) (r : Result) (h : knapsackTypes var c = some r) : r.1 ∉ small := by
  unfold knapsackTypes at h
  dsimp only at h
  repeat' split at h
  all_goals first | (injection h with h; subst h; simp [small]) | exact nomatch h

theorem gf2Type_large (var : ℕ → Var) (c : Con) (r : Result) (h : gf2Type var c = some r) : r.1 ∉ small := by
  unfold gf2Type at h
  dsimp only at h
  repeat' split at h
  all_goals first | (injection h with h; subst h; simp [small]) | exact nomatch h

theorem general_large (var : ℕ → Var) (c : Con) : (general var c).1 ∉ small := by
  unfold general
  cases h1 : setTypes c with
  | some r => exact setTypes_large c r h1
  | none =>
    cases h2 : flowTypes var c with
    | some r => exact flowTypes_large var c r h2
    | none =>
      cases h3 : boundTypes var c with
      | some r => exact boundTypes_large var c r h3
      | none =>
        cases h4 : knapsackTypes var c with
        | some r => exact knapsackTypes_large var c r h4
        | none =>
          cases h5 : gf2Type var c with
          | some r => exact gf2Type_large var c r h5
          | none => simp [small]

/-- The classes for two or three variables are given only if none of these is fixed, so that the moves made from them, and the
elimination of a variable by such a constraint, change no fixed variable. -/
theorem small_classes_mutable (var : ℕ → Var) (lt : ℕ → ℕ → Bool) (c : Con) (h : (classify var lt c).1 ∈ small) :
    ∀ v ∈ c.expr.vars, (var v).fixed = false := by
  unfold classify at h
  split at h
  · simp [small] at h
  · rename_i t u e
    split at h
    · rename_i hm
      intro v hv
      simp only [Expr.vars, e, List.map_cons, List.map_nil, List.mem_cons, List.not_mem_nil, or_false] at hv
      rcases hv with rfl | rfl
      · exact hm.1
      · exact hm.2
    · exact absurd h (general_large var c)
  · rename_i t u w e
    split at h
    · rename_i hm
      intro v hv
      simp only [Expr.vars, e, List.map_cons, List.map_nil, List.mem_cons, List.not_mem_nil, or_false] at hv
      rcases hv with rfl | rfl | rfl
      · exact hm.2.1
      · exact hm.2.2.1
      · exact hm.2.2.2
    · exact absurd h (general_large var c)
  · exact absurd h (general_large var c)

end Printemps.C50
