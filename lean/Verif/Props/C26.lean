import Verif.Lemmas.PresolveSets
import Verif.Lemmas.Example

/-! # C26 — dominated set-partitioning constraints are removed soundly

`IsPartition` is the form of the constraints examined: `Σ x = 1` with unit coefficients, possibly
multiplied by `-1` (exclusive-or and set partitioning constraints). -/

namespace Printemps.C26
open Spec Presolve

/-- `Σ x = 1`, possibly written as `-Σ x = -1`. -/
def IsPartition (c : Con) : Prop :=
  c.sense = .equal ∧ (((∀ t ∈ c.expr.terms, t.2 = 1) ∧ c.expr.const = -1) ∨
    ((∀ t ∈ c.expr.terms, t.2 = -1) ∧ c.expr.const = 1))

/-- Sanity: such a constraint holds exactly when its variables sum to 1. -/
theorem isPartition_holds (c : Con) (h : IsPartition c) (σ : ℕ → ℤ) :
    Holds c σ ↔ (c.expr.vars.map σ).sum = 1 := OneForm.holds h σ

theorem sorted_perm (cs : List ℕ) (m : MState) :
    (cs.mergeSort (fun a b => decide ((m.con b).expr.terms.length ≤ (m.con a).expr.terms.length))).Perm cs :=
  List.mergeSort_perm _ _

/-- No feasible assignment is lost: for enabled, pairwise different partitioning constraints over
nonnegative variables. -/
theorem no_solution_lost (cs : List ℕ) (m : MState)
    (hw : ∀ c ∈ m.conIds, ((m.con c).expr.terms.map Prod.fst).Nodup)
    (hn : cs.Nodup) (hl : ∀ c ∈ cs, c ∈ m.conIds) (he : ∀ c ∈ cs, (m.con c).enabled = true)
    (hp : ∀ c ∈ cs, IsPartition (m.con c))
    (h0 : ∀ c ∈ cs, ∀ v ∈ (m.con c).expr.vars,
      ((m.var v).fixed = true → 0 ≤ (m.var v).value) ∧ ((m.var v).fixed = false → 0 ≤ (m.var v).lb))
    (σ : ℕ → ℤ) (hf : Feasible m σ) : Feasible (removeRedundantSetConstraints cs m) σ := by
  have hperm := sorted_perm cs m
  exact dropSupersets_keeps _ m hw (hperm.nodup_iff.2 hn) (fun c hc => hl c (hperm.mem_iff.1 hc))
    (fun c hc => he c (hperm.mem_iff.1 hc)) (fun c hc => hp c (hperm.mem_iff.1 hc))
    (fun c hc => h0 c (hperm.mem_iff.1 hc)) σ hf

/-- Partial: the set of feasible assignments is unchanged if in addition no variable of these constraints
is already fixed at a nonzero value and 0 is within the bounds of the unfixed ones (as for binary
variables).  The counterexample below shows that the condition on fixed variables is needed. -/
theorem solutions_unchanged_partial (cs : List ℕ) (m : MState)
    (hw : ∀ c ∈ m.conIds, ((m.con c).expr.terms.map Prod.fst).Nodup)
    (hn : cs.Nodup) (hl : ∀ c ∈ cs, c ∈ m.conIds) (he : ∀ c ∈ cs, (m.con c).enabled = true)
    (hp : ∀ c ∈ cs, IsPartition (m.con c))
    (h0 : ∀ c ∈ cs, ∀ v ∈ (m.con c).expr.vars, ((m.var v).fixed = true → (m.var v).value = 0) ∧
      ((m.var v).fixed = false → (m.var v).lb = 0 ∧ 0 ≤ (m.var v).ub))
    (σ : ℕ → ℤ) : Feasible m σ ↔ Feasible (removeRedundantSetConstraints cs m) σ := by
  have hperm := sorted_perm cs m
  constructor
  · intro hf
    refine no_solution_lost cs m hw hn hl he hp (fun c hc v hv => ⟨fun h => ?_, fun h => ?_⟩) σ hf
    · rw [((h0 c hc v hv).1 h)]
    · rw [((h0 c hc v hv).2 h).1]
  · intro hf
    refine dropSupersets_back _ m hw (hperm.nodup_iff.2 hn) (fun c hc => hl c (hperm.mem_iff.1 hc))
      (fun c hc => he c (hperm.mem_iff.1 hc)) (fun c hc => hp c (hperm.mem_iff.1 hc))
      (fun c hc v hv => ⟨fun h => ?_, fun h => ?_⟩) σ hf
    · rw [((h0 c (hperm.mem_iff.1 hc) v hv).1 h)]
    · have := (h0 c (hperm.mem_iff.1 hc) v hv).2 h
      exact ⟨le_of_eq this.1, this.2⟩

/-! ### Non-vacuity: `x0 + x1 = 1` and `x0 + x1 + x3 = 1`: the second is disabled and `x3` fixed at 0. -/

def ex (v3 : Var) : MState :=
  { Example.raw with
    var := fun v => if v = 3 then v3 else Example.bin0
    varIds := [0, 1, 3]
    con := fun c => if c = 0 then { expr := ⟨[(0, 1), (1, 1)], -1, 0⟩, sense := .equal }
      else { expr := ⟨[(0, 1), (1, 1), (3, 1)], -1, 0⟩, sense := .equal }
    conIds := [0, 1] }

theorem ex_sorted (v3 : Var) : removeRedundantSetConstraints [1, 0] (ex v3) = dropSupersets (ex v3) [1, 0] := by
  unfold removeRedundantSetConstraints
  rw [List.mergeSort_of_pairwise]
  simp [ex]

example : (∀ c ∈ [1, 0], IsPartition ((ex Example.bin0).con c)) ∧
    (let m' := removeRedundantSetConstraints [1, 0] (ex Example.bin0)
     (m'.con 0).enabled = true ∧ (m'.con 1).enabled = false ∧ (m'.var 3).fixed = true ∧ (m'.var 3).value = 0 ∧
      (m'.var 0).fixed = false) := by
  refine ⟨?_, ?_⟩
  · intro c hc
    simp only [List.mem_cons, List.not_mem_nil, or_false] at hc
    rcases hc with rfl | rfl <;> unfold IsPartition <;> decide +kernel
  · rw [ex_sorted]
    decide +kernel

/-! ### Counterexample: a variable fixed at 1 -/

/-- With `x3` fixed at 1 the model is infeasible, but the removal resets `x3` to 0 and makes it feasible. -/
theorem fixed_variable_is_overwritten : ∃ (cs : List ℕ) (m : MState) (σ : ℕ → ℤ),
    (∀ c ∈ cs, c ∈ m.conIds ∧ (m.con c).enabled = true ∧ IsPartition (m.con c)) ∧
    ¬ (∃ τ, Feasible m τ) ∧ Feasible (removeRedundantSetConstraints cs m) σ := by
  refine ⟨[1, 0], ex (Example.bin0.fixBy 1), fun v => if v = 0 then 1 else 0, ?_, ?_, ?_⟩
  · intro c hc
    simp only [List.mem_cons, List.not_mem_nil, or_false] at hc
    rcases hc with rfl | rfl <;> unfold IsPartition <;> decide +kernel
  · rintro ⟨τ, hb, hc⟩
    have h0 := (OneForm.holds (c := (ex (Example.bin0.fixBy 1)).con 0)
      (by unfold OneForm; decide +kernel) τ).1 (hc 0 (by decide) rfl)
    have h1 := (OneForm.holds (c := (ex (Example.bin0.fixBy 1)).con 1)
      (by unfold OneForm; decide +kernel) τ).1 (hc 1 (by decide) rfl)
    have h3 := (hb 3).1 rfl
    have h3' : τ 3 = 1 := h3
    simp only [ex, Expr.vars, if_true, if_neg (show ¬ (1 : ℕ) = 0 by decide), List.map_cons, List.map_nil,
      List.sum_cons, List.sum_nil] at h0 h1
    omega
  · rw [ex_sorted]
    refine ⟨fun v => ?_, ?_⟩
    · by_cases h3 : v = 3
      · subst h3; decide +kernel
      · have : (dropSupersets (ex (Example.bin0.fixBy 1)) [1, 0]).var v = Example.bin0 := by
          have e : ((ex (Example.bin0.fixBy 1)).var v) = Example.bin0 := by simp [ex, h3]
          have hd : dropSupersets (ex (Example.bin0.fixBy 1)) [1, 0]
              = supersetStep (ex (Example.bin0.fixBy 1)) 1 0 := rfl
          rw [hd]
          unfold supersetStep fixZero
          simp only []
          rw [if_neg]
          · exact e
          · have : ((ex (Example.bin0.fixBy 1)).con 1).expr.vars.filter (fun v =>
                decide (v ∉ ((ex (Example.bin0.fixBy 1)).con 0).expr.vars)) = [3] := by decide
            rw [this]; simpa using h3
        rw [this]
        by_cases h0 : v = 0
        · subst h0; decide
        · simp only [if_neg h0]; decide
    · decide +kernel

end Printemps.C26
