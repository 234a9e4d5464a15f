import Verif.Lemmas.PresolveOpt
import Verif.Lemmas.Example

/-! # C28 — fixing dominated set variables keeps the optimum -/

namespace Printemps.C28
open Spec Presolve

/-- Coefficient of a variable in the objective as minimised by the solver. -/
def minCost (m : MState) (v : ℕ) : ℚ :=
  if m.objDefined then (if m.isMin then Expr.lookup m.obj.terms v else - Expr.lookup m.obj.terms v) else 0

/-- Partial: for a model whose enabled constraints are all set partitioning, packing or covering constraints
(`Σ x (=, ≤, ≥) 1`) over 0/1 variables, removing dominated variables keeps the optimum, provided that no
variable occurring in the same constraints as an unfixed one is already fixed at a nonzero value, and that every
variable has a nonnegative cost or occurs in an enabled constraint that is not a covering constraint.  Both
provisos are needed, see below. -/
theorem dropping_dominated_keeps_optimum_partial (setCons : List ℕ) (m : MState) (hn : m.varIds.Nodup)
    (hw : ∀ c ∈ m.conIds, ((m.con c).expr.terms.map Prod.fst).Nodup) (ho : (m.obj.terms.map Prod.fst).Nodup)
    (hs : ∀ v, m.objSens v = Expr.lookup m.obj.terms v)
    (hset : ∀ c ∈ m.conIds, (m.con c).enabled = true →
      (∀ t ∈ (m.con c).expr.terms, t.2 = 1) ∧ (m.con c).expr.const = -1)
    (hpos : ∀ c ∈ m.conIds, ∀ v ∈ (m.con c).expr.vars,
      ((m.var v).fixed = true → 0 ≤ (m.var v).value) ∧ ((m.var v).fixed = false → 0 ≤ (m.var v).lb))
    (hfix : ∀ i ∈ m.varIds, (m.var i).fixed = false → ∀ j ∈ m.varIds,
      (∀ c ∈ m.conIds, i ∈ (m.con c).expr.vars ↔ j ∈ (m.con c).expr.vars) →
      (m.var j).fixed = true → (m.var j).value = 0)
    (hb : ∀ v ∈ m.varIds, (m.var v).fixed = false → (m.var v).lb = 0 ∧ (m.var v).ub = 1)
    (hd : ∀ v ∈ m.varIds, 0 ≤ minCost m v ∨ ∃ c ∈ m.conIds, (m.con c).enabled = true ∧ (m.con c).sense ≠ .greater ∧
      v ∈ (m.con c).expr.vars) :
    KeepsOptimum m (removeRedundantSetVariables setCons m) :=
  removeRedundantSetVariables_keeps setCons m ⟨hw, ho, hs, hset, hpos,
    fun i hi fi j hj hr => hfix i hi fi j hj (fun c hc => related_eq_mem hr c hc), hb,
    fun v hv _ => droppable_of_con m v hw hset hpos (hd v hv)⟩ hn

/-! ### Non-vacuity -/

/-- `x0 + x1 (sense) 1` with objective `min a*x0 + b*x1`. -/
def ex (sense : Sense) (a b : ℚ) (v1 : Var) : MState :=
  { Example.raw with
    var := fun v => if v = 1 then v1 else Example.bin0
    varIds := [0, 1]
    con := fun _ => { expr := ⟨[(0, 1), (1, 1)], -1, 0⟩, sense := sense }
    conIds := [0]
    obj := ⟨[(0, a), (1, b)], 0, 0⟩
    objSens := fun v => Expr.lookup [(0, a), (1, b)] v }

theorem ex_run (sense : Sense) (a b : ℚ) (v1 : Var) (h : a < b) :
    removeRedundantSetVariables [0] (ex sense a b v1) = dropDominated (ex sense a b v1) [0, 1] := by
  unfold removeRedundantSetVariables
  rw [if_neg (by simp [ex]), if_neg (by simp [ex])]
  congr 1
  apply List.mergeSort_of_pairwise
  show List.Pairwise _ [0, 1]
  rw [List.pairwise_cons]
  refine ⟨fun b' hb' => ?_, by simp⟩
  rw [List.mem_singleton] at hb'
  subst hb'
  rw [setVarLe_iff]
  right
  have : varHash (ex sense a b v1) 0 = varHash (ex sense a b v1) 1 := by
    simp [varHash, relatedCons, ex, Expr.vars]
  refine ⟨this, Or.inl ?_⟩
  simpa [ex, Example.raw, Expr.lookup] using h

/-- covering with costs 1 and 2: `x1` is fixed at zero -/
example : (∀ v, 0 ≤ minCost (ex .greater 1 2 Example.bin0) v) ∧
    ((removeRedundantSetVariables [0] (ex .greater 1 2 Example.bin0)).var 1).fixed = true ∧
    ((removeRedundantSetVariables [0] (ex .greater 1 2 Example.bin0)).var 0).fixed = false := by
  refine ⟨fun v => ?_, ?_, ?_⟩
  · simp only [minCost, ex, Example.raw, if_true, Expr.lookup]
    split
    · norm_num
    · split <;> norm_num
  · rw [ex_run _ _ _ _ (by norm_num)]; decide +kernel
  · rw [ex_run _ _ _ _ (by norm_num)]; decide +kernel

/-! ### Counterexamples -/

/-- With negative costs in a covering constraint the optimum is lost: `x0 + x1 >= 1`, `min -2*x0 - x1` has
optimum `-3`, but after the removal every feasible assignment has objective at least `-2`. -/
theorem negative_costs_lose_optimum : ∃ (m : MState),
    (∃ σ, Feasible m σ ∧ minObjective m σ = -3) ∧
    ∀ σ, Feasible (removeRedundantSetVariables [0] m) σ → -2 ≤ minObjective m σ := by
  refine ⟨ex .greater (-2) (-1) Example.bin0, ⟨fun _ => 1, ⟨fun v => ?_, by decide +kernel⟩, by decide +kernel⟩, ?_⟩
  · show Admits (if v = 1 then Example.bin0 else Example.bin0) 1
    rw [ite_self]; decide
  · rw [ex_run _ _ _ _ (by norm_num)]
    intro σ hf
    have h1 := (hf.1 1).1 (by decide +kernel)
    have h0 := (hf.1 0).2 (by decide +kernel)
    have e1 : ((dropDominated (ex .greater (-2) (-1) Example.bin0) [0, 1]).var 1).value = 0 := by decide +kernel
    have e0 : ((dropDominated (ex .greater (-2) (-1) Example.bin0) [0, 1]).var 0).ub = 1 := by decide +kernel
    rw [e1] at h1
    rw [e0] at h0
    have hq : (σ 0 : ℚ) ≤ 1 := by exact_mod_cast h0.2
    simp only [minObjective, exprValue, ex, Example.raw, if_true, List.map_cons, List.map_nil, List.sum_cons,
      List.sum_nil, h1]
    push_cast
    linarith

/-- A variable fixed at 1 by the user is reset to 0: `x0 + x1 >= 1` with `x1` fixed at 1 and costs 1, 2 has
no assignment cheaper than 2, after the removal an assignment of cost 1 is accepted. -/
theorem fixed_variable_is_overwritten : ∃ (m : MState),
    (∀ σ, Feasible m σ → 2 ≤ minObjective m σ) ∧
    ∃ σ, Feasible (removeRedundantSetVariables [0] m) σ ∧ minObjective m σ = 1 := by
  refine ⟨ex .greater 1 2 (Example.bin0.fixBy 1), fun σ hf => ?_, fun v => if v = 0 then 1 else 0, ?_, by decide +kernel⟩
  · have h1 := (hf.1 1).1 rfl
    have h0 := ((hf.1 0).2 rfl).1
    have e1 : σ 1 = 1 := h1
    have e0 : (0 : ℤ) ≤ σ 0 := h0
    have hq : (0 : ℚ) ≤ σ 0 := by exact_mod_cast e0
    simp only [minObjective, exprValue, ex, Example.raw, if_true, List.map_cons, List.map_nil, List.sum_cons,
      List.sum_nil, e1]
    push_cast
    linarith
  · rw [ex_run _ _ _ _ (by norm_num)]
    have hd : dropDominated (ex .greater 1 2 (Example.bin0.fixBy 1)) [0, 1]
        = fixZero [1] (ex .greater 1 2 (Example.bin0.fixBy 1)) := rfl
    rw [hd]
    refine ⟨fun v => ?_, by decide +kernel⟩
    by_cases h1 : v = 1
    · subst h1; decide +kernel
    · have e : (fixZero [1] (ex .greater 1 2 (Example.bin0.fixBy 1))).var v = Example.bin0 := by
        simp [fixZero, ex, h1]
      rw [e]
      by_cases h0 : v = 0
      · subst h0; decide
      · simp only [h0, if_false]; decide

end Printemps.C28
