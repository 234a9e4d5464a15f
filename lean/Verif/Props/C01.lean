import Verif.Spec.Arith
import Verif.Lemmas.Expression

/-! # C01 — expression arithmetic means arithmetic -/

namespace Printemps.C01
open Spec Printemps.Expr

/-- The expression object obtained by running the user's term through the overloaded binary operators
(model_component/expression_binary_operator.h). -/
def buildBinary : Arith → Expr
  | .var v => ofVar v
  | .add a b => (buildBinary a).add (buildBinary b)
  | .sub a b => (buildBinary a).sub (buildBinary b)
  | .neg a => (buildBinary a).neg
  | .addNum a c => (buildBinary a).addValue c
  | .subNum a c => (buildBinary a).subValue c
  | .numSub c a => valueSub c (buildBinary a)
  | .mulNum a c => (buildBinary a).mul c
  | .divNum a c => (buildBinary a).div c

/-- The same term built with the compound assignments (`+=`, `-=`, `*=`, `/=`,
model_component/expression.h:519-591) on the left operand. -/
def buildCompound : Arith → Expr
  | .var v => ofVar v
  | .add a b => (buildCompound a).addAssign (buildCompound b)
  | .sub a b => (buildCompound a).subAssign (buildCompound b)
  | .neg a => (buildCompound a).neg
  | .addNum a c => (buildCompound a).addAssignValue c
  | .subNum a c => (buildCompound a).subAssignValue c
  | .numSub c a => (buildCompound a).neg.addAssignValue c
  | .mulNum a c => (buildCompound a).mulAssign c
  | .divNum a c => (buildCompound a).divAssign c

/-- Evaluating an expression built with the binary operators gives the value of the written term. -/
theorem binary_operators_mean_arithmetic (t : Arith) (_h : t.DivOK) (σ : ℕ → ℤ) :
    (buildBinary t).evaluate σ = t.denote σ := by
  induction t with
  | var v => exact evaluate_ofVar v σ
  | add a b iha ihb => simp [buildBinary, Arith.denote, evaluate_add, iha _h.1, ihb _h.2]
  | sub a b iha ihb => simp [buildBinary, Arith.denote, evaluate_sub, iha _h.1, ihb _h.2]
  | neg a ih => simp [buildBinary, Arith.denote, evaluate_neg, ih _h]
  | addNum a c ih => simp [buildBinary, Arith.denote, evaluate_addValue, ih _h]
  | subNum a c ih => simp [buildBinary, Arith.denote, evaluate_subValue, ih _h]
  | numSub c a ih => simp [buildBinary, Arith.denote, evaluate_valueSub, ih _h]
  | mulNum a c ih => simp [buildBinary, Arith.denote, evaluate_mul, ih _h]
  | divNum a c ih => simp [buildBinary, Arith.denote, evaluate_div, ih _h.1]

/-- Evaluating an expression built with compound assignments gives the value of the written term. -/
theorem compound_assignments_mean_arithmetic (t : Arith) (_h : t.DivOK) (σ : ℕ → ℤ) :
    (buildCompound t).evaluate σ = t.denote σ := by
  induction t with
  | var v => exact evaluate_ofVar v σ
  | add a b iha ihb => simp [buildCompound, Arith.denote, evaluate_addAssign, iha _h.1, ihb _h.2]
  | sub a b iha ihb => simp [buildCompound, Arith.denote, evaluate_subAssign, iha _h.1, ihb _h.2]
  | neg a ih => simp [buildCompound, Arith.denote, evaluate_neg, ih _h]
  | addNum a c ih => simp [buildCompound, Arith.denote, evaluate_addAssignValue, ih _h]
  | subNum a c ih => simp [buildCompound, Arith.denote, evaluate_subAssignValue, ih _h]
  | numSub c a ih =>
    simp [buildCompound, Arith.denote, evaluate_addAssignValue, evaluate_neg, ih _h]; ring
  | mulNum a c ih => simp [buildCompound, Arith.denote, evaluate_mulAssign, ih _h]
  | divNum a c ih => simp [buildCompound, Arith.denote, evaluate_divAssign, ih _h.1]

/-- No variable occurs twice in the result. -/
theorem binary_operators_no_duplicates (t : Arith) : ((buildBinary t).terms.map Prod.fst).Nodup := by
  induction t with
  | var v => exact wf_ofVar v
  | add a b iha ihb => exact wf_addAssign _ _ iha
  | sub a b iha ihb => exact wf_subAssign _ _ iha
  | neg a ih => exact wf_neg _ ih
  | addNum a c ih => exact ih
  | subNum a c ih => exact ih
  | numSub c a ih => exact wf_neg _ ih
  | mulNum a c ih => exact wf_mulAssign _ _ ih
  | divNum a c ih => exact wf_divAssign _ _ ih

theorem compound_assignments_no_duplicates (t : Arith) :
    ((buildCompound t).terms.map Prod.fst).Nodup := by
  induction t with
  | var v => exact wf_ofVar v
  | add a b iha ihb => exact wf_addAssign _ _ iha
  | sub a b iha ihb => exact wf_subAssign _ _ iha
  | neg a ih => exact wf_neg _ ih
  | addNum a c ih => exact ih
  | subNum a c ih => exact ih
  | numSub c a ih => exact wf_neg _ ih
  | mulNum a c ih => exact wf_mulAssign _ _ ih
  | divNum a c ih => exact wf_divAssign _ _ ih

/-- The result does not depend on the iteration order of the hash maps: two expressions with the same
entries in any order evaluate to the same number. -/
theorem evaluation_order_irrelevant (e f : Expr) (hc : e.const = f.const) (hp : e.terms.Perm f.terms)
    (σ : ℕ → ℤ) : e.evaluate σ = f.evaluate σ := by
  rw [evaluate_eq, evaluate_eq, hc]
  congr 1
  exact (hp.map _).sum_eq

/-- Assigning to an expression from an expression-like object (variable, proxy) through
`operator=(ExpressionLike)` discards the constant (model_component/expression.h:500-506): the assigned
expression differs from its source exactly by the source's constant. -/
theorem assign_like_drops_constant (e f : Expr) (σ : ℕ → ℤ) :
    (e.assignLike f).evaluate σ = f.evaluate σ - f.const := by
  simp only [evaluate_eq, assignLike]; ring

/-- Hypotheses met by `(2*x0 - x1 + 3) / 2 - x0`. -/
example : ∃ t : Arith, t.DivOK ∧ ∃ σ, (buildBinary t).evaluate σ = 5 / 2 := by
  refine ⟨.sub (.divNum (.addNum (.sub (.mulNum (.var 0) 2) (.var 1)) 3) 2) (.var 0),
    by simp [Arith.DivOK], fun v => if v = 0 then 7 else -2, ?_⟩
  rw [binary_operators_mean_arithmetic _ (by simp [Arith.DivOK])]
  norm_num [Arith.denote]

/-- The assignment operator does lose information: `e = f` with `f = x0 + 1`. -/
example : ∃ e f : Expr, ∃ σ : ℕ → ℤ, (e.assignLike f).evaluate σ ≠ f.evaluate σ :=
  ⟨⟨[], 0, 0⟩, ⟨[(0, 1)], 1, 0⟩, fun _ => 0, by rw [assign_like_drops_constant]; norm_num⟩

end Printemps.C01
