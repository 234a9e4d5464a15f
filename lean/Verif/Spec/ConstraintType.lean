import Verif.Model.ConstraintType
import Verif.Spec.Feasible

/-! # Specification: what the classes of constraints mean

`Meaning` says, for every class, which relation between the variables a constraint of this class expresses,
for all assignments giving 0/1 variables the values 0 or 1. -/

namespace Printemps.Spec

/-- The variables that are 0/1 variables have value 0 or 1. -/
def ZeroOne (var : ℕ → Var) (c : Con) (σ : ℕ → ℤ) : Prop :=
  ∀ v ∈ c.expr.vars, ((var v).sense = .binary ∨ (var v).sense = .dependentBinary ∨ (var v).sense = .selection) →
    σ v = 0 ∨ σ v = 1

/-- The number of variables of the constraint with value 1. -/
def ones (c : Con) (σ : ℕ → ℤ) : ℕ := (c.expr.vars.filter (fun v => σ v = 1)).length

/-- Nonnegative weights and a capacity such that the constraint says `Σ weights = / ≤ capacity`. -/
def Weighted (c : Con) (rel : ℚ → ℚ → Prop) : Prop :=
  ∃ (w : ℕ → ℚ) (cap : ℚ), (∀ v ∈ c.expr.vars, 0 ≤ w v) ∧
    ∀ σ : ℕ → ℤ, Holds c σ ↔ rel ((c.expr.vars.map (fun v => w v * (σ v : ℚ))).sum) cap

/-- The relation named by the class. -/
def Meaning (var : ℕ → Var) (c : Con) : ConType → Option ℕ → Prop
  | .singleton, _ => ∃ x, c.expr.vars = [x]
  | .exclusiveOr, key => ∃ x y, x ≠ y ∧ c.expr.vars = [x, y] ∧ (key = some x ∨ key = some y) ∧
      ∀ σ, ZeroOne var c σ → (Holds c σ ↔ (σ x = 1 ∧ σ y = 0) ∨ (σ x = 0 ∧ σ y = 1))
  | .exclusiveNor, key => ∃ x y, x ≠ y ∧ c.expr.vars = [x, y] ∧ (key = some x ∨ key = some y) ∧
      ∀ σ, ZeroOne var c σ → (Holds c σ ↔ (σ x = 0 ∧ σ y = 0) ∨ (σ x = 1 ∧ σ y = 1))
  | .invertedIntegers, key => ∃ x y, x ≠ y ∧ c.expr.vars = [x, y] ∧ (key = some x ∨ key = some y) ∧
      ∀ σ, Holds c σ ↔ σ x = - σ y
  | .balancedIntegers, key => ∃ x y, x ≠ y ∧ c.expr.vars = [x, y] ∧ (key = some x ∨ key = some y) ∧
      ∀ σ, Holds c σ ↔ σ x = σ y
  | .constantSum, key => ∃ x y, x ≠ y ∧ c.expr.vars = [x, y] ∧ (key = some x ∨ key = some y) ∧
      ∃ s : ℚ, s ≠ 0 ∧ ∀ σ, Holds c σ ↔ (σ x : ℚ) + σ y = s
  | .constantDifference, key => ∃ x y, x ≠ y ∧ c.expr.vars = [x, y] ∧ (key = some x ∨ key = some y) ∧
      ∃ s : ℚ, s ≠ 0 ∧ ∀ σ, Holds c σ ↔ (σ x : ℚ) - σ y = s
  | .constantRatio, key => ∃ x y, x ≠ y ∧ (c.expr.vars = [x, y] ∨ c.expr.vars = [y, x]) ∧ key = some x ∧
      ∃ s : ℚ, |s| ≠ 1 ∧ ∀ σ, Holds c σ ↔ (σ x : ℚ) = s * σ y
  | .aggregation, _ => ∃ x y, x ≠ y ∧ c.expr.vars = [x, y] ∧
      ∃ a b s : ℚ, ∀ σ, Holds c σ ↔ a * (σ x : ℚ) + b * σ y = s
  | .precedence, _ => ∃ x y, x ≠ y ∧ (c.expr.vars = [x, y] ∨ c.expr.vars = [y, x]) ∧
      ∃ d : ℚ, ∀ σ, Holds c σ ↔ (σ x : ℚ) ≤ σ y + d
  | .variableBound, _ => ∃ x y, x ≠ y ∧ c.expr.vars = [x, y] ∧
      ∃ a b s : ℚ, ∀ σ, Holds c σ ↔ a * (σ x : ℚ) + b * σ y ≤ s
  | .trinomialExclusiveNor, key => ∃ x y z, c.expr.vars.Perm [x, y, z] ∧ key = some z ∧
      ∀ σ, ZeroOne var c σ → (Holds c σ ↔ σ x = σ z ∧ σ y = σ z)
  | .setPartitioning, _ => ∀ σ, ZeroOne var c σ → (Holds c σ ↔ ones c σ = 1)
  | .setPacking, _ => ∀ σ, ZeroOne var c σ → (Holds c σ ↔ ones c σ ≤ 1)
  | .setCovering, _ => ∀ σ, ZeroOne var c σ → (Holds c σ ↔ 1 ≤ ones c σ)
  | .cardinality, _ => ∃ k : ℚ, 2 ≤ k ∧ ∀ σ, ZeroOne var c σ → (Holds c σ ↔ (ones c σ : ℚ) = k)
  | .invariantKnapsack, _ => ∃ k : ℚ, 2 ≤ k ∧ ∀ σ, ZeroOne var c σ → (Holds c σ ↔ (ones c σ : ℚ) ≤ k)
  | .multipleCovering, _ => ∃ k : ℚ, 2 ≤ k ∧ ∀ σ, ZeroOne var c σ → (Holds c σ ↔ k ≤ (ones c σ : ℚ))
  | .binaryFlow, _ => ∃ (ins outs : List ℕ) (s : ℚ), c.expr.vars.Perm (ins ++ outs) ∧
      ∀ σ, Holds c σ ↔ ((ins.map (fun v => (σ v : ℚ))).sum = (outs.map (fun v => (σ v : ℚ))).sum + s)
  | .integerFlow, _ => ∃ (ins outs : List ℕ) (s : ℚ), c.expr.vars.Perm (ins ++ outs) ∧
      1 < ins.length ∧ 1 < outs.length ∧
      ∀ σ, Holds c σ ↔ ((ins.map (fun v => (σ v : ℚ))).sum = (outs.map (fun v => (σ v : ℚ))).sum + s)
  | .softSelection, key => ∃ x l, key = some x ∧ l ≠ [] ∧ c.expr.vars.Perm (x :: l) ∧
      ∀ σ, ZeroOne var c σ → (Holds c σ ↔
        (σ x = 0 ∧ ∀ v ∈ l, σ v = 0) ∨ (σ x = 1 ∧ (l.filter (fun v => σ v = 1)).length = 1))
  | .minMax, key => ∃ x, key = some x ∧ x ∈ c.expr.vars ∧
      ∃ f : Expr, x ∉ f.vars ∧ ∀ σ, Holds c σ ↔ exprValue f σ ≤ (σ x : ℚ)
  | .maxMin, key => ∃ x, key = some x ∧ x ∈ c.expr.vars ∧
      ∃ f : Expr, x ∉ f.vars ∧ ∀ σ, Holds c σ ↔ (σ x : ℚ) ≤ exprValue f σ
  | .intermediate, key => ∃ x, key = some x ∧ x ∈ c.expr.vars ∧
      ∃ f : Expr, x ∉ f.vars ∧ ∀ σ, Holds c σ ↔ (σ x : ℚ) = exprValue f σ
  | .equationKnapsack, _ => Weighted c (· = ·)
  | .binPacking, _ => Weighted c (· ≤ ·)
  | .knapsack, _ => Weighted c (· ≤ ·)
  | .integerKnapsack, _ => Weighted c (· ≤ ·)
  | .gf2, key => ∃ x l, key = some x ∧ c.expr.vars.Perm (x :: l) ∧
      ∃ p < 2, ∀ σ : ℕ → ℤ, (∀ v ∈ l, (σ v = 0 ∨ σ v = 1) ∧ (var v).lb ≤ σ v ∧ σ v ≤ (var v).ub) →
        ((∃ z, (var x).lb ≤ z ∧ z ≤ (var x).ub ∧ Holds c (Function.update σ x z)) ↔
          (l.filter (fun v => σ v = 1)).length % 2 = p)
  | .generalLinear, _ => True

end Printemps.Spec
