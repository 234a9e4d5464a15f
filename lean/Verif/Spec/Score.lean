import Verif.Spec.Arith
import Verif.Spec.Move
import Verif.Model.Model

/-! # Specification: objective, violation and penalties of an assignment

Only the data types of the model are used here, none of its functions. -/

namespace Printemps.Spec

/-- Value of a linear expression under an assignment. -/
def exprValue (e : Expr) (σ : ℕ → ℤ) : ℚ := e.const + (e.terms.map (fun t => t.2 * (σ t.1 : ℚ))).sum

/-- The comparison with zero a constraint sense stands for. -/
def cmpOf : Sense → Cmp
  | .less => .le
  | .equal => .eq
  | .greater => .ge

/-- Amount by which a constraint is violated under an assignment. -/
def violation (c : Con) (σ : ℕ → ℤ) : ℚ := (cmpOf c.sense).gap (exprValue c.expr σ) 0

/-- Weighted penalty of a constraint: excess times the `≤`-weight plus shortage times the `≥`-weight,
counting only the directions the constraint restricts. -/
def penalty (c : Con) (σ : ℕ → ℤ) : ℚ :=
  match c.sense with
  | .less => max (exprValue c.expr σ) 0 * c.penLess
  | .greater => max (-(exprValue c.expr σ)) 0 * c.penGreater
  | .equal => max (exprValue c.expr σ) 0 * c.penLess + max (-(exprValue c.expr σ)) 0 * c.penGreater

/-- The enabled constraints of a model. -/
def enabledCons (m : MState) : List Con := (m.conIds.map m.con).filter (fun c => c.enabled)

/-- Total violation of all enabled constraints. -/
def totalViolation (m : MState) (σ : ℕ → ℤ) : ℚ := ((enabledCons m).map (fun c => violation c σ)).sum

/-- Total local penalty of all enabled constraints. -/
def localPenalty (m : MState) (σ : ℕ → ℤ) : ℚ := ((enabledCons m).map (fun c => penalty c σ)).sum

/-- Objective as minimised by the solver: the user's objective, negated for maximisation; `0` if the
model has no objective. -/
def minObjective (m : MState) (σ : ℕ → ℤ) : ℚ :=
  if m.objDefined then (if m.isMin then exprValue m.obj σ else - exprValue m.obj σ) else 0

/-- The current assignment of a model. -/
def assignment (m : MState) : ℕ → ℤ := fun v => (m.var v).value

/-- The numbers stored in a constraint object describe the assignment `σ`. -/
structure ConCurrent (c : Con) (σ : ℕ → ℤ) : Prop where
  expr : c.expr.value = exprValue c.expr σ
  value : c.value = exprValue c.expr σ
  pos : c.pos = max (exprValue c.expr σ) 0
  neg : c.neg = max (-(exprValue c.expr σ)) 0
  violation : c.violation = violation c σ
  margin : c.margin = (cmpOf c.sense).slack (exprValue c.expr σ) 0

/-- All stored numbers of a model (enabled constraints, objective, enabled user expressions) describe
its current assignment. -/
structure Current (m : MState) : Prop where
  con : ∀ c ∈ m.conIds, (m.con c).enabled = true → ConCurrent (m.con c) (assignment m)
  obj : m.objDefined = true →
    m.obj.value = exprValue m.obj (assignment m) ∧ m.objValue = exprValue m.obj (assignment m)
  uexpr : ∀ i ∈ m.uexprIds, (m.uexpr i).enabled = true →
    (m.uexpr i).expr.value = exprValue (m.uexpr i).expr (assignment m)

/-- Well-formed model data: maps hold each key once, constraints are listed once. -/
structure WellFormed (m : MState) : Prop where
  conIds : m.conIds.Nodup
  con : ∀ c ∈ m.conIds, ((m.con c).expr.terms.map Prod.fst).Nodup
  obj : (m.obj.terms.map Prod.fst).Nodup
  uexpr : ∀ i ∈ m.uexprIds, ((m.uexpr i).expr.terms.map Prod.fst).Nodup

/-- A move that the incremental machinery supports: pairwise distinct variables, none of them fixed. -/
structure GoodMove (m : MState) (alts : List (ℕ × ℤ)) : Prop where
  distinct : (alts.map Prod.fst).Nodup
  mutable : ∀ a ∈ alts, (m.var a.1).fixed = false

/-- The related-constraint list of a move: no enabled constraint twice, only constraints of the model, and every
enabled constraint in which an altered variable occurs. -/
structure Covers (m : MState) (alts : List (ℕ × ℤ)) (rel : List ℕ) : Prop where
  nodup : (rel.filter (fun c => (m.con c).enabled)).Nodup
  mem : ∀ c ∈ rel, c ∈ m.conIds
  covers : ∀ c ∈ m.conIds, (m.con c).enabled = true →
    (∃ a ∈ alts, a.1 ∈ (m.con c).expr.terms.map Prod.fst) → c ∈ rel

end Printemps.Spec
