import Verif.Model.Setup
import Verif.Spec.Dependent
import Verif.Spec.Setup

/-! # Specification: definitions without cycles -/

namespace Printemps.Spec
open Setup

/-- No cycle among the definitions of one round: there is a rank such that the definition of a variable mentions, of the
variables defined in the same round, only variables of smaller rank.  `chosen` are the defining constraints, `key c` the
variable defined by constraint `c`. -/
def NoCycle (m : MState) (key : ℕ → ℕ) (chosen : List ℕ) : Prop :=
  ∃ rank : ℕ → ℕ, ∀ c ∈ chosen, ∀ w ∈ (m.con c).expr.vars, w ≠ key c → w ∈ chosen.map key → rank w < rank (key c)

/-- In none of the rounds of the loop over dependent variables do the definitions chosen in that round form a cycle.  The
numeral bounds the number of rounds looked at. -/
def AcyclicRounds (o : Options) (lt : ℕ → ℕ → Bool) : ℕ → MState → Prop
  | 0, _ => True
  | n + 1, m =>
    NoCycle m (keyOf lt m) (Dependent.chosen m (keyOf lt m) (dependentCandidates o lt m)) ∧
    ∀ m1 m2 m3, Dependent.extract (fun v => (m.var v).sense) (keyOf lt m) (dependentCandidates o lt m) (fresh m.conIds)
        (fresh m.uexprIds) m = some m1 →
      Dependent.chosen m (keyOf lt m) (dependentCandidates o lt m) ≠ [] →
      Dependent.eliminateLoop (eliminationOrder m1) 4 m1 = some m2 →
      Presolve.reduceProblemSize (structured m2) = some (.ok m3) → AcyclicRounds o lt n (structured m3)

/-- The model `m'` with dependent variables stands for the user's model `m`: whatever is feasible for `m'` is feasible for
`m` and has the same objective value there, and every feasible assignment of `m` is matched by one of `m'` that is at
least as good. -/
structure KeepsWithDependents (m m' : MState) : Prop where
  sound : ∀ σ, FeasibleDep m' σ → Feasible m σ
  complete : ∀ σ, Feasible m σ → ∃ τ, FeasibleDep m' τ ∧ minObjective m τ ≤ minObjective m σ
  objective : ∀ σ, FeasibleDep m' σ → minObjective m' σ = minObjective m σ

/-- Dependent variables occur nowhere any more: not in the objective, not in an enabled constraint, not in the definition
of a dependent variable. -/
structure Eliminated (m : MState) : Prop where
  objective : ∀ v ∈ m.obj.vars, ¬ IsDependent m v
  constraints : ∀ c ∈ m.conIds, (m.con c).enabled = true → ∀ v ∈ (m.con c).expr.vars, ¬ IsDependent m v
  definitions : ∀ d ∈ m.dependents, ∀ v ∈ (m.uexpr d.2).expr.vars, ¬ IsDependent m v

/-- Some constraint of the model is not of one of the three set types. -/
def NotAllSet (lt : ℕ → ℕ → Bool) (m : MState) : Prop :=
  ∃ c ∈ m.conIds, (ConType.classify m.var lt (m.con c)).1 ∉ [.setPartitioning, .setCovering, .setPacking]

/-- The options with the extraction of dependent variables switched off. -/
def _root_.Printemps.Setup.Options.withoutDependents (o : Options) : Options :=
  { o with
    exclusiveOr := false, exclusiveNor := false, inverted := false, balanced := false, constantSum := false,
    constantDifference := false, constantRatio := false, intermediate := false }

/-- What is asked of a model of the user for the preprocessing with dependent variables.  The last two members are real
restrictions. -/
structure ProperDep (o : Options) (lt : ℕ → ℕ → Bool) (m : MState) : Prop where
  presolve : o.presolve = true
  /-- What is asked without dependent variables. -/
  proper : Proper o.withoutDependents m
  /-- There are no dependent variables yet, constraints mention variables of the model, expressions mention a variable
  once. -/
  none : m.dependents = []
  listed : ∀ c ∈ m.conIds, ∀ v ∈ (m.con c).expr.vars, v ∈ m.varIds
  exprs : ∀ i, ((m.uexpr i).expr.terms.map Prod.fst).Nodup
  feasible : ∃ σ, Feasible m σ
  /-- The definitions chosen in one round form no cycle. -/
  acyclic : o.dependent = true → ∀ m1, presolveStage o lt (structured m) = some (.ok m1) →
    AcyclicRounds o lt (m1.varIds.length + 1) (structured m1)
  /-- Set variables are not removed: this is switched off, or some constraint is not of a set type in the end. -/
  sets : o.setVariables = false ∨ ∀ m1 m2, presolveStage o lt (structured m) = some (.ok m1) →
    dependentStage o lt (structured m1) = some (.ok m2) → NotAllSet lt m2

end Printemps.Spec
