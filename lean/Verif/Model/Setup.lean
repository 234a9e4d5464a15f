import Verif.Model.Dependent
import Verif.Model.SelectionExtract

/-! # Model of the problem transformation done by `Model::setup`, model/model.h:644-771

The stages modelled one by one in `Model/Presolve`, `Model/Dependent` and `Model/SelectionExtract` in the order and
with the lists of constraints `Model::setup` gives them.  Not part of this file: verification (`Model/Verifier`), names,
neighborhoods, GF(2) equations (`Model/GF2`) and penalty coefficients. -/

namespace Printemps.Setup
open Presolve

/-- The members of `option::PreprocessOption` and `option::NeighborhoodOption` that are read,
option/preprocess_option.h:46-61, with their defaults, option/preprocess_option.h:12-43 and
option/neighborhood_option.h:38-39. -/
structure Options where
  presolve : Bool := true
  implicitEqualities : Bool := true
  setConstraints : Bool := true
  setVariables : Bool := true
  duplicates : Bool := true
  exclusiveOr : Bool := true
  exclusiveNor : Bool := false
  inverted : Bool := true
  balanced : Bool := false
  constantSum : Bool := true
  constantDifference : Bool := true
  constantRatio : Bool := true
  intermediate : Bool := true
  selection : SelectionExtract.Mode := .independent
deriving Repr, DecidableEq

/-- `is_enabled_extract_dependent()`, option/preprocess_option.h:286-312. -/
def Options.dependent (o : Options) : Bool :=
  o.exclusiveOr || o.exclusiveNor || o.inverted || o.balanced || o.constantSum || o.constantDifference ||
    o.constantRatio || o.intermediate

/-- The constraints of one type, disabled ones included: a list of `constraint_type_reference()` as filled by
`categorize_constraints`, model/model.h:1078-1245. -/
def ofType (lt : VarId → VarId → Bool) (m : MState) (k : ConType) : List ConId :=
  m.conIds.filter (fun c => decide ((ConType.classify m.var lt (m.con c)).1 = k))

/-- The number of a new proxy of constraints or expressions (`create_constraints`, `create_expressions`,
model/model.h:481-508, 325-352). -/
def fresh (l : List ℕ) : ℕ := l.foldr (fun a b => max (a + 1) b) 0

/-- `setup_structure`, model/model.h:859-868, as far as it is stored: the coefficients of the variables.  The lists
by type and the related constraints are recomputed where they are read. -/
def structured (m : MState) : MState := m.setupObjSens.setupSens

/-- The constraints examined for implicit equalities, preprocess/problem_size_reducer.h:712-765. -/
def implicitCandidates (lt : VarId → VarId → Bool) (m : MState) : List ConId :=
  ofType lt m .precedence ++ ofType lt m .variableBound ++ ofType lt m .setPacking ++ ofType lt m .setCovering ++
    ofType lt m .invariantKnapsack ++ ofType lt m .multipleCovering ++ ofType lt m .minMax ++ ofType lt m .maxMin ++
    ofType lt m .binPacking ++ ofType lt m .knapsack ++
    (ofType lt m .generalLinear).filter (fun c => decide ((m.con c).sense ≠ .equal))

/-- First stage of the presolve, model/model.h:679-683. -/
def implicitStage (o : Options) (lt : VarId → VarId → Bool) (m : MState) : MState :=
  if o.implicitEqualities then
    extractImplicitEqualities (fun v => (m.var v).sense) (implicitCandidates lt m) (fresh m.conIds) m
  else m

/-- Second stage, model/model.h:685-689; `m0` is the model the types were computed for. -/
def setConstraintStage (o : Options) (lt : VarId → VarId → Bool) (m0 m : MState) : MState :=
  if o.setConstraints then
    removeRedundantSetConstraints (ofType lt m0 .exclusiveOr ++ ofType lt m0 .setPartitioning) m
  else m

/-- Sequencing of the statements of `Model::setup`, model/model.h:660-770, where a step may not end (`none`), may
throw or be undefined. -/
def andThen (r : Option (Outcome MState)) (f : MState → Option (Outcome MState)) : Option (Outcome MState) :=
  match r with
  | some (.ok m) => f m
  | r => r

/-- The first block of the presolve, model/model.h:676-692. -/
def presolveStage (o : Options) (lt : VarId → VarId → Bool) (m : MState) : Option (Outcome MState) :=
  if o.presolve then reduceProblemSize (setConstraintStage o lt m (implicitStage o lt m)) else some (.ok m)

/-- The constraints examined by the extraction of dependent variables,
preprocess/dependent_variable_extractor.h:47-158: exclusive or/nor only without variables of set partitioning
constraints. -/
def dependentCandidates (o : Options) (lt : VarId → VarId → Bool) (m : MState) : List ConId :=
  let taken := (ofType lt m .setPartitioning).flatMap (fun c => (m.con c).expr.vars)
  let valid := fun c => (m.con c).expr.vars.all (fun v => !taken.contains v)
  (if o.exclusiveOr then (ofType lt m .exclusiveOr).filter valid else []) ++
  (if o.exclusiveNor then (ofType lt m .exclusiveNor).filter valid else []) ++
  (if o.inverted then ofType lt m .invertedIntegers else []) ++
  (if o.balanced then ofType lt m .balancedIntegers else []) ++
  (if o.constantSum then ofType lt m .constantSum else []) ++
  (if o.constantDifference then ofType lt m .constantDifference else []) ++
  (if o.constantRatio then ofType lt m .constantRatio else []) ++
  (if o.intermediate then ofType lt m .intermediate else [])

/-- `key_variable_ptr()` as set by the classification, model_component/constraint.h:342-741; the constraints asked
for it have one. -/
def keyOf (lt : VarId → VarId → Bool) (m : MState) (c : ConId) : VarId :=
  (ConType.classify m.var lt (m.con c)).2.getD 0

/-- The dependent variables in the order they are eliminated: 0/1 variables first,
preprocess/dependent_variable_extractor.h:319-333.
Simplification: within a kind the order is the one of extraction instead of the one of the variables. -/
def eliminationOrder (m : MState) : List (VarId × ℕ) :=
  m.dependents.filter (fun d => (m.var d.1).sense == .dependentBinary) ++
    m.dependents.filter (fun d => (m.var d.1).sense == .dependentInteger)

/-- The loop extracting and eliminating dependent variables, model/model.h:703-719.  The first argument bounds the
number of rounds; `none` means that it (or the room for the inner loop) was not enough. -/
def dependentLoop (o : Options) (lt : VarId → VarId → Bool) : ℕ → MState → Option (Outcome MState)
  | 0, _ => none
  | fuel + 1, m =>
    match Dependent.extract (fun v => (m.var v).sense) (keyOf lt m) (dependentCandidates o lt m) (fresh m.conIds)
        (fresh m.uexprIds) m with
    | none => some .thrown
    | some m1 =>
      if Dependent.chosen m (keyOf lt m) (dependentCandidates o lt m) = [] then some (.ok m)
      else
        match Dependent.eliminateLoop (eliminationOrder m1) 4 m1 with
        | none => none
        | some m2 => andThen (reduceProblemSize (structured m2)) (fun m3 => dependentLoop o lt fuel (structured m3))

/-- The block of the dependent variables, model/model.h:699-720. -/
def dependentStage (o : Options) (lt : VarId → VarId → Bool) (m : MState) : Option (Outcome MState) :=
  if o.presolve && o.dependent then dependentLoop o lt (m.varIds.length + 1) m else some (.ok m)

/-- `remove_redundant_set_variables`, model/model.h:725-731. -/
def setVariableStage (o : Options) (lt : VarId → VarId → Bool) (m : MState) : MState :=
  if o.presolve && o.setVariables then
    removeRedundantSetVariables (ofType lt m .setPartitioning ++ ofType lt m .setCovering ++ ofType lt m .setPacking) m
  else m

/-- The types in the order of `remove_duplicated_constraints`, preprocess/problem_size_reducer.h:901-1021;
the type `knapsack` is not in the list. -/
def duplicateTypes : List ConType :=
  [.singleton, .exclusiveOr, .exclusiveNor, .invertedIntegers, .balancedIntegers, .constantSum, .constantDifference,
   .constantRatio, .aggregation, .precedence, .variableBound, .trinomialExclusiveNor, .setPartitioning, .setPacking,
   .setCovering, .cardinality, .invariantKnapsack, .multipleCovering, .binaryFlow, .integerFlow, .softSelection,
   .minMax, .maxMin, .intermediate, .equationKnapsack, .binPacking, .integerKnapsack, .gf2, .generalLinear]

/-- `remove_duplicated_constraints`, model/model.h:736-742; `m0` is the model the types were computed for. -/
def duplicateStage (o : Options) (lt : VarId → VarId → Bool) (m0 m : MState) : MState :=
  if o.presolve && o.duplicates then removeDuplicated (duplicateTypes.map (ofType lt m0)) m else m

/-- Everything before the extraction of selections, model/model.h:660-751. -/
def reduce (o : Options) (lt : VarId → VarId → Bool) (m : MState) : Option (Outcome MState) :=
  andThen (presolveStage o lt (structured m)) fun m1 =>
  andThen (dependentStage o lt (structured m1)) fun m2 =>
    some (.ok (structured (duplicateStage o lt m2 (setVariableStage o lt m2))))

/-- The transformation of the problem, model/model.h:660-770: `reduce`, then the extraction of selections when there
are more variables than constraints.  `user` tells which constraints the user declared as selections. -/
def prepare (o : Options) (lt : VarId → VarId → Bool) (user : ConId → Bool) (m : MState) : Option (Outcome MState) :=
  andThen (reduce o lt m) fun m1 =>
    some (.ok (structured
      (if o.selection ≠ .off ∧ m1.varIds.length > m1.conIds.length then
        SelectionExtract.extract lt user o.selection m1 else m1)))

/-- The selections stored by the extraction, model/model.h:1660-1675 (`m_selections`), each given by its constraint;
none if the extraction is not done. -/
def selections (o : Options) (lt : VarId → VarId → Bool) (user : ConId → Bool) (m : MState) : List ConId :=
  match reduce o lt m with
  | some (.ok m1) =>
    if o.selection ≠ .off ∧ m1.varIds.length > m1.conIds.length then SelectionExtract.chosen lt user o.selection m1
    else []
  | _ => []

end Printemps.Setup
