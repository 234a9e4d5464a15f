import Verif.Model.Controller

/-! # Model of the status of a call: solver/status.h, and of the lists it counts

The lists of variables and constraints are filled when the structure of the model is set up (model/model.h:859-868).  The
ones of the first setup are stored as "original" (model/model.h:667-670), the ones of the last setup are "presolved".  The
lists hold pointers: what is counted inside a variable or a constraint is read when the status is written. -/

namespace Printemps.Status

/-- The five senses of a variable in the order of `add_variable_type_detail`, solver/status.h:384-407. -/
def senses : List VarSense := [.binary, .integer, .selection, .dependentBinary, .dependentInteger]

/-- The thirty types of a constraint in the order of `add_constraint_type_detail`, solver/status.h:485-618. -/
def types : List ConType :=
  [.singleton, .exclusiveOr, .exclusiveNor, .invertedIntegers, .balancedIntegers, .constantSum, .constantDifference,
   .constantRatio, .aggregation, .precedence, .variableBound, .trinomialExclusiveNor, .setPartitioning, .setPacking,
   .setCovering, .cardinality, .invariantKnapsack, .multipleCovering, .binaryFlow, .integerFlow, .softSelection, .minMax,
   .maxMin, .intermediate, .equationKnapsack, .binPacking, .knapsack, .integerKnapsack, .gf2, .generalLinear]

/-- The lists of `VariableReference`, `VariableTypeReference`, `ConstraintReference` and `ConstraintTypeReference` that
are counted. -/
structure Lists where
  vars : List VarId
  fixedVars : List VarId
  mutableVars : List VarId
  ofSense : VarSense → List VarId
  cons : List ConId
  enabledCons : List ConId
  disabledCons : List ConId
  ofType : ConType → List ConId

/-- `categorize_variables` and `categorize_constraints`, model/model.h:1029-1245. -/
def lists (lt : VarId → VarId → Bool) (m : MState) : Lists where
  vars := m.varIds
  fixedVars := m.varIds.filter (fun v => (m.var v).fixed)
  mutableVars := m.varIds.filter (fun v => !(m.var v).fixed)
  ofSense s := m.varIds.filter (fun v => decide ((m.var v).sense = s))
  cons := m.conIds
  enabledCons := m.conIds.filter (fun c => (m.con c).enabled)
  disabledCons := m.conIds.filter (fun c => !(m.con c).enabled)
  ofType k := Setup.ofType lt m k

/-- `utility::Range<int>`, utility/range.h:13-57, after `update` with every number of the list. -/
structure Range where
  min : ℤ
  max : ℤ
deriving Repr, DecidableEq

/-- `Range::initialize`, utility/range.h:34-37: the greatest and the least `int`. -/
def Range.initial : Range := ⟨2147483647, -2147483648⟩

/-- `Range::update`, utility/range.h:28-31. -/
def Range.update (r : Range) (x : ℤ) : Range := ⟨Min.min r.min x, Max.max r.max x⟩

/-- The range of a list of numbers, solver/status.h:263-277. -/
def rangeOf (l : List ℤ) : Range := l.foldl Range.update .initial

/-- One half of `nonzero_detail`, solver/status.h:297-318. -/
structure Nonzero where
  nonzero : ℤ
  density : ℚ
  variableMean : ℚ
  variableRange : Range
  constraintMean : ℚ
  constraintRange : Range
deriving Repr, DecidableEq

/-- The number of terms of a constraint, `sensitivities().size()`, solver/status.h:268. -/
def termsOf (m : MState) (c : ConId) : ℤ := (m.con c).expr.terms.length

/-- The number of constraints of a variable, `related_constraint_ptrs().size()`, solver/status.h:275. -/
def consOf (m : MState) (v : VarId) : ℤ := (m.relatedOf v).length

/-- The body of the loop of `add_nonzero_detail`, solver/status.h:248-318, with the model `m` at the time of writing. -/
def nonzeroDetail (l : Lists) (m : MState) : Nonzero :=
  let n := l.enabledCons.foldl (fun a c => a + termsOf m c) 0
  { nonzero := n
    density := if 0 < l.mutableVars.length ∧ 0 < l.enabledCons.length then
      (n : ℚ) / ((l.mutableVars.length : ℚ) * (l.enabledCons.length : ℚ)) else 0
    variableMean := if 0 < l.mutableVars.length then (n : ℚ) / (l.mutableVars.length : ℚ) else 0
    variableRange := rangeOf (l.mutableVars.map (consOf m))
    constraintMean := if 0 < l.enabledCons.length then (n : ℚ) / (l.enabledCons.length : ℚ) else 0
    constraintRange := rangeOf (l.enabledCons.map (termsOf m)) }

/-- One half of each detail of the status file: `variable_detail`, `variable_type_detail`, `constraint_detail`,
`constraint_type_detail` and `nonzero_detail`, solver/status.h:233-621. -/
structure Half where
  all : ℕ
  fixed : ℕ
  «mutable» : ℕ
  sense : VarSense → ℕ
  allCons : ℕ
  enabled : ℕ
  disabled : ℕ
  type : ConType → ℕ
  nonzero : Nonzero

/-- The halves labelled "original": all elements of the lists by sense and type are counted, solver/status.h:233-621. -/
def original (l : Lists) (m : MState) : Half where
  all := l.vars.length
  fixed := l.fixedVars.length
  «mutable» := l.mutableVars.length
  sense s := (l.ofSense s).length
  allCons := l.cons.length
  enabled := l.enabledCons.length
  disabled := l.disabledCons.length
  type k := (l.ofType k).length
  nonzero := nonzeroDetail l m

/-- The halves labelled "presolved": of the lists by sense the variables that are not fixed are counted
(solver/status.h:365-372), of the lists by type the enabled constraints (solver/status.h:468-478). -/
def presolved (l : Lists) (m : MState) : Half where
  all := l.vars.length
  fixed := l.fixedVars.length
  «mutable» := l.mutableVars.length
  sense s := (l.ofSense s).countP (fun v => !(m.var v).fixed)
  allCons := l.cons.length
  enabled := l.enabledCons.length
  disabled := l.disabledCons.length
  type k := (l.ofType k).countP (fun c => (m.con c).enabled)
  nonzero := nonzeroDetail l m

/-- The members of `Status` that depend on the model, solver/status.h:101-113, and the details of the file
(solver/status.h:624-633).  Not modelled: times, option, penalty coefficients, and the counts of the search (see C84). -/
structure Info where
  foundFeasible : Bool
  numberOfVariables : ℕ
  numberOfConstraints : ℕ
  original : Half
  presolved : Half

/-- `Status::setup` and the `add_…` methods, solver/status.h:90-621: `first` and `last` are the models of the first and
the last setup of the structure, `m` is the model at the end of the call. -/
def info (lt : VarId → VarId → Bool) (first last m : MState) : Info where
  foundFeasible := m.feasible
  numberOfVariables := (lists lt last).vars.length
  numberOfConstraints := (lists lt last).cons.length
  original := Status.original (lists lt first) m
  presolved := Status.presolved (lists lt last) m

/-- The status of a call whose problem is `O`, whose setup ends with `m1` (model/model.h:660, 770) and that ends with the
model `m`: the first setup of the structure does not change what is counted. -/
def ofCall (i : Whole.Input) (O m1 m : MState) : Info := info i.lt (Setup.structured O) m1 m

end Printemps.Status
