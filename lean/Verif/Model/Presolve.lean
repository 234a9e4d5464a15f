import Verif.Model.Model

/-! # Model of `printemps/preprocess/problem_size_reducer.h`

Simplification for the whole file: messages and the update counters are dropped; a thrown
`std::logic_error` of `set_bound` and the undefined conversion of an infinite quotient to `int` are
separate outcomes. -/

namespace Printemps

/-- Outcome of a presolve step: normal end, exception thrown by `Variable::set_bound`
(model_component/variable.h:213-217), or undefined behaviour (conversion to `int` of the infinite result of
a division by a zero coefficient, e.g. preprocess/problem_size_reducer.h:424-429). -/
inductive Outcome (α : Type) where
  | ok (a : α)
  | thrown
  | undefined
deriving Repr, DecidableEq

namespace Outcome

/-- Sequencing of C++ statements: an exception or undefined behaviour ends the run
(preprocess/problem_size_reducer.h:212-511). -/
def bind {α β : Type} (o : Outcome α) (f : α → Outcome β) : Outcome β :=
  match o with
  | .ok a => f a
  | .thrown => .thrown
  | .undefined => .undefined

/-- A call that throws when it has no result (model_component/variable.h:211-229). -/
def ofOption {α : Type} : Option α → Outcome α
  | some a => .ok a
  | none => .thrown

end Outcome

namespace Presolve

/-- `BOUND_LIMIT`, preprocess/problem_size_reducer.h:217. -/
def BOUND_LIMIT : ℤ := 100000

/-- Raise the lower bound when the new one is tighter and small enough
(preprocess/problem_size_reducer.h:349-358, 424-429, 495-500).  `old` holds the bounds read before. -/
def raiseLower (v old : Var) (bound : ℤ) : Outcome Var :=
  if bound > old.lb ∧ |bound| < BOUND_LIMIT then .ofOption (v.setBound bound old.ub) else .ok v

/-- Reduce the upper bound when the new one is tighter and small enough
(preprocess/problem_size_reducer.h:325-334, 441-446, 477-482).  `old` holds the bounds read before. -/
def reduceUpper (v old : Var) (bound : ℤ) : Outcome Var :=
  if bound < old.ub ∧ |bound| < BOUND_LIMIT then .ofOption (v.setBound old.lb bound) else .ok v

/-- Body of the loop over positive coefficients, preprocess/problem_size_reducer.h:408-455.
`lo`, `hi` are the constraint bounds computed before the loop. -/
def tightenPositive (c : Con) (lo hi a : ℚ) (v : Var) : Outcome Var :=
  (if c.isGe then raiseLower v v ⌈-(hi - a * (v.ub : ℚ)) / a⌉ else .ok v).bind fun w =>
    if c.isLe then reduceUpper w v ⌊-(lo - a * (v.lb : ℚ)) / a⌋ else .ok w

/-- Body of the loop over negative (and zero) coefficients,
preprocess/problem_size_reducer.h:458-508. -/
def tightenNegative (c : Con) (lo hi a : ℚ) (v : Var) : Outcome Var :=
  if a = 0 then .undefined
  else
    (if c.isGe then reduceUpper v v ⌊-(hi - a * (v.lb : ℚ)) / a⌋ else .ok v).bind fun w =>
      if c.isLe then raiseLower w v ⌈-(lo - a * (v.ub : ℚ)) / a⌉ else .ok w

/-- One loop of preprocess/problem_size_reducer.h:408-508 over a list of sensitivities. -/
def tightenLoop (f : ℚ → Var → Outcome Var) :
    List (VarId × ℚ) → (VarId → Var) → Outcome (VarId → Var)
  | [], var => .ok var
  | t :: ts, var => (f t.2 (var t.1)).bind fun w => tightenLoop f ts (Function.update var t.1 w)

/-- The boxes of all variables (reads of model_component/variable.h:242-313). -/
def boxes (var : VarId → Var) : VarId → Expr.Box := fun v => (var v).box

/-- The redundancy test, preprocess/problem_size_reducer.h:258-270. -/
def isRedundant (c : Con) (var : VarId → Var) : Bool :=
  match c.sense with
  | .equal => decide (c.expr.lowerBound (boxes var) = 0) && decide (c.expr.upperBound (boxes var) = 0)
  | .less => decide (c.expr.upperBound (boxes var) ≤ 0)
  | .greater => decide (c.expr.lowerBound (boxes var) ≥ 0)

/-- `mutable_variable_sensitivities()`, model_component/expression.h:186-207. -/
def mutableTerms (e : Expr) (var : VarId → Var) : List (VarId × ℚ) :=
  e.terms.filter (fun t => !(var t.1).fixed)

/-- The singleton branch, preprocess/problem_size_reducer.h:290-389; the flag tells whether the
constraint is disabled.  A zero coefficient gives an infinite or undefined quotient: for an equality
`fix_by` converts it to `int` (undefined); for an inequality no branch applies. -/
def singleton (c : Con) (var : VarId → Var) (v : VarId) (a : ℚ) : Outcome ((VarId → Var) × Bool) :=
  let bound := -(c.expr.fixedTermValue (boxes var) + c.expr.const) / a
  match c.sense with
  | .equal =>
    if a = 0 then .undefined
    else .ok (Function.update var v ((var v).fixBy (Expr.truncQ bound)), true)
  | .less =>
    if a > 0 then
      (reduceUpper (var v) (var v) ⌊bound⌋).bind fun w => .ok (Function.update var v w, true)
    else if a < 0 then
      (raiseLower (var v) (var v) ⌈bound⌉).bind fun w => .ok (Function.update var v w, true)
    else .ok (var, false)
  | .greater =>
    if a < 0 then
      (reduceUpper (var v) (var v) ⌊bound⌋).bind fun w => .ok (Function.update var v w, true)
    else if a > 0 then
      (raiseLower (var v) (var v) ⌈bound⌉).bind fun w => .ok (Function.update var v w, true)
    else .ok (var, false)

/-- `remove_redundant_constraint_with_tightening_variable_bound`,
preprocess/problem_size_reducer.h:212-511, for an enabled constraint.  Result: new variables and
whether the constraint was disabled. -/
def tightenConstraint (c : Con) (var : VarId → Var) : Outcome ((VarId → Var) × Bool) :=
  if isRedundant c var then .ok (var, true)
  else
    match mutableTerms c.expr var with
    | [(v, a)] => singleton c var v a
    | ts =>
      let lo := c.expr.lowerBound (boxes var)
      let hi := c.expr.upperBound (boxes var)
      (tightenLoop (tightenPositive c lo hi) (ts.filter (fun t => decide (t.2 > 0))) var).bind fun var1 =>
      (tightenLoop (tightenNegative c lo hi) (ts.filter (fun t => !decide (t.2 > 0))) var1).bind fun var2 =>
        .ok (var2, false)

/-- `Constraint::disable()`, model_component/constraint.h:1106-1108. -/
def disable (m : MState) (c : ConId) : MState :=
  { m with con := Function.update m.con c { m.con c with enabled := false } }

/-- `remove_redundant_constraints_with_tightening_variable_bounds`,
preprocess/problem_size_reducer.h:184-209; returns the number of disabled constraints. -/
def tightenAll : List ConId → MState → Outcome (MState × ℕ)
  | [], m => .ok (m, 0)
  | c :: cs, m =>
    if (m.con c).enabled then
      (tightenConstraint (m.con c) m.var).bind fun r =>
        let m1 := { m with var := r.1 }
        let m2 := if r.2 then disable m1 c else m1
        (tightenAll cs m2).bind fun s => .ok (s.1, s.2 + if r.2 then 1 else 0)
    else tightenAll cs m

/-- `remove_implicit_fixed_variable`, preprocess/problem_size_reducer.h:536-560. -/
def fixImplicit (v : Var) : Var × Bool := if v.lb = v.ub then (v.fixBy v.lb, true) else (v, false)

/-- `remove_implicit_fixed_variables`, preprocess/problem_size_reducer.h:514-533. -/
def fixImplicitAll : List VarId → (VarId → Var) → (VarId → Var) × ℕ
  | [], var => (var, 0)
  | v :: vs, var =>
    if (var v).fixed then fixImplicitAll vs var
    else
      let r := fixImplicit (var v)
      let s := fixImplicitAll vs (Function.update var v r.1)
      (s.1, s.2 + if r.2 then 1 else 0)

/-- The constraints a variable occurs in: `related_constraint_ptrs()` as filled by
`setup_variable_related_constraints`, model/model.h:941-968 (disabled constraints are included).
Simplification: the order by name is replaced by the order of `conIds`. -/
def relatedCons (m : MState) (v : VarId) : List ConId :=
  m.conIds.filter (fun c => decide (v ∈ (m.con c).expr.vars))

/-- The value `remove_independent_variable` fixes a variable at,
preprocess/problem_size_reducer.h:94-157. -/
def independentValue (m : MState) (v : VarId) : ℤ :=
  if |m.objSens v| < EPSILON_10 then 0
  else if m.objSens v > 0 then (if m.isMin then (m.var v).lb else (m.var v).ub)
  else (if m.isMin then (m.var v).ub else (m.var v).lb)

/-- `remove_independent_variables`, preprocess/problem_size_reducer.h:82-181. -/
def removeIndependent : List VarId → MState → MState × ℕ
  | [], m => (m, 0)
  | v :: vs, m =>
    if (m.var v).fixed then removeIndependent vs m
    else if relatedCons m v = [] then
      let s := removeIndependent vs
        { m with var := Function.update m.var v ((m.var v).fixBy (independentValue m v)) }
      (s.1, s.2 + 1)
    else removeIndependent vs m

/-- The `while (true)` loop of `reduce_problem_size`, preprocess/problem_size_reducer.h:56-73.
The first argument bounds the number of rounds; `none` means that it was not enough. -/
def reduceLoop : ℕ → MState → Option (Outcome MState)
  | 0, _ => none
  | fuel + 1, m =>
    match tightenAll m.conIds m with
    | .thrown => some .thrown
    | .undefined => some .undefined
    | .ok (m1, disabled) =>
      let r := fixImplicitAll m1.varIds m1.var
      let m2 := { m1 with var := r.1 }
      if disabled = 0 ∧ r.2 = 0 then some (.ok m2) else reduceLoop fuel m2

/-- `reduce_problem_size`, preprocess/problem_size_reducer.h:46-79, with room for one round more than
there are constraints and variables (shown to be enough). -/
def reduceProblemSize (m : MState) : Option (Outcome MState) :=
  let m1 := (removeIndependent m.varIds m).1
  reduceLoop (m1.conIds.length + m1.varIds.length + 1) m1

/-- `Expression::setup_hash()`, model_component/expression.h:253-263: sum of the variable pointers
modulo 2^64. -/
def exprHash (e : Expr) : ℕ := e.vars.sum % 2 ^ 64

/-- `unordered_map::operator==` as used by `Expression::equal`, model_component/expression.h:467: same
size and every entry found in the other map with the same value. -/
def mapEq (a b : List (VarId × ℚ)) : Bool := a.length == b.length && a.all (fun t => decide (t ∈ b))

/-- `Expression::equal`, model_component/expression.h:452-468. -/
def exprEqual (e f : Expr) : Bool :=
  exprHash e == exprHash f && e.terms.length == f.terms.length && decide (e.const = f.const) &&
    mapEq e.terms f.terms

/-- Inner loop of `remove_duplicated_constraints` for a fixed constraint `i`,
preprocess/problem_size_reducer.h:1056-1098. -/
def dropDuplicatesOf (i : ConId) (js : List ConId) (m : MState) : MState :=
  js.foldl (fun m j =>
    if (m.con j).enabled = true ∧ (m.con i).sense = (m.con j).sense ∧
        exprEqual (m.con i).expr (m.con j).expr = true
    then disable m j else m) m

/-- `remove_duplicated_constraints(constraint_ptrs)` after the sort by hash,
preprocess/problem_size_reducer.h:1040-1108.  The constraints following `i` with the same hash are
`takeWhile`; on the first other hash the outer index jumps there; at the end of the list it stops. -/
def dropDuplicates (m : MState) : List ConId → MState
  | [] => m
  | i :: rest =>
    if (m.con i).enabled then
      let same := fun j => exprHash (m.con i).expr == exprHash (m.con j).expr
      dropDuplicates (dropDuplicatesOf i (rest.takeWhile same) m) (rest.dropWhile same)
    else dropDuplicates m rest
termination_by l => l.length
decreasing_by
  · simp only [List.length_cons]
    exact Nat.lt_succ_of_le ((List.dropWhile_sublist _).length_le)
  · simp

/-- The stable sort by hash of preprocess/problem_size_reducer.h:1030-1038 and 775-779. -/
def sortByHash (m : MState) (cs : List ConId) : List ConId :=
  cs.mergeSort (fun a b => decide (exprHash (m.con a).expr ≤ exprHash (m.con b).expr))

/-- `remove_duplicated_constraints` of all constraint types, preprocess/problem_size_reducer.h:893-1025.
`groups` are the lists of constraints per type. -/
def removeDuplicated (groups : List (List ConId)) (m : MState) : MState :=
  groups.foldl (fun m g => if g.length ≤ 1 then m else dropDuplicates m (sortByHash m g)) m

/-- The matching test of `extract_implicit_equality_constraints`,
preprocess/problem_size_reducer.h:817-860. -/
def impliesEquality (ci cj : Con) : Bool :=
  cj.enabled &&
    ((ci.sense != cj.sense && exprEqual ci.expr cj.expr) ||
     (ci.sense == cj.sense && exprEqual ci.expr cj.expr.neg))

/-- The loops of `extract_implicit_equality_constraints`, preprocess/problem_size_reducer.h:784-872,
collecting the additional equalities `expression == 0`. -/
def implicitEqualities (senseOf : VarId → VarSense) (m : MState) : List ConId → MState × List Con
  | [] => (m, [])
  | i :: rest =>
    if (m.con i).enabled = true ∧ (m.con i).sense ≠ .equal then
      let same := fun j => exprHash (m.con i).expr == exprHash (m.con j).expr
      match (rest.takeWhile same).find? (fun j => impliesEquality (m.con i) (m.con j)) with
      | some j =>
        let r := implicitEqualities senseOf (disable (disable m i) j) rest
        (r.1, Con.setup ((m.con i).expr.subValue 0) .equal senseOf :: r.2)
      | none => implicitEqualities senseOf m (rest.dropWhile same)
    else implicitEqualities senseOf m rest
termination_by l => l.length
decreasing_by
  · simp
  · simp only [List.length_cons]
    exact Nat.lt_succ_of_le ((List.dropWhile_sublist _).length_le)
  · simp

/-- `extract_implicit_equality_constraints`, preprocess/problem_size_reducer.h:706-890; the additional
constraints get fresh numbers `next`, `next+1`, ... (`create_constraints("additional", n)`). -/
def extractImplicitEqualities (senseOf : VarId → VarSense) (cs : List ConId) (next : ConId) (m : MState) :
    MState :=
  if cs.length ≤ 1 then m
  else
    let r := implicitEqualities senseOf m (sortByHash m cs)
    { r.1 with
      con := fun c => if next ≤ c ∧ c < next + r.2.length then r.2.getD (c - next) (r.1.con c) else r.1.con c
      conIds := r.1.conIds ++ (List.range r.2.length).map (next + ·) }

/-- `variable_ptr->fix_by(0)` for a list of variables, preprocess/problem_size_reducer.h:1170-1182. -/
def fixZero (vs : List VarId) (m : MState) : MState :=
  { m with var := fun v => if v ∈ vs then (m.var v).fixBy 0 else m.var v }

/-- Outer loop of `remove_redundant_set_constraints`, preprocess/problem_size_reducer.h:1150-1190: the
first later constraint whose variables are all contained in constraint `i` makes `i` redundant. -/
def dropSupersets (m : MState) : List ConId → MState
  | [] => m
  | i :: rest =>
    match rest.find? (fun j => (m.con j).expr.vars.all (fun v => decide (v ∈ (m.con i).expr.vars))) with
    | some j =>
      dropSupersets (fixZero ((m.con i).expr.vars.filter (fun v => decide (v ∉ (m.con j).expr.vars)))
        (disable m i)) rest
    | none => dropSupersets m rest

/-- `remove_redundant_set_constraints`, preprocess/problem_size_reducer.h:1111-1195; `cs` are the
exclusive-or constraints followed by the set partitioning constraints. -/
def removeRedundantSetConstraints (cs : List ConId) (m : MState) : MState :=
  dropSupersets m
    (cs.mergeSort (fun a b => decide ((m.con b).expr.terms.length ≤ (m.con a).expr.terms.length)))

/-- `Variable::setup_hash()`, model_component/variable.h:655-665. -/
def varHash (m : MState) (v : VarId) : ℕ := (relatedCons m v).sum % 2 ^ 64

/-- The order of the variables in `remove_redundant_set_variables`,
preprocess/problem_size_reducer.h:610-650: by hash, then better objective coefficient, then larger value.
Simplification: the final comparison by name is left to the stability of the sort. -/
def setVarLe (m : MState) (a b : VarId) : Bool :=
  if varHash m a ≠ varHash m b then decide (varHash m a < varHash m b)
  else if m.objSens a ≠ m.objSens b then
    (if m.isMin then decide (m.objSens a < m.objSens b) else decide (m.objSens a > m.objSens b))
  else decide ((m.var a).value ≥ (m.var b).value)

/-- Inner loop of `remove_redundant_set_variables` for a fixed variable `i`,
preprocess/problem_size_reducer.h:664-697. -/
def dropDominatedBy (i : VarId) (js : List VarId) (m : MState) : MState :=
  js.foldl (fun m j =>
    if (m.var j).fixed = true ∧ (m.var j).value = 0 then m
    else if relatedCons m i = relatedCons m j then fixZero [j] m
    else m) m

/-- Outer loop of `remove_redundant_set_variables`, preprocess/problem_size_reducer.h:652-700. -/
def dropDominated (m : MState) : List VarId → MState
  | [] => m
  | i :: rest =>
    if (m.var i).fixed then dropDominated m rest
    else
      let same := fun j => varHash m i == varHash m j
      let m1 := dropDominatedBy i (rest.takeWhile same) m
      if rest.dropWhile same = [] then m1 else dropDominated m1 rest

/-- `remove_redundant_set_variables`, preprocess/problem_size_reducer.h:563-703.  `setCons` are the set
partitioning, covering and packing constraints found by the classification. -/
def removeRedundantSetVariables (setCons : List ConId) (m : MState) : MState :=
  if m.conIds.length = 0 then m
  else if m.conIds.length ≠ setCons.length then m
  else dropDominated m (m.varIds.mergeSort (setVarLe m))

end Presolve
end Printemps
