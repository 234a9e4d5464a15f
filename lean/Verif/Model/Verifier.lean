import Verif.Model.SelectionExtract

/-! # Model of `Verifier`, preprocess/verifier.h: checking and correcting the initial values

`none` is a thrown `std::logic_error`.  A selection is identified with its constraint (see
`SelectionExtract.setSelections`); its variables are given by `members`. -/

namespace Printemps.Verifier

/-- `set_value_if_mutable(x)` for one variable of the model. -/
def setVar (m : MState) (v : VarId) (x : ℤ) : MState :=
  { m with var := Function.update m.var v ((m.var v).setValueIfMutable x) }

/-- `set_value_if_mutable(x)` for the variables of a list in turn, preprocess/verifier.h:148-156, 172-183,
240-250. -/
def setAll (m : MState) (vs : List VarId) (x : ℤ) : MState := vs.foldl (fun m v => setVar m v x) m

/-- The variable `violation` of type `int`, preprocess/verifier.h:207-234, 277-304; `rel` are the
values collected for the selections before.  Simplification: no overflow of `int`. -/
def violationOf (m : MState) (rel : ConId → ℚ) (v : VarId) : ℤ :=
  (m.sens v).foldl (fun acc s =>
    let x := rel s.1 + s.2 + (m.con s.1).expr.const
    Expr.truncQ ((acc : ℚ) + match (m.con s.1).sense with
      | .less => max x 0
      | .equal => |x|
      | .greater => max (-x) 0)) 0

/-- `std::numeric_limits<int>::max()`. -/
def INT_MAX : ℤ := 2147483647

/-- The first variable with the smallest violation, preprocess/verifier.h:203-238, 271-308. -/
def best (score : VarId → ℤ) (vs : List VarId) : Option VarId :=
  (vs.foldl (fun (acc : ℤ × Option VarId) v =>
    if score v < acc.1 then (score v, some v) else acc) (INT_MAX, none)).2

/-- `related_constraint_ptr_values[...] += ...`, preprocess/verifier.h:187-191, 254-258, 321-325. -/
def addRel (m : MState) (rel : ConId → ℚ) (v : VarId) : ConId → ℚ :=
  (m.sens v).foldl (fun rel s => Function.update rel s.1 (rel s.1 + s.2)) rel

/-- The four cases for one selection, preprocess/verifier.h:161-339; `ones` are the variables with value 1 and
`fixedOnes` the fixed ones of them. -/
def settle (correct : Bool) (m : MState) (rel : ConId → ℚ) (s : ConId) (vs ones fixedOnes : List VarId) :
    Option (MState × (ConId → ℚ)) :=
  if fixedOnes.length = 1 then
    match fixedOnes with
    | x :: _ =>
      if !correct && decide (ones.length ≥ 2) then none
      else
        let m := setVar (setAll m (ones.filter (fun v => v ≠ x)) 0) x 1
        some (m, addRel m rel x)
    | [] => none
  else if ones.length > 1 then
    if !correct then none
    else match best (violationOf m rel) ones with
      | none => none
      | some x =>
        let m := setVar (setAll m (ones.filter (fun v => v ≠ x)) 0) x 1
        some (m, addRel m rel x)
  else if ones.length = 0 then
    if !correct then none
    else match best (violationOf m rel) (vs.filter (fun v => !(m.var v).fixed)) with
      | none => none
      | some x =>
        let m := setVar m x 1
        some (m, addRel m rel x)
  else some ({ m with selected := Function.update m.selected s ones.head? }, rel)

/-- Loop body of `verify_and_correct_selection_variables_initial_values`, preprocess/verifier.h:96-340. -/
def selectionStep (correct : Bool) (m : MState) (rel : ConId → ℚ) (s : ConId) :
    Option (MState × (ConId → ℚ)) :=
  let vs := SelectionExtract.members m s
  let ones := vs.filter (fun v => (m.var v).value = 1)
  let fixedOnes := ones.filter (fun v => (m.var v).fixed)
  let invalid := vs.filter (fun v => (m.var v).value ≠ 0 ∧ (m.var v).value ≠ 1)
  if invalid.any (fun v => (m.var v).fixed) then none
  else if fixedOnes.length > 1 then none
  else if !invalid.isEmpty && !correct then none
  else settle correct (setAll m invalid 0) rel s vs ones fixedOnes

/-- `verify_and_correct_selection_variables_initial_values`, preprocess/verifier.h:77-343. -/
def selections (correct : Bool) : List ConId → (ConId → ℚ) → MState → Option MState
  | [], _, m => some m
  | s :: ss, rel, m => do
    let r ← selectionStep correct m rel s
    selections correct ss r.2 r.1

/-- Loop body of `verify_and_correct_binary_variables_initial_values`, preprocess/verifier.h:354-381. -/
def binaryStep (correct : Bool) (x : Var) : Option Var :=
  if x.value = 0 ∨ x.value = 1 then some x
  else if x.fixed then none
  else if !correct then none
  else some (x.setValueIfMutable (if x.value < x.lb then x.lb else if x.value > x.ub then x.ub else x.value))

/-- Loop body of `verify_and_correct_integer_variables_initial_values`, preprocess/verifier.h:394-424. -/
def integerStep (correct : Bool) (x : Var) : Option Var :=
  if x.value ≥ x.lb ∧ x.value ≤ x.ub then some x
  else if x.fixed then none
  else if !correct then none
  else some (x.setValueIfMutable (if x.value < x.lb then x.lb else if x.value > x.ub then x.ub else x.value))

/-- The loops over the variables of one sense, preprocess/verifier.h:353-383, 393-426. -/
def overVars (p : Var → Bool) (f : Var → Option Var) : List VarId → MState → Option MState
  | [], m => some m
  | v :: vs, m =>
    if p (m.var v) then
      (f (m.var v)).bind (fun x => overVars p f vs { m with var := Function.update m.var v x })
    else overVars p f vs m

/-- The three checks in the order of `Model::setup`, model/model.h:772-783 (and of `import_solution`,
model/model.h:3343-3349, with `correct = false`). -/
def verifyAll (correct : Bool) (sels : List ConId) (m : MState) : Option MState := do
  let m ← selections correct sels (fun _ => 0) m
  let m ← overVars (fun x => x.sense == .binary) (binaryStep correct) m.varIds m
  overVars (fun x => x.sense == .integer) (integerStep correct) m.varIds m

end Printemps.Verifier
