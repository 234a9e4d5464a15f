import Verif.Model.ConstraintType
import Verif.Model.Model

/-! # Model of `SelectionExtractor`, preprocess/selection_extractor.h, and `Model::set_selections`

`lt` compares variable names (used by the classification only).  The classification of the constraints is
computed for the given state; in the code it is the one of the last `setup_structure()`. -/

namespace Printemps.SelectionExtract

/-- `option::selection_mode::SelectionMode`, option/enumerate/selection_mode.h:11-19. -/
inductive Mode where
  | off | defined | smaller | larger | independent | userDefined
deriving Repr, DecidableEq

/-- `Selection(constraint_ptr)`, model_component/selection.h:48-56: the variables of the constraint.
Simplification: their reordering by `setup_related_constraint_ptrs` (selection.h:81-93) is not modelled. -/
def members (m : MState) (c : ConId) : List VarId := (m.con c).expr.vars

/-- Loop body of `extract_raw_selections`, preprocess/selection_extractor.h:27-45; membership in
`set_partitioning_ptrs` is the class given by `categorize_constraints`, model/model.h:1078-1137. -/
def isRaw (lt : VarId → VarId → Bool) (m : MState) (c : ConId) : Bool :=
  decide ((ConType.classify m.var lt (m.con c)).1 = .setPartitioning) && (m.con c).enabled &&
    (members m c).all (fun v => (m.var v).sense == .binary)

/-- `extract_raw_selections`, preprocess/selection_extractor.h:20-48. -/
def raws (lt : VarId → VarId → Bool) (m : MState) : List ConId := m.conIds.filter (isRaw lt m)

/-- The loop choosing selections without overlap with the ones chosen before,
preprocess/selection_extractor.h:119-145, 206-232, 326-356; `taken` is `extracted_variable_ptrs`. -/
def greedy (m : MState) : List VarId → List ConId → List ConId
  | _, [] => []
  | taken, c :: cs =>
    if (members m c).any (fun v => taken.contains v) then greedy m taken cs
    else c :: greedy m (taken ++ members m c) cs

/-- The choice of `extract_by_independent`, preprocess/selection_extractor.h:262-297.  `j != i` is stated for
constraints instead of positions: the list has no repetitions. -/
def independent (m : MState) (rs : List ConId) : List ConId :=
  rs.filter (fun c => !((members m c).any (fun v => rs.any (fun c' => decide (c' ≠ c) && (members m c').contains v))))

/-- The selections chosen in each mode, preprocess/selection_extractor.h:73-106: `Defined` 109-145, `Smaller`
and `Larger` 162-232, `Independent` 247-297, `UserDefined` 312-356.  `std::stable_sort` is `List.mergeSort`. -/
def chosen (lt : VarId → VarId → Bool) (user : ConId → Bool) (mode : Mode) (m : MState) : List ConId :=
  let rs := raws lt m
  match mode with
  | .off => []
  | .defined => greedy m [] rs
  | .smaller => greedy m [] (rs.mergeSort (fun a b => decide ((members m a).length ≤ (members m b).length)))
  | .larger => greedy m [] (rs.mergeSort (fun a b => decide ((members m a).length ≥ (members m b).length)))
  | .independent => independent m rs
  | .userDefined => greedy m [] (rs.filter user)

/-- `selection.constraint_ptr->disable()` for every chosen selection,
preprocess/selection_extractor.h:147-150. -/
def disableAll (m : MState) (cs : List ConId) : MState :=
  { m with con := fun c => if c ∈ cs then { m.con c with enabled := false } else m.con c }

/-- `Model::set_selections`, model/model.h:1660-1675; the selection of a chosen constraint is identified with
the number of the constraint. -/
def setSelections (m : MState) (cs : List ConId) : MState :=
  { m with
    var := cs.foldl (fun var c => (members m c).foldl
      (fun var v => Function.update var v ((var v).setSelection c)) var) m.var
    selected := fun s => if s ∈ cs then none else m.selected s }

/-- `extract(mode)`, preprocess/selection_extractor.h:73-106. -/
def extract (lt : VarId → VarId → Bool) (user : ConId → Bool) (mode : Mode) (m : MState) : MState :=
  let cs := chosen lt user mode m
  setSelections (disableAll m cs) cs

end Printemps.SelectionExtract
