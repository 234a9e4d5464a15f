import Verif.Model.Program

/-! # Model of the life of a model object: building, solving, initializing

model/model.h:25-160, solver/solver.h:255-300.  The arrays built by a program are as in `Model/Program`; the names of the
arrays are stored apart from them (model/model.h:28-43), and so are the names of the elements
(multi_array/abstract_multi_array_element.h:12-23).  Simplifications: a name given to an element is kept when something is
assigned to it (see C73 for what happens to shared names); what a call does after the names have been set is arbitrary
(`rest`). -/

namespace Printemps.Life
open Program MultiArray

/-- Variables, expressions, constraints: model/model.h:28-33. -/
inductive Kind where
  | var | expr | con
deriving DecidableEq

/-- The members of `Model` a program works with, model/model.h:25-50: `names k` are `m_variable_names`, `m_expression_names`
and `m_constraint_names`; `own k i j` is the name of the `j`-th element of the `i`-th array, empty if it has none.  The names
inside `built` are not read here. -/
structure Obj where
  title : Names.Name := []
  built : St := {}
  names : Kind → List Names.Name := fun _ => []
  own : Kind → ℕ → ℕ → Names.Name := fun _ _ _ => []
  solved : Bool := false

/-- The shapes of the arrays of a kind (`m_variable_proxies` etc., model/model.h:28-33). -/
def shapes (s : St) : Kind → List (List ℕ)
  | .var => s.vars.map VarBlock.shape
  | .expr => s.exprs.map (fun a => a.2.shape)
  | .con => s.cons.map ConBlock.shape

/-- `Model::initialize`, model/model.h:111-160.  The vectors of arrays are reserved (114-119) but not cleared; names,
objective, direction and the mark "solved" are reset (112, 120-132).  The members computed by a call are not part of the
object here. -/
def reset (o : Obj) : Obj :=
  { title := []
    built := { o.built with obj := Expr.create [] 0, objDefined := false, isMin := true }
    names := fun _ => []
    own := o.own
    solved := false }

/-- The kind and name of the array a statement creates, model/model.h:193-196, 346-349, 502-505. -/
def creates : Stmt → Option (Kind × Names.Name)
  | .variables_ name _ _ => some (.var, name)
  | .expressions name _ => some (.expr, name)
  | .expressionOf name _ => some (.expr, name)
  | .constraints name _ => some (.con, name)
  | .constraintOf name _ => some (.con, name)
  | _ => none

/-- A new array: its name is put at the end of the list, its elements have no names
(multi_array/abstract_multi_array_element.h:30-35).  Simplification: also when it is created from an expression with a name. -/
def register (o : Obj) : Option (Kind × Names.Name) → Obj
  | none => o
  | some (k, name) =>
    { o with names := fun k' => if k' = k then o.names k ++ [name] else o.names k'
             own := fun k' i j => if k' = k ∧ i = (shapes o.built k).length then [] else o.own k' i j }

/-- A statement of a program (`Program.exec`), model/model.h:171-643. -/
def execute (o : Obj) (x : Stmt) : Outcome Obj :=
  (exec o.built x).bind fun s => .ok { register o (creates x) with built := s }

/-- The body of the inner loops of `setup_unique_names`, model/model.h:879-885, 894-901, 910-917, for the `j`-th element of the
`i`-th array.  `none`: a name behind the end of the list is read (undefined). -/
def nameElement (names : List Names.Name) (i : ℕ) (shape : List ℕ) (own : ℕ → ℕ → Names.Name) (j : ℕ) :
    Option (ℕ → ℕ → Names.Name) :=
  if own i j = [] then (names[i]?).map fun n => setAt own i (setAt (own i) j (n ++ indicesLabel shape j))
  else some own

/-- An inner loop over the given positions, model/model.h:877-886. -/
def nameElements (names : List Names.Name) (i : ℕ) (shape : List ℕ) : List ℕ → (ℕ → ℕ → Names.Name) →
    Option (ℕ → ℕ → Names.Name)
  | [], own => some own
  | j :: l, own => (nameElement names i shape own j).bind (nameElements names i shape l)

/-- An outer loop, model/model.h:875-887, 890-903, 906-919, from the `i`-th array on. -/
def nameArrays (names : List Names.Name) : ℕ → List (List ℕ) → (ℕ → ℕ → Names.Name) → Option (ℕ → ℕ → Names.Name)
  | _, [], own => some own
  | i, shape :: l, own =>
    (nameElements names i shape (List.range (numberOfElements shape)) own).bind (nameArrays names (i + 1) l)

/-- The names of the elements after `setup_unique_names`, model/model.h:871-920: variables, expressions, constraints. -/
def setupNames (o : Obj) : Option Obj :=
  (nameArrays (o.names .var) 0 (shapes o.built .var) (o.own .var)).bind fun v =>
  (nameArrays (o.names .expr) 0 (shapes o.built .expr) (o.own .expr)).bind fun e =>
  (nameArrays (o.names .con) 0 (shapes o.built .con) (o.own .con)).map fun c =>
    { o with own := fun k => match k with | .var => v | .expr => e | .con => c }

/-- `verify_problem`, preprocess/verifier.h:57-74: `false` if it throws. -/
def verified (o : Obj) : Bool := !o.built.vars.isEmpty && (!o.built.cons.isEmpty || o.built.objDefined)

/-- How a call ends: with a result; refused since the model has been solved (solver/solver.h:273-276); with another exception. -/
inductive Reply where
  | result | refused | failed
deriving DecidableEq

/-- `Solver::solve`, solver/solver.h:255-457: the check and the mark (272-279), verification and names (model/model.h:644-657),
and the `rest`, which may do anything to the object except to the mark, and may throw (`false`).  `none`: undefined. -/
def solve (rest : Obj → Option (Obj × Bool)) (o : Obj) : Option (Obj × Reply) :=
  if o.solved then some (o, .refused)
  else if !verified o then some ({ o with solved := true }, .failed)
  else
    (setupNames { o with solved := true }).bind fun o1 =>
    (rest o1).map fun r => ({ r.1 with solved := true }, if r.2 then .result else .failed)

/-- What a program does with a model object: statements (model/model.h:171-643), `set_name` of the model
(model/model.h:162-165) and of an element (multi_array/abstract_multi_array_element.h:70-72), `initialize`
(model/model.h:111), and calls of the solver, whose exceptions it catches. -/
inductive Act where
  | stmt (x : Stmt)
  | title (name : Names.Name)
  | label (k : Kind) (i j : ℕ) (name : Names.Name)
  | reset
  | solve

/-- One action, and the reply if it is a call of the solver: model/model.h:111-643, solver/solver.h:255-457. -/
def step (rest : Obj → Option (Obj × Bool)) (o : Obj) : Act → Outcome (Obj × Option Reply)
  | .stmt x => (execute o x).bind fun o' => .ok (o', none)
  | .title name => .ok ({ o with title := name }, none)
  | .label k i j name =>
    match (shapes o.built k)[i]? with
    | none => .undefined
    | some shape =>
      if j < numberOfElements shape then
        .ok ({ o with own := fun k' i' j' => if k' = k ∧ i' = i ∧ j' = j then name else o.own k' i' j' }, none)
      else .undefined
  | .reset => .ok (Life.reset o, none)
  | .solve =>
    match Life.solve rest o with
    | none => .undefined
    | some r => .ok (r.1, some r.2)

/-- A whole program, model/model.h:111-643, solver/solver.h:255-457: the object it leaves. -/
def run (rest : Obj → Option (Obj × Bool)) (o : Obj) : List Act → Outcome Obj
  | [] => .ok o
  | a :: l => (step rest o a).bind fun r => run rest r.1 l

end Printemps.Life
