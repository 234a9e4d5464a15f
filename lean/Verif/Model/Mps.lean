import Verif.Model.Text
import Verif.Model.Assoc
import Verif.Model.Model

/-! # Model of the MPS reader (mps/mps.h), the import and the writer (model/model.h:3459-3705)

A file is the list of its lines.  `none` is a thrown `std::logic_error` or undefined behaviour (reading a missing
item, converting a number outside of `int`).  Simplifications: the counters of constraints and the continuous
bounds (which the import ignores) are not modelled. -/

namespace Printemps.Mps
open Text

/-- Names are lists of characters. -/
abbrev Name := List Char

/-- `MPSVariable`, mps/mps_variable.h:13-42 (without the continuous fields). -/
structure MVar where
  integer : Bool := false
  lb : ℤ := 0
  ub : ℤ := INT_HALF_MAX
  fixedValue : ℤ := 0
  boundDefined : Bool := false
  fixed : Bool := false
deriving DecidableEq, Repr

/-- `MPSConstraint`, mps/mps_constraint.h:13-31. -/
structure MCon where
  sense : Sense := .less
  coef : Assoc Name ℚ := []
  rhs : ℚ := 0

/-- `MPS`, mps/mps.h:16-55. -/
structure File where
  name : Name := []
  vars : Assoc Name MVar := []
  cons : Assoc Name MCon := []
  objName : Name := []
  objCoef : Assoc Name ℚ := []
  varNames : List Name := []
  conNames : List Name := []

/-- `MPSReadMode`, mps/mps_read_mode.h:12-20. -/
inductive Mode where
  | initial | name | rows | columns | rhs | ranges | bounds
deriving DecidableEq, Repr

/-- The variables of the parser, mps/mps.h:82-89: file so far, `read_mode`, `variable_sense` (integer or not). -/
structure St where
  file : File
  mode : Mode
  integer : Bool

/-- Consecutive pairs of items, the loops over `(ITEMS_SIZE - 1) / 2`, mps/mps.h:193-195, 233-235, 254-256. -/
def pairs : List Name → List (Name × Name)
  | a :: b :: r => (a, b) :: pairs r
  | _ => []

/-- A constraint row, mps/mps.h:147-167. -/
def addRow (f : File) (s : Sense) (n : Name) : File :=
  { f with cons := f.cons.modify n {} (fun c => { c with sense := s }), conNames := f.conNames ++ [n] }

/-- The ROWS section, mps/mps.h:143-175. -/
def rowsStep (f : File) : List Name → Option File
  | k :: rest =>
    if k = ['N'] then rest.head?.map (fun n => { f with objName := n })
    else if k = ['L'] then rest.head?.map (addRow f .less)
    else if k = ['E'] then rest.head?.map (addRow f .equal)
    else if k = ['G'] then rest.head?.map (addRow f .greater)
    else none
  | [] => some f

/-- One coefficient of the COLUMNS section, mps/mps.h:194-214. -/
def addEntry (n : Name) (f : File) (e : Name × Name) : Option File :=
  let q := atof e.2
  if |q| > EPSILON_10 then
    if e.1 = f.objName then some { f with objCoef := f.objCoef.put n q }
    else match f.cons.get e.1 with
      | some c => some { f with cons := f.cons.put e.1 { c with coef := c.coef.put n q } }
      | none => none
  else some f

/-- All coefficients of a line, mps/mps.h:193-215. -/
def addEntries (n : Name) : List (Name × Name) → File → Option File
  | [], f => some f
  | e :: l, f => (addEntry n f e).bind (addEntries n l)

/-- The variable of a line is created when it is new, mps/mps.h:216-221. -/
def addVar (integer : Bool) (n : Name) (f : File) : File :=
  match f.vars.get n with
  | some _ => f
  | none => { f with vars := f.vars.put n { integer := integer }, varNames := f.varNames ++ [n] }

/-- `'INTORG'`. -/
def kIntOrg : Name := ['\'', 'I', 'N', 'T', 'O', 'R', 'G', '\'']
/-- `'INTEND'`. -/
def kIntEnd : Name := ['\'', 'I', 'N', 'T', 'E', 'N', 'D', '\'']

/-- The COLUMNS section, mps/mps.h:176-224. -/
def columnsStep (integer : Bool) (f : File) : List Name → Option (File × Bool)
  | n :: a :: b :: rest =>
    if b = kIntOrg then some (f, true)
    else if b = kIntEnd then some (f, false)
    else (addEntries n (pairs (a :: b :: rest)) f).map (fun f => (addVar integer n f, integer))
  | _ => none

/-- The RHS section, mps/mps.h:225-240. -/
def rhsStep (f : File) : List Name → Option File
  | _ :: a :: b :: rest => some
      { f with cons := (pairs (a :: b :: rest)).foldl (fun cs e => cs.modify e.1 {} (fun c => { c with rhs := atof e.2 })) f.cons }
  | _ => none

/-- `_range`. -/
def kRange : Name := ['_', 'r', 'a', 'n', 'g', 'e']

/-- One entry of the RANGES section, mps/mps.h:254-304. -/
def addRange (f : File) (e : Name × Name) : File :=
  let r := atof e.2
  let cons := f.cons.modify e.1 {} id
  let c := (cons.get e.1).getD {}
  let new : MCon := match c.sense with
    | .less => ⟨.greater, c.coef, c.rhs + |r|⟩
    | .greater => ⟨.less, c.coef, c.rhs - |r|⟩
    | .equal => if r > 0 then ⟨.greater, c.coef, c.rhs + |r|⟩ else ⟨.less, c.coef, c.rhs - |r|⟩
  { f with cons := cons.put (e.1 ++ kRange) new, conNames := f.conNames ++ [e.1 ++ kRange] }

/-- The RANGES section, mps/mps.h:241-306. -/
def rangesStep (f : File) : List Name → Option File
  | _ :: a :: b :: rest => some ((pairs (a :: b :: rest)).foldl addRange f)
  | _ => none

/-- A bounds record without value, mps/mps.h:323-358. -/
def boundNoValue (k : Name) (x : MVar) : MVar :=
  if k = ['F', 'R'] then { x with boundDefined := true, lb := INT_HALF_MIN, ub := INT_HALF_MAX }
  else if k = ['B', 'V'] then { x with integer := true, boundDefined := true, lb := 0, ub := 1 }
  else if k = ['M', 'I'] then { x with boundDefined := true, lb := INT_HALF_MIN, ub := 0 }
  else if k = ['P', 'L'] then { x with boundDefined := true, lb := 0, ub := INT_HALF_MAX }
  else x

/-- A bounds record with value, mps/mps.h:359-404; `v` is the number after `static_cast<int>`. -/
def boundValue (k : Name) (v : ℤ) (x : MVar) : MVar :=
  if k = ['L', 'O'] then { x with boundDefined := true, lb := v }
  else if k = ['L', 'I'] then { x with integer := true, boundDefined := true, lb := v }
  else if k = ['U', 'P'] then { x with boundDefined := true, ub := v }
  else if k = ['U', 'I'] then { x with integer := true, boundDefined := true, ub := v }
  else if k = ['F', 'X'] then { x with boundDefined := true, fixed := true, fixedValue := v, lb := v, ub := v }
  else x

/-- The BOUNDS section, mps/mps.h:307-407. -/
def boundsStep (f : File) : List Name → Option File
  | k :: _ :: n :: rest =>
    match f.vars.get n with
    | none => none
    | some x =>
      match rest with
      | [] => some { f with vars := f.vars.put n (boundNoValue k x) }
      | [t] => (toInt (atof t)).map fun v => { f with vars := f.vars.put n (boundValue k v x) }
      | _ => some f
  | _ => none

/-- `NAME`. -/
def kName : Name := ['N', 'A', 'M', 'E']
/-- `ROWS`. -/
def kRows : Name := ['R', 'O', 'W', 'S']
/-- `COLUMNS`. -/
def kColumns : Name := ['C', 'O', 'L', 'U', 'M', 'N', 'S']
/-- `RHS`. -/
def kRhs : Name := ['R', 'H', 'S']
/-- `RANGES`. -/
def kRanges : Name := ['R', 'A', 'N', 'G', 'E', 'S']
/-- `BOUNDS`. -/
def kBounds : Name := ['B', 'O', 'U', 'N', 'D', 'S']
/-- `ENDATA`. -/
def kEndata : Name := ['E', 'N', 'D', 'A', 'T', 'A']

/-- One section step, mps/mps.h:131-412. -/
def sectionStep (s : St) (items : List Name) : Option St :=
  match s.mode with
  | .initial => some s
  | .name => match items with
    | _ :: n :: _ => some { s with file := { s.file with name := n } }
    | _ => none
  | .rows => (rowsStep s.file items).map fun f => { s with file := f }
  | .columns => (columnsStep s.integer s.file items).map fun r => { s with file := r.1, integer := r.2 }
  | .rhs => (rhsStep s.file items).map fun f => { s with file := f }
  | .ranges => (rangesStep s.file items).map fun f => { s with file := f }
  | .bounds => (boundsStep s.file items).map fun f => { s with file := f }

/-- The items of one line that is not ENDATA, mps/mps.h:102-412. -/
def lineStep (s : St) (items : List Name) : Option St :=
  match items with
  | [] => some s
  | k :: rest =>
    if k = kName then sectionStep { s with mode := .name } items
    else if k = kRows ∧ rest = [] then some { s with mode := .rows }
    else if k = kColumns ∧ rest = [] then some { s with mode := .columns }
    else if k = kRhs ∧ rest = [] then some { s with mode := .rhs }
    else if k = kRanges ∧ rest = [] then some { s with mode := .ranges }
    else if k = kBounds ∧ rest = [] then some { s with mode := .bounds }
    else sectionStep s items

/-- The default bounds of integer variables, mps/mps.h:421-432. -/
def defaultBounds (x : MVar) : MVar := if !x.boundDefined && x.integer then { x with lb := 0, ub := 1 } else x

/-- The loop over the lines, mps/mps.h:93-432; a file without ENDATA is not valid (mps/mps.h:416-419). -/
def readLines : List (List Char) → St → Option File
  | [], _ => none
  | l :: ls, s =>
    if tokens l = [kEndata] then some { s.file with vars := s.file.vars.map (fun e => (e.1, defaultBounds e.2)) }
    else (lineStep s (tokens l)).bind (readLines ls)

/-- `MPS::read_mps`, mps/mps.h:58-433. -/
def readMps (lines : List (List Char)) : Option File := readLines lines ⟨{}, .initial, false⟩

/-- The problem that `import_mps` creates: variables, constraints and objective (which is minimised). -/
structure Imported where
  names : List Name
  vars : List Var
  conNames : List Name
  cons : List Con
  obj : Expr

/-- One variable of the import, model/model.h:3476-3502. -/
def importVar (acceptContinuous : Bool) (x : MVar) : Option Var :=
  if !x.integer && !acceptContinuous then none
  else (Var.init.setBound x.lb x.ub).map fun v => if x.fixed then v.fixBy x.fixedValue else v

/-- The sensitivities of an expression by variable, model/model.h:3523-3531, 3558-3565; the variable with
index `i` is the `i`-th one of the list of names. -/
def importTerms (names : List Name) (coef : Assoc Name ℚ) : Option (List (VarId × ℚ)) :=
  coef.mapM fun e => (names.findIdx? (fun n => n = e.1)).map fun i => (i, e.2)

/-- One constraint of the import, model/model.h:3516-3550. -/
def importCon (names : List Name) (senseOf : VarId → VarSense) (c : MCon) : Option Con :=
  (importTerms names c.coef).bind fun ts => compareOp c.sense (.expr (Expr.create ts 0)) (.num c.rhs) senseOf

/-- `import_mps`, model/model.h:3459-3567. -/
def importMps (acceptContinuous : Bool) (f : File) : Option Imported :=
  (f.varNames.mapM (fun n => (f.vars.get n).bind (importVar acceptContinuous))).bind fun vars =>
  (f.conNames.mapM (fun n => (f.cons.get n).bind
    (importCon f.varNames (fun v => (vars.getD v Var.init).sense)))).bind fun cons =>
  (importTerms f.varNames f.objCoef).map fun ts => ⟨f.varNames, vars, f.conNames, cons, Expr.create ts 0⟩

/-- `obj`. -/
def kObj : Name := ['o', 'b', 'j']

/-- Spaces. -/
def sp (n : ℕ) : List Char := List.replicate n ' '

/-- The line of a constraint in the ROWS section, model/model.h:3598-3619. -/
def rowLine (s : Sense) (n : Name) : List Char :=
  sp 1 ++ ((match s with | .equal => ['E'] | .less => ['L'] | .greater => ['G']) ++ (sp 4 ++ deleteSpace n))

/-- The lines of a variable in the COLUMNS section, model/model.h:3629-3654. -/
def columnLines (vname : VarId → Name) (cname : ConId → Name) (m : MState) (v : VarId) : List (List Char) :=
  (if |m.objSens v| > EPSILON_10 then
    [sp 4 ++ (deleteSpace (vname v) ++ (sp 5 ++ (kObj ++ (sp 4 ++ formatDouble (if m.isMin then m.objSens v else -m.objSens v)))))]
   else []) ++
  (m.sens v).map (fun s => sp 4 ++ (deleteSpace (vname v) ++ (sp 4 ++ (deleteSpace (cname s.1) ++ (sp 4 ++ formatDouble s.2)))))

/-- The line of a constraint in the RHS section, model/model.h:3661-3669. -/
def rhsLine (cname : ConId → Name) (m : MState) (c : ConId) : List Char :=
  sp 4 ++ (['r', 'h', 's'] ++ (sp 4 ++ (deleteSpace (cname c) ++ (sp 4 ++ formatDouble (-(m.con c).expr.const)))))

/-- One line of the BOUNDS section, model/model.h:3680-3694. -/
def boundLine (k : Name) (gap : ℕ) (n : Name) (x : ℤ) : List Char :=
  sp 4 ++ (k ++ (sp 4 ++ (['b', 'n', 'd'] ++ (sp 4 ++ (deleteSpace n ++ (sp gap ++ intChars x))))))

/-- The lines of a variable in the BOUNDS section, model/model.h:3675-3696. -/
def boundLines (vname : VarId → Name) (m : MState) (v : VarId) : List (List Char) :=
  if (m.var v).fixed then [boundLine ['F', 'X'] 5 (vname v) (m.var v).value]
  else
    (if (m.var v).lb ≠ INT_HALF_MIN ∧ (m.var v).lb ≠ 0 then [boundLine ['L', 'O'] 4 (vname v) (m.var v).lb] else []) ++
    (if (m.var v).ub ≠ INT_HALF_MAX then [boundLine ['U', 'P'] 4 (vname v) (m.var v).ub] else [])

/-- `untitled`. -/
def kUntitled : Name := ['u', 'n', 't', 'i', 't', 'l', 'e', 'd']
/-- `MARK0000`. -/
def kMark0 : Name := ['M', 'A', 'R', 'K', '0', '0', '0', '0']
/-- `MARK0001`. -/
def kMark1 : Name := ['M', 'A', 'R', 'K', '0', '0', '0', '1']
/-- `'MARKER'`. -/
def kMarker : Name := ['\'', 'M', 'A', 'R', 'K', 'E', 'R', '\'']

/-- `write_mps`, model/model.h:3570-3705, after `setup_unique_names` and the setup of the sensitivities: `vname`
and `cname` are the names, `m.sens` and `m.objSens` the sensitivities. -/
def writeMps (title : Name) (vname : VarId → Name) (cname : ConId → Name) (m : MState) : List (List Char) :=
  [kName ++ (sp 1 ++ if title = [] then kUntitled else deleteSpace title), kRows, sp 1 ++ (['N'] ++ (sp 4 ++ kObj))] ++
  (m.conIds.map (fun c => rowLine (m.con c).sense (cname c)) ++
  ([kColumns, sp 4 ++ (kMark0 ++ (sp 4 ++ (kMarker ++ (sp 4 ++ kIntOrg))))] ++
  (m.varIds.flatMap (columnLines vname cname m) ++
  ([sp 4 ++ (kMark1 ++ (sp 4 ++ (kMarker ++ (sp 4 ++ kIntEnd)))), kRhs] ++
  (m.conIds.map (rhsLine cname m) ++
  ([kBounds] ++ (m.varIds.flatMap (boundLines vname m) ++ [kEndata])))))))

end Printemps.Mps
