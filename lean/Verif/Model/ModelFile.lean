import Verif.Model.ArrayFile
import Verif.Model.Model

/-! # Model of the file that describes a model: `Model::write_json`

model/model.h:3707-3823.  The names of variables and constraints are what `setup_unique_names` has made of them
(`Model/Names`). -/

namespace Printemps.ModelFile
open Json Text ArrayFile

/-- An array with these elements, utility/json/json.h:111-114. -/
def array : List Val → Elems
  | [] => .nil
  | v :: l => .cons v (array l)

/-- The keys and words of the file, model/model.h:3725-3821. -/
def kName : Str := "name".toList
/-- As `kName`. -/
def kIsMin : Str := "is_minimization".toList
/-- As `kName`. -/
def kVariables : Str := "variables".toList
/-- As `kName`. -/
def kValue : Str := "value".toList
/-- As `kName`. -/
def kIsFixed : Str := "is_fixed".toList
/-- As `kName`. -/
def kLower : Str := "lower_bound".toList
/-- As `kName`. -/
def kUpper : Str := "upper_bound".toList
/-- As `kName`. -/
def kSense : Str := "sense".toList
/-- As `kName`. -/
def kObjective : Str := "objective".toList
/-- As `kName`. -/
def kSensitivities : Str := "sensitivities".toList
/-- As `kName`. -/
def kVariable : Str := "variable".toList
/-- As `kName`. -/
def kCoefficient : Str := "coefficient".toList
/-- As `kName`. -/
def kConstraints : Str := "constraints".toList
/-- As `kName`. -/
def kIsEnabled : Str := "is_enabled".toList
/-- As `kName`. -/
def kRhs : Str := "rhs".toList
/-- As `kName`. -/
def wBinary : Str := "Binary".toList
/-- As `kName`. -/
def wInteger : Str := "Integer".toList

/-- The name, model/model.h:3724-3728.  For a model without a name `emplace_back` is called with a string literal, which
`std::any` keeps as a `const char*`; that is none of the types that are written, and `null` is written
(utility/json/json.h:43-47, 270-275). -/
def title (s : Str) : Val := if s = [] then .null else .str (deleteSpace s)

/-- A variable, model/model.h:3741-3753. -/
def variable_ (name : Str) (v : Var) : Val :=
  .obj (members [(kName, .str name), (kValue, .int v.value), (kIsFixed, .bool v.fixed), (kLower, .int v.lb),
    (kUpper, .int v.ub), (kSense, .str (if v.sense = VarSense.binary then wBinary else wInteger))])

/-- A term, model/model.h:3765-3769, 3807-3813. -/
def term (vname : VarId → Str) (t : VarId × ℚ) : Val :=
  .obj (members [(kVariable, .str (vname t.1)), (kCoefficient, .real t.2)])

/-- The terms of an expression, model/model.h:3762-3770, 3805-3814. -/
def terms (vname : VarId → Str) (e : Expr) : Val := .arr (array (e.terms.map (term vname)))

/-- The symbol of a sense, model/model.h:3788-3803. -/
def symbol : Sense → Str
  | .equal => ['=']
  | .less => ['<', '=']
  | .greater => ['>', '=']

/-- A constraint, model/model.h:3781-3817.  Simplification: a constant 0 is written as -0, which is the same number. -/
def constraint (vname : VarId → Str) (name : Str) (c : Con) : Val :=
  .obj (members [(kName, .str name), (kIsEnabled, .bool c.enabled), (kRhs, .real (-c.expr.const)),
    (kSense, .str (symbol c.sense)), (kSensitivities, terms vname c.expr)])

/-- The members of the object, model/model.h:3719-3821. -/
def parts (name : Val) (vname : VarId → Str) (cname : ConId → Str) (m : MState) : List (Str × Val) :=
  [(kName, name), (kIsMin, .bool m.isMin), (kVariables, .arr (array (m.varIds.map fun v => variable_ (vname v) (m.var v)))),
   (kObjective, .obj (members [(kSensitivities, terms vname m.obj)])),
   (kConstraints, .arr (array (m.conIds.map fun c => constraint vname (cname c) (m.con c))))]

/-- The object, model/model.h:3719-3821. -/
def document (name : Str) (vname : VarId → Str) (cname : ConId → Str) (m : MState) : Members :=
  members (parts (title name) vname cname m)

/-- `write_json`, model/model.h:3707-3823: the content of the file. -/
def file (name : Str) (vname : VarId → Str) (cname : ConId → Str) (m : MState) : List Char :=
  write 0 (.obj (document name vname cname m))

end Printemps.ModelFile
