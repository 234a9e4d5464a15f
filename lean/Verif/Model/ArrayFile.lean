import Verif.Model.Json
import Verif.Model.MultiArray
import Mathlib.Algebra.Order.Ring.Abs
import Mathlib.Algebra.Order.Field.Rat

/-! # Model of the values of a solution and of the files they are written to

multi_array/value_proxy.h and solution/named_solution.h:75-144.  Numbers that are not finite are not modelled. -/

namespace Printemps.ArrayFile
open Json Text MultiArray

/-- A value of a `ValueProxy<int>` or a `ValueProxy<double>`, multi_array/value_proxy.h:14-17. -/
inductive Num where
  | int (n : ℤ) | real (q : ℚ)
deriving DecidableEq

/-- `ValueProxy`, multi_array/value_proxy.h:14-46, with the name under which it is kept. -/
structure Proxy where
  name : Str
  shape : List ℕ
  values : List Num
  names : List Str

/-- `value()`, multi_array/value_proxy.h:87-104; `none`: an exception. -/
def Proxy.value (x : Proxy) : Option Num := if numberOfElements x.shape ≠ 1 then none else x.values[0]?

/-- `values(index)` and `operator()`, multi_array/value_proxy.h:107-149, 246-255; `none`: an exception or an access outside of
the vector. -/
def Proxy.valuesAt (x : Proxy) (idx : List ℕ) : Option Num :=
  if x.shape.length ≠ idx.length then none else x.values[flatIndex x.shape idx]?

/-- `std::to_string(double)`, i.e. `%f`: six decimals. -/
def formatF (q : ℚ) : List Char :=
  let m := roundEven (|q| * 1000000)
  let frac := natChars (m % 1000000)
  (if q < 0 then ['-'] else []) ++ (natChars (m / 1000000) ++ '.' :: (List.replicate (6 - frac.length) '0' ++ frac))

/-- `std::to_string` of a value, multi_array/value_proxy.h:338. -/
def toText : Num → List Char
  | .int n => intChars n
  | .real q => formatF q

/-- The loop that opens brackets, multi_array/value_proxy.h:329-336, with `k` steps to the end of its range. -/
def opens (idx : List ℕ) : ℕ → ℕ → List Char × ℕ
  | 0, dim => ([], dim)
  | k + 1, dim =>
    if idx.getD (dim + 1) 0 = 0 then
      let r := opens idx k (dim + 1)
      ('[' :: ' ' :: r.1, r.2)
    else ([], dim)

/-- The loop that closes brackets, multi_array/value_proxy.h:340-347. -/
def closes (idx shape : List ℕ) : ℕ → List Char × ℕ
  | 0 => ([], 0)
  | j + 1 =>
    if idx.getD (j + 1) 0 + 1 = shape.getD (j + 1) 0 then
      let r := closes idx shape j
      (']' :: ' ' :: r.1, r.2)
    else ([], j + 1)

/-- The loop over the elements, multi_array/value_proxy.h:327-348: the text and the depth at the end. -/
def elements (x : Proxy) : ℕ → List ℕ → List Char × ℕ
  | dim, [] => ([], dim)
  | dim, i :: l =>
    let idx := multiIndex x.shape i
    let o := opens idx (x.shape.length - 1 - dim) dim
    let c := closes idx x.shape o.2
    let r := elements x c.2 l
    (o.1 ++ (toText (x.values.getD i (.int 0)) ++ ' ' :: (c.1 ++ r.1)), r.2)

/-- The text of one proxy, multi_array/value_proxy.h:320-349. -/
def proxyText (x : Proxy) : List Char :=
  '"' :: (x.name ++ '"' :: ' ' :: '[' :: ' ' :: ((elements x 0 (List.range (numberOfElements x.shape))).1 ++ [']', ' ']))

/-- `create_json_array`, multi_array/value_proxy.h:307-353. -/
def createJsonArray (fuel : ℕ) (xs : List Proxy) : Option Members :=
  parseObject fuel (' ' :: '{' :: ' ' :: (xs.flatMap proxyText ++ ['}']))

/-- A value as a value of a JSON object. -/
def Num.val : Num → Val
  | .int n => .int n
  | .real q => .real q

/-- An object with these members, utility/json/json.h:43-47. -/
def members : List (Str × Val) → Members
  | [] => .nil
  | (k, v) :: l => .cons k v (members l)

/-- `create_json_object`, multi_array/value_proxy.h:289-304. -/
def createJsonObject (xs : List Proxy) : List (Str × Val) :=
  xs.flatMap fun x => (List.range (numberOfElements x.shape)).map fun i => (x.names.getD i [], (x.values.getD i (.int 0)).val)

/-- `NamedSolution`, solution/named_solution.h:15-31. -/
structure Named where
  name : Str
  numberOfVariables : ℤ
  numberOfConstraints : ℤ
  feasible : Bool
  objective : ℚ
  totalViolation : ℚ
  variables_ : List Proxy
  expressions : List Proxy
  constraints : List Proxy
  violations : List Proxy

/-- `constant::VERSION`, constant/constant.h:16. -/
def version : Str := ['v', '2', '.', '5', '.', '0']

/-- The names of the sections, solution/named_solution.h:90-105. -/
def sVariables : Str := ['v', 'a', 'r', 'i', 'a', 'b', 'l', 'e', 's']
/-- As `sVariables`. -/
def sExpressions : Str := ['e', 'x', 'p', 'r', 'e', 's', 's', 'i', 'o', 'n', 's']
/-- As `sVariables`. -/
def sConstraints : Str := ['c', 'o', 'n', 's', 't', 'r', 'a', 'i', 'n', 't', 's']
/-- As `sVariables`. -/
def sViolations : Str := ['v', 'i', 'o', 'l', 'a', 't', 'i', 'o', 'n', 's']

/-- The summary, solution/named_solution.h:79-86, 115-122. -/
def summary (s : Named) : List (Str × Val) :=
  [("version".toList, .str version), ("name".toList, .str s.name), ("number_of_variables".toList, .int s.numberOfVariables),
   ("number_of_constraints".toList, .int s.numberOfConstraints), ("is_found_feasible_solution".toList, .bool s.feasible),
   ("objective".toList, .real s.objective), ("total_violation".toList, .real s.totalViolation)]

/-- The object of `write_json_by_array`, solution/named_solution.h:111-142. -/
def documentByArray (fuel : ℕ) (s : Named) : Option Members :=
  (createJsonArray fuel s.variables_).bind fun v => (createJsonArray fuel s.expressions).bind fun e =>
    (createJsonArray fuel s.constraints).bind fun c => (createJsonArray fuel s.violations).map fun w =>
      members (summary s ++ [(sVariables, .obj v), (sExpressions, .obj e), (sConstraints, .obj c), (sViolations, .obj w)])

/-- `write_json_by_array`, solution/named_solution.h:111-144: the content of the file. -/
def fileByArray (fuel : ℕ) (s : Named) : Option (List Char) := (documentByArray fuel s).map fun ms => write 0 (.obj ms)

/-- The object of `write_json_by_name`, solution/named_solution.h:75-106. -/
def documentByName (s : Named) : Members :=
  members (summary s ++ [(sVariables, .obj (members (createJsonObject s.variables_))),
    (sExpressions, .obj (members (createJsonObject s.expressions))),
    (sConstraints, .obj (members (createJsonObject s.constraints))),
    (sViolations, .obj (members (createJsonObject s.violations)))])

end Printemps.ArrayFile
