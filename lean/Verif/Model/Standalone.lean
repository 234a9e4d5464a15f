import Verif.Model.Solution
import Verif.Model.Option
import Verif.Model.Presolve

/-! # Model of the command line program: standalone/mps_solver.h, helper/auxiliary_file_reader.h and
`NamedSolution::write_solution`

The contents of the files are given by a function of the file name (`none`: the file cannot be opened).  The import of
the MPS file is the subject of `Model/Mps`; here the model after it is a parameter, together with the names of its
variables and constraints.  Exceptions and undefined behaviour are outcomes. -/

namespace Printemps.Cmd
open Json Opt Sol Text

/-- The loop `while (std::getline(ifs, buffer))`, helper/auxiliary_file_reader.h:32-34, with the characters of the current
line read so far. -/
def linesFrom (cur : List Char) : List Char → List (List Char)
  | [] => if cur = [] then [] else [cur]
  | c :: cs => if c = '\n' then cur :: linesFrom [] cs else linesFrom (cur ++ [c]) cs

/-- The lines of a file, helper/auxiliary_file_reader.h:21-36. -/
def lines (text : List Char) : List (List Char) := linesFrom [] text

/-- `static_cast<int>(floor(0.5 + atof(item)))`, helper/auxiliary_file_reader.h:51-52; `none` is the undefined conversion of
a number that is no `int`. -/
def roundToInt (item : List Char) : Option ℤ := toInt (⌊(1 / 2 : ℚ) + atof item⌋ : ℤ)

/-- The loop of `read_names_and_values`, helper/auxiliary_file_reader.h:39-53. -/
def namesAndValues : List (List Char) → StrMap ℤ → Outcome (StrMap ℤ)
  | [], s => .ok s
  | l :: ls, s =>
    match tokens l with
    | k :: v :: _ =>
      match roundToInt v with
      | none => .undefined
      | some x => namesAndValues ls (s.put (String.ofList k) x)
    | _ => namesAndValues ls s

/-- `read_names_and_values`, helper/auxiliary_file_reader.h:11-56. -/
def readNamesAndValues (text : List Char) : Outcome (StrMap ℤ) := namesAndValues (lines text) []

/-- `read_names`, helper/auxiliary_file_reader.h:59-102 (the set as a list; only membership is used). -/
def readNames (text : List Char) : List Str := (lines text).filterMap fun l => (tokens l).head?

/-- `read_name_pairs`, helper/auxiliary_file_reader.h:105-149. -/
def readNamePairs (text : List Char) : List (Str × Str) :=
  (lines text).filterMap fun l => match tokens l with
    | a :: b :: _ => some (a, b)
    | _ => none

/-- `%.10e` of a positive number: one digit, a point, ten digits and the exponent. -/
def formatPositive10 (q : ℚ) : List Char :=
  let e0 := exponent10 q
  let m0 := roundEven (scale10 q (10 - e0))
  let m := if m0 ≥ 10 ^ 11 then 10 ^ 10 else m0
  let e := if m0 ≥ 10 ^ 11 then e0 + 1 else e0
  let ds := natChars m
  let ex := natChars e.natAbs
  (ds.take 1) ++ '.' :: (ds.drop 1 ++ 'e' :: (if e < 0 then '-' else '+') :: (if ex.length < 2 then '0' :: ex else ex))

/-- `utility::to_string(x, "%.10e")`, utility/string_utility.h:64-70. -/
def format10 (q : ℚ) : List Char :=
  if q = 0 then c!"0.0000000000e+00" else if q < 0 then '-' :: formatPositive10 (-q) else formatPositive10 q

/-- `NamedSolution::write_solution`, solution/named_solution.h:147-167; `order` are the variables in the order of iteration
of the map of the groups of variables. -/
def writeSolution (name : VarId → Str) (order : List VarId) (s : Named) : List Char :=
  (if s.feasible then c!"=obj= " ++ format10 s.objective else c!"=infeas=") ++ '\n' ::
    order.flatMap fun v => name v ++ ' ' :: (intChars (s.values v) ++ ['\n'])

/-- The members of `MPSSolver` that the command line sets, standalone/mps_solver.h:23-34, with the values of `initialize`,
standalone/mps_solver.h:121-142. -/
structure Args where
  mps : Str := []
  option : Str := []
  initial : Str := []
  mutables : Str := []
  fixed : Str := []
  selection : Str := []
  pairs : Str := []
  common : ℤ := 5
  accept : Bool := false
  extract : Bool := false
  loading : Bool := false
  json : Bool := false
deriving DecidableEq

/-- `atoi`; `none` is undefined (the number is no `int`).  Simplification: no leading white space. -/
def atoi (cs : List Char) : Option ℤ :=
  let s := readSign cs
  let d := readDigits 0 0 s.2
  let v : ℤ := if s.1 then -d.1 else d.1
  if -2147483648 ≤ v ∧ v ≤ 2147483647 then some v else none

/-- An argument without a value, standalone/mps_solver.h:170-185. -/
def single (k : Str) (a : Args) : Args :=
  if k = c!"--accept-continuous" then { a with accept := true }
  else if k = c!"--extract-flippable-variable-pairs" then { a with extract := true }
  else if k = c!"--include-mps-loading-time" then { a with loading := true }
  else if k = c!"--export-json-instance" then { a with json := true }
  else { a with mps := k }

/-- The loop of `parse_command_line_arguments`, standalone/mps_solver.h:145-187, over the arguments after the name of the
program.  `none` is undefined behaviour: `args[i + 1]` behind the end, or `atoi` of a number that is no `int`. -/
def parse : List Str → Args → Option Args
  | [], a => some a
  | [k], a =>
    if k = c!"-p" ∨ k = c!"-i" ∨ k = c!"-m" ∨ k = c!"-f" ∨ k = c!"-s" ∨ k = c!"-x" ∨ k = c!"-c" then none
    else some (single k a)
  | k :: v :: r, a =>
    if k = c!"-p" then parse r { a with option := v }
    else if k = c!"-i" then parse r { a with initial := v }
    else if k = c!"-m" then parse r { a with mutables := v }
    else if k = c!"-f" then parse r { a with fixed := v }
    else if k = c!"-s" then parse r { a with selection := v }
    else if k = c!"-x" then parse r { a with pairs := v }
    else if k = c!"-c" then (atoi v).bind fun n => parse r { a with common := n }
    else parse (v :: r) (single k a)

/-- The model and options after `MPSSolver::setup`: with the constraints marked as user-defined selections and the pairs of
variables for two-flip moves. -/
structure Ready where
  model : MState
  options : Options
  selections : List ConId
  pairs : List (VarId × VarId)

/-- Reading a file if its name is not empty (the blocks of standalone/mps_solver.h:224-289): a file that cannot be opened
throws. -/
def withFile {β : Type} (fs : Str → Option (List Char)) (file : Str) (d : β) (g : List Char → Outcome β) : Outcome β :=
  if file = [] then .ok d else
    match fs file with
    | none => .thrown
    | some text => g text

/-- `set_user_defined_selection_constraints`, model/model.h:3415-3425: the constraints marked. -/
def markSelections (cname : ConId → Str) (names : List Str) (m : MState) : List ConId :=
  m.conIds.filter fun c => decide (cname c ∈ names)

/-- The map from names to variables in `setup_flippable_variable_ptr_pairs`, model/model.h:3432-3440: of variables with the
same name, the last. -/
def lastNamed (name : VarId → Str) (m : MState) (n : Str) : Option VarId := m.varIds.reverse.find? fun v => decide (name v = n)

/-- `setup_flippable_variable_ptr_pairs`, model/model.h:3428-3456. -/
def flippablePairs (name : VarId → Str) (ps : List (Str × Str)) (m : MState) : List (VarId × VarId) :=
  ps.filterMap fun p => match lastNamed name m p.1, lastNamed name m p.2 with
    | some v, some w => some (v, w)
    | _, _ => none

/-- `m_option.neighborhood.is_enabled_two_flip_move = true`, standalone/mps_solver.h:275. -/
def enableTwoFlip (o : Options) : Options :=
  o.map fun p => if p.1 = c!"neighborhood" then
      (p.1, p.2.map fun q => if q.1 = c!"is_enabled_two_flip_move" then (q.1, .bool true) else q) else p

/-- `MPSSolver::setup` after the import of the MPS file (parameter `m`), standalone/mps_solver.h:190-290; the second argument
bounds the steps of the parser of the option file.  Simplification: when the option file cannot be read the outcome is
always an exception. -/
def setup (fs : Str → Option (List Char)) (fuel : ℕ) (name : VarId → Str) (cname : ConId → Str) (a : Args) (m : MState) :
    Outcome Ready :=
  if a.mutables ≠ [] ∧ a.fixed ≠ [] then .thrown else
  (withFile fs a.option init fun t => .ofOption (setupFile fuel t)).bind fun o =>
  (withFile fs a.mutables m fun t =>
    .ok (unfixVariables (fun v => String.ofList (name v)) ((readNames t).map String.ofList) m)).bind fun m1 =>
  (withFile fs a.fixed m1 fun t => (readNamesAndValues t).bind fun s =>
    .ok (fixVariables (fun v => String.ofList (name v)) s m1)).bind fun m2 =>
  (withFile fs a.selection [] fun t => .ok (markSelections cname (readNames t) m2)).bind fun sels =>
  (withFile fs a.pairs (o, []) fun t => .ok (enableTwoFlip o, flippablePairs name (readNamePairs t) m2)).bind fun p =>
  (withFile fs a.initial m2 fun t => (readNamesAndValues t).bind fun s =>
    .ofOption (importMap (fun v => String.ofList (name v)) s m2)).bind fun m3 =>
  .ok ⟨m3, p.1, sels, p.2⟩

end Printemps.Cmd
