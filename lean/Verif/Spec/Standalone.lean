import Verif.Model.Standalone

/-! # Specification: command lines and auxiliary files -/

namespace Printemps.Spec
open Json Cmd Text

/-- The parts of a command line: a flag with its value, a switch, or the name of the MPS file. -/
inductive Part where
  | flag (k v : Str) | switch (k : Str) | file (n : Str)
deriving DecidableEq

/-- The flags that have a value. -/
def flags : List Str := [c!"-p", c!"-i", c!"-m", c!"-f", c!"-s", c!"-x", c!"-c"]
/-- The switches. -/
def switches : List Str := [c!"--accept-continuous", c!"--extract-flippable-variable-pairs", c!"--include-mps-loading-time",
  c!"--export-json-instance"]

/-- A part as it should be. -/
def Part.Good : Part → Prop
  | .flag k _ => k ∈ flags
  | .switch k => k ∈ switches
  | .file n => n ∉ flags ∧ n ∉ switches

/-- The arguments of a part. -/
def Part.args : Part → List Str
  | .flag k v => [k, v]
  | .switch k => [k]
  | .file n => [n]

/-- The last value given for a flag. -/
def lastValue (k : Str) (ps : List Part) : Option Str :=
  (ps.filterMap fun p => match p with | .flag k' v => if k' = k then some v else none | _ => none).getLast?

/-- The last file name. -/
def lastFile (ps : List Part) : Option Str :=
  (ps.filterMap fun p => match p with | .file n => some n | _ => none).getLast?

/-- The names and numbers in a file: of each line with at least two items, the first item and the number nearest to the
second one (halves rounded up). -/
def entriesOf (text : List Char) : List (Str × ℤ) :=
  (lines text).filterMap fun l => match tokens l with
    | k :: v :: _ => some (k, ⌊atof v + 1 / 2⌋)
    | _ => none

/-- The number a file gives for a name: the last one. -/
def given (text : List Char) (n : Str) : Option ℤ := ((entriesOf text).reverse.find? fun e => e.1 = n).map Prod.snd

/-- All numbers in a file are integers of 32 bits. -/
def Fit (text : List Char) : Prop := ∀ e ∈ entriesOf text, -2147483648 ≤ e.2 ∧ e.2 ≤ 2147483647

/-- The first items of the lines of a file. -/
def Lists (text : List Char) (n : Str) : Prop := ∃ l ∈ lines text, (tokens l).head? = some n

end Printemps.Spec
