import Verif.Spec.Standalone
import Verif.Spec.MpsFile

/-! # Specification: what the files of a command line ask for, and what a solution file says -/

namespace Printemps.Spec
open Json Cmd

/-- The flags `-m` and `-f` ask for a value: all variables not listed in the file of `-m` stay at 0, and those in the file
of `-f` have the value given there. -/
def Asked (fs : Str → Option (List Char)) (a : Args) (n : Str) (x : ℤ) : Prop :=
  (∃ t, a.mutables ≠ [] ∧ fs a.mutables = some t ∧ ¬ Lists t n ∧ x = 0) ∨
  (∃ t, a.fixed ≠ [] ∧ fs a.fixed = some t ∧ given t n = some x)

/-- Values that satisfy the MPS file and what the flags ask for. -/
def Solution (fs : Str → Option (List Char)) (a : Args) (d : MpsFile.Doc) (val : Str → ℤ) : Prop :=
  d.Satisfied val ∧ ∀ c ∈ d.cols, ∀ x, Asked fs a c.1 x → val c.1 = x

/-- The solution file says that its values are no solution. -/
def SaysInfeasible (text : List Char) : Prop := (lines text).head? = some c!"=infeas="

/-- The solution file says that its values are a solution with this objective, in eleven digits. -/
def SaysObjective (text : List Char) (q : ℚ) : Prop :=
  ∃ w, (lines text).head? = some (c!"=obj= " ++ w) ∧ |Text.atof w - q| ≤ |q| / 20000000000

/-- The values in the solution file. -/
def ShowsValues (text : List Char) (d : MpsFile.Doc) (val : Str → ℤ) : Prop := ∀ c ∈ d.cols, given text c.1 = some (val c.1)

end Printemps.Spec
