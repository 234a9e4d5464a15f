import Verif.Spec.ModelFile

/-! # What a file with solutions says -/

namespace Printemps.Spec
open Json

/-- A solution of the file gives the value `x` to the name `n`: the value stands under the name, or there is no such name and
the value is zero. -/
def ValueDoc (s : Val) (n : Str) (x : ℤ) : Prop :=
  ∃ ms, Says s "variables" (.obj ms) ∧ (ms.get n = some (.int x) ∨ (ms.get n = none ∧ x = 0))

/-- A solution of the file has, under the key, a number that is `q` in seven digits. -/
def NumberDoc (s : Val) (key : String) (q : ℚ) : Prop := ∃ r, Says s key (.real r) ∧ SevenDigits q r

/-- The entry `s` of the file is the solution with these values. -/
structure SolutionDoc (s : Val) (varIds : List ℕ) (vname : ℕ → Str) (σ : ℕ → ℤ) (objective violation : ℚ) (feasible : Bool) : Prop where
  values : ∀ v ∈ varIds, ValueDoc s (vname v) (σ v)
  objective : NumberDoc s "objective" objective
  violation : NumberDoc s "total_violation" violation
  feasible : Says s "is_feasible" (.bool feasible)

end Printemps.Spec
