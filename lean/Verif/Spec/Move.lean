import Verif.Prelude

/-! # Specification: the assignment after a move -/

namespace Printemps.Spec

/-- Setting each listed variable to its listed value, in order. -/
def applyMove (σ : ℕ → ℤ) : List (ℕ × ℤ) → (ℕ → ℤ)
  | [] => σ
  | (v, x) :: rest => applyMove (Function.update σ v x) rest

end Printemps.Spec
