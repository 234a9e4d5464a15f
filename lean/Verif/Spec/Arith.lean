import Verif.Prelude

/-! # Specification: linear arithmetic terms as the user writes them

Independent of the model: only a syntax tree and its usual numeric meaning. -/

namespace Printemps.Spec

/-- What a user can write with variables, numbers and the overloaded operators. -/
inductive Arith where
  | var (v : ℕ)
  | add (a b : Arith)            -- a + b   and   a += b
  | sub (a b : Arith)            -- a - b   and   a -= b
  | neg (a : Arith)              -- -a
  | addNum (a : Arith) (c : ℚ)   -- a + c, c + a, a += c
  | subNum (a : Arith) (c : ℚ)   -- a - c, a -= c
  | numSub (c : ℚ) (a : Arith)   -- c - a
  | mulNum (a : Arith) (c : ℚ)   -- a * c, c * a, a *= c
  | divNum (a : Arith) (c : ℚ)   -- a / c, a /= c

/-- The usual meaning of such a term under integer values for the variables. -/
def Arith.denote (σ : ℕ → ℤ) : Arith → ℚ
  | .var v => σ v
  | .add a b => a.denote σ + b.denote σ
  | .sub a b => a.denote σ - b.denote σ
  | .neg a => - a.denote σ
  | .addNum a c => a.denote σ + c
  | .subNum a c => a.denote σ - c
  | .numSub c a => c - a.denote σ
  | .mulNum a c => a.denote σ * c
  | .divNum a c => a.denote σ / c

/-- No division by zero occurs in the term. -/
def Arith.DivOK : Arith → Prop
  | .var _ => True
  | .add a b => a.DivOK ∧ b.DivOK
  | .sub a b => a.DivOK ∧ b.DivOK
  | .neg a => a.DivOK
  | .addNum a _ => a.DivOK
  | .subNum a _ => a.DivOK
  | .numSub _ a => a.DivOK
  | .mulNum a _ => a.DivOK
  | .divNum a c => a.DivOK ∧ c ≠ 0

/-- Comparison signs. -/
inductive Cmp where | le | eq | ge
deriving DecidableEq, Repr

/-- Meaning of a comparison between two numbers. -/
def Cmp.holds : Cmp → ℚ → ℚ → Prop
  | .le, a, b => a ≤ b
  | .eq, a, b => a = b
  | .ge, a, b => a ≥ b

/-- By how much a comparison fails (zero if it holds). -/
def Cmp.gap : Cmp → ℚ → ℚ → ℚ
  | .le, a, b => max (a - b) 0
  | .eq, a, b => |a - b|
  | .ge, a, b => max (b - a) 0

/-- How much room an inequality leaves before it fails (zero for equalities and for failing ones). -/
def Cmp.slack : Cmp → ℚ → ℚ → ℚ
  | .le, a, b => max (b - a) 0
  | .eq, _, _ => 0
  | .ge, a, b => max (a - b) 0

end Printemps.Spec
