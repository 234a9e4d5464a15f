import Verif.Model.Json

/-! # Plain documents

A document is plain if its integers fit into an `int`, its strings and keys contain no quotation marks, brackets,
commas, colons and line ends, its real numbers have at most seven digits (they are what they are printed as) and
its arrays contain no Boolean values. -/

namespace Printemps.Json
open Text

/-- The characters of a plain string. -/
def PlainS (s : Str) : Prop := ∀ c ∈ s, c ∉ ['"', ',', ':', '{', '}', '[', ']', '\n']
instance (s : Str) : Decidable (PlainS s) := by unfold PlainS; infer_instance

mutual
/-- The documents that survive: strings and keys without quotes, line ends, commas, colons and brackets; integers
of type `int`; numbers that are exact with seven digits; no truth values in arrays. -/
def PlainV (inArray : Bool) : Val → Prop
  | .null => True
  | .bool _ => inArray = false
  | .int n => -2147483648 ≤ n ∧ n ≤ 2147483647
  | .real q => atof (formatE q) = q
  | .str s => PlainS s
  | .obj ms => PlainM ms
  | .arr es => PlainE es
/-- Plain members. -/
def PlainM : Members → Prop
  | .nil => True
  | .cons k v r => PlainS k ∧ PlainV false v ∧ PlainM r
/-- Plain elements. -/
def PlainE : Elems → Prop
  | .nil => True
  | .cons v r => PlainV true v ∧ PlainE r
end

end Printemps.Json
