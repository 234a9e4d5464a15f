import Verif.Prelude

/-! # `std::unordered_map` as a list of pairs with pairwise different keys (any order of iteration) -/

namespace Printemps

/-- `std::unordered_map<κ, β>`. -/
abbrev Assoc (κ β : Type) := List (κ × β)

namespace Assoc
variable {κ β : Type} [DecidableEq κ]

/-- `find` / `at`. -/
def get : Assoc κ β → κ → Option β
  | [], _ => none
  | e :: m, k => if e.1 = k then some e.2 else get m k

/-- `map[key] = value`. -/
def put : Assoc κ β → κ → β → Assoc κ β
  | [], k, x => [(k, x)]
  | e :: m, k, x => if e.1 = k then (e.1, x) :: m else e :: put m k x

/-- `map[key]` with a change of the element, which is created if it does not exist. -/
def modify (m : Assoc κ β) (k : κ) (default : β) (f : β → β) : Assoc κ β := m.put k (f ((m.get k).getD default))

end Assoc
end Printemps
