import Verif.Model.Status

/-! # Model of the table of the size of the problem printed after the setup

model/model.h:1729-2333 (`print_number_of_variables`, `print_number_of_constraints`), called at solver/solver.h:299-302.  The
texts of the rows are not modelled. -/

namespace Printemps.SizeTable
open Status

/-- A row `label: before (inside)`, e.g. model/model.h:1750-1761. -/
structure Row where
  before : ℕ
  inside : ℕ
deriving Repr, DecidableEq

/-- The rows: all variables and each sense (model/model.h:1750-1832), all constraints, each comparison
(model/model.h:1862-1909) and each type (model/model.h:1911-2329). -/
structure Table where
  variables_ : Row
  sense : VarSense → Row
  constraints : Row
  comparison : Sense → Row
  type : ConType → Row

/-- `less_ptrs`, `equal_ptrs`, `greater_ptrs` as filled by `categorize_constraints`, model/model.h:1093-1113: enabled
constraints only. -/
def compared (m : MState) (s : Sense) : List ConId :=
  m.conIds.filter fun c => (m.con c).enabled && decide ((m.con c).sense = s)

/-- The number before the parentheses is the size of a list of the first setup (`compute_number_of_variables`,
`compute_number_of_constraints`, model/model.h:1738-1740, 1850-1852); the one inside is the number of elements of the list of
the last setup that are not fixed, or enabled, when the table is printed (model/model.h:1742-1749, 1854-1861), which is right
after that setup. -/
def table (lt : VarId → VarId → Bool) (first last : MState) : Table where
  variables_ := ⟨(lists lt first).vars.length, (lists lt last).vars.countP fun v => !(last.var v).fixed⟩
  sense s := ⟨((lists lt first).ofSense s).length, ((lists lt last).ofSense s).countP fun v => !(last.var v).fixed⟩
  constraints := ⟨(lists lt first).cons.length, (lists lt last).cons.countP fun c => (last.con c).enabled⟩
  comparison s := ⟨(compared first s).length, (compared last s).countP fun c => (last.con c).enabled⟩
  type k := ⟨((lists lt first).ofType k).length, ((lists lt last).ofType k).countP fun c => (last.con c).enabled⟩

end Printemps.SizeTable
