import Verif.Model.Search
import Verif.Model.Memory
import Verif.Model.Assoc

/-! # Model of the statistics of a call

solver/memory.h together with the searches, and the exports of solver/solver.h and model/model.h.  The iteration numbers and
the random numbers that `Memory::update` gets are arbitrary. -/

namespace Printemps.Statistics
open Search

/-- An event of a search with what `Memory::update` is given besides the move: the iteration, and for every variable the
random number drawn for it (solver/memory.h:105-114; the moves of the searches alter no variable twice, see C74). -/
structure Tick where
  event : Event
  iteration : ℤ
  random : VarId → ℤ

/-- What an event does to the memory.
`start`: `reset_local_last_update_iterations`, tabu_search_core.h:48, local_search_core.h:44, lagrange_dual_core.h:43.
`move`: `update_memory` right after the update of the model, tabu_search_core.h:337-338, 519-530, 1047-1052,
local_search_core.h:218-222, 661-683; the violated constraints are those the updated model lists (solver/memory.h:123-124). -/
def remember (reset : ℤ) (s : St) (t : Tick) (mem : Memory.Mem) : Memory.Mem :=
  match t.event with
  | .start _ => Memory.resetLocalLast reset mem
  | .move mv _ => Memory.update t.iteration (mv.alterations.map fun a => (a.1, t.random a.1)) (afterMove s.model mv).violative mem
  | .relax _ => mem
  | .penalties _ _ => mem

/-- The searches of a call with the memory. -/
def runWith (reset : ℤ) (cfg : Cfg) : List Tick → St → Memory.Mem → Option (St × Memory.Mem)
  | [], s, mem => some (s, mem)
  | t :: ts, s, mem => (step cfg s t.event).bind fun s' => runWith reset cfg ts s' (remember reset s t mem)

/-- A call: `memory.setup`, solver/solver.h:371, before the searches. -/
def call (reset : ℤ) (globalLast : VarId → ℤ) (cfg : Cfg) (m0 : MState) (ts : List Tick) : Option (St × Memory.Mem) :=
  runWith reset cfg ts (begin m0) (Memory.setup reset globalLast)

/-- Assignment of the arrays to their names, one after the other, solver/solver.h:475-479, 494-496, 511-515. -/
def byName {β : Type} : List (String × β) → Assoc String β → Assoc String β
  | [], m => m
  | e :: es, m => byName es (m.put e.1 e.2)

/-- `export_named_update_counts`, solver/solver.h:484-498 with `export_update_count_proxies`, model/model.h:3160-3180.
The arrays of variables are given by their names and elements. -/
def namedUpdateCounts (arrays : List (String × List VarId)) (mem : Memory.Mem) : Assoc String (List ℕ) :=
  byName (arrays.map fun a => (a.1, a.2.map mem.updateCount)) []

/-- `export_named_violation_counts`, solver/solver.h:501-517 with `export_violation_count_proxies`, model/model.h:3183-3204. -/
def namedViolationCounts (arrays : List (String × List ConId)) (mem : Memory.Mem) : Assoc String (List ℕ) :=
  byName (arrays.map fun a => (a.1, a.2.map mem.violationCount)) []

/-- `export_named_penalty_coefficients`, solver/solver.h:465-481 with `export_local_penalty_coefficient_proxies`,
model/model.h:3132-3157. -/
def namedPenalties (arrays : List (String × List ConId)) (m : MState) : Assoc String (List ℚ) :=
  byName (arrays.map fun a => (a.1, a.2.map fun c => max (m.con c).penLess (m.con c).penGreater)) []

end Printemps.Statistics
