import Verif.Model.Statistics

/-! # Model of the summaries printed between the searches

solver/tabu_search/controller/tabu_search_controller.h:532-741: the variables altered most and least often, the constraints
violated most and least often, the constraints violated by the current solution.  The texts around the numbers and the rounding
of the numbers to four digits are not modelled. -/

namespace Printemps.Summary
open Search

/-- The loops over a sorted list with their two breaks, tabu_search_controller.h:554-575, 578-603, 629-655, 658-684: one condition
of their own (`stop`), and `count > MAX_NUMBER_OF_PRINT_ITEMS` with the maximum 5. -/
def items {α : Type} (stop : α → Bool) : ℕ → List α → List α
  | _, [] => []
  | count, x :: xs => if stop x then [] else if count > 5 then [] else x :: items stop (count + 1) xs

/-- `TOTAL_UPDATE_COUNT`, tabu_search_controller.h:541-543, 616-618. -/
def total (mem : Memory.Mem) : ℚ := max 1 (mem.total : ℚ)

/-- `update_rate`, tabu_search_controller.h:555-557, 579-581. -/
def updateRate (mem : Memory.Mem) (v : VarId) : ℚ := max 0 (min 1 (mem.updateCount v / total mem))

/-- The sorted variables, tabu_search_controller.h:547-551. -/
def byUpdates (mem : Memory.Mem) (vs : List VarId) : List VarId :=
  vs.insertionSort (fun a b => mem.updateCount a ≤ mem.updateCount b)

/-- "Low-frequent updated variables", tabu_search_controller.h:553-575. -/
def seldomUpdated (vs : List VarId) (mem : Memory.Mem) : List (VarId × ℚ) :=
  (items (fun _ => false) 0 (byUpdates mem vs)).map fun v => (v, updateRate mem v)

/-- "High-frequent updated variables", tabu_search_controller.h:577-603. -/
def oftenUpdated (vs : List VarId) (mem : Memory.Mem) : List (VarId × ℚ) :=
  (items (fun v => decide (updateRate mem v < EPSILON_10)) 0 (byUpdates mem vs).reverse).map fun v => (v, updateRate mem v)

/-- `satisfaction_rate`, tabu_search_controller.h:630-633, 659-662. -/
def satisfactionRate (mem : Memory.Mem) (c : ConId) : ℚ := max 0 (min 1 (1 - mem.violationCount c / total mem))

/-- The sorted constraints, tabu_search_controller.h:622-626. -/
def byViolations (mem : Memory.Mem) (cs : List ConId) : List ConId :=
  cs.insertionSort (fun a b => mem.violationCount b ≤ mem.violationCount a)

/-- "Low-frequent satisfied constraints", tabu_search_controller.h:628-655. -/
def seldomSatisfied (cs : List ConId) (mem : Memory.Mem) : List (ConId × ℚ) :=
  (items (fun c => decide (|1 - satisfactionRate mem c| < EPSILON_10)) 0 (byViolations mem cs)).map
    fun c => (c, satisfactionRate mem c)

/-- "High-frequent satisfied constraints", tabu_search_controller.h:657-684. -/
def oftenSatisfied (cs : List ConId) (mem : Memory.Mem) : List (ConId × ℚ) :=
  (items (fun c => decide (satisfactionRate mem c < EPSILON_10)) 0 (byViolations mem cs).reverse).map
    fun c => (c, satisfactionRate mem c)

/-- What `print_violative_constraints` prints: the lines, whether "and much more..." follows, the number in the last line. -/
structure Violated where
  lines : List (ConId × ℚ)
  more : Bool
  number : ℕ
deriving DecidableEq

/-- The loop over the constraints, tabu_search_controller.h:711-730. -/
def collect (viol : ConId → ℚ) : List ConId → ℕ → List (ConId × ℚ) → ℕ × List (ConId × ℚ)
  | [], n, ls => (n, ls)
  | c :: cs, n, ls =>
    if viol c > 0 then collect viol cs (n + 1) (if n + 1 ≤ 10 then ls ++ [(c, viol c)] else ls)
    else collect viol cs n ls

/-- The violation values of a solution, model/model.h:3223-3229 (`export_violations_and_names`,
model_component/constraint_proxy.h:210-220): those the constraints store. -/
def exportViolations (m : MState) : ConId → ℚ := fun c => (m.con c).violation

/-- `print_violative_constraints`, tabu_search_controller.h:688-741; nothing is printed for a feasible solution. -/
def violated (cs : List ConId) (viol : ConId → ℚ) (feasible : Bool) : Option Violated :=
  if feasible then none
  else
    let r := collect viol cs 0 []
    some { lines := r.2, more := decide (r.1 > 10), number := r.1 }

end Printemps.Summary
