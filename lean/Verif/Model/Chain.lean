import Verif.Model.Moves
import Mathlib.Data.List.Sort

/-! # Model of chain moves: `neighborhood/move.h` (sum, comparison, overlap rate, hash),
`neighborhood/chain_move_generator.h` and their use in the tabu search -/

namespace Printemps
namespace Chain

/-- `std::unique` after an element that is kept: runs of equal elements are cut down to their first element. -/
def uniqueFrom {α : Type} (eq : α → α → Bool) (last : α) : List α → List α
  | [] => []
  | b :: l => if eq last b then uniqueFrom eq last l else b :: uniqueFrom eq b l

/-- `erase(unique(begin, end), end)`, neighborhood/move.h:253-256, neighborhood/chain_move_generator.h:97-99. -/
def unique {α : Type} (eq : α → α → Bool) : List α → List α
  | [] => []
  | a :: l => a :: uniqueFrom eq a l

/-- `sort_and_unique_related_constraint_ptrs`, neighborhood/move.h:245-257: stable sort by name, then removal of
neighbouring duplicates (equal pointers). -/
def sortUnique {ν : Type} [LinearOrder ν] (name : ConId → ν) (l : List ConId) : List ConId :=
  unique (fun a b => decide (a = b)) (l.insertionSort (fun a b => name a ≤ name b))

/-- A move together with the fields `overlap_rate` and `hash`, neighborhood/move.h:20-62. -/
structure CMove where
  move : Move
  overlap : ℚ := 0
  hash : ℕ := 0
deriving DecidableEq

/-- What the code reads of the variables and constraints: addresses of variables, the constraints in which a
variable has a 0/1-type coefficient, names of constraints, and `pow(x, 1.0 / n)`. -/
structure Env (ν : Type) where
  addr : VarId → ℕ
  binRelated : VarId → List ConId
  name : ConId → ν
  root : ℚ → ℕ → ℚ

variable {ν : Type} [LinearOrder ν]

/-- The loop over the other alterations, neighborhood/move.h:201-215. Sets are lists without repetition. -/
def sets (env : Env ν) : List (VarId × ℤ) → List ConId × List ConId → List ConId × List ConId
  | [], s => s
  | a :: l, s =>
    let r := (env.binRelated a.1).dedup
    sets env l (s.1 ∪ r, s.2.filter (fun c => decide (c ∈ r)))

/-- `setup_overlap_rate`, neighborhood/move.h:183-227; `none` is `front()` of an empty vector. -/
def overlapRate (env : Env ν) : List (VarId × ℤ) → Option ℚ
  | [] => none
  | a :: l =>
    let u := (env.binRelated a.1).dedup
    if u.length = 0 then some 0
    else
      let s := sets env l (u, u)
      some (env.root ((s.2.length : ℚ) / (s.1.length : ℚ)) l.length)

/-- `setup_hash`, neighborhood/move.h:230-244. -/
def hashOf (env : Env ν) (l : List (VarId × ℤ)) : ℕ := l.foldl (fun h a => h ^^^ env.addr a.1) 0

/-- `operator+`, neighborhood/move.h:261-287. -/
def add (env : Env ν) (a b : CMove) : Option CMove :=
  let alts := a.move.alterations ++ b.move.alterations
  (overlapRate env alts).map fun r =>
    { move := { a.move with
        alterations := alts
        related := sortUnique env.name (a.move.related ++ b.move.related)
        sense := .chain, isUnivariable := false, isAvailable := false, isSpecial := true }
      overlap := r
      hash := hashOf env alts }

/-- `has_duplicate_variable`, neighborhood/move.h:158-168. -/
def hasDuplicate : List (VarId × ℤ) → Bool
  | [] => false
  | a :: l => l.any (fun b => decide (a.1 = b.1)) || hasDuplicate l

/-- The condition on two consecutive moves, solver/tabu_search/core/tabu_search_core.h:536-543; `none` is `front()`
of an empty vector. -/
def chainable (p c : CMove) : Option Bool :=
  if p.move.sense = .binary ∧ c.move.sense = .binary then
    p.move.alterations.head?.bind fun x => c.move.alterations.head?.map fun y => decide (x.2 ≠ y.2)
  else some (decide (p.move.sense = .chain ∧ c.move.sense = .chain) || decide (p.move.sense = .twoFlip ∧ c.move.sense = .twoFlip))

/-- `back_chain_move`, solver/tabu_search/core/tabu_search_core.h:555-558. -/
def back (m : CMove) : CMove :=
  { m with move := { m.move with alterations := m.move.alterations.map (fun a => (a.1, 1 - a.2)) } }

/-- `update_chain_moves`, solver/tabu_search/core/tabu_search_core.h:533-565: the moves that are registered. -/
def registered (env : Env ν) (threshold : ℚ) (p c : CMove) : Option (List CMove) :=
  (chainable p c).bind fun ok =>
    if ok then
      p.move.alterations.head?.bind fun x => c.move.alterations.head?.bind fun y =>
        (if env.addr x.1 < env.addr y.1 then add env p c else add env c p).map fun m =>
          if m.overlap > threshold ∧ hasDuplicate m.move.alterations = false then [m, back m] else []
    else some []

/-- Comparison of moves, `operator==`, neighborhood/move.h:290-340. -/
def same (a b : CMove) : Bool :=
  decide (a.move.alterations.length = b.move.alterations.length) &&
  decide (a.move.related.length = b.move.related.length) &&
  decide (a.hash = b.hash) &&
  !decide (|a.overlap - b.overlap| > EPSILON_10) &&
  decide (a.move.alterations = b.move.alterations)

/-- Conversion of a 64-bit difference to `int` (32 bits), neighborhood/chain_move_generator.h:159-163. -/
def toInt32 (d : ℤ) : ℤ := (d + 2 ^ 31) % 2 ^ 32 - 2 ^ 31

/-- Comparison of addresses in order, neighborhood/chain_move_generator.h:157-169; `none` says that all are equal. -/
def byAddress (env : Env ν) : List (VarId × ℤ) → List (VarId × ℤ) → Option Bool
  | a :: l, b :: r =>
    let d := toInt32 ((env.addr a.1 : ℤ) - (env.addr b.1 : ℤ))
    if d > 0 then some true else if d < 0 then some false else byAddress env l r
  | _, _ => none

/-- Comparison of values in order, neighborhood/chain_move_generator.h:175-185 (differences of values are taken
without overflow). -/
def byValue : List (VarId × ℤ) → List (VarId × ℤ) → Option Bool
  | a :: l, b :: r =>
    let d := a.2 - b.2
    if d > 0 then some true else if d < 0 then some false else byValue l r
  | _, _ => none

/-- The comparison function of `sort_moves`, neighborhood/chain_move_generator.h:106-187. The comparison of hashes
(lines 122-126) compares the hash of the first move with itself and decides nothing. -/
def before (env : Env ν) (a b : CMove) : Bool :=
  let d := a.overlap - b.overlap
  if d > EPSILON_10 then true
  else if d < -EPSILON_10 then false
  else if a.hash > a.hash then true
  else if a.hash < a.hash then false
  else
    let n : ℤ := a.move.alterations.length - b.move.alterations.length
    if n > 0 then true else if n < 0 then false
    else
      let k : ℤ := a.move.related.length - b.move.related.length
      if k > 0 then true else if k < 0 then false
      else match byAddress env a.move.alterations b.move.alterations with
        | some r => r
        | none => (byValue a.move.alterations b.move.alterations).getD false

/-- `deduplicate_moves`, neighborhood/chain_move_generator.h:96-101. -/
def deduplicate (l : List CMove) : List CMove := unique same l

/-- `reduce_moves`, neighborhood/chain_move_generator.h:195-203. -/
def reduce (n : ℕ) (l : List CMove) : List CMove := if l.length ≤ n then l else l.take n

/-- What the controller reads: options and state, solver/tabu_search/controller/tabu_search_controller_state_manager.h:347-371. -/
structure Config where
  option : Bool
  updated : Bool
  enabled : Bool
  capacity : ℕ
  shuffleMode : Bool

/-- Maintenance of the stored chain moves between two tabu search runs,
solver/tabu_search/controller/tabu_search_controller_state_manager.h:347-371, 1289-1320. `sort` is `std::stable_sort` with
`before`, `shuffle` is `std::shuffle`. The `Boolean` order of the steps is that of the code. -/
def maintain (cfg : Config) (sort shuffle : List CMove → List CMove) (l : List CMove) : List CMove :=
  let l1 := if cfg.updated && cfg.option then [] else l
  let l2 := if cfg.enabled && decide (cfg.capacity > 0) then deduplicate (sort l1) else l1
  if l2.length > cfg.capacity then
    reduce cfg.capacity (if cfg.shuffleMode then shuffle l2 else l2)
  else l2

/-- The flag of a chain move, neighborhood/chain_move_generator.h:45-82. -/
def chainFlag (acc : Moves.Accept) (var : VarId → Var) (available : Bool) (alts : List (VarId × ℤ)) : Bool :=
  available && !Moves.hasFixed var alts && Moves.allChange var alts && Moves.screened acc var alts

/-- `reset_availability`, neighborhood/abstract_move_generator.h:108-112. -/
def resetAvailability (l : List CMove) : List CMove :=
  l.map (fun m => { m with move := { m.move with isAvailable := true } })

end Chain
end Printemps
