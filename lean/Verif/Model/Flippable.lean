import Verif.Model.Standalone
import Verif.Model.Moves
import Verif.Model.Selection

/-! # Model of `preprocess/flippable_variable_pair_extractor.h` and of its file

Simplification: messages are dropped. -/

namespace Printemps.Flip
open Json Cmd Opt Text

/-- The condition on a variable, preprocess/flippable_variable_pair_extractor.h:60-67. -/
def candidate (m : MState) (k : ℤ) (v : VarId) : Bool :=
  !(m.var v).fixed && (decide ((m.var v).sense = .binary) || decide ((m.var v).sense = .selection)) &&
    decide (k ≤ ((m.relatedOf v).length : ℤ))

/-- The set of variables, preprocess/flippable_variable_pair_extractor.h:50-71 (in some order). -/
def candidates (m : MState) (k : ℤ) : List VarId :=
  (m.enabledIds.flatMap fun c => (m.con c).expr.vars.filter (candidate m k)).dedup

/-- `utility::intersection_set`, utility/unordered_set_utility.h:11-31. -/
def intersection (a b : List ConId) : List ConId :=
  if a.length < b.length then a.filter (fun c => decide (c ∈ b)) else b.filter (fun c => decide (c ∈ a))

/-- `utility::union_set`, utility/unordered_set_utility.h:47-52. -/
def union (a b : List ConId) : List ConId := a ++ b.filter (fun c => decide (c ∉ a))

/-- `FlippableVariablePair`, preprocess/flippable_variable_pair.h:12-48. -/
structure Pair where
  first : VarId
  second : VarId
  common : ℕ
  overlap : ℚ
deriving DecidableEq

/-- The body of the inner loop, preprocess/flippable_variable_pair_extractor.h:79-111; the union is never empty (theorem
`C71.union_not_empty`). -/
def pairOf (m : MState) (k : ℤ) (v w : VarId) : Option Pair :=
  let n := (intersection (m.relatedOf v) (m.relatedOf w)).length
  if k ≤ (n : ℤ) then some ⟨v, w, n, (n : ℚ) / ((union (m.relatedOf v) (m.relatedOf w)).length : ℚ)⟩ else none

/-- The two loops, preprocess/flippable_variable_pair_extractor.h:78-113. -/
def pairLoop (m : MState) (k : ℤ) : List VarId → List Pair
  | [] => []
  | v :: vs => vs.filterMap (pairOf m k v) ++ pairLoop m k vs

/-- `extract_pairs`, preprocess/flippable_variable_pair_extractor.h:44-126, for the variables in the order `vs` of the
iteration over the set.  `std::stable_sort` is `List.mergeSort`. -/
def extractPairs (m : MState) (k : ℤ) (vs : List VarId) : List Pair :=
  (pairLoop m k vs).mergeSort fun a b => decide (¬ b.overlap > a.overlap)

/-- `write_pairs`, preprocess/flippable_variable_pair_extractor.h:129-141. -/
def writePairs (name : VarId → Str) (m : MState) (ps : List Pair) : List Char :=
  ps.flatMap fun p => name p.first ++ ' ' :: (name p.second ++ ' ' :: (natChars (m.relatedOf p.first).length ++ ' ' ::
    (natChars (m.relatedOf p.second).length ++ ' ' :: (natChars p.common ++ ' ' :: (formatDouble p.overlap ++ [' ', '\n'])))))

end Printemps.Flip
