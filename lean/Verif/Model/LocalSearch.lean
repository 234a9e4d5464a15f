import Verif.Model.StepSize

/-! # Model of the choice of moves in local search, solver/local_search/core/local_search_core.h

The trial moves come with their scores.  `number_of_performed_moves` is modelled as the list of the performed moves
(its length is the number). -/

namespace Printemps.LocalSearch

/-- The tests that let the loop go on, solver/local_search/core/local_search_core.h:598-607. -/
def worthwhile (cur sc : Score) : Bool :=
  if sc.isFeasible then sc.isObjectiveImprovable else decide (sc.totalViolation < cur.totalViolation)

/-- `has_intersection`, solver/local_search/core/local_search_core.h:609-621. -/
def meets (m : MState) (taken : List ConId) (mv : Move) : Bool :=
  mv.related.any (fun c => (m.con c).enabled && decide (c ∈ taken))

/-- The merged move, the constraints it uses, and the moves it consists of. -/
structure Merged where
  move : Move
  taken : List ConId
  performed : List Move

/-- Appending a move, solver/local_search/core/local_search_core.h:627-634. -/
def append (acc mv : Move) : Move :=
  { acc with alterations := acc.alterations ++ mv.alterations, related := acc.related ++ mv.related }

/-- The loop over the trial moves in their order, solver/local_search/core/local_search_core.h:592-648; `adj` is
`is_enabled_integer_step_size_adjuster`; `none` if `fuel` is too small for an adjustment. -/
def mergeLoop (m : MState) (cur : Score) (adj : Bool) (fuel : ℕ) : List (Move × Score) → Merged → Option Merged
  | [], s => some s
  | (mv, sc) :: rest, s =>
    if worthwhile cur sc = false then some s
    else if meets m s.taken mv then mergeLoop m cur adj fuel rest s
    else
      let move := append s.move mv
      if adj = true ∧ mv.sense = .integer then
        (StepSize.adjust m cur fuel move).bind fun move' =>
          mergeLoop m cur adj fuel rest ⟨move', s.taken ++ mv.related, s.performed ++ [mv]⟩
      else mergeLoop m cur adj fuel rest ⟨move, s.taken ++ mv.related, s.performed ++ [mv]⟩

/-- The two stable sorts, solver/local_search/core/local_search_core.h:570-588. -/
def order (trials : List (Move × Score)) : List (Move × Score) :=
  (trials.mergeSort (fun a b => decide (a.1.related.length ≤ b.1.related.length))).mergeSort
    (fun a b => decide (a.2.globalAug ≤ b.2.globalAug))

/-- The merged move of one iteration, solver/local_search/core/local_search_core.h:570-648. -/
def merge (m : MState) (cur : Score) (adj : Bool) (fuel : ℕ) (trials : List (Move × Score)) : Option Merged :=
  mergeLoop m cur adj fuel (order trials) ⟨{ alterations := [] }, [], []⟩

end Printemps.LocalSearch
