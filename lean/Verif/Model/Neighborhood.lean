import Verif.Model.Chain
import Verif.Model.Selection
import Verif.Model.StepSize
import Verif.Model.SelectionExtract

/-! # Model of the neighbourhood: which moves a search is offered

neighborhood/neighborhood.h with the generators of neighborhood/*_move_generator.h, and the lists of related
constraints that the moves carry.  The alterations and the flags are those of `Model/Moves` and `Model/Chain`.

Simplification: user defined moves are not modelled (they are switched off by default). -/

namespace Printemps.Nbhd
open Moves Chain

variable {ν : Type} [LinearOrder ν]

/-- `setup_variable_related_constraints`, model/model.h:941-969 with
`sort_and_unique_related_constraint_ptrs`, model_component/variable.h:506-516: the constraints in which a variable
occurs, registered in the order of the constraints, then sorted by name. -/
def related (name : ConId → ν) (m : MState) (v : VarId) : List ConId := sortUnique name (m.relatedOf v)

/-- The insertion of the constraints of one variable, model_component/selection.h:126-135; `own` is the constraint of
the selection. -/
def insertNew (own : ConId) (acc : List ConId) (cs : List ConId) : List ConId :=
  cs.foldl (fun acc c => if c = own ∨ c ∈ acc then acc else acc ++ [c]) acc

/-- The order of the constraints of one variable, model_component/selection.h:102-125; `few` says that less than half of
the constraints have been inserted. -/
def orderCons (name : ConId → ν) (m : MState) (few : Bool) (cs : List ConId) : List ConId :=
  let l := cs.insertionSort (fun a b => name a ≤ name b)
  if few then l.insertionSort (fun a b => (m.con a).expr.terms.length ≤ (m.con b).expr.terms.length)
  else l.insertionSort (fun a b => (m.con b).expr.terms.length ≤ (m.con a).expr.terms.length)

/-- The order of the variables, model_component/selection.h:84-94. -/
def orderVars {μ : Type} [LinearOrder μ] (name : ConId → ν) (vname : VarId → μ) (m : MState) (vs : List VarId) : List VarId :=
  (vs.insertionSort (fun a b => vname a ≤ vname b)).insertionSort
    (fun a b => (related name m b).length ≤ (related name m a).length)

/-- `setup_related_constraint_ptrs`, model_component/selection.h:55-138: the related constraints of the selection made
from the constraint `s`. -/
def selectionRelated {μ : Type} [LinearOrder μ] (name : ConId → ν) (vname : VarId → μ) (m : MState) (s : ConId) : List ConId :=
  let vs := orderVars name vname m (SelectionExtract.members m s)
  let total := (vs.flatMap (related name m)).dedup.length
  vs.foldl (fun acc v => insertNew s acc (orderCons name m (decide (acc.length < total / 2)) (related name m v))) []

/-- What the neighbourhood is set up with: the model at that time (`setup_neighborhood`, model/model.h:775), the names of
constraints and variables, the comparison of variables used to classify constraints, the pairs of the two-flip
moves (`m_flippable_variable_ptr_pairs`), and the variables at the time of the last setup of the generators of 0/1, integer
and selection moves, which are set up again when variables have been fixed during the search (model/model.h:1699-1711). -/
structure Config (ν μ : Type) where
  setup : MState
  name : ConId → ν
  vname : VarId → μ
  lt : VarId → VarId → Bool
  pairs : List (VarId × VarId)
  recent : VarId → Var := setup.var

/-- The variables of one sense that were not fixed when their generator was set up: `categorize_variables`,
model/model.h:1029-1075, with `extract_mutable_variable_ptrs`, neighborhood/abstract_move_generator.h:120-131. -/
def offered {μ : Type} (C : Config ν μ) (s : VarSense) : List VarId :=
  mutables C.recent (C.setup.varIds.filter (fun v => (C.recent v).sense = s))

variable {μ : Type} [LinearOrder μ]

/-- The state of the generators: which are enabled, which special moves are available, and the stored chain moves.
neighborhood/abstract_move_generator.h:24-43, neighborhood/move.h:30-40. -/
structure Status where
  enabled : MoveSense → Bool
  available : MoveSense → List (VarId × ℤ) → Bool
  chain : List CMove

/-- The classes of constraints with a generator of their own and the kind of their moves, in the order of the
generators, neighborhood/neighborhood.h:94-113. -/
def classes : List (ConType × MoveSense) :=
  [(.exclusiveOr, .exclusiveOr), (.exclusiveNor, .exclusiveNor), (.invertedIntegers, .invertedIntegers),
   (.balancedIntegers, .balancedIntegers), (.constantSum, .constantSum), (.constantDifference, .constantDifference),
   (.constantRatio, .constantRatio), (.aggregation, .aggregation), (.precedence, .precedence),
   (.variableBound, .variableBound), (.softSelection, .softSelection), (.trinomialExclusiveNor, .trinomialExclusiveNor)]

/-- A move of the special neighbourhoods: flags and related constraints, e.g.
neighborhood/exclusive_or_move_generator.h:49-82, two_flip_move_generator.h:39-77.  Simplification: the lists of the
variables are joined in the order of the alterations (the list is sorted afterwards). -/
def specialMove (C : Config ν μ) (sense : MoveSense) (alts : List (VarId × ℤ)) : Move :=
  { alterations := alts
    sense := sense
    related := sortUnique C.name (alts.flatMap (fun a => related C.name C.setup a.1))
    isSpecial := true }

/-- The flagged moves of the generator of one class; `none` is the error thrown during its setup. -/
def ofType (C : Config ν μ) (st : Status) (acc : Accept) (m : MState) (t : ConType × MoveSense) : Option (List Move) :=
  (ofModel C.setup C.lt (fun v => (m.var v).value) t.1).map fun l =>
    (l.filter (fun alts => flagOf t.1 acc m.var (st.available t.2 alts) alts)).map (specialMove C t.2)

/-- The flagged moves of the selection generator, neighborhood/selection_move_generator.h:37-135; `none` is the access
through a null pointer. -/
def selectionMoves (C : Config ν μ) (acc : Accept) (m : MState) : Option (List Move) :=
  ((offered C .selection).mapM
    (selectionMove (selectionRelated C.name C.vname C.setup) m)).map (List.filter (selectionFlag acc m))

/-- The flagged chain moves, neighborhood/chain_move_generator.h:25-86. -/
def chainMoves (st : Status) (acc : Accept) (m : MState) : List Move :=
  (st.chain.map CMove.move).filter (fun mv => chainFlag acc m.var mv.isAvailable mv.alterations)

/-- The flagged two-flip moves, neighborhood/two_flip_move_generator.h:28-146. -/
def twoFlipMoves (C : Config ν μ) (st : Status) (acc : Accept) (m : MState) : List Move :=
  ((C.pairs.flatMap twoFlip).filter (fun alts => twoFlipFlag acc m.var (st.available .twoFlip alts) alts)).map
    (specialMove C .twoFlip)

/-- The moves of a generator if it is enabled, neighborhood/neighborhood.h:127-139, 149-158. -/
def ifOn (on : Bool) (l : Option (List Move)) : Option (List Move) := if on then l else some []

/-- `update_moves`, neighborhood/neighborhood.h:119-161: the candidates of the current state, the flagged moves of all
enabled generators one after the other.  The variables are those that were not fixed when their generator was set up last.  `none` is an error (or undefined behaviour) in one of the generators. -/
def candidates (C : Config ν μ) (st : Status) (acc : Accept) (m : MState) : Option (List Move) :=
  (ifOn (st.enabled .selection) (selectionMoves C acc m)).bind fun sel =>
    (classes.mapM (fun t => ifOn (st.enabled t.2) (ofType C st acc m t))).map fun special =>
      (if st.enabled .binary then
          ((offered C .binary).filter (fun v => binaryFlag acc (m.var v))).map
            (binaryMove (related C.name C.setup) m.var) else []) ++
      (if st.enabled .integer then
          (offered C .integer).flatMap
            (integerMovesOf (related C.name C.setup) acc m.var) else []) ++
      sel ++ special.flatten ++
      (if st.enabled .chain then chainMoves st acc m else []) ++
      (if st.enabled .twoFlip then twoFlipMoves C st acc m else [])

end Printemps.Nbhd
