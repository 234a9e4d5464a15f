import Verif.Model.Neighborhood
import Verif.Model.LocalSearch
import Verif.Model.Search

/-! # Model of where the accepted moves of a search come from

Tabu search and local search accept only moves of the neighbourhood: candidates as they are, candidates with an adjusted
step, and moves merged from candidates.  Chain moves are put together from moves accepted before.

Simplification: which candidate is chosen, which generators and improvability switches are on and which special moves
are available is left open; local search and Lagrange dual may also register chain moves (in the code only tabu search
does). -/

namespace Printemps.Nbhd
open Moves Chain Search

variable {ν μ : Type} [LinearOrder ν] [LinearOrder μ]

/-- The stored chain moves, solver/tabu_search/core/tabu_search_core.h:533-565 with `register_move`,
neighborhood/chain_move_generator.h:88-93: combined from two accepted moves (`past`), available or not
(neighborhood/abstract_move_generator.h:108-112, tabu_search_core.h:1067-1069). -/
inductive Woven (name : ConId → ν) (past : List Move) : CMove → Prop where
  | register (env : Env ν) (t : ℚ) (p c : CMove) (l : List CMove) (x : CMove) (henv : env.name = name)
      (hp : p.move ∈ past) (hc : c.move ∈ past) (hl : registered env t p c = some l) (hx : x ∈ l) : Woven name past x
  | mark (x : CMove) (b : Bool) (hx : Woven name past x) :
      Woven name past { x with move := { x.move with isAvailable := b } }

/-- The move accepted in the state `s` for the neighbourhood status `st`; the second argument says that its score is
computed anew.  `plain`: tabu_search_core.h:1022-1027, 1047; `adjusted`: tabu_search_core.h:1033-1045; `merged`:
local_search_core.h:552-648, 661-665. -/
inductive Chosen (C : Config ν μ) (cfg : Cfg) (st : Status) (acc : Accept) (s : St) : Move → Bool → Prop where
  | plain (l : List Move) (mv : Move) (hl : candidates C st acc s.model = some l) (hmv : mv ∈ l) :
      Chosen C cfg st acc s mv false
  | adjusted (l : List Move) (mv0 mv : Move) (fuel : ℕ) (hl : candidates C st acc s.model = some l) (hmv : mv0 ∈ l)
      (hi : mv0.sense = .integer) (ha : StepSize.adjust s.model s.cur fuel mv0 = some mv) :
      Chosen C cfg st acc s mv true
  | merged (l : List Move) (adj : Bool) (fuel : ℕ) (r : LocalSearch.Merged)
      (hl : candidates C st acc s.model = some l)
      (hr : LocalSearch.merge s.model s.cur adj fuel
        (l.map (fun mv => (mv, trialScore { cfg with fast := true } s.model mv s.cur))) = some r) :
      Chosen C cfg st acc s r.move true

/-- The moves of an event. -/
def movesOf : Event → List Move
  | .move mv _ => [mv]
  | _ => []

/-- An event that the searches can bring about in the state `s` after having accepted the moves `past`:
tabu_search_core.h:880-1110, local_search_core.h:470-700; penalty coefficients are not negative (see Model/Penalty). -/
def Allowed (C : Config ν μ) (cfg : Cfg) (past : List Move) (s : St) : Event → Prop
  | .move mv renewed => ∃ (st : Status) (acc : Accept), (∀ x ∈ st.chain, Woven C.name past x) ∧
      Chosen C cfg st acc s mv renewed
  | .penalties l g => ∀ c, 0 ≤ l c ∧ 0 ≤ g c
  | .start _ => True
  | .relax _ => True

/-- Every event of a run is one that the searches can bring about in the state reached. -/
def Follows (C : Config ν μ) (cfg : Cfg) : List Move → St → List Event → Prop
  | _, _, [] => True
  | past, s, e :: es => Allowed C cfg past s e ∧ ∀ s1, step cfg s e = some s1 → Follows C cfg (movesOf e ++ past) s1 es

end Printemps.Nbhd
