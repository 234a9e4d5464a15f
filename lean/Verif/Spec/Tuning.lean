import Verif.Model.Tuning

/-! # What the options of a call allow for the options of each of its tabu searches -/

namespace Printemps.Spec
open Tuning

/-- The number of threads a search uses for a stage: with parallelization switched off it is one. -/
def used (p : Par) : ℤ := if p.enabled then p.threads else 1

/-- What the options `o` of a call allow for one of the two parallel stages of a search (`p`): at least one thread; no more
than the machine has when the number is chosen automatically; parallel only if the user allows it. -/
structure ParAllowed (w : Machine) (o p : Par) : Prop where
  pos : 1 ≤ p.threads
  max : o.automatic = true → o.enabled = true → p.threads ≤ w.threads
  enabled : p.enabled = true → o.enabled = true

/-- The plain kinds of moves: of one binary or integer variable, of a selection, those of the user, and those of no kind.  All
other kinds are special. -/
def plainKinds : List MoveSense := [.binary, .integer, .selection, .userDefined, .general]

/-- What the options `o` of a call allow for the search number `k`, whose options are `t` and whose enabled kinds of moves
are `kinds`; `base` are the kinds enabled at the beginning. -/
structure Allowed (w : Machine) (o : Opt) (base : MoveSense → Bool) (k : ℕ) (kinds : MoveSense → Bool) (t : Opt) : Prop where
  /-- screening is as the user sets it, else it is chosen -/
  screening : o.screening ≠ .automatic → t.screening = o.screening
  screeningChosen : o.screening = .automatic → t.screening = .soft ∨ t.screening = .aggressive ∨ t.screening = .intensive
  /-- limits for iterations -/
  iterationFixed : o.autoIteration = false → t.iterationMax = o.iterationMax
  iterationMax : t.iterationMax ≤ max o.iterationMax o.tenure
  iterationMin : min o.iterationMax o.tenure ≤ t.iterationMax
  /-- initial tabu tenure -/
  tenureFixed : o.autoTenure = false → t.tenure = o.tenure
  /-- number of random moves at the beginning -/
  noModification : o.modification = false → t.modifications = 0
  modificationsNonneg : 0 ≤ t.modifications
  modificationsMax : 0 ≤ o.fixedRate → 0 ≤ o.randomRate → 0 ≤ t.tenure →
    (t.modifications : ℚ) ≤ max 1 ((1 + o.randomRate) * (o.fixedRate * t.tenure))
  /-- threshold for early stops: the user's in searches of full length, none in shorter ones -/
  pruningFull : t.iterationMax = o.iterationMax → t.pruning = o.pruning
  pruningShort : t.iterationMax ≠ o.iterationMax → t.pruning = 1
  /-- threads -/
  update : ParAllowed w o.update t.update
  evaluation : ParAllowed w o.evaluation t.evaluation
  /-- kinds of moves: special ones only if the user allows them, the others as at the beginning -/
  special : ∀ c, c ∉ plainKinds → kinds c = true → base c = true ∨ o.special c = true
  others : ∀ c, c ∈ plainKinds → kinds c = base c
  /-- the seed is the number of the search -/
  seed : t.seed = k
  /-- the rest is as the user sets it -/
  rest : t.fixedRate = o.fixedRate ∧ t.randomRate = o.randomRate ∧ t.increaseRate = o.increaseRate ∧
    t.autoTenure = o.autoTenure ∧ t.autoIteration = o.autoIteration ∧ t.modification = o.modification ∧ t.special = o.special

end Printemps.Spec
