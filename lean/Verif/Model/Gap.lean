import Verif.Model.Pdlp

/-! # Model of the normalized gap of PDLP

solver/pdlp/core/pdlp_core_state_manager.h:150-262.  The upper bounds of the dual variables are the largest number in all rows
(model/model.h:1513-1514), which no dual value reaches: the first test of a row never applies and the comparison of the second
one always does. -/

namespace Printemps.Pdlp
open Lp Sparse

/-- `compute_weighted_norm` of a pair, solver/pdlp/core/pdlp_core_state_manager.h:150-158. -/
def weightedNorm (f : Fn) (w : ℚ) (dx dy : List ℚ) : ℚ :=
  f.sqrtf (w * norm f dx * norm f dx + 1 / w * norm f dy * norm f dy)

/-- The direction of a column with bounds `l`, `u`, value `x` and coefficient `r`,
solver/pdlp/core/pdlp_core_state_manager.h:196-213. -/
def columnDirection (w l u x r : ℚ) : ℚ :=
  if x ≥ u ∧ r ≤ 0 then 0 else if x ≤ l ∧ r ≥ 0 then 0 else -r * w

/-- The direction of a row with coefficient `r`, solver/pdlp/core/pdlp_core_state_manager.h:215-230.  Both tests of the code
use the upper bound of the dual variable. -/
def rowDirection (w r : ℚ) : ℚ := if r ≥ 0 then 0 else r / w

/-- `compute_normalized_gap`, solver/pdlp/core/pdlp_core_state_manager.h:177-262.  `none`: vectors of different size.
Simplification: in Lean a division by a radius of 0 gives 0; in the code it gives an infinite number or none, so theorems
assume a positive radius. -/
def normalizedGap (f : Fn) (w : ℚ) (lp : LP) (x y : List ℚ) (radius : ℚ) : Option ℚ := do
  let rx ← rawCosts lp y
  let ry ← linearCombination (-1) lp.A x 1 lp.b
  let dx := rx.mapIdx fun j r => columnDirection w (lp.lb.getD j 0) (lp.ub.getD j 0) (x.getD j 0) r
  let dy := ry.map (rowDirection w)
  let n := weightedNorm f w dx dy
  if n < 1 / 10000000000 then some 0
  else
    let dx := dx.map (· / (n * radius))
    let dy := dy.map (· / (n * radius))
    let aty ← dot lp.At (List.zipWith (· + ·) y dy)
    let ax ← dot lp.A (List.zipWith (· + ·) x dx)
    some ((-inner lp.c dx + inner lp.b dy - inner x aty + inner y ax) / radius)

end Printemps.Pdlp
