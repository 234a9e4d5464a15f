import Verif.Model.Gap
import Verif.Model.Restart

/-! # Model of PDLP with the restarts its gaps lead to

`Model/Pdlp` leaves the decisions about restarts open (`Plan`); here they are those of `Model/Restart`, for the gaps of `Model/Gap`. -/

namespace Printemps.Pdlp
open Lp Sparse

/-- The gaps of the current and of the averaged point, solver/pdlp/core/pdlp_core_state_manager.h:376-389.  Simplification: see
`normalizedGap` for a radius of 0. -/
def gapsOf (f : Fn) (lp : LP) (st : State) : Option (ℚ × ℚ) := do
  let average ← normalizedGap f st.weight lp st.xAvg st.yAvg
    (weightedNorm f st.weight (subtract st.xAvg st.xBase) (subtract st.yAvg st.yBase))
  let current ← normalizedGap f st.weight lp st.x st.y
    (weightedNorm f st.weight (subtract st.x st.xBase) (subtract st.y st.yBase))
  some (current, average)

/-- The gaps as far as they are computed, solver/pdlp/core/pdlp_core.h:365-369 and
solver/pdlp/core/pdlp_core_state_manager.h:365-389: zeros, which are not read, in other iterations. -/
def checkedGaps (f : Fn) (o : Opt) (lp : LP) (st : State) : Option (ℚ × ℚ) :=
  if (st.iteration : ℤ) % o.restartInterval = 0 ∧ 2 ≤ st.inner then gapsOf f lp st else some (0, 0)

/-- One iteration after the tests, solver/pdlp/core/pdlp_core.h:362-391, with the gaps and the decision. -/
def iterateGaps (f : Fn) (o : Opt) (ro : Restart.Opt) (big : ℚ) (lp : LP) (fuel : ℕ) (st : State) (rs : Restart.State) :
    Option ((State × Restart.State) × (ℚ × ℚ) × Option Bool) :=
  (updateSolution f o lp fuel st).bind fun st1 =>
    let st2 := updateAverage st1
    if o.restartInterval = 0 ∨ o.convergenceInterval = 0 ∨ o.logInterval = 0 then none
    else
      (checkedGaps f o lp st2).bind fun g =>
      let d := Restart.check ro g.1 g.2 rs
      (if (st2.iteration : ℤ) % o.convergenceInterval = 0 ∨ (st2.iteration : ℤ) % o.logInterval = 0 then
          (convergence f lp st2.xAvg st2.yAvg).map fun i => { st2 with info := i }
        else some st2).map fun st3 =>
      let st4 := finishIteration f d.2 st3
      (({ st4 with iteration := st4.iteration + 1 }, Restart.finish big d), g, d.2)

/-- The loop of `run`, solver/pdlp/core/pdlp_core.h:315-392, with the gaps and decisions of its iterations. -/
def loopGaps (f : Fn) (o : Opt) (ro : Restart.Opt) (big : ℚ) (lp : LP) (clock : ℕ → ℚ) (attempts : ℕ → ℕ) :
    ℕ → State → Restart.State → Option (Verdict × State × List ((ℚ × ℚ) × Option Bool))
  | 0, _, _ => none
  | fuel + 1, st, rs =>
    match test o (clock st.iteration) st with
    | some v => some (v, st, [])
    | none => (iterateGaps f o ro big lp (attempts st.iteration) st rs).bind fun q =>
        (loopGaps f o ro big lp clock attempts fuel q.1.1 q.1.2).map fun r => (r.1, r.2.1, q.2 :: r.2.2)

/-- `PDLPCore::run`, solver/pdlp/core/pdlp_core.h:276-397. -/
def runGaps (f : Fn) (o : Opt) (ro : Restart.Opt) (big : ℚ) (lp : LP) (x0 : List ℚ) (clock : ℕ → ℚ) (attempts : ℕ → ℕ) :
    Option (Verdict × State × List ((ℚ × ℚ) × Option Bool)) :=
  (start f lp x0).bind fun st => loopGaps f o ro big lp clock attempts (o.iterationMax.toNat + 1) st (Restart.start big)

end Printemps.Pdlp
