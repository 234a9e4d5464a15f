import Verif.Model.SearchLoop

/-! # Model of the limits of a call: target value, time, numbers of iterations, over all searches of a call

As in Model/SearchLoop everything that is not control flow is an arbitrary world `W`.  Here every search has its own
clock, started when the search starts, and is told the time at which it started. -/

namespace Printemps.Limits
open Loop

/-- `GeneralOptionConstant::DEFAULT_TARGET_OBJECTIVE_VALUE`, option/general_option.h:15. -/
def defaultTarget : ℚ := -10 ^ 100

/-- `setup_target_objective`, solver/solver.h:54-77; `sign` is 1 for minimisation and -1 for maximisation
(`Model::sign`), `defined` is `is_defined_objective`.  `constant::EPSILON` is `1E-5`. -/
def setupTarget (target sign : ℚ) (defined : Bool) : ℚ :=
  let rate := target / defaultTarget - 1
  let t := if |rate| > 1 / 100000 then target * sign else target
  if |rate| < 1 / 100000 then (if !defined then 0 else t) else t

/-- What the searches read from the world: the time since the call started, the feasible incumbent objective, the
number of ineffective updates. -/
structure View (W : Type) where
  now : W → ℚ
  feasibleIncumbent : W → Option ℚ
  ineffective : W → ℕ

/-- The clock of a search that started in `w0` (`utility::TimeKeeper`, utility/time_keeper.h:12-68, created in the `run` of
the cores: tabu_search_core.h:825-826, local_search_core.h:453-454, lagrange_dual_core.h:365-366). -/
def View.since {W : Type} (v : View W) (w0 : W) : Reads W :=
  { clock := fun w => v.now w - v.now w0, feasibleIncumbent := v.feasibleIncumbent, ineffective := v.ineffective }

/-- The clock of the controllers, `m_time_keeper` of the solver. -/
def View.whole {W : Type} (v : View W) : Reads W :=
  { clock := v.now, feasibleIncumbent := v.feasibleIncumbent, ineffective := v.ineffective }

/-- `time_offset` of a search is the time at which its controller started it: lagrange_dual_controller.h:128-129,
local_search_controller.h:102-103, tabu_search_controller_state_manager.h:180.  The search is constructed (`construct`)
before its own clock starts. -/
def Opt.at {W : Type} (o : Opt) (v : View W) (w0 : W) : Opt := { o with timeOffset := v.now w0 }

/-- The Lagrange dual: applicable, the construction of the core (lagrange_dual_core.h:344-358), its preprocessing
(lagrange_dual_core.h:34-60), the loop, and the rest of the controller. -/
structure Lagrange (W : Type) where
  opt : Opt
  applicable : W → Bool
  construct : W → W
  preprocess : W → W
  body : ℤ → W → W
  converged : W → Bool
  finish : W → W

/-- `LagrangeDualController::run`, solver/lagrange_dual/controller/lagrange_dual_controller.h:94-201. -/
def lagrangePhase {W : Type} (v : View W) (p : Lagrange W) (w : W) : Option W :=
  if p.applicable w = false then some w
  else if v.now w > p.opt.generalTimeMax then some w
  else if reachTarget p.opt v.whole w then some w
  else (lagrangeRun (Opt.at p.opt v w) (v.since (p.construct w)) p.body p.converged (p.opt.iterationMax.toNat + 1)
      (p.preprocess (p.construct w))).map
    fun res => p.finish res.world

/-- The local search: the construction of the core (local_search_core.h:432-446), its preprocessing
(local_search_core.h:34-72), the loop, and the rest of the controller. -/
structure Local (W : Type) where
  opt : Opt
  construct : W → W
  preprocess : W → W
  steps : LocalSteps W
  finish : W → W

/-- `LocalSearchController::run`, solver/local_search/controller/local_search_controller.h:77-157. -/
def localPhase {W : Type} (v : View W) (p : Local W) (w : W) : Option W :=
  if v.now w > p.opt.generalTimeMax then some w
  else if reachTarget p.opt v.whole w then some w
  else (localRun (Opt.at p.opt v w) (v.since (p.construct w)) p.steps (p.opt.iterationMax.toNat + 1)
      (p.preprocess (p.construct w))).map
    fun res => p.finish res.world

/-- The tabu searches: the options, the construction of each search (tabu_search_core.h:804-818), its preprocessing with
the initial modification (tabu_search_core.h:39-80), the loop, and the rest of the controller's loop. -/
structure Tabu (W : Type) where
  opt : OuterOpt
  autoBreak : Bool
  construct : ℕ → W → W
  preprocess : ℕ → W → W
  steps : TabuSteps W
  reads : OuterReads W
  finish : W → W

/-- One round of `TabuSearchController::run`, solver/tabu_search/controller/tabu_search_controller.h:936-1015. -/
def tabuRound {W : Type} (v : View W) (p : Tabu W) (it : ℕ) (st : Outer W) : Option (Outer W) :=
  (tabuRun { Opt.at p.opt.inner v st.world with iterationMax := st.iterationMax } p.autoBreak
      (v.since (p.construct it st.world)) p.steps (st.iterationMax.toNat + 1)
      (p.preprocess it (p.construct it st.world))).map fun res =>
    { world := p.finish res.world
      iterationMax := if p.opt.adjust then
          Printemps.Tabu.nextIterationMax p.opt.inner.iterationMax p.opt.tenure p.opt.rate (p.reads.globalUpdated res.world)
            res.iteration (p.reads.lastUpdate res.world) st.iterationMax
        else st.iterationMax
      last := some res.status
      total := st.total + res.runs }

/-- `TabuSearchController::run`, solver/tabu_search/controller/tabu_search_controller.h:893-1019. -/
def tabuRounds {W : Type} (v : View W) (p : Tabu W) : ℕ → ℕ → Outer W → Option (ℕ × Outer W)
  | 0, _, _ => none
  | fuel + 1, it, st =>
    if v.now st.world > p.opt.inner.generalTimeMax then some (it, st)
    else if (it : ℤ) ≥ p.opt.iterationMax then some (it, st)
    else if reachTarget p.opt.inner v.whole st.world then some (it, st)
    else if it > 0 ∧ st.last = some .optimal then some (it, st)
    else (tabuRound v p it st).bind (tabuRounds v p fuel (it + 1))

/-- The searches of a call; `none` is a search that is not enabled.  (PDLP changes no incumbent and is not part of
this; see Model/Pdlp.) -/
structure Searches (W : Type) where
  lagrange : Option (Lagrange W)
  localSearch : Option (Local W)
  tabu : Tabu W

/-- `run_lagrange_dual` if enabled, solver/solver.h:439-441. -/
def lagrangeStage {W : Type} (v : View W) : Option (Lagrange W) → W → Option W
  | none, w => some w
  | some p, w => lagrangePhase v p w

/-- `run_local_search` if enabled, solver/solver.h:446-448. -/
def localStage {W : Type} (v : View W) : Option (Local W) → W → Option W
  | none, w => some w
  | some p, w => localPhase v p w

/-- `Solver::solve` between preprocessing and postprocessing, solver/solver.h:436-453. -/
def searches {W : Type} (v : View W) (s : Searches W) (w : W) : Option W :=
  (lagrangeStage v s.lagrange w).bind fun w1 => (localStage v s.localSearch w1).bind fun w2 =>
  (tabuRounds v s.tabu (s.tabu.opt.iterationMax.toNat + 1) 0 ⟨w2, s.tabu.opt.inner.iterationMax, none, 0⟩).map
    fun (r : ℕ × Outer W) => r.2.world

end Printemps.Limits
