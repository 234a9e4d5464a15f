import Verif.Model.LinearProgram

/-! # Model of PDLP: `PDLPCore`, `PDLPCoreStateManager`, and the use of the result by `PDLPController`

`Model/LinearProgram` has the LP, the dual objective and the dual side with arbitrary iterates.  Here the iterates are
computed: the step size search, both sides, the averages, the restarts, the verdicts.  `none` is undefined behaviour (a
remainder by 0, a division by 0, vectors of different size) or a loop that does not end within the given fuel. -/

namespace Printemps.Pdlp
open Lp Sparse

/-- The mathematical functions: `sqrt`; `exp(0.5 * log(d / p) + 0.5 * log(w))` of the distances `d`, `p` and the old
weight `w` (solver/pdlp/core/pdlp_core_state_manager.h:460-461); and the powers of the number of attempts
(solver/pdlp/core/pdlp_core_state_manager.h:333-337), `std::pow(n + 1.0, exponent)`. -/
structure Fn where
  sqrtf : ℚ → ℚ
  weight : ℚ → ℚ → ℚ → ℚ
  reduce : ℕ → ℚ
  extend : ℕ → ℚ

/-- The options of PDLP that matter, option/pdlp_option.h:13-67, `general.time_max`, and
`numeric_limits<double>::max()` (`big`). -/
structure Opt where
  iterationMax : ℤ
  timeMax : ℚ
  timeOffset : ℚ
  generalTimeMax : ℚ
  tolerance : ℚ
  restartInterval : ℤ
  convergenceInterval : ℤ
  logInterval : ℤ
  big : ℚ

/-- `constant::EPSILON`, constant/constant.h:10. -/
def EPSILON : ℚ := 1 / 100000

/-- `Vector::norm`, utility/sparse/vector.h:65-68. -/
def norm (f : Fn) (v : List ℚ) : ℚ := f.sqrtf (inner v v)

/-- `subtract`, utility/sparse/function.h:37-48. -/
def subtract (x y : List ℚ) : List ℚ := List.zipWith (fun a b => a - b) x y

/-- `distance`, utility/sparse/function.h:11-21. -/
def distance (f : Fn) (x y : List ℚ) : ℚ := f.sqrtf (inner (subtract x y) (subtract x y))

/-- `Vector::clamp` with the primal bounds, utility/sparse/vector.h:174-190 (`std::clamp`; lower at most upper). -/
def clampPrimal (lb ub x : List ℚ) : List ℚ :=
  List.zipWith (fun v b => if v < b.1 then b.1 else if b.2 < v then b.2 else v) x (List.zip lb ub)

/-- `linear_combination` of three vectors, utility/sparse/function.h:67-85. -/
def combine (a : ℚ) (x : List ℚ) (b : ℚ) (y : List ℚ) (c : ℚ) (z : List ℚ) : List ℚ :=
  List.zipWith (fun u w => u + c * w) (List.zipWith (fun v w => a * v + b * w) x y) z

/-- `norm_infty` of `setup_norm`, utility/sparse/sparse_matrix.h:82-96. -/
def normInfty (m : Matrix) : ℚ := m.entries.foldl (fun n e => max n |e.value|) 0

/-- What `update_convergence_information` computes, solver/pdlp/core/pdlp_core_state_manager.h:466-566. -/
structure Info where
  primalObjective : ℚ
  dualObjective : ℚ
  primalViolation : ℚ
  dualViolation : ℚ
  gap : ℚ

/-- The state, solver/pdlp/core/pdlp_core_state.h:15-43 and primal_dual_state.h (`x`: `solution`, `xAvg`:
`solution_average`, `xBase`: `solution_baseline` of the primal side; `y…` of the dual side).  The normalized gaps are
not modelled (see `Plan`). -/
structure State where
  x : List ℚ
  y : List ℚ
  xAvg : List ℚ
  yAvg : List ℚ
  xBase : List ℚ
  yBase : List ℚ
  step : ℚ
  stepPrev : ℚ
  total : ℚ
  weight : ℚ
  attempts : ℕ
  inner : ℕ
  outer : ℕ
  iteration : ℕ
  info : Info
  upper : ℚ

/-- `objective_upper_bound`, solver/pdlp/core/pdlp_core_state_manager.h:59-75. -/
def upperBound (lp : LP) : ℚ :=
  ((lp.c.zip (lp.lb.zip lp.ub)).map fun p => if p.1 > 0 then p.1 * p.2.2 else p.1 * p.2.1).foldl (fun a v => a + v) 0

/-- `setup_initial_primal_weight`, solver/pdlp/core/pdlp_core_state_manager.h:105-118. -/
def initialWeight (f : Fn) (lp : LP) : ℚ :=
  if norm f lp.c > EPSILON ∧ norm f lp.b > EPSILON then norm f lp.c / norm f lp.b else 1

/-- The violation of the rows by a point (`dual.buffer`): equality rows keep the difference, the others only what is
missing, solver/pdlp/core/pdlp_core_state_manager.h:518-539. -/
def violation (lp : LP) (x : List ℚ) : Option (List ℚ) :=
  (linearCombination (-1) lp.A x 1 lp.b).map fun r => r.mapIdx fun i v =>
    let v1 := if lp.less.1 ≤ i ∧ i < lp.less.2 then max v 0 else v
    if lp.greater.1 ≤ i ∧ i < lp.greater.2 then max v1 0 else v1

/-- `update_convergence_information`, solver/pdlp/core/pdlp_core_state_manager.h:466-566. -/
def convergence (f : Fn) (lp : LP) (x y : List ℚ) : Option Info :=
  (Lp.dualObjective lp y).bind fun d => (violation lp x).bind fun v => (residual lp y).map fun r =>
    let p := inner x lp.c + lp.offset
    { primalObjective := p
      dualObjective := d
      primalViolation := norm f v / (1 + norm f lp.b)
      dualViolation := norm f r / (1 + norm f lp.c)
      gap := |p - d| / (1 + |d| + |p|) }

/-- One attempt of `update_solution`: the trial point and the limit of the step size,
solver/pdlp/core/pdlp_core_state_manager.h:273-330.  `lhs` is `primal.lhs` (lines 268-269). -/
def attempt (f : Fn) (o : Opt) (lp : LP) (w : ℚ) (x y lhs : List ℚ) (s : ℚ) : Option (List ℚ × List ℚ × ℚ) :=
  let x1 := clampPrimal lp.lb lp.ub (combine 1 x (-(s / w)) lp.c (s / w) lhs)
  let mirrored := List.zipWith (fun a b => 2 * a + -1 * b) x1 x
  (dot lp.A mirrored).bind fun l =>
    let y1 := clampDual lp.dualLb (combine 1 y (s * w) lp.b (-(s * w)) l)
    let dx := subtract x1 x
    let dy := subtract y1 y
    (dot lp.A dx).map fun ax =>
      let move := f.sqrtf (w * norm f dx * norm f dx + 1 / w * norm f dy * norm f dy)
      let interaction := |inner dy ax|
      (x1, y1, if interaction > EPSILON then 1 / 2 * move * move / interaction else o.big)

/-- The step size after an attempt, solver/pdlp/core/pdlp_core_state_manager.h:332-338; `n` is the number of
attempts, this one included. -/
def candidate (f : Fn) (n : ℕ) (limit s : ℚ) : ℚ := min ((1 - f.reduce n) * limit) ((1 + f.extend n) * s)

/-- The loop of `update_solution`, solver/pdlp/core/pdlp_core_state_manager.h:270-348. -/
def search (f : Fn) (o : Opt) (lp : LP) (lhs : List ℚ) : ℕ → State → ℚ → Option State
  | 0, _, _ => none
  | fuel + 1, st, s =>
    (attempt f o lp st.weight st.x st.y lhs s).bind fun (t : List ℚ × List ℚ × ℚ) =>
      let n := st.attempts + 1
      let c := candidate f n t.2.2 s
      if s < t.2.2 then some { st with attempts := n, x := t.1, y := t.2.1, stepPrev := s, step := c }
      else search f o lp lhs fuel { st with attempts := n } c

/-- `update_solution`, solver/pdlp/core/pdlp_core_state_manager.h:264-349. -/
def updateSolution (f : Fn) (o : Opt) (lp : LP) (fuel : ℕ) (st : State) : Option State :=
  (dot lp.At st.y).bind fun lhs => search f o lp lhs fuel st st.step

/-- `update_averaged_solution`, solver/pdlp/core/pdlp_core_state_manager.h:352-362. -/
def updateAverage (st : State) : State :=
  let total := st.total + st.stepPrev
  { st with total := total, xAvg := learn (st.stepPrev / total) st.xAvg st.x
            yAvg := learn (st.stepPrev / total) st.yAvg st.y }

/-- The decision whether to restart, and from the current (`true`) or the average point (`false`),
solver/pdlp/core/pdlp_core_state_manager.h:376-433.  Simplification: the comparison of the normalized gaps is an
arbitrary function of the state, so the theorems hold for every outcome of these comparisons. -/
abbrev Plan := State → Option Bool

/-- `update_restart_information` or `skip_restart`, solver/pdlp/core/pdlp_core_state_manager.h:365-374, 437-439 and
solver/pdlp/core/pdlp_core.h:365-369. -/
def restartDecision (o : Opt) (plan : Plan) (st : State) : Option Bool :=
  if (st.iteration : ℤ) % o.restartInterval = 0 then
    if st.inner ≤ 1 then none else plan st
  else none

/-- `update_primal_weight`, solver/pdlp/core/pdlp_core_state_manager.h:449-463. -/
def updateWeight (f : Fn) (st : State) : ℚ :=
  let p := distance f st.xAvg st.xBase
  let d := distance f st.yAvg st.yBase
  if p > EPSILON ∧ d > EPSILON ∧ p < 1 / EPSILON ∧ d < 1 / EPSILON then f.weight d p st.weight else st.weight

/-- `setup_new_inner_loop`, solver/pdlp/core/pdlp_core_state_manager.h:121-136 (without the normalized gaps). -/
def newInnerLoop (st : State) : State :=
  let st1 := if st.outer = 0 then
      { st with xAvg := List.replicate st.xAvg.length 0, yAvg := List.replicate st.yAvg.length 0, total := 0 }
    else { st with xAvg := st.x, yAvg := st.y, total := 1 }
  { st1 with outer := st.outer + 1, inner := 0, xBase := st.x, yBase := st.y }

/-- `update_restart_solution`, `update_primal_weight`, `setup_new_inner_loop`, or `next_inner_iteration`,
solver/pdlp/core/pdlp_core.h:384-390. -/
def finishIteration (f : Fn) (d : Option Bool) (st : State) : State :=
  match d with
  | none => { st with inner := st.inner + 1 }
  | some current =>
    let st1 := if current then st else { st with x := st.xAvg, y := st.yAvg }
    newInnerLoop { st1 with weight := updateWeight f st1 }

/-- One iteration after the tests, solver/pdlp/core/pdlp_core.h:362-391.  A remainder by an interval of 0 is undefined. -/
def iterate (f : Fn) (o : Opt) (plan : Plan) (lp : LP) (fuel : ℕ) (st : State) : Option State :=
  (updateSolution f o lp fuel st).bind fun st1 =>
    let st2 := updateAverage st1
    if o.restartInterval = 0 ∨ o.convergenceInterval = 0 ∨ o.logInterval = 0 then none
    else
      let d := restartDecision o plan st2
      (if (st2.iteration : ℤ) % o.convergenceInterval = 0 ∨ (st2.iteration : ℤ) % o.logInterval = 0 then
          (convergence f lp st2.xAvg st2.yAvg).map fun i => { st2 with info := i }
        else some st2).map fun st3 =>
      let st4 := finishIteration f d st3
      { st4 with iteration := st4.iteration + 1 }

/-- `PDLPCoreTerminationStatus`, solver/pdlp/core/pdlp_core_termination_status.h:11-16. -/
inductive Verdict where
  | timeOver
  | iterationOver
  | optimal
  | infeasible
deriving DecidableEq, Repr

/-- `satisfy_optimal_terminate_condition`, solver/pdlp/core/pdlp_core.h:69-87. -/
def isOptimal (o : Opt) (i : Info) : Bool :=
  !decide (i.primalViolation > o.tolerance) && !decide (i.dualViolation > o.tolerance) && !decide (i.gap > o.tolerance)

/-- `satisfy_infeasible_terminate_condition`, solver/pdlp/core/pdlp_core.h:90-108. -/
def isInfeasible (o : Opt) (st : State) : Bool :=
  !decide (st.info.dualViolation > o.tolerance) &&
  !decide (st.info.dualObjective < st.upper + max 1 (|st.upper| * EPSILON))

/-- The tests at the top of the loop, solver/pdlp/core/pdlp_core.h:316-360; `t` is the elapsed time. -/
def test (o : Opt) (t : ℚ) (st : State) : Option Verdict :=
  if t > o.timeMax ∨ t + o.timeOffset > o.generalTimeMax then some .timeOver
  else if (st.iteration : ℤ) ≥ o.iterationMax then some .iterationOver
  else if isOptimal o st.info then some .optimal
  else if isInfeasible o st then some .infeasible
  else none

/-- The loop of `run`, solver/pdlp/core/pdlp_core.h:315-392.  `clock n` is the time read at the top of iteration `n`;
`attempts n` is fuel for the step size search of iteration `n`. -/
def loop (f : Fn) (o : Opt) (plan : Plan) (lp : LP) (clock : ℕ → ℚ) (attempts : ℕ → ℕ) : ℕ → State → Option (Verdict × State)
  | 0, _ => none
  | fuel + 1, st =>
    match test o (clock st.iteration) st with
    | some v => some (v, st)
    | none => (iterate f o plan lp (attempts st.iteration) st).bind (loop f o plan lp clock attempts fuel)

/-- `setup` and the lines before the loop, solver/pdlp/core/pdlp_core_state_manager.h:39-118,
solver/pdlp/core/pdlp_core.h:288-314: the convergence information is that of the initial point, then the averages are
emptied and the counters reset.  A division by a norm of 0 is undefined. -/
def start (f : Fn) (lp : LP) (x0 : List ℚ) : Option State :=
  if normInfty lp.A = 0 then none
  else
    let y0 := List.replicate lp.rows (0 : ℚ)
    (convergence f lp x0 y0).map fun i =>
      let st := newInnerLoop
        { x := x0, y := y0, xAvg := x0, yAvg := y0, xBase := List.replicate lp.cols 0, yBase := List.replicate lp.rows 0
          step := 1 / normInfty lp.A, stepPrev := 1 / normInfty lp.A, total := 0, weight := initialWeight f lp
          attempts := 0, inner := 0, outer := 0, iteration := 0, info := i, upper := upperBound lp }
      { st with inner := 0, outer := 0, iteration := 0 }

/-- `PDLPCore::run`, solver/pdlp/core/pdlp_core.h:276-397. -/
def run (f : Fn) (o : Opt) (plan : Plan) (lp : LP) (x0 : List ℚ) (clock : ℕ → ℚ) (attempts : ℕ → ℕ) :
    Option (Verdict × State) :=
  (start f lp x0).bind (loop f o plan lp clock attempts (o.iterationMax.toNat + 1))

/-- The initial point of the exported LP, model/model.h:1486-1508. -/
def initialPoint (m : MState) : List ℚ :=
  clampPrimal ((columns m).map fun v => ((m.var v).lb : ℚ)) ((columns m).map fun v => ((m.var v).ub : ℚ))
    ((columns m).map fun v => ((m.var v).value : ℚ))

/-- What `PDLPController::run` does with the model: skipped, or the scaled LP and the result of the core,
solver/pdlp/controller/pdlp_controller.h:127-185.  The initial point is scaled with the LP
(linear_programming/linear_programming.h:98). -/
def controller (f : Fn) (o : Opt) (plan : Plan) (ruizCount : ℕ) (pock : Bool) (clock : ℕ → ℚ) (attempts : ℕ → ℕ)
    (m : MState) (sels : List ConId) : Option (Option (LP × Verdict × State)) :=
  if columns m = [] then some none
  else if o.timeOffset > o.generalTimeMax then some none
  else (exportLP m sels).bind fun lp =>
    if lp.cols ≤ 1 ∨ lp.rows ≤ 1 then some none
    else (scaling f.sqrtf ruizCount pock lp).bind fun lp' =>
      (run f o plan lp' (diag lp'.A.colScaler (initialPoint m)) clock attempts).map fun r => some (lp', r.1, r.2)

end Printemps.Pdlp
