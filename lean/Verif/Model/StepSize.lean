import Verif.Model.Model

/-! # Model of `IntegerStepSizeAdjuster`, solver/integer_step_size_adjuster.h

`score t` stands for the `global_augmented_objective` that `evaluate_multi` gives for the move with the last
alteration set to `t`.  Overflow of `int` is not modelled. -/

namespace Printemps.StepSize

/-- The local variables of `adjust`, solver/integer_step_size_adjuster.h:65-75. -/
structure Search where
  step : ℤ
  target : ℤ
  lower : ℤ
  upper : ℤ
  candidate : ℤ
  best : ℚ
deriving Repr, DecidableEq

/-- `DIRECTION`, solver/integer_step_size_adjuster.h:49. -/
def direction (orig init : ℤ) : ℤ := if init - orig > 0 then 1 else -1

/-- The doubling loop, solver/integer_step_size_adjuster.h:77-110; `none`: the given number of rounds was not
enough. -/
def grow (score : ℤ → ℚ) (orig lb ub dir : ℤ) : ℕ → Search → Option Search
  | 0, _ => none
  | fuel + 1, s =>
    if score s.target < s.best then
      let step := s.step * 2
      let target := orig + dir * step
      let s' : Search :=
        { step := step, target := target
          lower := if dir > 0 then max s.lower s.target else s.lower
          upper := if dir > 0 then s.upper else min s.upper s.target
          candidate := s.target, best := score s.target }
      if target ≤ lb then some { s' with lower := lb }
      else if target ≥ ub then some { s' with upper := ub }
      else grow score orig lb ub dir fuel s'
    else if dir > 0 then some { s with upper := s.target }
    else some { s with lower := s.target }

/-- The bisection loop, solver/integer_step_size_adjuster.h:112-134; the division truncates toward zero. -/
def bisect (score : ℤ → ℚ) (dir : ℤ) : ℕ → Search → Option Search
  | 0, _ => none
  | fuel + 1, s =>
    if s.upper - s.lower > 1 then
      let target := Int.tdiv (s.lower + s.upper) 2
      if score target < s.best then
        bisect score dir fuel
          { s with target := target, candidate := target, best := score target
                   lower := if dir > 0 then target else s.lower
                   upper := if dir > 0 then s.upper else target }
      else
        bisect score dir fuel
          { s with target := target
                   lower := if dir > 0 then s.lower else target
                   upper := if dir > 0 then target else s.upper }
    else some s

/-- `adjust` on the value of the last alteration, solver/integer_step_size_adjuster.h:43-137. -/
def adjustValue (score : ℤ → ℚ) (fuel : ℕ) (orig lb ub init : ℤ) : Option ℤ :=
  let dir := direction orig init
  if dir > 0 ∧ init = ub then some init
  else if dir < 0 ∧ init = lb then some init
  else do
    let s ← grow score orig lb ub dir fuel
      { step := 2, target := orig + dir * 2, lower := orig, upper := orig, candidate := init, best := score init }
    let s ← bisect score dir fuel s
    some s.candidate

/-- The move with the value of its last alteration replaced, solver/integer_step_size_adjuster.h:78, 114, 136. -/
def withTarget (mv : Move) (v : VarId) (t : ℤ) : Move :=
  { mv with alterations := mv.alterations.dropLast ++ [(v, t)] }

/-- `adjust`, solver/integer_step_size_adjuster.h:43-137.  `none` also for a move without alterations, where
the code reads behind an empty vector. -/
def adjust (m : MState) (cur : Score) (fuel : ℕ) (mv : Move) : Option Move :=
  match mv.alterations.getLast? with
  | none => none
  | some a =>
    (adjustValue (fun t => (m.evaluateMulti (withTarget mv a.1 t) cur).globalAug) fuel
      (m.var a.1).value (m.var a.1).lb (m.var a.1).ub a.2).map (withTarget mv a.1)

end Printemps.StepSize
