import Verif.Model.Constraint

/-! # Model of the control of local penalty coefficients

`solver/tabu_search/controller/tabu_search_controller_state_manager.h:763-985`.  Coefficients are doubles
that may become NaN: `Option ℚ` with `none` for NaN.  `std::log(count + 1.0)` and `sqrt` are parameters
(`logf count`, `sqrtf x`). -/

namespace Printemps.Penalty

/-- A constraint pointer.  Simplification: natural numbers. -/
abbrev CId := Nat

/-- `PenaltyOption`, option/penalty_option.h:36-52 (the members used here). -/
structure Opt where
  initial : ℚ
  tighteningRate : ℚ
  balance : ℚ
  relaxingRate : ℚ
  relaxingRateMin : ℚ
  relaxingRateMax : ℚ
  increaseRate : ℚ
  decreaseRate : ℚ
  group : Bool

/-- The two local penalty coefficients of a constraint, model_component/constraint.h:36-50. -/
structure Pen where
  less : Option ℚ
  greater : Option ℚ
deriving DecidableEq, Repr

/-- Constraints grouped in proxies, with their senses and global coefficients, the local coefficients and
the relaxing rate of the controller (tabu_search_controller_state.h). -/
structure PState where
  proxies : List (List CId)
  sense : CId → Sense
  global : CId → ℚ
  pen : CId → Pen
  rate : ℚ

/-- What the controller reads when it updates the coefficients: constraint values of the local augmented
incumbent, violation counts, gap between global and local augmented incumbent, objective-constraint rate,
feasibility of the local incumbent, and the flags computed from the search history. -/
structure Seen where
  value : CId → ℚ
  count : CId → ℕ
  gap : ℚ
  objectiveConstraintRate : ℚ
  localFeasible : Bool
  resetFlag : Bool
  tightening : Bool
  relaxing : Bool
  updateRate : Bool
  rateDecrease : Bool
  rateRevert : Bool
  rateIncrease : Bool

/-- `is_less_or_equal()`, model_component/constraint.h:275-298. -/
def isLe (s : Sense) : Bool := s != .greater
/-- `is_greater_or_equal()`, model_component/constraint.h:275-298. -/
def isGe (s : Sense) : Bool := s != .less

/-- Violation value stored with the incumbent: model_component/constraint.h:914-935. -/
def viol (s : Sense) (x : ℚ) : ℚ :=
  match s with
  | .less => max x 0
  | .equal => max x 0 + - min x 0
  | .greater => - min x 0

/-- Addition of possibly-NaN doubles (IEEE 754), used at tabu_search_controller_state_manager.h:888-899. -/
def addN (a b : Option ℚ) : Option ℚ :=
  match a, b with
  | some x, some y => some (x + y)
  | _, _ => none

/-- Scaling of a possibly-NaN double, used at tabu_search_controller_state_manager.h:972-981. -/
def mulN (a : Option ℚ) (r : ℚ) : Option ℚ := a.map (· * r)

/-- `std::max(x, y)` is `x < y ? y : x`; a comparison with NaN is false
(tabu_search_controller_state_manager.h:904-910). -/
def maxN (x y : Option ℚ) : Option ℚ :=
  match x, y with
  | some a, some b => if a < b then some b else some a
  | _, _ => x

/-- `reset_local_penalty_coefficient`, tabu_search_controller_state_manager.h:826-832 and
model_component/constraint.h:1060-1063. -/
def reset (s : PState) : PState :=
  { s with pen := fun c => if c ∈ s.proxies.flatten then ⟨some (s.global c), some (s.global c)⟩ else s.pen c }

/-- `total_violation`, tabu_search_controller_state_manager.h:848-860. -/
def totalViolation (s : PState) (o : Seen) : ℚ :=
  s.proxies.flatten.foldl (fun acc c => acc + viol (s.sense c) (o.value c) * ((o.count c : ℚ) + 1)) 0

/-- `total_squared_violation`, tabu_search_controller_state_manager.h:848-860. -/
def totalSquared (logf : ℕ → ℚ) (s : PState) (o : Seen) : ℚ :=
  s.proxies.flatten.foldl (fun acc c =>
    acc + viol (s.sense c) (o.value c) * viol (s.sense c) (o.value c) * logf (o.count c)) 0

/-- `DELTA_PENALTY_COEFFICIENT` of a constraint, tabu_search_controller_state_manager.h:869-886.  A zero
`total_squared_violation` makes the proportional part NaN (the quotient is infinite or NaN and is then
multiplied by zero, since every product of logarithm and violation vanishes); a zero `total_violation`
implies that, too. -/
def delta (logf : ℕ → ℚ) (opt : Opt) (s : PState) (o : Seen) (c : CId) : Option ℚ :=
  if totalViolation s o = 0 ∨ totalSquared logf s o = 0 then none
  else some (opt.balance * (max 0 o.gap / totalViolation s o) +
    (1 - opt.balance) * (max 0 o.gap / totalSquared logf s o * logf (o.count c) * viol (s.sense c) (o.value c)))

/-- Update of one constraint, tabu_search_controller_state_manager.h:888-899. -/
def bump (logf : ℕ → ℚ) (opt : Opt) (s : PState) (o : Seen) (c : CId) (p : Pen) : Pen :=
  let d := (delta logf opt s o c).map (opt.tighteningRate * ·)
  if isLe (s.sense c) && decide (max (o.value c) 0 > EPSILON) then { p with less := addN p.less d }
  else if isGe (s.sense c) && decide (max (-(o.value c)) 0 > EPSILON) then { p with greater := addN p.greater d }
  else p

/-- Group maximum of one proxy, tabu_search_controller_state_manager.h:903-911. -/
def groupMax (l : List CId) (pen : CId → Pen) : Option ℚ :=
  l.foldl (fun acc c => maxN (maxN acc (pen c).less) (pen c).greater) (some 0)

/-- Bounding of one coefficient, tabu_search_controller_state_manager.h:923-940: a comparison with NaN is
false, so NaN stays. -/
def clamp (initial : ℚ) (x : Option ℚ) : Option ℚ :=
  match x with
  | some a => if a > initial then some initial else some a
  | none => none

/-- One round of the proxy loop, tabu_search_controller_state_manager.h:866-940.  `s0` is the state before
the loop, from which the totals are computed. -/
def tightenProxy (logf : ℕ → ℚ) (opt : Opt) (s0 : PState) (o : Seen) (pen : CId → Pen) (l : List CId) : CId → Pen :=
  let p1 := fun c => if c ∈ l then bump logf opt s0 o c (pen c) else pen c
  let p2 := if opt.group then
      fun c => if c ∈ l then ⟨groupMax l p1, groupMax l p1⟩ else p1 c else p1
  fun c => if c ∈ l then ⟨clamp opt.initial (p2 c).less, clamp opt.initial (p2 c).greater⟩ else p2 c

/-- `tighten_local_penalty_coefficient`, tabu_search_controller_state_manager.h:835-941. -/
def tighten (logf : ℕ → ℚ) (opt : Opt) (s : PState) (o : Seen) : PState :=
  { s with pen := s.proxies.foldl (tightenProxy logf opt s o) s.pen }

/-- `corrected_penalty_coefficient_relaxing_rate`, tabu_search_controller_state_manager.h:945-958. -/
def correctedRate (s : PState) (o : Seen) : ℚ :=
  if o.objectiveConstraintRate > EPSILON ∧ o.localFeasible = true then
    min s.rate (o.objectiveConstraintRate * 1) else s.rate

/-- `relax_local_penalty_coefficient`, tabu_search_controller_state_manager.h:944-985. -/
def relax (s : PState) (o : Seen) : PState :=
  { s with
    pen := fun c =>
      if c ∈ s.proxies.flatten then
        { less := if isLe (s.sense c) && decide (max (o.value c) 0 < EPSILON) then
            mulN (s.pen c).less (correctedRate s o) else (s.pen c).less
          greater := if isGe (s.sense c) && decide (max (-(o.value c)) 0 < EPSILON) then
            mulN (s.pen c).greater (correctedRate s o) else (s.pen c).greater }
      else s.pen c }

/-- `update_penalty_coefficient_relaxing_rate`, tabu_search_controller_state_manager.h:763-814. -/
def updateRate (sqrtf : ℚ → ℚ) (opt : Opt) (s : PState) (o : Seen) : PState :=
  { s with
    rate :=
      if o.rateDecrease then max opt.relaxingRateMin (s.rate * opt.decreaseRate)
      else if o.rateRevert then opt.relaxingRate
      else if o.rateIncrease then min opt.relaxingRateMax (sqrtf s.rate)
      else s.rate + opt.increaseRate * (opt.relaxingRate - s.rate) }

/-- The part of the controller's `update` touching penalty coefficients,
tabu_search_controller_state_manager.h:267-296. -/
def step (logf : ℕ → ℚ) (sqrtf : ℚ → ℚ) (opt : Opt) (s : PState) (o : Seen) : PState :=
  let s1 := if o.updateRate && o.relaxing then updateRate sqrtf opt s o else s
  if o.resetFlag then reset s1
  else if o.tightening then tighten logf opt s1 o
  else if o.relaxing then relax s1 o
  else s1

/-- A whole history of loops, tabu_search_controller.h (main loop). -/
def history (logf : ℕ → ℚ) (sqrtf : ℚ → ℚ) (opt : Opt) (s : PState) (os : List Seen) : PState :=
  os.foldl (step logf sqrtf opt) s

/-- The state when the search starts: every constraint's coefficients are reset to its global coefficient
(solver/solver.h:354-361) and the rate is the option value. -/
def start (opt : Opt) (proxies : List (List CId)) (sense : CId → Sense) (global : CId → ℚ) : PState :=
  reset ⟨proxies, sense, global, fun _ => ⟨some 0, some 0⟩, opt.relaxingRate⟩

end Printemps.Penalty
