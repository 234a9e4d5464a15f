import Mathlib.Data.Rat.Defs
import Mathlib.Algebra.Order.Field.Rat
import Mathlib.Data.List.Basic

/-! # Model of the learner that chooses the number of threads

utility/ucb1/action.h, utility/ucb1/learner.h.  `sqrt(2 log(t) / n)` is the parameter `bonus t n`; doubles are rational
numbers, so that every upper confidence exceeds `std::numeric_limits<double>::lowest()`. -/

namespace Printemps.Ucb1

/-- `Action`, utility/ucb1/action.h:12-43; `min` and `max` are not read before the first sample. -/
structure Action where
  body : ℤ
  samples : ℕ := 0
  total : ℚ := 0
  mean : ℚ := 0
  min : ℚ := 0
  max : ℚ := 0
  range : ℚ := 0
  confidence : ℚ := 0
deriving DecidableEq, Repr

/-- `Action::learn`, utility/ucb1/action.h:46-66. -/
def Action.learn (score decay : ℚ) (a : Action) : Action :=
  if a.samples + 1 = 1 then
    { a with samples := a.samples + 1, total := a.total + score, mean := score, max := score, min := score, range := |score| }
  else
    let lo := Min.min ((a.min - a.mean) * decay + a.mean) score
    let hi := Max.max ((a.max - a.mean) * decay + a.mean) score
    { a with
      samples := a.samples + 1
      total := a.total + score
      min := lo
      max := hi
      mean := decay * a.mean + (1 - decay) * score
      range := hi - lo }

/-- `Action::update_confidence`, utility/ucb1/action.h:69-77. -/
def Action.updateConfidence (bonus : ℕ → ℕ → ℚ) (total : ℕ) (a : Action) : Action :=
  if a.samples = 0 then a else { a with confidence := a.range * bonus total a.samples }

/-- `Learner`, utility/ucb1/learner.h:15-20; `best` is the position to which `m_best_action_ptr` points, `none` if it is
null or points to no action. -/
structure Learner where
  actions : List Action
  best : Option ℕ
  total : ℕ := 0
  decay : ℚ
deriving DecidableEq, Repr

/-- `Learner::setup`, utility/ucb1/learner.h:49-55. -/
def setup (actions : List Action) (decay : ℚ) : Learner :=
  ⟨actions, if actions = [] then none else some 0, 0, decay⟩

/-- The loop over the upper confidences, utility/ucb1/learner.h:76-84: position `i`, the largest value so far with its
position. -/
def argmax : List Action → ℕ → Option (ℚ × ℕ) → Option ℕ
  | [], _, acc => acc.map Prod.snd
  | a :: l, i, acc =>
    let u := a.mean + a.confidence
    argmax l (i + 1) (match acc with
      | none => some (u, i)
      | some (w, j) => if u > w then some (u, i) else some (w, j))

/-- The choice of the next action, utility/ucb1/learner.h:65-86: the first one without samples, else the one with the largest
upper confidence. -/
def choose (l : List Action) : Option ℕ :=
  if l.any (fun a => a.samples = 0) then some (l.findIdx (fun a => a.samples = 0)) else argmax l 0 none

/-- `Learner::learn`, utility/ucb1/learner.h:58-87; `none`: access through the null pointer. -/
def Learner.learn (bonus : ℕ → ℕ → ℚ) (score : ℚ) (L : Learner) : Option Learner :=
  match L.best with
  | none => none
  | some i =>
    let l := (L.actions.modify i (Action.learn score L.decay)).map (Action.updateConfidence bonus (L.total + 1))
    some { L with actions := l, total := L.total + 1, best := choose l }

/-- `best_action().body`, utility/ucb1/learner.h:101-108; `none`: access through the null pointer. -/
def Learner.bestBody (L : Learner) : Option ℤ := (L.best.bind (fun i => L.actions[i]?)).map Action.body

end Printemps.Ucb1
