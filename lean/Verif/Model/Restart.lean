import Mathlib.Data.Rat.Defs
import Mathlib.Algebra.Order.Field.Rat
import Mathlib.Data.Nat.Notation

/-! # Model of the restarts of PDLP

solver/pdlp/core/pdlp_core_state_manager.h:121-147, 365-434.  The points are not part of this model: the normalized gaps of the
current and of the averaged point (`Model/Gap`) are given for every iteration.  Every sequence of decisions is a `Plan` of
`Model/Pdlp`. -/

namespace Printemps.Restart

/-- The options `pdlp.restart_threshold_sufficient`, `_necessary`, `_artificial` and `pdlp.restart_check_interval`,
option/pdlp_option.h:38-41. -/
structure Opt where
  sufficient : ℚ
  necessary : ℚ
  artificial : ℚ
  interval : ℕ

/-- The counters and gaps of the state, solver/pdlp/core/pdlp_core_state.h:15-17, 34-38. -/
structure State where
  inner : ℕ
  outer : ℕ
  total : ℕ
  previousOuter : ℚ
  currentOuter : ℚ
  previousInner : ℚ
  currentInner : ℚ

/-- The state before the first iteration, solver/pdlp/core/pdlp_core_state_manager.h:81-89, 121-147 and
solver/pdlp/core/pdlp_core.h:288-314; `big` is `numeric_limits<double>::max()`. -/
def start (big : ℚ) : State := ⟨0, 0, 0, big, big, big, big⟩

/-- `update_restart_information` or `skip_restart`, solver/pdlp/core/pdlp_core_state_manager.h:365-439 and
solver/pdlp/core/pdlp_core.h:365-369; `current` and `average` are the gaps of the two points.  The second component: no restart, a
restart from the current point (`true`) or from the averaged one (`false`). -/
def check (o : Opt) (current average : ℚ) (s : State) : State × Option Bool :=
  if s.total % o.interval ≠ 0 then (s, none)
  else if s.inner ≤ 1 then (s, none)
  else
    let better := decide (current < average)
    let s1 := { s with previousInner := s.currentInner, currentInner := if current < average then current else average }
    if s1.outer > 0 ∧ s1.currentInner < o.sufficient * s1.previousOuter then (s1, some better)
    else if s1.outer > 0 ∧ s1.currentInner < o.necessary * s1.previousOuter ∧ s1.currentInner > s1.previousInner then
      (s1, some better)
    else if (s1.inner : ℚ) > o.artificial * s1.total then (s1, some better)
    else (s1, none)

/-- The gaps and counters in `setup_new_inner_loop`, solver/pdlp/core/pdlp_core_state_manager.h:132-147. -/
def newLoop (big : ℚ) (s : State) : State :=
  { s with outer := s.outer + 1, inner := 0, previousOuter := s.currentOuter, currentOuter := s.currentInner
           currentInner := big, previousInner := big }

/-- The end of an iteration, solver/pdlp/core/pdlp_core.h:384-391. -/
def finish (big : ℚ) (r : State × Option Bool) : State :=
  let s := if r.2.isSome then newLoop big r.1 else { r.1 with inner := r.1.inner + 1 }
  { s with total := s.total + 1 }

/-- The state before iteration `n`; `gaps` are the gaps of the current and of the averaged point in each iteration. -/
def run (o : Opt) (big : ℚ) (gaps : ℕ → ℚ × ℚ) : ℕ → State
  | 0 => start big
  | n + 1 => finish big (check o (gaps n).1 (gaps n).2 (run o big gaps n))

/-- What is decided in iteration `n`. -/
def decision (o : Opt) (big : ℚ) (gaps : ℕ → ℚ × ℚ) (n : ℕ) : Option Bool :=
  (check o (gaps n).1 (gaps n).2 (run o big gaps n)).2

end Printemps.Restart
