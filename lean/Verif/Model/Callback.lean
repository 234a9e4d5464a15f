import Verif.Model.Controller

/-! # Model of the function called back after each tabu search

model/model.h:2337-2350, solver/tabu_search/controller/tabu_search_controller.h:893-1019: the loop over the tabu searches with
its four reasons to end, and the function set by `Model::set_callback`, which is given the options of the search just finished
and the incumbents.

The options are an arbitrary type `Ω`; what the controller chooses as options, what a search does, what the clock shows and
whether a search finds that its incumbent is optimal are left open (`World`), but may depend on everything that came before. -/

namespace Printemps.Callback
open Sol Search Ctl

/-- A function called back (`Model::m_callback`, model/model.h:90-92), with a memory of its own: from the memory, the options
and the incumbents it is given pointers to, the memory, the options and the incumbents it leaves behind. -/
abbrev Fn (κ Ω : Type) := κ → Ω → Holder Dense → κ × Ω × Holder Dense

/-- The function that is called if none was set, model/model.h:155-157. -/
def idle {κ Ω : Type} : Fn κ Ω := fun k op h => (k, op, h)

/-- The options of the controller read by the loop: `general.time_max`, `general.iteration_max`,
`general.target_objective_value`. -/
structure Limits where
  timeMax : ℚ
  iterationMax : ℤ
  target : ℚ

/-- What is left open, for a round with the given number in the given state: the clock at its beginning, the options made for
it (`create_option`), and, for these options, what the search does and whether it ends with the status `OPTIMAL`. -/
structure World (Ω : Type) where
  clock : ℕ → State → Sofar → ℚ
  option : ℕ → State → Sofar → Ω
  search : Ω → ℕ → State → Sofar → Lap × Bool

/-- The reasons to end: `satisfy_time_over_terminate_condition`, `satisfy_iteration_over_terminate_condition`,
`satisfy_reach_target_terminate_condition`, `satisfy_optimal_terminate_condition`, tabu_search_controller.h:85-148; `optimal`
is the status of the last search, `false` before the first one. -/
def ends (lim : Limits) (elapsed : ℚ) (k : ℕ) (h : Holder Dense) (optimal : Bool) : Bool :=
  decide (elapsed > lim.timeMax) || decide ((k : ℤ) ≥ lim.iterationMax) ||
  (match h.feasObj with | some x => decide (x ≤ lim.target) | none => false) ||
  (decide (k > 0) && optimal)

/-- The loop, tabu_search_controller.h:893-1019: the number of searches, the memory of the function called back, and the
state of the searches.  The function gets the address of the options made for this round (line 931, a copy) and of the
incumbents of the call (1012-1013).  `none`: out of fuel, or a search is undefined. -/
def loop {κ Ω : Type} (w : World Ω) (name : VarId → String) (cfg : Cfg) (o : Opt) (lim : Limits) (cb : Fn κ Ω) :
    ℕ → ℕ → Bool → κ → State → Sofar → Option (ℕ × κ × Sofar)
  | 0, _, _, _, _, _ => none
  | fuel + 1, k, optimal, mem, c, x =>
    if ends lim (w.clock k c x) k x.st.holder optimal then some (k, mem, x)
    else
      let op := w.option k c x
      let s := w.search op k c x
      (lapStep name cfg o s.1 c x).bind fun r =>
        let g := cb mem op r.2.st.holder
        loop w name cfg o lim cb fuel (k + 1) s.2 g.1 r.1 { r.2 with st := { r.2.st with holder := g.2.2 } }

/-- What the searches before tabu search do (see `Ctl.Plan`). -/
structure Before where
  lagrange : Option (List Event)
  localSearch : Option (List Event)

/-- The state with which the tabu searches begin, solver/solver.h:393-440. -/
def before (name : VarId → String) (cfg : Cfg) (m : MState) (b : Before) : Option (Sparse × Sofar) :=
  (optional name cfg (firstSolution name m) (if applicable m then b.lagrange else none) ⟨begin m, []⟩).bind fun p =>
  optional name cfg p.1 b.localSearch p.2

/-- The searches of a call, solver/solver.h:393-450; the number of rounds is at most the iteration limit, so the fuel
suffices. -/
def searches {κ Ω : Type} (w : World Ω) (name : VarId → String) (cfg : Cfg) (o : Opt) (lim : Limits) (cb : Fn κ Ω) (mem : κ)
    (m : MState) (b : Before) : Option (ℕ × κ × Sofar) :=
  (before name cfg m b).bind fun q =>
  loop w name cfg o lim cb (lim.iterationMax.toNat + 1) 0 false mem { current := q.1 } q.2

/-- `Solver::solve`, solver/solver.h:413-457, for a model of the user with a function to be called back: the number of tabu
searches, the memory of the function, the report and the model. -/
def call {κ Ω : Type} (w : World Ω) (i : Whole.Input) (fast : Bool) (selRel : VarId → List ConId) (name : VarId → String) (o : Opt)
    (lim : Limits) (cb : Fn κ Ω) (mem : κ) (O : MState) (b : Before) : Option (ℕ × κ × Named × MState) :=
  (Whole.started i O).bind fun m =>
  (searches w name (Whole.cfg i fast selRel O) o lim cb mem m b).bind fun r =>
  (postprocess (Whole.cfg i fast selRel O).sels r.2.2.st.holder r.2.2.st.model).map fun p => (r.1, r.2.1, p.1, p.2)

end Printemps.Callback
