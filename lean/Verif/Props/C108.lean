import Verif.Lemmas.RestartRun
import Verif.Props.C80
import Verif.Props.C105

/-! # C108 — the LP solver with the restarts that its own gaps lead to

C80 is about runs in which restarts are decided arbitrarily, C107 about decisions for arbitrary gaps.  Here the solver computes the
gaps from its points and decides by them: `runGaps … = some (verdict, state, log)`, where `log` has the two gaps and the decision of
each iteration. -/

namespace Printemps.C108
open Pdlp Lp Sparse Spec

/-! ## Proof: the run ends -/

theorem getD_in {α : Type} (l : List α) (d : α) (k : ℕ) (hk : k < l.length) : l.getD k d = l[k] := by
  rw [List.getD_eq_getElem?_getD, List.getElem?_eq_getElem hk, Option.getD_some]

theorem gaps_defined (f : Fn) (o : Opt) (lp : LP) (hs : Sound lp) (st : State) (h : Pdlp.Inv f lp st) :
    ∃ g, checkedGaps f o lp st = some g := by
  unfold checkedGaps
  split
  · unfold gapsOf
    rw [C105.gap_eq f _ lp hs st.xAvg st.yAvg _ h.xAvgLen h.yAvg.1]
    rw [C105.gap_eq f _ lp hs st.x st.y _ h.x.1 h.y.1]
    exact ⟨_, rfl⟩
  · exact ⟨_, rfl⟩

theorem iterate_gaps_ends (f : Fn) (κ : ℚ) (hf : FnOK f κ) (o : Opt) (ho : OptOK o) (ro : Restart.Opt) (big : ℚ) (lp : LP)
    (hs : Sound lp) (st : State) (rs : Restart.State) (h : Pdlp.Inv f lp st) :
    ∃ fuel q, iterateGaps f o ro big lp fuel st rs = some q := by
  obtain ⟨fuel, st1, h1⟩ := updateSolution_ends f κ hf o ho lp hs st h
  obtain ⟨i2, -, b2, -⟩ := updateAverage_inv f lp st st1 h (updateSolution_found f κ hf o ho lp hs st st1 h fuel h1)
  obtain ⟨g, hg⟩ := gaps_defined f o lp hs _ i2
  refine ⟨fuel, ?_⟩
  unfold iterateGaps
  rw [h1, Option.bind_some]
  dsimp only
  rw [if_neg (by simp [ho.restart, ho.convergence, ho.log]), hg, Option.bind_some]
  split
  · obtain ⟨i, hi⟩ := convergence_defined f lp hs _ _ b2.1 i2.yAvg.1
    rw [hi]
    exact ⟨_, rfl⟩
  · exact ⟨_, rfl⟩

theorem iterate_gaps_inv (f : Fn) (κ : ℚ) (hf : FnOK f κ) (o : Opt) (ho : OptOK o) (ro : Restart.Opt)
    (hro : ro.interval = o.restartInterval.natAbs) (big : ℚ) (lp : LP) (hs : Sound lp) (st : State) (rs : Restart.State)
    (hsame : Same st rs) (h : Pdlp.Inv f lp st) (fuel : ℕ) (q : (State × Restart.State) × (ℚ × ℚ) × Option Bool)
    (hq : iterateGaps f o ro big lp fuel st rs = some q) :
    Pdlp.Inv f lp q.1.1 ∧ q.1.1.iteration = st.iteration + 1 ∧ Same q.1.1 q.1.2 := by
  obtain ⟨p1, p2, p3, -⟩ := iterate_planned f o ro hro big lp fuel st rs hsame q hq
  exact ⟨(iterate_inv f κ hf o ho _ lp hs st q.1.1 h fuel (p1 (fun _ => q.2.2) rfl)).1, p2, p3⟩

theorem loop_gaps_congr (f : Fn) (κ : ℚ) (hf : FnOK f κ) (o : Opt) (ho : OptOK o) (ro : Restart.Opt)
    (hro : ro.interval = o.restartInterval.natAbs) (big : ℚ) (lp : LP) (hs : Sound lp) (clock : ℕ → ℚ) (a b : ℕ → ℕ) (fuel : ℕ) :
    ∀ (st : State) (rs : Restart.State), Same st rs → Pdlp.Inv f lp st → (∀ n, st.iteration ≤ n → a n = b n) →
    loopGaps f o ro big lp clock a fuel st rs = loopGaps f o ro big lp clock b fuel st rs := by
  induction fuel with
  | zero => intros; rfl
  | succ fuel ih =>
    intro st rs hsame h hab
    unfold loopGaps
    cases test o (clock st.iteration) st with
    | some v => rfl
    | none =>
      dsimp only
      rw [hab st.iteration (le_refl _)]
      cases hit : iterateGaps f o ro big lp (b st.iteration) st rs with
      | none => rfl
      | some q =>
        obtain ⟨i1, i2, i3⟩ := iterate_gaps_inv f κ hf o ho ro hro big lp hs st rs hsame h _ q hit
        rw [Option.bind_some, Option.bind_some, ih q.1.1 q.1.2 i3 i1 fun n hn => hab n (by omega)]

theorem loop_gaps_ends (f : Fn) (κ : ℚ) (hf : FnOK f κ) (o : Opt) (ho : OptOK o) (ro : Restart.Opt)
    (hro : ro.interval = o.restartInterval.natAbs) (big : ℚ) (lp : LP) (hs : Sound lp) (clock : ℕ → ℚ) (fuel : ℕ) :
    ∀ (st : State) (rs : Restart.State), Same st rs → Pdlp.Inv f lp st → o.iterationMax.toNat ≤ st.iteration + fuel →
    ∃ a r, loopGaps f o ro big lp clock a (fuel + 1) st rs = some r := by
  induction fuel with
  | zero =>
    intro st rs _ h hfuel
    cases ht : test o (clock st.iteration) st with
    | some v => exact ⟨fun _ => 0, (v, st, []), by unfold loopGaps; rw [ht]⟩
    | none =>
      obtain ⟨a, r, hr⟩ := loop_ends f κ hf o ho (fun _ => none) lp hs clock 0 st h hfuel
      unfold loop at hr
      rw [ht] at hr
      dsimp only at hr
      obtain ⟨s, -, h2⟩ := Option.bind_eq_some_iff.1 hr
      cases h2
  | succ fuel ih =>
    intro st rs hsame h hfuel
    cases ht : test o (clock st.iteration) st with
    | some v => exact ⟨fun _ => 0, (v, st, []), by unfold loopGaps; rw [ht]⟩
    | none =>
      obtain ⟨k, q, hq⟩ := iterate_gaps_ends f κ hf o ho ro big lp hs st rs h
      obtain ⟨i1, i2, i3⟩ := iterate_gaps_inv f κ hf o ho ro hro big lp hs st rs hsame h _ q hq
      obtain ⟨a, r, hr⟩ := ih q.1.1 q.1.2 i3 i1 (by omega)
      refine ⟨fun n => if n = st.iteration then k else a n, (r.1, r.2.1, q.2 :: r.2.2), ?_⟩
      unfold loopGaps
      rw [ht]
      dsimp only
      rw [if_pos rfl, hq, Option.bind_some,
        loop_gaps_congr f κ hf o ho ro hro big lp hs clock _ a (fuel + 1) q.1.1 q.1.2 i3 i1 (fun n hn => if_neg (by omega)), hr]
      rfl

theorem start_same (f : Fn) (lp : LP) (x0 : List ℚ) (big : ℚ) (st : State) (h : Pdlp.start f lp x0 = some st) :
    Same st (Restart.start big) ∧ st.iteration = 0 := by
  unfold Pdlp.start at h
  split at h
  · cases h
  dsimp only at h
  obtain ⟨i, -, rfl⟩ := Option.map_eq_some_iff.1 h
  exact ⟨⟨rfl, rfl⟩, rfl⟩

theorem new_loop_points (st : State) : (newInnerLoop st).x = st.x ∧ (newInnerLoop st).y = st.y ∧
    (newInnerLoop st).xBase = st.x ∧ (newInnerLoop st).yBase = st.y := by
  unfold newInnerLoop
  dsimp only
  refine ⟨?_, ?_, rfl, rfl⟩ <;> (split <;> rfl)

/-! ## Property -/

/-- The solver ends, for every LP, all options within their ranges and all times read from the clock, with one decision for each
iteration. -/
theorem run_gaps_ends (f : Fn) (κ : ℚ) (hf : FnOK f κ) (o : Opt) (ho : OptOK o) (ro : Restart.Opt)
    (hro : ro.interval = o.restartInterval.natAbs) (big : ℚ) (lp : LP) (hs : Sound lp) (x0 : List ℚ) (hx : Box lp x0)
    (hn : normInfty lp.A ≠ 0) (clock : ℕ → ℚ) :
    ∃ attempts v st log, runGaps f o ro big lp x0 clock attempts = some (v, st, log) ∧ log.length = st.iteration ∧
      log.length ≤ o.iterationMax.toNat := by
  obtain ⟨st, h1, h2, h3⟩ := start_inv f lp hs x0 hx hn
  obtain ⟨hsame, -⟩ := start_same f lp x0 big st h1
  obtain ⟨a, r, hr⟩ := loop_gaps_ends f κ hf o ho ro hro big lp hs clock o.iterationMax.toNat st _ hsame h2 (by omega)
  obtain ⟨l1, l2, -⟩ := loop_planned f o ro hro big lp clock a _ st _ hsame r.1 r.2.1 r.2.2 hr
  refine ⟨a, r.1, r.2.1, r.2.2, ?_, by rw [l1, h3, Nat.zero_add], ?_⟩
  · unfold runGaps
    rw [h1, Option.bind_some]
    exact hr
  · have hl := l2 (fun k => (r.2.2.getD k ((0, 0), none)).2) (fun k hk => by
      rw [h3, Nat.zero_add, getD_in _ _ _ hk])
    have := (loop_inv f κ hf o ho _ lp hs clock a _ st h2 (r.1, r.2.1) hl).2.2.2
    rw [h3, Nat.zero_max] at this
    dsimp only at this
    rw [l1, h3] at this
    omega

/-- A run is one of those of C80: with the decisions of its log as the plan. -/
theorem run_is_planned (f : Fn) (o : Opt) (ro : Restart.Opt) (hro : ro.interval = o.restartInterval.natAbs) (big : ℚ) (lp : LP)
    (x0 : List ℚ) (clock : ℕ → ℚ) (attempts : ℕ → ℕ) (v : Verdict) (st : State) (log : List ((ℚ × ℚ) × Option Bool))
    (h : runGaps f o ro big lp x0 clock attempts = some (v, st, log)) :
    Pdlp.run f o (fun s => (log.getD s.iteration ((0, 0), none)).2) lp x0 clock attempts = some (v, st) := by
  unfold runGaps at h
  obtain ⟨s0, h0, hl⟩ := Option.bind_eq_some_iff.1 h
  obtain ⟨hsame, hz⟩ := start_same f lp x0 big s0 h0
  obtain ⟨-, l2, -⟩ := loop_planned f o ro hro big lp clock attempts _ s0 _ hsame v st log hl
  unfold Pdlp.run
  rw [h0, Option.bind_some]
  exact l2 (fun k => (log.getD k ((0, 0), none)).2) fun k hk => by
    rw [hz, Nat.zero_add, getD_in _ _ _ hk]

/-- The decisions of a run are those of C107 for the gaps of its log. -/
theorem decisions_by_gaps (f : Fn) (o : Opt) (ro : Restart.Opt) (hro : ro.interval = o.restartInterval.natAbs) (big : ℚ) (lp : LP)
    (x0 : List ℚ) (clock : ℕ → ℚ) (attempts : ℕ → ℕ) (v : Verdict) (st : State) (log : List ((ℚ × ℚ) × Option Bool))
    (h : runGaps f o ro big lp x0 clock attempts = some (v, st, log)) (k : ℕ) (hk : k < log.length) :
    log[k].2 = Restart.decision ro big (fun n => (log.getD n ((0, 0), none)).1) k := by
  unfold runGaps at h
  obtain ⟨s0, h0, hl⟩ := Option.bind_eq_some_iff.1 h
  obtain ⟨hsame, hz⟩ := start_same f lp x0 big s0 h0
  obtain ⟨-, -, l3⟩ := loop_planned f o ro hro big lp clock attempts _ s0 _ hsame v st log hl
  have := l3 (fun n => (log.getD n ((0, 0), none)).1) (by rw [hz]; rfl) (fun j hj => by
    rw [hz, Nat.zero_add, getD_in _ _ _ hj]) k hk
  rw [hz, Nat.zero_add] at this
  exact this

/-- What restarts do to the points: none of the points leaves its bounds. -/
theorem points_stay_within_bounds (f : Fn) (κ : ℚ) (hf : FnOK f κ) (o : Opt) (ho : OptOK o) (ro : Restart.Opt)
    (hro : ro.interval = o.restartInterval.natAbs) (big : ℚ) (lp : LP) (hs : Sound lp) (x0 : List ℚ) (hx : Box lp x0)
    (clock : ℕ → ℚ) (attempts : ℕ → ℕ) (v : Verdict) (st : State) (log : List ((ℚ × ℚ) × Option Bool))
    (h : runGaps f o ro big lp x0 clock attempts = some (v, st, log)) :
    Box lp st.x ∧ DualFeasible lp st.y ∧ DualFeasible lp st.yAvg ∧ (st.total ≠ 0 → Box lp st.xAvg) ∧ 0 < st.step :=
  C80.points_within_bounds f κ hf o ho _ lp hs x0 hx clock attempts v st
    (run_is_planned f o ro hro big lp x0 clock attempts v st log h)

/-- With tolerance 0, OPTIMAL means that the reported objective is the optimum, attained by a feasible point. -/
theorem optimal_is_optimal (f : Fn) (κ : ℚ) (hf : FnOK f κ) (o : Opt) (ho : OptOK o) (ro : Restart.Opt)
    (hro : ro.interval = o.restartInterval.natAbs) (big : ℚ) (lp : LP) (hs : Sound lp) (hrg : Ranges lp) (x0 : List ℚ)
    (hx : Box lp x0) (clock : ℕ → ℚ) (attempts : ℕ → ℕ) (st : State) (log : List ((ℚ × ℚ) × Option Bool))
    (h : runGaps f o ro big lp x0 clock attempts = some (.optimal, st, log)) (h0 : o.tolerance = 0) :
    (∃ z, PrimalFeasible lp z ∧ primalObjective lp z = st.info.primalObjective) ∧
      ∀ z, PrimalFeasible lp z → st.info.primalObjective ≤ primalObjective lp z :=
  C80.exact_optimum f κ hf o ho _ lp hs hrg x0 hx clock attempts st
    (run_is_planned f o ro hro big lp x0 clock attempts _ st log h) h0

/-- A restart is made at a multiple of the interval, at least two iterations after the last one, and from the point with the
smaller gap. -/
theorem restarts_of_a_run (f : Fn) (o : Opt) (ro : Restart.Opt) (hro : ro.interval = o.restartInterval.natAbs) (big : ℚ) (lp : LP)
    (x0 : List ℚ) (clock : ℕ → ℚ) (attempts : ℕ → ℕ) (v : Verdict) (st : State) (log : List ((ℚ × ℚ) × Option Bool))
    (h : runGaps f o ro big lp x0 clock attempts = some (v, st, log)) (k : ℕ) (hk : k < log.length) (c : Bool)
    (hc : log[k].2 = some c) :
    o.restartInterval ∣ (k : ℤ) ∧ (∀ m (hm : m < k), k ≤ m + 2 → log[m].2 = none) ∧
    (if c then log[k].1.1 else log[k].1.2) = min log[k].1.1 log[k].1.2 := by
  have hd := decisions_by_gaps f o ro hro big lp x0 clock attempts v st log h
  obtain ⟨a1, a2, a3⟩ := C107.restart_where ro big _ k c ((hd k hk).symm.trans hc)
  refine ⟨?_, fun m hm h2 => by rw [hd m (by omega)]; exact a2 m hm h2, ?_⟩
  · rw [hro] at a1
    exact Int.natAbs_dvd.1 (Int.natCast_dvd_natCast.2 a1)
  · rw [getD_in _ _ _ hk] at a3
    exact a3

/-- A restart takes the better one of the two points: `p` is the state after the step and the update of the average; the next
iteration starts from its current or from its averaged point, whose normalized gap (within the distance from the point of the last
restart) is not larger than that of the other one. -/
theorem restart_from_better (f : Fn) (o : Opt) (ro : Restart.Opt) (hro : ro.interval = o.restartInterval.natAbs) (big : ℚ) (lp : LP)
    (fuel : ℕ) (st : State) (rs : Restart.State) (hsame : Same st rs) (q : (State × Restart.State) × (ℚ × ℚ) × Option Bool)
    (h : iterateGaps f o ro big lp fuel st rs = some q) (c : Bool) (hc : q.2.2 = some c) :
    ∃ p current average, (updateSolution f o lp fuel st).map updateAverage = some p ∧
      normalizedGap f p.weight lp p.x p.y (weightedNorm f p.weight (subtract p.x p.xBase) (subtract p.y p.yBase)) = some current ∧
      normalizedGap f p.weight lp p.xAvg p.yAvg
        (weightedNorm f p.weight (subtract p.xAvg p.xBase) (subtract p.yAvg p.yBase)) = some average ∧
      (c = true ↔ current < average) ∧
      (q.1.1.x, q.1.1.y) = (if c then (p.x, p.y) else (p.xAvg, p.yAvg)) ∧
      (q.1.1.xBase, q.1.1.yBase) = (q.1.1.x, q.1.1.y) := by
  unfold iterateGaps at h
  obtain ⟨st1, h1, h⟩ := Option.bind_eq_some_iff.1 h
  obtain ⟨c1, c2⟩ := average_counters f o lp fuel st st1 h1
  dsimp only at h
  split at h
  · cases h
  obtain ⟨g, hg, h⟩ := Option.bind_eq_some_iff.1 h
  obtain ⟨st3, h3, rfl⟩ := Option.map_eq_some_iff.1 h
  dsimp only at hc
  obtain ⟨s1, s2, s3, -, -⟩ := C107.check_some ro g rs c hc
  have hchk : ((updateAverage st1).iteration : ℤ) % o.restartInterval = 0 ∧ 2 ≤ (updateAverage st1).inner := by
    rw [c1, c2, ← hsame.total, ← hsame.inner]
    refine ⟨?_, s2⟩
    rw [← Int.dvd_iff_emod_eq_zero, ← Int.natAbs_dvd, ← hro]
    exact Int.natCast_dvd_natCast.2 (Nat.dvd_of_mod_eq_zero s1)
  unfold checkedGaps at hg
  rw [if_pos hchk] at hg
  unfold gapsOf at hg
  obtain ⟨a, ha, hg⟩ := Option.bind_eq_some_iff.1 hg
  obtain ⟨b, hb, hg⟩ := Option.bind_eq_some_iff.1 hg
  obtain rfl := Option.some.inj hg
  have e3 : st3.x = (updateAverage st1).x ∧ st3.y = (updateAverage st1).y ∧ st3.xAvg = (updateAverage st1).xAvg ∧
      st3.yAvg = (updateAverage st1).yAvg := by
    split at h3
    · obtain ⟨i, -, rfl⟩ := Option.map_eq_some_iff.1 h3
      exact ⟨rfl, rfl, rfl, rfl⟩
    · obtain rfl := Option.some.inj h3
      exact ⟨rfl, rfl, rfl, rfl⟩
  refine ⟨updateAverage st1, b, a, by rw [h1]; rfl, hb, ha, by rw [s3, decide_eq_true_iff], ?_, ?_⟩
  · dsimp only
    rw [hc, ← e3.1, ← e3.2.1, ← e3.2.2.1, ← e3.2.2.2]
    unfold finishIteration
    dsimp only
    rw [(new_loop_points _).1, (new_loop_points _).2.1]
    cases c <;> rfl
  · dsimp only
    rw [hc]
    unfold finishIteration
    dsimp only
    rw [(new_loop_points _).1, (new_loop_points _).2.1, (new_loop_points _).2.2.1, (new_loop_points _).2.2.2]

/-! ### Non-vacuity -/

/-- Options: a check in every iteration, the thresholds 1/5, 4/5 and 1/5. -/
def ropt : Restart.Opt := { interval := 1, sufficient := 1 / 5, necessary := 4 / 5, artificial := 1 / 5 }

/-- A run with four restarts from the current point. -/
example : (runGaps C80.Sample.fn (C80.Sample.opt (1 / 10) 12) ropt 1000000 (C80.Sample.lp 1 0) [1, 0] (fun _ => 0)
    (fun _ => 10)).map (fun r => (r.1, r.2.2.map Prod.snd)) =
    some (.iterationOver, [none, none, some true, none, none, some true, none, none, some true, none, none, some true]) := by
  decide +kernel

example : FnOK C80.Sample.fn 1 ∧ OptOK (C80.Sample.opt (1 / 10) 12) ∧ Sound (C80.Sample.lp 1 0) ∧ Ranges (C80.Sample.lp 1 0) ∧
    Box (C80.Sample.lp 1 0) [1, 0] ∧ normInfty (C80.Sample.lp 1 0).A ≠ 0 ∧
    ropt.interval = (C80.Sample.opt (1 / 10) 12).restartInterval.natAbs := by
  refine ⟨C80.Sample.fn_ok, C80.Sample.opt_ok _ _, C80.Sample.lp_sound _ _, ⟨rfl, rfl, by decide +kernel, by decide +kernel⟩,
    ⟨rfl, fun j hj => ?_⟩, by decide +kernel, rfl⟩
  have : j = 0 ∨ j = 1 := by change j < 2 at hj; omega
  rcases this with rfl | rfl <;> norm_num [C80.Sample.lp]

/-- Optimal with tolerance 0. -/
example : (runGaps C80.Sample.fn (C80.Sample.opt 0 1000) ropt 1000000 (C80.Sample.lp 0 0) [1, 0] (fun _ => 0)
    (fun _ => 10)).map (fun r => r.1) = some .optimal := by decide +kernel

end Printemps.C108
