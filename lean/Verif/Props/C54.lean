import Verif.Model.SearchLoop
import Mathlib.Tactic.Linarith
import Mathlib.Tactic.Positivity

/-! # C54 — search loops terminate

`W` is the whole state of the program outside the loop counters (model, incumbents, clock, random generator);
the steps are arbitrary functions on it, so the theorems hold whatever the moves and scores are. -/

namespace Printemps.C54
open Loop

/-! ## The common loop -/

theorem loop_ends {W : Type} (test : ℤ → W → Option Status) (prepare : ℤ → W → W) (verdict : W → Option Status)
    (body : ℤ → W → W) (after : ℤ → W → Option Status) (N : ℤ) (hN : ∀ it w, N ≤ it → ∃ s, test it w = some s)
    (fuel : ℕ) (it : ℤ) (runs : ℕ) (w : W) (hf : (N - it).toNat < fuel) :
    ∃ res, loop test prepare verdict body after fuel it runs w = some res ∧ res.runs ≤ runs + (N - it).toNat := by
  induction fuel generalizing it runs w with
  | zero => omega
  | succ fuel ih =>
    unfold loop
    split
    · exact ⟨_, rfl, by simp⟩
    · next ht =>
      have hlt : it < N := by
        by_contra hc
        obtain ⟨s, hs⟩ := hN it w (by omega)
        rw [hs] at ht
        exact absurd ht (by simp)
      dsimp only
      split
      · exact ⟨_, rfl, by simp⟩
      · split
        · exact ⟨_, rfl, by dsimp only; omega⟩
        · obtain ⟨res, h1, h2⟩ := ih (it + 1) (runs + 1) (body it (prepare it w)) (by omega)
          exact ⟨res, h1, by omega⟩

/-- More fuel does not change the result, so the result does not depend on the bound used to state it. -/
theorem loop_mono {W : Type} (test : ℤ → W → Option Status) (prepare : ℤ → W → W) (verdict : W → Option Status)
    (body : ℤ → W → W) (after : ℤ → W → Option Status) (f g : ℕ) (hfg : f ≤ g) (it : ℤ) (runs : ℕ) (w : W) (res : Result W)
    (h : loop test prepare verdict body after f it runs w = some res) :
    loop test prepare verdict body after g it runs w = some res := by
  induction f generalizing g it runs w with
  | zero => simp [loop] at h
  | succ f ih =>
    obtain ⟨g, rfl⟩ : ∃ k, g = k + 1 := ⟨g - 1, by omega⟩
    unfold loop at h ⊢
    split
    · next s hs => rw [hs] at h; exact h
    · next hs =>
      rw [hs] at h
      dsimp only at h ⊢
      split
      · next s hv => rw [hv] at h; exact h
      · next hv =>
        rw [hv] at h
        dsimp only at h
        split
        · next s ha => rw [ha] at h; exact h
        · next ha =>
          rw [ha] at h
          exact ih g (by omega) _ _ _ h

/-- How a run ended: by a test at the top of a round, by the test of the prepared moves, or by the test after
the body; and how the number of executed bodies relates to the iteration counter. -/
theorem loop_outcome {W : Type} (test : ℤ → W → Option Status) (prepare : ℤ → W → W) (verdict : W → Option Status)
    (body : ℤ → W → W) (after : ℤ → W → Option Status) (f : ℕ) (it : ℤ) (runs : ℕ) (w : W) (res : Result W)
    (h : loop test prepare verdict body after f it runs w = some res) :
    (test res.iteration res.world = some res.status ∧ (res.runs : ℤ) = runs + (res.iteration - it)) ∨
    (∃ w', test res.iteration w' = none ∧ res.world = prepare res.iteration w' ∧ verdict res.world = some res.status ∧
      (res.runs : ℤ) = runs + (res.iteration - it)) ∨
    (∃ w', test res.iteration w' = none ∧ verdict (prepare res.iteration w') = none ∧
      res.world = body res.iteration (prepare res.iteration w') ∧ after res.iteration res.world = some res.status ∧
      (res.runs : ℤ) = runs + (res.iteration - it) + 1) := by
  induction f generalizing it runs w with
  | zero => simp [loop] at h
  | succ f ih =>
    unfold loop at h
    split at h
    · next s hs =>
      have := Option.some.inj h
      subst this
      exact Or.inl ⟨hs, by dsimp only; omega⟩
    · next hs =>
      dsimp only at h
      split at h
      · next s hv =>
        have := Option.some.inj h
        subst this
        exact Or.inr (Or.inl ⟨w, hs, rfl, hv, by dsimp only; omega⟩)
      · next hv =>
        split at h
        · next s ha =>
          have := Option.some.inj h
          subst this
          exact Or.inr (Or.inr ⟨w, hs, hv, rfl, ha, by dsimp only; omega⟩)
        · next ha =>
          have := ih _ _ _ h
          push_cast at this
          rcases this with ⟨a, b⟩ | ⟨w', a, b, c, d⟩ | ⟨w', a, b, c, d, e⟩
          · exact Or.inl ⟨a, by omega⟩
          · exact Or.inr (Or.inl ⟨w', a, b, c, by omega⟩)
          · exact Or.inr (Or.inr ⟨w', a, b, c, d, by omega⟩)

theorem basicTest_stops {W : Type} (o : Opt) (r : Reads W) (it : ℤ) (w : W) (h : o.iterationMax ≤ it) :
    ∃ s, basicTest o r it w = some s := by
  unfold basicTest
  split
  · exact ⟨_, rfl⟩
  · rw [if_pos (by simp [iterationOver, h])]
    exact ⟨_, rfl⟩

theorem tabuTest_stops {W : Type} (o : Opt) (r : Reads W) (it : ℤ) (w : W) (h : o.iterationMax ≤ it) :
    ∃ s, tabuTest o r it w = some s := by
  obtain ⟨s, hs⟩ := basicTest_stops o r it w h
  exact ⟨s, by unfold tabuTest; rw [hs]⟩

/-! ## The three searches -/

/-- Tabu search ends after at most `iteration_max` executed moves, whatever the steps do. -/
theorem tabu_search_terminates {W : Type} (o : Opt) (ab : Bool) (r : Reads W) (s : TabuSteps W) (w : W) :
    ∃ res, tabuRun o ab r s (o.iterationMax.toNat + 1) w = some res ∧ res.runs ≤ o.iterationMax.toNat ∧
      ∀ fuel ≥ o.iterationMax.toNat + 1, tabuRun o ab r s fuel w = some res := by
  obtain ⟨res, h1, h2⟩ := loop_ends (tabuTest o r) s.prepare s.verdict s.body
    (fun it w => if ab && s.tooLarge it w then some .penaltyTooLarge else none) o.iterationMax
    (fun it w h => tabuTest_stops o r it w h) (o.iterationMax.toNat + 1) 0 0 w (by omega)
  refine ⟨res, h1, by simpa using h2, fun fuel hf => loop_mono _ _ _ _ _ _ _ hf _ _ _ _ h1⟩

/-- Local search ends after at most `iteration_max` executed moves. -/
theorem local_search_terminates {W : Type} (o : Opt) (r : Reads W) (s : LocalSteps W) (w : W) :
    ∃ res, localRun o r s (o.iterationMax.toNat + 1) w = some res ∧ res.runs ≤ o.iterationMax.toNat ∧
      ∀ fuel ≥ o.iterationMax.toNat + 1, localRun o r s fuel w = some res := by
  obtain ⟨res, h1, h2⟩ := loop_ends (basicTest o r) s.prepare s.verdict s.body (fun _ _ => none) o.iterationMax
    (fun it w h => basicTest_stops o r it w h) (o.iterationMax.toNat + 1) 0 0 w (by omega)
  refine ⟨res, h1, by simpa using h2, fun fuel hf => loop_mono _ _ _ _ _ _ _ hf _ _ _ _ h1⟩

/-- The Lagrange dual search ends after at most `iteration_max` rounds. -/
theorem lagrange_dual_terminates {W : Type} (o : Opt) (r : Reads W) (body : ℤ → W → W) (converged : W → Bool) (w : W) :
    ∃ res, lagrangeRun o r body converged (o.iterationMax.toNat + 1) w = some res ∧ res.runs ≤ o.iterationMax.toNat ∧
      ∀ fuel ≥ o.iterationMax.toNat + 1, lagrangeRun o r body converged fuel w = some res := by
  obtain ⟨res, h1, h2⟩ := loop_ends (basicTest o r) (fun _ w => w) (fun _ => none) body
    (fun _ w => if converged w then some .converge else none) o.iterationMax
    (fun it w h => basicTest_stops o r it w h) (o.iterationMax.toNat + 1) 0 0 w (by omega)
  refine ⟨res, h1, by simpa using h2, fun fuel hf => loop_mono _ _ _ _ _ _ _ hf _ _ _ _ h1⟩

/-! ## What the statuses say -/

/-- Meaning of the statuses that come from the tests at the top. -/
def TopMeaning {W : Type} (o : Opt) (r : Reads W) (it : ℤ) (w : W) : Status → Prop
  | .timeOver => o.timeMax < r.clock w ∨ o.generalTimeMax < r.clock w + o.timeOffset
  | .iterationOver => o.iterationMax ≤ it
  | .reachTarget => ∃ f t, r.feasibleIncumbent w = some f ∧ o.target = some t ∧ f ≤ t
  | .earlyStop => o.pruningRate * o.iterationMax < r.ineffective w
  | _ => False

theorem basicTest_meaning {W : Type} (o : Opt) (r : Reads W) (it : ℤ) (w : W) (s : Status) (h : basicTest o r it w = some s) :
    TopMeaning o r it w s := by
  unfold basicTest at h
  split at h
  · next hc =>
    have := Option.some.inj h
    subst this
    simpa [timeOver, TopMeaning] using hc
  · split at h
    · next hc =>
      have := Option.some.inj h
      subst this
      simpa [iterationOver, TopMeaning] using hc
    · split at h
      · next hc =>
        have := Option.some.inj h
        subst this
        unfold reachTarget at hc
        split at hc
        · next f t hf ht => exact ⟨f, t, hf, ht, by simpa using hc⟩
        · exact absurd hc (by simp)
      · exact absurd h (by simp)

theorem tabuTest_meaning {W : Type} (o : Opt) (r : Reads W) (it : ℤ) (w : W) (s : Status) (h : tabuTest o r it w = some s) :
    TopMeaning o r it w s := by
  unfold tabuTest at h
  split at h
  · next s' hs =>
    have := Option.some.inj h
    subst this
    exact basicTest_meaning o r it w _ hs
  · split at h
    · next hc =>
      have := Option.some.inj h
      subst this
      simpa [earlyStop, TopMeaning] using hc
    · exact absurd h (by simp)

/-- The status of a tabu search tells why it ended: a test at the top holds in the final state, or the test of
the moves gave the status, or the penalty test did; in the first two cases exactly `iteration` moves were
executed, in the last one more. -/
theorem tabu_status {W : Type} (o : Opt) (ab : Bool) (r : Reads W) (s : TabuSteps W) (fuel : ℕ) (w : W) (res : Result W)
    (h : tabuRun o ab r s fuel w = some res) :
    (TopMeaning o r res.iteration res.world res.status ∧ (res.runs : ℤ) = res.iteration) ∨
    (s.verdict res.world = some res.status ∧ (res.runs : ℤ) = res.iteration ∧ res.iteration < o.iterationMax) ∨
    (res.status = .penaltyTooLarge ∧ ab = true ∧ s.tooLarge res.iteration res.world = true ∧
      (res.runs : ℤ) = res.iteration + 1 ∧ res.iteration < o.iterationMax) := by
  have hlt : ∀ w', tabuTest o r res.iteration w' = none → res.iteration < o.iterationMax := by
    intro w' hw
    by_contra hc
    obtain ⟨s', hs⟩ := tabuTest_stops o r res.iteration w' (by omega)
    rw [hs] at hw
    exact absurd hw (by simp)
  rcases loop_outcome _ _ _ _ _ _ _ _ _ _ h with ⟨a, b⟩ | ⟨w', a, b, c, d⟩ | ⟨w', a, b, c, d, e⟩
  · exact Or.inl ⟨tabuTest_meaning o r _ _ _ a, by simpa using b⟩
  · exact Or.inr (Or.inl ⟨c, by simpa using d, hlt _ a⟩)
  · refine Or.inr (Or.inr ?_)
    split at d
    · next hc =>
      have := Option.some.inj d
      have hc := Bool.and_eq_true_iff.1 hc
      exact ⟨this.symm, hc.1, hc.2, by simpa using e, hlt _ a⟩
    · exact absurd d (by simp)

/-- "Iteration over" is reported exactly with the configured number of executed moves. -/
theorem iteration_over_count {W : Type} (o : Opt) (ab : Bool) (r : Reads W) (s : TabuSteps W) (fuel : ℕ) (w : W) (res : Result W)
    (hv : ∀ w', s.verdict w' ≠ some .iterationOver) (h : tabuRun o ab r s fuel w = some res)
    (hs : res.status = .iterationOver) : res.runs = o.iterationMax.toNat := by
  have hle : res.runs ≤ o.iterationMax.toNat := by
    obtain ⟨res', h1, h2, h3⟩ := tabu_search_terminates o ab r s w
    have e1 : tabuRun o ab r s (max fuel (o.iterationMax.toNat + 1)) w = some res' := h3 _ (by omega)
    have e2 := loop_mono _ _ _ _ _ fuel (max fuel (o.iterationMax.toNat + 1)) (by omega) _ _ _ _ h
    have := Option.some.inj (e1.symm.trans e2)
    rw [← this]; exact h2
  rcases tabu_status o ab r s fuel w res h with ⟨a, b⟩ | ⟨a, b, c⟩ | ⟨a, -⟩
  · rw [hs] at a
    have : o.iterationMax ≤ res.iteration := a
    omega
  · exact absurd (hs ▸ a) (hv _)
  · rw [hs] at a; exact absurd a (by decide)

/-! ## The controller -/

/-- The largest limit that the controller ever gives to a tabu search. -/
def limit (o : OuterOpt) : ℤ := max o.inner.iterationMax o.tenure

theorem next_limit (o : OuterOpt) (g : Bool) (performed last cur : ℤ) (h : cur ≤ limit o) :
    Tabu.nextIterationMax o.inner.iterationMax o.tenure o.rate g performed last cur ≤ limit o := by
  unfold Tabu.nextIterationMax limit at *
  split
  · exact h
  · dsimp only; omega

/-- The whole search ends: for every behaviour of the steps the controller makes at most
`general.iteration_max` rounds, and all tabu searches together execute at most that number times the larger of
`tabu_search.iteration_max` and `initial_tabu_tenure` moves. -/
theorem controller_terminates {W : Type} (o : OuterOpt) (ab : Bool) (r : Reads W) (s : TabuSteps W) (q : OuterReads W)
    (finish : W → W) (w : W) :
    ∃ n st, outerLoop o ab r s q finish (o.iterationMax.toNat + 1) 0 ⟨w, o.inner.iterationMax, none, 0⟩ = some (n, st) ∧
      n ≤ o.iterationMax.toNat ∧ st.total ≤ n * (limit o).toNat := by
  have main : ∀ (fuel it : ℕ) (st : Outer W), st.iterationMax ≤ limit o → st.total ≤ it * (limit o).toNat →
      it ≤ o.iterationMax.toNat → o.iterationMax.toNat - it < fuel →
      ∃ n st', outerLoop o ab r s q finish fuel it st = some (n, st') ∧ n ≤ o.iterationMax.toNat ∧
        st'.total ≤ n * (limit o).toNat := by
    intro fuel
    induction fuel with
    | zero => intro it st _ _ _ hf; omega
    | succ fuel ih =>
      intro it st h1 h2 h3 hf
      unfold outerLoop
      split
      · exact ⟨it, st, rfl, h3, h2⟩
      · split
        · exact ⟨it, st, rfl, h3, h2⟩
        · next hlt =>
          split
          · exact ⟨it, st, rfl, h3, h2⟩
          · split
            · exact ⟨it, st, rfl, h3, h2⟩
            · obtain ⟨res, e1, e2, -⟩ := tabu_search_terminates { o.inner with iterationMax := st.iterationMax } ab r s st.world
              have e1' : tabuRun { o.inner with iterationMax := st.iterationMax } ab r s (st.iterationMax.toNat + 1) st.world = some res := e1
              have e2' : res.runs ≤ st.iterationMax.toNat := e2
              unfold outerRound
              rw [e1', Option.map_some, Option.bind_some]
              refine ih (it + 1) _ ?_ ?_ (by omega) (by omega)
              · dsimp only
                split
                · exact next_limit o _ _ _ _ h1
                · exact h1
              · dsimp only
                have : (it + 1) * (limit o).toNat = it * (limit o).toNat + (limit o).toNat := by ring
                omega
  exact main _ 0 _ (by unfold limit; simp) (by simp) (by omega) (by omega)

/-- With automatic adjustment of the limit, a tabu search of the controller can execute more than the configured
`tabu_search.iteration_max` moves: the adjusted limit is never below `initial_tabu_tenure`. -/
theorem adjusted_limit_exceeds_option (optionMax tenure : ℤ) (h : optionMax < tenure) (rate : ℚ) (g : Bool) (last : ℤ) :
    optionMax < Tabu.nextIterationMax optionMax tenure rate g optionMax last optionMax := by
  unfold Tabu.nextIterationMax
  rw [if_neg (by simp)]
  dsimp only
  omega

/-- The configured limit holds for every tabu search when the initial tenure does not exceed it. -/
theorem adjusted_limit_within_option (optionMax tenure : ℤ) (h : tenure ≤ optionMax) (rate : ℚ) (g : Bool)
    (performed last cur : ℤ) (hc : cur ≤ optionMax) :
    Tabu.nextIterationMax optionMax tenure rate g performed last cur ≤ optionMax := by
  unfold Tabu.nextIterationMax
  split
  · exact hc
  · dsimp only; omega

/-- With initial tenure zero the adjusted limit may become zero, and then stays zero: from that point on no tabu
search executes a move any more. -/
theorem zero_limit_is_absorbing (optionMax : ℤ) (h : 0 ≤ optionMax) (rate : ℚ) (cur : ℤ) (g : Bool) :
    Tabu.nextIterationMax optionMax 0 rate true cur 0 cur = 0 ∧ Tabu.nextIterationMax optionMax 0 rate g 0 0 0 = 0 := by
  unfold Tabu.nextIterationMax
  constructor
  · simp [h]
  · cases g <;> simp [h]

/-- `n` rounds of the controller lead from `st` to `st'`. -/
inductive Rounds {W : Type} (round : Outer W → Option (Outer W)) (st : Outer W) : ℕ → Outer W → Prop
  | start : Rounds round st 0 st
  | step {n st1 st2} : Rounds round st n st1 → round st1 = some st2 → Rounds round st (n + 1) st2

/-- The reasons to stop after `n` rounds: time, number of rounds, target reached, or the last tabu search
reported optimality. -/
def StopNow {W : Type} (o : OuterOpt) (r : Reads W) (n : ℕ) (st : Outer W) : Prop :=
  o.inner.generalTimeMax < r.clock st.world ∨ o.iterationMax ≤ n ∨
  (∃ f t, r.feasibleIncumbent st.world = some f ∧ o.inner.target = some t ∧ f ≤ t) ∨
  (0 < n ∧ st.last = some .optimal)

theorem reachTarget_iff {W : Type} (o : Opt) (r : Reads W) (w : W) :
    reachTarget o r w = true ↔ ∃ f t, r.feasibleIncumbent w = some f ∧ o.target = some t ∧ f ≤ t := by
  unfold reachTarget
  cases r.feasibleIncumbent w <;> cases o.target <;> simp

/-- The controller stops exactly at the first round at which there is a reason to stop. -/
theorem controller_stops_for_a_reason {W : Type} (o : OuterOpt) (ab : Bool) (r : Reads W) (s : TabuSteps W)
    (q : OuterReads W) (finish : W → W) (fuel : ℕ) (st : Outer W) (n : ℕ) (st' : Outer W)
    (h : outerLoop o ab r s q finish fuel 0 st = some (n, st')) :
    Rounds (outerRound o ab r s q finish) st n st' ∧ StopNow o r n st' ∧
    ∀ k < n, ∃ sk, Rounds (outerRound o ab r s q finish) st k sk ∧ ¬ StopNow o r k sk := by
  have main : ∀ (fuel it : ℕ) (cur : Outer W), Rounds (outerRound o ab r s q finish) st it cur →
      (∀ k < it, ∃ sk, Rounds (outerRound o ab r s q finish) st k sk ∧ ¬ StopNow o r k sk) →
      outerLoop o ab r s q finish fuel it cur = some (n, st') →
      Rounds (outerRound o ab r s q finish) st n st' ∧ StopNow o r n st' ∧
      ∀ k < n, ∃ sk, Rounds (outerRound o ab r s q finish) st k sk ∧ ¬ StopNow o r k sk := by
    intro fuel
    induction fuel with
    | zero => intro it cur _ _ h; simp [outerLoop] at h
    | succ fuel ih =>
      intro it cur hr hk h
      unfold outerLoop at h
      split at h
      · next h1 => simp at h; obtain ⟨rfl, rfl⟩ := h; exact ⟨hr, Or.inl h1, hk⟩
      · next h1 =>
        split at h
        · next h2 => simp at h; obtain ⟨rfl, rfl⟩ := h; exact ⟨hr, Or.inr (Or.inl h2), hk⟩
        · next h2 =>
          split at h
          · next h3 =>
            simp at h; obtain ⟨rfl, rfl⟩ := h
            exact ⟨hr, Or.inr (Or.inr (Or.inl ((reachTarget_iff _ _ _).1 h3))), hk⟩
          · next h3 =>
            split at h
            · next h4 => simp at h; obtain ⟨rfl, rfl⟩ := h; exact ⟨hr, Or.inr (Or.inr (Or.inr h4)), hk⟩
            · next h4 =>
              obtain ⟨nx, hnx, h5⟩ := Option.bind_eq_some_iff.1 h
              refine ih (it + 1) nx (hr.step hnx) (fun k hlt => ?_) h5
              by_cases hki : k = it
              · subst hki
                refine ⟨cur, hr, ?_⟩
                rintro (a | a | a | a)
                · exact h1 a
                · exact h2 a
                · exact h3 ((reachTarget_iff _ _ _).2 a)
                · exact h4 a
              · exact hk k (by omega)
  exact main fuel 0 st .start (fun k hk => by omega) h

/-! Non-vacuity: a world that counts the moves; time never runs out.  The tabu search executes its 7 moves, the
controller its 3 rounds; with tenure 10 the second and third round execute 10 moves. -/
private def reads : Reads ℕ := ⟨fun _ => 0, fun _ => none, fun _ => 0⟩
private def steps : TabuSteps ℕ := ⟨fun _ w => w, fun _ => none, fun _ w => w + 1, fun _ _ => false⟩
private def opt : Opt := ⟨100, 0, 100, 7, none, 1⟩
example : (tabuRun opt true reads steps 8 0).map (fun r => (r.status, r.runs, r.world)) = some (.iterationOver, 7, 7) := by
  decide +kernel
example : (outerLoop ⟨opt, 3, 10, 1, true⟩ true reads steps ⟨fun _ => false, fun _ => 0⟩ id 4 0 ⟨0, 7, none, 0⟩).map
    (fun p => (p.1, p.2.total, p.2.iterationMax)) = some (3, 27, 10) := by decide +kernel
/-- The third tabu search reports optimality, and the controller stops after it. -/
example : (outerLoop ⟨opt, 9, 1, 1, false⟩ true reads { steps with verdict := fun w => if w = 16 then some .optimal else none }
    ⟨fun _ => false, fun _ => 0⟩ id 10 0 ⟨0, 7, none, 0⟩).map (fun p => (p.1, p.2.last)) = some (3, some .optimal) := by
  decide +kernel

end Printemps.C54
