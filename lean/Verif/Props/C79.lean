import Verif.Model.Limits
import Verif.Props.C54
import Mathlib.Tactic.FieldSimp
import Mathlib.Tactic.NormNum

/-! # C79 — target, time and iteration limits hold for the call as a whole

`W` is the whole state of the program outside the control flow; the steps are arbitrary functions on it.  `v.now` is the
time since the call started. -/

namespace Printemps.C79
open Loop Limits

/-! ## The target value -/

/-- The internal objective: the user's value for minimisation, its negation for maximisation. -/
def sign (isMin : Bool) : ℚ := if isMin then 1 else -1

/-- The value `u` is at least as good as `t` in the user's direction. -/
def AtLeastAsGood (isMin : Bool) (u t : ℚ) : Prop := if isMin then u ≤ t else t ≤ u

/-- A target set by the user (any value that is not the default `-1E100` up to a relative `1E-5`) is reached exactly when
the user's objective of the feasible incumbent is at least as good as the target: at most the target for minimisation,
at least the target for maximisation, whether an objective is defined or not. -/
theorem target_in_the_users_direction (isMin defined : Bool) (t u : ℚ)
    (h : 1 / 100000 < |t / (-10 ^ 100) - 1|) :
    sign isMin * u ≤ setupTarget t (sign isMin) defined ↔ AtLeastAsGood isMin u t := by
  unfold setupTarget defaultTarget
  dsimp only
  rw [if_neg (not_lt.2 h.le), if_pos h]
  cases isMin
  · simp [sign, AtLeastAsGood]
  · simp [sign, AtLeastAsGood]

/-- Every target of absolute value up to `1E99` counts as set by the user. -/
theorem ordinary_target (t : ℚ) (h : |t| ≤ 10 ^ 99) : 1 / 100000 < |t / (-10 ^ 100) - 1| := by
  obtain ⟨h1, h2⟩ := abs_le.1 h
  have h3 : t / (-10 ^ 100) ≤ 1 / 10 := by
    rw [div_neg, neg_le, le_div_iff₀ (by norm_num)]
    norm_num at h1 ⊢
    linarith
  rw [abs_of_nonpos (by linarith)]
  linarith

/-- With the default target and an objective, only an objective of `-1E100` or below (for maximisation `1E100` or above)
reaches the target. -/
theorem default_target (isMin : Bool) (u : ℚ) :
    sign isMin * u ≤ setupTarget (-10 ^ 100) (sign isMin) true ↔ AtLeastAsGood isMin u (if isMin then -10 ^ 100 else 10 ^ 100) := by
  have e : (-10 ^ 100 : ℚ) / (-10 ^ 100) - 1 = 0 := by rw [div_self (by norm_num)]; norm_num
  unfold setupTarget defaultTarget
  dsimp only
  rw [e, abs_zero, if_pos (by norm_num), if_neg (by simp)]
  cases isMin
  · have : ¬ ((0 : ℚ) > 1 / 100000) := by norm_num
    rw [if_neg this]
    simp [sign, AtLeastAsGood]
  · simp [sign, AtLeastAsGood]

/-- With the default target and no objective, the objective of every feasible solution, which is 0, reaches the target. -/
theorem no_objective_stops_when_feasible (isMin : Bool) :
    sign isMin * 0 ≤ setupTarget (-10 ^ 100) (sign isMin) false := by
  have e : (-10 ^ 100 : ℚ) / (-10 ^ 100) - 1 = 0 := by rw [div_self (by norm_num)]; norm_num
  unfold setupTarget defaultTarget
  dsimp only
  rw [e, abs_zero, if_pos (by norm_num)]
  simp

/-! ## The whole call -/

/-- All searches of the call have the same `general.time_max` and target. -/
structure Common {W : Type} (s : Searches W) (limit : ℚ) (target : Option ℚ) : Prop where
  lagrange : ∀ p, s.lagrange = some p → p.opt.generalTimeMax = limit ∧ p.opt.target = target
  localSearch : ∀ p, s.localSearch = some p → p.opt.generalTimeMax = limit ∧ p.opt.target = target
  tabu : s.tabu.opt.inner.generalTimeMax = limit ∧ s.tabu.opt.inner.target = target

/-- The feasible incumbent has reached the target. -/
def Reached {W : Type} (v : View W) (target : Option ℚ) (w : W) : Prop :=
  ∃ f t, v.feasibleIncumbent w = some f ∧ target = some t ∧ f ≤ t

theorem reached_iff {W : Type} (v : View W) (o : Opt) (r : Reads W) (hr : r.feasibleIncumbent = v.feasibleIncumbent) (w : W) :
    reachTarget o r w = true ↔ Reached v o.target w := by
  rw [C54.reachTarget_iff, hr]; rfl

/-- If the time is over or the target is reached when the searches begin, nothing is searched at all. -/
theorem nothing_after_limit {W : Type} (v : View W) (s : Searches W) (limit : ℚ) (target : Option ℚ)
    (hc : Common s limit target) (w : W) (h : limit < v.now w ∨ Reached v target w) :
    searches v s w = some w := by
  have h1 : lagrangeStage v s.lagrange w = some w := by
    cases hl : s.lagrange with
    | none => rfl
    | some p =>
      obtain ⟨e1, e2⟩ := hc.lagrange p hl
      show lagrangePhase v p w = some w
      unfold lagrangePhase
      split
      · rfl
      · rcases h with h | h
        · rw [if_pos (by rw [e1]; exact h)]
        · rw [← e2] at h
          rw [if_pos ((reached_iff v p.opt v.whole rfl w).2 h)]
          split <;> rfl
  have h2 : localStage v s.localSearch w = some w := by
    cases hl : s.localSearch with
    | none => rfl
    | some p =>
      obtain ⟨e1, e2⟩ := hc.localSearch p hl
      show localPhase v p w = some w
      unfold localPhase
      rcases h with h | h
      · rw [if_pos (by rw [e1]; exact h)]
      · rw [← e2] at h
        rw [if_pos ((reached_iff v p.opt v.whole rfl w).2 h)]
        split <;> rfl
  unfold searches
  rw [h1, Option.bind_some, h2, Option.bind_some]
  unfold tabuRounds
  dsimp only
  obtain ⟨e1, e2⟩ := hc.tabu
  rcases h with h | h
  · rw [if_pos (by rw [e1]; exact h)]; rfl
  · rw [← e2] at h
    rw [if_pos ((reached_iff v s.tabu.opt.inner v.whole rfl w).2 h)]
    split
    · rfl
    · split <;> rfl

/-! ### The call ends -/

theorem tabuRound_ends {W : Type} (v : View W) (p : Limits.Tabu W) (it : ℕ) (st : Outer W) : ∃ st', tabuRound v p it st = some st' ∧
    st'.total ≤ st.total + st.iterationMax.toNat ∧
    (st.iterationMax ≤ C54.limit p.opt → st'.iterationMax ≤ C54.limit p.opt) := by
  obtain ⟨res, h1, h2, -⟩ := C54.tabu_search_terminates
    { Opt.at p.opt.inner v st.world with iterationMax := st.iterationMax } p.autoBreak
    (v.since (p.construct it st.world)) p.steps (p.preprocess it (p.construct it st.world))
  unfold tabuRound
  refine ⟨_, congrArg (Option.map _) h1, Nat.add_le_add_left h2 _, fun h => ?_⟩
  dsimp only
  split
  · exact C54.next_limit p.opt _ _ _ _ h
  · exact h

theorem tabuRounds_end {W : Type} (v : View W) (p : Limits.Tabu W) (fuel it : ℕ) (st : Outer W)
    (hi : st.iterationMax ≤ C54.limit p.opt) (ht : st.total ≤ it * (C54.limit p.opt).toNat)
    (hn : it ≤ p.opt.iterationMax.toNat) (hf : p.opt.iterationMax.toNat - it < fuel) :
    ∃ n st', tabuRounds v p fuel it st = some (n, st') ∧ n ≤ p.opt.iterationMax.toNat ∧
      st'.total ≤ n * (C54.limit p.opt).toNat := by
  induction fuel generalizing it st with
  | zero => omega
  | succ fuel ih =>
    unfold tabuRounds
    split
    · exact ⟨it, st, rfl, hn, ht⟩
    split
    · exact ⟨it, st, rfl, hn, ht⟩
    next hlt =>
    split
    · exact ⟨it, st, rfl, hn, ht⟩
    split
    · exact ⟨it, st, rfl, hn, ht⟩
    obtain ⟨st', e1, e2, e3⟩ := tabuRound_ends v p it st
    rw [e1, Option.bind_some]
    refine ih (it + 1) st' (e3 hi) ?_ (by omega) (by omega)
    have : st.iterationMax.toNat ≤ (C54.limit p.opt).toNat := Int.toNat_le_toNat hi
    calc st'.total ≤ st.total + st.iterationMax.toNat := e2
      _ ≤ it * (C54.limit p.opt).toNat + (C54.limit p.opt).toNat := by omega
      _ = (it + 1) * (C54.limit p.opt).toNat := by ring

theorem lagrangePhase_ends {W : Type} (v : View W) (p : Lagrange W) (w : W) : ∃ w', lagrangePhase v p w = some w' := by
  unfold lagrangePhase
  split
  · exact ⟨_, rfl⟩
  split
  · exact ⟨_, rfl⟩
  split
  · exact ⟨_, rfl⟩
  obtain ⟨res, h, -⟩ := C54.lagrange_dual_terminates (Opt.at p.opt v w) (v.since (p.construct w)) p.body p.converged
    (p.preprocess (p.construct w))
  exact ⟨_, congrArg (Option.map _) h⟩

theorem localPhase_ends {W : Type} (v : View W) (p : Local W) (w : W) : ∃ w', localPhase v p w = some w' := by
  unfold localPhase
  split
  · exact ⟨_, rfl⟩
  split
  · exact ⟨_, rfl⟩
  obtain ⟨res, h, -⟩ := C54.local_search_terminates (Opt.at p.opt v w) (v.since (p.construct w)) p.steps
    (p.preprocess (p.construct w))
  exact ⟨_, congrArg (Option.map _) h⟩

/-- The searches of a call end, whatever their steps do. -/
theorem searches_end {W : Type} (v : View W) (s : Searches W) (w : W) : ∃ w', searches v s w = some w' := by
  unfold searches
  obtain ⟨w1, h1⟩ : ∃ w1, lagrangeStage v s.lagrange w = some w1 := by
    cases s.lagrange with
    | none => exact ⟨w, rfl⟩
    | some p => exact lagrangePhase_ends v p w
  obtain ⟨w2, h2⟩ : ∃ w2, localStage v s.localSearch w1 = some w2 := by
    cases s.localSearch with
    | none => exact ⟨w1, rfl⟩
    | some p => exact localPhase_ends v p w1
  rw [h1, Option.bind_some, h2, Option.bind_some]
  obtain ⟨n, st, h3, -, -⟩ := tabuRounds_end v s.tabu (s.tabu.opt.iterationMax.toNat + 1) 0
    ⟨w2, s.tabu.opt.inner.iterationMax, none, 0⟩ (le_max_left _ _) (by simp) (by omega) (by omega)
  exact ⟨_, congrArg (Option.map _) h3⟩

/-! ### No step begins too late -/

/-- A property of worlds that the steps of a loop keep when the test at the top has passed holds at the end. -/
theorem loop_keeps {W : Type} (test : ℤ → W → Option Status) (prepare : ℤ → W → W) (verdict : W → Option Status)
    (body : ℤ → W → W) (after : ℤ → W → Option Status) (Q : W → Prop)
    (hp : ∀ it w, Q w → test it w = none → Q (prepare it w))
    (hb : ∀ it w, Q w → test it w = none → Q (prepare it w) → Q (body it (prepare it w)))
    (fuel : ℕ) (it : ℤ) (runs : ℕ) (w : W) (res : Result W)
    (h : loop test prepare verdict body after fuel it runs w = some res) (hw : Q w) : Q res.world := by
  induction fuel generalizing it runs w with
  | zero => simp [loop] at h
  | succ fuel ih =>
    unfold loop at h
    split at h
    · rw [← Option.some.inj h]; exact hw
    · next ht =>
      dsimp only at h
      have q1 := hp it w hw ht
      split at h
      · rw [← Option.some.inj h]; exact q1
      · have q2 := hb it w hw ht q1
        split at h
        · rw [← Option.some.inj h]; exact q2
        · exact ih _ _ _ h q2

/-- A step begins too late: after the time limit plus `δ`, or with the target reached. -/
def Late {W : Type} (v : View W) (limit δ : ℚ) (target : Option ℚ) (w : W) : Prop :=
  limit + δ < v.now w ∨ Reached v target w

/-- `n` counts (some of) the steps that begin too late: nothing else changes it.  A step of tabu search or local search is
the update of the moves with the acceptance of a move, a step of Lagrange dual one iteration; the steps begin with the
test at the top of the loops.  `δ` bounds the time for constructing a search, during which no clock of the search runs. -/
structure Counts {W : Type} (v : View W) (s : Searches W) (limit δ : ℚ) (target : Option ℚ) (n : W → ℕ) : Prop where
  lagrange : ∀ p, s.lagrange = some p →
    (∀ w, n (p.construct w) = n w ∧ n (p.preprocess w) = n w ∧ n (p.finish w) = n w) ∧
    (∀ w, v.now (p.construct w) ≤ v.now w + δ) ∧ (∀ it w, ¬ Late v limit δ target w → n (p.body it w) = n w)
  localSearch : ∀ p, s.localSearch = some p →
    (∀ w, n (p.construct w) = n w ∧ n (p.preprocess w) = n w ∧ n (p.finish w) = n w) ∧
    (∀ w, v.now (p.construct w) ≤ v.now w + δ) ∧
    (∀ it w, ¬ Late v limit δ target w →
      n (p.steps.prepare it w) = n w ∧ n (p.steps.body it (p.steps.prepare it w)) = n w)
  tabu : (∀ it w, n (s.tabu.construct it w) = n w ∧ n (s.tabu.preprocess it w) = n w) ∧
    (∀ w, n (s.tabu.finish w) = n w) ∧
    (∀ it w, v.now (s.tabu.construct it w) ≤ v.now w + δ) ∧
    (∀ it w, ¬ Late v limit δ target w →
      n (s.tabu.steps.prepare it w) = n w ∧ n (s.tabu.steps.body it (s.tabu.steps.prepare it w)) = n w)

/-- The test at the top of a loop of a search constructed from `w0` passes only in time. -/
theorem test_in_time {W : Type} (v : View W) (o : Opt) (w0 w1 : W) (δ : ℚ) (hδ : v.now w1 ≤ v.now w0 + δ) (it : ℤ) (w : W)
    (h : basicTest (Opt.at o v w0) (v.since w1) it w = none) : ¬ Late v o.generalTimeMax δ o.target w := by
  unfold basicTest at h
  split at h
  · exact absurd h (by simp)
  next h1 =>
  split at h
  · exact absurd h (by simp)
  split at h
  · exact absurd h (by simp)
  next h3 =>
  rintro (hl | hl)
  · apply h1
    unfold timeOver
    rw [Bool.or_eq_true]
    right
    refine decide_eq_true ?_
    show v.now w - v.now w1 + v.now w0 > o.generalTimeMax
    linarith
  · exact h3 ((reached_iff v (Opt.at o v w0) (v.since w1) rfl w).2 hl)

theorem tabu_test_in_time {W : Type} (v : View W) (o : Opt) (w0 w1 : W) (δ : ℚ) (hδ : v.now w1 ≤ v.now w0 + δ) (mx it : ℤ) (w : W)
    (h : tabuTest { Opt.at o v w0 with iterationMax := mx } (v.since w1) it w = none) :
    ¬ Late v o.generalTimeMax δ o.target w := by
  unfold tabuTest at h
  split at h
  · exact absurd h (by simp)
  · next hb => exact test_in_time v { o with iterationMax := mx } w0 w1 δ hδ it w hb

/-- No step of any search of the call begins after the time limit (plus the time for constructing that search) or after the
target has been reached: whatever counts only such steps does not change during the call. -/
theorem no_late_steps {W : Type} (v : View W) (s : Searches W) (limit δ : ℚ) (target : Option ℚ)
    (hc : Common s limit target) (n : W → ℕ) (hn : Counts v s limit δ target n) (w w' : W)
    (h : searches v s w = some w') : n w' = n w := by
  unfold searches at h
  obtain ⟨w1, h1, h⟩ := Option.bind_eq_some_iff.1 h
  obtain ⟨w2, h2, h⟩ := Option.bind_eq_some_iff.1 h
  obtain ⟨⟨k, st⟩, h3, h4⟩ := Option.map_eq_some_iff.1 h
  have e1 : n w1 = n w := by
    cases hl : s.lagrange with
    | none => rw [hl] at h1; rw [← Option.some.inj h1]
    | some p =>
      rw [hl] at h1
      replace h1 : lagrangePhase v p w = some w1 := h1
      obtain ⟨c1, c2⟩ := hc.lagrange p hl
      obtain ⟨a1, a2, a3⟩ := hn.lagrange p hl
      unfold lagrangePhase at h1
      split at h1
      · rw [← Option.some.inj h1]
      split at h1
      · rw [← Option.some.inj h1]
      split at h1
      · rw [← Option.some.inj h1]
      obtain ⟨res, hres, hw1⟩ := Option.map_eq_some_iff.1 h1
      rw [← hw1, (a1 _).2.2]
      refine loop_keeps _ _ _ _ _ (fun x => n x = n w) (fun it x q _ => q) (fun it x q ht _ => ?_) _ _ _ _ _ hres ?_
      · rw [a3 it x ?_, q]
        have := test_in_time v p.opt w (p.construct w) δ (a2 w) it x ht
        rwa [c1, c2] at this
      · rw [(a1 _).2.1, (a1 _).1]
  have e2 : n w2 = n w1 := by
    cases hl : s.localSearch with
    | none => rw [hl] at h2; rw [← Option.some.inj h2]
    | some p =>
      rw [hl] at h2
      replace h2 : localPhase v p w1 = some w2 := h2
      obtain ⟨c1, c2⟩ := hc.localSearch p hl
      obtain ⟨a1, a2, a3⟩ := hn.localSearch p hl
      unfold localPhase at h2
      split at h2
      · rw [← Option.some.inj h2]
      split at h2
      · rw [← Option.some.inj h2]
      obtain ⟨res, hres, hw2⟩ := Option.map_eq_some_iff.1 h2
      rw [← hw2, (a1 _).2.2]
      have key : ∀ it x, basicTest (Opt.at p.opt v w1) (v.since (p.construct w1)) it x = none → ¬ Late v limit δ target x := by
        intro it x ht
        have := test_in_time v p.opt w1 (p.construct w1) δ (a2 w1) it x ht
        rwa [c1, c2] at this
      refine loop_keeps _ _ _ _ _ (fun x => n x = n w1) (fun it x q ht => ?_) (fun it x q ht _ => ?_) _ _ _ _ _ hres ?_
      · rw [(a3 it x (key it x ht)).1, q]
      · rw [(a3 it x (key it x ht)).2, q]
      · rw [(a1 _).2.1, (a1 _).1]
  have e3 : ∀ (fuel it : ℕ) (a : Outer W) (k : ℕ) (st : Outer W), tabuRounds v s.tabu fuel it a = some (k, st) →
      n st.world = n a.world := by
    obtain ⟨c1, c2⟩ := hc.tabu
    obtain ⟨a1, a2, a3, a4⟩ := hn.tabu
    intro fuel
    induction fuel with
    | zero => intro it a k st h; simp [tabuRounds] at h
    | succ fuel ih =>
      intro it a k st h
      unfold tabuRounds at h
      split at h
      · rw [← (Prod.mk.inj (Option.some.inj h)).2]
      split at h
      · rw [← (Prod.mk.inj (Option.some.inj h)).2]
      split at h
      · rw [← (Prod.mk.inj (Option.some.inj h)).2]
      split at h
      · rw [← (Prod.mk.inj (Option.some.inj h)).2]
      obtain ⟨b, hb, hr⟩ := Option.bind_eq_some_iff.1 h
      rw [ih _ _ _ _ hr]
      unfold tabuRound at hb
      obtain ⟨res, hres, rfl⟩ := Option.map_eq_some_iff.1 hb
      dsimp only
      rw [a2]
      have key : ∀ it' x, tabuTest { Opt.at s.tabu.opt.inner v a.world with iterationMax := a.iterationMax }
          (v.since (s.tabu.construct it a.world)) it' x = none → ¬ Late v limit δ target x := by
        intro it' x ht
        have := tabu_test_in_time v s.tabu.opt.inner a.world _ δ (a3 it a.world) a.iterationMax it' x ht
        rwa [c1, c2] at this
      refine loop_keeps _ _ _ _ _ (fun x => n x = n a.world) (fun it' x q ht => ?_) (fun it' x q ht _ => ?_) _ _ _ _ _ hres ?_
      · rw [(a4 it' x (key it' x ht)).1, q]
      · rw [(a4 it' x (key it' x ht)).2, q]
      · rw [(a1 it _).2, (a1 it _).1]
  rw [← h4]
  exact (e3 _ _ _ _ _ h3).trans (e2.trans e1)

/-- Target and call together: a call with the user's target `t` whose feasible incumbent is, in the user's direction, at
least as good as `t` searches no further. -/
theorem target_stops_the_call {W : Type} (v : View W) (s : Searches W) (limit : ℚ) (isMin defined : Bool) (t u : ℚ)
    (ht : 1 / 100000 < |t / (-10 ^ 100) - 1|) (hc : Common s limit (some (setupTarget t (sign isMin) defined))) (w : W)
    (hu : v.feasibleIncumbent w = some (sign isMin * u)) (hg : AtLeastAsGood isMin u t) :
    searches v s w = some w :=
  nothing_after_limit v s limit _ hc w
    (Or.inr ⟨_, _, hu, rfl, (target_in_the_users_direction isMin defined t u ht).2 hg⟩)

/-! ## Non-vacuity: a call with all three searches

A world is a pair: the number of steps made, the number of late steps.  Every step takes one second, constructing a search
one second, and the feasible incumbent is 50 minus the number of steps.  The limit is 17 seconds and the target 10. -/

namespace Sample

abbrev World := ℕ × ℕ

def view : View World := { now := fun w => w.1, feasibleIncumbent := fun w => some (50 - w.1), ineffective := fun _ => 0 }

/-- one step, counted as late if it begins after 18 seconds -/
def next (w : World) : World := (w.1 + 1, w.2 + if w.1 > 18 then 1 else 0)

/-- constructing a search: one second -/
def construct (w : World) : World := (w.1 + 1, w.2)

def opt (n : ℤ) : Opt :=
  { timeMax := 100, timeOffset := 0, generalTimeMax := 17, iterationMax := n, target := some 10 }

def lagrange : Lagrange World :=
  { opt := opt 3, applicable := fun _ => true, construct := construct, preprocess := id, body := fun _ w => next w
    converged := fun _ => false, finish := id }

def localSearch : Local World :=
  { opt := opt 4, construct := construct, preprocess := id
    steps := { prepare := fun _ w => w, verdict := fun _ => none, body := fun _ w => next w }, finish := id }

def tabu : Limits.Tabu World :=
  { opt := { inner := opt 3, iterationMax := 20, tenure := 2, rate := 1, adjust := true }, autoBreak := true
    construct := fun _ => construct, preprocess := fun _ => id
    steps := { prepare := fun _ w => w, verdict := fun _ => none, body := fun _ w => next w, tooLarge := fun _ _ => false }
    reads := { globalUpdated := fun _ => false, lastUpdate := fun _ => 0 }, finish := id }

def call : Searches World := { lagrange := some lagrange, localSearch := some localSearch, tabu := tabu }

/-- Lagrange dual ends after 4 seconds, local search after 9, the first two tabu searches after 13 and 17.  The third is
constructed in the 18th second, makes one step, and then notices that the time is over. -/
example : searches view call (0, 0) = some (19, 0) := by decide +kernel

theorem common : Common call 17 (some 10) := by
  refine ⟨fun p h => ?_, fun p h => ?_, rfl, rfl⟩
  · rw [← Option.some.inj h]; exact ⟨rfl, rfl⟩
  · rw [← Option.some.inj h]; exact ⟨rfl, rfl⟩

theorem next_in_time (w : World) (h : ¬ Late view 17 1 (some 10) w) : (next w).2 = w.2 := by
  unfold next
  have : ¬ w.1 > 18 := by
    intro hw
    refine h (Or.inl ?_)
    show (17 : ℚ) + 1 < (w.1 : ℚ)
    have : (18 : ℚ) < w.1 := by exact_mod_cast hw
    linarith
  simp [this]

theorem construct_time (w : World) : view.now (construct w) ≤ view.now w + 1 := by
  show ((w.1 + 1 : ℕ) : ℚ) ≤ w.1 + 1
  push_cast; exact le_refl _

theorem counts : Counts view call 17 1 (some 10) Prod.snd := by
  refine ⟨fun p h => ?_, fun p h => ?_, ?_⟩
  · rw [← Option.some.inj h]
    exact ⟨fun w => ⟨rfl, rfl, rfl⟩, construct_time, fun it w hl => next_in_time w hl⟩
  · rw [← Option.some.inj h]
    exact ⟨fun w => ⟨rfl, rfl, rfl⟩, construct_time, fun it w hl => ⟨rfl, next_in_time w hl⟩⟩
  · exact ⟨fun it w => ⟨rfl, rfl⟩, fun w => rfl, fun it w => construct_time w, fun it w hl => ⟨rfl, next_in_time w hl⟩⟩

/-- No late step, from whatever world the call starts. -/
example (w w' : World) (h : searches view call w = some w') : w'.2 = w.2 :=
  no_late_steps view call 17 1 (some 10) common Prod.snd counts w w' h

/-- A call that starts after 40 seconds, or with an objective of 10 or less, makes no step. -/
example : searches view call (40, 0) = some (40, 0) :=
  nothing_after_limit view call 17 (some 10) common (40, 0) (Or.inl (by show (17 : ℚ) < (40 : ℕ); norm_num))

/-- For maximisation with target 5 and a feasible solution of objective 7 the call stops. -/
example (s : Searches World) (hc : Common s 17 (some (setupTarget 5 (sign false) true))) (w : World) :
    searches { view with feasibleIncumbent := fun _ => some (-7) } s w = some w :=
  target_stops_the_call _ s 17 false true 5 7 (ordinary_target 5 (by norm_num)) hc w
    (by show some (-7 : ℚ) = some (sign false * 7); norm_num [sign]) (by show (5 : ℚ) ≤ 7; norm_num)

example : AtLeastAsGood true 3 4 ∧ ¬ AtLeastAsGood false 3 4 := by
  unfold AtLeastAsGood; norm_num

end Sample

end Printemps.C79
