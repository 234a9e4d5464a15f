import Verif.Lemmas.Tuning

/-! # C83: every search of a call is told what the user's options allow

A call runs many tabu searches, and the controller chooses the options of each of them: the kind of screening, the limit for
iterations, the initial tabu tenure, the number of random moves at the beginning, the threshold for early stops, the number of
threads and the kinds of moves.  The specification is `Spec.Allowed` (Spec/Tuning.lean).  What the searches find (`Lap`) is
arbitrary. -/

namespace Printemps.C83
open Tuning Ucb1 Spec

section
variable {w : Machine} {bonus : ℕ → ℕ → ℚ} {o : Opt} {base : MoveSense → Bool} {clock : ℚ} {laps : List Lap}

theorem searches_parts {L : List (State × Opt)} (hw : 1 ≤ w.threads) (h : searches w bonus o base clock laps = some L) :
    ∃ s0 S, setup w (adjusted w o) base clock = some s0 ∧ states w bonus (adjusted w o) laps s0 = some S ∧
      L = S.map (fun s => (s, createOption (adjusted w o) s)) ∧ Inv w (adjusted w o) base 0 s0 := by
  obtain ⟨s0, h0, i0, -⟩ := setup_inv hw o base clock
  obtain ⟨S, hS⟩ := states_some hw bonus (adjusted w o) base laps i0
  unfold searches at h
  rw [h0, Option.bind_some, hS, Option.map_some] at h
  exact ⟨s0, S, h0, hS, (Option.some.inj h).symm, i0⟩

/-- What is known of the search number `k`, and how the next one comes from it. -/
theorem searches_at {L : List (State × Opt)} (hw : 1 ≤ w.threads) (h : searches w bonus o base clock laps = some L) {k : ℕ}
    {s : State} {t : Opt} (hk : L[k]? = some (s, t)) : Inv w (adjusted w o) base k s ∧ t = createOption (adjusted w o) s := by
  obtain ⟨s0, S, h0, hS, rfl, i0⟩ := searches_parts hw h
  rw [List.getElem?_map] at hk
  cases hs : S[k]? with
  | none => rw [hs] at hk; exact absurd hk (by simp)
  | some a =>
    rw [hs, Option.map_some] at hk
    have := Option.some.inj hk
    obtain ⟨rfl, rfl⟩ := Prod.mk.inj this
    exact ⟨states_inv hw i0 hS k a hs, rfl⟩

theorem searches_step {L : List (State × Opt)} (hw : 1 ≤ w.threads) (h : searches w bonus o base clock laps = some L) {k : ℕ}
    {s s' : State} {t t' : Opt} {l : Lap} (hl : laps[k]? = some l) (hk : L[k]? = some (s, t)) (hk' : L[k + 1]? = some (s', t')) :
    update w bonus (adjusted w o) l s = some s' := by
  obtain ⟨s0, S, h0, hS, rfl, i0⟩ := searches_parts hw h
  rw [List.getElem?_map] at hk hk'
  cases hs : S[k]? with
  | none => rw [hs] at hk; exact absurd hk (by simp)
  | some a =>
    rw [hs, Option.map_some] at hk
    obtain ⟨rfl, rfl⟩ := Prod.mk.inj (Option.some.inj hk)
    obtain ⟨-, -, h3⟩ := states_steps hS
    obtain ⟨b, hb, hu⟩ := h3 k l a hl hs
    rw [hb, Option.map_some] at hk'
    obtain ⟨rfl, rfl⟩ := Prod.mk.inj (Option.some.inj hk')
    exact hu

/-- The options of every search are found: on any machine, for any options and whatever the searches find, no null pointer is
followed, and there is one set of options per search. -/
theorem every_search_has_options (hw : 1 ≤ w.threads) :
    ∃ L, searches w bonus o base clock laps = some L ∧ L.length = laps.length + 1 := by
  obtain ⟨s0, h0, i0, -⟩ := setup_inv hw o base clock
  obtain ⟨S, hS⟩ := states_some hw bonus (adjusted w o) base laps i0
  refine ⟨S.map (fun s => (s, createOption (adjusted w o) s)), ?_, by simp [(states_steps hS).1]⟩
  unfold searches
  rw [h0, Option.bind_some, hS, Option.map_some]

theorem par_allowed {p : Par} {k : ℕ} {s : ParState} (hw : 1 ≤ w.threads) (i : ParInv w (adjustThreads w p) k s) :
    ParAllowed w p { adjustThreads w p with enabled := s.enabled, threads := s.threads } := by
  obtain ⟨-, -, e, a⟩ := adjusted_pos hw p
  exact ⟨i.pos, fun h1 h2 => i.max (by rw [a]; exact h1) (by rw [e]; exact h2), fun h => by rw [← e]; exact i.enabled h⟩

theorem special_of_not_plain {c : MoveSense} (h : c ∉ plainKinds) : isSpecial c = true := by
  revert h; cases c <;> decide

theorem plain_not_special {c : MoveSense} (h : c ∈ plainKinds) : isSpecial c = false := by
  revert h; cases c <;> decide

/-- Every search is told what the options of the call allow (`Allowed`).  Partial: the limit for iterations is the larger one
of the user's limit and the user's initial tabu tenure (`iteration_limit_is_exceeded`), a number of threads set by the user
is kept for the first search only (`thread_setting_is_lost`), and the user's seed is not used at all
(`seed_and_number_of_modifications_are_ignored`). -/
theorem options_are_allowed_partial {L : List (State × Opt)} (hw : 1 ≤ w.threads)
    (h : searches w bonus o base clock laps = some L) {k : ℕ} {s : State} {t : Opt} (hk : L[k]? = some (s, t)) :
    Allowed w o base k s.kinds t := by
  obtain ⟨i, rfl⟩ := searches_at hw h hk
  exact
    { screening := i.screening
      screeningChosen := i.screeningChosen
      iterationFixed := i.iterationFixed
      iterationMax := i.iterationMax
      iterationMin := i.iterationMin
      tenureFixed := i.tenureFixed
      noModification := i.noModification
      modificationsNonneg := i.modificationsNonneg
      modificationsMax := i.modificationsMax
      pruningFull := i.pruningFull
      pruningShort := i.pruningShort
      update := par_allowed hw i.update
      evaluation := par_allowed hw i.evaluation
      special := fun c hc => i.special c (special_of_not_plain hc)
      others := fun c hc => i.others c (plain_not_special hc)
      seed := i.iteration
      rest := ⟨rfl, rfl, rfl, rfl, rfl, rfl, rfl⟩ }

/-- With an initial tabu tenure that is at most the limit for iterations, no search is allowed more iterations than the user
allows. -/
theorem iteration_limit_holds_partial {L : List (State × Opt)} (hw : 1 ≤ w.threads) (ho : o.tenure ≤ o.iterationMax)
    (h : searches w bonus o base clock laps = some L) {k : ℕ} {s : State} {t : Opt} (hk : L[k]? = some (s, t)) :
    t.iterationMax ≤ o.iterationMax := by
  have := (options_are_allowed_partial hw h hk).iterationMax
  rwa [max_eq_left ho] at this

/-- The initial tabu tenure stays between the user's and the number of mutable variables. -/
theorem tenure_stays_in_range {L : List (State × Opt)} (hw : 1 ≤ w.threads) {m : ℕ} (hm : ∀ l ∈ laps, l.mutableVars = m)
    (h : searches w bonus o base clock laps = some L) : ∀ {k : ℕ} {s : State} {t : Opt}, L[k]? = some (s, t) →
      min o.tenure m ≤ t.tenure ∧ t.tenure ≤ max o.tenure m := by
  intro k
  induction k with
  | zero =>
    intro s t hk
    obtain ⟨-, rfl⟩ := searches_at hw h hk
    obtain ⟨s0, S, h0, hS, rfl, -⟩ := searches_parts hw h
    rw [List.getElem?_map, (states_steps hS).2.1, Option.map_some] at hk
    obtain ⟨rfl, -⟩ := Prod.mk.inj (Option.some.inj hk)
    obtain ⟨s1, h1, -, -, -, -, -, -, ht⟩ := setup_inv hw o base clock
    rw [h0] at h1
    obtain rfl := Option.some.inj h1
    show min o.tenure m ≤ s0.tenure ∧ s0.tenure ≤ max o.tenure m
    rw [ht]
    exact ⟨min_le_left _ _, le_max_left _ _⟩
  | succ k ih =>
    intro s' t' hk'
    have hlen : L.length = laps.length + 1 := by
      obtain ⟨s0, S, h0, hS, rfl, -⟩ := searches_parts hw h
      simp [(states_steps hS).1]
    have hlt : k + 1 < L.length := by
      by_contra hc
      rw [List.getElem?_eq_none (by omega)] at hk'
      exact absurd hk' (by simp)
    have hl : laps[k]? = some laps[k] := List.getElem?_eq_getElem (by omega)
    have hk : L[k]? = some ((L[k]).1, (L[k]).2) := List.getElem?_eq_getElem (by omega)
    have hu := searches_step hw h hl hk hk'
    obtain ⟨i, ht⟩ := searches_at hw h hk
    obtain ⟨-, rfl⟩ := searches_at hw h hk'
    have b := ih hk
    rw [ht] at b
    replace b : min o.tenure m ≤ (L[k]).1.tenure ∧ (L[k]).1.tenure ≤ max o.tenure m := b
    have hml := hm laps[k] (List.getElem_mem _)
    generalize laps[k] = l at hu hml
    generalize (L[k]).1 = a at hu b
    have e : s'.tenure = if o.autoTenure then
        Tabu.nextInitialTenure o.tenure l.mutableVars l.globalUpdated l.notUpdated l.busy l.tenure a.tenure else a.tenure := by
      unfold update at hu
      cases h1 : updatePar w bonus (adjusted w o).update l.updateScore a.iteration a.update with
      | none => rw [h1] at hu; exact absurd hu (by simp)
      | some u =>
        cases h2 : updatePar w bonus (adjusted w o).evaluation l.evaluationScore a.iteration a.evaluation with
        | none => rw [h1, h2] at hu; exact absurd hu (by simp)
        | some v =>
          rw [h1, h2] at hu
          rw [← Option.some.inj hu]
          rfl
    show min o.tenure m ≤ s'.tenure ∧ s'.tenure ≤ max o.tenure m
    rw [e]
    by_cases ha : o.autoTenure = true
    · rw [if_pos ha, hml]
      unfold Tabu.nextInitialTenure
      split
      · omega
      split
      · omega
      split
      · omega
      split
      · exact b
      · omega
    · rw [if_neg ha]; exact b

theorem update_fields {s s' : State} {l : Lap} (hu : update w bonus (adjusted w o) l s = some s') :
    s'.kinds = nextKinds o l s.kinds ∧
    s'.modifications = (if o.modification then nextModifications o l s'.tenure else s.modifications) ∧
    s'.screening = (if o.screening = .automatic then nextScreening l s.relaxations else s.screening) ∧
    s'.tenure = (if o.autoTenure then
        Tabu.nextInitialTenure o.tenure l.mutableVars l.globalUpdated l.notUpdated l.busy l.tenure s.tenure else s.tenure) ∧
    updatePar w bonus (adjustThreads w o.update) l.updateScore s.iteration s.update = some s'.update ∧
    updatePar w bonus (adjustThreads w o.evaluation) l.evaluationScore s.iteration s.evaluation = some s'.evaluation := by
  unfold update at hu
  cases h1 : updatePar w bonus (adjusted w o).update l.updateScore s.iteration s.update with
  | none => rw [h1] at hu; exact absurd hu (by simp)
  | some u =>
    cases h2 : updatePar w bonus (adjusted w o).evaluation l.evaluationScore s.iteration s.evaluation with
    | none => rw [h1, h2] at hu; exact absurd hu (by simp)
    | some v =>
      rw [h1, h2] at hu
      rw [← Option.some.inj hu]
      exact ⟨rfl, rfl, rfl, rfl, h1, h2⟩

/-- After a search that improves the incumbent, the next one is cautious: it uses none of the special kinds of moves that the
user allows, makes no random moves at the beginning, has the shortest tabu tenure and, when the kind of screening is chosen
automatically, screens intensively. -/
theorem improvement_makes_next_search_cautious {L : List (State × Opt)} (hw : 1 ≤ w.threads)
    (h : searches w bonus o base clock laps = some L) {k : ℕ} {s s' : State} {t t' : Opt} {l : Lap} (hl : laps[k]? = some l)
    (hk : L[k]? = some (s, t)) (hk' : L[k + 1]? = some (s', t')) (hi : l.globalUpdated = true) :
    (∀ c, c ∉ plainKinds → o.special c = true → s'.kinds c = false) ∧ t'.modifications = 0 ∧
      (o.autoTenure = true → t'.tenure = min o.tenure l.mutableVars) ∧
      (o.screening = .automatic → l.noMove = false → t'.screening = .intensive) := by
  have hu := searches_step hw h hl hk hk'
  obtain ⟨i, -⟩ := searches_at hw h hk
  obtain ⟨-, rfl⟩ := searches_at hw h hk'
  obtain ⟨f1, f2, f3, f4, -⟩ := update_fields hu
  refine ⟨fun c hc hs => ?_, ?_, fun ha => ?_, fun ha hn => ?_⟩
  · rw [f1]
    simp [nextKinds, hi, disableSpecial, special_of_not_plain hc, hs]
  · show s'.modifications = 0
    rw [f2]
    by_cases hm : o.modification = true
    · rw [if_pos hm]; simp [nextModifications, hi]
    · rw [if_neg hm]; exact i.noModification (by simpa [adjusted] using hm)
  · show s'.tenure = _
    rw [f4, if_pos ha]; simp [Tabu.nextInitialTenure, hi]
  · show s'.screening = _
    rw [f3, if_pos ha]; simp [nextScreening, hi, hn]

/-- After a search that used all iterations the user allows and improved nothing, the next one uses every special kind of moves
that the user allows and of which there are moves, and makes a random move at least if such moves are asked for and were
found to be due. -/
theorem stagnation_widens_next_search {L : List (State × Opt)} (hw : 1 ≤ w.threads)
    (h : searches w bonus o base clock laps = some L) {k : ℕ} {s s' : State} {t t' : Opt} {l : Lap} (hl : laps[k]? = some l)
    (hk : L[k]? = some (s, t)) (hk' : L[k + 1]? = some (s', t')) (hi : l.globalUpdated = false) :
    (l.iterations = o.iterationMax → ∀ c, c ∉ plainKinds → o.special c = true → l.hasMoves c = true → s'.kinds c = true) ∧
      (o.modification = true → (1 ≤ t'.modifications ↔ l.forced = true)) := by
  have hu := searches_step hw h hl hk hk'
  obtain ⟨-, rfl⟩ := searches_at hw h hk'
  obtain ⟨f1, f2, -⟩ := update_fields hu
  refine ⟨fun hx c hc hs hh => ?_, fun hm => ?_⟩
  · rw [f1]
    simp [nextKinds, hi, hx, enableSpecial, special_of_not_plain hc, hs, hh]
  · show 1 ≤ s'.modifications ↔ _
    rw [f2, if_pos hm]
    unfold nextModifications
    rw [if_neg (by rw [hi]; decide)]
    by_cases hf : l.forced = true
    · rw [if_neg (by rw [hf]; decide)]
      exact ⟨fun _ => hf, fun _ => le_max_left _ _⟩
    · rw [if_pos (by simpa using hf)]
      exact ⟨fun h0 => absurd h0 (by decide), fun h0 => absurd h0 hf⟩

/-- The numbers of threads tried: the powers of two below the number of threads of the machine, and that number. -/
theorem thread_counts_tried (w : Machine) :
    ∃ j, tried w = (List.range j).map (fun i => 2 ^ i) ++ [w.threads] ∧ (∀ i < j, 2 ^ i < w.threads) ∧ w.threads ≤ 2 ^ j :=
  (tried_eq w).2

theorem learns_adjusted (hw : 1 ≤ w.threads) {p : Par} (h : learns w p = true) : learns w (adjustThreads w p) = true := by
  obtain ⟨-, -, e, a⟩ := adjusted_pos hw p
  unfold learns at h ⊢
  rw [e, a]; exact h

theorem par_tried {p : Par} {k : ℕ} {s : ParState} (hw : 1 ≤ w.threads) (hp : learns w p = true)
    (i : ParInv w (adjustThreads w p) k s) (hk : k < (tried w).length) : s.threads = ((tried w)[k] : ℕ) := by
  obtain ⟨v, hb, x, -⟩ := i.learner (learns_adjusted hw hp)
  have hk' : k < s.learner.actions.length := by rw [Valid.length v]; exact hk
  have hbest := (x hk).best hk'
  have e1 : s.learner.bestBody = some (s.learner.actions[k]).body := by
    simp [Learner.bestBody, hbest, hk']
  rw [hb] at e1
  rw [Option.some.inj e1]
  have e2 : (s.learner.actions.map Action.body)[k]'(by simpa using hk') = (bodies w)[k]'(by simpa [bodies] using hk) := by
    simp only [v.bodies]
  simpa [bodies] using e2

/-- With automatic parallelization the first searches of a call try the numbers of threads in turn, each once. -/
theorem thread_counts_are_tried_in_turn {L : List (State × Opt)} (hw : 1 ≤ w.threads)
    (h : searches w bonus o base clock laps = some L) {k : ℕ} {s : State} {t : Opt} (hk : L[k]? = some (s, t))
    (hkt : k < (tried w).length) :
    (learns w o.update = true → t.update.threads = ((tried w)[k] : ℕ)) ∧
      (learns w o.evaluation = true → t.evaluation.threads = ((tried w)[k] : ℕ)) := by
  obtain ⟨i, rfl⟩ := searches_at hw h hk
  exact ⟨fun hp => par_tried hw hp i.update hkt, fun hp => par_tried hw hp i.evaluation hkt⟩

theorem par_best {p : Par} {k : ℕ} {s : ParState} (hw : 1 ≤ w.threads) (hp : learns w p = true)
    (i : ParInv w (adjustThreads w p) k s) (hk : (tried w).length ≤ k) :
    s.learner.actions.map Action.body = (tried w).map (fun n : ℕ => (n : ℤ)) ∧
      ∃ a ∈ s.learner.actions, a.body = s.threads ∧ ∀ b ∈ s.learner.actions, b.mean + b.confidence ≤ a.mean + a.confidence := by
  obtain ⟨v, hb, -, y⟩ := i.learner (learns_adjusted hw hp)
  obtain ⟨n, hn, h1, h2⟩ := (y hk).best
  refine ⟨v.bodies, s.learner.actions[n], List.getElem_mem _, ?_, h2⟩
  have e1 : s.learner.bestBody = some (s.learner.actions[n]).body := by
    simp [Learner.bestBody, h1, hn]
  rw [hb] at e1
  exact (Option.some.inj e1).symm

/-- Afterwards a search uses a number of threads with the largest upper confidence among all numbers tried. -/
theorem thread_count_has_largest_confidence {L : List (State × Opt)} (hw : 1 ≤ w.threads)
    (h : searches w bonus o base clock laps = some L) {k : ℕ} {s : State} {t : Opt} (hk : L[k]? = some (s, t))
    (hkt : (tried w).length ≤ k) (hp : learns w o.update = true) :
    s.update.learner.actions.map Action.body = (tried w).map (fun n : ℕ => (n : ℤ)) ∧
      ∃ a ∈ s.update.learner.actions, a.body = t.update.threads ∧
        ∀ b ∈ s.update.learner.actions, b.mean + b.confidence ≤ a.mean + a.confidence := by
  obtain ⟨i, rfl⟩ := searches_at hw h hk
  exact par_best hw hp i.update hkt

/-- The mean kept for a number of threads lies between the smallest and the largest of its scores, and in the range kept. -/
theorem mean_lies_within_scores {decay lo hi : ℚ} (h0 : 0 ≤ decay) (h1 : decay ≤ 1) (scores : List ℚ) (hne : scores ≠ [])
    (hs : ∀ x ∈ scores, lo ≤ x ∧ x ≤ hi) (body : ℤ) :
    let a := scores.foldl (fun a x => Action.learn x decay a) ({ body := body } : Action)
    lo ≤ a.min ∧ a.min ≤ a.mean ∧ a.mean ≤ a.max ∧ a.max ≤ hi ∧ a.samples = scores.length ∧ a.total = scores.sum := by
  have key : ∀ (l : List ℚ) (a : Action), (∀ x ∈ l, lo ≤ x ∧ x ≤ hi) →
      (a.samples = 0 ∨ (lo ≤ a.min ∧ a.min ≤ a.mean ∧ a.mean ≤ a.max ∧ a.max ≤ hi)) →
      ((l.foldl (fun a x => Action.learn x decay a) a).samples = 0 ∨
        (lo ≤ (l.foldl (fun a x => Action.learn x decay a) a).min ∧
          (l.foldl (fun a x => Action.learn x decay a) a).min ≤ (l.foldl (fun a x => Action.learn x decay a) a).mean ∧
          (l.foldl (fun a x => Action.learn x decay a) a).mean ≤ (l.foldl (fun a x => Action.learn x decay a) a).max ∧
          (l.foldl (fun a x => Action.learn x decay a) a).max ≤ hi)) ∧
      (l.foldl (fun a x => Action.learn x decay a) a).samples = a.samples + l.length ∧
      (l.foldl (fun a x => Action.learn x decay a) a).total = a.total + l.sum := by
    intro l
    induction l with
    | nil => exact fun a _ ha => ⟨ha, rfl, by simp⟩
    | cons x l ih =>
      intro a hx ha
      have hxx := hx x List.mem_cons_self
      have := ih (a.learn x decay) (fun y hy => hx y (List.mem_cons_of_mem _ hy))
        (Or.inr (learn_within h0 h1 hxx.1 hxx.2 ha))
      rw [List.foldl_cons]
      refine ⟨this.1, ?_, ?_⟩
      · rw [this.2.1, learn_samples, List.length_cons]; omega
      · have ht : (a.learn x decay).total = a.total + x := by unfold Action.learn; split <;> rfl
        rw [this.2.2, ht, List.sum_cons]; ring
  intro a
  obtain ⟨k1, k2, k3⟩ := key scores { body := body } hs (Or.inl rfl)
  have k2' : a.samples = scores.length := by rw [show a.samples = _ from k2]; exact Nat.zero_add _
  have k3' : a.total = scores.sum := by rw [show a.total = _ from k3]; exact zero_add _
  rcases k1 with k1 | ⟨b1, b2, b3, b4⟩
  · have : scores.length = 0 := by rw [← k2']; exact k1
    exact absurd (List.length_eq_zero_iff.1 this) hne
  · exact ⟨b1, b2, b3, b4, k2', k3'⟩

/-- The average number of threads kept for the report is the average over the searches made so far. -/
theorem average_of_threads_is_right {L : List (State × Opt)} (hw : 1 ≤ w.threads)
    (h : searches w bonus o base clock laps = some L) {k : ℕ} {s : State} {t : Opt} (hk : L[k]? = some (s, t)) (hpos : 0 < k) :
    s.update.averaged = ((L.take k).map (fun x => (used x.2.update : ℚ))).sum / k ∧
      s.evaluation.averaged = ((L.take k).map (fun x => (used x.2.evaluation : ℚ))).sum / k := by
  have hlen : L.length = laps.length + 1 := by
    obtain ⟨s0, S, h0, hS, rfl, -⟩ := searches_parts hw h
    simp [(states_steps hS).1]
  have key : ∀ k s t, L[k]? = some (s, t) →
      ((s.update.total : ℤ) : ℚ) = ((L.take k).map (fun x => (used x.2.update : ℚ))).sum ∧
      ((s.evaluation.total : ℤ) : ℚ) = ((L.take k).map (fun x => (used x.2.evaluation : ℚ))).sum ∧
      (0 < k → s.update.averaged = ((s.update.total : ℤ) : ℚ) / k ∧ s.evaluation.averaged = ((s.evaluation.total : ℤ) : ℚ) / k) := by
    intro k
    induction k with
    | zero =>
      intro s t hk
      obtain ⟨s0, S, h0, hS, rfl, -⟩ := searches_parts hw h
      rw [List.getElem?_map, (states_steps hS).2.1, Option.map_some] at hk
      obtain ⟨rfl, -⟩ := Prod.mk.inj (Option.some.inj hk)
      obtain ⟨s1, h1, -, t1, t2, -⟩ := setup_inv hw o base clock
      rw [h0] at h1
      obtain rfl := Option.some.inj h1
      rw [t1, t2]
      exact ⟨by simp, by simp, fun h => absurd h (by omega)⟩
    | succ k ih =>
      intro s' t' hk'
      have hlt : k + 1 < L.length := by
        by_contra hc
        rw [List.getElem?_eq_none (by omega)] at hk'
        exact absurd hk' (by simp)
      have hl : laps[k]? = some laps[k] := List.getElem?_eq_getElem (by omega)
      have hk : L[k]? = some ((L[k]).1, (L[k]).2) := List.getElem?_eq_getElem (by omega)
      have hu := searches_step hw h hl hk hk'
      obtain ⟨i, ht⟩ := searches_at hw h hk
      obtain ⟨-, -, -, -, f5, f6⟩ := update_fields hu
      obtain ⟨b1, b2, -⟩ := ih _ _ hk
      obtain ⟨u, hu1, -, hu2, hu3, -⟩ := updatePar_inv hw bonus (adjustThreads w o.update) (laps[k]).updateScore
        (L[k]).1.iteration i.update
      obtain ⟨v, hv1, -, hv2, hv3, -⟩ := updatePar_inv hw bonus (adjustThreads w o.evaluation) (laps[k]).evaluationScore
        (L[k]).1.iteration i.evaluation
      rw [f5] at hu1
      rw [f6] at hv1
      rw [← Option.some.inj hu1] at hu2 hu3
      rw [← Option.some.inj hv1] at hv2 hv3
      have e1 : used (L[k]).2.update = if (L[k]).1.update.enabled then (L[k]).1.update.threads else 1 := by rw [ht]; rfl
      have e2 : used (L[k]).2.evaluation = if (L[k]).1.evaluation.enabled then (L[k]).1.evaluation.threads else 1 := by
        rw [ht]; rfl
      have hit : (((L[k]).1.iteration : ℤ) : ℚ) = k := by rw [i.iteration]; simp
      have htake : L.take (k + 1) = L.take k ++ [L[k]] := by rw [List.take_succ_eq_append_getElem]
      refine ⟨?_, ?_, fun _ => ⟨?_, ?_⟩⟩
      · rw [htake, hu2, ← e1, List.map_append, List.sum_append, ← b1]; simp
      · rw [htake, hv2, ← e2, List.map_append, List.sum_append, ← b2]; simp
      · rw [hu3, hu2, hit]; push_cast; rfl
      · rw [hv3, hv2, hit]; push_cast; rfl
  obtain ⟨k1, k2, k3⟩ := key k s t hk
  rw [← k1, ← k2]
  exact k3 hpos

/-! ## What the code does against the user's options -/

/-- The seed of tabu search and the number of initial modifications that the user sets have no effect: two calls that differ
only in them are told the same. -/
theorem seed_and_number_of_modifications_are_ignored (seed modifications : ℤ) :
    searches w bonus { o with seed := seed, modifications := modifications } base clock laps = searches w bonus o base clock laps := by
  have hst : ∀ (p : Opt) (ls : List Lap) (s : State),
      states w bonus { p with seed := seed, modifications := modifications } ls s = states w bonus p ls s := by
    intro p ls
    induction ls with
    | nil => exact fun s => rfl
    | cons l ls ih =>
      intro s
      have hu : update w bonus { p with seed := seed, modifications := modifications } l s = update w bonus p l s := rfl
      rw [states, states, hu]
      congr 1
      funext s1
      rw [ih]
  unfold searches
  have hs : setup w (adjusted w { o with seed := seed, modifications := modifications }) base clock =
      setup w (adjusted w o) base clock := rfl
  rw [hs]
  congr 1
  funext s0
  have := hst (adjusted w o) laps s0
  rw [show adjusted w { o with seed := seed, modifications := modifications } =
    { adjusted w o with seed := seed, modifications := modifications } from rfl, this]
  rfl

/-- A number of threads that the user sets (automatic choice switched off) holds for the first search only; all later ones use
all threads of the machine. -/
theorem thread_setting_is_lost {L : List (State × Opt)} (hw : 1 ≤ w.threads) (ho : w.openMP = true)
    (hp : o.update.automatic = false) (hu : 0 < o.update.threads) (h : searches w bonus o base clock laps = some L) {k : ℕ}
    {s : State} {t : Opt} (hk : L[k]? = some (s, t)) :
    (k = 0 → t.update.threads = o.update.threads) ∧ (0 < k → t.update.threads = w.threads) := by
  have hno : learns w (adjustThreads w o.update) = false := by
    obtain ⟨-, -, e, a⟩ := adjusted_pos hw o.update
    unfold learns
    rw [a, hp]; simp
  constructor
  · rintro rfl
    obtain ⟨-, rfl⟩ := searches_at hw h hk
    obtain ⟨s0, S, h0, hS, rfl, -⟩ := searches_parts hw h
    rw [List.getElem?_map, (states_steps hS).2.1, Option.map_some] at hk
    obtain ⟨rfl, -⟩ := Prod.mk.inj (Option.some.inj hk)
    obtain ⟨a1, a2, -⟩ := adjusted_pos hw o.update
    obtain ⟨u, hu1, -, -, hu2, -⟩ := setupPar_inv hw (adjustThreads w o.update) a1 a2
    have hset : s0.update = u := by
      unfold Tuning.setup at h0
      rw [show (adjusted w o).update = adjustThreads w o.update from rfl, hu1] at h0
      cases he : setupPar w (adjusted w o).evaluation with
      | none => rw [he] at h0; exact absurd h0 (by simp)
      | some e => rw [he] at h0; rw [← Option.some.inj h0]
    show s0.update.threads = _
    rw [hset, hu2 hno]
    unfold adjustThreads
    rw [if_pos ho, if_neg (by omega)]
  · intro hpos
    obtain ⟨k, rfl⟩ : ∃ j, k = j + 1 := ⟨k - 1, by omega⟩
    have hlen : L.length = laps.length + 1 := by
      obtain ⟨s0, S, h0, hS, rfl, -⟩ := searches_parts hw h
      simp [(states_steps hS).1]
    have hlt : k + 1 < L.length := by
      by_contra hc
      rw [List.getElem?_eq_none (by omega)] at hk
      exact absurd hk (by simp)
    have hl : laps[k]? = some laps[k] := List.getElem?_eq_getElem (by omega)
    have hk0 : L[k]? = some ((L[k]).1, (L[k]).2) := List.getElem?_eq_getElem (by omega)
    have hst := searches_step hw h hl hk0 hk
    obtain ⟨i, -⟩ := searches_at hw h hk0
    obtain ⟨-, rfl⟩ := searches_at hw h hk
    obtain ⟨-, -, -, -, f5, -⟩ := update_fields hst
    obtain ⟨u, hu1, -, -, -, hu2, -⟩ := updatePar_inv hw bonus (adjustThreads w o.update) (laps[k]).updateScore
      (L[k]).1.iteration i.update
    rw [f5] at hu1
    show s.update.threads = _
    rw [Option.some.inj hu1, (hu2 hno).1, if_pos ho]

end

namespace Sample

/-- A machine with 6 threads. -/
def machine : Machine := ⟨true, 6⟩

/-- Options as they are by default, but for a small limit for iterations and a number of threads for evaluations. -/
def user (iterationMax : ℤ) : Opt where
  screening := .automatic
  iterationMax := iterationMax
  timeOffset := 0
  tenure := 10
  fixedRate := 3 / 10
  randomRate := 1 / 2
  pruning := 1
  increaseRate := 3 / 2
  autoTenure := true
  autoIteration := true
  modification := true
  modifications := 7
  seed := 42
  special c := c == .chain || c == .aggregation
  update := ⟨true, true, 9 / 10, -1⟩
  evaluation := ⟨true, false, 9 / 10, 2⟩

/-- the kinds enabled at the beginning -/
def base (c : MoveSense) : Bool := c == .binary || c == .integer

/-- `sqrt(2 log(t) / n)`, roughly -/
def bonus (t n : ℕ) : ℚ := t / n

/-- A search that used all its iterations without an improvement. -/
def idle (iterations : ℤ) (score : ℚ) : Lap :=
  ⟨false, false, false, false, true, true, true, false, false, iterations, 2, 12, 3, score, score, 5, 40, fun c => c == .chain⟩

/-- A search that improved the incumbent. -/
def lucky (iterations : ℤ) (score : ℚ) : Lap := { idle iterations score with globalUpdated := true }

/-- Six searches. -/
def laps : List Lap := [idle 100 5, idle 100 9, lucky 100 8, idle 3 7, idle 3 2]

/-- The call. -/
def run : List (State × Opt) := (searches machine bonus (user 100) base 1 laps).getD []

end Sample

open Sample

/-- The limit for iterations that the user sets is exceeded: with a limit of 5 and the default tenure of 10 the second search is
allowed 10 iterations. -/
theorem iteration_limit_is_exceeded :
    (searches machine Sample.bonus (user 5) Sample.base 1 [idle 5 3]).map (fun L => L.map fun x => x.2.iterationMax) =
      some [5, 10] := by decide +kernel

/-- The sample has all its searches (hypotheses of the theorems above). -/
example : (searches machine Sample.bonus (user 100) Sample.base 1 Sample.laps).map List.length = some 6 ∧ 1 ≤ machine.threads ∧
    (user 100).tenure ≤ (user 100).iterationMax ∧ ∀ l ∈ Sample.laps, l.mutableVars = 40 := by decide +kernel

/-- the limits, tenures, numbers of random moves and thresholds told -/
example : run.map (fun x => (x.2.iterationMax, x.2.tenure, x.2.modifications, x.2.pruning)) =
    [(100, 10, 0, 1), (100, 11, 3, 1), (100, 12, 3, 1), (10, 10, 0, 1), (10, 11, 3, 1), (10, 12, 3, 1)] := by decide +kernel

/-- threads for updates: 1, 2, 4, 6 in turn, then the most promising one; for evaluations 2 and then 6 -/
example : tried machine = [1, 2, 4, 6] ∧ run.map (fun x => (x.2.update.threads, x.2.evaluation.threads, x.2.seed)) =
    [(1, 2, 0), (2, 6, 1), (4, 6, 2), (6, 6, 3), (2, 6, 4), (4, 6, 5)] := by decide +kernel

/-- averages kept for the report -/
example : run.map (fun x => (x.1.update.averaged, x.1.evaluation.averaged)) =
    [(0, 0), (1, 2), (3 / 2, 4), (7 / 3, 14 / 3), (13 / 4, 5), (3, 26 / 5)] := by decide +kernel

/-- chain moves are used after a search without improvement, and not after an improvement -/
example : run.map (fun x => (x.1.kinds .chain, x.1.kinds .aggregation, x.1.kinds .binary)) =
    [(false, false, true), (true, false, true), (true, false, true), (false, false, true), (false, false, true),
      (false, false, true)] := by decide +kernel

/-- screening -/
example : run.map (fun x => x.2.screening) = [.intensive, .soft, .soft, .intensive, .soft, .soft] := by decide +kernel

/-- The mean of three scores. -/
example : (([5, 9, 6] : List ℚ).foldl (fun a x => Action.learn x (9 / 10) a) { body := 4 }).mean = 273 / 50 := by decide +kernel

end Printemps.C83
