import Verif.Model.Incumbent

/-! # C11 — the incumbent is the best of the whole history -/

namespace Printemps.C11

/-- The state after a history of calls. -/
def after {α} (calls : List (HolderCall α)) : Holder α := calls.foldl Holder.step Holder.init

/-- The solutions offered in a history, with their scores. -/
def offers {α} : List (HolderCall α) → List (α × Score)
  | [] => []
  | .offer s sc :: l => (s, sc) :: offers l
  | .resetLocal :: l => offers l

/-- The part of a history after the last reset of the local incumbent. -/
def sinceReset {α} : List (HolderCall α) → List (HolderCall α)
  | [] => []
  | c :: l => if l.any (fun c => match c with | .resetLocal => true | _ => false) then sinceReset l
    else match c with
      | .resetLocal => l
      | .offer s sc => .offer s sc :: l

/-- Specification: slot contents `(obj, sol, score)` are right for the offers `l` under criterion `key`.
An empty slot means nothing was offered; otherwise the slot holds an offered solution with its own
score, and no offer is better by more than 1e-5. -/
def BestOf {α} (l : List (α × Score)) (key : Score → ℚ) (obj : Option ℚ) (sol : Option α)
    (score : Option Score) : Prop :=
  (obj = none ∧ l = []) ∨
  ∃ s sc, (s, sc) ∈ l ∧ obj = some (key sc) ∧ sol = some s ∧ score = some sc ∧
    ∀ p ∈ l, key sc ≤ key p.2 + 1e-5

theorem eps_eq : (1e-5 : ℚ) = EPSILON := by norm_num [EPSILON]

theorem bestOf_step {α} (l : List (α × Score)) (key : Score → ℚ) (obj : Option ℚ) (sol : Option α)
    (score : Option Score) (h : BestOf l key obj sol score) (s : α) (sc : Score) :
    BestOf (l ++ [(s, sc)]) key (if beats (key sc) obj then some (key sc) else obj)
      (if beats (key sc) obj then some s else sol) (if beats (key sc) obj then some sc else score) := by
  have h5 : (0 : ℚ) ≤ 1e-5 := by norm_num
  rcases h with ⟨rfl, rfl⟩ | ⟨s', sc', hm, rfl, rfl, rfl, hb⟩
  · right
    refine ⟨s, sc, by simp, ?_, ?_, ?_, ?_⟩
    · simp [beats]
    · simp [beats]
    · simp [beats]
    · intro p hp
      simp at hp; subst hp; simp; norm_num
  · right
    by_cases hbt : beats (key sc) (some (key sc')) = true
    · refine ⟨s, sc, by simp, by simp [hbt], by simp [hbt], by simp [hbt], ?_⟩
      simp only [beats, decide_eq_true_eq] at hbt
      rw [← eps_eq] at hbt
      intro p hp
      rcases List.mem_append.1 hp with hp | hp
      · have := hb p hp; linarith
      · simp at hp; subst hp; simp; norm_num
    · refine ⟨s', sc', by simp [hm], by simp [hbt], by simp [hbt], by simp [hbt], ?_⟩
      simp only [beats, decide_eq_true_eq, not_lt] at hbt
      rw [← eps_eq] at hbt
      intro p hp
      rcases List.mem_append.1 hp with hp | hp
      · exact hb p hp
      · simp at hp; subst hp; exact hbt

theorem offers_append {α} (a b : List (HolderCall α)) : offers (a ++ b) = offers a ++ offers b := by
  induction a with
  | nil => rfl
  | cons c l ih => cases c <;> simp [offers, ih]

theorem sinceReset_offer {α} (a : List (HolderCall α)) (s sc) :
    sinceReset (a ++ [.offer s sc]) = sinceReset a ++ [.offer s sc] := by
  induction a with
  | nil => simp [sinceReset]
  | cons c l ih =>
    simp only [List.cons_append, sinceReset, List.any_append, List.any_cons, List.any_nil, Bool.or_false]
    split
    · exact ih
    · cases c <;> simp

theorem sinceReset_reset {α} (a : List (HolderCall α)) :
    sinceReset (a ++ [.resetLocal]) = [] := by
  induction a with
  | nil => simp [sinceReset]
  | cons c l ih =>
    simp only [List.cons_append, sinceReset, List.any_append, List.any_cons, List.any_nil, Bool.or_false,
      Bool.or_true, if_true]
    exact ih

theorem after_append {α} (l : List (HolderCall α)) (c) : after (l ++ [c]) = (after l).step c := by
  simp [after, List.foldl_append]

/-- Feasible incumbent: found flag, and best feasible offer of the whole history. -/
theorem feasible_incumbent_is_best {α} (calls : List (HolderCall α)) :
    let h := after calls
    let feas := (offers calls).filter (fun p => p.2.isFeasible)
    (h.found = true ↔ feas ≠ []) ∧
    BestOf feas (fun sc => sc.objective) h.feasObj h.feasSol h.feasScore := by
  induction calls using List.reverseRecOn with
  | nil => exact ⟨by simp [after, Holder.init, offers], Or.inl ⟨rfl, rfl⟩⟩
  | append_singleton l c ih =>
    cases c with
    | resetLocal =>
      simp only [after_append, offers_append, Holder.step, Holder.resetLocal, offers, List.append_nil]
      exact ih
    | offer s sc =>
      simp only [after_append, offers_append, Holder.step, offers, List.filter_append]
      obtain ⟨i1, i2⟩ := ih
      by_cases hf : sc.isFeasible = true
      · refine ⟨by simp [Holder.tryUpdate, hf], ?_⟩
        have := bestOf_step _ _ _ _ _ i2 s sc
        simpa [Holder.tryUpdate, hf] using this
      · refine ⟨?_, ?_⟩
        · simp only [Holder.tryUpdate, hf, Bool.or_false, List.filter_cons, List.filter_nil,
            Bool.false_eq_true, if_false, List.append_nil]
          exact i1
        · simpa [Holder.tryUpdate, hf] using i2

/-- Global augmented incumbent: best offer of the whole history. -/
theorem global_incumbent_is_best {α} (calls : List (HolderCall α)) :
    let h := after calls
    BestOf (offers calls) (fun sc => sc.globalAug) h.globalObj h.globalSol h.globalScore := by
  induction calls using List.reverseRecOn with
  | nil => exact Or.inl ⟨rfl, rfl⟩
  | append_singleton l c ih =>
    cases c with
    | resetLocal =>
      simp only [after_append, offers_append, Holder.step, Holder.resetLocal, offers, List.append_nil]
      exact ih
    | offer s sc =>
      simp only [after_append, offers_append, Holder.step, offers]
      exact bestOf_step _ _ _ _ _ ih s sc

/-- Local augmented incumbent: best offer since the last reset. -/
theorem local_incumbent_is_best {α} (calls : List (HolderCall α)) :
    let h := after calls
    BestOf (offers (sinceReset calls)) (fun sc => sc.localAug) h.localObj h.localSol h.localScore := by
  induction calls using List.reverseRecOn with
  | nil => exact Or.inl ⟨rfl, rfl⟩
  | append_singleton l c ih =>
    cases c with
    | resetLocal =>
      simp only [after_append, Holder.step, Holder.resetLocal, sinceReset_reset, offers]
      exact Or.inl ⟨rfl, rfl⟩
    | offer s sc =>
      simp only [after_append, Holder.step, sinceReset_offer, offers_append, offers]
      exact bestOf_step _ _ _ _ _ ih s sc

/-- Order on slot contents: an empty slot is worst, a lower objective better. -/
def NoWorse : Option ℚ → Option ℚ → Prop
  | _, none => True
  | none, some _ => False
  | some a, some b => a ≤ b

theorem noWorse_step (x : ℚ) (o : Option ℚ) : NoWorse (if beats x o then some x else o) o := by
  have h5 : (0 : ℚ) < EPSILON := by norm_num [EPSILON]
  cases o with
  | none => simp [NoWorse]
  | some a =>
    by_cases h : beats x (some a) = true
    · simp only [h, if_true, NoWorse]
      simp only [beats, decide_eq_true_eq] at h; linarith
    · simp [h, NoWorse]

/-- The feasible and global incumbents never get worse, whatever call is made; the local one never gets
worse by an offer. -/
theorem incumbents_never_worsen {α} (h : Holder α) (c : HolderCall α) :
    NoWorse (h.step c).feasObj h.feasObj ∧ NoWorse (h.step c).globalObj h.globalObj ∧
    ((∃ s sc, c = .offer s sc) → NoWorse (h.step c).localObj h.localObj) := by
  have refl : ∀ o : Option ℚ, NoWorse o o := fun o => by cases o <;> simp [NoWorse]
  cases c with
  | resetLocal => exact ⟨refl _, refl _, by simp⟩
  | offer s sc =>
    refine ⟨?_, noWorse_step _ _, fun _ => noWorse_step _ _⟩
    by_cases hf : sc.isFeasible = true
    · simpa [Holder.step, Holder.tryUpdate, hf] using noWorse_step sc.objective h.feasObj
    · simpa [Holder.step, Holder.tryUpdate, hf] using refl h.feasObj

/-- The status is the sum of 1, 2, 4 for exactly the incumbents whose objective changed. -/
theorem status_says_what_changed {α} (h : Holder α) (s : α) (sc : Score) :
    (h.tryUpdate s sc).2
      = (if (h.tryUpdate s sc).1.localObj ≠ h.localObj then 1 else 0)
      + (if (h.tryUpdate s sc).1.globalObj ≠ h.globalObj then 2 else 0)
      + (if (h.tryUpdate s sc).1.feasObj ≠ h.feasObj then 4 else 0) := by
  have h5 : (0 : ℚ) < EPSILON := by norm_num [EPSILON]
  have key : ∀ (x : ℚ) (o : Option ℚ), ((if beats x o then some x else o) ≠ o) ↔ beats x o = true := by
    intro x o
    by_cases hb : beats x o = true
    · simp only [hb, if_true, iff_true]
      rintro rfl
      simp only [beats, decide_eq_true_eq] at hb; linarith
    · simp [hb]
  have keyf : ((h.tryUpdate s sc).1.feasObj ≠ h.feasObj) ↔
      (sc.isFeasible && beats sc.objective h.feasObj) = true := by
    by_cases hf : sc.isFeasible = true
    · simpa [Holder.tryUpdate, hf] using key sc.objective h.feasObj
    · simp [Holder.tryUpdate, hf]
  have k1 : ((h.tryUpdate s sc).1.localObj ≠ h.localObj) ↔ beats sc.localAug h.localObj = true := key _ _
  have k2 : ((h.tryUpdate s sc).1.globalObj ≠ h.globalObj) ↔ beats sc.globalAug h.globalObj = true := key _ _
  simp only [k1, k2, keyf]
  rfl

/-- The overload taking the model stores what the other overload stores for the exported (refreshed) solution,
returns the same status, and refreshes the model exactly when some incumbent changed. -/
theorem model_overload_agrees {α S} (refresh : S → S) (exp : S → α) (h : Holder α) (m : S) (sc : Score) :
    let r := h.tryUpdateModel refresh exp m sc
    let r' := h.tryUpdate (exp (refresh m)) sc
    r.1 = r'.1 ∧ r.2.2 = r'.2 ∧ r.2.1 = if r.2.2 = 0 then m else refresh m := by
  obtain ⟨f, lo, ls, lc, go, gs, gc, fo, fs, fc⟩ := h
  unfold Holder.tryUpdateModel Holder.tryUpdate
  dsimp only
  by_cases h1 : beats sc.localAug lo = true <;> by_cases h2 : beats sc.globalAug go = true <;>
    by_cases hf : sc.isFeasible = true <;> by_cases h3 : beats sc.objective fo = true <;>
    simp [h1, h2, h3, hf]

/-- Non-vacuity: two feasible offers around a reset; the better one is kept. -/
example : (after [.offer 7 { objective := 3, isFeasible := true }, .resetLocal,
    .offer 8 { objective := 2, isFeasible := true }]).feasSol = some (8 : ℕ) := by
  norm_num [after, Holder.step, Holder.tryUpdate, Holder.init, Holder.resetLocal, beats, EPSILON]

end Printemps.C11
