import Verif.Model.Variable

/-! # C49 — variable values respect bounds through the API -/

namespace Printemps.C49
open Var

/-- The calls a user can make on a variable. -/
inductive Op where
  | assign (x : ℤ)          -- `v = x`, `set_value`
  | assignIfMutable (x : ℤ) -- `set_value_if_mutable`
  | force (x : ℤ)           -- `set_value_force`
  | bound (l u : ℤ)         -- `set_bound`
  | unbound                 -- `reset_bound`
  | toBound (lower : Bool)  -- `set_lower_or_upper_bound`
  | fix
  | unfix
  | fixBy (x : ℤ)           -- `fix_by`

/-- Effect of a call; `none` is an exception. -/
def call (v : Var) : Op → Option Var
  | .assign x => v.setValue x
  | .assignIfMutable x => some (v.setValueIfMutable x)
  | .force x => some (v.setValueForce x)
  | .bound l u => v.setBound l u
  | .unbound => some v.resetBound
  | .toBound b => some (v.setLowerOrUpper b)
  | .fix => some v.fix
  | .unfix => some v.unfix
  | .fixBy x => some (v.fixBy x)

/-- A sequence of calls; a call that throws leaves the variable as it was and the user goes on. -/
def run : Var → List Op → Var
  | v, [] => v
  | v, o :: os => run ((call v o).getD v) os

/-- The values a call may set lie within the current bounds; removing the bounds is only considered for values in
the default range. -/
def Inside (v : Var) : Op → Prop
  | .assign x | .assignIfMutable x | .force x | .fixBy x => v.lb ≤ x ∧ x ≤ v.ub
  | .unbound => -1073741823 ≤ v.value ∧ v.value ≤ 1073741823
  | _ => True

/-- All calls of a sequence stay inside the bounds they meet. -/
def AllInside : Var → List Op → Prop
  | _, [] => True
  | v, o :: os => Inside v o ∧ AllInside ((call v o).getD v) os

/-- The margin flags tell whether the value can be decreased or increased within the bounds. -/
def FlagsAgree (v : Var) : Prop :=
  (v.hasLowerMargin = true ↔ v.lb < v.value) ∧ (v.hasUpperMargin = true ↔ v.value < v.ub)

theorem updateMargin_flags (v : Var) : FlagsAgree v.updateMargin := by
  simp [FlagsAgree, updateMargin]

theorem call_flags (v w : Var) (o : Op) (h : FlagsAgree v) (hc : call v o = some w) : FlagsAgree w := by
  cases o with
  | assign x =>
    simp only [call, setValue] at hc
    split at hc
    · cases hc
    · cases hc; exact updateMargin_flags _
  | assignIfMutable x =>
    simp only [call, setValueIfMutable] at hc
    cases hc
    split
    · exact h
    · exact updateMargin_flags _
  | force x => cases hc; exact updateMargin_flags _
  | bound l u =>
    simp only [call, setBound] at hc
    split at hc
    · cases hc
    · cases hc; exact updateMargin_flags _
  | unbound => cases hc; exact updateMargin_flags _
  | toBound b =>
    simp only [call, setLowerOrUpper, setValueIfMutable] at hc
    cases hc
    split
    · exact h
    · exact updateMargin_flags _
  | fix => cases hc; exact h
  | unfix => cases hc; exact h
  | fixBy x => cases hc; exact updateMargin_flags _

/-- After every sequence of calls on a new variable the margin flags agree with value and bounds. -/
theorem flags_agree (ops : List Op) : FlagsAgree (run Var.init ops) := by
  have key : ∀ (ops : List Op) (v : Var), FlagsAgree v → FlagsAgree (run v ops) := by
    intro ops
    induction ops with
    | nil => intro v h; exact h
    | cons o os ih =>
      intro v h
      refine ih _ ?_
      cases hc : call v o with
      | none => exact h
      | some w => exact call_flags v w o h hc
  exact key ops _ (by simp [FlagsAgree, Var.init, INT_HALF_MIN, INT_HALF_MAX])

/-- The value lies within the bounds. -/
def Within (v : Var) : Prop := v.lb ≤ v.value ∧ v.value ≤ v.ub

theorem updateMargin_within {v : Var} (h : v.lb ≤ v.value ∧ v.value ≤ v.ub) : Within v.updateMargin := h

theorem call_within (v w : Var) (o : Op) (h : Within v) (hi : Inside v o) (hc : call v o = some w) :
    Within w := by
  cases o with
  | assign x =>
    simp only [call, setValue] at hc
    split at hc
    · cases hc
    · cases hc; exact hi
  | assignIfMutable x =>
    simp only [call, setValueIfMutable] at hc
    cases hc
    split
    · exact h
    · exact hi
  | force x => cases hc; exact hi
  | bound l u =>
    simp only [call, setBound] at hc
    split at hc
    · cases hc
    · cases hc
      unfold setupSense
      simp only
      split <;> exact ⟨by simp [updateMargin], by simp [updateMargin]; omega⟩
  | unbound => cases hc; exact hi
  | toBound b =>
    have hlu : v.lb ≤ v.ub := h.1.trans h.2
    simp only [call, setLowerOrUpper, setValueIfMutable] at hc
    cases hc
    split
    · exact h
    · unfold Within updateMargin; cases b <;> simp [hlu]
  | fix => cases hc; exact h
  | unfix => cases hc; exact h
  | fixBy x => cases hc; exact hi

/-- After every sequence of bound changes, fixings and assignments within bounds on a new variable, its value
lies within its bounds. -/
theorem value_within_bounds (ops : List Op) (h : AllInside Var.init ops) :
    (run Var.init ops).lb ≤ (run Var.init ops).value ∧ (run Var.init ops).value ≤ (run Var.init ops).ub := by
  have key : ∀ (ops : List Op) (v : Var), Within v → AllInside v ops → Within (run v ops) := by
    intro ops
    induction ops with
    | nil => intro v h _; exact h
    | cons o os ih =>
      intro v h hi
      refine ih _ ?_ hi.2
      cases hc : call v o with
      | none => exact h
      | some w => exact call_within v w o h hi.1 hc
  exact key ops _ (by simp [Within, Var.init, INT_HALF_MIN, INT_HALF_MAX]) h

/-- Bounds change only by `set_bound` and `reset_bound`, to exactly the values given. -/
theorem bounds_are_the_ones_set (v w : Var) (o : Op) (hc : call v o = some w) :
    match o with
    | .bound l u => w.lb = l ∧ w.ub = u ∧ l ≤ u
    | .unbound => w.lb = -1073741823 ∧ w.ub = 1073741823
    | _ => w.lb = v.lb ∧ w.ub = v.ub := by
  cases o with
  | assign x =>
    simp only [call, setValue] at hc
    split at hc
    · cases hc
    · cases hc; exact ⟨rfl, rfl⟩
  | assignIfMutable x =>
    simp only [call, setValueIfMutable] at hc
    cases hc
    simp only
    split <;> exact ⟨rfl, rfl⟩
  | force x => cases hc; exact ⟨rfl, rfl⟩
  | bound l u =>
    simp only [call, setBound] at hc
    split at hc
    · cases hc
    · cases hc
      unfold setupSense
      simp only
      split <;> exact ⟨rfl, rfl, by omega⟩
  | unbound => cases hc; exact ⟨rfl, rfl⟩
  | toBound b =>
    simp only [call, setLowerOrUpper, setValueIfMutable] at hc
    cases hc
    simp only
    split <;> exact ⟨rfl, rfl⟩
  | fix => cases hc; exact ⟨rfl, rfl⟩
  | unfix => cases hc; exact ⟨rfl, rfl⟩
  | fixBy x => cases hc; exact ⟨rfl, rfl⟩

/-- `set_bound` throws exactly for crossing bounds. -/
theorem bound_throws (v : Var) (l u : ℤ) : call v (.bound l u) = none ↔ u < l := by
  simp only [call, setBound]
  split
  · simpa using by omega
  · simpa using by omega

/-- An in-range value is not changed by `set_bound`; an out-of-range value becomes the nearest bound. -/
theorem bound_clamps (v w : Var) (l u : ℤ) (hc : call v (.bound l u) = some w) :
    (l ≤ v.value ∧ v.value ≤ u → w.value = v.value) ∧ (v.value < l → w.value = l) ∧ (u < v.value → w.value = u) := by
  simp only [call, setBound] at hc
  split at hc
  · cases hc
  · cases hc
    unfold setupSense
    simp only
    split <;> simp only [updateMargin] <;> omega

/-- An assignment to an unfixed variable takes effect. -/
theorem assignment_takes_effect (v : Var) (x : ℤ) (h : v.fixed = false) :
    (∃ w, call v (.assign x) = some w ∧ w.value = x) ∧ (∃ w, call v (.assignIfMutable x) = some w ∧ w.value = x) := by
  refine ⟨⟨{ v with value := x }.updateMargin, by simp [call, setValue, h], rfl⟩,
    ⟨{ v with value := x }.updateMargin, by simp [call, setValueIfMutable, h], rfl⟩⟩

/-- Assigning another value to a fixed variable throws. -/
theorem fixed_assignment_throws (v : Var) (x : ℤ) (h : v.fixed = true) :
    call v (.assign x) = none ↔ x ≠ v.value := by
  simp only [call, setValue, h, and_true]
  by_cases hx : v.value = x
  · rw [if_neg (by simp [hx])]; simp [hx]
  · rw [if_pos hx]; simp [Ne.symm hx]

/-- The plain assignments. -/
def Plain : Op → Prop
  | .assign _ | .assignIfMutable _ | .toBound _ | .fix => True
  | _ => False

/-- No sequence of plain assignments changes a fixed variable. -/
theorem fixed_unchanged (v : Var) (ops : List Op) (h : v.fixed = true) (hp : ∀ o ∈ ops, Plain o) :
    (run v ops).value = v.value ∧ (run v ops).fixed = true := by
  induction ops generalizing v with
  | nil => exact ⟨rfl, h⟩
  | cons o os ih =>
    have h1 : ((call v o).getD v).value = v.value ∧ ((call v o).getD v).fixed = true := by
      cases o with
      | assign x =>
        simp only [call, setValue]
        split
        · exact ⟨rfl, h⟩
        · rename_i hn
          have : v.value = x := by by_contra hne; exact hn ⟨hne, h⟩
          exact ⟨this.symm, h⟩
      | assignIfMutable x => simp [call, setValueIfMutable, h]
      | toBound b => simp [call, setLowerOrUpper, setValueIfMutable, h]
      | fix => exact ⟨rfl, rfl⟩
      | force x => exact absurd (hp _ List.mem_cons_self) (by simp [Plain])
      | bound l u => exact absurd (hp _ List.mem_cons_self) (by simp [Plain])
      | unbound => exact absurd (hp _ List.mem_cons_self) (by simp [Plain])
      | unfix => exact absurd (hp _ List.mem_cons_self) (by simp [Plain])
      | fixBy x => exact absurd (hp _ List.mem_cons_self) (by simp [Plain])
    have := ih _ h1.2 (fun o ho => hp o (List.mem_cons_of_mem _ ho))
    exact ⟨this.1.trans h1.1, this.2⟩

/-- Finding: a bound change does change the value of a fixed variable. -/
theorem set_bound_changes_fixed_variable :
    ∃ v w : Var, v.fixed = true ∧ call v (.bound 3 9) = some w ∧ w.fixed = true ∧ w.value ≠ v.value :=
  ⟨Var.init.fixBy 0, _, rfl, rfl, rfl, by decide⟩

/-- Finding: refreshing a dependent variable leaves its margin flags stale. -/
theorem dependent_update_stale_flags :
    ∃ (v : Var) (x : ℚ), FlagsAgree v ∧ ¬ FlagsAgree (v.updateDependent x) := by
  refine ⟨{ Var.init with lb := 0, ub := 1, value := 0 }.updateMargin, 1, updateMargin_flags _, ?_⟩
  intro h
  have := h.2.1 rfl
  revert this
  decide +kernel

/-- Non-vacuity: a sequence with a clamping bound change, a fixing and an exception. -/
example : AllInside Var.init [.assign 7, .bound 0 5, .assign 3, .fix, .assign 4, .unfix, .toBound true] ∧
    (run Var.init [.assign 7, .bound 0 5, .assign 3, .fix, .assign 4, .unfix]).value = 3 := by
  refine ⟨?_, by decide⟩
  simp only [AllInside, Inside]; decide

/-! ## The bounds a variable has -/

/-- The bounds in force after a sequence of calls, latest call first: those of the last accepted `set_bound`, unless
`reset_bound` was called since. -/
def boundsIn : List Op → Option (ℤ × ℤ)
  | [] => none
  | .bound l u :: os => if l ≤ u then some (l, u) else boundsIn os
  | .unbound :: _ => none
  | _ :: os => boundsIn os

/-- What a variable tells about its bounds: whether it has any, which, and whether they make it binary. -/
def TellsBounds (v : Var) : Option (ℤ × ℤ) → Prop
  | none => v.hasBounds = false ∧ v.lb = -1073741823 ∧ v.ub = 1073741823 ∧ v.sense = .integer
  | some (l, u) => v.hasBounds = true ∧ v.lb = l ∧ v.ub = u ∧ v.sense = if 0 ≤ l ∧ u ≤ 1 then .binary else .integer

theorem tellsBounds_keep {v w : Var} (b : Option (ℤ × ℤ)) (h1 : w.hasBounds = v.hasBounds) (h2 : w.lb = v.lb) (h3 : w.ub = v.ub)
    (h4 : w.sense = v.sense) (h : TellsBounds v b) : TellsBounds w b := by
  rcases b with _ | ⟨l, u⟩ <;> simpa only [TellsBounds, h1, h2, h3, h4] using h

theorem call_bounds (v : Var) (o : Op) (os : List Op) (h : TellsBounds v (boundsIn os)) :
    TellsBounds ((call v o).getD v) (boundsIn (o :: os)) := by
  cases o with
  | assign x =>
    refine tellsBounds_keep _ ?_ ?_ ?_ ?_ h <;>
    · simp only [call, setValue]
      split <;> rfl
  | assignIfMutable x =>
    refine tellsBounds_keep _ ?_ ?_ ?_ ?_ h <;>
    · simp only [call, setValueIfMutable, Option.getD_some]
      split <;> rfl
  | force x => exact tellsBounds_keep _ rfl rfl rfl rfl h
  | bound l u =>
    by_cases hl : l ≤ u
    · have hn : ¬ l > u := by omega
      simp only [call, setBound, boundsIn, if_pos hl, if_neg hn, Option.getD_some]
      unfold TellsBounds setupSense
      dsimp only
      split
      · refine ⟨rfl, rfl, rfl, ?_⟩
        rw [if_pos (by omega)]
        rfl
      · refine ⟨rfl, rfl, rfl, ?_⟩
        rw [if_neg (by omega)]
        rfl
    · have hn : l > u := by omega
      simp only [call, setBound, boundsIn, if_neg hl, if_pos hn, Option.getD_none]
      exact h
  | unbound => exact ⟨rfl, rfl, rfl, rfl⟩
  | toBound b =>
    refine tellsBounds_keep _ ?_ ?_ ?_ ?_ h <;>
    · simp only [call, setLowerOrUpper, setValueIfMutable, Option.getD_some]
      split <;> rfl
  | fix => exact tellsBounds_keep _ rfl rfl rfl rfl h
  | unfix => exact tellsBounds_keep _ rfl rfl rfl rfl h
  | fixBy x => exact tellsBounds_keep _ rfl rfl rfl rfl h

/-- After every sequence of calls on a new variable it has **the bounds of the last accepted `set_bound`**, and none after a
`reset_bound`; it is binary exactly if these bounds lie within 0 and 1. -/
theorem bounds_are_the_last_given (ops : List Op) : TellsBounds (run Var.init ops) (boundsIn ops.reverse) := by
  have key : ∀ (ops past : List Op) (v : Var), TellsBounds v (boundsIn past) →
      TellsBounds (run v ops) (boundsIn (ops.reverse ++ past)) := by
    intro ops
    induction ops with
    | nil => intro past v h; exact h
    | cons o os ih =>
      intro past v h
      have := ih (o :: past) _ (call_bounds v o past h)
      simpa [run] using this
  simpa using key ops [] Var.init ⟨rfl, rfl, rfl, rfl⟩

/-- a rejected `set_bound` changes nothing, a `reset_bound` drops the bounds -/
example : TellsBounds (run Var.init [.bound 0 1, .force 7, .bound 3 2]) (some (0, 1)) ∧
    TellsBounds (run Var.init [.bound 0 1, .unbound, .fix]) none ∧
    TellsBounds (run Var.init [.bound 0 1, .unbound, .bound (-2) 9]) (some (-2, 9)) :=
  ⟨bounds_are_the_last_given [.bound 0 1, .force 7, .bound 3 2], bounds_are_the_last_given [.bound 0 1, .unbound, .fix],
    bounds_are_the_last_given [.bound 0 1, .unbound, .bound (-2) 9]⟩

end Printemps.C49
