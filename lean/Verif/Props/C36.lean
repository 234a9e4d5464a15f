import Verif.Props.C33

/-! # C36 — enabled special moves respect fixings and bounds -/

namespace Printemps.C36
open Spec Moves C33
open ConType (classify)

/-- A list of alterations alters no fixed variable. -/
def NoFixed (var : ℕ → Var) (mv : List (ℕ × ℤ)) : Prop := ∀ a ∈ mv, (var a.1).fixed = false
/-- All new values are inside the bounds. -/
def Inside (var : ℕ → Var) (mv : List (ℕ × ℤ)) : Prop := ∀ a ∈ mv, (var a.1).lb ≤ a.2 ∧ a.2 ≤ (var a.1).ub
/-- Some variable gets a new value. -/
def Changes (var : ℕ → Var) (mv : List (ℕ × ℤ)) : Prop := ∃ a ∈ mv, (var a.1).value ≠ a.2

private theorem fixed_iff (var : ℕ → Var) (mv : List (ℕ × ℤ)) : (!hasFixed var mv) = true ↔ NoFixed var mv := by
  unfold hasFixed NoFixed
  rw [Bool.not_eq_true', List.any_eq_false]
  simp

private theorem inside_iff (var : ℕ → Var) (mv : List (ℕ × ℤ)) :
    (!hasBoundViolation var mv) = true ↔ Inside var mv := by
  unfold hasBoundViolation Inside
  rw [Bool.not_eq_true', List.any_eq_false]
  simp

private theorem change_iff (var : ℕ → Var) (mv : List (ℕ × ℤ)) :
    allChange var mv = true ↔ ∀ a ∈ mv, (var a.1).value ≠ a.2 := by
  unfold allChange
  rw [List.all_eq_true]
  simp

/-- For every class except soft selections: an enabled move alters no fixed variable and takes no variable
outside its bounds.  This holds for arbitrary alterations. -/
theorem enabled_moves_respect_fixings_and_bounds (t : ConType) (ht : t ≠ .softSelection) (acc : Accept)
    (var : ℕ → Var) (av : Bool) (mv : List (ℕ × ℤ)) (h : flagOf t acc var av mv = true) :
    NoFixed var mv ∧ Inside var mv := by
  have hs : ∀ t : ConType, flipFlag acc var av mv = true ∨ shiftFlag acc var av mv = true →
      NoFixed var mv ∧ Inside var mv := by
    intro _ h
    unfold flipFlag shiftFlag at h
    simp only [Bool.and_eq_true] at h
    rw [fixed_iff, inside_iff] at h
    tauto
  unfold flagOf at h
  split at h
  · exact hs .exclusiveOr (Or.inl h)
  · exact hs .exclusiveOr (Or.inl h)
  · exact hs .exclusiveOr (Or.inl h)
  · exact absurd rfl ht
  · exact hs .exclusiveOr (Or.inr h)

/-- Moves defined by the user: an enabled one alters no fixed and no selection variable and stays inside the
bounds. -/
theorem enabled_user_moves_respect_fixings_and_bounds (acc : Accept) (var : ℕ → Var) (mv : List (ℕ × ℤ))
    (h : userFlag acc var mv = true) :
    NoFixed var mv ∧ Inside var mv ∧ ∀ a ∈ mv, (var a.1).sense ≠ .selection := by
  unfold userFlag at h
  simp only [Bool.and_eq_true] at h
  rw [fixed_iff, inside_iff] at h
  refine ⟨h.1.1.1, h.1.2, ?_⟩
  have := h.1.1.2
  unfold hasSelection at this
  rw [Bool.not_eq_true', List.any_eq_false] at this
  intro a ha e
  exact this a ha (by simp [e])

/-- Soft selection, chain and two-flip moves, which are not checked against the bounds: an enabled one alters
no fixed variable and changes each of its variables; if all values it sets are 0 or 1 and its variables have
the bounds 0 and 1, it stays inside the bounds.  Missing: 0/1 variables with the bounds [0,0] or [1,1], see
below. -/
theorem enabled_unchecked_moves_partial (acc : Accept) (var : ℕ → Var) (av : Bool) (mv : List (ℕ × ℤ))
    (h : softFlag acc var av mv = true ∨ twoFlipFlag acc var av mv = true)
    (hv : ∀ a ∈ mv, (a.2 = 0 ∨ a.2 = 1) ∧ (var a.1).lb = 0 ∧ (var a.1).ub = 1) :
    NoFixed var mv ∧ Inside var mv ∧ ∀ a ∈ mv, (var a.1).value ≠ a.2 := by
  have : NoFixed var mv ∧ ∀ a ∈ mv, (var a.1).value ≠ a.2 := by
    unfold softFlag twoFlipFlag at h
    simp only [Bool.and_eq_true] at h
    rw [fixed_iff, change_iff] at h
    tauto
  refine ⟨this.1, fun a ha => ?_, this.2⟩
  obtain ⟨h1, h2, h3⟩ := hv a ha
  rw [h2, h3]; omega

/-- An enabled move made for a constraint with two variables (other than a constant ratio) or for three
variables that have to be equal changes the value of a variable. -/
theorem enabled_moves_change_something_partial (m : MState) (lt : ℕ → ℕ → Bool) (var : ℕ → Var) (t : ConType)
    (ht : (isPair t = true ∧ t ≠ .constantRatio) ∨ t = .trinomialExclusiveNor)
    (hm : NoRepeats m) (moves : List (List (ℕ × ℤ))) (h : ofModel m lt (fun v => (var v).value) t = some moves)
    (mv : List (ℕ × ℤ)) (hmv : mv ∈ moves) (acc : Accept) (av : Bool) (hf : flagOf t acc var av mv = true) :
    Changes var mv := by
  obtain ⟨i, hi, h1, h2, h3, l, h4, h5⟩ := ofModel_mem m lt _ t moves h mv hmv
  have flip : flipFlag acc var av mv = true → mv ≠ [] → Changes var mv := by
    intro hf hne
    unfold flipFlag at hf
    simp only [Bool.and_eq_true] at hf
    rw [change_iff] at hf
    obtain ⟨a, ha⟩ := List.exists_mem_of_ne_nil mv hne
    exact ⟨a, ha, hf.1.2 a ha⟩
  rcases ht with ⟨hpt, hnr⟩ | rfl
  · obtain ⟨p, hp, hne, hperm, hs, hk, hse', hfa, hsb, hh⟩ :=
      binomial_shape m.var lt (m.con i) (hm i hi) (by rw [h2]; exact hpt)
    have first : ∀ (d : ℤ) (r : List (ℕ × ℤ)), d ≠ 0 → mv = (p.first, (var p.first).value + d) :: r → Changes var mv := by
      intro d r hd e
      exact ⟨(p.first, (var p.first).value + d), by rw [e]; simp, by simpa using hd⟩
    have second : ∀ (d : ℤ) (q : ℕ × ℤ), d ≠ 0 → mv = [q, (p.second, (var p.second).value + d)] → Changes var mv := by
      intro d r hd e
      exact ⟨(p.second, (var p.second).value + d), by rw [e]; simp, by simpa using hd⟩
    unfold ofClass at h4
    cases t <;> first | exact absurd rfl hnr | exact absurd hpt Bool.false_ne_true | skip
    all_goals
      rw [hp] at h4
      simp only [Option.map_some, Option.some.injEq] at h4
      subst h4
    · apply flip hf
      simp only [exclusiveOr, List.mem_cons, List.not_mem_nil, or_false] at h5
      rcases h5 with h5 | h5 <;> rw [h5] <;> simp
    · apply flip hf
      simp only [exclusiveNor, List.mem_cons, List.not_mem_nil, or_false] at h5
      rcases h5 with h5 | h5 <;> rw [h5] <;> simp
    · simp only [invertedIntegers, List.mem_cons, List.not_mem_nil, or_false] at h5
      rcases h5 with h5 | h5
      · exact first 1 _ (by decide) h5
      · exact first (-1) _ (by decide) h5
    · simp only [balancedIntegers, List.mem_cons, List.not_mem_nil, or_false] at h5
      rcases h5 with h5 | h5
      · exact first 1 _ (by decide) h5
      · exact first (-1) _ (by decide) h5
    · simp only [constantSum, List.mem_cons, List.not_mem_nil, or_false] at h5
      rcases h5 with h5 | h5
      · exact first 1 _ (by decide) h5
      · exact first (-1) _ (by decide) h5
    · simp only [constantDifference, List.mem_cons, List.not_mem_nil, or_false] at h5
      rcases h5 with h5 | h5
      · exact first 1 _ (by decide) h5
      · exact first (-1) _ (by decide) h5
    · simp only [aggregation, List.mem_cons, List.not_mem_nil, or_false] at h5
      rcases h5 with h5 | h5 | h5 | h5
      · exact first 1 _ (by decide) h5
      · exact first (-1) _ (by decide) h5
      · exact second 1 _ (by decide) h5
      · exact second (-1) _ (by decide) h5
    · simp only [precedence, List.mem_cons, List.not_mem_nil, or_false] at h5
      rcases h5 with h5 | h5
      · exact first 1 _ (by decide) h5
      · exact first (-1) _ (by decide) h5
    · simp only [variableBound, List.mem_cons, List.not_mem_nil, or_false] at h5
      rcases h5 with h5 | h5 | h5 | h5
      · exact first 1 _ (by decide) h5
      · exact first (-1) _ (by decide) h5
      · exact second 1 _ (by decide) h5
      · exact second (-1) _ (by decide) h5
  · apply flip hf
    unfold ofClass trinomialExclusiveNor at h4
    simp only [] at h4
    split at h4
    · rw [Option.some.injEq] at h4
      subst h4
      simp only [List.mem_cons, List.not_mem_nil, or_false] at h5
      rcases h5 with h5 | h5 <;> rw [h5] <;> simp
    · exact absurd h4 (by simp)

private def mk (ts : List (ℕ × ℚ)) (k : ℚ) : MState := { Example.model with
  var := fun v => { Example.int5 with lb := -5, value := if v = 0 then -2 else -1 }, varIds := [0, 1]
  con := fun _ => Con.setup { terms := ts, const := k } .equal (fun _ => .integer), conIds := [0] }
private def lt' (a b : ℕ) : Bool := decide (a < b)

example : ofModel (mk [(0, 1), (1, -1)] 0) lt' (fun v => ((mk [] 0).var v).value) .balancedIntegers =
    some [[(0, -1), (1, -1)], [(0, -3), (1, -3)]] ∧
    flagOf .balancedIntegers ⟨true, false, false⟩ (mk [] 0).var true [(0, -3), (1, -3)] = true := by decide +kernel
example : flagOf .exclusiveOr ⟨true, false, false⟩ (fun v => { Example.bin0 with value := v }) true [(0, 1), (1, 0)] =
    true := by decide +kernel
example : userFlag ⟨false, true, false⟩ (fun _ => { Example.int5 with objImprovable := true }) [(3, 5), (1, 0)] =
    true := by decide +kernel

/-- A constant-ratio move can leave everything as it is: its first new value is computed from the wrong
variable.  For `x = 2 y` with `x = -2`, `y = -1` the move "y := x + 1, x := 2 (x + 1)" is enabled. -/
theorem ratio_move_can_change_nothing : ∃ (m : MState) (moves : List (List (ℕ × ℤ))) (mv : List (ℕ × ℤ)),
    NoRepeats m ∧ ofModel m lt' (fun v => (m.var v).value) .constantRatio = some moves ∧ mv ∈ moves ∧
    flagOf .constantRatio ⟨true, false, false⟩ m.var true mv = true ∧ ¬ Changes m.var mv := by
  refine ⟨mk [(0, 1), (1, -2)] 0, [[(1, -1), (0, -2)], [(1, -3), (0, -6)]], [(1, -1), (0, -2)], ?_, ?_, by simp, ?_, ?_⟩
  · unfold NoRepeats; decide +kernel
  · decide +kernel
  · decide +kernel
  · unfold Changes; decide +kernel

private def soft : MState := { Example.model with
  var := fun v => if v = 0 then { Example.bin0 with ub := 0 } else Example.bin0, varIds := [0, 1, 2]
  con := fun _ => Con.setup { terms := [(0, 1), (1, 1), (2, -1)], const := 0 } .equal (fun _ => .binary), conIds := [0] }

/-- A soft selection move can take a 0/1 variable with the bounds [0,0] (not fixed, presolve switched off)
outside its bounds. -/
theorem soft_selection_move_can_leave_bounds : ∃ (m : MState) (moves : List (List (ℕ × ℤ))) (mv : List (ℕ × ℤ)),
    NoRepeats m ∧ (m.var 0).sense = .binary ∧ (m.var 0).value = 0 ∧
    ofModel m lt' (fun v => (m.var v).value) .softSelection = some moves ∧ mv ∈ moves ∧
    flagOf .softSelection ⟨true, false, false⟩ m.var true mv = true ∧ ¬ Inside m.var mv := by
  refine ⟨soft, [[(0, 0), (2, 0)], [(0, 1), (2, 1)], [(1, 0), (2, 0)], [(1, 1), (2, 1)]], [(0, 1), (2, 1)],
    ?_, rfl, rfl, ?_, by simp, ?_, ?_⟩
  · unfold NoRepeats; decide +kernel
  · decide +kernel
  · decide +kernel
  · unfold Inside; decide +kernel

end Printemps.C36
