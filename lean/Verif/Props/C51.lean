import Verif.Lemmas.Verifier
import Verif.Lemmas.Example

/-! # C51 — initial values are corrected or rejected

`verifyAll` runs the three checks; `none` is a thrown error.  `sels` are the constraints of the selections. -/

namespace Printemps.C51
open Spec Verifier

/-- What is assumed about the model: the selections have pairwise different variables, all with the sense
"selection"; 0/1 variables have bounds within 0 and 1, integer variables a nonempty range. -/
structure Ready (sels : List ℕ) (m : MState) : Prop where
  nodup : sels.Nodup
  varNodup : m.varIds.Nodup
  once : ∀ s ∈ sels, (m.con s).expr.vars.Nodup
  apart : ∀ s ∈ sels, ∀ t ∈ sels, s ≠ t → ∀ v ∈ (m.con s).expr.vars, v ∉ (m.con t).expr.vars
  sense : ∀ s ∈ sels, ∀ v ∈ (m.con s).expr.vars, (m.var v).sense = .selection
  binary : ∀ v ∈ m.varIds, (m.var v).sense = .binary → 0 ≤ (m.var v).lb ∧ (m.var v).lb ≤ (m.var v).ub ∧ (m.var v).ub ≤ 1
  integer : ∀ v ∈ m.varIds, (m.var v).sense = .integer → (m.var v).lb ≤ (m.var v).ub

private theorem pairwise (sels : List ℕ) (m : MState) (h : Ready sels m) :
    sels.Pairwise (SelectionExtract.Apart m) :=
  List.Pairwise.imp_of_mem (fun {a b} ha hb hab => h.apart a ha b hb hab) h.nodup

private theorem split (correct : Bool) (sels : List ℕ) (m m' : MState) (hr : Ready sels m)
    (h : verifyAll correct sels m = some m') :
    SameRest m m' ∧ (∀ s ∈ sels, OneHot m' (m.con s).expr.vars) ∧
    (∀ v ∈ m.varIds, (m.var v).sense = .binary → (m'.var v).value = 0 ∨ (m'.var v).value = 1) ∧
    (∀ v ∈ m.varIds, (m.var v).sense = .integer →
      (m.var v).lb ≤ (m'.var v).value ∧ (m'.var v).value ≤ (m.var v).ub) ∧
    (correct = false → m'.var = m.var) ∧
    (correct = false → ∀ s ∈ sels, ∀ x ∈ (m.con s).expr.vars, (m.var x).value = 1 →
      m'.selected s = if (m.var x).fixed then m.selected s else some x) := by
  unfold verifyAll at h
  cases h1 : selections correct sels (fun _ => 0) m with
  | none => rw [h1] at h; exact absurd h (by simp)
  | some m1 =>
    rw [h1] at h
    simp only [Option.bind_eq_bind, Option.bind_some] at h
    cases h2 : overVars (fun x => x.sense == .binary) (binaryStep correct) m1.varIds m1 with
    | none => rw [h2] at h; exact absurd h (by simp)
    | some m2 =>
      rw [h2] at h
      simp only [Option.bind_some] at h
      obtain ⟨a1, a2, a3, a4, a5, a6⟩ := selections_spec correct sels _ m m1 hr.nodup (pairwise sels m hr) h1
      obtain ⟨b1, b2, b3, b4, b5⟩ := overVars_spec _ _ correct (fun x y hxy => step_keeps correct x y (Or.inl hxy))
        m1.varIds m1 m2 (by rw [a1.varIds]; exact hr.varNodup) h2
      obtain ⟨c1, c2, c3, c4, c5⟩ := overVars_spec _ _ correct (fun x y hxy => step_keeps correct x y (Or.inr hxy))
        m2.varIds m2 m' (by rw [b1.varIds, a1.varIds]; exact hr.varNodup) h
      have nosel : ∀ v, (m.var v).sense ≠ .selection → m1.var v = m.var v := fun v hv =>
        a3 v (fun s hs hm => hv (hr.sense s hs v hm))
      have noloop : ∀ v, (m.var v).sense = .selection → m'.var v = m1.var v := by
        intro v hv
        have e1 : (m1.var v).sense = .selection := by rw [(a1.keeps v).sense]; exact hv
        have e2 : m2.var v = m1.var v := b4 v (fun hh => by
          have := hh.2; simp [e1] at this)
        rw [c4 v (fun hh => by have := hh.2; simp [e2, e1] at this), e2]
      refine ⟨(a1.trans b1).trans c1, fun s hs => ?_, fun v hv hb => ?_, fun v hv hi => ?_, fun hc => ?_,
        fun hc s hs x hx hx1 => ?_⟩
      · obtain ⟨x, hx, g1, g2⟩ := a2 s hs
        refine ⟨x, hx, ?_, fun v hv hne => ?_⟩
        · rw [noloop x (hr.sense s hs x hx)]; exact g1
        · rw [noloop v (hr.sense s hs v hv)]; exact g2 v hv hne
      · have e1 : m1.var v = m.var v := nosel v (by rw [hb]; simp)
        have g := b5 v (by rw [a1.varIds]; exact hv) (by rw [e1, hb]; rfl)
        have e2 : m'.var v = m2.var v := c4 v (fun hh => by
          have := hh.2; rw [(b1.keeps v).sense, e1, hb] at this; exact absurd this (by decide))
        rw [e2]
        exact binaryStep_value correct _ _ g (by rw [e1]; exact hr.binary v hv hb)
      · have e1 : m1.var v = m.var v := nosel v (by rw [hi]; simp)
        have e2 : m2.var v = m1.var v := b4 v (fun hh => by
          have := hh.2; rw [e1, hi] at this; exact absurd this (by decide))
        have g := c5 v (by rw [b1.varIds, a1.varIds]; exact hv) (by rw [e2, e1, hi]; rfl)
        rw [e2, e1] at g
        exact integerStep_value correct _ _ g (hr.integer v hv hi)
      · rw [c3 hc, b3 hc, a5 hc]
      · rw [c2, b2]; exact a6 hc s hs x hx hx1

/-- If no error is raised: every selection has exactly one variable with value 1 and the others are 0, every
other 0/1 variable is 0 or 1, every integer variable is within its bounds, fixed variables are unchanged, and
nothing but values changes.  Missing: a 0/1 variable with the bounds `[0, 0]` or `[1, 1]` may keep a value
outside of its bounds (`bounds_of_binary_variables_are_ignored`). -/
theorem corrected_or_rejected_partial (correct : Bool) (sels : List ℕ) (m m' : MState) (hr : Ready sels m)
    (h : verifyAll correct sels m = some m') :
    (∀ s ∈ sels, (∀ v ∈ (m.con s).expr.vars, (m'.var v).value = 0 ∨ (m'.var v).value = 1) ∧
      ((m.con s).expr.vars.filter (fun v => (m'.var v).value = 1)).length = 1) ∧
    (∀ v ∈ m.varIds, (m.var v).sense = .binary → (m'.var v).value = 0 ∨ (m'.var v).value = 1) ∧
    (∀ v ∈ m.varIds, (m.var v).sense = .integer →
      (m.var v).lb ≤ (m'.var v).value ∧ (m'.var v).value ≤ (m.var v).ub) ∧
    (∀ v, (m.var v).fixed = true → m'.var v = m.var v) ∧
    (∀ v, (m'.var v).lb = (m.var v).lb ∧ (m'.var v).ub = (m.var v).ub ∧ (m'.var v).sense = (m.var v).sense ∧
      (m'.var v).fixed = (m.var v).fixed) ∧ m'.con = m.con := by
  obtain ⟨g1, g2, g3, g4, _, _⟩ := split correct sels m m' hr h
  exact ⟨fun s hs => (oneHot_iff m' _ (hr.once s hs)).1 (g2 s hs), g3, g4, fun v hv => (g1.keeps v).same hv,
    fun v => ⟨(g1.keeps v).lb, (g1.keeps v).ub, (g1.keeps v).sense, (g1.keeps v).fixed⟩, g1.con⟩

/-- Without correction no value is changed; the variable with value 1 of a selection is recorded as the
selected one if it is not fixed. -/
theorem check_only_changes_nothing (sels : List ℕ) (m m' : MState) (hr : Ready sels m)
    (h : verifyAll false sels m = some m') :
    m'.var = m.var ∧ ∀ s ∈ sels, ∀ x ∈ (m.con s).expr.vars, (m.var x).value = 1 →
      m'.selected s = if (m.var x).fixed then m.selected s else some x := by
  obtain ⟨_, _, _, _, g5, g6⟩ := split false sels m m' hr h
  exact ⟨g5 rfl, g6 rfl⟩

/-- Values that are in order are accepted, with and without correction, and not changed. -/
theorem good_values_are_accepted (correct : Bool) (sels : List ℕ) (m : MState) (hr : Ready sels m)
    (h1 : ∀ s ∈ sels, (∀ v ∈ (m.con s).expr.vars, (m.var v).value = 0 ∨ (m.var v).value = 1) ∧
      ((m.con s).expr.vars.filter (fun v => (m.var v).value = 1)).length = 1)
    (h2 : ∀ v ∈ m.varIds, (m.var v).sense = .binary → (m.var v).value = 0 ∨ (m.var v).value = 1)
    (h3 : ∀ v ∈ m.varIds, (m.var v).sense = .integer → (m.var v).lb ≤ (m.var v).value ∧ (m.var v).value ≤ (m.var v).ub) :
    ∃ m', verifyAll correct sels m = some m' ∧ m'.var = m.var := by
  obtain ⟨m1, g1, g2, g3⟩ := selections_accepts correct sels (fun _ => 0) m
    (fun s hs => ⟨hr.once s hs, (oneHot_iff m _ (hr.once s hs)).2 (h1 s hs)⟩)
  refine ⟨m1, ?_, g2⟩
  unfold verifyAll
  rw [g1]
  simp only [Option.bind_eq_bind, Option.bind_some]
  rw [overVars_accepts _ _ m1.varIds m1 (fun v hv hp => by
    rw [g2] at hp ⊢
    unfold binaryStep
    rw [if_pos (h2 v (by rw [← g3.varIds]; exact hv) (by simpa using hp))])]
  simp only [Option.bind_some]
  exact overVars_accepts _ _ m1.varIds m1 (fun v hv hp => by
    rw [g2] at hp ⊢
    unfold integerStep
    rw [if_pos (h3 v (by rw [← g3.varIds]; exact hv) (by simpa using hp))])

/-- A selection over variables 0, 1, 2 (values 1, 1, 7), a 0/1 variable 3 (value 5) and an integer variable 4
(value 9, bounds 0 and 5). -/
private def ex : MState := { Example.model with
  var := fun v => match v with
    | 0 => { Example.bin0 with sense := .selection, selection := some 0, value := 1 }
    | 1 => { Example.bin0 with sense := .selection, selection := some 0, value := 1 }
    | 2 => { Example.bin0 with sense := .selection, selection := some 0, value := 7 }
    | 3 => { Example.bin0 with value := 5 }
    | _ => { Example.int5 with value := 9 }
  varIds := [0, 1, 2, 3, 4]
  con := fun _ => Con.setup { terms := [(0, 1), (1, 1), (2, 1)], const := -1 } .equal (fun _ => .binary)
  conIds := [0], sens := fun _ => [] }

example : Ready [0] ex :=
  ⟨by decide, by decide, by decide +kernel, by decide, by decide +kernel, by decide +kernel, by decide +kernel⟩
example : ((verifyAll true [0] ex).map (fun m => [0, 1, 2, 3, 4].map (fun v => (m.var v).value))) =
    some [1, 0, 0, 1, 5] := by decide +kernel
example : (verifyAll false [0] ex).isNone = true := by decide +kernel

/-- A 0/1 variable with the bounds `[0, 0]` keeps the value 1, although correction is enabled. -/
theorem bounds_of_binary_variables_are_ignored : ∃ (m m' : MState), Ready [] m ∧
    (m.var 0).setupSense.sense = (m.var 0).sense ∧ (m.var 0).fixed = false ∧ 0 ∈ m.varIds ∧
    verifyAll true [] m = some m' ∧ ¬ ((m'.var 0).lb ≤ (m'.var 0).value ∧ (m'.var 0).value ≤ (m'.var 0).ub) := by
  let m : MState := { Example.model with var := fun _ => { Example.bin0 with ub := 0, value := 1 }, varIds := [0] }
  obtain ⟨m', h1, h2⟩ := good_values_are_accepted true [] m
    ⟨by decide, by decide, by simp, by simp, by simp, by decide +kernel, by decide +kernel⟩ (by simp)
    (by decide +kernel) (by decide +kernel)
  refine ⟨m, m', ⟨by decide, by decide, by simp, by simp, by simp, by decide +kernel, by decide +kernel⟩,
    by decide +kernel, by decide +kernel, by decide, h1, ?_⟩
  rw [h2]
  decide +kernel

/-- The correction of a selection may give the value 1 to a variable whose upper bound is 0. -/
theorem correction_ignores_bounds : ∃ (m m' : MState), Ready [0] m ∧ (∀ v, (m.var v).fixed = false) ∧
    verifyAll true [0] m = some m' ∧ (m.var 0).ub = 0 ∧ (m'.var 0).value = 1 := by
  let m : MState := { ex with
    var := fun v => { Example.bin0 with sense := .selection, selection := some 0, ub := if v = 0 then 0 else 1 } }
  have hr : Ready [0] m :=
    ⟨by decide, by decide, by decide +kernel, by decide, fun _ _ _ _ => rfl, by decide +kernel, by decide +kernel⟩
  have h : ((verifyAll true [0] m).map (fun m => (m.var 0).value)) = some 1 := by decide +kernel
  cases hv : verifyAll true [0] m with
  | none => rw [hv] at h; exact absurd h (by simp)
  | some m' =>
    rw [hv] at h
    exact ⟨m, m', hr, fun _ => rfl, hv, rfl, by simpa using h⟩

end Printemps.C51
