import Verif.Model.Mps
import Verif.Lemmas.Assoc
import Verif.Lemmas.Text

/-! # C44 — MPS bounds -/

namespace Printemps.C44
open Mps Text

/-- The number of a record fits into an `int` after truncation. -/
def Fits (q : ℚ) : Prop := -2147483649 < q ∧ q < 2147483648

theorem trunc_nonneg (q : ℚ) (h : 0 ≤ q) : (if q < 0 then -⌊-q⌋ else ⌊q⌋) = ⌊q⌋ := if_neg (not_lt.2 h)
theorem trunc_nonpos (q : ℚ) (h : q ≤ 0) : (if q < 0 then -⌊-q⌋ else ⌊q⌋) = ⌈q⌉ := by
  split
  · rw [Int.floor_neg, neg_neg]
  · next h' => have : q = 0 := le_antisymm h (not_lt.1 h'); subst this; simp

/-- The conversion to `int` is defined exactly for numbers that fit, and truncates towards zero. -/
theorem toInt_spec (q : ℚ) : (Fits q → toInt q = some (if 0 ≤ q then ⌊q⌋ else ⌈q⌉)) ∧ (¬ Fits q → toInt q = none) := by
  unfold toInt Fits
  dsimp only
  by_cases h : 0 ≤ q
  · rw [trunc_nonneg q h, if_pos h]
    have h0 : 0 ≤ ⌊q⌋ := Int.floor_nonneg.2 h
    constructor
    · rintro ⟨-, h2⟩
      have : ⌊q⌋ < 2147483648 := Int.floor_lt.2 (by exact_mod_cast h2)
      rw [if_pos ⟨by omega, by omega⟩]
    · intro hn
      have : ¬ q < 2147483648 := fun hq => hn ⟨by linarith, hq⟩
      have : (2147483648 : ℤ) ≤ ⌊q⌋ := Int.le_floor.2 (by push_cast; linarith)
      rw [if_neg (by omega)]
  · have h' : q ≤ 0 := (not_le.1 h).le
    rw [trunc_nonpos q h', if_neg h]
    have h0 : ⌈q⌉ ≤ 0 := Int.ceil_le.2 (by push_cast; linarith)
    constructor
    · rintro ⟨h1, -⟩
      have : -2147483649 < ⌈q⌉ := Int.lt_ceil.2 (by push_cast; linarith)
      rw [if_pos ⟨by omega, by omega⟩]
    · intro hn
      have : ¬ (-2147483649 : ℚ) < q := fun hq => hn ⟨hq, by linarith⟩
      have : ⌈q⌉ ≤ (-2147483649 : ℤ) := Int.ceil_le.2 (by push_cast; linarith)
      rw [if_neg (by omega)]

/-- The integers admitted by the bounds of a variable. -/
def Admits (x : MVar) (z : ℤ) : Prop := x.lb ≤ z ∧ z ≤ x.ub

/-- The kinds of records with a value. -/
inductive Kind where
  | lo | li | up | ui | fx

/-- The first item of such a record. -/
def Kind.text : Kind → Name
  | .lo => ['L', 'O'] | .li => ['L', 'I'] | .up => ['U', 'P'] | .ui => ['U', 'I'] | .fx => ['F', 'X']

/-- The integers that a record with value `q` allows, when the bounds before were those of `x`: LO and LI replace
the lower bound, UP and UI the upper bound, FX both. -/
def Allowed (k : Kind) (q : ℚ) (x : MVar) (z : ℤ) : Prop :=
  match k with
  | .lo | .li => q ≤ z ∧ z ≤ x.ub
  | .up | .ui => x.lb ≤ z ∧ (z : ℚ) ≤ q
  | .fx => (z : ℚ) = q

/-- When the reader is right: the number is an integer, or truncation goes in the right direction (up for lower
bounds, down for upper bounds). -/
def Safe (k : Kind) (q : ℚ) : Prop :=
  (∃ z : ℤ, (z : ℚ) = q) ∨ match k with
    | .lo | .li => q ≤ 0
    | .up | .ui => 0 ≤ q
    | .fx => False

/-- The variable after a record. -/
theorem record_effect (f : File) (k : Kind) (b n t : Name) (x : MVar) (hx : f.vars.get n = some x) (hf : Fits (atof t)) :
    ∃ f', boundsStep f [k.text, b, n, t] = some f' ∧
      f'.vars.get n = some (boundValue k.text (if 0 ≤ atof t then ⌊atof t⌋ else ⌈atof t⌉) x) ∧
      (∀ n', n' ≠ n → f'.vars.get n' = f.vars.get n') ∧ f'.cons = f.cons := by
  unfold boundsStep
  simp only [hx]
  rw [(toInt_spec _).1 hf, Option.map_some]
  refine ⟨_, rfl, ?_, fun n' h => ?_, rfl⟩
  · rw [Assoc.get_put, if_pos rfl]
  · dsimp only
    rw [Assoc.get_put, if_neg (Ne.symm h)]

/-- Records whose number is an integer, or is truncated in the right direction, admit exactly the integers that
they allow. -/
theorem record_exact_partial (k : Kind) (q : ℚ) (x : MVar) (hs : Safe k q) (z : ℤ) :
    (Admits (boundValue k.text (if 0 ≤ q then ⌊q⌋ else ⌈q⌉) x) z ↔ Allowed k q x z) := by
  have lower : ((∃ z : ℤ, (z : ℚ) = q) ∨ q ≤ 0) → ((if 0 ≤ q then ⌊q⌋ else ⌈q⌉) ≤ z ↔ q ≤ z) := by
    rintro (⟨w, rfl⟩ | h)
    · rw [Int.floor_intCast, Int.ceil_intCast, ite_self]; exact_mod_cast Iff.rfl
    · rcases eq_or_lt_of_le h with rfl | h
      · simp
      · rw [if_neg (not_le.2 h)]; exact Int.ceil_le
  have upper : ((∃ z : ℤ, (z : ℚ) = q) ∨ 0 ≤ q) → (z ≤ (if 0 ≤ q then ⌊q⌋ else ⌈q⌉) ↔ (z : ℚ) ≤ q) := by
    rintro (⟨w, rfl⟩ | h)
    · rw [Int.floor_intCast, Int.ceil_intCast, ite_self]; exact_mod_cast Iff.rfl
    · rw [if_pos h]; exact Int.le_floor
  unfold Admits Allowed
  cases k with
  | lo => exact and_congr (lower hs) Iff.rfl
  | li => exact and_congr (lower hs) Iff.rfl
  | up => exact and_congr Iff.rfl (upper hs)
  | ui => exact and_congr Iff.rfl (upper hs)
  | fx =>
    have hi : ∃ z : ℤ, (z : ℚ) = q := by rcases hs with h | h; exacts [h, h.elim]
    refine (and_congr (lower (Or.inl hi)) (upper (Or.inl hi))).trans ?_
    exact ⟨fun ⟨a, b⟩ => le_antisymm b a, fun e => ⟨e.ge, e.le⟩⟩

/-- LI, UI and BV records make the column integer; the other records leave that as it is. -/
theorem record_integer (k : Kind) (v : ℤ) (x : MVar) :
    (boundValue k.text v x).integer = (match k with | .li | .ui => true | _ => x.integer) ∧
    (boundValue k.text v x).boundDefined = true := by
  cases k <;> exact ⟨rfl, rfl⟩

/-- All other records are read wrongly: some integer is admitted by the reader and not allowed by the record, or
the other way round (for a variable without opposite bound in the way). -/
theorem record_wrong_otherwise (k : Kind) (q : ℚ) (hs : ¬ Safe k q) :
    ∃ (x : MVar) (z : ℤ), ¬ (Admits (boundValue k.text (if 0 ≤ q then ⌊q⌋ else ⌈q⌉) x) z ↔ Allowed k q x z) := by
  unfold Safe at hs
  rw [not_or] at hs
  obtain ⟨hi, hd⟩ := hs
  have hfl : (⌊q⌋ : ℚ) < q := lt_of_le_of_ne (Int.floor_le q) (fun e => hi ⟨_, e⟩)
  have hce : q < (⌈q⌉ : ℚ) := lt_of_le_of_ne (Int.le_ceil q) (fun e => hi ⟨_, e.symm⟩)
  unfold Admits Allowed
  cases k with
  | lo =>
    have : 0 < q := not_le.1 hd
    refine ⟨{ ub := ⌊q⌋ }, ⌊q⌋, fun h => ?_⟩
    have := h.1 ⟨by rw [if_pos this.le]; exact le_refl _, le_refl _⟩
    exact absurd this.1 (not_le.2 hfl)
  | li =>
    have : 0 < q := not_le.1 hd
    refine ⟨{ ub := ⌊q⌋ }, ⌊q⌋, fun h => ?_⟩
    have := h.1 ⟨by rw [if_pos this.le]; exact le_refl _, le_refl _⟩
    exact absurd this.1 (not_le.2 hfl)
  | up =>
    have : q < 0 := not_le.1 hd
    refine ⟨{ lb := ⌈q⌉ }, ⌈q⌉, fun h => ?_⟩
    have := h.1 ⟨le_refl _, by rw [if_neg (not_le.2 this)]; exact le_refl _⟩
    exact absurd this.2 (not_le.2 hce)
  | ui =>
    have : q < 0 := not_le.1 hd
    refine ⟨{ lb := ⌈q⌉ }, ⌈q⌉, fun h => ?_⟩
    have := h.1 ⟨le_refl _, by rw [if_neg (not_le.2 this)]; exact le_refl _⟩
    exact absurd this.2 (not_le.2 hce)
  | fx =>
    refine ⟨{}, if 0 ≤ q then ⌊q⌋ else ⌈q⌉, fun h => ?_⟩
    exact hi ⟨_, h.1 ⟨le_refl _, le_refl _⟩⟩

/-- Numbers outside of `int`, for example `1e30` for "no bound", are undefined behaviour. -/
theorem huge_numbers_are_undefined (f : File) (k b n t : Name) (x : MVar) (hx : f.vars.get n = some x) (hf : ¬ Fits (atof t)) :
    boundsStep f [k, b, n, t] = none := by
  unfold boundsStep
  simp only [hx]
  rw [(toInt_spec _).2 hf, Option.map_none]

/-- The records without a value.  "Free" stands for the half range of `int`, `±1073741823`. -/
theorem records_without_value (f : File) (k b n : Name) (x : MVar) (hx : f.vars.get n = some x) :
    ∃ f' y, boundsStep f [k, b, n] = some f' ∧ f'.vars.get n = some y ∧
      (∀ n', n' ≠ n → f'.vars.get n' = f.vars.get n') ∧
      (k = ['B', 'V'] → y.integer = true ∧ ∀ z, Admits y z ↔ z = 0 ∨ z = 1) ∧
      (k = ['F', 'R'] → ∀ z : ℤ, |z| ≤ 1073741823 → Admits y z) ∧
      (k = ['M', 'I'] → ∀ z : ℤ, |z| ≤ 1073741823 → (Admits y z ↔ z ≤ 0)) ∧
      (k = ['P', 'L'] → ∀ z : ℤ, |z| ≤ 1073741823 → (Admits y z ↔ 0 ≤ z)) := by
  unfold boundsStep
  simp only [hx]
  refine ⟨_, boundNoValue k x, rfl, ?_, fun n' h => ?_, ?_, ?_, ?_, ?_⟩
  · rw [Assoc.get_put, if_pos rfl]
  · dsimp only; rw [Assoc.get_put, if_neg (Ne.symm h)]
  · rintro rfl; exact ⟨rfl, fun z => by unfold Admits; show (0 : ℤ) ≤ z ∧ z ≤ 1 ↔ _; omega⟩
  · rintro rfl z hz; obtain ⟨a, b⟩ := abs_le.1 hz; exact ⟨a, b⟩
  · rintro rfl z hz; obtain ⟨a, b⟩ := abs_le.1 hz; exact ⟨fun h => h.2, fun h => ⟨a, h⟩⟩
  · rintro rfl z hz; obtain ⟨a, b⟩ := abs_le.1 hz; exact ⟨fun h => h.1, fun h => ⟨h, b⟩⟩

/-- An integer column without any record gets the bounds 0 and 1; all others keep their bounds. -/
theorem default_bounds (x : MVar) (z : ℤ) :
    (x.boundDefined = false → x.integer = true → (Admits (defaultBounds x) z ↔ z = 0 ∨ z = 1)) ∧
    (x.boundDefined = true ∨ x.integer = false → defaultBounds x = x) := by
  unfold defaultBounds
  constructor
  · intro h1 h2
    rw [h1, h2]
    show (0 : ℤ) ≤ z ∧ z ≤ 1 ↔ _
    omega
  · rintro (h | h) <;> simp [h]

/-- A PL record says only that there is no upper bound, but the reader resets the lower bound to 0: after
`LO -5` and `PL` the integer `-3` is rejected. -/
theorem plus_infinity_resets_lower_bound : ∃ (x : MVar), x.lb = -5 ∧ ¬ Admits (boundNoValue ['P', 'L'] x) (-3) :=
  ⟨{ lb := -5 }, rfl, fun h => absurd h.1 (by decide)⟩

/-! Non-vacuity: a file with the records `UP 5`, `LO 1.5` on an integer column. -/
private def file : File := { vars := [(['x'], { integer := true }), (['y'], {})] }
example : Fits (atof ['1', '.', '5']) ∧ ¬ Safe .lo (atof ['1', '.', '5']) ∧ Safe .up (atof ['1', '.', '5']) := by
  refine ⟨by unfold Fits; decide +kernel, ?_, Or.inr (show (0 : ℚ) ≤ _ by decide +kernel)⟩
  rintro (⟨z, h⟩ | h)
  · have h2 : atof ['1', '.', '5'] = 3 / 2 := by decide +kernel
    rw [h2] at h
    have : (2 * z : ℚ) = 3 := by linarith
    have : (2 * z : ℤ) = 3 := by exact_mod_cast this
    omega
  · exact absurd (show atof ['1', '.', '5'] ≤ 0 from h) (by decide +kernel)
/-- `LO 1.5` admits the value 1. -/
example : (boundsStep file [['L', 'O'], ['b'], ['x'], ['1', '.', '5']]).map (fun f => (f.vars.get ['x']).map (fun v => v.lb)) =
    some (some 1) := by decide +kernel
/-- `UP -1.5` admits the value -1. -/
example : (boundsStep file [['U', 'P'], ['b'], ['x'], ['-', '1', '.', '5']]).map (fun f => (f.vars.get ['x']).map (fun v => v.ub)) =
    some (some (-1)) := by decide +kernel
/-- `UP 1e30`. -/
example : boundsStep file [['U', 'P'], ['b'], ['x'], ['1', 'e', '3', '0']] |>.isNone := by decide +kernel

end Printemps.C44
