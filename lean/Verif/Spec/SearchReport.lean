import Verif.Model.SearchReport

/-! # What a search should report about itself -/

namespace Printemps.Spec
open Report

variable {α : Type}

/-- All visits of a search in order, with their iterations: the initial modification belongs to iteration 0. -/
def visits (s : Search α) : List (ℤ × Visit α) :=
  s.modifications.map (fun v => (0, v)) ++ s.iterations.zipIdx.map (fun x => ((x.2 : ℤ), x.1))

/-- The scores of all solutions of a search, the start included. -/
def scores (s : Search α) : List Score := s.startScore :: (visits s).map (fun x => x.2.score)

/-- `x` is better than what was known before (by more than the tolerance); nothing known: everything is better. -/
def Better (x : ℚ) (before : Option ℚ) : Prop := ∀ b, before = some b → x + EPSILON < b

/-- What is reported about one kind of incumbent.  `key` is the value that counts (`none`: the visit does not count); before
the visits the incumbent was `before`, `solBefore`; after them it is `obj`, `sol`; the report says that there was an update
(`updated`), the last time in iteration `last`. -/
structure TellsTruth (key : Score → Option ℚ) (visits : List (ℤ × Visit α)) (before : Option ℚ) (solBefore : Option α)
    (updated : Bool) (last : ℤ) (obj : Option ℚ) (sol : Option α) : Prop where
  /-- it says so exactly if a visit was better than what was known before the search -/
  updated_iff : updated = true ↔ ∃ v ∈ visits, ∃ x, key v.2.score = some x ∧ Better x before
  /-- otherwise nothing changed -/
  unchanged : updated = false → last = -1 ∧ obj = before ∧ sol = solBefore
  /-- the incumbent is what was visited in the iteration reported, and nothing better was visited afterwards -/
  changed : updated = true → ∃ pre v post x, visits = pre ++ v :: post ∧ key v.2.score = some x ∧ last = v.1 ∧ obj = some x ∧
    sol = some v.2.sol ∧ ∀ p ∈ post, ∀ y, key p.2.score = some y → x ≤ y + EPSILON

/-- Smallest and largest value of a list. -/
structure IsRange (lo hi : ℚ) (l : List ℚ) : Prop where
  bounds : ∀ x ∈ l, lo ≤ x ∧ x ≤ hi
  lo_mem : lo ∈ l
  hi_mem : hi ∈ l

end Printemps.Spec
