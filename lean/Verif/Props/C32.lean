import Verif.Model.Moves
import Verif.Lemmas.Example

/-! # C32 — binary and integer moves stay inside the bounds -/

namespace Printemps.C32
open Moves

/-- A move changes exactly one variable of the list, which is not fixed, to a different value within its
bounds. -/
def ChangesOne (var : ℕ → Var) (vs : List ℕ) (mv : Move) : Prop :=
  ∃ v ∈ vs, ∃ x, mv.alterations = [(v, x)] ∧ (var v).fixed = false ∧ x ≠ (var v).value ∧
    (var v).lb ≤ x ∧ x ≤ (var v).ub

private theorem mem_mutables (var : ℕ → Var) (vs : List ℕ) (v : ℕ) (h : v ∈ mutables var vs) :
    v ∈ vs ∧ (var v).fixed = false := by
  unfold mutables at h
  rw [List.mem_filter] at h
  exact ⟨h.1, by simpa using h.2⟩

/-- Every enabled move of 0/1 variables flips exactly one variable that is not fixed: its new value is the
other one of 0 and 1, so it is inside the bounds 0 and 1.  Partial: variables with the bounds [0,0] or [1,1],
which the code also treats as 0/1 variables, are excluded. -/
theorem binary_moves_flip_partial (rel : ℕ → List ConId) (acc : Accept) (var : ℕ → Var) (vs : List ℕ)
    (hb : ∀ v ∈ vs, (var v).fixed = false → (var v).lb = 0 ∧ (var v).ub = 1 ∧ ((var v).value = 0 ∨ (var v).value = 1))
    (mv : Move) (h : mv ∈ binaryMoves rel acc var vs) :
    ChangesOne var vs mv ∧ ∃ v, mv.alterations = [(v, if (var v).value = 1 then 0 else 1)] := by
  unfold binaryMoves at h
  rw [List.mem_map] at h
  obtain ⟨v, hv, rfl⟩ := h
  rw [List.mem_filter] at hv
  obtain ⟨hv1, hv2⟩ := mem_mutables var vs v hv.1
  obtain ⟨h1, h2, h3⟩ := hb v hv1 hv2
  refine ⟨⟨v, hv1, 1 - (var v).value, rfl, hv2, ?_, ?_, ?_⟩, v, ?_⟩
  · rcases h3 with e | e <;> rw [e] <;> decide
  · rcases h3 with e | e <;> rw [e, h1] <;> decide
  · rcases h3 with e | e <;> rw [e, h2] <;> decide
  · show [(v, 1 - (var v).value)] = _
    rcases h3 with e | e <;> rw [e] <;> rfl

/-- With all moves accepted, every 0/1 variable that is not fixed has its flip move. -/
theorem all_binary_moves_are_offered (rel : ℕ → List ConId) (o f : Bool) (var : ℕ → Var) (vs : List ℕ) (v : ℕ)
    (hv : v ∈ vs) (hf : (var v).fixed = false) :
    ∃ mv ∈ binaryMoves rel ⟨true, o, f⟩ var vs, mv.alterations = [(v, 1 - (var v).value)] := by
  refine ⟨binaryMove rel var v, ?_, rfl⟩
  unfold binaryMoves mutables
  refine List.mem_map.2 ⟨v, List.mem_filter.2 ⟨List.mem_filter.2 ⟨hv, by simp [hf]⟩, rfl⟩, rfl⟩

private theorem half_pos (d : ℤ) (h : 4 < d) : 1 ≤ min deltaMax (Int.tdiv d 2) ∧ min deltaMax (Int.tdiv d 2) ≤ d := by
  rw [Int.tdiv_eq_ediv_of_nonneg (by omega)]
  unfold deltaMax
  omega

private theorem half_neg (d : ℤ) (h : d < -4) :
    max (-deltaMax) (Int.tdiv d 2) ≤ -1 ∧ d ≤ max (-deltaMax) (Int.tdiv d 2) := by
  have e : Int.tdiv d 2 = -(Int.tdiv (-d) 2) := by rw [Int.neg_tdiv, neg_neg]
  rw [e, Int.tdiv_eq_ediv_of_nonneg (by omega)]
  unfold deltaMax
  omega

/-- Every enabled move of integer variables whose values are inside their bounds changes exactly one variable
that is not fixed, to a different value inside its bounds. -/
theorem integer_moves_stay_inside (rel : ℕ → List ConId) (acc : Accept) (var : ℕ → Var) (vs : List ℕ)
    (hb : ∀ v ∈ vs, (var v).fixed = false → (var v).lb ≤ (var v).value ∧ (var v).value ≤ (var v).ub)
    (mv : Move) (h : mv ∈ integerMoves rel acc var vs) : ChangesOne var vs mv := by
  unfold integerMoves at h
  rw [List.mem_flatMap] at h
  obtain ⟨v, hv, h⟩ := h
  obtain ⟨hv1, hv2⟩ := mem_mutables var vs v hv
  obtain ⟨h1, h2⟩ := hb v hv1 hv2
  unfold integerMovesOf at h
  split at h
  · rw [List.mem_filterMap] at h
    obtain ⟨t, ht, h⟩ := h
    cases t with
    | none => exact absurd h (by simp)
    | some x =>
      simp only [Option.map_some, Option.some.injEq] at h
      subst h
      refine ⟨v, hv1, x, rfl, hv2, ?_⟩
      unfold integerTargets at ht
      simp only [List.mem_cons, List.not_mem_nil, or_false] at ht
      generalize var v = y at h1 h2 ht
      rcases ht with ht | ht | ht | ht
      · split at ht
        · exact absurd ht (by simp)
        · rw [Option.some.injEq] at ht; omega
      · split at ht
        · exact absurd ht (by simp)
        · rw [Option.some.injEq] at ht; omega
      · split at ht
        · exact absurd ht (by simp)
        · rename_i hc
          have := half_pos (y.ub - y.value) (by omega)
          rw [Option.some.injEq] at ht; omega
      · split at ht
        · exact absurd ht (by simp)
        · rename_i hc
          have := half_neg (y.lb - y.value) (by omega)
          rw [Option.some.injEq] at ht; omega
  · exact absurd h (by simp)

/-- With all moves accepted, every integer variable that is not fixed can be moved by one in each direction
its bounds allow. -/
theorem unit_steps_are_offered (rel : ℕ → List ConId) (o f : Bool) (var : ℕ → Var) (vs : List ℕ) (v : ℕ)
    (hv : v ∈ vs) (hf : (var v).fixed = false) (x : ℤ) (hx : x = (var v).value + 1 ∨ x = (var v).value - 1)
    (hl : (var v).lb ≤ x) (hu : x ≤ (var v).ub) :
    ∃ mv ∈ integerMoves rel ⟨true, o, f⟩ var vs, mv.alterations = [(v, x)] := by
  refine ⟨{ alterations := [(v, x)], sense := .integer, related := rel v, isUnivariable := true }, ?_, rfl⟩
  unfold integerMoves mutables
  refine List.mem_flatMap.2 ⟨v, List.mem_filter.2 ⟨hv, by simp [hf]⟩, ?_⟩
  unfold integerMovesOf
  rw [if_pos (show integerFlag _ _ = true from rfl), List.mem_filterMap]
  refine ⟨some x, ?_, rfl⟩
  unfold integerTargets
  rcases hx with rfl | rfl
  · rw [if_neg (by omega)]; simp
  · rw [if_neg (show ¬ (var v).value = (var v).lb by omega)]; simp

/-- A sequence of integer and 0/1 moves never leaves the bounds: after performing an enabled move every
variable of the list is still inside its bounds. -/
theorem bounds_are_kept (var : ℕ → Var) (vs : List ℕ) (mv : Move) (h : ChangesOne var vs mv)
    (hb : ∀ v ∈ vs, (var v).lb ≤ (var v).value ∧ (var v).value ≤ (var v).ub) (v : ℕ) (hv : v ∈ vs) :
    (var v).lb ≤ Spec.applyMove (fun v => (var v).value) mv.alterations v ∧
    Spec.applyMove (fun v => (var v).value) mv.alterations v ≤ (var v).ub := by
  obtain ⟨w, hw, x, e, h1, h2, h3, h4⟩ := h
  rw [e]
  show _ ≤ Function.update (fun v => (var v).value) w x v ∧ Function.update (fun v => (var v).value) w x v ≤ _
  by_cases c : v = w
  · subst c; rw [Function.update_self]; exact ⟨h3, h4⟩
  · rw [Function.update_of_ne c]; exact hb v hv

/-- A 0/1 variable with the bounds [0,0] that is not fixed (presolve, which would fix it, switched off) has an
enabled move to 1, outside its bounds. -/
theorem binary_move_can_leave_bounds : ∃ y, Var.init.setBound 0 0 = some y ∧ y.sense = .binary ∧
    y.fixed = false ∧ y.value = 0 ∧ y.ub = 0 ∧
    ∃ mv ∈ binaryMoves (fun _ => []) ⟨true, false, false⟩ (fun _ => y) [0], mv.alterations = [(0, 1)] := by
  refine ⟨_, rfl, by decide, by decide, by decide, by decide,
    binaryMove (fun _ => []) _ 0, List.mem_map.2 ⟨0, ?_, rfl⟩, by decide⟩
  decide

private def exVar : ℕ → Var := fun v => match v with
  | 0 => { Example.bin0 with objImprovable := true }
  | 1 => { Example.bin0 with value := 1 }
  | 2 => { Example.int5 with value := 2, ub := 100, feasImprovable := true }
  | _ => { Example.int5 with fixed := true }

example : (binaryMoves (fun _ => []) ⟨false, true, false⟩ exVar [0, 1]).map Move.alterations = [[(0, 1)]] := by decide
example : (binaryMoves (fun _ => []) ⟨true, true, false⟩ exVar [0, 1]).map Move.alterations = [[(0, 1)], [(1, 0)]] := by
  decide
example : (integerMoves (fun _ => []) ⟨false, true, true⟩ exVar [2, 3]).map Move.alterations =
    [[(2, 3)], [(2, 1)], [(2, 51)]] := by decide
example : ∀ v ∈ [0, 1], (exVar v).fixed = false → (exVar v).lb = 0 ∧ (exVar v).ub = 1 ∧
    ((exVar v).value = 0 ∨ (exVar v).value = 1) := by decide
example : ∀ v ∈ [2, 3], (exVar v).fixed = false → (exVar v).lb ≤ (exVar v).value ∧ (exVar v).value ≤ (exVar v).ub := by
  decide

end Printemps.C32
