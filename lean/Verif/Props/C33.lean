import Verif.Lemmas.Moves
import Verif.Lemmas.Example
import Verif.Props.C50

/-! # C33 — two-variable equality moves keep their equality

`ofModel m lt val t` is the list of the moves (alterations) that the generator of class `t` makes for the model
`m` when the variables have the values `val`. -/

namespace Printemps.C33
open Spec Moves
open ConType (classify)

/-- Constraints without repeated variables. -/
def NoRepeats (m : MState) : Prop := ∀ i ∈ m.conIds, ((m.con i).expr.terms.map Prod.fst).Nodup

/-- The four classes of this property. -/
def EqualityClass (t : ConType) : Prop :=
  t = .exclusiveOr ∨ t = .exclusiveNor ∨ t = .invertedIntegers ∨ t = .balancedIntegers

/-- Every move made for an exclusive-or, exclusive-nor, inverted or balanced constraint alters exactly the two
variables of an enabled constraint of that class, and whatever the values were before, the constraint is
satisfied after the move. -/
theorem moves_satisfy_their_constraint (m : MState) (lt : ℕ → ℕ → Bool) (val : ℕ → ℤ) (t : ConType)
    (ht : EqualityClass t) (hm : NoRepeats m) (moves : List (List (ℕ × ℤ)))
    (h : ofModel m lt val t = some moves) (mv : List (ℕ × ℤ)) (hmv : mv ∈ moves) :
    ∃ i ∈ m.conIds, (m.con i).enabled = true ∧ (classify m.var lt (m.con i)).1 = t ∧
      (mv.map Prod.fst).Perm ((m.con i).expr.terms.map Prod.fst) ∧ Holds (m.con i) (applyMove val mv) := by
  obtain ⟨i, hi, h1, h2, h3, l, h4, h5⟩ := ofModel_mem m lt val t moves h mv hmv
  refine ⟨i, hi, h1, h2, ?_⟩
  have hpair : isPair (classify m.var lt (m.con i)).1 = true := by
    rw [h2]; rcases ht with rfl | rfl | rfl | rfl <;> rfl
  obtain ⟨p, hp, hne, hperm, hs, _, _, _, _, hh⟩ := binomial_shape m.var lt (m.con i) (hm i hi) hpair
  rw [h2] at hs
  have key : ∀ a b : ℤ, mv = [(p.first, a), (p.second, b)] → p.sense = .equal →
      p.k + (p.a * (a : ℚ) + p.b * (b : ℚ)) = 0 →
      (mv.map Prod.fst).Perm ((m.con i).expr.terms.map Prod.fst) ∧ Holds (m.con i) (applyMove val mv) := by
    intro a b e hse hz
    refine ⟨by rw [e]; exact hperm, ?_⟩
    rw [hh, hse, e, (apply_two val _ _ a b hne).1, (apply_two val _ _ a b hne).2]
    exact hz
  rcases ht with rfl | rfl | rfl | rfl
  all_goals
    unfold ofClass at h4
    rw [hp] at h4
    simp only [Option.map_some, Option.some.injEq] at h4
    subst h4
  · simp only [exclusiveOr, List.mem_cons, List.not_mem_nil, or_false] at h5
    obtain ⟨hse, hc⟩ := hs
    rcases h5 with h5 | h5 <;> refine key _ _ h5 hse ?_ <;>
      (rcases hc with ⟨e1, e2, e3⟩ | ⟨e1, e2, e3⟩ <;> rw [e1, e2, e3] <;> norm_num)
  · simp only [exclusiveNor, List.mem_cons, List.not_mem_nil, or_false] at h5
    obtain ⟨hse, e3, hc⟩ := hs
    rcases h5 with h5 | h5 <;> refine key _ _ h5 hse ?_ <;>
      (rcases hc with ⟨e1, e2⟩ | ⟨e1, e2⟩ <;> rw [e1, e2, e3] <;> norm_num)
  · simp only [invertedIntegers, List.mem_cons, List.not_mem_nil, or_false] at h5
    obtain ⟨hse, e3, hc⟩ := hs
    rcases h5 with h5 | h5 <;> refine key _ _ h5 hse ?_ <;>
      (rcases hc with ⟨e1, e2⟩ | ⟨e1, e2⟩ <;> rw [e1, e2, e3] <;> push_cast <;> ring)
  · simp only [balancedIntegers, List.mem_cons, List.not_mem_nil, or_false] at h5
    obtain ⟨hse, e3, hc⟩ := hs
    rcases h5 with h5 | h5 <;> refine key _ _ h5 hse ?_ <;>
      (rcases hc with ⟨e1, e2⟩ | ⟨e1, e2⟩ <;> rw [e1, e2, e3] <;> push_cast <;> ring)

theorem apply_three (σ : ℕ → ℤ) (x y z : ℕ) (u : ℤ) (a : ℕ) (h : a = x ∨ a = y ∨ a = z) :
    applyMove σ [(x, u), (y, u), (z, u)] a = u := by
  show Function.update (Function.update (Function.update σ x u) y u) z u a = u
  by_cases h1 : a = z
  · rw [h1, Function.update_self]
  rw [Function.update_of_ne h1]
  by_cases h2 : a = y
  · rw [h2, Function.update_self]
  rw [Function.update_of_ne h2]
  rcases h with rfl | h | h
  · exact Function.update_self ..
  · exact absurd h h2
  · exact absurd h h1

/-- Every move made for an equation `x + y = 2 z` over 0/1 variables alters exactly its three variables, and the equation
holds after the move.  (With a constant besides, the class is given wrongly, see C50.) -/
theorem trinomial_moves_satisfy_their_constraint (m : MState) (lt : ℕ → ℕ → Bool) (val : ℕ → ℤ)
    (moves : List (List (ℕ × ℤ))) (h : ofModel m lt val .trinomialExclusiveNor = some moves) (mv : List (ℕ × ℤ))
    (hmv : mv ∈ moves) :
    ∃ i ∈ m.conIds, (m.con i).enabled = true ∧ (classify m.var lt (m.con i)).1 = .trinomialExclusiveNor ∧
      mv.map Prod.fst = (m.con i).expr.terms.map Prod.fst ∧
      ((m.con i).expr.const = 0 → Holds (m.con i) (applyMove val mv)) := by
  obtain ⟨i, hi, h1, h2, h3, l, h4, h5⟩ := ofModel_mem m lt val .trinomialExclusiveNor moves h mv hmv
  refine ⟨i, hi, h1, h2, ?_⟩
  unfold ofClass trinomialExclusiveNor at h4
  dsimp only at h4
  split at h4
  swap
  · exact absurd h4 (by simp)
  rename_i t u w e
  rw [Option.some.injEq] at h4
  subst h4
  have all : ∃ b : ℤ, (b = 0 ∨ b = 1) ∧ mv = [(t.1, b), (u.1, b), (w.1, b)] := by
    simp only [List.mem_cons, List.not_mem_nil, or_false] at h5
    rcases h5 with h5 | h5
    · exact ⟨0, Or.inl rfl, h5⟩
    · exact ⟨1, Or.inr rfl, h5⟩
  obtain ⟨b, hb, rfl⟩ := all
  refine ⟨by rw [e]; rfl, fun hk => ?_⟩
  have hv : ∀ v ∈ (m.con i).expr.vars, applyMove val [(t.1, b), (u.1, b), (w.1, b)] v = b := by
    intro v hv
    simp only [Expr.vars, e, List.map_cons, List.map_nil, List.mem_cons, List.not_mem_nil, or_false] at hv
    exact apply_three val t.1 u.1 w.1 b v hv
  have hr : (m.con i).sense = .equal ∧ ∃ r, ConType.trinomial m.var (m.con i).expr.terms = some r := by
    have hg := C50.general_large m.var (m.con i)
    unfold classify at h2
    rw [e] at h2 ⊢
    dsimp only at h2
    split at h2
    · rename_i hs
      refine ⟨hs.1, ?_⟩
      cases hq : ConType.trinomial m.var [t, u, w] with
      | some r => exact ⟨r, rfl⟩
      | none =>
        rw [hq, Option.getD_none] at h2
        exact absurd (by rw [h2]; decide) hg
    · exact absurd (by rw [h2]; decide) hg
  obtain ⟨hs, r, hr⟩ := hr
  have hm := ConType.trinomial_meaning m.var (m.con i) (by rw [e]; rfl) hs hk r hr
  rw [show r.1 = .trinomialExclusiveNor from trinomial_type m.var _ r hr] at hm
  obtain ⟨x, y, z, hp, -, hx⟩ := hm
  refine (hx _ fun v hvv _ => by rw [hv v hvv]; exact hb).2 ⟨?_, ?_⟩
  · rw [hv x (hp.mem_iff.2 (by simp)), hv z (hp.mem_iff.2 (by simp))]
  · rw [hv y (hp.mem_iff.2 (by simp)), hv z (hp.mem_iff.2 (by simp))]

/-- Making the moves never fails, and every enabled constraint of the class without fixed or selection
variables gets a move that changes the value of its first variable. -/
theorem every_constraint_gets_moves (m : MState) (lt : ℕ → ℕ → Bool) (val : ℕ → ℤ) (t : ConType)
    (ht : EqualityClass t) (hm : NoRepeats m) :
    ∃ moves, ofModel m lt val t = some moves ∧ ∀ i ∈ m.conIds, (m.con i).enabled = true →
      (classify m.var lt (m.con i)).1 = t →
      (∀ v ∈ (m.con i).expr.vars, (m.var v).fixed = false ∧ (m.var v).sense ≠ .selection) →
      ∃ mv ∈ moves, (mv.map Prod.fst).Perm (m.con i).expr.vars ∧ ∃ a ∈ mv, val a.1 ≠ a.2 := by
  have hpt : isPair t = true := by rcases ht with rfl | rfl | rfl | rfl <;> rfl
  obtain ⟨moves, h⟩ := ofModel_some m lt val t hpt hm
  refine ⟨moves, h, fun i hi h1 h2 h3 => ?_⟩
  obtain ⟨l, hl, hall⟩ := ofModel_complete m lt val t moves h i hi h1 h2 h3
  obtain ⟨p, hp, hne, hperm, hs, _⟩ := binomial_shape m.var lt (m.con i) (hm i hi) (by rw [h2]; exact hpt)
  rcases ht with rfl | rfl | rfl | rfl
  all_goals
    unfold ofClass at hl
    rw [hp] at hl
    simp only [Option.map_some, Option.some.injEq] at hl
    subst hl
  · by_cases hv : val p.first = 0
    · exact ⟨[(p.first, 1), (p.second, 0)], hall _ (by simp [exclusiveOr]), hperm, (p.first, 1), by simp, by simp [hv]⟩
    · exact ⟨[(p.first, 0), (p.second, 1)], hall _ (by simp [exclusiveOr]), hperm, (p.first, 0), by simp, hv⟩
  · by_cases hv : val p.first = 0
    · exact ⟨[(p.first, 1), (p.second, 1)], hall _ (by simp [exclusiveNor]), hperm, (p.first, 1), by simp, by simp [hv]⟩
    · exact ⟨[(p.first, 0), (p.second, 0)], hall _ (by simp [exclusiveNor]), hperm, (p.first, 0), by simp, hv⟩
  · exact ⟨_, hall _ (List.mem_cons_self ..), hperm, (p.first, val p.first + 1), by simp, by simp⟩
  · exact ⟨_, hall _ (List.mem_cons_self ..), hperm, (p.first, val p.first + 1), by simp, by simp⟩

private def ex : MState := { Example.model with
  var := fun v => if v < 2 then Example.bin0 else Example.int5
  varIds := [0, 1, 2, 3]
  con := fun i => match i with
    | 0 => Con.setup { terms := [(0, -1), (1, -1)], const := 1 } .equal (fun _ => .binary)
    | _ => Con.setup { terms := [(3, 1), (2, 1)], const := 0 } .equal (fun _ => .integer)
  conIds := [0, 1] }

example : NoRepeats ex := by unfold NoRepeats; decide +kernel
example : ofModel ex (fun a b => decide (a < b)) (fun _ => 4) .exclusiveOr =
    some [[(0, 0), (1, 1)], [(0, 1), (1, 0)]] := by decide +kernel
example : ofModel ex (fun a b => decide (a < b)) (fun _ => 4) .invertedIntegers =
    some [[(2, 5), (3, -5)], [(2, 3), (3, -3)]] := by decide +kernel

/-- `x + y = 2 z` over 0/1 variables. -/
private def ex3 : MState := { Example.model with
  var := fun _ => Example.bin0
  varIds := [0, 1, 2]
  con := fun _ => Con.setup { terms := [(0, 1), (1, 1), (2, -2)], const := 0 } .equal (fun _ => .binary)
  conIds := [0] }

example : ofModel ex3 (fun a b => decide (a < b)) (fun _ => 4) .trinomialExclusiveNor =
    some [[(0, 0), (1, 0), (2, 0)], [(0, 1), (1, 1), (2, 1)]] ∧ (ex3.con 0).expr.const = 0 := by decide +kernel

end Printemps.C33
