import Verif.Model.MultiArray

/-! # C13 — multi-dimensional indexing is a bijection -/

namespace Printemps.C13
open MultiArray

/-- Specification: an index is in range when it has one coordinate per dimension, each below its extent. -/
def InRange (shape idx : List ℕ) : Prop := List.Forall₂ (· < ·) idx shape

theorem partialProducts_append (l : List ℕ) (a acc : ℕ) :
    partialProducts (l ++ [a]) acc = partialProducts l acc ++ [acc * l.prod * a] := by
  induction l generalizing acc with
  | nil => simp [partialProducts]
  | cons b l ih => simp only [List.cons_append, partialProducts, ih, List.prod_cons]; congr 3; ring

theorem strides_cons (s : ℕ) (l : List ℕ) (hl : l ≠ []) : strides (s :: l) = l.prod :: strides l := by
  cases hr : l.reverse using List.reverseRecOn with
  | nil => exact absurd (List.reverse_eq_nil_iff.1 hr) hl
  | append_singleton r a =>
    have hp : l.prod = r.prod * a := by
      have := congrArg List.prod (List.reverse_eq_iff.1 hr)
      rw [this, List.reverse_append, List.prod_append]
      simp only [List.reverse_cons, List.reverse_nil, List.nil_append, List.prod_cons, List.prod_nil,
        mul_one]
      rw [List.prod_reverse]; ring
    unfold strides
    have e1 : (s :: l).reverse.dropLast = r ++ [a] := by rw [List.reverse_cons, hr]; simp
    have e2 : l.reverse.dropLast = r := by rw [hr]; simp
    rw [e1, e2]
    rw [partialProducts_append, ← List.cons_append, List.reverse_append, hp]
    simp

theorem strides_single (s : ℕ) : strides [s] = [1] := rfl

theorem numberOfElements_eq (shape : List ℕ) : numberOfElements shape = shape.prod := by
  rw [numberOfElements, List.prod_eq_foldl]

theorem flat_nil (shape) : flatIndex shape [] = 0 := by simp [flatIndex]

theorem flat_eq_sum (shape idx) : flatIndex shape idx = (List.zipWith (· * ·) idx (strides shape)).sum := by
  rw [flatIndex, List.sum_eq_foldl]

theorem inRange_prod_pos (shape idx : List ℕ) (h : InRange shape idx) : 0 < shape.prod := by
  induction h with
  | nil => simp
  | cons h1 _ ih => rw [List.prod_cons]; exact Nat.mul_pos (by omega) ih

theorem core (shape idx : List ℕ) (hne : shape ≠ []) (h : InRange shape idx) :
    flatIndex shape idx < shape.prod ∧ multiIndex shape (flatIndex shape idx) = idx := by
  induction shape generalizing idx with
  | nil => exact absurd rfl hne
  | cons s l ih =>
    cases h with
    | cons h1 h2 =>
      rename_i x xs
      by_cases hl : l = []
      · subst hl
        cases h2
        simp [flatIndex, strides_single, multiIndex, unflatten, h1]
      · obtain ⟨i1, i2⟩ := ih xs hl h2
        have hpos := inRange_prod_pos l xs h2
        have e : flatIndex (s :: l) (x :: xs) = x * l.prod + flatIndex l xs := by
          rw [flat_eq_sum, flat_eq_sum, strides_cons s l hl]; simp
        rw [e]
        constructor
        · rw [List.prod_cons]
          have h1' : x < s := h1
          calc x * l.prod + flatIndex l xs < x * l.prod + l.prod := by omega
            _ = (x + 1) * l.prod := by ring
            _ ≤ s * l.prod := Nat.mul_le_mul_right _ h1'
        · unfold multiIndex
          rw [strides_cons s l hl, unflatten]
          have d1 : (x * l.prod + flatIndex l xs) / l.prod = x := by
            rw [Nat.add_comm, Nat.add_mul_div_right _ _ hpos, Nat.div_eq_of_lt i1, Nat.zero_add]
          have d2 : (x * l.prod + flatIndex l xs) % l.prod = flatIndex l xs := by
            rw [Nat.add_comm, Nat.add_mul_mod_self_right, Nat.mod_eq_of_lt i1]
          rw [d1, d2]
          congr 1

theorem core' (shape : List ℕ) (hne : shape ≠ []) (f : ℕ) (h : f < shape.prod) :
    InRange shape (multiIndex shape f) ∧ flatIndex shape (multiIndex shape f) = f := by
  induction shape generalizing f with
  | nil => exact absurd rfl hne
  | cons s l ih =>
    by_cases hl : l = []
    · subst hl
      simp only [List.prod_cons, List.prod_nil, mul_one] at h
      simp [flatIndex, strides_single, multiIndex, unflatten, InRange, h]
    · have hpos : 0 < l.prod := by
        rcases Nat.eq_zero_or_pos l.prod with h0 | h0
        · rw [List.prod_cons, h0] at h; simp at h
        · exact h0
      obtain ⟨i1, i2⟩ := ih hl (f % l.prod) (Nat.mod_lt _ hpos)
      have em : multiIndex (s :: l) f = f / l.prod :: multiIndex l (f % l.prod) := by
        unfold multiIndex; rw [strides_cons s l hl, unflatten]
      rw [em]
      refine ⟨List.Forall₂.cons ?_ i1, ?_⟩
      · rw [List.prod_cons] at h
        exact (Nat.div_lt_iff_lt_mul hpos).2 h
      · have e : flatIndex (s :: l) (f / l.prod :: multiIndex l (f % l.prod))
            = f / l.prod * l.prod + flatIndex l (multiIndex l (f % l.prod)) := by
          rw [flat_eq_sum, flat_eq_sum, strides_cons s l hl]; simp
        rw [e, i2]; exact Nat.div_add_mod' _ _

/-- An in-range index is flattened to a number below the number of elements. -/
theorem flat_index_in_range (shape idx : List ℕ) (hne : shape ≠ []) (h : InRange shape idx) :
    flatIndex shape idx < numberOfElements shape := by
  rw [numberOfElements_eq]; exact (core shape idx hne h).1

/-- Unflattening undoes flattening. -/
theorem multi_index_of_flat_index (shape idx : List ℕ) (hne : shape ≠ []) (h : InRange shape idx) :
    multiIndex shape (flatIndex shape idx) = idx := (core shape idx hne h).2

/-- Every flat index comes from exactly one in-range index, namely the one `multi_dimensional_index` returns. -/
theorem flat_index_unique (shape : List ℕ) (hne : shape ≠ []) (f : ℕ) (h : f < numberOfElements shape) :
    ∃! idx, InRange shape idx ∧ flatIndex shape idx = f := by
  rw [numberOfElements_eq] at h
  refine ⟨multiIndex shape f, core' shape hne f h, ?_⟩
  rintro idx ⟨h1, h2⟩
  rw [← (core shape idx hne h1).2, h2]

/-- Row-major order: the flat index is the mixed-radix number with the last coordinate least significant. -/
theorem flat_index_row_major (s : ℕ) (l : List ℕ) (hl : l ≠ []) (x : ℕ) (xs : List ℕ) :
    flatIndex (s :: l) (x :: xs) = x * numberOfElements l + flatIndex l xs := by
  rw [flat_eq_sum, flat_eq_sum, strides_cons s l hl, numberOfElements_eq]; simp

/-- Non-vacuity: shape 2×3×4. -/
example : InRange [2, 3, 4] [1, 2, 3] ∧ flatIndex [2, 3, 4] [1, 2, 3] = 23 ∧
    multiIndex [2, 3, 4] 23 = [1, 2, 3] := by
  refine ⟨?_, by decide, by decide⟩
  exact .cons (by decide) (.cons (by decide) (.cons (by decide) .nil))

end Printemps.C13
