import Verif.Props.C13

/-! # C14 — element labels are unique -/

namespace Printemps.C14
open MultiArray C13

theorem digitChar_inj (a b : ℕ) (ha : a < 10) (hb : b < 10) (h : Nat.digitChar a = Nat.digitChar b) : a = b := by
  interval_cases a <;> interval_cases b <;> first | rfl | (exact absurd h (by decide))

theorem digitChar_ne (a : ℕ) (ha : a < 10) : Nat.digitChar a ≠ ' ' ∧ Nat.digitChar a ≠ ',' := by
  interval_cases a <;> decide

theorem decimal_ne_nil (n : ℕ) : decimal n ≠ [] := by
  unfold decimal; split <;> simp

theorem decimal_chars (n : ℕ) : ∀ c ∈ decimal n, c ≠ ' ' ∧ c ≠ ',' := by
  induction n using Nat.strong_induction_on with
  | _ n ih =>
    unfold decimal
    split
    · rename_i h
      intro c hc; simp only [List.mem_singleton] at hc; subst hc; exact digitChar_ne n h
    · rename_i h
      intro c hc
      rcases List.mem_append.1 hc with hc | hc
      · exact ih _ (by omega) c hc
      · simp only [List.mem_singleton] at hc; subst hc; exact digitChar_ne _ (by omega)

theorem decimal_inj (a b : ℕ) (h : decimal a = decimal b) : a = b := by
  induction a using Nat.strong_induction_on generalizing b with
  | _ a ih =>
    rw [decimal, decimal.eq_def b] at h
    split at h <;> split at h
    · rename_i ha hb
      exact digitChar_inj a b ha hb (by simpa using h)
    · rename_i ha hb
      have hl := congrArg List.length h
      have : (decimal (b / 10)).length ≠ 0 := by
        intro h0; exact decimal_ne_nil _ (List.eq_nil_of_length_eq_zero h0)
      simp at hl; exact absurd (List.eq_nil_of_length_eq_zero (by simpa using hl)) (decimal_ne_nil _)
    · rename_i ha hb
      have hl := congrArg List.length h
      simp at hl; exact absurd (List.eq_nil_of_length_eq_zero (by simpa using hl)) (decimal_ne_nil _)
    · rename_i ha hb
      obtain ⟨h1, h2⟩ := List.append_inj' h rfl
      have e1 := ih (a / 10) (by omega) (b / 10) h1
      have e2 := digitChar_inj (a % 10) (b % 10) (by omega) (by omega) (by simpa using h2)
      omega

theorem padded_inj (k a b : ℕ) (h : padded k a = padded k b) : a = b := by
  unfold padded at h
  have strip : ∀ (m : ℕ) (l : List Char), (∀ c ∈ l, c ≠ ' ') →
      (List.replicate m ' ' ++ l).dropWhile (· == ' ') = l := by
    intro m l hl
    induction m with
    | zero =>
      cases l with
      | nil => rfl
      | cons c l => simp [hl c (by simp)]
    | succ m ih => simp [List.replicate_succ, ih]
  have h' := congrArg (List.dropWhile (· == ' ')) h
  rw [strip _ _ (fun c hc => (decimal_chars a c hc).1), strip _ _ (fun c hc => (decimal_chars b c hc).1)] at h'
  exact decimal_inj _ _ h'

theorem padded_no_comma (k a : ℕ) : ',' ∉ padded k a := by
  unfold padded
  intro h
  rcases List.mem_append.1 h with h | h
  · have := List.eq_of_mem_replicate h; exact absurd this (by decide)
  · exact (decimal_chars a _ h).2 rfl

theorem split_comma (a b x y : List Char) (ha : ',' ∉ a) (hb : ',' ∉ b)
    (h : a ++ ',' :: x = b ++ ',' :: y) : a = b ∧ x = y := by
  induction a generalizing b with
  | nil =>
    cases b with
    | nil => simpa using h
    | cons c b =>
      simp only [List.nil_append, List.cons_append, List.cons.injEq] at h
      exact absurd (by rw [h.1]; exact List.mem_cons_self) hb
  | cons c a ih =>
    cases b with
    | nil =>
      simp only [List.nil_append, List.cons_append, List.cons.injEq] at h
      exact absurd (by simp [h.1]) ha
    | cons d b =>
      simp only [List.cons_append, List.cons.injEq] at h
      obtain ⟨e1, e2⟩ := ih b (fun hm => ha (by simp [hm])) (fun hm => hb (by simp [hm])) h.2
      exact ⟨by rw [h.1, e1], e2⟩

theorem joinLabel_inj (k : ℕ) (a b : List ℕ) (hl : a.length = b.length)
    (h : joinLabel k a = joinLabel k b) : a = b := by
  induction a generalizing b with
  | nil => cases b with
    | nil => rfl
    | cons _ _ => simp at hl
  | cons x a ih =>
    cases b with
    | nil => simp at hl
    | cons y b =>
      cases a with
      | nil =>
        cases b with
        | nil => simp only [joinLabel] at h; rw [padded_inj k x y h]
        | cons _ _ => simp at hl
      | cons x' a =>
        cases b with
        | nil => simp at hl
        | cons y' b =>
          simp only [joinLabel, List.append_assoc, List.cons_append, List.nil_append] at h
          obtain ⟨h1, h2⟩ := split_comma _ _ _ _ (padded_no_comma k x) (padded_no_comma k y) h
          simp only [List.cons.injEq, true_and] at h2
          rw [padded_inj k x y h1, ih (y' :: b) (by simpa using hl) h2]

/-- Different elements of an array of any shape have different labels. -/
theorem labels_unique (shape : List ℕ) (hne : shape ≠ []) (f g : ℕ)
    (hf : f < numberOfElements shape) (hg : g < numberOfElements shape)
    (h : indicesLabel shape f = indicesLabel shape g) : f = g := by
  unfold indicesLabel at h
  split at h
  · omega
  · simp only [List.cons_append, List.nil_append, List.cons.injEq, true_and] at h
    have h1 := List.append_inj_left' h rfl
    rw [numberOfElements_eq] at hf hg
    obtain ⟨i1, e1⟩ := core' shape hne f hf
    obtain ⟨i2, e2⟩ := core' shape hne g hg
    have := joinLabel_inj _ _ _ (i1.length_eq.trans i2.length_eq.symm) h1
    rw [← e1, ← e2, this]

/-- The label of a scalar is empty. -/
theorem scalar_label (f : ℕ) : indicesLabel [1] f = [] := rfl

/-- Non-vacuity: labels of a 2×12 array. -/
example : indicesLabel [2, 12] 11 = "[ 0, 11]".toList ∧ indicesLabel [2, 12] 12 = "[ 1,  0]".toList := by
  constructor <;> simp [indicesLabel, numberOfElements, maxDigits, multiIndex, strides, partialProducts, unflatten, joinLabel, padded, decimal, Nat.digitChar]

end Printemps.C14
