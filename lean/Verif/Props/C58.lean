import Verif.Model.Queue
import Mathlib.Data.List.TakeDrop
import Mathlib.Algebra.BigOperators.Group.List.Basic

/-! # C58 — fixed-size queue statistics -/

namespace Printemps.C58
open Queue

/-- The last `n` values of a history. -/
def lastN (n : ℕ) (l : List ℚ) : List ℚ := l.drop (l.length - n)

/-- Pushing a whole history. -/
def pushAll (s : FQ) (l : List ℚ) : Option FQ := l.foldl (fun s x => s.bind fun s => s.push x) (some s)

/-- After any history the queue holds exactly the last `max_size` values, in order. -/
theorem holds_last_values (n : ℕ) (hn : 0 < n) (l : List ℚ) :
    pushAll (FQ.setup n) l = some ⟨n, lastN n l⟩ := by
  induction l using List.reverseRecOn with
  | nil => simp [pushAll, FQ.setup, lastN]
  | append_singleton l x ih =>
    unfold pushAll at ih ⊢
    rw [List.foldl_append, ih]
    simp only [List.foldl_cons, List.foldl_nil, Option.bind_some, FQ.push]
    have hlen : (lastN n l).length = min n l.length := by simp [lastN]; omega
    by_cases hc : n ≤ l.length
    · rw [if_pos (by rw [hlen]; omega)]
      cases hq : lastN n l with
      | nil => rw [hq] at hlen; simp at hlen; omega
      | cons y t =>
        simp only
        congr 2
        have : t = l.drop (l.length - n + 1) := by
          have h1 : (lastN n l).drop 1 = t := by rw [hq]; rfl
          rw [← h1, lastN, List.drop_drop]
        rw [this, lastN, List.length_append, List.length_singleton,
          List.drop_append_of_le_length (by omega)]
        congr 2; omega
    · rw [if_neg (by rw [hlen]; omega)]
      congr 2
      rw [lastN, lastN, List.length_append, List.length_singleton,
        show l.length - n = 0 by omega, show l.length + 1 - n = 0 by omega]
      rfl

theorem foldl_min (l : List ℚ) (x : ℚ) :
    let m := l.foldl (fun m y => if y < m then y else m) x
    m ∈ x :: l ∧ ∀ y ∈ x :: l, m ≤ y := by
  induction l generalizing x with
  | nil => simp
  | cons a l ih =>
    simp only [List.foldl_cons]
    obtain ⟨h1, h2⟩ := ih (if a < x then a else x)
    refine ⟨?_, ?_⟩
    · rcases List.mem_cons.1 h1 with h | h
      · rw [h]; split <;> simp
      · simp [h]
    · have h0 := h2 _ List.mem_cons_self
      intro y hy
      rcases List.mem_cons.1 hy with rfl | hy
      · refine le_trans h0 ?_; split
        · exact le_of_lt (by assumption)
        · exact le_rfl
      · rcases List.mem_cons.1 hy with rfl | hy
        · refine le_trans h0 ?_; split
          · exact le_rfl
          · exact not_lt.1 (by assumption)
        · exact h2 y (List.mem_cons_of_mem _ hy)

theorem foldl_max (l : List ℚ) (x : ℚ) :
    let m := l.foldl (fun m y => if m < y then y else m) x
    m ∈ x :: l ∧ ∀ y ∈ x :: l, y ≤ m := by
  induction l generalizing x with
  | nil => simp
  | cons a l ih =>
    simp only [List.foldl_cons]
    obtain ⟨h1, h2⟩ := ih (if x < a then a else x)
    refine ⟨?_, ?_⟩
    · rcases List.mem_cons.1 h1 with h | h
      · rw [h]; split <;> simp
      · simp [h]
    · have h0 := h2 _ List.mem_cons_self
      intro y hy
      rcases List.mem_cons.1 hy with rfl | hy
      · refine le_trans ?_ h0; split
        · exact le_of_lt (by assumption)
        · exact le_rfl
      · rcases List.mem_cons.1 hy with rfl | hy
        · refine le_trans ?_ h0; split
          · exact le_rfl
          · exact not_lt.1 (by assumption)
        · exact h2 y (List.mem_cons_of_mem _ hy)

/-- The statistics after a non-empty history are those of the last `max_size` values. -/
theorem statistics_of_last_values (n : ℕ) (hn : 0 < n) (l : List ℚ) (hl : l ≠ []) :
    ∃ s lo hi av, pushAll (FQ.setup n) l = some s ∧ s.min = some lo ∧ s.max = some hi ∧
      s.average = some av ∧
      (lo ∈ lastN n l ∧ ∀ y ∈ lastN n l, lo ≤ y) ∧ (hi ∈ lastN n l ∧ ∀ y ∈ lastN n l, y ≤ hi) ∧
      av * (lastN n l).length = (lastN n l).sum := by
  have hne : lastN n l ≠ [] := by
    intro h
    have := congrArg List.length h
    have hl' : l.length ≠ 0 := fun h0 => hl (List.eq_nil_of_length_eq_zero h0)
    simp [lastN] at this; omega
  refine ⟨⟨n, lastN n l⟩, ?_⟩
  cases hq : lastN n l with
  | nil => exact absurd hq hne
  | cons x t =>
    refine ⟨t.foldl (fun m y => if y < m then y else m) x,
      t.foldl (fun m y => if m < y then y else m) x, (x :: t).foldl (· + ·) 0 / (x :: t).length,
      hq ▸ holds_last_values n hn l, ?_, ?_, ?_, ?_, ?_, ?_⟩
    · simp [FQ.min, minElt]
    · simp [FQ.max, maxElt]
    · simp [FQ.average]
    · exact foldl_min t x
    · exact foldl_max t x
    · rw [div_mul_cancel₀ _ (Nat.cast_ne_zero.2 (by simp)), List.sum_eq_foldl]

/-- The first push on a queue of maximal size zero is undefined behaviour. -/
theorem zero_size_push_undefined (x : ℚ) : (FQ.setup 0).push x = none := rfl

/-- Non-vacuity. -/
example : pushAll (FQ.setup 2) [1, 5, 3] = some ⟨2, [5, 3]⟩ := by
  have := holds_last_values 2 (by decide) [1, 5, 3]
  simpa [lastN] using this

end Printemps.C58
