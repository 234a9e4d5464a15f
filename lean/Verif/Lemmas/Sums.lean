import Verif.Prelude
import Mathlib.Algebra.BigOperators.Group.Finset.Basic

/-! Sums over lists. -/

namespace Printemps

theorem sum_map_congr {α} (l : List α) (f g : α → ℚ) (h : ∀ a ∈ l, f a = g a) :
    (l.map f).sum = (l.map g).sum := by
  rw [List.map_congr_left h]

theorem sum_map_zero {α} (l : List α) (f : α → ℚ) (h : ∀ a ∈ l, f a = 0) : (l.map f).sum = 0 := by
  rw [sum_map_congr l f (fun _ => 0) h]; simp

theorem sum_map_add {α} (l : List α) (f g : α → ℚ) :
    (l.map (fun a => f a + g a)).sum = (l.map f).sum + (l.map g).sum := by
  induction l with
  | nil => simp
  | cons a l ih => simp only [List.map_cons, List.sum_cons, ih]; ring

theorem sum_map_sub {α} (l : List α) (f g : α → ℚ) :
    (l.map (fun a => f a - g a)).sum = (l.map f).sum - (l.map g).sum := by
  induction l with
  | nil => simp
  | cons a l ih => simp only [List.map_cons, List.sum_cons, ih]; ring

theorem sum_map_mul_right {α} (l : List α) (f : α → ℚ) (c : ℚ) :
    (l.map (fun a => f a * c)).sum = (l.map f).sum * c := by
  induction l with
  | nil => simp
  | cons a l ih => simp only [List.map_cons, List.sum_cons, ih]; ring

theorem sum_filter {α} (l : List α) (p : α → Bool) (f : α → ℚ) :
    ((l.filter p).map f).sum = (l.map (fun a => if p a then f a else 0)).sum := by
  induction l with
  | nil => simp
  | cons a l ih =>
    by_cases h : p a
    · simp [h, ih]
    · simp [h, ih]

/-- A sum over a duplicate-free list only needs a duplicate-free sublist carrying all non-zero terms. -/
theorem sum_subset {α} [DecidableEq α] (l s : List α) (f : α → ℚ) (hl : l.Nodup) (hs : s.Nodup)
    (hsub : ∀ a ∈ s, a ∈ l) (hz : ∀ a ∈ l, a ∉ s → f a = 0) : (l.map f).sum = (s.map f).sum := by
  rw [← List.sum_toFinset f hl, ← List.sum_toFinset f hs]
  symm
  refine Finset.sum_subset (fun a ha => ?_) (fun a ha hn => ?_)
  · rw [List.mem_toFinset] at *; exact hsub a ha
  · rw [List.mem_toFinset] at *; exact hz a ha (by simpa using hn)

theorem sum_filter_zero {α} (l : List α) (p : α → Bool) (f : α → ℚ) (hz : ∀ a ∈ l, p a = false → f a = 0) :
    (l.map f).sum = ((l.filter p).map f).sum := by
  induction l with
  | nil => rfl
  | cons a l ih =>
    have := ih fun b hb => hz b (List.mem_cons_of_mem _ hb)
    rw [List.map_cons, List.sum_cons, this]
    cases hp : p a
    · rw [List.filter_cons_of_neg (by simp [hp]), hz a (by simp) hp, zero_add]
    · rw [List.filter_cons_of_pos hp, List.map_cons, List.sum_cons]

/-- Summing over a list that may repeat or omit elements with value 0. -/
theorem sum_subset_filter {α} [DecidableEq α] (l s : List α) (p : α → Bool) (f : α → ℚ) (hl : l.Nodup)
    (hs : (s.filter p).Nodup) (hsub : ∀ a ∈ s, a ∈ l) (hz : ∀ a ∈ l, a ∉ s → f a = 0) (hp : ∀ a ∈ l, p a = false → f a = 0) :
    (l.map f).sum = (s.map f).sum := by
  rw [sum_filter_zero s p f fun a ha h => hp a (hsub a ha) h]
  refine sum_subset l _ f hl hs (fun a ha => hsub a (List.mem_filter.1 ha).1) fun a ha hn => ?_
  cases h : p a
  · exact hp a ha h
  · exact hz a ha fun hm => hn (List.mem_filter.2 ⟨hm, h⟩)

theorem abs_sum_le {α} (l : List α) (f g : α → ℚ) (h : ∀ a ∈ l, |f a| ≤ g a) :
    |(l.map f).sum| ≤ (l.map g).sum := by
  induction l with
  | nil => simp
  | cons a l ih =>
    simp only [List.map_cons, List.sum_cons]
    exact (abs_add_le _ _).trans (add_le_add (h a (by simp)) (ih fun b hb => h b (by simp [hb])))

theorem sum_map_nonneg {α} (l : List α) (f : α → ℚ) (h : ∀ a ∈ l, 0 ≤ f a) : 0 ≤ (l.map f).sum := by
  refine List.sum_nonneg ?_
  intro x hx
  obtain ⟨a, ha, rfl⟩ := List.mem_map.1 hx
  exact h a ha

theorem sum_map_le {α} (l : List α) (f g : α → ℚ) (h : ∀ a ∈ l, f a ≤ g a) :
    (l.map f).sum ≤ (l.map g).sum := List.sum_le_sum h

theorem sum_const {α} (l : List α) (c : ℚ) : (l.map (fun _ => c)).sum = l.length * c := by
  induction l with
  | nil => simp
  | cons a l ih => simp only [List.map_cons, List.sum_cons, ih, List.length_cons]; push_cast; ring

end Printemps
