import Verif.Lemmas.Expression

/-! # C03 — expression bounds enclose every reachable value and are attained -/

namespace Printemps.C03
open Printemps.Expr

/-- An assignment respects bounds and fixings: fixed variables keep their value, all others lie
between their bounds. -/
def Respects (b : ℕ → Box) (σ : ℕ → ℤ) : Prop :=
  ∀ v, ((b v).fixed = true → σ v = (b v).value) ∧
       ((b v).fixed = false → (b v).lb ≤ σ v ∧ σ v ≤ (b v).ub)

theorem foldl_lower (ts : List (ℕ × ℚ)) (b : ℕ → Box) (c : ℚ) :
    ts.foldl (fun acc t =>
      if (b t.1).fixed then acc + t.2 * ((b t.1).value : ℚ)
      else acc + t.2 * (((if t.2 > 0 then (b t.1).lb else (b t.1).ub) : ℤ) : ℚ)) c
    = c + (ts.map (fun t => t.2 * (((if (b t.1).fixed then (b t.1).value
        else if t.2 > 0 then (b t.1).lb else (b t.1).ub) : ℤ) : ℚ))).sum := by
  induction ts generalizing c with
  | nil => simp
  | cons t ts ih =>
    simp only [List.foldl_cons, List.map_cons, List.sum_cons, ih]
    split <;> ring

theorem foldl_upper (ts : List (ℕ × ℚ)) (b : ℕ → Box) (c : ℚ) :
    ts.foldl (fun acc t =>
      if (b t.1).fixed then acc + t.2 * ((b t.1).value : ℚ)
      else acc + t.2 * (((if t.2 > 0 then (b t.1).ub else (b t.1).lb) : ℤ) : ℚ)) c
    = c + (ts.map (fun t => t.2 * (((if (b t.1).fixed then (b t.1).value
        else if t.2 > 0 then (b t.1).ub else (b t.1).lb) : ℤ) : ℚ))).sum := by
  induction ts generalizing c with
  | nil => simp
  | cons t ts ih =>
    simp only [List.foldl_cons, List.map_cons, List.sum_cons, ih]
    split <;> ring

/-- Every value reachable within bounds and fixings lies between `lower_bound()` and `upper_bound()`.
(No assumption on duplicate entries is needed.) -/
theorem bounds_enclose (e : Expr) (b : ℕ → Box) (σ : ℕ → ℤ) (h : Respects b σ) :
    e.lowerBound b ≤ e.evaluate σ ∧ e.evaluate σ ≤ e.upperBound b := by
  rw [evaluate_eq, lowerBound, upperBound, foldl_lower, foldl_upper, lin]
  constructor
  · refine add_le_add le_rfl (List.sum_le_sum fun t _ => ?_)
    obtain ⟨h1, h2⟩ := h t.1
    by_cases hf : (b t.1).fixed = true
    · rw [if_pos hf, h1 hf]
    · have h2 := h2 (by simpa using hf)
      rw [if_neg hf]
      split
      · exact mul_le_mul_of_nonneg_left (by exact_mod_cast h2.1) (le_of_lt ‹_›)
      · exact mul_le_mul_of_nonpos_left (by exact_mod_cast h2.2) (not_lt.1 ‹_›)
  · refine add_le_add le_rfl (List.sum_le_sum fun t _ => ?_)
    obtain ⟨h1, h2⟩ := h t.1
    by_cases hf : (b t.1).fixed = true
    · rw [if_pos hf, h1 hf]
    · have h2 := h2 (by simpa using hf)
      rw [if_neg hf]
      split
      · exact mul_le_mul_of_nonneg_left (by exact_mod_cast h2.2) (le_of_lt ‹_›)
      · exact mul_le_mul_of_nonpos_left (by exact_mod_cast h2.1) (not_lt.1 ‹_›)

theorem map_sum_congr {α} (l : List α) (f g : α → ℚ) (h : ∀ a ∈ l, f a = g a) :
    (l.map f).sum = (l.map g).sum := by
  rw [List.map_congr_left h]

/-- The lower bound is attained by an assignment respecting bounds and fixings. -/
theorem lower_bound_attained (e : Expr) (hwf : (e.terms.map Prod.fst).Nodup) (b : ℕ → Box)
    (hb : ∀ v, (b v).lb ≤ (b v).ub) :
    ∃ σ, Respects b σ ∧ e.evaluate σ = e.lowerBound b := by
  refine ⟨fun v => if (b v).fixed then (b v).value
    else if lookup e.terms v > 0 then (b v).lb else (b v).ub, ?_, ?_⟩
  · intro v
    refine ⟨fun hf => by simp [hf], fun hf => ?_⟩
    simp only [hf, Bool.false_eq_true, if_false]
    split
    · exact ⟨le_rfl, hb v⟩
    · exact ⟨hb v, le_rfl⟩
  · rw [evaluate_eq, lowerBound, foldl_lower, lin]
    congr 1
    refine map_sum_congr _ _ _ fun t ht => ?_
    rw [lookup_of_mem e.terms hwf t.1 t.2 ht]

/-- The upper bound is attained by an assignment respecting bounds and fixings. -/
theorem upper_bound_attained (e : Expr) (hwf : (e.terms.map Prod.fst).Nodup) (b : ℕ → Box)
    (hb : ∀ v, (b v).lb ≤ (b v).ub) :
    ∃ σ, Respects b σ ∧ e.evaluate σ = e.upperBound b := by
  refine ⟨fun v => if (b v).fixed then (b v).value
    else if lookup e.terms v > 0 then (b v).ub else (b v).lb, ?_, ?_⟩
  · intro v
    refine ⟨fun hf => by simp [hf], fun hf => ?_⟩
    simp only [hf, Bool.false_eq_true, if_false]
    split
    · exact ⟨hb v, le_rfl⟩
    · exact ⟨le_rfl, hb v⟩
  · rw [evaluate_eq, upperBound, foldl_upper, lin]
    congr 1
    refine map_sum_congr _ _ _ fun t ht => ?_
    rw [lookup_of_mem e.terms hwf t.1 t.2 ht]

/-- `2*x0 - 3*x1 + 1`, x0 in [0,5], x1 fixed at 2: bounds -5 and 5, both hypotheses met. -/
example : let e : Expr := ⟨[(0, 2), (1, -3)], 1, 0⟩
    let b : ℕ → Box := fun v => if v = 0 then ⟨3, 0, 5, false⟩ else ⟨2, 0, 9, true⟩
    (e.terms.map Prod.fst).Nodup ∧ (∀ v, (b v).lb ≤ (b v).ub) ∧
    e.lowerBound b = -5 ∧ e.upperBound b = 5 ∧ Respects b (fun v => if v = 0 then 3 else 2) := by
  refine ⟨by decide, fun v => ?_, ?_, ?_, fun v => ?_⟩
  · dsimp only; split <;> simp
  · norm_num [lowerBound]
  · norm_num [upperBound]
  · dsimp only; split <;> simp

end Printemps.C03
