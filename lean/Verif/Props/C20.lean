import Verif.Model.BinaryMatrix
import Mathlib.Logic.Relation
import Mathlib.Data.Finset.Card
import Mathlib.Data.Finset.Range
import Mathlib.Data.Fintype.Card

/-! # C20 — reachability is the transitive closure -/

namespace Printemps.C20
open BinMat

/-- Specification: `j` follows `i` directly. -/
def EdgeIn (n : ℕ) (A : ℕ → ℕ → ℕ) (i j : ℕ) : Prop := i < n ∧ j < n ∧ 0 < A i j

theorem any_nonzero (n : ℕ) (A R : Mat) (i j : ℕ) :
    (nonzeros n A i).any (fun k => R k j != 0) = true ↔ ∃ k < n, 0 < A i k ∧ 0 < R k j := by
  rw [List.any_eq_true]
  constructor
  · rintro ⟨k, hk, h⟩
    simp only [nonzeros, List.mem_filter, List.mem_range, decide_eq_true_eq] at hk
    exact ⟨k, hk.1, hk.2, by simp at h; omega⟩
  · rintro ⟨k, h1, h2, h3⟩
    refine ⟨k, ?_, ?_⟩
    · simp only [nonzeros, List.mem_filter, List.mem_range, decide_eq_true_eq]; exact ⟨h1, h2⟩
    · simp; omega

theorem reachStep_mono (n : ℕ) (A : Mat) (s : Mat × Bool) (p : ℕ × ℕ) (i j : ℕ) (h : 0 < s.1 i j) :
    0 < (reachStep n A s p).1 i j := by
  unfold reachStep; split
  · exact h
  · split
    · simp only; split <;> omega
    · exact h

theorem fold_mono (n : ℕ) (A : Mat) (ps : List (ℕ × ℕ)) (s : Mat × Bool) (i j : ℕ) (h : 0 < s.1 i j) :
    0 < (ps.foldl (reachStep n A) s).1 i j := by
  induction ps generalizing s with
  | nil => exact h
  | cons p ps ih => exact ih _ (reachStep_mono n A s p i j h)

theorem fold_sound (n : ℕ) (A : Mat) (P : ℕ → ℕ → Prop)
    (hP : ∀ i k j, i < n → k < n → j < n → 0 < A i k → P k j → P i j) (ps : List (ℕ × ℕ))
    (hps : ∀ p ∈ ps, p.1 < n ∧ p.2 < n) (s : Mat × Bool)
    (h : ∀ i < n, ∀ j < n, 0 < s.1 i j → P i j) :
    ∀ i < n, ∀ j < n, 0 < (ps.foldl (reachStep n A) s).1 i j → P i j := by
  induction ps generalizing s with
  | nil => exact h
  | cons p ps ih =>
    refine ih (fun q hq => hps q (List.mem_cons_of_mem _ hq)) _ ?_
    intro i hi j hj hr
    unfold reachStep at hr
    split at hr
    · exact h i hi j hj hr
    · split at hr
      · rename_i hany
        simp only at hr
        split at hr
        · rename_i hij
          obtain ⟨k, h1, h2, h3⟩ := (any_nonzero n A s.1 p.1 p.2).1 hany
          obtain ⟨rfl, rfl⟩ := hij
          exact hP p.1 k p.2 hi h1 hj h2 (h k h1 p.2 hj h3)
        · exact h i hi j hj hr
      · exact h i hi j hj hr

theorem fold_complete (n : ℕ) (A : Mat) (ps : List (ℕ × ℕ)) (s : Mat × Bool) (i j : ℕ) (hp : (i, j) ∈ ps)
    (k : ℕ) (hk : k < n) (h1 : 0 < A i k) (h2 : 0 < s.1 k j) : 0 < (ps.foldl (reachStep n A) s).1 i j := by
  induction ps generalizing s with
  | nil => simp at hp
  | cons p ps ih =>
    rw [List.foldl_cons]
    rcases List.mem_cons.1 hp with rfl | hp
    · apply fold_mono
      unfold reachStep; split
      · assumption
      · rw [if_pos ((any_nonzero n A s.1 i j).2 ⟨k, hk, h1, h2⟩)]
        simp
    · exact ih _ hp (reachStep_mono n A s p k j h2)

theorem fold_flag (n : ℕ) (A : Mat) (ps : List (ℕ × ℕ)) (s : Mat × Bool)
    (h : (ps.foldl (reachStep n A) s).2 = false) :
    s.2 = false ∧ (ps.foldl (reachStep n A) s).1 = s.1 := by
  induction ps generalizing s with
  | nil => exact ⟨h, rfl⟩
  | cons p ps ih =>
    rw [List.foldl_cons] at h ⊢
    obtain ⟨h1, h2⟩ := ih _ h
    rw [h2]
    unfold reachStep at h1 ⊢
    split at h1
    · rename_i hc; rw [if_pos hc]; exact ⟨h1, rfl⟩
    · rename_i hc
      split at h1
      · exact absurd h1 (by simp)
      · rename_i hd; rw [if_neg hc, if_neg hd]; exact ⟨h1, rfl⟩

theorem mem_indexPairs (n i j : ℕ) : (i, j) ∈ indexPairs n ↔ i < n ∧ j < n := by
  simp [indexPairs]

theorem pass_sound (n : ℕ) (A R : Mat) (P : ℕ → ℕ → Prop)
    (hP : ∀ i k j, i < n → k < n → j < n → 0 < A i k → P k j → P i j)
    (h : ∀ i < n, ∀ j < n, 0 < R i j → P i j) :
    ∀ i < n, ∀ j < n, 0 < (reachPass n A R).1 i j → P i j :=
  fold_sound n A P hP _ (fun p hp => (mem_indexPairs n p.1 p.2).1 hp) (R, false) h

theorem pass_complete (n : ℕ) (A R : Mat) (i j k : ℕ) (hi : i < n) (hj : j < n) (hk : k < n)
    (h1 : 0 < A i k) (h2 : 0 < R k j) : 0 < (reachPass n A R).1 i j :=
  fold_complete n A _ (R, false) i j ((mem_indexPairs n i j).2 ⟨hi, hj⟩) k hk h1 h2

/-- Nodes from which `j` is reached in between one and `l` steps. -/
def Within (n : ℕ) (A : Mat) (j : ℕ) : ℕ → ℕ → Prop
  | 0, _ => False
  | l + 1, i => EdgeIn n A i j ∨ ∃ k, EdgeIn n A i k ∧ Within n A j l k

theorem within_mono (n : ℕ) (A : Mat) (j l i : ℕ) (h : Within n A j l i) : Within n A j (l + 1) i := by
  induction l generalizing i with
  | zero => exact absurd h id
  | succ l ih =>
    rcases h with h | ⟨k, h1, h2⟩
    · exact Or.inl h
    · exact Or.inr ⟨k, h1, ih k h2⟩

theorem loop_sound (n : ℕ) (A : Mat) (P : ℕ → ℕ → Prop)
    (hP : ∀ i k j, i < n → k < n → j < n → 0 < A i k → P k j → P i j) (l : ℕ) (R : Mat)
    (h : ∀ i < n, ∀ j < n, 0 < R i j → P i j) :
    ∀ i < n, ∀ j < n, 0 < reachLoop n A l R i j → P i j := by
  induction l generalizing R with
  | zero => exact h
  | succ l ih =>
    intro i hi j hj
    rw [reachLoop]
    split
    · exact pass_sound n A R P hP h i hi j hj
    · exact ih _ (pass_sound n A R P hP h) i hi j hj

/-- Either the loop has stopped early with a closed matrix, or it holds everything within `m + l` steps. -/
theorem loop_complete (n : ℕ) (A : Mat) (l m : ℕ) (R : Mat) (hA : ∀ i < n, ∀ j < n, 0 < A i j → 0 < R i j)
    (h : ∀ j < n, ∀ i < n, Within n A j m i → 0 < R i j) :
    (∀ i < n, ∀ j < n, 0 < A i j → 0 < reachLoop n A l R i j) ∧
    ((∀ i < n, ∀ k < n, ∀ j < n, 0 < A i k → 0 < reachLoop n A l R k j → 0 < reachLoop n A l R i j) ∨
      ∀ j < n, ∀ i < n, Within n A j (m + l) i → 0 < reachLoop n A l R i j) := by
  induction l generalizing R m with
  | zero => exact ⟨hA, Or.inr h⟩
  | succ l ih =>
    rw [reachLoop]
    have hA' : ∀ i < n, ∀ j < n, 0 < A i j → 0 < (reachPass n A R).1 i j :=
      fun i hi j hj h0 => fold_mono n A _ (R, false) i j (hA i hi j hj h0)
    cases hf : (reachPass n A R).2 with
    | false =>
      have := fold_flag n A (indexPairs n) (R, false) hf
      simp only [Bool.not_false, if_true]
      refine ⟨hA', Or.inl fun i hi k hk j hj h1 h2 => ?_⟩
      have he : (reachPass n A R).1 = R := this.2
      rw [he] at h2
      exact pass_complete n A R i j k hi hj hk h1 h2
    | true =>
      simp only [Bool.not_true, Bool.false_eq_true, if_false]
      have := ih (m + 1) (reachPass n A R).1 hA' (by
        intro j hj i hi hw
        rcases hw with hw | ⟨k, h1, h2⟩
        · exact hA' i hi j hj hw.2.2
        · exact pass_complete n A R i j k hi hj h1.2.1 h1.2.2 (h j hj k h1.2.1 h2))
      rw [show m + (l + 1) = m + 1 + l by omega]; exact this

/-- Everything reachable is reachable within `n` steps. -/
theorem within_n (n : ℕ) (A : Mat) (j l i : ℕ) (h : Within n A j l i) : Within n A j n i := by
  classical
  let S : ℕ → Finset ℕ := fun l => (Finset.range n).filter fun i => Within n A j l i
  have hlt : ∀ l i, Within n A j l i → i < n := by
    intro l i h
    cases l with
    | zero => exact absurd h id
    | succ l => rcases h with h | ⟨k, h, _⟩ <;> exact h.1
  have hmem : ∀ l i, i ∈ S l ↔ Within n A j l i := by
    intro l i; simp only [S, Finset.mem_filter, Finset.mem_range]
    exact ⟨fun h => h.2, fun h => ⟨hlt l i h, h⟩⟩
  have hstep : ∀ l, S l = S (l + 1) → S (l + 1) = S (l + 2) := by
    intro l he
    ext i
    rw [hmem, hmem]
    simp only [Within]
    refine or_congr Iff.rfl (exists_congr fun k => and_congr Iff.rfl ?_)
    show Within n A j l k ↔ Within n A j (l + 1) k
    rw [← hmem, ← hmem, he]
  have hsub : ∀ l, S l ⊆ S (l + 1) := by
    intro l i hi; rw [hmem] at hi ⊢; exact within_mono n A j l i hi
  have hgrow : ∀ l, S l = S (l + 1) ∨ l ≤ (S l).card := by
    intro l
    induction l with
    | zero => exact Or.inr (Nat.zero_le _)
    | succ l ih =>
      by_cases he : S l = S (l + 1)
      · exact Or.inl (hstep l he)
      · right
        rcases ih with ih | ih
        · exact absurd ih he
        · have := Finset.card_lt_card ((hsub l).ssubset_of_ne he)
          omega
  have hstab : S n = S (n + 1) := by
    rcases hgrow n with h | h
    · exact h
    · have h1 : S n = Finset.range n :=
        Finset.eq_of_subset_of_card_le (Finset.filter_subset _ _) (by simpa using h)
      apply Finset.Subset.antisymm (hsub n)
      rw [h1]; exact Finset.filter_subset _ _
  have hall : ∀ m, S (n + m) = S n := by
    intro m
    have hst : ∀ m, S (n + m) = S (n + m + 1) := by
      intro m
      induction m with
      | zero => exact hstab
      | succ m ih => exact hstep _ ih
    induction m with
    | zero => rfl
    | succ m ih => rw [← ih]; exact (hst m).symm
  have hup : ∀ m, S l ⊆ S (l + m) := by
    intro m
    induction m with
    | zero => exact fun _ h => h
    | succ m ih => exact ih.trans (hsub (l + m))
  rw [← hmem, ← hall l, Nat.add_comm]
  exact hup n ((hmem l i).2 h)

theorem transGen_within (n : ℕ) (A : Mat) (i j : ℕ) (h : Relation.TransGen (EdgeIn n A) i j) :
    ∃ l, Within n A j l i := by
  induction h using Relation.TransGen.head_induction_on with
  | single h => exact ⟨1, Or.inl h⟩
  | head h _ ih => obtain ⟨l, hl⟩ := ih; exact ⟨l + 1, Or.inr ⟨_, h, hl⟩⟩

theorem transGen_lt (n : ℕ) (A : Mat) (i j : ℕ) (h : Relation.TransGen (EdgeIn n A) i j) : i < n ∧ j < n := by
  induction h with
  | single h => exact ⟨h.1, h.2.1⟩
  | tail _ h ih => exact ⟨ih.1, h.2.1⟩

/-- Entry `(i, j)` of the reachability matrix is set exactly when a path of one or more edges leads from `i`
to `j`. -/
theorem reachability_iff_path (n : ℕ) (A : Mat) (i j : ℕ) (hi : i < n) (hj : j < n) :
    0 < reachability n A i j ↔ Relation.TransGen (EdgeIn n A) i j := by
  constructor
  · refine loop_sound n A (Relation.TransGen (EdgeIn n A)) ?_ n A ?_ i hi j hj
    · intro i k j hi hk hj h1 h2; exact Relation.TransGen.head ⟨hi, hk, h1⟩ h2
    · intro i hi j hj h; exact Relation.TransGen.single ⟨hi, hj, h⟩
  · intro h
    obtain ⟨hA, hc⟩ := loop_complete n A n 0 A (fun _ _ _ _ h => h) (fun _ _ _ _ h => absurd h id)
    rcases hc with hc | hc
    · clear hi
      show 0 < reachLoop n A n A i j
      induction h using Relation.TransGen.head_induction_on with
      | single h => exact hA _ h.1 _ h.2.1 h.2.2
      | head h _ ih => exact hc _ h.1 _ h.2.1 _ hj h.2.2 ih
    · obtain ⟨l, hl⟩ := transGen_within n A i j h
      exact hc j hj i hi (by rw [Nat.zero_add]; exact within_n n A j l i hl)

/-- Non-vacuity: a chain 0 → 1 → 2. -/
example : reachability 3 (fun i j => if j = i + 1 then 1 else 0) 0 2 = 1 ∧
    reachability 3 (fun i j => if j = i + 1 then 1 else 0) 2 0 = 0 := by decide

end Printemps.C20
