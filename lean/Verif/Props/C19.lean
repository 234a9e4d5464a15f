import Verif.Props.C18

/-! # C19 — full rank is reported exactly for invertible matrices -/

namespace Printemps.C19
open BinMat C18

/-- The reported rank is the size exactly when some matrix multiplies the input to the identity modulo 2. -/
theorem full_rank_iff_invertible (n : ℕ) (A : Mat) (hA : ∀ i < n, ∀ j < n, A i j < 2) :
    (inverseAndRank n A).2 = n ↔ ∃ C : ℕ → ℕ → ℕ, InverseMod2 n C A := by
  constructor
  · intro h; exact ⟨_, (full_rank_gives_inverse n A hA h).1⟩
  · rintro ⟨C, hC⟩
    by_contra hn
    obtain ⟨v, hv, hz⟩ := not_full_rank hA hn
    have h1 := (inverse_iff _ _ _).1 hC
    apply hv
    have : Matrix.mulVec (toM n C * toM n A) v = 0 := by
      rw [← Matrix.mulVec_mulVec, hz, Matrix.mulVec_zero]
    rwa [h1, Matrix.one_mulVec] at this

/-- The reported rank never exceeds the size. -/
theorem rank_le_size (n : ℕ) (A : Mat) (hA : ∀ i < n, ∀ j < n, A i j < 2) : (inverseAndRank n A).2 ≤ n := by
  have := (forward_inv n A hA).rank_le
  unfold inverseAndRank
  simp only
  split <;> exact this

/-- A rank below the size is witnessed by a combination of the columns that vanishes modulo 2. -/
theorem deficient_rank_has_kernel (n : ℕ) (A : Mat) (hA : ∀ i < n, ∀ j < n, A i j < 2)
    (h : (inverseAndRank n A).2 < n) :
    ∃ v : ℕ → ℕ, (∃ j < n, v j = 1) ∧ ∀ i < n, (∑ k ∈ Finset.range n, A i k * v k) % 2 = 0 := by
  obtain ⟨v, hv, hz⟩ := not_full_rank hA (Nat.ne_of_lt h)
  refine ⟨fun k => if hk : k < n then (v ⟨k, hk⟩).val else 0, ?_, ?_⟩
  · have : ∃ j, v j ≠ 0 := by
      by_contra hc
      apply hv; funext j; by_contra hj; exact hc ⟨j, hj⟩
    obtain ⟨j, hj⟩ := this
    refine ⟨j, j.isLt, ?_⟩
    simp only [j.isLt, dif_pos]
    have h1 : (v j).val < 2 := ZMod.val_lt _
    have h2 : (v j).val ≠ 0 := by rw [Ne, ZMod.val_eq_zero]; exact hj
    show (v j).val = 1
    omega
  · intro i hi
    have h1 := congrFun hz ⟨i, hi⟩
    have h2 : ((∑ k ∈ Finset.range n, A i k * (if hk : k < n then (v ⟨k, hk⟩).val else 0) : ℕ) : ZMod 2)
        = ((0 : ℕ) : ZMod 2) := by
      push_cast
      rw [Finset.sum_range]
      have : Matrix.mulVec (toM n A) v ⟨i, hi⟩ = ∑ k : Fin n, (A i k : ZMod 2) * v k := rfl
      rw [this] at h1
      rw [Pi.zero_apply] at h1
      rw [← h1]
      apply Finset.sum_congr rfl
      intro k _
      simp
    rw [ZMod.natCast_eq_natCast_iff'] at h2
    simpa using h2

/-- Non-vacuity: a singular matrix (the rows sum to zero). -/
example : (inverseAndRank 3 (fun i j => if i = j then 0 else 1)).2 = 2 := by decide

end Printemps.C19
