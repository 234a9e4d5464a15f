import Verif.Lemmas.BinaryMatrix

/-! # C18 — the inverse modulo 2 is an inverse -/

namespace Printemps.C18
open BinMat

/-- Specification: entry `(i, j)` of the product of two `n × n` integer matrices. -/
def product (n : ℕ) (M N : ℕ → ℕ → ℕ) (i j : ℕ) : ℕ := ∑ k ∈ Finset.range n, M i k * N k j

/-- Specification: `M` and `N` multiply to the identity modulo 2. -/
def InverseMod2 (n : ℕ) (M N : ℕ → ℕ → ℕ) : Prop :=
  ∀ i < n, ∀ j < n, product n M N i j % 2 = if i = j then 1 else 0

theorem toM_mul (n : ℕ) (M N : Mat) (i j : Fin n) :
    (toM n M * toM n N) i j = (product n M N i j : ZMod 2) := by
  rw [Matrix.mul_apply, product]
  push_cast
  rw [Finset.sum_range]
  rfl

theorem inverse_iff (n : ℕ) (M N : Mat) : InverseMod2 n M N ↔ toM n M * toM n N = 1 := by
  constructor
  · intro h
    ext i j
    rw [toM_mul, Matrix.one_apply, ← ZMod.natCast_mod, h i i.isLt j j.isLt]
    simp only [Fin.ext_iff]
    split <;> simp
  · intro h i hi j hj
    have := congrFun (congrFun h ⟨i, hi⟩) ⟨j, hj⟩
    rw [toM_mul, Matrix.one_apply] at this
    simp only [Fin.mk.injEq] at this
    split at this <;> rename_i hij
    · rw [if_pos hij]
      have h2 : (product n M N i j : ZMod 2) = ((1 : ℕ) : ZMod 2) := by rw [Nat.cast_one]; exact this
      rw [ZMod.natCast_eq_natCast_iff'] at h2
      simpa using h2
    · rw [if_neg hij]
      have h2 : (product n M N i j : ZMod 2) = ((0 : ℕ) : ZMod 2) := by rw [Nat.cast_zero]; exact this
      rw [ZMod.natCast_eq_natCast_iff'] at h2
      simpa using h2

/-- When the reported rank is the size, the returned matrix is a two-sided inverse modulo 2, and its entries
are 0 or 1. -/
theorem full_rank_gives_inverse (n : ℕ) (A : Mat) (hA : ∀ i < n, ∀ j < n, A i j < 2)
    (h : (inverseAndRank n A).2 = n) :
    InverseMod2 n (inverseAndRank n A).1 A ∧ InverseMod2 n A (inverseAndRank n A).1 ∧
      ∀ i < n, ∀ j < n, (inverseAndRank n A).1 i j < 2 := by
  obtain ⟨h1, h2⟩ := full_rank_inverse hA h
  refine ⟨(inverse_iff _ _ _).2 h1, (inverse_iff _ _ _).2 ?_, h2⟩
  exact mul_eq_one_comm.1 h1

theorem dotVec_eq (n : ℕ) (M : Mat) (v : ℕ → ℕ) (i : ℕ) :
    dotVec n M v i = (∑ k ∈ Finset.range n, M i k * v k) % 2 := by
  have : ∀ (f : ℕ → ℕ) (m a : ℕ), (List.range m).foldl (fun acc k => acc + f k) a = a + ∑ k ∈ Finset.range m, f k := by
    intro f m
    induction m with
    | zero => intro a; simp
    | succ m ih => intro a; rw [List.range_succ, List.foldl_append, ih, Finset.sum_range_succ]; simp; omega
  unfold dotVec
  rw [this (fun k => M i k * v k) n 0, Nat.zero_add]

/-- The matrix product of the code is the product modulo 2. -/
theorem dot_is_product (n : ℕ) (M N : Mat) (i j : ℕ) : dotMat n M N i j = product n M N i j % 2 :=
  dotVec_eq n M (fun k => N k j) i

/-- Solving with the inverse: `x = inverse · c` satisfies every equation `Σ A x ≡ c (mod 2)`. -/
theorem solves_linear_system (n : ℕ) (A : Mat) (hA : ∀ i < n, ∀ j < n, A i j < 2)
    (h : (inverseAndRank n A).2 = n) (c : ℕ → ℕ) (i : ℕ) (hi : i < n) :
    (∑ k ∈ Finset.range n, A i k * dotVec n (inverseAndRank n A).1 c k) % 2 = c i % 2 := by
  obtain ⟨_, h2, _⟩ := full_rank_gives_inverse n A hA h
  set B := (inverseAndRank n A).1
  have e : ((∑ k ∈ Finset.range n, A i k * dotVec n B c k : ℕ) : ZMod 2) = (c i : ZMod 2) := by
    push_cast
    have e1 : ∀ k, ((dotVec n B c k : ℕ) : ZMod 2) = ∑ l ∈ Finset.range n, (B k l : ZMod 2) * c l := by
      intro k; rw [dotVec_eq, ZMod.natCast_mod]; push_cast; rfl
    simp only [e1, Finset.mul_sum]
    rw [Finset.sum_comm]
    have e2 : ∀ l ∈ Finset.range n, (∑ k ∈ Finset.range n, (A i k : ZMod 2) * ((B k l : ZMod 2) * c l))
        = if i = l then (c l : ZMod 2) else 0 := by
      intro l hl
      have hp := h2 i hi l (Finset.mem_range.1 hl)
      have hp' : ((product n A B i l : ℕ) : ZMod 2) = if i = l then 1 else 0 := by
        rw [← ZMod.natCast_mod, hp]; split <;> simp
      rw [product] at hp'
      push_cast at hp'
      have : (∑ k ∈ Finset.range n, (A i k : ZMod 2) * ((B k l : ZMod 2) * c l))
          = (∑ k ∈ Finset.range n, (A i k : ZMod 2) * (B k l : ZMod 2)) * c l := by
        rw [Finset.sum_mul]; apply Finset.sum_congr rfl; intros; ring
      rw [this, hp']; split <;> simp
    rw [Finset.sum_congr rfl e2, Finset.sum_ite_eq]
    simp [hi]
  exact (ZMod.natCast_eq_natCast_iff' _ _ _).1 e

/-- Non-vacuity: a 3×3 matrix that needs a row swap and back substitution. -/
def sampleMatrix : Mat := fun i j => ([[0, 1, 1], [1, 1, 0], [1, 0, 0]].getD i []).getD j 0

example : (∀ i < 3, ∀ j < 3, sampleMatrix i j < 2) ∧ (inverseAndRank 3 sampleMatrix).2 = 3 := by decide

end Printemps.C18
