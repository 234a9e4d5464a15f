import Verif.Model.BinaryMatrix
import Mathlib.LinearAlgebra.Matrix.ToLinearEquiv
import Mathlib.LinearAlgebra.Matrix.NonsingularInverse
import Mathlib.Data.ZMod.Basic
import Mathlib.Algebra.Field.ZMod

/-! # Lemmas on elimination modulo 2 -/

namespace Printemps.BinMat

/-- A modelled matrix as a Mathlib matrix over the field with two elements. -/
def toM (n : ℕ) (A : Mat) : Matrix (Fin n) (Fin n) (ZMod 2) := fun i j => (A i j : ZMod 2)

/-- All entries are 0 or 1. -/
def Bin (n : ℕ) (A : Mat) : Prop := ∀ i < n, ∀ j < n, A i j < 2

/-- The row-operation invariant. -/
structure RowInv (n : ℕ) (A0 : Mat) (s : Mat × Mat) : Prop where
  mul : toM n s.2 * toM n A0 = toM n s.1
  ker : ∀ v, Matrix.mulVec (toM n s.1) v = 0 → Matrix.mulVec (toM n A0) v = 0
  binA : Bin n s.1
  binB : Bin n s.2

theorem toM_identity (n : ℕ) : toM n identity = 1 := by
  ext i j
  simp [toM, identity, Matrix.one_apply, Fin.ext_iff]

theorem bin_identity (n : ℕ) : Bin n identity := by
  intro i _ j _; unfold identity; split <;> omega

theorem rowInv_start (n : ℕ) (A : Mat) (h : Bin n A) : RowInv n A (A, identity) :=
  ⟨by rw [toM_identity, one_mul], fun _ hv => hv, h, bin_identity n⟩

theorem bin_swap {n : ℕ} {M : Mat} (h : Bin n M) {a b : ℕ} (ha : a < n) (hb : b < n) :
    Bin n (swapRows M a b) := by
  intro i hi j hj
  unfold swapRows; split
  · exact h b hb j hj
  · split
    · exact h a ha j hj
    · exact h i hi j hj

theorem bin_add {n : ℕ} {M : Mat} (h : Bin n M) (src dst : ℕ) : Bin n (addRow n M src dst) := by
  intro i hi j hj
  unfold addRow; split
  · omega
  · exact h i hi j hj

theorem toM_swap (n : ℕ) (M : Mat) (a b : Fin n) (i : Fin n) :
    toM n (swapRows M a b) i = if i = a then toM n M b else if i = b then toM n M a else toM n M i := by
  ext j
  unfold toM swapRows
  simp only [Fin.ext_iff]
  split
  · rfl
  · split <;> rfl

theorem toM_add (n : ℕ) (M : Mat) (src dst : Fin n) (i : Fin n) :
    toM n (addRow n M src dst) i = if i = dst then toM n M i + toM n M src else toM n M i := by
  ext j
  unfold toM addRow
  simp only [Fin.ext_iff, j.isLt, and_true]
  split
  · simp
  · rfl

theorem mul_rows {n : ℕ} (B A : Matrix (Fin n) (Fin n) (ZMod 2)) (i : Fin n) :
    (B * A) i = Matrix.vecMul (B i) A := by
  ext j; rfl

theorem rowInv_swap {n : ℕ} {A0 : Mat} {s : Mat × Mat} (h : RowInv n A0 s) {a b : ℕ} (ha : a < n) (hb : b < n) :
    RowInv n A0 (swapRows s.1 a b, swapRows s.2 a b) := by
  refine ⟨?_, ?_, bin_swap h.binA ha hb, bin_swap h.binB ha hb⟩
  · funext i
    have e1 := toM_swap n s.1 ⟨a, ha⟩ ⟨b, hb⟩ i
    have e2 := toM_swap n s.2 ⟨a, ha⟩ ⟨b, hb⟩ i
    simp only at e1 e2
    rw [mul_rows, e1, e2]
    have hm : ∀ k, Matrix.vecMul (toM n s.2 k) (toM n A0) = toM n s.1 k := by
      intro k; rw [← mul_rows, h.mul]
    split
    · exact hm _
    · split
      · exact hm _
      · exact hm _
  · intro v hv
    apply h.ker
    funext i
    have hrow : ∀ k, (Matrix.mulVec (toM n (swapRows s.1 a b)) v) k = 0 := fun k => congrFun hv k
    have e1 := fun i => toM_swap n s.1 ⟨a, ha⟩ ⟨b, hb⟩ i
    simp only at e1
    have hr : ∀ k, toM n (swapRows s.1 a b) k ⬝ᵥ v = 0 := hrow
    show toM n s.1 i ⬝ᵥ v = 0
    by_cases hia : i = ⟨a, ha⟩
    · have := hr ⟨b, hb⟩
      rw [e1] at this
      split at this
      · rename_i hba; rw [hia, ← hba]; exact this
      · rw [if_pos rfl] at this; rw [hia]; exact this
    · by_cases hib : i = ⟨b, hb⟩
      · have := hr ⟨a, ha⟩
        rw [e1, if_pos rfl] at this; rw [hib]; exact this
      · have := hr i
        rw [e1, if_neg hia, if_neg hib] at this; exact this

theorem rowInv_add {n : ℕ} {A0 : Mat} {s : Mat × Mat} (h : RowInv n A0 s) {src dst : ℕ} (hs : src < n)
    (hd : dst < n) (hne : src ≠ dst) :
    RowInv n A0 (addRow n s.1 src dst, addRow n s.2 src dst) := by
  refine ⟨?_, ?_, bin_add h.binA _ _, bin_add h.binB _ _⟩
  · funext i
    have e1 := toM_add n s.1 ⟨src, hs⟩ ⟨dst, hd⟩ i
    have e2 := toM_add n s.2 ⟨src, hs⟩ ⟨dst, hd⟩ i
    simp only at e1 e2
    rw [mul_rows, e1, e2]
    have hm : ∀ k, Matrix.vecMul (toM n s.2 k) (toM n A0) = toM n s.1 k := by
      intro k; rw [← mul_rows, h.mul]
    split
    · rw [Matrix.add_vecMul, hm, hm]
    · exact hm _
  · intro v hv
    apply h.ker
    funext i
    have e1 := fun i => toM_add n s.1 ⟨src, hs⟩ ⟨dst, hd⟩ i
    simp only at e1
    have hr : ∀ k, toM n (addRow n s.1 src dst) k ⬝ᵥ v = 0 := fun k => congrFun hv k
    have hsrc : toM n s.1 ⟨src, hs⟩ ⬝ᵥ v = 0 := by
      have := hr ⟨src, hs⟩
      rw [e1, if_neg (by simpa [Fin.ext_iff] using hne)] at this; exact this
    show toM n s.1 i ⬝ᵥ v = 0
    have := hr i
    rw [e1] at this
    split at this
    · rw [add_dotProduct, hsrc, add_zero] at this; exact this
    · exact this

/-- Effect of `clear` when the source row is not among the cleared rows. -/
theorem clear_spec {n : ℕ} {A0 : Mat} (src j : ℕ) (hs : src < n) (rows : List ℕ) :
    ∀ s : Mat × Mat, RowInv n A0 s → s.1 src j = 1 → (∀ i ∈ rows, i < n ∧ i ≠ src) → rows.Nodup →
    RowInv n A0 (clear n src j rows s) ∧
    (∀ i, i ∉ rows → (clear n src j rows s).1 i = s.1 i) ∧
    (∀ i ∈ rows, ∀ k < n, (clear n src j rows s).1 i k =
      if s.1 i j = 1 then (s.1 i k + s.1 src k) % 2 else s.1 i k) := by
  induction rows with
  | nil => intro s h _ _ _; exact ⟨h, fun _ _ => rfl, fun i hi => by simp at hi⟩
  | cons r rows ih =>
    intro s h h1 hrows hnd
    obtain ⟨hr, hrs⟩ := hrows r List.mem_cons_self
    obtain ⟨hnr, hnd'⟩ := List.nodup_cons.1 hnd
    have hrows' : ∀ i ∈ rows, i < n ∧ i ≠ src := fun i hi => hrows i (List.mem_cons_of_mem _ hi)
    have hunf : clear n src j (r :: rows) s = clear n src j rows
        (if s.1 r j = 1 then (addRow n s.1 src r, addRow n s.2 src r) else s) := rfl
    rw [hunf]
    by_cases hc : s.1 r j = 1
    · rw [if_pos hc]
      have hrow : ∀ i, i ≠ r → addRow n s.1 src r i = s.1 i := by
        intro i hi; funext k; simp [addRow, hi]
      obtain ⟨i1, i2, i3⟩ := ih (addRow n s.1 src r, addRow n s.2 src r)
        (rowInv_add h hs hr (Ne.symm hrs)) (by simp only; rw [hrow src (Ne.symm hrs)]; exact h1) hrows' hnd'
      refine ⟨i1, ?_, ?_⟩
      · intro i hi
        rw [List.mem_cons, not_or] at hi
        rw [i2 i hi.2]; exact hrow i hi.1
      · intro i hi k hk
        rcases List.mem_cons.1 hi with rfl | hi
        · rw [i2 i hnr, if_pos hc]
          simp [addRow, hk]
        · have hir : i ≠ r := fun he => hnr (he ▸ hi)
          rw [i3 i hi k hk]
          simp only [hrow i hir, hrow src (Ne.symm hrs)]
    · rw [if_neg hc]
      obtain ⟨i1, i2, i3⟩ := ih s h h1 hrows' hnd'
      refine ⟨i1, ?_, ?_⟩
      · intro i hi
        rw [List.mem_cons, not_or] at hi
        exact i2 i hi.2
      · intro i hi k hk
        rcases List.mem_cons.1 hi with rfl | hi
        · rw [i2 i hnr, if_neg hc]
        · exact i3 i hi k hk

/-- Invariant of forward elimination after the columns below `j`. -/
structure FwdInv (n : ℕ) (A0 : Mat) (j : ℕ) (s : (Mat × Mat) × ℕ) : Prop where
  row : RowInv n A0 s.1
  rank_le : s.2 ≤ j
  zero : ∀ i, s.2 ≤ i → i < n → ∀ k < j, s.1.1 i k = 0
  tri : s.2 = j → ∀ k < j, s.1.1 k k = 1 ∧ ∀ i, k < i → i < n → s.1.1 i k = 0

theorem forwardStep_inv {n : ℕ} {A0 : Mat} {j : ℕ} (hj : j < n) {s : (Mat × Mat) × ℕ}
    (h : FwdInv n A0 j s) : FwdInv n A0 (j + 1) (forwardStep n s j) := by
  unfold forwardStep
  cases hp : pivot n s.1.1 s.2 j with
  | none =>
    simp only
    have hnone : ∀ i, s.2 ≤ i → i < n → s.1.1 i j = 0 := by
      intro i h1 h2
      have := List.find?_eq_none.1 hp i (List.mem_range'_1.2 ⟨h1, by omega⟩)
      have hb := h.row.binA i h2 j hj
      simp only [beq_iff_eq] at this
      omega
    refine ⟨h.row, by have := h.rank_le; omega, ?_, fun hc => by have := h.rank_le; omega⟩
    intro i h1 h2 k hk
    rcases Nat.lt_succ_iff_lt_or_eq.1 hk with hk | rfl
    · exact h.zero i h1 h2 k hk
    · exact hnone i h1 h2
  | some row =>
    simp only
    have hmem := List.mem_of_find?_eq_some hp
    have hone : s.1.1 row j = 1 := by simpa using List.find?_some hp
    obtain ⟨hlo, hhi⟩ := List.mem_range'_1.1 hmem
    have hrn : s.2 < n := by omega
    have hrow : row < n := by omega
    -- the state after the swap
    have hsw : ∃ t : Mat × Mat, (if row ≠ s.2 then (swapRows s.1.1 row s.2, swapRows s.1.2 row s.2) else s.1) = t ∧
        RowInv n A0 t ∧ t.1 s.2 j = 1 ∧ (∀ i, i < s.2 → t.1 i = s.1.1 i) ∧
        (∀ i, s.2 ≤ i → i < n → ∀ k < j, t.1 i k = 0) := by
      refine ⟨_, rfl, ?_⟩
      by_cases hc : row = s.2
      · rw [if_neg (by simpa using hc)]
        exact ⟨h.row, by rw [← hc]; exact hone, fun _ _ => rfl, h.zero⟩
      · rw [if_pos hc]
        refine ⟨rowInv_swap h.row hrow hrn, ?_, ?_, ?_⟩
        · simp only [swapRows]; rw [if_neg (Ne.symm hc), if_pos trivial]; exact hone
        · intro i hi; simp only [swapRows]; rw [if_neg (by omega), if_neg (by omega)]
        · intro i h1 h2 k hk
          simp only [swapRows]
          split
          · exact h.zero s.2 le_rfl hrn k hk
          · split
            · exact h.zero row hlo hrow k hk
            · exact h.zero i h1 h2 k hk
    obtain ⟨t, ht, t1, t2, t3, t4⟩ := hsw
    rw [ht]
    obtain ⟨c1, c2, c3⟩ := clear_spec (n := n) (A0 := A0) s.2 j hrn (List.range' (s.2 + 1) (n - (s.2 + 1))) t t1 t2
      (fun i hi => by have := List.mem_range'_1.1 hi; omega) (List.nodup_range' 1)
    set u := clear n s.2 j (List.range' (s.2 + 1) (n - (s.2 + 1))) t with hu
    have hlow : ∀ i, i ≤ s.2 → u.1 i = t.1 i := by
      intro i hi; apply c2; rw [List.mem_range'_1]; omega
    have hhigh : ∀ i, s.2 < i → i < n → ∀ k < n, u.1 i k =
        if t.1 i j = 1 then (t.1 i k + t.1 s.2 k) % 2 else t.1 i k := by
      intro i h1 h2; apply c3; rw [List.mem_range'_1]; omega
    have hzero : ∀ i, s.2 < i → i < n → ∀ k < j + 1, u.1 i k = 0 := by
      intro i h1 h2 k hk
      rw [hhigh i h1 h2 k (by omega)]
      rcases Nat.lt_succ_iff_lt_or_eq.1 hk with hk | rfl
      · rw [t4 i (by omega) h2 k hk, t4 s.2 le_rfl hrn k hk]; simp
      · have hb := t1.binA i h2 k hj
        split
        · rename_i h3; rw [h3, t2]
        · omega
    refine ⟨c1, by have := h.rank_le; simp only; omega, ?_, ?_⟩
    · intro i h1 h2 k hk
      exact hzero i (by simpa using h1) h2 k hk
    · intro hc k hk
      have hsj : s.2 = j := by simpa using hc
      rcases Nat.lt_succ_iff_lt_or_eq.1 hk with hk' | rfl
      · obtain ⟨g1, g2⟩ := h.tri hsj k hk'
        refine ⟨?_, ?_⟩
        · simp only; rw [hlow k (by omega), t3 k (by omega)]; exact g1
        · intro i h1 h2
          simp only
          by_cases hi : i < s.2
          · rw [hlow i (by omega), t3 i hi]; exact g2 i h1 h2
          · by_cases hi' : i = s.2
            · rw [hlow i (by omega)]; exact t4 i (by omega) h2 k hk'
            · exact hzero i (by omega) h2 k hk
      · refine ⟨?_, fun i h1 h2 => hzero i (by omega) h2 k hk⟩
        have := hlow k (by omega)
        simp only; rw [this, ← hsj]
        rw [← hsj] at t2; exact t2

theorem forward_inv (n : ℕ) (A : Mat) (hA : Bin n A) : FwdInv n A n (forward n A) := by
  suffices H : ∀ j, j ≤ n → FwdInv n A j ((List.range j).foldl (forwardStep n) ((A, identity), 0)) from H n le_rfl
  intro j
  induction j with
  | zero =>
    intro _
    exact ⟨rowInv_start n A hA, le_rfl, fun _ _ _ k hk => absurd hk (Nat.not_lt_zero k),
      fun _ k hk => absurd hk (Nat.not_lt_zero k)⟩
  | succ j ih =>
    intro hj
    rw [List.range_succ, List.foldl_append]
    exact forwardStep_inv (by omega) (ih (by omega))

/-- Invariant of back substitution: upper triangular with unit diagonal, and the columns from `c` on
(column 0 too) are already those of the identity. -/
structure BwdInv (n : ℕ) (A0 : Mat) (c : ℕ) (s : Mat × Mat) : Prop where
  row : RowInv n A0 s
  diag : ∀ k < n, s.1 k k = 1
  below : ∀ k, ∀ i, k < i → i < n → s.1 i k = 0
  done : ∀ k, c ≤ k → k < n → ∀ i < k, s.1 i k = 0

theorem backStep_inv {n : ℕ} {A0 : Mat} {j : ℕ} (hj : j < n) {s : Mat × Mat} (h : BwdInv n A0 (j + 1) s) :
    BwdInv n A0 j (clear n j j (List.range j).reverse s) := by
  obtain ⟨c1, c2, c3⟩ := clear_spec (n := n) (A0 := A0) j j hj (List.range j).reverse s h.row (h.diag j hj)
    (fun i hi => by simp at hi; omega) (List.nodup_reverse.2 List.nodup_range)
  set u := clear n j j (List.range j).reverse s
  have hlow : ∀ i, j ≤ i → u.1 i = s.1 i := by intro i hi; apply c2; simp; omega
  have hup : ∀ i < j, ∀ k < n, u.1 i k = if s.1 i j = 1 then (s.1 i k + s.1 j k) % 2 else s.1 i k := by
    intro i hi; apply c3; simp [hi]
  -- only column `j` changes in the rows above `j`
  have hsame : ∀ i < j, ∀ k < n, k ≠ j → u.1 i k = s.1 i k := by
    intro i hi k hk hkj
    have hz : s.1 j k = 0 := by
      rcases Nat.lt_or_gt_of_ne hkj with h1 | h1
      · exact h.below k j h1 hj
      · exact h.done k (by omega) hk j h1
    have hb := h.row.binA i (by omega) k hk
    rw [hup i hi k hk, hz]
    split
    · omega
    · rfl
  refine ⟨c1, ?_, ?_, ?_⟩
  · intro k hk
    by_cases hkj : k < j
    · rw [hsame k hkj k hk (by omega)]; exact h.diag k hk
    · rw [hlow k (by omega)]; exact h.diag k hk
  · intro k i hki hi
    by_cases hij : i < j
    · rw [hsame i hij k (by omega) (by omega)]; exact h.below k i hki hi
    · rw [hlow i (by omega)]; exact h.below k i hki hi
  · intro k hk hkn i hik
    by_cases hkj : k = j
    · subst hkj
      rw [hup i hik k hkn]
      have hb := h.row.binA i (by omega) k hkn
      split
      · rename_i h3; rw [h3, h.diag k hkn]
      · omega
    · by_cases hij : i < j
      · rw [hsame i hij k hkn hkj]; exact h.done k (by omega) hkn i hik
      · rw [hlow i (by omega)]; exact h.done k (by omega) hkn i hik

theorem backward_inv {n : ℕ} {A0 : Mat} {s : Mat × Mat} (h : BwdInv n A0 n s) : BwdInv n A0 1 (backward n s) := by
  unfold backward
  suffices H : ∀ m, m + 1 ≤ n → ∀ s, BwdInv n A0 (m + 1) s →
      BwdInv n A0 1 (((List.range' 1 m).reverse).foldl (fun s j => clear n j j (List.range j).reverse s) s) by
    rcases Nat.eq_zero_or_pos n with rfl | hn
    · refine ⟨h.row, h.diag, h.below, fun k _ hk => absurd hk (Nat.not_lt_zero k)⟩
    · exact H (n - 1) (by omega) s (by rw [Nat.sub_add_cancel hn]; exact h)
  intro m
  induction m with
  | zero => intro _ s hs; exact hs
  | succ m ih =>
    intro hm s hs
    have : List.range' 1 (m + 1) = List.range' 1 m ++ [1 + m] := by simpa using List.range'_concat (step := 1) (s := 1) (n := m)
    rw [this, List.reverse_append, List.foldl_append]
    simp only [List.reverse_cons, List.reverse_nil, List.nil_append, List.foldl_cons, List.foldl_nil]
    rw [Nat.add_comm 1 m]
    exact ih (by omega) _ (backStep_inv (by omega) hs)

theorem full_rank_inverse {n : ℕ} {A : Mat} (hA : Bin n A) (h : (inverseAndRank n A).2 = n) :
    toM n (inverseAndRank n A).1 * toM n A = 1 ∧ Bin n (inverseAndRank n A).1 := by
  have hf := forward_inv n A hA
  unfold inverseAndRank at h ⊢
  simp only at h ⊢
  by_cases hr : (forward n A).2 = n
  · rw [if_pos hr]
    have hb : BwdInv n A n (forward n A).1 :=
      ⟨hf.row, fun k hk => (hf.tri hr k hk).1, fun k i hki hi => (hf.tri hr k (by omega)).2 i hki hi,
        fun k hk hkn => absurd hkn (by omega)⟩
    have hb' := backward_inv hb
    refine ⟨?_, hb'.row.binB⟩
    rw [hb'.row.mul]
    ext i j
    rw [Matrix.one_apply]
    show ((backward n (forward n A).1).1 i j : ZMod 2) = _
    rcases lt_trichotomy i j with hij | rfl | hij
    · rw [if_neg (ne_of_lt hij), hb'.done j (by have : (i : ℕ) < j := hij; omega) j.isLt i hij]; simp
    · rw [if_pos rfl, hb'.diag i i.isLt]; simp
    · rw [if_neg (ne_of_gt hij), hb'.below j i hij i.isLt]; simp
  · rw [if_neg hr] at h; exact absurd h hr

theorem not_full_rank {n : ℕ} {A : Mat} (hA : Bin n A) (h : (inverseAndRank n A).2 ≠ n) :
    ∃ v, v ≠ 0 ∧ Matrix.mulVec (toM n A) v = 0 := by
  have hf := forward_inv n A hA
  have hr : (forward n A).2 ≠ n := by
    intro hr
    apply h
    unfold inverseAndRank
    simp only; rw [if_pos hr]; exact hr
  have hlt : (forward n A).2 < n := lt_of_le_of_ne hf.rank_le hr
  have hdet : (toM n (forward n A).1.1).det = 0 := by
    apply Matrix.det_eq_zero_of_row_eq_zero ⟨(forward n A).2, hlt⟩
    intro j
    show (((forward n A).1.1 (forward n A).2 j : ℕ) : ZMod 2) = 0
    rw [hf.zero _ le_rfl hlt j j.isLt]; simp
  obtain ⟨v, hv, hz⟩ := Matrix.exists_mulVec_eq_zero_iff.2 hdet
  exact ⟨v, hv, hf.row.ker v hz⟩

end Printemps.BinMat
