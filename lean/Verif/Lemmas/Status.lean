import Verif.Model.Status
import Verif.Props.C78

/-! # Counting lists, ranges of numbers, and what the setup does to the counts -/

namespace Printemps.Status
open Spec Setup Whole Presolve

/-! ## Counting -/

theorem filter_add (l : List ℕ) (p : ℕ → Bool) : (l.filter p).length + (l.filter (fun a => !p a)).length = l.length := by
  induction l with
  | nil => rfl
  | cons a l ih => cases h : p a <;> simp [h] <;> omega

theorem sum_indicator {κ : Type} [DecidableEq κ] (ks : List κ) (hn : ks.Nodup) (k : κ) (hk : k ∈ ks) :
    (ks.map (fun j => if k = j then 1 else 0)).sum = 1 := by
  induction ks with
  | nil => exact absurd hk (by simp)
  | cons j ks ih =>
    rw [List.nodup_cons] at hn
    rw [List.map_cons, List.sum_cons]
    by_cases e : k = j
    · subst e
      rw [if_pos rfl]
      have : (ks.map (fun j => if k = j then 1 else 0)).sum = 0 := by
        apply List.sum_eq_zero
        intro x hx
        obtain ⟨i, hi, rfl⟩ := List.mem_map.1 hx
        rw [if_neg (fun e : k = i => hn.1 (e ▸ hi))]
      omega
    · rw [if_neg e, ih hn.2 (by rcases List.mem_cons.1 hk with h | h; exact absurd h e; exact h)]

/-- Every element has one kind: the numbers of elements of each kind add up. -/
theorem sum_kinds {κ : Type} [DecidableEq κ] (ks : List κ) (hn : ks.Nodup) (kind : ℕ → κ) (hk : ∀ a, kind a ∈ ks)
    (p : ℕ → Bool) (l : List ℕ) :
    (ks.map (fun k => (l.filter (fun a => decide (kind a = k))).countP p)).sum = l.countP p := by
  induction l with
  | nil => simp
  | cons a l ih =>
    have : (ks.map (fun k => ((a :: l).filter (fun a => decide (kind a = k))).countP p)).sum =
        (ks.map (fun k => (if kind a = k then 1 else 0) * (if p a then 1 else 0) +
          (l.filter (fun a => decide (kind a = k))).countP p)).sum := by
      congr 1
      apply List.map_congr_left
      intro k _
      by_cases e : kind a = k
      · rw [List.filter_cons_of_pos (by simp [e]), List.countP_cons, if_pos e]; omega
      · rw [List.filter_cons_of_neg (by simp [e]), if_neg e]; omega
    rw [this, List.sum_map_add, ih, List.sum_map_mul_right, sum_indicator ks hn _ (hk a), List.countP_cons]
    omega

theorem senses_all (s : VarSense) : s ∈ senses := by cases s <;> decide

theorem types_all (k : ConType) : k ∈ types := by cases k <;> decide

theorem senses_nodup : senses.Nodup := by decide

theorem types_nodup : types.Nodup := by decide

/-! ## Ranges -/

theorem foldl_update_min (l : List ℤ) : ∀ r : Range, (l.foldl Range.update r).min ≤ r.min ∧ (∀ x ∈ l, (l.foldl Range.update r).min ≤ x) ∧
    ((l.foldl Range.update r).min = r.min ∨ (l.foldl Range.update r).min ∈ l) := by
  induction l with
  | nil => intro r; exact ⟨le_refl _, by simp, Or.inl rfl⟩
  | cons a l ih =>
    intro r
    rw [List.foldl_cons]
    obtain ⟨h1, h2, h3⟩ := ih (r.update a)
    have hm : (r.update a).min = min r.min a := rfl
    rw [hm] at h1 h3
    refine ⟨h1.trans (min_le_left _ _), fun x hx => ?_, ?_⟩
    · rcases List.mem_cons.1 hx with rfl | hx
      · exact h1.trans (min_le_right _ _)
      · exact h2 x hx
    · rcases h3 with h3 | h3
      · rcases min_choice r.min a with e | e
        · left; rw [h3, e]
        · right; rw [h3, e]; simp
      · right; exact List.mem_cons_of_mem _ h3

theorem foldl_update_max (l : List ℤ) : ∀ r : Range, r.max ≤ (l.foldl Range.update r).max ∧ (∀ x ∈ l, x ≤ (l.foldl Range.update r).max) ∧
    ((l.foldl Range.update r).max = r.max ∨ (l.foldl Range.update r).max ∈ l) := by
  induction l with
  | nil => intro r; exact ⟨le_refl _, by simp, Or.inl rfl⟩
  | cons a l ih =>
    intro r
    rw [List.foldl_cons]
    obtain ⟨h1, h2, h3⟩ := ih (r.update a)
    have hm : (r.update a).max = max r.max a := rfl
    rw [hm] at h1 h3
    refine ⟨(le_max_left _ _).trans h1, fun x hx => ?_, ?_⟩
    · rcases List.mem_cons.1 hx with rfl | hx
      · exact (le_max_right _ _).trans h1
      · exact h2 x hx
    · rcases h3 with h3 | h3
      · rcases max_choice r.max a with e | e
        · left; rw [h3, e]
        · right; rw [h3, e]; simp
      · right; exact List.mem_cons_of_mem _ h3

/-- The range of a list of numbers that fit into an `int` and are not negative: attained bounds. -/
theorem rangeOf_spec (l : List ℤ) (hl : l ≠ []) (h : ∀ x ∈ l, -2147483648 ≤ x ∧ x ≤ 2147483647) :
    (rangeOf l).min ∈ l ∧ (rangeOf l).max ∈ l ∧ ∀ x ∈ l, (rangeOf l).min ≤ x ∧ x ≤ (rangeOf l).max := by
  obtain ⟨a1, a2, a3⟩ := foldl_update_min l .initial
  obtain ⟨b1, b2, b3⟩ := foldl_update_max l .initial
  obtain ⟨y, hy⟩ := List.exists_mem_of_ne_nil l hl
  refine ⟨?_, ?_, fun x hx => ⟨a2 x hx, b2 x hx⟩⟩
  · rcases a3 with e | e
    · have : (rangeOf l).min = 2147483647 := e
      have h1 := a2 y hy
      have h2 := (h y hy).2
      have : y = (rangeOf l).min := by rw [this]; unfold rangeOf at this; omega
      rw [← this]; exact hy
    · exact e
  · rcases b3 with e | e
    · have : (rangeOf l).max = -2147483648 := e
      have h1 := b2 y hy
      have h2 := (h y hy).1
      have : y = (rangeOf l).max := by rw [this]; unfold rangeOf at this; omega
      rw [← this]; exact hy
    · exact e

theorem sum_between (l : List ℤ) (a b : ℤ) (h : ∀ x ∈ l, a ≤ x ∧ x ≤ b) :
    a * l.length ≤ l.sum ∧ l.sum ≤ b * l.length := by
  induction l with
  | nil => simp
  | cons x l ih =>
    obtain ⟨i1, i2⟩ := ih (fun y hy => h y (List.mem_cons_of_mem _ hy))
    have := h x (by simp)
    rw [List.sum_cons, List.length_cons]
    push_cast
    constructor <;> nlinarith

theorem foldl_sum (l : List ℕ) (f : ℕ → ℤ) : ∀ a, l.foldl (fun a c => a + f c) a = a + (l.map f).sum := by
  induction l with
  | nil => intro a; simp
  | cons c l ih => intro a; rw [List.foldl_cons, ih, List.map_cons, List.sum_cons]; ring

/-! ## Counting the same pairs in two ways -/

theorem count_vars (vs : List ℕ) (hv : vs.Nodup) (xs : List ℕ) (hx : xs.Nodup) (h : ∀ x ∈ xs, x ∈ vs) :
    (vs.countP (fun v => decide (v ∈ xs))) = xs.length := by
  rw [List.countP_eq_length_filter]
  apply List.Perm.length_eq
  rw [List.perm_ext_iff_of_nodup (hv.filter _) hx]
  intro a
  simp only [List.mem_filter, decide_eq_true_eq]
  exact ⟨fun k => k.2, fun k => ⟨h a k, k⟩⟩

theorem double_count (vs cs : List ℕ) (hv : vs.Nodup) (xs : ℕ → List ℕ) (hx : ∀ c ∈ cs, (xs c).Nodup)
    (h : ∀ c ∈ cs, ∀ x ∈ xs c, x ∈ vs) :
    (vs.map (fun v => ((cs.filter (fun c => decide (v ∈ xs c))).length : ℤ))).sum = (cs.map (fun c => ((xs c).length : ℤ))).sum := by
  induction cs with
  | nil => simp
  | cons c cs ih =>
    have e : (vs.map (fun v => (((c :: cs).filter (fun c => decide (v ∈ xs c))).length : ℤ))).sum =
        (vs.map (fun v => (if v ∈ xs c then (1 : ℤ) else 0) + ((cs.filter (fun c => decide (v ∈ xs c))).length : ℤ))).sum := by
      congr 1
      apply List.map_congr_left
      intro v _
      by_cases k : v ∈ xs c
      · rw [List.filter_cons_of_pos (by simp [k]), if_pos k, List.length_cons]; push_cast; ring
      · rw [List.filter_cons_of_neg (by simp [k]), if_neg k]; ring
    have one : ∀ vs : List ℕ, (vs.map (fun v => if v ∈ xs c then (1 : ℤ) else 0)).sum = (vs.countP (fun v => decide (v ∈ xs c)) : ℤ) := by
      intro vs
      induction vs with
      | nil => simp
      | cons v vs ih =>
        rw [List.map_cons, List.sum_cons, ih, List.countP_cons]
        by_cases k : v ∈ xs c <;> simp [k]; ring
    rw [e, List.sum_map_add, ih (fun c' hc => hx c' (List.mem_cons_of_mem _ hc)) (fun c' hc => h c' (List.mem_cons_of_mem _ hc)),
      List.map_cons, List.sum_cons, one, count_vars vs hv (xs c) (hx c (by simp)) (h c (by simp))]

/-! ## The setup -/

theorem countP_le_of_imp (l : List ℕ) (p q : ℕ → Bool) (h : ∀ a ∈ l, p a = true → q a = true) : l.countP p ≤ l.countP q :=
  List.countP_mono_left h

theorem disable_count (m : MState) (i : ℕ) (l : List ℕ) :
    l.countP (fun c => ((disable m i).con c).enabled) ≤ l.countP (fun c => (m.con c).enabled) := by
  apply List.countP_mono_left
  intro c _
  unfold disable
  by_cases e : c = i
  · subst e; simp
  · simp [Function.update_of_ne e]

theorem disable_count_lt (m : MState) (i : ℕ) (l : List ℕ) (hi : i ∈ l) (he : (m.con i).enabled = true) :
    l.countP (fun c => ((disable m i).con c).enabled) + 1 ≤ l.countP (fun c => (m.con c).enabled) := by
  induction l with
  | nil => exact absurd hi (by simp)
  | cons c l ih =>
    rw [List.countP_cons, List.countP_cons]
    by_cases e : c = i
    · subst e
      have h1 : ((disable m c).con c).enabled = false := by simp [disable]
      have h2 := disable_count m c l
      rw [h1, he]
      simp only [Bool.false_eq_true, if_false, if_true]
      omega
    · have h1 : ((disable m i).con c).enabled = (m.con c).enabled := by simp [disable, e]
      rw [h1]
      have := ih (by rcases List.mem_cons.1 hi with h | h; exact absurd h.symm e; exact h)
      omega

theorem implicitEqualities_count (senseOf : ℕ → VarSense) (l : List ℕ) : ∀ (n : ℕ) (cs : List ℕ) (m : MState), cs.length = n →
    (∀ c ∈ cs, c ∈ l) →
    l.countP (fun c => ((implicitEqualities senseOf m cs).1.con c).enabled) + (implicitEqualities senseOf m cs).2.length ≤
      l.countP (fun c => (m.con c).enabled) := by
  intro n
  induction n using Nat.strong_induction_on with
  | _ n ih =>
    intro cs m hn hl
    cases cs with
    | nil => simp [implicitEqualities]
    | cons i rest =>
      rw [implicitEqualities]
      by_cases h : (m.con i).enabled = true ∧ (m.con i).sense ≠ .equal
      · rw [if_pos h]
        dsimp only
        split
        · next j hj =>
          have h1 := ih rest.length (by rw [← hn]; simp) rest (disable (disable m i) j) rfl
            (fun c hc => hl c (List.mem_cons_of_mem _ hc))
          have h2 := disable_count (disable m i) j l
          have h3 := disable_count_lt m i l (hl i (by simp)) h.1
          dsimp only
          rw [List.length_cons]
          omega
        · exact ih _ (by rw [← hn, List.length_cons]; exact Nat.lt_succ_of_le (List.dropWhile_sublist _).length_le) _ m rfl
            (fun c hc => hl c (List.mem_cons_of_mem _ ((List.dropWhile_sublist _).subset hc)))
      · rw [if_neg h]
        exact ih rest.length (by rw [← hn]; simp) rest m rfl (fun c hc => hl c (List.mem_cons_of_mem _ hc))

theorem extractImplicit_count (senseOf : ℕ → VarSense) (cs : List ℕ) (next : ℕ) (m : MState) (hl : ∀ c ∈ cs, c ∈ m.conIds)
    (hnext : ∀ c ∈ m.conIds, c < next) :
    (extractImplicitEqualities senseOf cs next m).conIds.countP
        (fun c => ((extractImplicitEqualities senseOf cs next m).con c).enabled) ≤ m.conIds.countP (fun c => (m.con c).enabled) := by
  unfold extractImplicitEqualities
  split
  · exact le_refl _
  · have h := implicitEqualities_count senseOf m.conIds _ (sortByHash m cs) m rfl
      (fun c hc => hl c ((sortByHash_perm m cs).mem_iff.1 hc))
    dsimp only
    generalize hr : implicitEqualities senseOf m (sortByHash m cs) = r at h ⊢
    have hid : r.1.conIds = m.conIds := by rw [← hr]; exact (implicitEqualities_shrunk (fun _ _ => True) senseOf _ m).conIds
    rw [List.countP_append, hid]
    have e1 : m.conIds.countP (fun c => ((if next ≤ c ∧ c < next + r.2.length then r.2.getD (c - next) (r.1.con c) else r.1.con c) : Con).enabled) =
        m.conIds.countP (fun c => (r.1.con c).enabled) := by
      apply List.countP_congr
      intro c hc
      rw [if_neg (fun k => absurd k.1 (Nat.not_le.2 (hnext c hc)))]
    rw [e1]
    have e2 : ∀ p : ℕ → Bool, ((List.range r.2.length).map (next + ·)).countP p ≤ r.2.length := by
      intro p
      have := List.countP_le_length (p := p) (l := (List.range r.2.length).map (next + ·))
      simpa using this
    exact (Nat.add_le_add_left (e2 _) _).trans h

end Printemps.Status
