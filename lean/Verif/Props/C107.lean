import Mathlib.Tactic
import Verif.Model.Restart

/-! # C107 — the restarts of PDLP

`decision o big gaps n` : what is decided in iteration `n` if the normalized gaps of the current and of the averaged point are
`gaps n`: no restart (`none`), a restart from the current (`some true`) or from the averaged point (`some false`). -/

namespace Printemps.C107
open Restart

/-! ## Specification -/

/-- The smaller one of the two gaps. -/
def best (g : ℚ × ℚ) : ℚ := min g.1 g.2

/-- The iterations before `n` with a restart, the latest first. -/
def restarts (d : ℕ → Option Bool) (n : ℕ) : List ℕ := ((List.range n).filter fun m => (d m).isSome).reverse

/-- The number of iterations since the last restart. -/
def since (d : ℕ → Option Bool) (n : ℕ) : ℕ := match restarts d n with
  | [] => n
  | m :: _ => n - 1 - m

/-- The iterations before `n` in which a restart was considered, the latest first. -/
def checks (interval : ℕ) (d : ℕ → Option Bool) (n : ℕ) : List ℕ :=
  ((List.range n).filter fun k => decide (interval ∣ k) && decide (2 ≤ since d k)).reverse

/-- No inner loop is endless. -/
def Recurring (d : ℕ → Option Bool) : Prop := ∀ n, ∃ m, n ≤ m ∧ (d m).isSome

/-- The gap noted for a restart, the largest number if there was none. -/
def noted (big : ℚ) (gaps : ℕ → ℚ × ℚ) : List ℕ → ℚ
  | [] => big
  | m :: _ => best (gaps m)

/-- The gap of the last check of the loop, the largest number if there was none. -/
def latest (big : ℚ) (gaps : ℕ → ℚ × ℚ) (d : ℕ → Option Bool) : List ℕ → ℚ
  | [] => big
  | k :: _ => if (d k).isSome then big else best (gaps k)

/-! ## Proof -/

theorem best_eq (g : ℚ × ℚ) : (if g.1 < g.2 then g.1 else g.2) = best g := by
  unfold best
  rcases lt_or_ge g.1 g.2 with h | h
  · rw [if_pos h, min_eq_left h.le]
  · rw [if_neg (not_lt.2 h), min_eq_right h]

/-- What a check keeps. -/
theorem check_keeps (o : Opt) (a b : ℚ) (s : State) :
    (check o a b s).1.inner = s.inner ∧ (check o a b s).1.outer = s.outer ∧ (check o a b s).1.total = s.total ∧
    (check o a b s).1.previousOuter = s.previousOuter ∧ (check o a b s).1.currentOuter = s.currentOuter := by
  unfold check
  split
  · exact ⟨rfl, rfl, rfl, rfl, rfl⟩
  split
  · exact ⟨rfl, rfl, rfl, rfl, rfl⟩
  dsimp only
  generalize (if a < b then a else b) = z
  split
  · exact ⟨rfl, rfl, rfl, rfl, rfl⟩
  split
  · exact ⟨rfl, rfl, rfl, rfl, rfl⟩
  split <;> exact ⟨rfl, rfl, rfl, rfl, rfl⟩

/-- When a check decides for a restart. -/
theorem check_some (o : Opt) (g : ℚ × ℚ) (s : State) (c : Bool) (h : (check o g.1 g.2 s).2 = some c) :
    s.total % o.interval = 0 ∧ 2 ≤ s.inner ∧ c = decide (g.1 < g.2) ∧ (check o g.1 g.2 s).1.currentInner = best g ∧
    ((0 < s.outer ∧ best g < o.sufficient * s.previousOuter) ∨
      (0 < s.outer ∧ best g < o.necessary * s.previousOuter ∧ s.currentInner < best g) ∨
      o.artificial * s.total < s.inner) := by
  have hb := best_eq g
  unfold check at h ⊢
  split at h
  · cases h
  rename_i h1
  split at h
  · cases h
  rename_i h2
  rw [if_neg h1, if_neg h2]
  dsimp only at h ⊢
  rw [hb] at h ⊢
  refine ⟨not_not.1 h1, by omega, ?_⟩
  split at h
  · rename_i h3
    rw [if_pos h3]
    exact ⟨(Option.some.inj h).symm, rfl, Or.inl h3⟩
  rename_i h3
  rw [if_neg h3]
  split at h
  · rename_i h4
    rw [if_pos h4]
    exact ⟨(Option.some.inj h).symm, rfl, Or.inr (Or.inl h4)⟩
  rename_i h4
  rw [if_neg h4]
  split at h
  · rename_i h5
    rw [if_pos h5]
    exact ⟨(Option.some.inj h).symm, rfl, Or.inr (Or.inr h5)⟩
  · cases h

/-- A long loop is ended by the next check. -/
theorem check_forced (o : Opt) (a b : ℚ) (s : State) (h1 : s.total % o.interval = 0) (h2 : 2 ≤ s.inner)
    (h3 : o.artificial * s.total < s.inner) : (check o a b s).2.isSome := by
  unfold check
  rw [if_neg (not_not.2 h1), if_neg (by omega)]
  dsimp only
  generalize (if a < b then a else b) = z
  rw [if_pos h3]
  split
  · rfl
  split <;> rfl

theorem restarts_succ (d : ℕ → Option Bool) (n : ℕ) :
    restarts d (n + 1) = if (d n).isSome then n :: restarts d n else restarts d n := by
  unfold restarts
  rw [List.range_succ, List.filter_append, List.reverse_append]
  cases h : (d n).isSome <;> simp [h]

theorem checks_succ (i : ℕ) (d : ℕ → Option Bool) (n : ℕ) :
    checks i d (n + 1) = if i ∣ n ∧ 2 ≤ since d n then n :: checks i d n else checks i d n := by
  unfold checks
  rw [List.range_succ, List.filter_append, List.reverse_append]
  by_cases h : i ∣ n ∧ 2 ≤ since d n
  · rw [if_pos h]; simp [h.1, h.2]
  · rw [if_neg h]
    have : (decide (i ∣ n) && decide (2 ≤ since d n)) = false := by
      rw [← Bool.not_eq_true, Bool.and_eq_true, decide_eq_true_iff, decide_eq_true_iff]; exact h
    simp [this]

/-- A check notes the gap; otherwise nothing happens. -/
theorem check_notes (o : Opt) (g : ℚ × ℚ) (s : State) :
    (o.interval ∣ s.total ∧ 2 ≤ s.inner → (check o g.1 g.2 s).1.currentInner = best g) ∧
    (¬ (o.interval ∣ s.total ∧ 2 ≤ s.inner) → check o g.1 g.2 s = (s, none)) := by
  constructor
  · rintro ⟨h1, h2⟩
    unfold check
    rw [if_neg (not_not.2 (Nat.mod_eq_zero_of_dvd h1)), if_neg (by omega)]
    dsimp only
    rw [best_eq]
    split
    · rfl
    split
    · rfl
    split <;> rfl
  · intro h
    unfold check
    split
    · rfl
    rename_i h1
    rw [if_pos]
    by_contra h2
    exact h ⟨Nat.dvd_of_mod_eq_zero (not_not.1 h1), by omega⟩

/-- What the state says before iteration `n`. -/
structure Tells (o : Opt) (big : ℚ) (gaps : ℕ → ℚ × ℚ) (n : ℕ) : Prop where
  total : (run o big gaps n).total = n
  outer : (run o big gaps n).outer = (restarts (decision o big gaps) n).length
  inner : (run o big gaps n).inner = since (decision o big gaps) n
  older : ∀ m ∈ restarts (decision o big gaps) n, m < n
  current : (run o big gaps n).currentOuter = noted big gaps (restarts (decision o big gaps) n)
  previous : (run o big gaps n).previousOuter = noted big gaps (restarts (decision o big gaps) n).tail
  last : (run o big gaps n).currentInner =
    latest big gaps (decision o big gaps) (checks o.interval (decision o big gaps) n)

theorem tells (o : Opt) (big : ℚ) (gaps : ℕ → ℚ × ℚ) (n : ℕ) : Tells o big gaps n := by
  induction n with
  | zero => exact ⟨rfl, rfl, rfl, fun m hm => by simp [restarts] at hm, rfl, rfl, rfl⟩
  | succ n ih =>
    have hr := restarts_succ (decision o big gaps) n
    obtain ⟨k1, k2, k3, k4, k5⟩ := check_keeps o (gaps n).1 (gaps n).2 (run o big gaps n)
    have hrun : run o big gaps (n + 1) = finish big (check o (gaps n).1 (gaps n).2 (run o big gaps n)) := rfl
    have hold : ∀ m ∈ restarts (decision o big gaps) (n + 1), m < n + 1 := by
      intro m hm
      unfold restarts at hm
      exact List.mem_range.1 (List.mem_filter.1 (List.mem_reverse.1 hm)).1
    cases hd : decision o big gaps n with
    | none =>
      have hd' : (check o (gaps n).1 (gaps n).2 (run o big gaps n)).2 = none := hd
      rw [hd] at hr
      simp only [Option.isSome_none, Bool.false_eq_true, if_false] at hr
      have e : finish big (check o (gaps n).1 (gaps n).2 (run o big gaps n)) =
          { (check o (gaps n).1 (gaps n).2 (run o big gaps n)).1 with
            inner := (check o (gaps n).1 (gaps n).2 (run o big gaps n)).1.inner + 1
            total := (check o (gaps n).1 (gaps n).2 (run o big gaps n)).1.total + 1 } := by
        unfold finish
        rw [hd']
        rfl
      rw [e] at hrun
      refine ⟨?_, ?_, ?_, hold, ?_, ?_, ?_⟩ <;> rw [hrun]
      · show _ + 1 = n + 1
        rw [k3, ih.total]
      · rw [hr]; exact k2.trans ih.outer
      · show _ + 1 = _
        rw [k1, ih.inner]
        unfold since
        rw [hr]
        have := ih.older
        cases hl : restarts (decision o big gaps) n with
        | nil => rfl
        | cons m l =>
          dsimp only
          have := this m (by rw [hl]; exact List.mem_cons_self ..)
          omega
      · rw [hr]; exact k5.trans ih.current
      · rw [hr]; exact k4.trans ih.previous
      · show (check o (gaps n).1 (gaps n).2 (run o big gaps n)).1.currentInner = _
        have hn := check_notes o (gaps n) (run o big gaps n)
        rw [ih.total, ih.inner] at hn
        rw [checks_succ]
        by_cases hc : o.interval ∣ n ∧ 2 ≤ since (decision o big gaps) n
        · rw [if_pos hc, hn.1 hc]
          show _ = if (decision o big gaps n).isSome then big else best (gaps n)
          rw [hd]
          rfl
        · rw [if_neg hc, hn.2 hc]
          exact ih.last
    | some c =>
      have hd' : (check o (gaps n).1 (gaps n).2 (run o big gaps n)).2 = some c := hd
      rw [hd] at hr
      simp only [Option.isSome_some, if_true] at hr
      obtain ⟨q1, q2, -, q, -⟩ := check_some o (gaps n) (run o big gaps n) c hd'
      have e : finish big (check o (gaps n).1 (gaps n).2 (run o big gaps n)) =
          { newLoop big (check o (gaps n).1 (gaps n).2 (run o big gaps n)).1 with
            total := (check o (gaps n).1 (gaps n).2 (run o big gaps n)).1.total + 1 } := by
        unfold finish
        rw [hd']
        rfl
      rw [e] at hrun
      refine ⟨?_, ?_, ?_, hold, ?_, ?_, ?_⟩ <;> rw [hrun]
      · show _ + 1 = n + 1
        rw [k3, ih.total]
      · rw [hr]
        show _ + 1 = _ + 1
        rw [k2, ih.outer]
      · unfold since
        rw [hr]
        show 0 = n + 1 - 1 - n
        omega
      · rw [hr]; exact q
      · rw [hr]; exact k5.trans ih.current
      · rw [ih.total] at q1
        rw [ih.inner] at q2
        rw [checks_succ, if_pos ⟨Nat.dvd_of_mod_eq_zero q1, q2⟩]
        show _ = if (decision o big gaps n).isSome then big else best (gaps n)
        rw [hd]
        rfl

/-- **When and from where**: restarts take place in multiples of the check interval only, never within two iterations of the last
one, and from the point with the smaller gap. -/
theorem restart_where (o : Opt) (big : ℚ) (gaps : ℕ → ℚ × ℚ) (n : ℕ) (c : Bool) (h : decision o big gaps n = some c) :
    o.interval ∣ n ∧ (∀ m < n, n ≤ m + 2 → decision o big gaps m = none) ∧
    (if c then (gaps n).1 else (gaps n).2) = best (gaps n) := by
  have t := tells o big gaps n
  obtain ⟨h1, h2, h3, -, -⟩ := check_some o (gaps n) (run o big gaps n) c h
  rw [t.total] at h1
  refine ⟨Nat.dvd_of_mod_eq_zero h1, fun m hm hmn => ?_, ?_⟩
  · by_contra hne
    have hm1 : m ∈ restarts (decision o big gaps) n := by
      unfold restarts
      rw [List.mem_reverse, List.mem_filter, List.mem_range]
      exact ⟨hm, Option.isSome_iff_ne_none.2 hne⟩
    have hsorted : (restarts (decision o big gaps) n).Pairwise (· > ·) := by
      unfold restarts
      rw [List.pairwise_reverse]
      exact List.Pairwise.filter _ List.pairwise_lt_range
    have hi := t.inner
    unfold since at hi
    cases hl : restarts (decision o big gaps) n with
    | nil => rw [hl] at hm1; cases hm1
    | cons k l =>
      rw [hl] at hi hm1 hsorted
      dsimp only at hi
      have : m ≤ k := by
        rcases List.mem_cons.1 hm1 with rfl | hm2
        · exact le_refl _
        · exact le_of_lt (List.rel_of_pairwise_cons hsorted hm2)
      omega
  · rw [h3, ← best_eq]
    by_cases hc : (gaps n).1 < (gaps n).2 <;> simp [hc]

/-- **No loop is endless**, whatever the gaps are, if the artificial threshold is below 1. -/
theorem restarts_again_and_again (o : Opt) (big : ℚ) (gaps : ℕ → ℚ × ℚ) (hi : 0 < o.interval) (ha : o.artificial < 1) :
    Recurring (decision o big gaps) := by
  intro n
  by_contra hno
  have hnone : ∀ m, n ≤ m → decision o big gaps m = none := fun m hm => by
    by_contra h
    exact hno ⟨m, hm, Option.isSome_iff_ne_none.2 h⟩
  have hsame : ∀ k, restarts (decision o big gaps) (n + k) = restarts (decision o big gaps) n := by
    intro k
    induction k with
    | zero => rfl
    | succ k ih =>
      rw [← Nat.add_assoc, restarts_succ, hnone _ (by omega)]
      exact ih
  -- the length of the loop exceeds the iteration by a constant only
  have hlen : ∀ k, k ≤ (run o big gaps (n + k)).inner := by
    intro k
    have t := tells o big gaps (n + k)
    have t0 := tells o big gaps n
    rw [t.inner]
    unfold since
    rw [hsame k]
    cases hl : restarts (decision o big gaps) n with
    | nil => dsimp only; omega
    | cons m l =>
      dsimp only
      have := t0.older m (by rw [hl]; exact List.mem_cons_self ..)
      omega
  obtain ⟨K, hK⟩ := exists_nat_gt ((n : ℚ) / (1 - o.artificial))
  have hpos : (0 : ℚ) < 1 - o.artificial := by linarith
  rw [div_lt_iff₀ hpos] at hK
  -- a multiple of the interval that is large enough
  obtain ⟨N, hN⟩ : ∃ N, N = o.interval * (K + n + 2) := ⟨_, rfl⟩
  have hNK : K + n + 2 ≤ N := by rw [hN]; exact Nat.le_mul_of_pos_left _ hi
  have hk : n + (N - n) = N := by omega
  have hin := hlen (N - n)
  rw [hk] at hin
  have t := tells o big gaps N
  have hforced := check_forced o (gaps N).1 (gaps N).2 (run o big gaps N)
    (by rw [t.total, hN]; exact Nat.mul_mod_right _ _) (by omega) (by
      rw [t.total]
      have h1 : ((N - n : ℕ) : ℚ) ≤ (run o big gaps N).inner := by exact_mod_cast hin
      rw [Nat.cast_sub (by omega)] at h1
      have h2 : (K : ℚ) ≤ N := by exact_mod_cast (by omega : K ≤ N)
      have h3 : (K : ℚ) * (1 - o.artificial) ≤ N * (1 - o.artificial) := mul_le_mul_of_nonneg_right h2 hpos.le
      linarith)
  have := hnone N (by omega)
  unfold decision at this
  rw [this] at hforced
  cases hforced

/-- **Why**: a restart is due to the length of the loop, or to a gap below the sufficient threshold times a noted gap, or to a gap
below the necessary threshold times the noted gap that has grown since the last check of the loop.  But the noted gap is that of the
restart **before** the last one (`tail`), or the largest number if there is none.  Missing: it should be that of the last one, see
`restart_without_progress`. -/
theorem restart_why_partial (o : Opt) (big : ℚ) (gaps : ℕ → ℚ × ℚ) (n : ℕ) (c : Bool) (h : decision o big gaps n = some c) :
    o.artificial * n < since (decision o big gaps) n ∨
    (restarts (decision o big gaps) n ≠ [] ∧
      (best (gaps n) < o.sufficient * noted big gaps (restarts (decision o big gaps) n).tail ∨
        (best (gaps n) < o.necessary * noted big gaps (restarts (decision o big gaps) n).tail ∧
          latest big gaps (decision o big gaps) (checks o.interval (decision o big gaps) n) < best (gaps n)))) := by
  have t := tells o big gaps n
  obtain ⟨-, -, -, -, h5⟩ := check_some o (gaps n) (run o big gaps n) c h
  rw [t.total, t.inner, t.outer, t.previous, t.last] at h5
  rcases h5 with ⟨h1, h2⟩ | ⟨h1, h2, h3⟩ | h1
  · exact Or.inr ⟨List.ne_nil_of_length_pos h1, Or.inl h2⟩
  · exact Or.inr ⟨List.ne_nil_of_length_pos h1, Or.inr ⟨h2, h3⟩⟩
  · exact Or.inl h1

/-- **The second loop ends at its first check**, whatever the gap is, as long as it is below the threshold times the largest
number. -/
theorem second_loop_ends_at_once (o : Opt) (big : ℚ) (gaps : ℕ → ℚ × ℚ) (n m : ℕ)
    (hm : restarts (decision o big gaps) n = [m]) (hi : o.interval ∣ n) (h2 : m + 3 ≤ n)
    (hb : best (gaps n) < o.sufficient * big) : (decision o big gaps n).isSome := by
  have t := tells o big gaps n
  unfold decision check
  have h1 : ¬ (run o big gaps n).total % o.interval ≠ 0 := by
    rw [t.total]; exact not_not.2 (Nat.mod_eq_zero_of_dvd hi)
  have h3 : ¬ (run o big gaps n).inner ≤ 1 := by
    rw [t.inner]; unfold since; rw [hm]; dsimp only; omega
  rw [if_neg h1, if_neg h3]
  dsimp only
  rw [best_eq, if_pos]
  · rfl
  · rw [t.outer, t.previous, hm]
    exact ⟨Nat.one_pos, hb⟩

/-! ## Cases, with the default options -/

private def o : Opt := ⟨1 / 10, 9 / 10, 1 / 2, 10⟩
private def big : ℚ := 10 ^ 300
/-- the gap is 1 up to iteration 15, then 100 -/
private def grows : ℕ → ℚ × ℚ := fun n => if n ≤ 15 then (1, 2) else (150, 100)

example : 0 < o.interval ∧ o.artificial < 1 ∧ decision o big grows 10 = some true := by decide +kernel
example : restarts (decision o big grows) 20 = [10] ∧ o.interval ∣ 20 ∧ 10 + 3 ≤ 20 ∧ best (grows 20) < o.sufficient * big := by
  decide +kernel

/-- **A restart without progress**: with the default options there is a restart, not due to the length of the loop, although the gap
is a hundred times that of the last restart. -/
theorem restart_without_progress : ∃ (gaps : ℕ → ℚ × ℚ) (n m : ℕ) (l : List ℕ),
    (decision o big gaps n).isSome ∧ restarts (decision o big gaps) n = m :: l ∧
    (since (decision o big gaps) n : ℚ) ≤ o.artificial * n ∧ best (gaps n) = 100 * best (gaps m) ∧ 0 < best (gaps m) :=
  ⟨grows, 20, 10, [], by decide +kernel⟩

end Printemps.C107
