import Verif.Model.Chain
import Verif.Spec.Move
import Verif.Spec.Score
import Verif.Lemmas.Example
import Mathlib.Data.List.Lex
import Mathlib.Data.Prod.Lex
import Mathlib.Tactic.Linarith

/-! # C64 — chain moves -/

set_option linter.unusedSectionVars false

namespace Printemps.C64
open Spec Chain

/-! ## Removal of neighbouring duplicates -/

theorem uniqueFrom_sublist {α : Type} (eq : α → α → Bool) (l : List α) : ∀ a, (uniqueFrom eq a l).Sublist l := by
  induction l with
  | nil => intro a; exact List.Sublist.refl _
  | cons b l ih =>
    intro a
    unfold uniqueFrom
    split
    · exact (ih a).trans (List.sublist_cons_self b l)
    · exact (ih b).cons_cons b

theorem unique_sublist {α : Type} (eq : α → α → Bool) (l : List α) : (unique eq l).Sublist l := by
  cases l with
  | nil => exact List.Sublist.refl _
  | cons a l => exact (uniqueFrom_sublist eq l a).cons_cons a

theorem uniqueFrom_represents {α : Type} (eq : α → α → Bool) (l : List α) :
    ∀ a, ∀ x ∈ l, eq a x = true ∨ ∃ y ∈ uniqueFrom eq a l, y = x ∨ eq y x = true := by
  induction l with
  | nil => intro a x hx; simp at hx
  | cons b l ih =>
    intro a x hx
    unfold uniqueFrom
    by_cases h : eq a b = true
    · rw [if_pos h]
      rcases List.mem_cons.1 hx with rfl | hx
      · exact Or.inl h
      · exact ih a x hx
    · rw [if_neg h]
      rcases List.mem_cons.1 hx with rfl | hx
      · exact Or.inr ⟨x, by simp, Or.inl rfl⟩
      · rcases ih b x hx with h1 | ⟨y, h1, h2⟩
        · exact Or.inr ⟨b, by simp, Or.inr h1⟩
        · exact Or.inr ⟨y, by simp [h1], h2⟩

theorem unique_represents {α : Type} (eq : α → α → Bool) (l : List α) (x : α) (hx : x ∈ l) :
    ∃ y ∈ unique eq l, y = x ∨ eq y x = true := by
  cases l with
  | nil => simp at hx
  | cons a l =>
    unfold unique
    rcases List.mem_cons.1 hx with rfl | hx
    · exact ⟨x, by simp, Or.inl rfl⟩
    · rcases uniqueFrom_represents eq l a x hx with h | ⟨y, h1, h2⟩
      · exact ⟨a, by simp, Or.inr h⟩
      · exact ⟨y, by simp [h1], h2⟩

/-- On a list sorted by a relation that is an order up to `eq`, no two equal elements are left. -/
theorem unique_pairwise {α : Type} (eq : α → α → Bool) (R : α → α → Prop) (L : List α)
    (trans : ∀ a ∈ L, ∀ b ∈ L, ∀ c ∈ L, R a b → R b c → R a c)
    (antisymm : ∀ a ∈ L, ∀ b ∈ L, R a b → R b a → eq a b = true)
    (sym : ∀ a ∈ L, ∀ b ∈ L, eq a b = true → R b a)
    (l : List α) (hl : ∀ x ∈ l, x ∈ L) (hs : l.Pairwise R) : (unique eq l).Pairwise (fun a b => eq a b = false) := by
  have key : ∀ (l : List α) (a : α), (∀ x ∈ a :: l, x ∈ L) → (a :: l).Pairwise R →
      (a :: uniqueFrom eq a l).Pairwise (fun a b => eq a b = false) := by
    intro l
    induction l with
    | nil => intro a _ _; simp [uniqueFrom]
    | cons b l ih =>
      intro a hl hs
      unfold uniqueFrom
      have hab := (List.pairwise_cons.1 hs).1 b (by simp)
      by_cases h : eq a b = true
      · rw [if_pos h]
        refine ih a (fun x hx => hl x ?_) (hs.sublist ?_)
        · rcases List.mem_cons.1 hx with rfl | hx
          · simp
          · simp [hx]
        · exact (List.sublist_cons_self b l).cons_cons a
      · rw [if_neg h]
        have hb := ih b (fun x hx => hl x (List.mem_cons_of_mem _ hx)) (List.pairwise_cons.1 hs).2
        refine List.pairwise_cons.2 ⟨fun x hx => ?_, hb⟩
        rcases List.mem_cons.1 hx with rfl | hx
        · simpa using h
        · by_contra hc
          have hc : eq a x = true := by simpa using hc
          have hxl : x ∈ l := (uniqueFrom_sublist eq l b).subset hx
          have ha : a ∈ L := hl a (by simp)
          have hbL : b ∈ L := hl b (by simp)
          have hxL : x ∈ L := hl x (by simp [hxl])
          have h1 : R b x := (List.pairwise_cons.1 (List.pairwise_cons.1 hs).2).1 x hxl
          exact h (antisymm a ha b hbL hab (trans b hbL x hxL a ha h1 (sym a ha x hxL hc)))
  cases l with
  | nil => simp [unique]
  | cons a l => exact key l a hl hs

/-! ## The constraints of a combined move -/

variable {ν : Type} [LinearOrder ν]

theorem mem_sortUnique (name : ℕ → ν) (l : List ℕ) (c : ℕ) : c ∈ sortUnique name l ↔ c ∈ l := by
  unfold sortUnique
  constructor
  · intro h
    exact (List.perm_insertionSort _ l).mem_iff.1 ((unique_sublist _ _).subset h)
  · intro h
    obtain ⟨y, hy, e | e⟩ := unique_represents (fun a b : ℕ => decide (a = b)) _ c ((List.perm_insertionSort (fun a b => name a ≤ name b) l).mem_iff.2 h)
    · rwa [← e]
    · have : y = c := by simpa using e
      rwa [← this]

theorem sortUnique_nodup (name : ℕ → ν) (l : List ℕ) (hn : ∀ a ∈ l, ∀ b ∈ l, name a = name b → a = b) :
    (sortUnique name l).Nodup := by
  have h1 : (l.insertionSort (fun a b => name a ≤ name b)).Pairwise (fun a b => name a ≤ name b) := by
    have : Std.Total (fun a b : ℕ => name a ≤ name b) := ⟨fun a b => le_total _ _⟩
    have : IsTrans ℕ (fun a b : ℕ => name a ≤ name b) := ⟨fun a b c h k => le_trans h k⟩
    exact List.pairwise_insertionSort _ l
  have := unique_pairwise (fun a b : ℕ => decide (a = b)) (fun a b => name a ≤ name b) l
    (fun a _ b _ c _ h k => le_trans h k) (fun a ha b hb h k => by simpa using hn a ha b hb (le_antisymm h k))
    (fun a _ b _ h => by have : a = b := by simpa using h
                         rw [this])
    _ (fun x hx => (List.perm_insertionSort _ l).mem_iff.1 hx) h1
  exact this.imp (fun h => by simpa using h)

/-- The constraints of a combined move are those of its two parts. -/
theorem combined_related (env : Env ν) (a b r : CMove) (h : add env a b = some r) (c : ℕ) :
    c ∈ r.move.related ↔ c ∈ a.move.related ∨ c ∈ b.move.related := by
  obtain ⟨x, _, rfl⟩ := Option.map_eq_some_iff.1 h
  rw [mem_sortUnique, List.mem_append]

/-- When no two constraints have the same name, each constraint occurs once, so the combined move can be scored by the
fast evaluation (see C08). -/
theorem combined_covers (env : Env ν) (m : MState) (a b r : CMove) (h : add env a b = some r)
    (hn : ∀ c ∈ m.conIds, ∀ d ∈ m.conIds, env.name c = env.name d → c = d)
    (ha : Covers m a.move.alterations a.move.related) (hb : Covers m b.move.alterations b.move.related) :
    Covers m r.move.alterations r.move.related := by
  have hr := combined_related env a b r h
  have hm : ∀ c ∈ r.move.related, c ∈ m.conIds := fun c hc => ((hr c).1 hc).elim (ha.mem c) (hb.mem c)
  obtain ⟨x, _, rfl⟩ := Option.map_eq_some_iff.1 h
  refine ⟨(sortUnique_nodup _ _ fun c hc d hd => ?_).filter _, hm, fun c hc he hex => (hr c).2 ?_⟩
  · exact hn c (hm c ((mem_sortUnique _ _ _).2 hc)) d (hm d ((mem_sortUnique _ _ _).2 hd))
  · obtain ⟨y, hy, hv⟩ := hex
    rcases List.mem_append.1 hy with hy | hy
    · exact Or.inl (ha.covers c hc he ⟨y, hy, hv⟩)
    · exact Or.inr (hb.covers c hc he ⟨y, hy, hv⟩)

/-! ## Registered moves -/

theorem hasDuplicate_iff (l : List (ℕ × ℤ)) : hasDuplicate l = false ↔ (l.map Prod.fst).Nodup := by
  induction l with
  | nil => simp [hasDuplicate]
  | cons a l ih =>
    simp only [hasDuplicate, Bool.or_eq_false_iff, ih, List.map_cons, List.nodup_cons, List.any_eq_false, decide_eq_true_eq,
      List.mem_map, not_exists, not_and]
    constructor
    · rintro ⟨h1, h2⟩; exact ⟨fun x hx e => h1 x hx e.symm, h2⟩
    · rintro ⟨h1, h2⟩; exact ⟨fun x hx e => h1 x hx e.symm, h2⟩

/-- What is registered after two consecutive moves: nothing, or their combination and its reverse. The combination alters
the variables of both moves to the values of these moves, each variable once, and exceeds the threshold. -/
theorem registered_moves (env : Env ν) (t : ℚ) (p c : CMove) (l : List CMove) (h : registered env t p c = some l) :
    l = [] ∨ ∃ f : CMove, l = [f, back f] ∧ f.move.alterations.Perm (p.move.alterations ++ c.move.alterations) ∧
      (f.move.alterations.map Prod.fst).Nodup ∧ f.overlap > t ∧ f.move.sense = .chain ∧
      (∀ d, d ∈ f.move.related ↔ d ∈ p.move.related ∨ d ∈ c.move.related) := by
  unfold registered at h
  obtain ⟨ok, h1, h2⟩ := Option.bind_eq_some_iff.1 h
  cases ok with
  | false => simp at h2; exact Or.inl h2
  | true =>
    rw [if_pos rfl] at h2
    obtain ⟨x, hx, h3⟩ := Option.bind_eq_some_iff.1 h2
    obtain ⟨y, hy, h4⟩ := Option.bind_eq_some_iff.1 h3
    obtain ⟨f, hf, h5⟩ := Option.map_eq_some_iff.1 h4
    by_cases hc : f.overlap > t ∧ hasDuplicate f.move.alterations = false
    · rw [if_pos hc] at h5
      refine Or.inr ⟨f, h5.symm, ?_, (hasDuplicate_iff _).1 hc.2, hc.1, ?_, ?_⟩
      · split at hf
        · obtain ⟨r, _, rfl⟩ := Option.map_eq_some_iff.1 hf; exact List.Perm.refl _
        · obtain ⟨r, _, rfl⟩ := Option.map_eq_some_iff.1 hf; exact List.perm_append_comm
      · split at hf
        · obtain ⟨r, _, rfl⟩ := Option.map_eq_some_iff.1 hf; rfl
        · obtain ⟨r, _, rfl⟩ := Option.map_eq_some_iff.1 hf; rfl
      · intro d
        split at hf
        · exact combined_related env _ _ _ hf d
        · rw [combined_related env _ _ _ hf d, or_comm]
    · rw [if_neg hc] at h5; exact Or.inl h5.symm

/-- Both registered moves alter each variable once. -/
theorem registered_distinct (env : Env ν) (t : ℚ) (p c : CMove) (l : List CMove) (h : registered env t p c = some l)
    (f : CMove) (hf : f ∈ l) : (f.move.alterations.map Prod.fst).Nodup := by
  rcases registered_moves env t p c l h with rfl | ⟨g, rfl, _, hn, _⟩
  · simp at hf
  · simp only [List.mem_cons, List.not_mem_nil, or_false] at hf
    rcases hf with rfl | rfl
    · exact hn
    · have : ((back g).move.alterations.map Prod.fst) = g.move.alterations.map Prod.fst := by
        unfold back; simp [Function.comp_def]
      rw [this]; exact hn

/-- The reverse move undoes the combined move on 0/1 variables that the combined move changes. -/
theorem back_undoes (f : CMove) (hn : (f.move.alterations.map Prod.fst).Nodup) (σ : ℕ → ℤ)
    (hz : ∀ a ∈ f.move.alterations, (σ a.1 = 0 ∨ σ a.1 = 1) ∧ (a.2 = 0 ∨ a.2 = 1) ∧ σ a.1 ≠ a.2) :
    applyMove (applyMove σ f.move.alterations) (back f).move.alterations = σ := by
  have hfst : ((back f).move.alterations.map Prod.fst) = f.move.alterations.map Prod.fst := by
    unfold back; simp [Function.comp_def]
  funext v
  by_cases hv : v ∈ f.move.alterations.map Prod.fst
  · obtain ⟨a, ha, rfl⟩ := List.mem_map.1 hv
    have hm : (a.1, 1 - a.2) ∈ (back f).move.alterations := List.mem_map.2 ⟨a, ha, rfl⟩
    rw [Expr.applyMove_of_mem _ _ (by rw [hfst]; exact hn) _ hm]
    obtain ⟨h1, h2, h3⟩ := hz a ha
    omega
  · rw [Expr.applyMove_of_not_mem _ _ _ (by rw [hfst]; exact hv), Expr.applyMove_of_not_mem _ _ _ hv]

/-! ## Overlap rate -/

theorem sets_spec (env : Env ν) (l : List (ℕ × ℤ)) : ∀ s : List ℕ × List ℕ, s.1.Nodup → s.2.Nodup →
    (sets env l s).1.Nodup ∧ (sets env l s).2.Nodup ∧
    (∀ c, c ∈ (sets env l s).1 ↔ c ∈ s.1 ∨ ∃ a ∈ l, c ∈ env.binRelated a.1) ∧
    (∀ c, c ∈ (sets env l s).2 ↔ c ∈ s.2 ∧ ∀ a ∈ l, c ∈ env.binRelated a.1) := by
  induction l with
  | nil => intro s h1 h2; simp [sets, h1, h2]
  | cons a l ih =>
    intro s h1 h2
    unfold sets
    dsimp only
    obtain ⟨g1, g2, g3, g4⟩ := ih (s.1 ∪ (env.binRelated a.1).dedup, s.2.filter (fun c => decide (c ∈ (env.binRelated a.1).dedup)))
      (List.Nodup.union _ (List.nodup_dedup _)) (h2.filter _)
    refine ⟨g1, g2, fun c => ?_, fun c => ?_⟩
    · rw [g3]
      simp only [List.mem_union_iff, List.mem_dedup, List.mem_cons, exists_eq_or_imp]
      tauto
    · rw [g4]
      simp only [List.mem_filter, List.mem_dedup, decide_eq_true_eq, List.mem_cons, forall_eq_or_imp]
      tauto

/-- The overlap rate is the root of the number of constraints common to all variables divided by the number of constraints
of any variable; it is 0 when the first variable has none. -/
theorem overlap_meaning (env : Env ν) (a : ℕ × ℤ) (l : List (ℕ × ℤ)) :
    ∃ U I : List ℕ, U.Nodup ∧ I.Nodup ∧ (∀ c, c ∈ U ↔ ∃ b ∈ a :: l, c ∈ env.binRelated b.1) ∧
      (∀ c, c ∈ I ↔ ∀ b ∈ a :: l, c ∈ env.binRelated b.1) ∧
      overlapRate env (a :: l) = some (if env.binRelated a.1 = [] then 0 else env.root ((I.length : ℚ) / U.length) l.length) := by
  obtain ⟨g1, g2, g3, g4⟩ := sets_spec env l ((env.binRelated a.1).dedup, (env.binRelated a.1).dedup) (List.nodup_dedup _) (List.nodup_dedup _)
  refine ⟨_, _, g1, g2, fun c => ?_, fun c => ?_, ?_⟩
  · rw [g3]; simp
  · rw [g4]; simp
  · unfold overlapRate
    dsimp only
    by_cases h : env.binRelated a.1 = []
    · rw [if_pos h, if_pos (by rw [h]; rfl)]
    · rw [if_neg h, if_neg]
      intro hl
      apply h
      have : (env.binRelated a.1).dedup = [] := List.length_eq_zero_iff.1 hl
      exact List.eq_nil_iff_forall_not_mem.2 fun c hc => by
        have := List.mem_dedup.2 hc
        simp_all

/-- The overlap rate lies between 0 and 1. -/
theorem overlap_range (env : Env ν) (hroot : ∀ x n, 0 ≤ x → x ≤ 1 → 0 ≤ env.root x n ∧ env.root x n ≤ 1)
    (l : List (ℕ × ℤ)) (r : ℚ) (h : overlapRate env l = some r) : 0 ≤ r ∧ r ≤ 1 := by
  cases l with
  | nil => simp [overlapRate] at h
  | cons a l =>
    obtain ⟨U, I, hU, hI, mU, mI, e⟩ := overlap_meaning env a l
    rw [e] at h
    simp only [Option.some.injEq] at h
    subst h
    split
    · norm_num
    · apply hroot
      · positivity
      · have hle : I.length ≤ U.length := by
          apply (List.Nodup.subperm hI _).length_le
          intro c hc
          exact (mU c).2 ⟨a, by simp, (mI c).1 hc a (by simp)⟩
        rcases Nat.eq_zero_or_pos U.length with h0 | h0
        · rw [h0]; simp
        · rw [div_le_one (by exact_mod_cast h0)]
          exact_mod_cast hle

/-! ## Equality of moves -/

theorem hashOf_perm (env : Env ν) (l r : List (ℕ × ℤ)) (h : l.Perm r) : hashOf env l = hashOf env r := by
  unfold hashOf
  have : RightCommutative (fun (h : ℕ) (a : ℕ × ℤ) => h ^^^ env.addr a.1) := ⟨fun x a b => by
    show (x ^^^ env.addr a.1) ^^^ env.addr b.1 = (x ^^^ env.addr b.1) ^^^ env.addr a.1
    rw [Nat.xor_assoc, Nat.xor_assoc, Nat.xor_comm (env.addr a.1)]⟩
  exact h.foldl_eq 0

/-- Moves that the comparison calls equal make the same alterations. -/
theorem same_alterations (a b : CMove) (h : same a b = true) : a.move.alterations = b.move.alterations := by
  unfold same at h
  simp only [Bool.and_eq_true, decide_eq_true_eq] at h
  exact h.2

/-! ## Maintenance between two runs -/

/-- What `std::stable_sort` guarantees: a rearrangement in which no move comes after a move it should precede. -/
def Sorts (env : Env ν) (sort : List CMove → List CMove) (l : List CMove) : Prop :=
  (sort l).Perm l ∧ (sort l).Pairwise (fun a b => before env b a = false)

/-- A collection of moves on which the comparison is an order: overlap rates are equal or differ by more than 1e-10,
addresses of different variables differ, by less than 2^31, and equal alterations come with the same number of constraints,
hash and rate. -/
structure Regular (env : Env ν) (l : List CMove) : Prop where
  rates : ∀ a ∈ l, ∀ b ∈ l, a.overlap = b.overlap ∨ |a.overlap - b.overlap| > EPSILON_10
  near : ∀ a ∈ l, ∀ b ∈ l, ∀ x ∈ a.move.alterations, ∀ y ∈ b.move.alterations,
    |(env.addr x.1 : ℤ) - env.addr y.1| < 2 ^ 31
  inj : ∀ u v, env.addr u = env.addr v → u = v
  fields : ∀ a ∈ l, ∀ b ∈ l, a.move.alterations = b.move.alterations →
    a.move.related.length = b.move.related.length ∧ a.hash = b.hash ∧ a.overlap = b.overlap

/-- The sort key. -/
abbrev Key := ℚ ×ₗ (ℕ ×ₗ (ℕ ×ₗ (List ℕ ×ₗ List ℤ)))

def key (env : Env ν) (a : CMove) : Key :=
  toLex (a.overlap, toLex (a.move.alterations.length, toLex (a.move.related.length,
    toLex (a.move.alterations.map (fun x => env.addr x.1), a.move.alterations.map Prod.snd))))

theorem toInt32_small (d : ℤ) (h : |d| < 2 ^ 31) : toInt32 d = d := by
  unfold toInt32
  rw [abs_lt] at h
  omega

theorem byAddress_eq (env : Env ν) (l r : List (ℕ × ℤ)) (hlen : l.length = r.length)
    (hn : ∀ x ∈ l, ∀ y ∈ r, |(env.addr x.1 : ℤ) - env.addr y.1| < 2 ^ 31) :
    byAddress env l r = if r.map (fun x => env.addr x.1) < l.map (fun x => env.addr x.1) then some true
      else if l.map (fun x => env.addr x.1) < r.map (fun x => env.addr x.1) then some false else none := by
  induction l generalizing r with
  | nil => cases r with
    | nil => simp [byAddress]
    | cons b r => simp at hlen
  | cons a l ih => cases r with
    | nil => simp at hlen
    | cons b r =>
      have h0 := hn a (by simp) b (by simp)
      unfold byAddress
      dsimp only
      rw [toInt32_small _ h0, ih r (by simpa using hlen) (fun x hx y hy => hn x (by simp [hx]) y (by simp [hy]))]
      simp only [List.map_cons, List.cons_lt_cons_iff]
      rcases lt_trichotomy (env.addr a.1) (env.addr b.1) with h | h | h
      · rw [if_neg (by omega), if_pos (by omega)]
        rw [if_neg (by omega), if_pos (by omega)]
      · rw [if_neg (by omega), if_neg (by omega)]
        simp [h]
      · rw [if_pos (by omega), if_pos (by omega)]

theorem byValue_eq (l r : List (ℕ × ℤ)) (hlen : l.length = r.length) :
    byValue l r = if r.map Prod.snd < l.map Prod.snd then some true
      else if l.map Prod.snd < r.map Prod.snd then some false else none := by
  induction l generalizing r with
  | nil => cases r with
    | nil => simp [byValue]
    | cons b r => simp at hlen
  | cons a l ih => cases r with
    | nil => simp at hlen
    | cons b r =>
      unfold byValue
      dsimp only
      rw [ih r (by simpa using hlen)]
      simp only [List.map_cons, List.cons_lt_cons_iff]
      rcases lt_trichotomy a.2 b.2 with h | h | h
      · rw [if_neg (by omega), if_pos (by omega)]
        rw [if_neg (by omega), if_pos (by omega)]
      · rw [if_neg (by omega), if_neg (by omega)]
        simp [h]
      · rw [if_pos (by omega), if_pos (by omega)]

theorem before_eq (env : Env ν) (l : List CMove) (h : Regular env l) (a b : CMove) (ha : a ∈ l) (hb : b ∈ l) :
    before env a b = decide (key env b < key env a) := by
  unfold before key
  dsimp only
  simp only [Prod.Lex.toLex_lt_toLex]
  have heps : (0 : ℚ) < EPSILON_10 := by unfold EPSILON_10; norm_num
  rcases h.rates a ha b hb with e | e
  · rw [if_neg (by rw [e]; simp; exact le_of_lt heps), if_neg (by rw [e]; simp; exact le_of_lt heps), if_neg (lt_irrefl _), if_neg (lt_irrefl _)]
    rw [e]
    simp only [lt_irrefl, false_or, true_and]
    rcases lt_trichotomy a.move.alterations.length b.move.alterations.length with e1 | e1 | e1
    · rw [if_neg (by omega), if_pos (by omega)]
      symm; rw [decide_eq_false_iff_not]; omega
    · rw [if_neg (by omega), if_neg (by omega)]
      simp only [e1, lt_irrefl, false_or, true_and]
      rcases lt_trichotomy a.move.related.length b.move.related.length with e2 | e2 | e2
      · rw [if_neg (by omega), if_pos (by omega)]
        symm; rw [decide_eq_false_iff_not]; omega
      · rw [if_neg (by omega), if_neg (by omega)]
        simp only [e2, lt_irrefl, false_or, true_and]
        rw [byAddress_eq env _ _ e1 (h.near a ha b hb), byValue_eq _ _ e1]
        rcases lt_trichotomy (a.move.alterations.map (fun x => env.addr x.1)) (b.move.alterations.map (fun x => env.addr x.1)) with e3 | e3 | e3
        · rw [if_neg (lt_asymm e3), if_pos e3]
          symm; rw [decide_eq_false_iff_not]
          rintro (g | ⟨g, _⟩)
          · exact lt_asymm e3 g
          · rw [g] at e3; exact lt_irrefl _ e3
        · rw [e3, if_neg (lt_irrefl _), if_neg (lt_irrefl _)]
          simp only [lt_irrefl, false_or, true_and]
          split
          · simp_all
          · split <;> simp_all
        · rw [if_pos e3]
          symm; rw [decide_eq_true_iff]
          exact Or.inl e3
      · rw [if_pos (by omega)]
        symm; rw [decide_eq_true_iff]; omega
    · rw [if_pos (by omega)]
      symm; rw [decide_eq_true_iff]; omega
  · rcases lt_or_ge 0 (a.overlap - b.overlap) with g | g
    · rw [abs_of_pos g] at e
      rw [if_pos e]
      symm; rw [decide_eq_true_iff]
      exact Or.inl (by linarith)
    · rw [abs_of_nonpos g] at e
      rw [if_neg (by linarith), if_pos (by linarith)]
      symm; rw [decide_eq_false_iff_not]
      rintro (k | ⟨k, _⟩) <;> linarith

theorem same_of_key (env : Env ν) (l : List CMove) (h : Regular env l) (a b : CMove) (ha : a ∈ l) (hb : b ∈ l)
    (e : key env a = key env b) : same a b = true := by
  unfold key at e
  have e1 := congrArg ofLex e
  simp only [ofLex_toLex, Prod.mk.injEq, toLex_inj] at e1
  obtain ⟨k1, k2, k3, k4, k5⟩ := e1
  have ealt : a.move.alterations = b.move.alterations := by
    generalize a.move.alterations = x at *
    generalize b.move.alterations = y at *
    clear k3 k2 e
    induction x generalizing y with
    | nil => cases y with
      | nil => rfl
      | cons b y => simp at k4
    | cons a x ih => cases y with
      | nil => simp at k4
      | cons b y =>
        simp only [List.map_cons, List.cons.injEq] at k4 k5
        rw [ih y k4.2 k5.2, Prod.ext (h.inj _ _ k4.1) k5.1]
  obtain ⟨f1, f2, f3⟩ := h.fields a ha b hb ealt
  unfold same
  simp only [Bool.and_eq_true, decide_eq_true_eq, Bool.not_eq_true', decide_eq_false_iff_not]
  refine ⟨⟨⟨⟨k2, f1⟩, f2⟩, ?_⟩, ealt⟩
  rw [f3]; simp; unfold EPSILON_10; norm_num

theorem Regular.mono {env : Env ν} {l r : List CMove} (h : Regular env l) (hs : ∀ x ∈ r, x ∈ l) : Regular env r :=
  ⟨fun a ha b hb => h.rates a (hs a ha) b (hs b hb), fun a ha b hb => h.near a (hs a ha) b (hs b hb), h.inj,
    fun a ha b hb => h.fields a (hs a ha) b (hs b hb)⟩

theorem key_of_alts (env : Env ν) (l : List CMove) (h : Regular env l) (a b : CMove) (ha : a ∈ l) (hb : b ∈ l)
    (e : a.move.alterations = b.move.alterations) : key env a = key env b := by
  obtain ⟨f1, f2, f3⟩ := h.fields a ha b hb e
  unfold key
  rw [e, f1, f3]

/-- After sorting and removing neighbouring duplicates no two moves make the same alterations, every move was there before,
every move that was there is represented, and the order is by decreasing overlap rate. -/
theorem deduplicated (env : Env ν) (sort : List CMove → List CMove) (l : List CMove) (h : Regular env l) (hs : Sorts env sort l) :
    (deduplicate (sort l)).Pairwise (fun a b => a.move.alterations ≠ b.move.alterations) ∧
    (∀ a ∈ deduplicate (sort l), a ∈ l) ∧
    (∀ a ∈ l, ∃ b ∈ deduplicate (sort l), b.move.alterations = a.move.alterations) ∧
    (deduplicate (sort l)).Pairwise (fun a b => b.overlap ≤ a.overlap) := by
  have hmem : ∀ x ∈ sort l, x ∈ l := fun x hx => hs.1.mem_iff.1 hx
  have hkey : (sort l).Pairwise (fun a b => key env b ≤ key env a) := by
    refine List.Pairwise.imp_of_mem ?_ hs.2
    intro a b ha hb hab
    rw [before_eq env l h b a (hmem b hb) (hmem a ha), decide_eq_false_iff_not] at hab
    exact not_lt.1 hab
  refine ⟨?_, fun a ha => hmem a ((unique_sublist _ _).subset ha), fun a ha => ?_, ?_⟩
  · have := unique_pairwise same (fun a b => key env b ≤ key env a) l (fun a _ b _ c _ g k => le_trans k g)
      (fun a ha b hb g k => same_of_key env l h a b ha hb (le_antisymm k g))
      (fun a ha b hb g => le_of_eq (key_of_alts env l h a b ha hb (same_alterations a b g))) _ hmem hkey
    refine List.Pairwise.imp_of_mem ?_ this
    intro a b ha hb hab e
    have ha' := hmem a ((unique_sublist _ _).subset ha)
    have hb' := hmem b ((unique_sublist _ _).subset hb)
    rw [same_of_key env l h a b ha' hb' (key_of_alts env l h a b ha' hb' e)] at hab
    simp at hab
  · obtain ⟨y, hy, e⟩ := unique_represents same (sort l) a (hs.1.mem_iff.2 ha)
    rcases e with e | e
    · exact ⟨y, hy, by rw [e]⟩
    · exact ⟨y, hy, same_alterations y a e⟩
  · refine (hkey.sublist (unique_sublist _ _)).imp ?_
    intro a b hab
    unfold key at hab
    rw [Prod.Lex.toLex_le_toLex] at hab
    rcases hab with g | ⟨g, _⟩
    · exact le_of_lt g
    · exact le_of_eq g

/-- The number of stored moves never exceeds the capacity, and stored moves are moves that were registered. -/
theorem maintain_bound (cfg : Config) (sort shuffle : List CMove → List CMove) (l : List CMove)
    (hsort : ∀ l, (sort l).Perm l) (hshuffle : ∀ l, (shuffle l).Perm l) :
    (maintain cfg sort shuffle l).length ≤ cfg.capacity ∧ ∀ a ∈ maintain cfg sort shuffle l, a ∈ l := by
  unfold maintain
  dsimp only
  have h1 : ∀ a ∈ (if cfg.updated && cfg.option then [] else l), a ∈ l := by
    intro a; split <;> simp
  generalize hl1 : (if cfg.updated && cfg.option then [] else l) = l1 at *
  have h2 : ∀ a ∈ (if (cfg.enabled && decide (cfg.capacity > 0)) = true then deduplicate (sort l1) else l1), a ∈ l := by
    intro a ha
    split at ha
    · exact h1 a ((hsort l1).mem_iff.1 ((unique_sublist _ _).subset ha))
    · exact h1 a ha
  generalize (if (cfg.enabled && decide (cfg.capacity > 0)) = true then deduplicate (sort l1) else l1) = l2 at *
  have h3 : (if cfg.shuffleMode then shuffle l2 else l2).Perm l2 := by
    split
    · exact hshuffle l2
    · exact List.Perm.refl _
  generalize (if cfg.shuffleMode then shuffle l2 else l2) = l3 at *
  by_cases hc : l2.length > cfg.capacity
  · rw [if_pos hc]
    unfold reduce
    rw [if_neg (by rw [h3.length_eq]; omega)]
    exact ⟨List.length_take_le _ _, fun a ha => h2 a (h3.mem_iff.1 (List.take_subset _ _ ha))⟩
  · rw [if_neg hc]; exact ⟨by omega, h2⟩

/-- With chain moves enabled: no two stored moves make the same alterations; when the distinct moves fit, none is lost; and
when they do not fit and the best are to be kept, a move that is not kept does not have a higher overlap rate than one
that is. -/
theorem maintained (env : Env ν) (cfg : Config) (sort shuffle : List CMove → List CMove) (l : List CMove) (h : Regular env l)
    (hs : Sorts env sort l) (hshuffle : ∀ l, (shuffle l).Perm l) (he : cfg.enabled = true) (hcap : 0 < cfg.capacity)
    (hnew : cfg.updated = false) :
    (maintain cfg sort shuffle l).Pairwise (fun a b => a.move.alterations ≠ b.move.alterations) ∧
    ((deduplicate (sort l)).length ≤ cfg.capacity →
      ∀ a ∈ l, ∃ b ∈ maintain cfg sort shuffle l, b.move.alterations = a.move.alterations) ∧
    (cfg.shuffleMode = false → ∀ a ∈ l, (∃ b ∈ maintain cfg sort shuffle l, b.move.alterations = a.move.alterations) ∨
      ∀ b ∈ maintain cfg sort shuffle l, a.overlap ≤ b.overlap) := by
  obtain ⟨d1, d2, d3, d4⟩ := deduplicated env sort l h hs
  have hm : maintain cfg sort shuffle l = if (deduplicate (sort l)).length > cfg.capacity then
      reduce cfg.capacity (if cfg.shuffleMode then shuffle (deduplicate (sort l)) else deduplicate (sort l))
      else deduplicate (sort l) := by
    unfold maintain
    simp [he, hcap, hnew]
  rw [hm]
  by_cases hc : (deduplicate (sort l)).length > cfg.capacity
  · rw [if_pos hc]
    have hp : (if cfg.shuffleMode then shuffle (deduplicate (sort l)) else deduplicate (sort l)).Perm (deduplicate (sort l)) := by
      split
      · exact hshuffle _
      · exact List.Perm.refl _
    unfold reduce
    rw [if_neg (by rw [hp.length_eq]; omega)]
    refine ⟨?_, fun hk => absurd hk (by omega), fun hmode a ha => ?_⟩
    · refine ((hp.pairwise_iff ?_).2 d1).sublist (List.take_sublist _ _)
      intro x y hxy; exact hxy.symm
    · rw [hmode]
      simp only [Bool.false_eq_true, if_false]
      obtain ⟨b, hb, e⟩ := d3 a ha
      rw [← List.take_append_drop cfg.capacity (deduplicate (sort l))] at hb d4
      rcases List.mem_append.1 hb with hb | hb
      · exact Or.inl ⟨b, hb, e⟩
      · refine Or.inr fun c hc => ?_
        have := (List.pairwise_append.1 d4).2.2 c hc b hb
        obtain ⟨_, _, f3⟩ := h.fields b (d2 b (List.drop_subset _ _ hb)) a ha e
        rw [← f3]; exact this
  · rw [if_neg hc]
    exact ⟨d1, fun _ => d3, fun _ a ha => Or.inl (d3 a ha)⟩

/-- Registered moves are not used before they are made available. -/
theorem registered_not_available (env : Env ν) (t : ℚ) (p c : CMove) (l : List CMove) (h : registered env t p c = some l)
    (acc : Moves.Accept) (var : ℕ → Var) (f : CMove) (hf : f ∈ l) :
    chainFlag acc var f.move.isAvailable f.move.alterations = false := by
  have hav : f.move.isAvailable = false := by
    unfold registered at h
    obtain ⟨ok, h1, h2⟩ := Option.bind_eq_some_iff.1 h
    cases ok with
    | false => simp at h2; subst h2; simp at hf
    | true =>
      rw [if_pos rfl] at h2
      obtain ⟨x, hx, h3⟩ := Option.bind_eq_some_iff.1 h2
      obtain ⟨y, hy, h4⟩ := Option.bind_eq_some_iff.1 h3
      obtain ⟨g, hg, h5⟩ := Option.map_eq_some_iff.1 h4
      have hga : g.move.isAvailable = false := by
        split at hg
        · obtain ⟨r, _, rfl⟩ := Option.map_eq_some_iff.1 hg; rfl
        · obtain ⟨r, _, rfl⟩ := Option.map_eq_some_iff.1 hg; rfl
      subst h5
      split at hf
      · simp only [List.mem_cons, List.not_mem_nil, or_false] at hf
        rcases hf with rfl | rfl
        · exact hga
        · exact hga
      · simp at hf
  rw [hav]
  unfold chainFlag
  rfl

/-- After a reset every stored move is available, and nothing else about the stored moves has changed. -/
theorem reset_makes_available (l : List CMove) :
    (∀ f ∈ resetAvailability l, f.move.isAvailable = true) ∧
    (resetAvailability l).map (fun f => (f.move.alterations, f.move.related, f.overlap, f.hash)) =
      l.map (fun f => (f.move.alterations, f.move.related, f.overlap, f.hash)) := by
  constructor
  · intro f hf
    obtain ⟨g, -, rfl⟩ := List.mem_map.1 hf
    rfl
  · simp [resetAvailability]

/-- A chain move that is proposed changes every one of its variables and touches no fixed variable. -/
theorem proposed_moves (acc : Moves.Accept) (m : MState) (available : Bool) (alts : List (ℕ × ℤ))
    (hd : (alts.map Prod.fst).Nodup) (h : chainFlag acc m.var available alts = true) :
    GoodMove m alts ∧ ∀ a ∈ alts, (m.var a.1).value ≠ a.2 := by
  unfold chainFlag at h
  simp only [Bool.and_eq_true, Bool.not_eq_true'] at h
  obtain ⟨⟨⟨_, h2⟩, h3⟩, _⟩ := h
  refine ⟨⟨hd, fun a ha => ?_⟩, fun a ha => ?_⟩
  · have := List.any_eq_false.1 h2 a ha
    simpa using this
  · have := List.all_eq_true.1 h3 a ha
    simpa using this

/-! ## Concrete cases -/

/-- Two 0/1 variables, `x0 - x1 <= 0` and `x0 + x1 <= 1`, at `x0 = 0`, `x1 = 1`. -/
def pair : MState :=
  { Example.raw with
    var := fun v => if v = 1 then { Example.bin0 with value := 1 } else Example.bin0
    varIds := [0, 1]
    con := fun c =>
      if c = 0 then Con.setup ⟨[(0, 1), (1, -1)], 0, 0⟩ .less (fun _ => .binary)
      else Con.setup ⟨[(0, 1), (1, 1)], -1, 0⟩ .less (fun _ => .binary)
    conIds := [0, 1]
    obj := ⟨[], 0, 0⟩ }.setupSens.setupObjSens.update

/-- Addresses are far apart or near each other; the second constraint has only coefficients 1. -/
def sampleEnv (step : ℕ) (name : ℕ → ℕ) : Env ℕ :=
  { addr := fun v => step * v + 64, binRelated := fun v => if v < 2 then [1] else [1, 2], name := name, root := fun x _ => x }

/-- The move of one 0/1 variable. -/
def flip (v : ℕ) (x : ℤ) : CMove := { move := { alterations := [(v, x)], sense := .binary, related := [0, 1], isUnivariable := true } }

/-- The combined move of `x0 := 1` and `x1 := 0`. -/
def combined (rel : List ℕ) : CMove :=
  { move := { alterations := [(0, 1), (1, 0)], sense := .chain, related := rel, isSpecial := true, isAvailable := false }
    overlap := 1, hash := (64 ^^^ 72) }

/-- The hypotheses are met: the two moves are combined, and the combination and its reverse are registered. -/
example : registered (sampleEnv 8 id) (1/2) (flip 0 1) (flip 1 0) = some [combined [0, 1], back (combined [0, 1])] := by
  decide +kernel

/-- Two constraints with the same name occur twice each in the combined move, and the fast score counts the violation of the
first one twice: the true total violation of the moved assignment is 1, the score says 2. -/
theorem equal_names_spoil_scores :
    registered (sampleEnv 8 (fun _ => 0)) (1/2) (flip 0 1) (flip 1 0) = some [combined [0, 1, 0, 1], back (combined [0, 1, 0, 1])] ∧
    (pair.evaluateMulti (combined [0, 1, 0, 1]).move {}).totalViolation = 2 ∧
    (pair.evaluateFull (combined [0, 1, 0, 1]).move).totalViolation = 1 ∧
    (pair.evaluateMulti (combined [0, 1]).move {}).totalViolation = 1 := by
  refine ⟨by decide +kernel, by decide +kernel, by decide +kernel, by decide +kernel⟩

/-- A chain move of one variable with a given overlap rate (only the sort order matters here). -/
def plain (v : ℕ) (r : ℚ) : CMove := { move := { alterations := [(v, 1), (v + 10, 0)], sense := .chain }, overlap := r }

theorem cycle_unsortable (env : Env ν) (a b c : CMove) (h1 : before env b a = true) (h2 : before env c b = true)
    (h3 : before env a c = true) (hab : a ≠ b) (hbc : b ≠ c) (hca : c ≠ a) (sort : List CMove → List CMove) :
    ¬ Sorts env sort [a, b, c] := by
  rintro ⟨hp, hs⟩
  cases hl : sort [a, b, c] with
  | nil => rw [hl] at hp; have := hp.length_eq; simp at this
  | cons x t =>
    rw [hl] at hp hs
    have hx : x ∈ [a, b, c] := hp.mem_iff.1 (by simp)
    have key : ∀ y ∈ [a, b, c], y ≠ x → before env y x = false := by
      intro y hy hne
      have hy' := hp.mem_iff.2 hy
      rcases List.mem_cons.1 hy' with e | e
      · exact absurd e hne
      · exact (List.pairwise_cons.1 hs).1 y e
    simp only [List.mem_cons, List.not_mem_nil, or_false] at hx
    rcases hx with rfl | rfl | rfl
    · have := key b (by simp) (Ne.symm hab); rw [h1] at this; simp at this
    · have := key c (by simp) (Ne.symm hbc); rw [h2] at this; simp at this
    · have := key a (by simp) (Ne.symm hca); rw [h3] at this; simp at this

/-- Differences of addresses are cut down to 32 bits: with variables more than 2 GiB apart the comparison runs in a circle, so
no order satisfies it (undefined behaviour of `std::stable_sort`). -/
theorem far_addresses_unsortable (sort : List CMove → List CMove) :
    ¬ Sorts (sampleEnv 1500000000 id) sort [plain 0 1, plain 1 1, plain 2 1] :=
  cycle_unsortable _ _ _ _ (by decide +kernel) (by decide +kernel) (by decide +kernel) (by decide) (by decide) (by decide) sort

/-- Overlap rates that differ by less than 1e-10 are taken as equal, which is not transitive: again a circle. -/
theorem near_rates_unsortable (sort : List CMove → List CMove) :
    ¬ Sorts (sampleEnv 8 id) sort [plain 0 (12 / 100000000000), plain 1 (6 / 100000000000), plain 2 0] :=
  cycle_unsortable _ _ _ _ (by decide +kernel) (by decide +kernel) (by decide +kernel) (by decide) (by decide) (by decide) sort

/-- The hypotheses of `maintained` are met: a move registered twice and another one with a lower rate. -/
example : Regular (sampleEnv 8 id) [plain 0 1, plain 1 (1/2), plain 0 1] ∧
    Sorts (sampleEnv 8 id) (fun _ => [plain 0 1, plain 0 1, plain 1 (1/2)]) [plain 0 1, plain 1 (1/2), plain 0 1] ∧
    deduplicate [plain 0 1, plain 0 1, plain 1 (1/2)] = [plain 0 1, plain 1 (1/2)] := by
  refine ⟨⟨by decide +kernel, by decide +kernel, fun u v h => ?_, by decide +kernel⟩, ⟨by decide +kernel, by decide +kernel⟩, by decide +kernel⟩
  exact Nat.eq_of_mul_eq_mul_left (by decide : 0 < 8) (Nat.add_right_cancel h)

end Printemps.C64
