import Verif.Spec.Flippable
import Verif.Props.C70
import Verif.Props.C36
import Mathlib.Data.List.Dedup

/-! # C71 — flippable pairs and two-flip moves -/

namespace Printemps.C71
open Spec Json Cmd Opt Text Flip Moves

theorem mem_related (m : MState) (v c : ℕ) : c ∈ m.relatedOf v ↔ c ∈ m.conIds ∧ v ∈ (m.con c).expr.vars := by
  unfold MState.relatedOf
  rw [List.mem_filter, decide_eq_true_iff]

theorem related_nodup (m : MState) (hn : m.conIds.Nodup) (v : ℕ) : (m.relatedOf v).Nodup := hn.filter _

theorem length_eq_of_mem {α : Type} [DecidableEq α] {a b : List α} (ha : a.Nodup) (hb : b.Nodup) (h : ∀ x, x ∈ a ↔ x ∈ b) :
    a.length = b.length := ((List.perm_ext_iff_of_nodup ha hb).2 h).length_eq

theorem mem_intersection (a b : List ℕ) (c : ℕ) : c ∈ intersection a b ↔ c ∈ a ∧ c ∈ b := by
  unfold intersection
  split <;> rw [List.mem_filter, decide_eq_true_iff]
  exact and_comm

theorem intersection_nodup (a b : List ℕ) (ha : a.Nodup) (hb : b.Nodup) : (intersection a b).Nodup := by
  unfold intersection
  split
  · exact ha.filter _
  · exact hb.filter _

theorem mem_union (a b : List ℕ) (c : ℕ) : c ∈ union a b ↔ c ∈ a ∨ c ∈ b := by
  unfold union
  rw [List.mem_append, List.mem_filter, decide_eq_true_iff]
  tauto

theorem union_nodup (a b : List ℕ) (ha : a.Nodup) (hb : b.Nodup) : (union a b).Nodup := by
  unfold union
  refine List.Nodup.append ha (hb.filter _) fun c h1 h2 => ?_
  rw [List.mem_filter, decide_eq_true_iff] at h2
  exact h2.2 h1

theorem common_eq (m : MState) (hn : m.conIds.Nodup) (v w : ℕ) :
    (intersection (m.relatedOf v) (m.relatedOf w)).length = both m v w := by
  refine length_eq_of_mem (intersection_nodup _ _ (related_nodup m hn v) (related_nodup m hn w)) (hn.filter _) fun c => ?_
  rw [mem_intersection, mem_related, mem_related, List.mem_filter, decide_eq_true_iff]
  tauto

theorem union_eq (m : MState) (hn : m.conIds.Nodup) (v w : ℕ) :
    (union (m.relatedOf v) (m.relatedOf w)).length = either m v w := by
  refine length_eq_of_mem (union_nodup _ _ (related_nodup m hn v) (related_nodup m hn w)) (hn.filter _) fun c => ?_
  rw [mem_union, mem_related, mem_related, List.mem_filter, decide_eq_true_iff]
  tauto

/-- The variables of the pairs occur in a constraint, so there is no division by zero. -/
theorem union_not_empty (m : MState) (v w : ℕ) (h : CanFlip m v) : union (m.relatedOf v) (m.relatedOf w) ≠ [] := by
  obtain ⟨-, -, c, hc, -, hv⟩ := h
  intro e
  have : c ∈ union (m.relatedOf v) (m.relatedOf w) := (mem_union _ _ _).2 (Or.inl ((mem_related _ _ _).2 ⟨hc, hv⟩))
  rw [e] at this; cases this

theorem mem_candidates (m : MState) (k : ℤ) (v : ℕ) :
    v ∈ candidates m k ↔ CanFlip m v ∧ k ≤ ((m.relatedOf v).length : ℤ) := by
  unfold candidates
  rw [List.mem_dedup, List.mem_flatMap]
  simp only [List.mem_filter, MState.enabledIds, candidate, Bool.and_eq_true, Bool.or_eq_true, decide_eq_true_eq,
    Bool.not_eq_true', CanFlip]
  constructor
  · rintro ⟨c, ⟨h1, h2⟩, h3, ⟨h4, h5⟩, h6⟩
    exact ⟨⟨h4, h5, c, h1, h2, h3⟩, h6⟩
  · rintro ⟨⟨h4, h5, c, h1, h2, h3⟩, h6⟩
    exact ⟨c, ⟨h1, h2⟩, h3, ⟨h4, h5⟩, h6⟩

theorem both_le (m : MState) (hn : m.conIds.Nodup) (v w : ℕ) : both m v w ≤ (m.relatedOf v).length ∧ both m v w ≤ (m.relatedOf w).length := by
  rw [← common_eq m hn]
  refine ⟨(intersection_nodup _ _ (related_nodup m hn v) (related_nodup m hn w)).subperm (fun c hc => ?_) |>.length_le,
    (intersection_nodup _ _ (related_nodup m hn v) (related_nodup m hn w)).subperm (fun c hc => ?_) |>.length_le⟩
  · exact ((mem_intersection _ _ _).1 hc).1
  · exact ((mem_intersection _ _ _).1 hc).2

theorem both_comm (m : MState) (v w : ℕ) : both m v w = both m w v := by
  unfold both
  congr 2
  funext c
  exact decide_eq_decide.2 and_comm

theorem mem_pairLoop (m : MState) (k : ℤ) (vs : List ℕ) (p : Pair) :
    p ∈ pairLoop m k vs ↔ ∃ v w, List.Sublist [v, w] vs ∧ pairOf m k v w = some p := by
  induction vs with
  | nil => simp [pairLoop]
  | cons x vs ih =>
    rw [pairLoop, List.mem_append, List.mem_filterMap, ih]
    constructor
    · rintro (⟨w, hw, h⟩ | ⟨v, w, hs, h⟩)
      · exact ⟨x, w, List.Sublist.cons_cons x (List.singleton_sublist.2 hw), h⟩
      · exact ⟨v, w, hs.cons x, h⟩
    · rintro ⟨v, w, hs, h⟩
      cases hs with
      | cons _ hs => exact Or.inr ⟨v, w, hs, h⟩
      | cons_cons _ hs => exact Or.inl ⟨w, List.singleton_sublist.1 hs, h⟩

theorem pairOf_some (m : MState) (hn : m.conIds.Nodup) (k : ℤ) (v w : ℕ) (p : Pair) :
    pairOf m k v w = some p ↔ k ≤ (both m v w : ℤ) ∧ p = ⟨v, w, both m v w, (both m v w : ℚ) / (either m v w : ℚ)⟩ := by
  unfold pairOf
  dsimp only
  rw [common_eq m hn, union_eq m hn]
  split
  · next h => exact ⟨fun e => ⟨h, (Option.some.inj e).symm⟩, fun e => (by rw [e.2])⟩
  · next h => exact ⟨fun e => (by cases e), fun e => absurd e.1 h⟩

theorem sublist_pair {v w : ℕ} {vs : List ℕ} (hn : vs.Nodup) (hv : v ∈ vs) (hw : w ∈ vs) (h : v ≠ w) :
    List.Sublist [v, w] vs ∨ List.Sublist [w, v] vs := by
  induction vs with
  | nil => cases hv
  | cons x vs ih =>
    rw [List.nodup_cons] at hn
    rcases List.mem_cons.1 hv with rfl | hv'
    · rcases List.mem_cons.1 hw with rfl | hw
      · exact absurd rfl h
      · exact Or.inl (List.Sublist.cons_cons _ (List.singleton_sublist.2 hw))
    · rcases List.mem_cons.1 hw with rfl | hw
      · exact Or.inr (List.Sublist.cons_cons _ (List.singleton_sublist.2 hv'))
      · rcases ih hn.2 hv' hw with h | h
        · exact Or.inl (h.cons _)
        · exact Or.inr (h.cons _)

/-- Two variables form a pair if and only if they are different, may be flipped, and occur together in at least as many
constraints as required; with these numbers. -/
theorem pairs_exact (m : MState) (hn : m.conIds.Nodup) (k : ℤ) (vs : List ℕ) (hvs : vs.Perm (candidates m k)) :
    (∀ v w, (∃ p ∈ extractPairs m k vs, (p.first = v ∧ p.second = w) ∨ (p.first = w ∧ p.second = v)) ↔
      v ≠ w ∧ CanFlip m v ∧ CanFlip m w ∧ k ≤ (both m v w : ℤ)) ∧
    ∀ p ∈ extractPairs m k vs, p.common = both m p.first p.second ∧ 0 < either m p.first p.second ∧
      p.overlap = (both m p.first p.second : ℚ) / (either m p.first p.second : ℚ) := by
  have hnd : vs.Nodup := hvs.symm.nodup (List.nodup_dedup _)
  have hmem : ∀ v, v ∈ vs ↔ CanFlip m v ∧ k ≤ ((m.relatedOf v).length : ℤ) := fun v => by
    rw [hvs.mem_iff, mem_candidates]
  constructor
  · intro v w
    constructor
    · rintro ⟨p, hp, hvw⟩
      unfold extractPairs at hp
      rw [List.mem_mergeSort, mem_pairLoop] at hp
      obtain ⟨a, b, hs, he⟩ := hp
      obtain ⟨h1, rfl⟩ := (pairOf_some m hn k a b p).1 he
      have hab : a ≠ b := by
        have := hs.nodup hnd
        simpa using this
      have ha := ((hmem a).1 (hs.subset (by simp))).1
      have hb := ((hmem b).1 (hs.subset (by simp))).1
      rcases hvw with ⟨rfl, rfl⟩ | ⟨rfl, rfl⟩
      · exact ⟨hab, ha, hb, h1⟩
      · exact ⟨hab.symm, hb, ha, by rw [both_comm]; exact h1⟩
    · rintro ⟨h, hv, hw, hk⟩
      have hv' : v ∈ vs := (hmem v).2 ⟨hv, by have := (both_le m hn v w).1; omega⟩
      have hw' : w ∈ vs := (hmem w).2 ⟨hw, by have := (both_le m hn v w).2; omega⟩
      rcases sublist_pair hnd hv' hw' h with hs | hs
      · refine ⟨⟨v, w, both m v w, (both m v w : ℚ) / (either m v w : ℚ)⟩, ?_, Or.inl ⟨rfl, rfl⟩⟩
        unfold extractPairs
        rw [List.mem_mergeSort, mem_pairLoop]
        exact ⟨v, w, hs, (pairOf_some m hn k v w _).2 ⟨hk, rfl⟩⟩
      · refine ⟨⟨w, v, both m w v, (both m w v : ℚ) / (either m w v : ℚ)⟩, ?_, Or.inr ⟨rfl, rfl⟩⟩
        unfold extractPairs
        rw [List.mem_mergeSort, mem_pairLoop]
        exact ⟨w, v, hs, (pairOf_some m hn k w v _).2 ⟨by rw [both_comm]; exact hk, rfl⟩⟩
  · intro p hp
    unfold extractPairs at hp
    rw [List.mem_mergeSort, mem_pairLoop] at hp
    obtain ⟨a, b, hs, he⟩ := hp
    obtain ⟨h1, rfl⟩ := (pairOf_some m hn k a b p).1 he
    refine ⟨rfl, ?_, rfl⟩
    dsimp only
    rw [← union_eq m hn]
    exact List.length_pos_iff.2 (union_not_empty m a b ((hmem a).1 (hs.subset (by simp))).1)

theorem pairLoop_once (m : MState) (hn : m.conIds.Nodup) (k : ℤ) (vs : List ℕ) (hnd : vs.Nodup) :
    (pairLoop m k vs).Pairwise fun p q => ¬ ((p.first = q.first ∧ p.second = q.second) ∨ (p.first = q.second ∧ p.second = q.first)) := by
  induction vs with
  | nil => exact List.Pairwise.nil
  | cons x vs ih =>
    rw [List.nodup_cons] at hnd
    rw [pairLoop, List.pairwise_append]
    refine ⟨?_, ih hnd.2, ?_⟩
    · rw [List.pairwise_filterMap]
      refine hnd.2.imp_of_mem fun {a b} ha hb hab p hp q hq => ?_
      obtain ⟨-, rfl⟩ := (pairOf_some m hn k x a p).1 hp
      obtain ⟨-, rfl⟩ := (pairOf_some m hn k x b q).1 hq
      rintro (⟨-, h⟩ | ⟨h, -⟩)
      · exact hab h
      · dsimp only at h; rw [h] at hnd; exact hnd.1 hb
    · intro p hp q hq
      obtain ⟨w, hw, hp⟩ := List.mem_filterMap.1 hp
      obtain ⟨-, rfl⟩ := (pairOf_some m hn k x w p).1 hp
      obtain ⟨a, b, hs, he⟩ := (mem_pairLoop m k vs q).1 hq
      obtain ⟨-, rfl⟩ := (pairOf_some m hn k a b q).1 he
      dsimp only
      rintro (⟨h, -⟩ | ⟨h, -⟩)
      · rw [h] at hnd; exact hnd.1 (hs.subset (by simp))
      · rw [h] at hnd; exact hnd.1 (hs.subset (by simp))

/-- No pair is listed twice (not even the other way round), and the pairs are ordered by their overlap. -/
theorem pairs_once_and_sorted (m : MState) (hn : m.conIds.Nodup) (k : ℤ) (vs : List ℕ) (hvs : vs.Perm (candidates m k)) :
    (extractPairs m k vs).Pairwise fun p q =>
      ¬ ((p.first = q.first ∧ p.second = q.second) ∨ (p.first = q.second ∧ p.second = q.first)) ∧ q.overlap ≤ p.overlap := by
  have hnd : vs.Nodup := hvs.symm.nodup (List.nodup_dedup _)
  refine List.Pairwise.and ?_ ?_
  · refine (List.mergeSort_perm _ _).symm.pairwise (pairLoop_once m hn k vs hnd) fun {p q} h hc => h ?_
    rcases hc with ⟨h1, h2⟩ | ⟨h1, h2⟩
    · exact Or.inl ⟨h1.symm, h2.symm⟩
    · exact Or.inr ⟨h2.symm, h1.symm⟩
  · have := List.pairwise_mergeSort (le := fun (a b : Pair) => decide (¬ b.overlap > a.overlap)) (fun a b c h1 h2 => by
      simp only [gt_iff_lt, not_lt, decide_eq_true_eq] at *
      exact le_trans h2 h1) (fun a b => by
      simp only [gt_iff_lt, not_lt, Bool.or_eq_true, decide_eq_true_eq]
      exact le_total _ _) (pairLoop m k vs)
    refine this.imp fun h => ?_
    simpa using h

/-! ### The file -/

theorem strip_mem {c : Char} {l : List Char} (h : c ∈ stripZeros l) : c ∈ l := by
  unfold stripZeros at h
  rw [List.mem_reverse] at h
  exact List.mem_reverse.1 ((List.dropWhile_sublist _).subset h)

/-- A printed number contains no white space. -/
theorem formatDouble_space (q : ℚ) : ∀ c ∈ formatDouble q, isSpace c = false := by
  have dig : ∀ n, ∀ c ∈ natChars n, isSpace c = false := fun n c h => C70.number_char c (Or.inl (natChars_digits _ c h))
  have pos : ∀ q, ∀ c ∈ formatPositive q, isSpace c = false := by
    intro q c
    unfold formatPositive
    dsimp only
    generalize (if roundEven _ ≥ 1000000 then 100000 else roundEven _) = mm
    generalize (if roundEven _ ≥ 1000000 then _ else _) = ee
    have ip : ∀ c ∈ (if 0 ≤ ee then (natChars mm).take (ee.toNat + 1) else ['0']), isSpace c = false := by
      intro c hc
      split at hc
      · exact dig _ c (List.mem_of_mem_take hc)
      · rw [List.mem_singleton.1 hc]; decide
    have fp : ∀ c ∈ stripZeros (if 0 ≤ ee then (natChars mm).drop (ee.toNat + 1) else
        List.replicate ((-ee).toNat - 1) '0' ++ natChars mm), isSpace c = false := by
      intro c hc
      have hc := strip_mem hc
      split at hc
      · exact dig _ c (List.mem_of_mem_drop hc)
      · rcases List.mem_append.1 hc with h | h
        · rw [List.eq_of_mem_replicate h]; decide
        · exact dig _ c h
    generalize (if 0 ≤ ee then (natChars mm).take (ee.toNat + 1) else ['0']) = ipl at ip ⊢
    generalize stripZeros (if 0 ≤ ee then (natChars mm).drop (ee.toNat + 1) else _) = fpl at fp ⊢
    split
    · intro hc
      split at hc
      · exact ip c hc
      · rcases List.mem_append.1 hc with h | h
        · exact ip c h
        · rcases List.mem_cons.1 h with rfl | h
          · decide
          · exact fp c h
    · intro hc
      rcases List.mem_append.1 hc with hc | hc
      · rcases List.mem_append.1 hc with hc | hc
        · rcases List.mem_append.1 hc with hc | hc
          · exact dig _ c (List.mem_of_mem_take hc)
          · split at hc
            · cases hc
            · rcases List.mem_cons.1 hc with rfl | h
              · decide
              · exact dig _ c (List.mem_of_mem_drop (strip_mem h))
        · rcases List.mem_cons.1 hc with rfl | h
          · decide
          · rw [List.mem_singleton.1 h]; split <;> decide
      · split at hc
        · rcases List.mem_cons.1 hc with rfl | h
          · decide
          · exact dig _ c h
        · exact dig _ c hc
  unfold formatDouble
  intro c hc
  split at hc
  · exact (intChars_word _).2 c hc
  · split at hc
    · rcases List.mem_cons.1 hc with rfl | h
      · decide
      · exact pos _ c h
    · exact pos _ c hc

/-- The line of a pair without its end. -/
def row (name : ℕ → Str) (m : MState) (p : Pair) : List Char :=
  name p.first ++ ' ' :: (name p.second ++ ' ' :: (natChars (m.relatedOf p.first).length ++ ' ' ::
    (natChars (m.relatedOf p.second).length ++ ' ' :: (natChars p.common ++ ' ' :: (formatDouble p.overlap ++ [' '])))))

theorem row_newline (name : ℕ → Str) (m : MState) (p : Pair) (h1 : Word (name p.first)) (h2 : Word (name p.second)) :
    '\n' ∉ row name m p := by
  have dig : ∀ n, '\n' ∉ natChars n := fun n h => by
    have := natChars_digits n _ h
    revert this; decide
  have dbl : '\n' ∉ formatDouble p.overlap := fun h => by
    have := formatDouble_space _ _ h
    revert this; decide
  have ns : '\n' ≠ ' ' := by decide
  unfold row
  simp only [List.mem_append, List.mem_cons, List.not_mem_nil, or_false, not_or]
  exact ⟨C70.word_no_newline _ h1, ns, C70.word_no_newline _ h2, ns, dig _, ns, dig _, ns, dig _, ns, dbl, ns⟩

theorem lines_written (name : ℕ → Str) (m : MState) (ps : List Pair)
    (hw : ∀ p ∈ ps, Word (name p.first) ∧ Word (name p.second)) : lines (writePairs name m ps) = ps.map (row name m) := by
  unfold lines writePairs
  induction ps with
  | nil => rfl
  | cons p ps ih =>
    rw [List.flatMap_cons, List.map_cons, ← ih fun q h => hw q (by simp [h])]
    generalize (ps.flatMap _) = rest
    have : (name p.first ++ ' ' :: (name p.second ++ ' ' :: (natChars (m.relatedOf p.first).length ++ ' ' ::
        (natChars (m.relatedOf p.second).length ++ ' ' :: (natChars p.common ++ ' ' ::
          (formatDouble p.overlap ++ [' ', '\n'])))))) ++ rest = row name m p ++ '\n' :: rest := by
      unfold row; simp
    rw [this, C70.linesFrom_line _ _ _ (row_newline name m p (hw p (by simp)).1 (hw p (by simp)).2)]
    rfl

theorem tokens_of_row (name : ℕ → Str) (m : MState) (p : Pair) (h1 : Word (name p.first)) (h2 : Word (name p.second)) :
    ∃ r, tokens (row name m p) = name p.first :: name p.second :: r := by
  unfold tokens row
  have := tokensFrom_next (name p.first) [' '] (name p.second ++ ' ' :: (natChars (m.relatedOf p.first).length ++ ' ' ::
    (natChars (m.relatedOf p.second).length ++ ' ' :: (natChars p.common ++ ' ' :: (formatDouble p.overlap ++ [' ']))))) h1
    (by decide) (by simp)
  have h := tokensFrom_next (name p.second) [' '] (natChars (m.relatedOf p.first).length ++ ' ' ::
    (natChars (m.relatedOf p.second).length ++ ' ' :: (natChars p.common ++ ' ' :: (formatDouble p.overlap ++ [' '])))) h2
    (by decide) (by simp)
  exact ⟨_, this.trans (congrArg _ h)⟩

theorem lastNamed_eq (name : ℕ → Str) (m : MState) (v : ℕ) (hv : v ∈ m.varIds)
    (hd : ∀ v ∈ m.varIds, ∀ w ∈ m.varIds, name v = name w → v = w) : lastNamed name m (name v) = some v := by
  unfold lastNamed
  cases h : m.varIds.reverse.find? fun w => decide (name w = name v) with
  | none =>
    rw [List.find?_eq_none] at h
    have := h v (List.mem_reverse.2 hv)
    simp at this
  | some w =>
    have h1 := List.mem_reverse.1 (List.mem_of_find?_eq_some h)
    have h2 := List.find?_some h
    rw [decide_eq_true_iff] at h2
    rw [hd w h1 v hv h2]

/-- The written pairs, given to a later call with `-b`, are the pairs this call uses, in the same order. -/
theorem file_round_trip (name : ℕ → Str) (m m' : MState) (ps : List Pair) (hm : m'.varIds = m.varIds)
    (hp : ∀ p ∈ ps, p.first ∈ m.varIds ∧ p.second ∈ m.varIds) (hw : ∀ v ∈ m.varIds, Word (name v))
    (hd : ∀ v ∈ m.varIds, ∀ w ∈ m.varIds, name v = name w → v = w) :
    flippablePairs name (readNamePairs (writePairs name m ps)) m' = ps.map fun p => (p.first, p.second) := by
  have hn : readNamePairs (writePairs name m ps) = ps.map fun p => (name p.first, name p.second) := by
    unfold readNamePairs
    rw [lines_written name m ps fun p h => ⟨hw _ (hp p h).1, hw _ (hp p h).2⟩, List.filterMap_map]
    rw [← List.filterMap_eq_map]
    refine List.filterMap_congr fun p h => ?_
    obtain ⟨r, e⟩ := tokens_of_row name m p (hw _ (hp p h).1) (hw _ (hp p h).2)
    simp only [Function.comp_apply, e]
  rw [hn]
  unfold flippablePairs
  rw [List.filterMap_map, ← List.filterMap_eq_map]
  refine List.filterMap_congr fun p h => ?_
  simp only [Function.comp_apply]
  rw [lastNamed_eq name m' _ (hm ▸ (hp p h).1) (hm ▸ hd), lastNamed_eq name m' _ (hm ▸ (hp p h).2) (hm ▸ hd)]

/-! ### The moves -/

/-- An enabled two-flip move exchanges the values of two different variables with values 0 and 1. -/
theorem two_flip_exchanges_partial (acc : Accept) (var : ℕ → Var) (av : Bool) (p : ℕ × ℕ) (mv : List (ℕ × ℤ)) (hmv : mv ∈ twoFlip p)
    (h1 : (var p.1).lb = 0 ∧ (var p.1).ub = 1 ∧ 0 ≤ (var p.1).value ∧ (var p.1).value ≤ 1)
    (h2 : (var p.2).lb = 0 ∧ (var p.2).ub = 1 ∧ 0 ≤ (var p.2).value ∧ (var p.2).value ≤ 1)
    (h : twoFlipFlag acc var av mv = true) :
    p.1 ≠ p.2 ∧ mv = [(p.1, (var p.2).value), (p.2, (var p.1).value)] ∧ (var p.1).value ≠ (var p.2).value ∧
      (var p.1).fixed = false ∧ (var p.2).fixed = false := by
  have hv : ∀ a ∈ mv, (a.2 = 0 ∨ a.2 = 1) ∧ (var a.1).lb = 0 ∧ (var a.1).ub = 1 := by
    unfold twoFlip at hmv
    simp only [List.mem_cons, List.not_mem_nil, or_false] at hmv
    rcases hmv with rfl | rfl <;> simp [h1.1, h1.2.1, h2.1, h2.2.1]
  obtain ⟨hf, -, hc⟩ := C36.enabled_unchecked_moves_partial acc var av mv (Or.inr h) hv
  unfold twoFlip at hmv
  simp only [List.mem_cons, List.not_mem_nil, or_false] at hmv
  rcases hmv with rfl | rfl
  · have a := hc (p.1, 1) (by simp)
    have b := hc (p.2, 0) (by simp)
    have c := hf (p.1, 1) (by simp)
    have d := hf (p.2, 0) (by simp)
    dsimp only at a b c d
    have e1 : (var p.1).value = 0 := by omega
    have e2 : (var p.2).value = 1 := by omega
    refine ⟨fun e => ?_, by rw [e1, e2], by rw [e1, e2]; decide, c, d⟩
    rw [e, e2] at e1; cases e1
  · have a := hc (p.1, 0) (by simp)
    have b := hc (p.2, 1) (by simp)
    have c := hf (p.1, 0) (by simp)
    have d := hf (p.2, 1) (by simp)
    dsimp only at a b c d
    have e1 : (var p.1).value = 1 := by omega
    have e2 : (var p.2).value = 0 := by omega
    refine ⟨fun e => ?_, by rw [e1, e2], by rw [e1, e2]; decide, c, d⟩
    rw [e, e2] at e1; cases e1

/-- A free integer variable with the given bounds and value. -/
def intVar (l u x : ℤ) : Var := { Var.init with lb := l, ub := u, value := x, sense := .integer, fixed := false }

/-- Why `_partial`: a pair in a file need not consist of 0/1 variables, and then the enabled moves leave the bounds. -/
theorem two_flip_leaves_bounds (acc : Accept) (ha : acc.all = true) (var : ℕ → Var) (h1 : var 0 = intVar 3 5 3)
    (h2 : var 1 = intVar 3 5 4) : [(0, 1), (1, 0)] ∈ twoFlip (0, 1) ∧ twoFlipFlag acc var true [(0, 1), (1, 0)] = true ∧
      (1 : ℤ) < (var 0).lb ∧ (0 : ℤ) < (var 1).lb := by
  refine ⟨by simp [twoFlip], ?_, by rw [h1]; decide, by rw [h2]; decide⟩
  simp [twoFlipFlag, hasSelection, hasFixed, allChange, screened, ha, h1, h2, intVar]

/-! ### Examples -/

private def bin (x : ℤ) : Var := { Var.init with lb := 0, ub := 1, value := x, sense := .binary }

private def ex : MState :=
  { Example.raw with
    var := fun v => bin (if v = 1 then 1 else 0)
    varIds := [0, 1, 2]
    con := fun c => if c = 0 then { expr := ⟨[(0, 1), (1, 1)], -1, 0⟩, sense := .less }
      else if c = 1 then { expr := ⟨[(0, 1), (1, -1), (2, 1)], -1, 0⟩, sense := .less }
      else { expr := ⟨[(2, 1), (1, 1)], -1, 0⟩, sense := .less, enabled := false }
    conIds := [0, 1, 2] }

example : ex.conIds.Nodup ∧ [1, 0, 2].Perm (candidates ex 2) ∧ CanFlip ex 0 ∧ CanFlip ex 1 ∧ both ex 0 1 = 2 ∧ both ex 0 2 = 1 ∧
    either ex 0 1 = 3 := by
  refine ⟨by decide, by decide +kernel, ?_, ?_, by decide, by decide, by decide⟩
  · exact ⟨rfl, Or.inl rfl, 0, by decide, rfl, by decide⟩
  · exact ⟨rfl, Or.inl rfl, 0, by decide, rfl, by decide⟩

/-- With three common constraints required there is no pair. -/
example : extractPairs ex 3 [1, 0, 2] = [] ∧ pairLoop ex 2 [1, 0, 2] = [⟨1, 0, 2, 2 / 3⟩, ⟨1, 2, 2, 2 / 3⟩] := by
  constructor
  · decide +kernel
  · decide +kernel

private def nm (v : ℕ) : Str := 'x' :: natChars v

example : writePairs nm ex [⟨1, 0, 2, 2 / 3⟩] = c!"x1 x0 3 2 2 0.666667 \n" ∧
    flippablePairs nm (readNamePairs c!"x1 x0 3 2 2 0.666667 \n") ex = [(1, 0)] := by
  constructor <;> decide +kernel

example : (∀ v ∈ ex.varIds, Word (nm v)) ∧ ∀ v ∈ ex.varIds, ∀ w ∈ ex.varIds, nm v = nm w → v = w := by
  constructor
  · intro v _
    refine ⟨by simp [nm], fun c hc => ?_⟩
    rcases List.mem_cons.1 hc with rfl | h
    · decide
    · exact C70.number_char c (Or.inl (natChars_digits _ c h))
  · decide +kernel

example : twoFlipFlag ⟨true, false, false⟩ ex.var true [(0, 1), (1, 0)] = true ∧
    twoFlipFlag ⟨true, false, false⟩ ex.var true [(0, 0), (1, 1)] = false ∧
    twoFlipFlag ⟨true, false, false⟩ ex.var true [(0, 1), (2, 0)] = false := by decide +kernel

example : ∃ var : ℕ → Var, var 0 = intVar 3 5 3 ∧ var 1 = intVar 3 5 4 :=
  ⟨fun v => if v = 0 then intVar 3 5 3 else intVar 3 5 4, rfl, rfl⟩

end Printemps.C71
