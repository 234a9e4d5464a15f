import Verif.Model.HashMap
import Mathlib.Data.Finset.Card
import Mathlib.Data.Finset.Range
import Mathlib.Data.Nat.Bitwise
import Mathlib.Data.List.Nodup

/-! # C15 — coefficient lookup tables agree with the map they were built from -/

namespace Printemps.C15
open HashMap

/-- Specification: the coefficient a map stores for a key, zero for keys it does not hold. -/
def coefficient (m : List (ℕ × ℚ)) (k : ℕ) : ℚ := ((m.find? fun p => p.1 == k).map Prod.snd).getD 0

theorem bucketLoop_pow (minimum : ℕ) : ∀ b, (∃ e, b = 2 ^ e) →
    (∃ e, bucketLoop minimum b = 2 ^ e) ∧ minimum ≤ bucketLoop minimum b := by
  intro b
  induction b using bucketLoop.induct minimum with
  | case1 b h ih =>
    rintro ⟨e, he⟩
    rw [bucketLoop, dif_pos h]
    exact ih ⟨e + 1, by rw [he, pow_succ]⟩
  | case2 b h =>
    rintro ⟨e, he⟩
    rw [bucketLoop, dif_neg h]
    have : 0 < b := by rw [he]; positivity
    exact ⟨⟨e, he⟩, by omega⟩

/-- The slot visited at the `j`-th step from slot `i` in a table of `n` slots. -/
def slot (n i j : ℕ) : ℕ := (i + j) % n

/-- What holds of a table after the pairs `m` have been inserted. -/
structure Inv (t : Table) (n : ℕ) (m : List (ℕ × ℚ)) : Prop where
  size : t.bucketSize = n
  mask : ∃ e, n = 2 ^ e ∧ t.mask = n - 1
  found : ∀ p ∈ m, ∃ j < n, t.keys (slot n (t.index p.1) j) = p.1 ∧
    t.values (slot n (t.index p.1) j) = p.2 ∧ t.occupied (slot n (t.index p.1) j) = true ∧
    ∀ j' < j, t.occupied (slot n (t.index p.1) j') = true ∧ t.keys (slot n (t.index p.1) j') ≠ p.1
  only : ∀ i, t.occupied i = true → t.keys i ∈ m.map Prod.fst
  free : ∀ i, t.occupied i = false → t.keys i = 0 ∧ t.values i = 0
  count : ((Finset.range n).filter fun i => t.occupied i = true).card ≤ m.length

theorem Inv.pos {t n m} (h : Inv t n m) : 0 < n := by
  obtain ⟨e, he, _⟩ := h.mask; rw [he]; positivity

theorem Inv.index_lt {t n m} (h : Inv t n m) (k : ℕ) : t.index k < n := by
  obtain ⟨e, he, hm⟩ := h.mask
  rw [Table.index, hm, he, Nat.and_two_pow_sub_one_eq_mod]
  exact Nat.mod_lt _ (by positivity)

theorem Inv.next_eq {t n m} (h : Inv t n m) (i : ℕ) : t.next i = (i + 1) % n := by
  obtain ⟨e, he, hm⟩ := h.mask
  rw [Table.next, hm, he, Nat.and_two_pow_sub_one_eq_mod]

theorem Inv.next_slot {t n m} (h : Inv t n m) (i j : ℕ) : t.next (slot n i j) = slot n i (j + 1) := by
  rw [h.next_eq, slot, slot, ← Nat.add_assoc, Nat.mod_add_mod]

theorem slot_zero {n i : ℕ} (h : i < n) : slot n i 0 = i := by rw [slot, Nat.add_zero, Nat.mod_eq_of_lt h]

/-- A table with fewer entries than slots has a free slot on every probe sequence. -/
theorem Inv.exists_free {t n m} (h : Inv t n m) (hl : m.length < n) (i : ℕ) (hi : i < n) :
    ∃ j < n, t.occupied (slot n i j) = false := by
  by_contra hcon
  have hall : ∀ j < n, t.occupied (slot n i j) = true := by
    intro j hj
    by_contra hj'
    exact hcon ⟨j, hj, by simpa using hj'⟩
  have : ((Finset.range n).filter fun i => t.occupied i = true) = Finset.range n := by
    apply Finset.filter_true_of_mem
    intro x hx
    have hx := Finset.mem_range.1 hx
    by_cases hxi : i ≤ x
    · have := hall (x - i) (by omega)
      rwa [slot, show i + (x - i) = x by omega, Nat.mod_eq_of_lt hx] at this
    · have := hall (n + x - i) (by omega)
      rwa [slot, show i + (n + x - i) = n + x by omega, Nat.add_mod_left, Nat.mod_eq_of_lt hx] at this
  have hc := h.count
  rw [this, Finset.card_range] at hc
  omega

/-- The first free slot of a probe sequence. -/
theorem Inv.first_free {t n m} (h : Inv t n m) (hl : m.length < n) (i : ℕ) (hi : i < n) :
    ∃ j < n, t.occupied (slot n i j) = false ∧ ∀ j' < j, t.occupied (slot n i j') = true := by
  have hex := h.exists_free hl i hi
  classical
  have hex' : ∃ j, j < n ∧ t.occupied (slot n i j) = false := by
    obtain ⟨j, h1, h2⟩ := hex; exact ⟨j, h1, h2⟩
  refine ⟨Nat.find hex', (Nat.find_spec hex').1, (Nat.find_spec hex').2, ?_⟩
  intro j' hj'
  have := Nat.find_min hex' hj'
  have hlt : j' < n := lt_trans hj' (Nat.find_spec hex').1
  by_contra hb
  exact this ⟨hlt, by simpa using hb⟩

theorem Inv.findFree_eq {t n m} (h : Inv t n m) (i j : ℕ) (hfree : t.occupied (slot n i j) = false)
    (hocc : ∀ j' < j, t.occupied (slot n i j') = true) (fuel s : ℕ) (hs : s ≤ j) (hf : j < s + fuel) :
    t.findFree fuel (slot n i s) = some (slot n i j) := by
  induction fuel generalizing s with
  | zero => omega
  | succ f ih =>
    rw [Table.findFree]
    by_cases hsj : s = j
    · subst hsj; simp [hfree]
    · rw [if_pos (hocc s (by omega)), h.next_slot, ih (s + 1) (by omega) (by omega)]

theorem Inv.insert_ok {t n m} (h : Inv t n m) (hl : m.length < n) (k : ℕ) (v : ℚ)
    (hk : k ∉ m.map Prod.fst) : ∃ t', t.insert k v = some t' ∧ Inv t' n (m ++ [(k, v)]) := by
  obtain ⟨j, hj, hfree, hocc⟩ := h.first_free hl (t.index k) (h.index_lt k)
  have hfind := h.findFree_eq (t.index k) j hfree hocc n 0 (Nat.zero_le _) (by omega)
  rw [slot_zero (h.index_lt k)] at hfind
  set i := slot n (t.index k) j with hi
  refine ⟨_, by rw [Table.insert, h.size, hfind]; rfl, ?_⟩
  have hin : i < n := Nat.mod_lt _ h.pos
  constructor
  · rfl
  · exact h.mask
  · intro p hp
    rcases List.mem_append.1 hp with hp | hp
    · obtain ⟨j1, hj1, e1, e2, e3, e4⟩ := h.found p hp
      have hne : ∀ x, t.occupied x = true → x ≠ i := by
        intro x hx hxi; rw [hxi, hfree] at hx; exact absurd hx (by decide)
      refine ⟨j1, hj1, ?_, ?_, ?_, ?_⟩
      · exact (Function.update_of_ne (hne _ e3) _ _).trans e1
      · exact (Function.update_of_ne (hne _ e3) _ _).trans e2
      · exact (Function.update_of_ne (hne _ e3) _ _).trans e3
      · intro j' hj'
        obtain ⟨f1, f2⟩ := e4 j' hj'
        refine ⟨(Function.update_of_ne (hne _ f1) _ _).trans f1, ?_⟩
        intro hc
        exact f2 ((Function.update_of_ne (hne _ f1) _ _).symm.trans hc)
    · rw [List.mem_singleton] at hp
      subst hp
      refine ⟨j, hj, ?_, ?_, ?_, ?_⟩
      · exact Function.update_self _ _ _
      · exact Function.update_self _ _ _
      · exact Function.update_self _ _ _
      · intro j' hj'
        have f1 := hocc j' hj'
        have hne : slot n (t.index k) j' ≠ i := by
          intro hxi; rw [hxi, hfree] at f1; exact absurd f1 (by decide)
        refine ⟨(Function.update_of_ne hne _ _).trans f1, ?_⟩
        intro hc
        have hc' : t.keys (slot n (t.index k) j') = k := (Function.update_of_ne hne _ _).symm.trans hc
        exact hk (hc' ▸ h.only _ f1)
  · intro x hx
    by_cases hxi : x = i
    · subst hxi
      show Function.update t.keys _ k _ ∈ _
      rw [Function.update_self]; simp
    · have hx' : t.occupied x = true := (Function.update_of_ne hxi _ _).symm.trans hx
      show Function.update t.keys _ k _ ∈ _
      rw [Function.update_of_ne hxi, List.map_append]
      exact List.mem_append_left _ (h.only x hx')
  · intro x hx
    by_cases hxi : x = i
    · subst hxi
      have : Function.update t.occupied i true i = false := hx
      rw [Function.update_self] at this; exact absurd this (by decide)
    · have hx' : t.occupied x = false := (Function.update_of_ne hxi _ _).symm.trans hx
      have := h.free x hx'
      exact ⟨(Function.update_of_ne hxi _ _).trans this.1, (Function.update_of_ne hxi _ _).trans this.2⟩
  · have hsub : ((Finset.range n).filter fun x => Function.update t.occupied i true x = true)
        ⊆ insert i ((Finset.range n).filter fun x => t.occupied x = true) := by
      intro x hx
      rw [Finset.mem_filter] at hx
      by_cases hxi : x = i
      · simp [hxi]
      · rw [Function.update_of_ne hxi] at hx
        exact Finset.mem_insert_of_mem (Finset.mem_filter.2 hx)
    have := (Finset.card_le_card hsub).trans (Finset.card_insert_le _ _)
    have hc := h.count
    rw [List.length_append, List.length_singleton]
    show (Finset.filter (fun x => Function.update t.occupied i true x = true) _).card ≤ _
    omega

theorem fold_inv (n : ℕ) (rest : List (ℕ × ℚ)) : ∀ (t : Table) (m : List (ℕ × ℚ)), Inv t n m →
    (m ++ rest).length < n ∨ rest = [] → ((m ++ rest).map Prod.fst).Nodup →
    ∃ t', rest.foldl (fun t p => t.bind fun t => t.insert p.1 p.2) (some t) = some t' ∧
      Inv t' n (m ++ rest) := by
  induction rest with
  | nil => intro t m h _ _; exact ⟨t, rfl, by simpa using h⟩
  | cons p rest ih =>
    intro t m h hl hnd
    have hl' : (m ++ p :: rest).length < n := by simpa using hl
    simp only [List.length_append, List.length_cons] at hl'
    have hk : p.1 ∉ m.map Prod.fst := by
      rw [List.map_append, List.map_cons, List.nodup_append] at hnd
      intro hc
      exact hnd.2.2 _ hc _ List.mem_cons_self rfl
    obtain ⟨t', e, h'⟩ := h.insert_ok (by omega) p.1 p.2 hk
    obtain ⟨t'', e2, h''⟩ := ih t' (m ++ [p]) h' (by left; simp; omega) (by simpa using hnd)
    refine ⟨t'', ?_, by simpa using h''⟩
    rw [List.foldl_cons]
    show List.foldl _ ((some t).bind _) rest = _
    rw [Option.bind_some, e]; exact e2

theorem setup_inv (m : List (ℕ × ℚ)) (keySize : ℕ) (hnd : (m.map Prod.fst).Nodup) :
    ∃ t n, setup m keySize = some t ∧ Inv t n m ∧ m.length < n := by
  obtain ⟨⟨e, he⟩, hmin⟩ := bucketLoop_pow (m.length * 5) 1 ⟨0, rfl⟩
  have hlt : m.length < bucketLoop (m.length * 5) 1 := by
    have : 0 < bucketLoop (m.length * 5) 1 := by rw [he]; positivity
    omega
  have h0 : Inv (Table.mk (Nat.log2 keySize) (bucketLoop (m.length * 5) 1 - 1)
      (bucketLoop (m.length * 5) 1) (fun _ => 0) (fun _ => 0) (fun _ => false))
      (bucketLoop (m.length * 5) 1) [] := by
    constructor
    · rfl
    · exact ⟨e, he, rfl⟩
    · simp
    · simp
    · simp
    · simp
  obtain ⟨t', e2, h'⟩ := fold_inv _ m _ [] h0 (by left; simpa using hlt) (by simpa using hnd)
  exact ⟨t', _, e2, by simpa using h', hlt⟩

theorem Inv.probe_found {t n m} (h : Inv t n m) (i k j : ℕ) (v : ℚ)
    (e1 : t.keys (slot n i j) = k) (e2 : t.values (slot n i j) = v)
    (e4 : ∀ j' < j, t.occupied (slot n i j') = true ∧ t.keys (slot n i j') ≠ k) (fuel s : ℕ) (hs : s ≤ j)
    (hf : j < s + fuel) : t.probe k fuel (slot n i s) = some v := by
  induction fuel generalizing s with
  | zero => omega
  | succ f ih =>
    rw [Table.probe]
    by_cases hsj : s = j
    · subst hsj; rw [if_pos e1, e2]
    · have := e4 s (by omega)
      rw [if_neg this.2, this.1, h.next_slot]
      simpa using ih (s + 1) (by omega) (by omega)

theorem Inv.probe_absent {t n m} (h : Inv t n m) (i k j : ℕ) (hk : k ∉ m.map Prod.fst)
    (hfree : t.occupied (slot n i j) = false)
    (hocc : ∀ j' < j, t.occupied (slot n i j') = true) (fuel s : ℕ) (hs : s ≤ j)
    (hf : j < s + fuel) : t.probe k fuel (slot n i s) = some 0 := by
  induction fuel generalizing s with
  | zero => omega
  | succ f ih =>
    rw [Table.probe]
    by_cases hsj : s = j
    · subst hsj
      split
      · rw [(h.free _ hfree).2]
      · simp [hfree]
    · have f1 := hocc s (by omega)
      have : t.keys (slot n i s) ≠ k := fun hc => hk (hc ▸ h.only _ f1)
      rw [if_neg this, f1, h.next_slot]
      simpa using ih (s + 1) (by omega) (by omega)

theorem coefficient_mem (m : List (ℕ × ℚ)) (hnd : (m.map Prod.fst).Nodup) (p : ℕ × ℚ) (hp : p ∈ m) :
    coefficient m p.1 = p.2 := by
  induction m with
  | nil => simp at hp
  | cons q m ih =>
    rw [List.map_cons, List.nodup_cons] at hnd
    rcases List.mem_cons.1 hp with rfl | hp
    · simp [coefficient]
    · have hne : q.1 ≠ p.1 := fun he => hnd.1 (by rw [he]; exact List.mem_map_of_mem hp)
      rw [← ih hnd.2 hp]
      have : (q.1 == p.1) = false := by simpa using hne
      simp only [coefficient, List.find?_cons, this]

theorem coefficient_not_mem (m : List (ℕ × ℚ)) (k : ℕ) (hk : k ∉ m.map Prod.fst) : coefficient m k = 0 := by
  have : m.find? (fun p => p.1 == k) = none := by
    rw [List.find?_eq_none]
    intro p hp hc
    exact hk (by rw [← beq_iff_eq.1 hc]; exact List.mem_map_of_mem hp)
  rw [coefficient, this]; rfl

/-- Building a table from any map (any keys, any order, any collisions) ends, and every look-up ends and
returns the coefficient of the map: the stored one for its keys and zero for any other key. -/
theorem lookup_agrees (m : List (ℕ × ℚ)) (keySize : ℕ) (hnd : (m.map Prod.fst).Nodup) :
    ∃ t, setup m keySize = some t ∧ ∀ k, t.at k = some (coefficient m k) := by
  obtain ⟨t, n, hset, h, hlt⟩ := setup_inv m keySize hnd
  refine ⟨t, hset, fun k => ?_⟩
  have hidx := h.index_lt k
  by_cases hk : k ∈ m.map Prod.fst
  · obtain ⟨p, hp, rfl⟩ := List.mem_map.1 hk
    obtain ⟨j, hj, e1, e2, e3, e4⟩ := h.found p hp
    have hocc : t.occupied (t.index p.1) = true := by
      by_cases hj0 : j = 0
      · rw [hj0, slot_zero hidx] at e3; exact e3
      · have := (e4 0 (by omega)).1; rwa [slot_zero hidx] at this
    have := h.probe_found (t.index p.1) p.1 j p.2 e1 e2 e4 n 0 (Nat.zero_le _) (by omega)
    rw [slot_zero hidx] at this
    rw [Table.at, hocc, h.size, coefficient_mem m hnd p hp]; simpa using this
  · rw [coefficient_not_mem m k hk, Table.at]
    split
    · rfl
    · obtain ⟨j, hj, hfree, hocc⟩ := h.first_free hlt (t.index k) hidx
      have := h.probe_absent (t.index k) k j hk hfree hocc n 0 (Nat.zero_le _) (by omega)
      rw [slot_zero hidx] at this
      rw [h.size]; exact this

/-- Non-vacuity: three keys that fall into the same slot of a 16-slot table with 8-byte keys. -/
example : ([(0, 1), (128, -2), (256, 3)] : List (ℕ × ℚ)).map Prod.fst |>.Nodup := by decide

example : ((setup [(8, 1), (136, -2), (264, 3)] 8).bind fun t => t.at 264) = some 3 ∧
    ((setup [(8, 1), (136, -2), (264, 3)] 8).bind fun t => t.at 392) = some 0 := by
  obtain ⟨t, h1, h2⟩ := lookup_agrees [(8, 1), (136, -2), (264, 3)] 8 (by decide)
  rw [h1]
  exact ⟨h2 264, h2 392⟩

end Printemps.C15
