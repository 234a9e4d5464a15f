import Verif.Model.UnionFind
import Verif.Lemmas.Graph
import Mathlib.Data.Finset.Card
import Mathlib.Data.Finset.Dedup

/-! # C16 — union-find answers connectivity -/

namespace Printemps.C16
open UnionFind Spec

/-- The data structure represents the partition `rep` (every element mapped to the root of its tree). -/
structure Inv (s : UF) (E : List ℕ) (rep : ℕ → ℕ) : Prop where
  elems : s.elements = E
  root : ∀ x, s.hasParent x = false → rep x = x
  child : ∀ x, s.hasParent x = true → rep x = rep (s.parents x)
  mem : ∀ x, s.hasParent x = true → s.parents x ∈ E
  ranked : ∃ rank : ℕ → ℕ, ∀ x, s.hasParent x = true → rank x < rank (s.parents x)

theorem above_card_lt (E : List ℕ) (rank : ℕ → ℕ) (x y : ℕ) (hy : y ∈ E) (h : rank x < rank y) :
    (E.toFinset.filter fun z => rank y < rank z).card < (E.toFinset.filter fun z => rank x < rank z).card := by
  apply Finset.card_lt_card
  rw [Finset.ssubset_iff_of_subset]
  · exact ⟨y, by simp [hy, h], by simp⟩
  · intro z hz
    simp only [Finset.mem_filter] at hz ⊢
    exact ⟨hz.1, lt_trans h hz.2⟩

/-- `root` with enough depth returns the representative, which is parentless, and keeps the represented
partition, the parentless elements and the ranking. -/
theorem rootRec_ok (E : List ℕ) (rep rank : ℕ → ℕ) (fuel : ℕ) : ∀ (s : UF) (x : ℕ), Inv s E rep →
    (∀ x, s.hasParent x = true → rank x < rank (s.parents x)) →
    (E.toFinset.filter fun z => rank x < rank z).card < fuel →
    ∃ s', s.rootRec fuel x = some (s', rep x) ∧ Inv s' E rep ∧
      (∀ x, s'.hasParent x = true → rank x < rank (s'.parents x)) ∧
      s'.hasParent = s.hasParent ∧ s'.sizes = s.sizes ∧ s.hasParent (rep x) = false ∧
      rank x ≤ rank (rep x) ∧ (s.hasParent x = true → rep x ∈ E) := by
  induction fuel with
  | zero => intro s x _ _ h; omega
  | succ f ih =>
    intro s x hinv hrank hf
    rw [UF.rootRec]
    by_cases hp : s.hasParent x = false
    · refine ⟨s, ?_, hinv, hrank, rfl, rfl, ?_, ?_, ?_⟩
      · rw [hp, hinv.root x hp]; rfl
      · rw [hinv.root x hp]; exact hp
      · rw [hinv.root x hp]
      · rw [hp]; intro h; exact absurd h (by decide)
    · have hp : s.hasParent x = true := by simpa using hp
      have hlt := above_card_lt E rank x (s.parents x) (hinv.mem x hp) (hrank x hp)
      obtain ⟨s', e, hinv', hrank', hh, hsz, hroot, hle, hmem⟩ := ih s (s.parents x) hinv hrank (by omega)
      have hrepmem : rep x ∈ E := by
        rw [hinv.child x hp]
        by_cases hq : s.hasParent (s.parents x) = true
        · exact hmem hq
        · rw [hinv.root _ (by simpa using hq)]; exact hinv.mem x hp
      refine ⟨_, by rw [hp]; simp only [Bool.not_true, Bool.false_eq_true, if_false]; rw [e, ← hinv.child x hp]; rfl, ?_, ?_, ?_, ?_, ?_, ?_, ?_⟩
      · constructor
        · exact hinv'.elems
        · exact hinv'.root
        · intro y hy
          have hy' : s'.hasParent y = true := hy
          by_cases hyx : y = x
          · subst hyx
            show rep y = rep (Function.update s'.parents y (rep y) y)
            rw [Function.update_self]
            rw [← hinv.child y hp] at hroot
            exact (hinv.root _ hroot).symm
          · show rep y = rep (Function.update s'.parents x (rep x) y)
            rw [Function.update_of_ne hyx]; exact hinv'.child y hy'
        · intro y hy
          by_cases hyx : y = x
          · subst hyx
            show Function.update s'.parents y (rep y) y ∈ E
            rw [Function.update_self]; exact hrepmem
          · show Function.update s'.parents x (rep x) y ∈ E
            rw [Function.update_of_ne hyx]; exact hinv'.mem y hy
        · refine ⟨rank, fun y hy => ?_⟩
          by_cases hyx : y = x
          · subst hyx
            show rank y < rank (Function.update s'.parents y (rep y) y)
            rw [Function.update_self, hinv.child y hp]; exact lt_of_lt_of_le (hrank y hp) hle
          · show rank y < rank (Function.update s'.parents x (rep x) y)
            rw [Function.update_of_ne hyx]; exact hrank' y hy
      · intro y hy
        by_cases hyx : y = x
        · subst hyx
          show rank y < rank (Function.update s'.parents y (rep y) y)
          rw [Function.update_self, hinv.child y hp]; exact lt_of_lt_of_le (hrank y hp) hle
        · show rank y < rank (Function.update s'.parents x (rep x) y)
          rw [Function.update_of_ne hyx]; exact hrank' y hy
      · exact hh
      · exact hsz
      · rw [hinv.child x hp]; exact hroot
      · rw [hinv.child x hp]; exact le_trans (le_of_lt (hrank x hp)) hle
      · intro _; exact hrepmem

theorem root_ok {s : UF} {E : List ℕ} {rep : ℕ → ℕ} (h : Inv s E rep) (x : ℕ) :
    ∃ s', s.root x = some (s', rep x) ∧ Inv s' E rep ∧ s'.hasParent = s.hasParent ∧ s'.sizes = s.sizes ∧
      s.hasParent (rep x) = false ∧ (x ∈ E → rep x ∈ E) := by
  obtain ⟨rank, hr⟩ := h.ranked
  have hcard : (E.toFinset.filter fun z => rank x < rank z).card < E.length + 1 := by
    have h1 := Finset.card_filter_le E.toFinset (fun z => rank x < rank z)
    have h2 := E.toFinset_card_le
    omega
  obtain ⟨s', e, h1, _, h3, h4, h5, _, h7⟩ := rootRec_ok E rep rank (E.length + 1) s x h hr hcard
  refine ⟨s', by rw [UF.root, h.elems]; exact e, h1, h3, h4, h5, fun hx => ?_⟩
  by_cases hp : s.hasParent x = true
  · exact h7 hp
  · rw [h.root x (by simpa using hp)]; exact hx

theorem isSame_ok {s : UF} {E : List ℕ} {rep : ℕ → ℕ} (h : Inv s E rep) (a b : ℕ) :
    ∃ s', s.isSame a b = some (s', rep a == rep b) ∧ Inv s' E rep ∧ s'.hasParent = s.hasParent := by
  obtain ⟨s1, e1, h1, hh1, _, _, _⟩ := root_ok h a
  obtain ⟨s2, e2, h2, hh2, _, _, _⟩ := root_ok h1 b
  refine ⟨s2, ?_, h2, hh2.trans hh1⟩
  rw [UF.isSame, e1, Option.bind_some, e2]; rfl

theorem unite_ok {s : UF} {E : List ℕ} {rep : ℕ → ℕ} (h : Inv s E rep) (a b : ℕ) (ha : a ∈ E) (hb : b ∈ E) :
    ∃ s' rep', s.unite a b = some (s', !(rep a == rep b)) ∧ Inv s' E rep' ∧
      (∀ x y, rep' x = rep' y ↔ rep x = rep y ∨ (rep x = rep a ∧ rep y = rep b) ∨
        (rep x = rep b ∧ rep y = rep a)) ∧
      (rep a = rep b → s'.hasParent = s.hasParent) ∧
      (rep a ≠ rep b → ∃ r ∈ E, s.hasParent r = false ∧ s'.hasParent = Function.update s.hasParent r true) := by
  obtain ⟨s1, e1, h1, hh1, hs1, hr1, hm1⟩ := root_ok h a
  obtain ⟨s2, e2, h2, hh2, hs2, hr2, hm2⟩ := root_ok h1 b
  have hrepE1 := hm1 ha
  have hrepE2 := hm2 hb
  have hstate : s2.hasParent = s.hasParent := hh2.trans hh1
  by_cases hc : rep a = rep b
  · refine ⟨s2, rep, ?_, h2, ?_, fun _ => hstate, fun hn => absurd hc hn⟩
    · rw [UF.unite, e1, Option.bind_some, e2]; simp [hc]
    · intro x y
      rw [hc]
      constructor
      · exact Or.inl
      · rintro (h | ⟨h, h'⟩ | ⟨h, h'⟩)
        · exact h
        · rw [h, h']
        · rw [h, h']
  · -- the two roots, in the order chosen by the sizes
    have key : ∀ r1 r2 : ℕ, (r1 = rep a ∧ r2 = rep b ∨ r1 = rep b ∧ r2 = rep a) → ∀ sz,
        ∃ rep', Inv { s2 with
            parents := Function.update s2.parents r2 r1
            hasParent := Function.update s2.hasParent r2 true
            sizes := sz } E rep' ∧
          (∀ x y, rep' x = rep' y ↔ rep x = rep y ∨ (rep x = rep a ∧ rep y = rep b) ∨
            (rep x = rep b ∧ rep y = rep a)) := by
      intro r1 r2 hr sz
      have hne : r1 ≠ r2 := by rcases hr with ⟨rfl, rfl⟩ | ⟨rfl, rfl⟩; exacts [hc, Ne.symm hc]
      have p1 : s2.hasParent r1 = false := by
        rw [hstate]; rcases hr with ⟨rfl, rfl⟩ | ⟨rfl, rfl⟩
        · exact hr1
        · rw [← hh1]; exact hr2
      have p2 : s2.hasParent r2 = false := by
        rw [hstate]; rcases hr with ⟨rfl, rfl⟩ | ⟨rfl, rfl⟩
        · rw [← hh1]; exact hr2
        · exact hr1
      have hE : r1 ∈ E := by rcases hr with ⟨rfl, rfl⟩ | ⟨rfl, rfl⟩; exacts [hrepE1, hrepE2]
      refine ⟨fun x => if rep x = r2 then r1 else rep x, ?_, ?_⟩
      · constructor
        · exact h2.elems
        · intro x hx
          by_cases hx2 : x = r2
          · have : Function.update s2.hasParent r2 true x = false := hx
            rw [hx2, Function.update_self] at this; exact absurd this (by decide)
          · have hx' : s2.hasParent x = false := (Function.update_of_ne hx2 _ _).symm.trans hx
            show (if rep x = r2 then r1 else rep x) = x
            rw [h2.root x hx', if_neg hx2]
        · intro x hx
          by_cases hx2 : x = r2
          · subst hx2
            show (if rep x = x then r1 else rep x) = (if rep (Function.update s2.parents x r1 x) = x then r1 else rep (Function.update s2.parents x r1 x))
            rw [Function.update_self, h2.root x p2, if_pos rfl, h2.root r1 p1, if_neg hne]
          · have hx' : s2.hasParent x = true := (Function.update_of_ne hx2 _ _).symm.trans hx
            show (if rep x = r2 then r1 else rep x) = (if rep (Function.update s2.parents r2 r1 x) = r2 then r1 else rep (Function.update s2.parents r2 r1 x))
            rw [Function.update_of_ne hx2, h2.child x hx']
        · intro x hx
          by_cases hx2 : x = r2
          · subst hx2
            show Function.update s2.parents x r1 x ∈ E
            rw [Function.update_self]; exact hE
          · show Function.update s2.parents r2 r1 x ∈ E
            rw [Function.update_of_ne hx2]
            exact h2.mem x ((Function.update_of_ne hx2 _ _).symm.trans hx)
        · obtain ⟨rank, hr⟩ := h2.ranked
          refine ⟨Function.update rank r1 (max (rank r1) (rank r2 + 1)), fun x hx => ?_⟩
          show Function.update rank r1 _ x < Function.update rank r1 _ (Function.update s2.parents r2 r1 x)
          by_cases hx2 : x = r2
          · subst hx2
            rw [Function.update_self, Function.update_self, Function.update_of_ne (Ne.symm hne)]
            omega
          · have hx' : s2.hasParent x = true := (Function.update_of_ne hx2 _ _).symm.trans hx
            have hx1 : x ≠ r1 := by intro he; rw [he, p1] at hx'; exact absurd hx' (by decide)
            rw [Function.update_of_ne hx2, Function.update_of_ne hx1]
            have := hr x hx'
            by_cases hpx : s2.parents x = r1
            · rw [hpx] at this; rw [hpx, Function.update_self]; omega
            · rw [Function.update_of_ne hpx]; exact this
      · intro x y
        show (if rep x = r2 then r1 else rep x) = (if rep y = r2 then r1 else rep y) ↔ _
        rcases hr with ⟨rfl, rfl⟩ | ⟨rfl, rfl⟩ <;> split <;> split <;> rename_i hx hy <;>
          (try simp only [hx]) <;> (try simp only [hy]) <;> (try tauto)
    have hsz2 : s2.sizes = s.sizes := hs2.trans hs1
    by_cases hlt : s2.sizes a < s2.sizes b
    · obtain ⟨rep', i1, i2⟩ := key (rep b) (rep a) (Or.inr ⟨rfl, rfl⟩)
        (Function.update s2.sizes a (s2.sizes a + s2.sizes b))
      refine ⟨_, rep', ?_, i1, i2, fun hn => absurd hn hc, fun _ => ⟨rep a, hrepE1, hr1, ?_⟩⟩
      · rw [UF.unite, e1, Option.bind_some, e2]; simp [hc, hlt]
      · show Function.update s2.hasParent _ _ = _
        rw [hstate]
    · obtain ⟨rep', i1, i2⟩ := key (rep a) (rep b) (Or.inl ⟨rfl, rfl⟩)
        (Function.update s2.sizes a (s2.sizes a + s2.sizes b))
      refine ⟨_, rep', ?_, i1, i2, fun hn => absurd hn hc, fun _ => ⟨rep b, hrepE2, ?_, ?_⟩⟩
      · rw [UF.unite, e1, Option.bind_some, e2]; simp [hc, hlt]
      · rw [← hh1]; exact hr2
      · show Function.update s2.hasParent _ _ = _
        rw [hstate]

/-- One call on a union-find object. -/
inductive Call
  | unite (a b : ℕ)
  | isSame (a b : ℕ)
  | root (a : ℕ)

/-- The object after a call. -/
def run (s : UF) : Call → Option UF
  | .unite a b => (s.unite a b).map Prod.fst
  | .isSame a b => (s.isSame a b).map Prod.fst
  | .root a => (s.root a).map Prod.fst

/-- The pairs united by a history. -/
def united : List Call → List (ℕ × ℕ)
  | [] => []
  | .unite a b :: l => (a, b) :: united l
  | _ :: l => united l

/-- The elements a call mentions. -/
def uses : Call → List ℕ
  | .unite a b => [a, b]
  | .isSame a b => [a, b]
  | .root a => [a]

/-- A history run from an object. -/
def runAll (s : UF) (h : List Call) : Option UF := h.foldl (fun s c => s.bind fun s => run s c) (some s)

theorem history_inv (E : List ℕ) (hist : List Call) (hE : ∀ c ∈ hist, ∀ x ∈ uses c, x ∈ E) :
    ∃ s rep, runAll (setup E) hist = some s ∧ Inv s E rep ∧
      ∀ x y, rep x = rep y ↔ Conn (united hist) x y := by
  suffices H : ∀ (hist : List Call) (s : UF) (rep : ℕ → ℕ) (L : List (ℕ × ℕ)), Inv s E rep →
      (∀ x y, rep x = rep y ↔ Conn L x y) → (∀ c ∈ hist, ∀ x ∈ uses c, x ∈ E) →
      ∃ s' rep', runAll s hist = some s' ∧ Inv s' E rep' ∧
        ∀ x y, rep' x = rep' y ↔ Conn (united hist ++ L) x y by
    have i0 : Inv (setup E) E id := by
      constructor
      · rfl
      · intro x _; rfl
      · intro x hx; exact absurd hx (by simp [setup])
      · intro x hx; exact absurd hx (by simp [setup])
      · exact ⟨fun _ => 0, fun x hx => absurd hx (by simp [setup])⟩
    have c0 : ∀ x y : ℕ, id x = id y ↔ Conn ([] : List (ℕ × ℕ)) x y := by
      intro x y
      constructor
      · intro h; have h : x = y := h; subst h; exact .refl _
      · intro h
        cases h with
        | refl => rfl
        | step _ e => simp at e
    obtain ⟨s, rep, h1, h2, h3⟩ := H hist (setup E) id [] i0 c0 hE
    exact ⟨s, rep, h1, h2, by simpa using h3⟩
  intro hist
  induction hist with
  | nil => intro s rep L h1 h2 _; exact ⟨s, rep, rfl, h1, by simpa [united] using h2⟩
  | cons c hist ih =>
    intro s rep L h1 h2 hE
    have hE' : ∀ c ∈ hist, ∀ x ∈ uses c, x ∈ E := fun c hc => hE c (List.mem_cons_of_mem _ hc)
    cases c with
    | unite a b =>
      have hab := hE (.unite a b) List.mem_cons_self
      obtain ⟨s', rep', e, i1, i2, _, _⟩ := unite_ok h1 a b (hab a (by simp [uses])) (hab b (by simp [uses]))
      obtain ⟨s'', rep'', e', j1, j2⟩ := ih s' rep' ((a, b) :: L) i1 (by
        intro x y
        rw [i2, conn_cons, h2, h2, h2, h2, h2]
        refine or_congr Iff.rfl (or_congr (and_congr Iff.rfl ?_) (and_congr Iff.rfl ?_)) <;>
          exact ⟨Conn.symm, Conn.symm⟩) hE'
      refine ⟨s'', rep'', ?_, j1, fun x y => ?_⟩
      · rw [runAll, List.foldl_cons, Option.bind_some, run, e]; exact e'
      · rw [j2, united]
        exact ⟨Conn.mono (by simp; tauto), Conn.mono (by simp; tauto)⟩
    | isSame a b =>
      obtain ⟨s', e, i1, _⟩ := isSame_ok h1 a b
      obtain ⟨s'', rep'', e', j1, j2⟩ := ih s' rep L i1 h2 hE'
      refine ⟨s'', rep'', ?_, j1, j2⟩
      rw [runAll, List.foldl_cons, Option.bind_some, run, e]; exact e'
    | root a =>
      obtain ⟨s', e, i1, _⟩ := root_ok h1 a
      obtain ⟨s'', rep'', e', j1, j2⟩ := ih s' rep L i1 h2 hE'
      refine ⟨s'', rep'', ?_, j1, j2⟩
      rw [runAll, List.foldl_cons, Option.bind_some, run, e]; exact e'

/-- After any history of calls on the elements of the set, every call has ended, and `is_same` ends and
answers whether the two elements are connected by the pairs united so far. -/
theorem is_same_iff_connected (E : List ℕ) (hist : List Call) (hE : ∀ c ∈ hist, ∀ x ∈ uses c, x ∈ E)
    (a b : ℕ) : ∃ s s' r, runAll (setup E) hist = some s ∧ s.isSame a b = some (s', r) ∧
      (r = true ↔ Conn (united hist) a b) := by
  obtain ⟨s, rep, h1, h2, h3⟩ := history_inv E hist hE
  obtain ⟨s', e, _, _⟩ := isSame_ok h2 a b
  exact ⟨s, s', _, h1, e, by rw [beq_iff_eq, h3]⟩

/-- `unite` reports true exactly when the two elements were not connected before. -/
theorem unite_reports_new (E : List ℕ) (hist : List Call) (hE : ∀ c ∈ hist, ∀ x ∈ uses c, x ∈ E)
    (a b : ℕ) (ha : a ∈ E) (hb : b ∈ E) : ∃ s s' r, runAll (setup E) hist = some s ∧
      s.unite a b = some (s', r) ∧ (r = true ↔ ¬ Conn (united hist) a b) := by
  obtain ⟨s, rep, h1, h2, h3⟩ := history_inv E hist hE
  obtain ⟨s', rep', e, _⟩ := unite_ok h2 a b ha hb
  exact ⟨s, s', _, h1, e, by rw [Bool.not_eq_true', beq_eq_false_iff_ne, Ne, h3]⟩

/-- Non-vacuity: a history with unions and queries that compress paths. -/
example : ∀ c ∈ [Call.unite 1 2, .unite 3 4, .isSame 1 4, .unite 2 3, .root 4], ∀ x ∈ uses c, x ∈ [1, 2, 3, 4, 5] := by
  decide

example : ((runAll (setup [1, 2, 3, 4, 5]) [.unite 1 2, .unite 3 4, .isSame 1 4, .unite 2 3]).bind
    fun s => (s.isSame 1 4).map Prod.snd) = some true := by decide

end Printemps.C16
