import Verif.Model.Graph
import Verif.Props.C16
import Mathlib.Algebra.Order.BigOperators.Group.List
import Mathlib.Algebra.Order.Field.Rat
import Mathlib.Data.List.Sort

/-! # C17 — minimum spanning tree -/

namespace Printemps.C17
open UnionFind Spec Graph C16

/-- The node pair of an edge. -/
def pair (e : Edge) : ℕ × ℕ := (e.first, e.second)
/-- The node pairs of a list of edges. -/
def pairs (l : List Edge) : List (ℕ × ℕ) := l.map pair
/-- Total weight. -/
def weight (l : List Edge) : ℚ := (l.map Edge.weight).sum

/-- `F` is a spanning forest of `E`: a sub-collection of the edges without cycles that connects exactly what
`E` connects. -/
structure SpanningForest (E F : List Edge) : Prop where
  sub : F.Subperm E
  acyclic : Forest [] (pairs F)
  spans : ∀ a b, Conn (pairs F) a b ↔ Conn (pairs E) a b

theorem forest_perm {L F F' : List (ℕ × ℕ)} (h : F.Perm F') (hf : Forest L F) : Forest L F' := by
  induction h generalizing L with
  | nil => trivial
  | cons x _ ih => exact ⟨hf.1, ih hf.2⟩
  | swap x y l =>
    obtain ⟨h1, h2, h3⟩ := hf
    refine ⟨?_, ?_, ?_⟩
    · intro h; exact h2 (h.mono fun e he => List.mem_cons_of_mem _ he)
    · intro h
      exact h2 (conn_exchange h1 h)
    · exact (forest_congr (fun a b => ⟨Conn.mono (by simp; tauto), Conn.mono (by simp; tauto)⟩) l).1 h3
  | trans _ _ ih1 ih2 => exact ih2 (ih1 hf)

theorem conn_perm {A B : List (ℕ × ℕ)} (h : ∀ e, e ∈ A ↔ e ∈ B) (a b : ℕ) : Conn A a b ↔ Conn B a b :=
  ⟨Conn.mono fun e => (h e).1, Conn.mono fun e => (h e).2⟩

/-- What the loop computes, relative to the edges already added. -/
structure Good (added es T : List Edge) : Prop where
  sub : T.Sublist es
  acyclic : Forest (pairs added) (pairs T)
  spans : ∀ a b, Conn (pairs T ++ pairs added) a b ↔ Conn (pairs es ++ pairs added) a b
  minimal : ∀ F : List Edge, F.Sublist es → Forest (pairs added) (pairs F) →
    (∀ a b, Conn (pairs F ++ pairs added) a b ↔ Conn (pairs es ++ pairs added) a b) → weight T ≤ weight F

theorem good_skip {added es T : List Edge} {e : Edge} (hc : Conn (pairs added) e.first e.second)
    (h : Good added es T) : Good added (e :: es) T := by
  have heq : ∀ a b, Conn (pairs (e :: es) ++ pairs added) a b ↔ Conn (pairs es ++ pairs added) a b := by
    apply conn_congr
    · intro f hf
      simp only [pairs, List.map_cons, List.cons_append, List.mem_cons] at hf
      rcases hf with rfl | hf
      · exact hc.mono fun g hg => List.mem_append_right _ hg
      · exact .mem_edge hf
    · intro f hf
      exact .mem_edge (by simp only [pairs, List.map_cons, List.cons_append]; exact List.mem_cons_of_mem _ hf)
  refine ⟨h.sub.cons _, h.acyclic, fun a b => (h.spans a b).trans (heq a b).symm, ?_⟩
  intro F hF hfor hspan
  cases hF with
  | cons _ hF' => exact h.minimal F hF' hfor fun a b => (hspan a b).trans (heq a b)
  | cons_cons _ hF' => exact absurd hc hfor.1

theorem good_take {added es T : List Edge} {e : Edge} (hs : ∀ f ∈ es, e.weight ≤ f.weight)
    (hc : ¬ Conn (pairs added) e.first e.second)
    (h : Good (added ++ [e]) es T) : Good added (e :: es) (e :: T) := by
  have hadd : ∀ g, g ∈ pairs (added ++ [e]) ↔ g ∈ pair e :: pairs added := by
    intro g
    simp only [pairs, List.map_append, List.mem_append, List.mem_cons, List.map_cons, List.map_nil,
      List.not_mem_nil, or_false]
    tauto
  have hadd' : ∀ a b, Conn (pairs (added ++ [e])) a b ↔ Conn (pair e :: pairs added) a b := conn_perm hadd
  have cadd : ∀ (X : List Edge) a b, Conn (pairs X ++ pairs (added ++ [e])) a b ↔
      Conn (pairs (e :: X) ++ pairs added) a b := by
    intro X
    apply conn_perm
    intro g
    simp only [pairs, List.map_append, List.mem_append, List.mem_cons, List.map_cons, List.map_nil,
      List.not_mem_nil, or_false]
    tauto
  refine ⟨h.sub.cons_cons _, ⟨hc, (forest_congr hadd' _).1 h.acyclic⟩, ?_, ?_⟩
  · intro a b
    rw [← cadd, ← cadd]; exact h.spans a b
  · intro F hF hfor hspan
    have hcons : ∀ (X : List Edge), weight (e :: X) = e.weight + weight X := fun X => by simp [weight]
    rw [hcons]
    cases hF with
    | cons_cons _ hF' =>
      rename_i F'
      rw [hcons]
      have := h.minimal F' hF' ((forest_congr hadd' _).2 hfor.2) (fun a b => by
        rw [cadd, cadd]; exact hspan a b)
      linarith
    | cons _ hF' =>
      have hcon : Conn (pairs F ++ pairs added) e.first e.second :=
        (hspan _ _).2 (.mem_edge (e := pair e) (by simp [pairs]))
      obtain ⟨A, f, B, hsplit, h1, h2⟩ := forest_swap (e := pair e) hfor hc hcon
      obtain ⟨A', FB, rfl, hA, hFB⟩ := List.map_eq_append_iff.1 (show F.map pair = A ++ f :: B from hsplit)
      obtain ⟨f', B', rfl, hf, hB⟩ := List.map_eq_cons_iff.1 hFB
      have hfmem : f' ∈ es := hF'.subset (by simp)
      have hsub : (A' ++ B').Sublist es :=
        ((List.Sublist.refl A').append (List.sublist_cons_self f' B')).trans hF'
      have hpab : pairs (A' ++ B') = A ++ B := by
        show List.map pair (A' ++ B') = _
        rw [List.map_append, hA, hB]
      have hw : weight (A' ++ f' :: B') = f'.weight + weight (A' ++ B') := by
        simp [weight]; ring
      rw [hw]
      have := h.minimal (A' ++ B') hsub ((forest_congr hadd' _).2 (by rw [hpab]; exact h1)) (fun a b => by
        have e1 : Conn (pairs (A' ++ B') ++ pairs (added ++ [e])) a b ↔ Conn (A ++ B ++ pair e :: pairs added) a b := by
          rw [hpab]; apply conn_perm; intro g; simp only [List.mem_append, hadd]
        rw [e1, h2 a b]
        rw [cadd]; exact hspan a b)
      have := hs f' hfmem
      linarith

theorem mstLoop_good (nodes : List ℕ) (es : List Edge) :
    ∀ (uf : UF) (rep : ℕ → ℕ) (added : List Edge), Inv uf nodes rep →
    (∀ x y, rep x = rep y ↔ Conn (pairs added) x y) →
    (∀ e ∈ es, e.first ∈ nodes ∧ e.second ∈ nodes) →
    es.Pairwise (fun a b => a.weight ≤ b.weight) →
    (nodes.toFinset.filter fun x => uf.hasParent x = false).card + added.length = nodes.length →
    ∃ T, mstLoop nodes.length es uf added = some (added ++ T) ∧ Good added es T := by
  induction es with
  | nil =>
    intro uf rep added _ _ _ _ _
    refine ⟨[], by simp [mstLoop], List.Sublist.refl _, trivial, fun _ _ => Iff.rfl, ?_⟩
    intro F hF _ _
    rw [List.sublist_nil.1 hF]
  | cons e es ih =>
    intro uf rep added hinv hrep hnodes hsort hcount
    have hpw := List.pairwise_cons.1 hsort
    obtain ⟨uf1, e1, inv1, hp1⟩ := isSame_ok hinv e.first e.second
    have hnodes' : ∀ e ∈ es, e.first ∈ nodes ∧ e.second ∈ nodes :=
      fun f hf => hnodes f (List.mem_cons_of_mem _ hf)
    rw [mstLoop, e1, Option.bind_some]
    by_cases hc : Conn (pairs added) e.first e.second
    · have hb : (rep e.first == rep e.second) = true := by rw [beq_iff_eq, hrep]; exact hc
      simp only [hb, if_true]
      obtain ⟨T, hT, hg⟩ := ih uf1 rep added inv1 hrep hnodes' hpw.2 (by rw [hp1]; exact hcount)
      exact ⟨T, hT, good_skip hc hg⟩
    · have hne : rep e.first ≠ rep e.second := fun h => hc ((hrep _ _).1 h)
      have hb : (rep e.first == rep e.second) = false := by rw [beq_eq_false_iff_ne]; exact hne
      obtain ⟨hm1, hm2⟩ := hnodes e List.mem_cons_self
      obtain ⟨uf2, rep2, e2, inv2, hrep2, _, hnew⟩ := unite_ok inv1 e.first e.second hm1 hm2
      obtain ⟨r, hrE, hr0, hupd⟩ := hnew hne
      have hrepc : ∀ x y, rep2 x = rep2 y ↔ Conn (pairs (added ++ [e])) x y := by
        intro x y
        have : Conn (pairs (added ++ [e])) x y ↔ Conn (pair e :: pairs added) x y := by
          apply conn_perm
          intro g
          simp only [pairs, List.map_append, List.mem_append, List.mem_cons, List.map_cons, List.map_nil,
            List.not_mem_nil, or_false]
          tauto
        rw [this, hrep2, conn_cons, hrep, hrep, hrep, hrep, hrep]
        refine or_congr Iff.rfl (or_congr (and_congr Iff.rfl ?_) (and_congr Iff.rfl ?_)) <;>
          exact ⟨Conn.symm, Conn.symm⟩
      have hcount2 : (nodes.toFinset.filter fun x => uf2.hasParent x = false).card + (added ++ [e]).length
          = nodes.length := by
        have hset : (nodes.toFinset.filter fun x => uf2.hasParent x = false)
            = (nodes.toFinset.filter fun x => uf.hasParent x = false).erase r := by
          ext x
          simp only [Finset.mem_filter, Finset.mem_erase, List.mem_toFinset, hupd, hp1]
          by_cases hx : x = r
          · subst hx; simp
          · simp [hx]
        have hrin : r ∈ nodes.toFinset.filter fun x => uf.hasParent x = false := by
          rw [Finset.mem_filter, List.mem_toFinset, ← hp1]; exact ⟨hrE, hr0⟩
        rw [hset, Finset.card_erase_of_mem hrin]
        have := Finset.card_pos.2 ⟨r, hrin⟩
        rw [List.length_append, List.length_singleton]; omega
      simp only [hb, Bool.false_eq_true, if_false, e2, Option.bind_some]
      by_cases hstop : (added ++ [e]).length = nodes.length - 1
      · rw [if_pos hstop]
        refine ⟨[e], rfl, good_take (T := []) hpw.1 hc ?_⟩
        have hone : (nodes.toFinset.filter fun x => uf2.hasParent x = false).card ≤ 1 := by omega
        have hall : ∀ x ∈ nodes, ∀ y ∈ nodes, Conn (pairs (added ++ [e])) x y := by
          intro x hx y hy
          obtain ⟨_, _, _, _, _, fx, mx⟩ := root_ok inv2 x
          obtain ⟨_, _, _, _, _, fy, my⟩ := root_ok inv2 y
          rw [← hrepc]
          exact Finset.card_le_one.1 hone _ (by simp [fx, mx hx]) _ (by simp [fy, my hy])
        have hallE : ∀ g ∈ pairs es, Conn (pairs (added ++ [e])) g.1 g.2 := by
          intro g hg
          obtain ⟨f, hf, rfl⟩ := List.mem_map.1 hg
          exact hall _ (hnodes' f hf).1 _ (hnodes' f hf).2
        refine ⟨List.nil_sublist _, trivial, ?_, ?_⟩
        · apply conn_congr
          · intro g hg; exact .mem_edge (List.mem_append_right _ (by simpa [pairs] using hg))
          · intro g hg
            rcases List.mem_append.1 hg with hg | hg
            · exact hallE g hg
            · exact .mem_edge hg
        · intro F hF hfor _
          cases F with
          | nil => exact le_rfl
          | cons f F => exact absurd (hallE (pair f) (List.mem_map_of_mem (hF.subset List.mem_cons_self))) hfor.1
      · rw [if_neg hstop]
        obtain ⟨T, hT, hg⟩ := ih uf2 rep2 (added ++ [e]) inv2 hrepc hnodes' hpw.2 hcount2
        exact ⟨e :: T, by rw [hT]; simp, good_take hpw.1 hc hg⟩

/-- A graph built by the public interface. -/
inductive Built : G → Prop
  | empty : Built G.empty
  | node {g} (k) : Built g → Built (g.addNode k)
  | edge {g} (e) : Built g → Built (g.addEdge e)

theorem addNode_mem (g : G) (k x : ℕ) : x ∈ (g.addNode k).nodes ↔ x ∈ g.nodes ∨ x = k := by
  unfold G.addNode; split
  · constructor
    · exact Or.inl
    · rintro (h | rfl) <;> assumption
  · simp

theorem addNode_edges (g : G) (k : ℕ) : (g.addNode k).edges = g.edges := by
  unfold G.addNode; split <;> rfl

theorem addNode_nodup (g : G) (k : ℕ) (h : g.nodes.Nodup) : (g.addNode k).nodes.Nodup := by
  unfold G.addNode; split
  · exact h
  · rename_i hk
    rw [List.nodup_append]
    refine ⟨h, by simp, ?_⟩
    intro a ha b hb
    rw [List.mem_singleton] at hb; subst hb
    rintro rfl; exact hk ha

theorem built_wf {g : G} (h : Built g) : g.nodes.Nodup ∧ ∀ e ∈ g.edges, e.first ∈ g.nodes ∧ e.second ∈ g.nodes := by
  induction h with
  | empty => simp [G.empty]
  | node k _ ih =>
    refine ⟨addNode_nodup _ _ ih.1, fun e he => ?_⟩
    rw [addNode_edges] at he
    rw [addNode_mem, addNode_mem]
    exact ⟨Or.inl (ih.2 e he).1, Or.inl (ih.2 e he).2⟩
  | edge e _ ih =>
    refine ⟨addNode_nodup _ _ (addNode_nodup _ _ ih.1), fun f hf => ?_⟩
    have hf' : f ∈ ((G.addNode _ e.first).addNode e.second).edges ++ [e] := hf
    rw [addNode_edges, addNode_edges] at hf'
    show f.first ∈ (G.addNode _ _).nodes ∧ f.second ∈ (G.addNode _ _).nodes
    simp only [addNode_mem]
    rcases List.mem_append.1 hf' with hf' | hf'
    · exact ⟨Or.inl (Or.inl (ih.2 f hf').1), Or.inl (Or.inl (ih.2 f hf').2)⟩
    · rw [List.mem_singleton] at hf'; subst hf'; simp

theorem foldl_addEdge (l : List Edge) (g : G) (h : ∀ e ∈ l, e.first ∈ g.nodes ∧ e.second ∈ g.nodes) :
    l.foldl G.addEdge g = ⟨g.nodes, g.edges ++ l⟩ := by
  induction l generalizing g with
  | nil => simp
  | cons e l ih =>
    obtain ⟨h1, h2⟩ := h e List.mem_cons_self
    have : g.addEdge e = ⟨g.nodes, g.edges ++ [e]⟩ := by simp [G.addEdge, G.addNode, h1, h2]
    rw [List.foldl_cons, this, ih]
    · simp
    · intro f hf; exact h f (List.mem_cons_of_mem _ hf)

theorem foldl_addNode (l : List ℕ) (g : G) (h : (g.nodes ++ l).Nodup) :
    l.foldl G.addNode g = ⟨g.nodes ++ l, g.edges⟩ := by
  induction l generalizing g with
  | nil => simp
  | cons k l ih =>
    have hk : k ∉ g.nodes := by
      intro hk; exact (List.nodup_append.1 h).2.2 k hk k List.mem_cons_self rfl
    have : g.addNode k = ⟨g.nodes ++ [k], g.edges⟩ := by simp [G.addNode, hk]
    rw [List.foldl_cons, this, ih]
    · simp
    · simpa using h

/-- The spanning tree of any graph exists, has the same nodes, its edges are a spanning forest of the graph,
and no other spanning forest is lighter. -/
theorem mst_minimum_spanning_forest (g : G) (hg : Built g) :
    ∃ t, g.mst = some t ∧ t.nodes = g.nodes ∧ SpanningForest g.edges t.edges ∧
      ∀ F, SpanningForest g.edges F → weight t.edges ≤ weight F := by
  obtain ⟨hn, hmem⟩ := built_wf hg
  have hperm : (sortEdges g.edges).Perm g.edges := List.mergeSort_perm _ _
  have hsorted : (sortEdges g.edges).Pairwise (fun a b => a.weight ≤ b.weight) := by
    have := List.pairwise_mergeSort (le := fun a b : Edge => decide (a.weight ≤ b.weight))
      (fun a b c h1 h2 => by simp at *; exact le_trans h1 h2)
      (fun a b => by simp; exact le_total _ _) g.edges
    exact this.imp (by simp)
  have i0 : Inv (setup g.nodes) g.nodes id := by
    constructor
    · rfl
    · intro x _; rfl
    · intro x hx; exact absurd hx (by simp [setup])
    · intro x hx; exact absurd hx (by simp [setup])
    · exact ⟨fun _ => 0, fun x hx => absurd hx (by simp [setup])⟩
  have c0 : ∀ x y : ℕ, id x = id y ↔ Conn (pairs []) x y := by
    intro x y
    constructor
    · intro h; have h : x = y := h; subst h; exact .refl _
    · intro h
      cases h with
      | refl => rfl
      | step _ e => simp [pairs] at e
  obtain ⟨T, hT, hgood⟩ := mstLoop_good g.nodes (sortEdges g.edges) (setup g.nodes) id [] i0 c0
    (fun e he => hmem e (hperm.mem_iff.1 he)) hsorted (by
      simp [setup, List.toFinset_card_of_nodup hn])
  have hpairs : ∀ a b, Conn (pairs (sortEdges g.edges)) a b ↔ Conn (pairs g.edges) a b := by
    apply conn_perm; intro p; exact (hperm.map pair).mem_iff
  have hTe : ∀ e ∈ T, e.first ∈ g.nodes ∧ e.second ∈ g.nodes :=
    fun e he => hmem e (hperm.mem_iff.1 (hgood.sub.subset he))
  refine ⟨⟨g.nodes, T⟩, ?_, rfl, ⟨?_, hgood.acyclic, ?_⟩, ?_⟩
  · rw [G.mst, hT]
    simp only [Option.map_some, List.nil_append]
    rw [foldl_addNode _ _ (by simpa [G.empty] using hn), foldl_addEdge]
    · simp [G.empty]
    · simpa [G.empty] using hTe
  · exact hgood.sub.subperm.trans hperm.subperm
  · intro a b
    have := hgood.spans a b
    simp only [pairs, List.map_nil, List.append_nil] at this
    exact this.trans (hpairs a b)
  · intro F hF
    obtain ⟨F', hp, hsub⟩ := hF.sub.trans hperm.symm.subperm
    have hpp : (pairs F').Perm (pairs F) := hp.map pair
    have := hgood.minimal F' hsub (forest_perm hpp.symm hF.acyclic) (fun a b => by
      simp only [pairs, List.map_nil, List.append_nil]
      rw [show Conn (F'.map pair) a b ↔ Conn (pairs F) a b from conn_perm (fun e => hpp.mem_iff) a b]
      rw [hF.spans]; exact (hpairs a b).symm)
    have hw : weight F' = weight F := (hp.map Edge.weight).sum_eq
    rw [← hw]; exact this

/-- Non-vacuity: a triangle and a separate edge. -/
example : Built (((((G.empty.addEdge ⟨1, 2, 5⟩).addEdge ⟨2, 3, 1⟩).addEdge ⟨1, 3, 2⟩).addEdge ⟨8, 9, 4⟩).addNode 7) :=
  .node _ (.edge _ (.edge _ (.edge _ (.edge _ .empty))))

end Printemps.C17
