import Verif.Model.SearchTree
import Verif.Spec.SearchTree
import Verif.Props.C17
import Mathlib.Tactic.Linarith
import Mathlib.Data.List.Infix

/-! # Lemmas about the search tree -/

namespace Printemps.Tree
open Graph Spec C17

/-! ## Forests -/

theorem not_conn_of_forest {L F : List (ℕ × ℕ)} (h : Forest L F) : ∀ e ∈ F, ¬ Conn L e.1 e.2 := by
  induction F generalizing L with
  | nil => intro e he; exact absurd he (by simp)
  | cons f F ih =>
    intro e he hc
    rcases List.mem_cons.1 he with rfl | he
    · exact h.1 hc
    · exact ih h.2 e he (hc.mono fun x hx => List.mem_cons_of_mem _ hx)

theorem forest_nodup {L F : List (ℕ × ℕ)} (h : Forest L F) : F.Nodup := by
  induction F generalizing L with
  | nil => exact List.nodup_nil
  | cons f F ih =>
    refine List.nodup_cons.2 ⟨fun hf => ?_, ih h.2⟩
    exact not_conn_of_forest h.2 f hf (Conn.mem_edge List.mem_cons_self)

theorem forest_no_loop {L F : List (ℕ × ℕ)} (h : Forest L F) : ∀ e ∈ F, e.1 ≠ e.2 := by
  intro e he hc
  exact not_conn_of_forest h e he (hc ▸ .refl _)

theorem forest_no_twin {L F : List (ℕ × ℕ)} (h : Forest L F) (a b : ℕ) (h1 : (a, b) ∈ F) (h2 : (b, a) ∈ F) : False := by
  induction F generalizing L with
  | nil => exact absurd h1 (by simp)
  | cons f F ih =>
    rcases List.mem_cons.1 h1 with e1 | h1
    · rcases List.mem_cons.1 h2 with e2 | h2
      · have : (a, b) = (b, a) := e1.trans e2.symm
        have hab : a = b := congrArg Prod.fst this
        subst hab
        rw [← e1] at h
        exact h.1 (.refl _)
      · exact not_conn_of_forest h.2 _ h2 (.single (Or.inr (by rw [e1]; simp)))
    · rcases List.mem_cons.1 h2 with e2 | h2
      · exact not_conn_of_forest h.2 _ h1 (.single (Or.inr (by rw [e2]; simp)))
      · exact ih h.2 h1 h2

/-- The pair with the smaller point first. -/
def ordered (e : ℕ × ℕ) : ℕ × ℕ := (min e.1 e.2, max e.1 e.2)

theorem ordered_cases (e : ℕ × ℕ) : ordered e = e ∨ ordered e = (e.2, e.1) := by
  unfold ordered
  rcases le_total e.1 e.2 with h | h
  · left; rw [min_eq_left h, max_eq_right h]
  · right; rw [min_eq_right h, max_eq_left h]

theorem conn_ordered (T : List (ℕ × ℕ)) (a b : ℕ) : Conn (T.map ordered) a b ↔ Conn T a b := by
  refine conn_congr (fun e he => ?_) (fun e he => ?_) a b
  · obtain ⟨f, hf, rfl⟩ := List.mem_map.1 he
    rcases ordered_cases f with h | h <;> rw [h]
    · exact Conn.mem_edge hf
    · exact .single (Or.inr hf)
  · have : ordered e ∈ T.map ordered := List.mem_map_of_mem he
    rcases ordered_cases e with h | h <;> rw [h] at this
    · exact Conn.mem_edge this
    · exact .single (Or.inr this)

theorem forest_ordered {L L' F : List (ℕ × ℕ)} (hL : ∀ a b, Conn L a b ↔ Conn L' a b) (h : Forest L F) :
    Forest L' (F.map ordered) := by
  induction F generalizing L L' with
  | nil => trivial
  | cons f F ih =>
    refine ⟨fun hc => h.1 ?_, ih (fun a b => ?_) h.2⟩
    · rw [hL]
      rcases ordered_cases f with e | e <;> rw [e] at hc
      · exact hc
      · exact hc.symm
    · rw [conn_cons, conn_cons, hL, hL, hL, hL, hL]
      rcases ordered_cases f with e | e <;> rw [e]
      simp only
      tauto

/-! ## Leaves -/

/-- The edges at a point. -/
def linesAt (T : List (ℕ × ℕ)) (i : ℕ) : List (ℕ × ℕ) := T.filter fun e => e.1 == i || e.2 == i

theorem mem_linesAt (T : List (ℕ × ℕ)) (i : ℕ) (e : ℕ × ℕ) : e ∈ linesAt T i ↔ e ∈ T ∧ (e.1 = i ∨ e.2 = i) := by
  simp [linesAt]

theorem leaf_iff (T : List (ℕ × ℕ)) (h : Forest [] T) (i : ℕ) : Leaf T i ↔ (linesAt T i).length = 1 := by
  constructor
  · rintro ⟨j, hj, hu⟩
    have huniq : ∀ e ∈ linesAt T i, e = (i, j) ∨ e = (j, i) := by
      intro e he
      obtain ⟨hT, h1 | h1⟩ := (mem_linesAt _ _ _).1 he
      · left
        have hm : (i, e.2) ∈ T := by rw [← h1]; exact hT
        have := hu e.2 (Or.inl hm)
        rw [← h1, ← this]
      · right
        have hm : (e.1, i) ∈ T := by rw [← h1]; exact hT
        have := hu e.1 (Or.inr hm)
        rw [← h1, ← this]
    have hnd : (linesAt T i).Nodup := (forest_nodup h).filter _
    have hne : linesAt T i ≠ [] := by
      intro hc
      rcases hj with hj | hj
      · have : (i, j) ∈ linesAt T i := (mem_linesAt _ _ _).2 ⟨hj, Or.inl rfl⟩
        rw [hc] at this; exact absurd this (by simp)
      · have : (j, i) ∈ linesAt T i := (mem_linesAt _ _ _).2 ⟨hj, Or.inr rfl⟩
        rw [hc] at this; exact absurd this (by simp)
    have twin : ¬ ((i, j) ∈ linesAt T i ∧ (j, i) ∈ linesAt T i) := fun ⟨a, b⟩ =>
      forest_no_twin h i j ((mem_linesAt _ _ _).1 a).1 ((mem_linesAt _ _ _).1 b).1
    generalize linesAt T i = l at huniq hnd hne twin
    match l, hne with
    | [e], _ => rfl
    | e :: f :: r, _ =>
      exfalso
      have he := huniq e (by simp)
      have hf := huniq f (by simp)
      have hne : e ≠ f := fun hc => (List.nodup_cons.1 hnd).1 (by rw [hc]; simp)
      rcases he with he | he <;> rcases hf with hf | hf
      · exact hne (he.trans hf.symm)
      · exact twin ⟨by rw [← he]; simp, by rw [← hf]; simp⟩
      · exact twin ⟨by rw [← hf]; simp, by rw [← he]; simp⟩
      · exact hne (he.trans hf.symm)
  · intro hl
    obtain ⟨e, he⟩ := List.length_eq_one_iff.1 hl
    have hmem : e ∈ linesAt T i := by rw [he]; simp
    have huniq : ∀ x ∈ linesAt T i, x = e := by intro x hx; rw [he] at hx; simpa using hx
    obtain ⟨hT, h1⟩ := (mem_linesAt _ _ _).1 hmem
    have hloop := forest_no_loop h e hT
    rcases h1 with h1 | h1
    · refine ⟨e.2, Or.inl (by rw [← h1]; exact hT), fun k hk => ?_⟩
      rcases hk with hk | hk
      · have := huniq _ ((mem_linesAt _ _ _).2 ⟨hk, Or.inl rfl⟩)
        rw [← this]
      · have := huniq _ ((mem_linesAt _ _ _).2 ⟨hk, Or.inr rfl⟩)
        rw [← this] at h1 hloop
        exact absurd h1 hloop
    · refine ⟨e.1, Or.inr (by rw [← h1]; exact hT), fun k hk => ?_⟩
      rcases hk with hk | hk
      · have := huniq _ ((mem_linesAt _ _ _).2 ⟨hk, Or.inl rfl⟩)
        rw [← this] at h1 hloop
        exact absurd h1.symm hloop
      · have := huniq _ ((mem_linesAt _ _ _).2 ⟨hk, Or.inr rfl⟩)
        rw [← this]

/-! ## The graph of all distances -/

section
variable {V : Type}

/-- The distance of two archived solutions. -/
def between (dist : V → V → ℤ) (sols : List (ArchSol V)) (i j : ℕ) : ℤ :=
  match sols[i]?, sols[j]? with
  | some a, some b => dist a.vars b.vars
  | _, _ => 0

theorem between_eq (dist : V → V → ℤ) (sols : List (ArchSol V)) (i j : ℕ) (hi : i < sols.length) (hj : j < sols.length) :
    between dist sols i j = dist sols[i].vars sols[j].vars := by
  unfold between
  rw [List.getElem?_eq_getElem hi, List.getElem?_eq_getElem hj]

/-- The graph has the first `n` solutions as nodes and all their distances as edges. -/
structure Complete (dist : V → V → ℤ) (sols : List (ArchSol V)) (n : ℕ) (t : G) : Prop where
  le : n ≤ sols.length
  nodes : t.nodes = List.range n
  edges : ∀ e : Edge, e ∈ t.edges ↔
    e.first < e.second ∧ e.second < n ∧ e.weight = (between dist sols e.first e.second : ℤ)

theorem Complete.append {dist : V → V → ℤ} {sols : List (ArchSol V)} {n : ℕ} {t : G} (h : Complete dist sols n t)
    (B : List (ArchSol V)) : Complete dist (sols ++ B) n t := by
  refine ⟨by rw [List.length_append]; have := h.le; omega, h.nodes, fun e => ?_⟩
  rw [h.edges]
  refine and_congr_right fun h1 => and_congr_right fun h2 => ?_
  have hle := h.le
  have e1 : e.first < sols.length := by omega
  have e2 : e.second < sols.length := by omega
  rw [between_eq _ _ _ _ e1 e2, between_eq _ _ _ _ (by rw [List.length_append]; omega) (by rw [List.length_append]; omega),
    List.getElem_append_left e1, List.getElem_append_left e2]

theorem complete_empty (dist : V → V → ℤ) (sols : List (ArchSol V)) : Complete dist sols 0 G.empty :=
  ⟨Nat.zero_le _, rfl, fun e => by simp [G.empty]⟩

theorem mem_newPairs (old new : ℕ) (p : ℕ × ℕ) :
    p ∈ pairsOld old new ++ pairsNew old new ↔ p.1 < p.2 ∧ old ≤ p.2 ∧ p.2 < new := by
  obtain ⟨i, j⟩ := p
  simp only [pairsOld, pairsNew, List.mem_append, List.mem_flatMap, List.mem_map, List.mem_range, List.mem_range'_1,
    Prod.mk.injEq]
  constructor
  · rintro (⟨a, ha, b, hb, rfl, rfl⟩ | ⟨a, ha, b, hb, rfl, rfl⟩) <;> omega
  · rintro ⟨h1, h2, h3⟩
    by_cases h : i < old
    · exact Or.inl ⟨i, h, j, by omega, rfl, rfl⟩
    · exact Or.inr ⟨i, by omega, j, by omega, rfl, rfl⟩

theorem links (dist : V → V → ℤ) (sols : List (ArchSol V)) (l : List (ℕ × ℕ)) : ∀ (t : G),
    (∀ p ∈ l, p.1 ∈ t.nodes ∧ p.2 ∈ t.nodes ∧ p.1 < sols.length ∧ p.2 < sols.length) →
    l.foldlM (link dist sols) t =
      some ⟨t.nodes, t.edges ++ l.map fun p => ⟨p.1, p.2, (between dist sols p.1 p.2 : ℤ)⟩⟩ := by
  induction l with
  | nil => intro t _; simp
  | cons p l ih =>
    intro t h
    obtain ⟨h1, h2, h3, h4⟩ := h p List.mem_cons_self
    have hl : link dist sols t p = some ⟨t.nodes, t.edges ++ [⟨p.1, p.2, (between dist sols p.1 p.2 : ℤ)⟩]⟩ := by
      unfold link
      rw [between_eq _ _ _ _ h3 h4, List.getElem?_eq_getElem h3, List.getElem?_eq_getElem h4]
      simp [G.addEdge, G.addNode, h1, h2]
    rw [List.foldlM_cons, hl]
    show l.foldlM (link dist sols) _ = _
    refine (ih ⟨t.nodes, t.edges ++ [⟨p.1, p.2, (between dist sols p.1 p.2 : ℤ)⟩]⟩
      (fun q hq => h q (List.mem_cons_of_mem _ hq))).trans ?_
    simp

theorem grow_complete {dist : V → V → ℤ} {sols : List (ArchSol V)} {n : ℕ} {t : G} (h : Complete dist sols n t) :
    ∃ t', grow dist sols t = some t' ∧ Complete dist sols sols.length t' := by
  have hle := h.le
  have hnodes : addNodes n sols.length t = ⟨List.range sols.length, t.edges⟩ := by
    unfold addNodes
    rw [foldl_addNode]
    · rw [h.nodes]
      congr 1
      rw [List.range_eq_range', List.range_eq_range', show sols.length = n + (sols.length - n) by omega]
      rw [show n + (sols.length - n) - n = sols.length - n by omega]
      have := List.range'_append (s := 0) (m := n) (n := sols.length - n) (step := 1)
      simpa using this
    · rw [h.nodes, List.range_eq_range']
      have := List.range'_append (s := 0) (m := n) (n := sols.length - n) (step := 1)
      simp only [Nat.one_mul, Nat.zero_add] at this
      rw [this]
      exact List.nodup_range'
  have hn : t.nodes.length = n := by rw [h.nodes, List.length_range]
  refine ⟨⟨List.range sols.length, t.edges ++ (pairsOld n sols.length ++ pairsNew n sols.length).map
      fun p => ⟨p.1, p.2, (between dist sols p.1 p.2 : ℤ)⟩⟩, ?_, ?_⟩
  · unfold grow
    rw [hn, hnodes, links]
    intro p hp
    rw [mem_newPairs] at hp
    simp only [List.mem_range]
    omega
  · refine ⟨le_rfl, rfl, fun e => ?_⟩
    simp only [List.mem_append, List.mem_map, h.edges]
    constructor
    · rintro (⟨h1, h2, h3⟩ | ⟨p, hp, rfl⟩)
      · exact ⟨h1, by omega, h3⟩
      · rw [← List.mem_append, mem_newPairs] at hp
        exact ⟨hp.1, hp.2.2, rfl⟩
    · rintro ⟨h1, h2, h3⟩
      by_cases hlt : e.second < n
      · exact Or.inl ⟨h1, hlt, h3⟩
      · refine Or.inr ⟨(e.first, e.second), ?_, ?_⟩
        · rw [← List.mem_append, mem_newPairs]
          exact ⟨h1, by simpa using hlt, h2⟩
        · cases e
          simp only at h3 ⊢
          rw [h3]

theorem built_of_wf (g : G) (hn : g.nodes.Nodup) (he : ∀ e ∈ g.edges, e.first ∈ g.nodes ∧ e.second ∈ g.nodes) : Built g := by
  have h1 : ∀ (l : List ℕ) (g : G), Built g → Built (l.foldl G.addNode g) := by
    intro l
    induction l with
    | nil => intro g h; exact h
    | cons k l ih => intro g h; exact ih _ (.node k h)
  have h2 : ∀ (l : List Edge) (g : G), Built g → Built (l.foldl G.addEdge g) := by
    intro l
    induction l with
    | nil => intro g h; exact h
    | cons k l ih => intro g h; exact ih _ (.edge k h)
  have := h2 g.edges _ (h1 g.nodes _ .empty)
  rw [foldl_addNode _ _ (by simpa [G.empty] using hn), foldl_addEdge _ _ (by simpa [G.empty] using he)] at this
  simpa [G.empty] using this

theorem weight_pairs (d : ℕ → ℕ → ℤ) (l : List Edge) (h : ∀ e ∈ l, e.weight = (d e.first e.second : ℤ)) :
    weight l = (treeLength d (pairs l) : ℤ) := by
  unfold weight treeLength pairs
  induction l with
  | nil => simp
  | cons e l ih =>
    simp only [List.map_cons, List.sum_cons, Int.cast_add]
    rw [h e (by simp), ih fun f hf => h f (by simp [hf])]
    rfl

/-- The tree found is a shortest one. -/
theorem mst_shortest {dist : V → V → ℤ} {sols : List (ArchSol V)} {n : ℕ} {t : G} (h : Complete dist sols n t)
    (hd : ∀ i j, i < n → j < n → between dist sols i j = between dist sols j i) :
    ∃ m, t.mst = some m ∧ m.nodes = List.range n ∧ ShortestTree n (between dist sols) (pairs m.edges) := by
  have hb : Built t := built_of_wf t (by rw [h.nodes]; exact List.nodup_range) (fun e he => by
    have := (h.edges e).1 he
    rw [h.nodes]
    simp only [List.mem_range]
    omega)
  obtain ⟨m, hm, hnodes, hs, hmin⟩ := mst_minimum_spanning_forest t hb
  refine ⟨m, hm, by rw [hnodes, h.nodes], ⟨?_, hs.acyclic, ?_⟩, ?_⟩
  · intro e he
    obtain ⟨f, hf, rfl⟩ := List.mem_map.1 he
    have := (h.edges f).1 (hs.sub.subset hf)
    simp only [pair]
    omega
  · intro i j hi hj
    rw [hs.spans]
    have edge : ∀ i j, i < j → j < n → (i, j) ∈ pairs t.edges := fun i j h1 h2 =>
      List.mem_map.2 ⟨⟨i, j, (between dist sols i j : ℤ)⟩, (h.edges _).2 ⟨h1, h2, rfl⟩, rfl⟩
    rcases lt_trichotomy i j with hlt | rfl | hlt
    · exact .single (Or.inl (edge i j hlt hj))
    · exact .refl _
    · exact .single (Or.inr (edge j i hlt hi))
  · intro T' hT'
    let F : List Edge := (T'.map ordered).map fun p => ⟨p.1, p.2, (between dist sols p.1 p.2 : ℤ)⟩
    have hpairs : pairs F = T'.map ordered := by
      simp only [F, pairs, List.map_map]
      exact List.map_congr_left fun e _ => rfl
    have hFo : Forest [] (T'.map ordered) := forest_ordered (fun a b => Iff.rfl) hT'.acyclic
    have hsub : ∀ e ∈ F, e ∈ t.edges := by
      intro e he
      obtain ⟨p, hp, rfl⟩ := List.mem_map.1 he
      obtain ⟨q, hq, rfl⟩ := List.mem_map.1 hp
      rw [h.edges]
      have h1 := forest_no_loop hT'.acyclic q hq
      have h2 := hT'.inside q hq
      refine ⟨?_, ?_, rfl⟩
      · simp only [ordered]; omega
      · simp only [ordered]; omega
    have hspan : SpanningForest t.edges F := by
      refine ⟨?_, by rw [hpairs]; exact hFo, fun a b => ?_⟩
      · refine List.subperm_of_subset ?_ hsub
        have : (pairs F).Nodup := by rw [hpairs]; exact forest_nodup hFo
        exact List.Nodup.of_map _ this
      · rw [hpairs, conn_ordered]
        refine conn_congr (fun e he => ?_) (fun e he => ?_) a b
        · have hm : ordered e ∈ pairs t.edges := by
            have : ordered e ∈ pairs F := by rw [hpairs]; exact List.mem_map_of_mem he
            obtain ⟨f, hf, e'⟩ := List.mem_map.1 this
            exact List.mem_map.2 ⟨f, hsub f hf, e'⟩
          rcases ordered_cases e with h | h <;> rw [h] at hm
          · exact Conn.mem_edge hm
          · exact .single (Or.inr hm)
        · obtain ⟨f, hf, rfl⟩ := List.mem_map.1 he
          have := (h.edges f).1 hf
          exact hT'.joins _ _ (by simp only [pair]; omega) (by simp only [pair]; omega)
    have hw := hmin F hspan
    rw [weight_pairs (between dist sols) m.edges (fun e he => ((h.edges e).1 (hs.sub.subset he)).2.2),
      weight_pairs (between dist sols) F (fun e he => ((h.edges e).1 (hsub e he)).2.2), hpairs] at hw
    have hl : treeLength (between dist sols) (T'.map ordered) = treeLength (between dist sols) T' := by
      unfold treeLength
      rw [List.map_map]
      congr 1
      refine List.map_congr_left fun e he => ?_
      obtain ⟨h1, h2⟩ := hT'.inside e he
      show between dist sols (ordered e).1 (ordered e).2 = _
      rcases ordered_cases e with h | h <;> rw [h]
      exact hd _ _ h2 h1
    rw [hl] at hw
    exact_mod_cast hw

/-! ## The lists -/

theorem edgesAt_lines (m : G) (i : ℕ) : (edgesAt m i).map pair = linesAt (pairs m.edges) i := by
  unfold edgesAt linesAt pairs
  rw [List.filter_map]
  rfl

theorem lower_eq (g : ℚ) (sols : List (ArchSol V)) (i j : ℕ) (s : ArchSol V) (hj : j < sols.length) :
    lower g sols i s j = some (decide (j ≠ i ∧ aug g sols[j] < aug g s)) := by
  unfold lower
  by_cases h : j = i
  · simp [h]
  · rw [if_pos h, List.getElem?_eq_getElem hj]
    simp [h]

theorem anyLower_eq (g : ℚ) (sols : List (ArchSol V)) (i : ℕ) (s : ArchSol V) (l : List Edge)
    (h : ∀ e ∈ l, e.first < sols.length ∧ e.second < sols.length) :
    ∃ b, anyLower g sols i s l = some b ∧
      (b = true ↔ ∃ e ∈ l, ∃ j, (j = e.first ∨ j = e.second) ∧ j ≠ i ∧ ∃ hj : j < sols.length, aug g sols[j] < aug g s) := by
  induction l with
  | nil => exact ⟨false, rfl, by simp⟩
  | cons e l ih =>
    obtain ⟨h1, h2⟩ := h e List.mem_cons_self
    obtain ⟨b, hb, hiff⟩ := ih fun f hf => h f (List.mem_cons_of_mem _ hf)
    rw [anyLower, lower_eq g sols i _ s h1, lower_eq g sols i _ s h2]
    simp only [Option.bind_some, decide_eq_true_eq]
    by_cases c1 : e.first ≠ i ∧ aug g sols[e.first] < aug g s
    · rw [if_pos c1]
      exact ⟨true, rfl, fun _ => ⟨e, by simp, e.first, Or.inl rfl, c1.1, h1, c1.2⟩, fun _ => rfl⟩
    · rw [if_neg c1]
      by_cases c2 : e.second ≠ i ∧ aug g sols[e.second] < aug g s
      · rw [if_pos c2]
        exact ⟨true, rfl, fun _ => ⟨e, by simp, e.second, Or.inr rfl, c2.1, h2, c2.2⟩, fun _ => rfl⟩
      · rw [if_neg c2]
        refine ⟨b, hb, hiff.trans ⟨?_, ?_⟩⟩
        · rintro ⟨f, hf, r⟩; exact ⟨f, by simp [hf], r⟩
        · rintro ⟨f, hf, j, hj, hne, hlt, hval⟩
          rcases List.mem_cons.1 hf with rfl | hf
          · rcases hj with rfl | rfl
            · exact absurd ⟨hne, hval⟩ c1
            · exact absurd ⟨hne, hval⟩ c2
          · exact ⟨f, hf, j, hj, hne, hlt, hval⟩

/-- The height of a point: the stored augmented objective. -/
def height (g : ℚ) (sols : List (ArchSol V)) (i : ℕ) : ℚ := match sols[i]? with | some s => aug g s | none => 0

theorem height_eq (g : ℚ) (sols : List (ArchSol V)) (i : ℕ) (h : i < sols.length) : height g sols i = aug g sols[i] := by
  unfold height
  rw [List.getElem?_eq_getElem h]

/-- The entry listed for a point. -/
def entry (dist : V → V → ℤ) (sols : List (ArchSol V)) (incumbent : ArchSol V) (i : ℕ) : Option (ArchSol V × ℤ) :=
  (sols[i]?).map fun s => (s, dist s.vars incumbent.vars)

theorem scan_eq (dist : V → V → ℤ) (g : ℚ) (sols : List (ArchSol V)) (inc : ArchSol V) (m : G)
    (hm : m.nodes = List.range sols.length) (hT : SpanningTree sols.length (pairs m.edges)) :
    ∀ (k : ℕ) (_hk : k ≤ sols.length) (st : State V),
      scan dist g sols inc m (List.range' k (sols.length - k)) st = some { st with
        frontier := st.frontier ++ ((List.range' k (sols.length - k)).filter
          (fun i => (linesAt (pairs m.edges) i).length == 1)).filterMap (entry dist sols inc)
        optimal := st.optimal ++ ((List.range' k (sols.length - k)).filter
          (fun i => !(anyLower g sols i (sols[i]?.getD inc) (edgesAt m i)).getD true)).filterMap (entry dist sols inc) } := by
  intro k _hk
  induction hrem : sols.length - k generalizing k with
  | zero =>
    intro st
    simp [scan]
  | succ r ih =>
    intro st
    have hlt : k < sols.length := by omega
    rw [List.range'_succ, scan, List.getElem?_eq_getElem hlt]
    simp only [Option.bind_some]
    rw [if_pos (by rw [hm]; exact List.mem_range.2 hlt)]
    obtain ⟨b, hb, -⟩ := anyLower_eq g sols k sols[k] (edgesAt m k) (by
      intro e he
      have : e ∈ m.edges := (List.mem_filter.1 he).1
      exact hT.inside _ (List.mem_map_of_mem this))
    have hlen : (linesAt (pairs m.edges) k).length = (edgesAt m k).length := by
      rw [← edgesAt_lines, List.length_map]
    have he : entry dist sols inc k = some (sols[k], dist sols[k].vars inc.vars) := by
      unfold entry
      rw [List.getElem?_eq_getElem hlt]
      rfl
    rw [hb]
    simp only [Option.bind_some]
    rw [ih (k + 1) (by omega) (by omega)]
    simp only [List.filter_cons, hlen, List.getElem?_eq_getElem hlt, Option.getD_some, hb, beq_iff_eq]
    by_cases h1 : (edgesAt m k).length = 1 <;> cases b <;>
      simp [h1, he]

open Classical in
/-- What the tree shows after an update. -/
theorem update_shows {dist : V → V → ℤ} {g : ℚ} {sols : List (ArchSol V)} {inc : ArchSol V} {n : ℕ} {st : State V}
    (h : Complete dist sols n st.tree)
    (hd : ∀ i j, i < sols.length → j < sols.length → between dist sols i j = between dist sols j i) :
    ∃ st' T, st.update dist g sols inc = some st' ∧ Complete dist sols sols.length st'.tree ∧
      ShortestTree sols.length (between dist sols) T ∧
      st'.frontier = (pointsWith (Leaf T) sols.length).filterMap (entry dist sols inc) ∧
      st'.optimal = (pointsWith (Lowest (height g sols) T) sols.length).filterMap (entry dist sols inc) := by
  obtain ⟨t, ht, hc⟩ := grow_complete h
  obtain ⟨m, hm, hnodes, hs⟩ := mst_shortest hc hd
  have hscan := scan_eq dist g sols inc m hnodes hs.toSpanningTree 0 (Nat.zero_le _) { tree := t }
  refine ⟨{ tree := t, frontier := (pointsWith (Leaf (pairs m.edges)) sols.length).filterMap (entry dist sols inc)
            optimal := (pointsWith (Lowest (height g sols) (pairs m.edges)) sols.length).filterMap (entry dist sols inc) },
    pairs m.edges, ?_, hc, hs, rfl, rfl⟩
  · unfold State.update
    rw [ht, Option.bind_some, hm, Option.bind_some, List.range_eq_range']
    simp only [Nat.sub_zero] at hscan
    rw [hscan]
    congr 1
    simp only [List.nil_append, State.mk.injEq, true_and]
    unfold pointsWith
    rw [← List.range_eq_range']
    constructor
    · congr 1
      refine List.filter_congr fun i _ => ?_
      rw [Bool.eq_iff_iff]
      simp only [beq_iff_eq, decide_eq_true_eq]
      exact (leaf_iff _ hs.acyclic i).symm
    · congr 1
      refine List.filter_congr fun i hi => ?_
      have hi : i < sols.length := List.mem_range.1 hi
      rw [Bool.eq_iff_iff]
      simp only [decide_eq_true_eq]
      rw [List.getElem?_eq_getElem hi, Option.getD_some]
      obtain ⟨b, hb, hiff⟩ := anyLower_eq g sols i sols[i] (edgesAt m i) (by
        intro e he
        have : e ∈ m.edges := (List.mem_filter.1 he).1
        exact hs.inside _ (List.mem_map_of_mem this))
      rw [hb, Option.getD_some]
      have joined : ∀ j, Joined (pairs m.edges) i j ↔ ∃ e ∈ edgesAt m i, (j = e.first ∨ j = e.second) ∧ j ≠ i := by
        intro j
        constructor
        · rintro (h | h)
          · obtain ⟨e, he, hp⟩ := List.mem_map.1 h
            have h1 : e.first = i := congrArg Prod.fst hp
            have h2 : e.second = j := congrArg Prod.snd hp
            have hl := forest_no_loop hs.acyclic _ h
            exact ⟨e, List.mem_filter.2 ⟨he, by simp [h1]⟩, Or.inr h2.symm, fun hc => hl hc.symm⟩
          · obtain ⟨e, he, hp⟩ := List.mem_map.1 h
            have h1 : e.first = j := congrArg Prod.fst hp
            have h2 : e.second = i := congrArg Prod.snd hp
            have hl := forest_no_loop hs.acyclic _ h
            exact ⟨e, List.mem_filter.2 ⟨he, by simp [h2]⟩, Or.inl h1.symm, hl⟩
        · rintro ⟨e, he, hj, hne⟩
          obtain ⟨hmem, hat⟩ := List.mem_filter.1 he
          have hmem' : pair e ∈ pairs m.edges := List.mem_map_of_mem hmem
          simp only [Bool.or_eq_true, beq_iff_eq] at hat
          rcases hj with rfl | rfl
          · rcases hat with h | h
            · exact absurd h hne
            · right; rw [← h]; exact hmem'
          · rcases hat with h | h
            · left; rw [← h]; exact hmem'
            · exact absurd h hne
      have bounded : ∀ j, Joined (pairs m.edges) i j → j < sols.length := by
        rintro j (h | h)
        · exact (hs.inside _ h).2
        · exact (hs.inside _ h).1
      rw [Bool.not_eq_true', ← Bool.not_eq_true, hiff]
      constructor
      · intro hno j hj
        have hjl := bounded j hj
        rw [height_eq _ _ _ hi, height_eq _ _ _ hjl]
        by_contra hc
        obtain ⟨e, he, h1, h2⟩ := (joined j).1 hj
        exact hno ⟨e, he, j, h1, h2, hjl, not_le.1 hc⟩
      · rintro hlow ⟨e, he, j, h1, h2, hjl, hval⟩
        have := hlow j ((joined j).2 ⟨e, he, h1, h2⟩)
        rw [height_eq _ _ _ hi, height_eq _ _ _ hjl] at this
        exact absurd hval (not_lt.2 this)

end
end Printemps.Tree
