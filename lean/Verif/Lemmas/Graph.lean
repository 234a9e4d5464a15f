import Verif.Spec.Graph

/-! # Lemmas on connectivity and forests -/

namespace Printemps.Spec
variable {N : Type}

theorem Conn.trans {L : List (N × N)} {a b c : N} (h : Conn L a b) (h' : Conn L b c) : Conn L a c := by
  induction h' with
  | refl => exact h
  | step _ e ih => exact .step ih e

theorem Conn.single {L : List (N × N)} {a b : N} (h : (a, b) ∈ L ∨ (b, a) ∈ L) : Conn L a b :=
  .step (.refl a) h

theorem Conn.symm {L : List (N × N)} {a b : N} (h : Conn L a b) : Conn L b a := by
  induction h with
  | refl => exact .refl _
  | step _ e ih => exact (Conn.single e.symm).trans ih

theorem Conn.of_edges {L M : List (N × N)} (h : ∀ e ∈ L, Conn M e.1 e.2) {a b : N} (hc : Conn L a b) :
    Conn M a b := by
  induction hc with
  | refl => exact .refl _
  | step _ e ih =>
    rcases e with e | e
    · exact ih.trans (h _ e)
    · exact ih.trans (h _ e).symm

theorem Conn.mono {L M : List (N × N)} (h : ∀ e ∈ L, e ∈ M) {a b : N} (hc : Conn L a b) : Conn M a b :=
  hc.of_edges fun e he => .single (Or.inl (h e he))

theorem Conn.mem_edge {L : List (N × N)} {e : N × N} (h : e ∈ L) : Conn L e.1 e.2 := .single (Or.inl h)

/-- Connectivity after adding one edge. -/
theorem conn_cons {L : List (N × N)} {e : N × N} {a b : N} :
    Conn (e :: L) a b ↔ Conn L a b ∨ (Conn L a e.1 ∧ Conn L e.2 b) ∨ (Conn L a e.2 ∧ Conn L e.1 b) := by
  constructor
  · intro h
    induction h with
    | refl => exact Or.inl (.refl _)
    | step _ he ih =>
      rename_i x y _
      have hy : Conn L x y ∨ (x = e.1 ∧ y = e.2) ∨ (x = e.2 ∧ y = e.1) := by
        rcases he with he | he
        · rcases List.mem_cons.1 he with he | he
          · right; left; rw [← he]; exact ⟨rfl, rfl⟩
          · exact Or.inl (.single (Or.inl he))
        · rcases List.mem_cons.1 he with he | he
          · right; right; rw [← he]; exact ⟨rfl, rfl⟩
          · exact Or.inl (.single (Or.inr he))
      rcases hy with hy | ⟨rfl, rfl⟩ | ⟨rfl, rfl⟩
      · rcases ih with h | ⟨h, h'⟩ | ⟨h, h'⟩
        · exact Or.inl (h.trans hy)
        · exact Or.inr (Or.inl ⟨h, h'.trans hy⟩)
        · exact Or.inr (Or.inr ⟨h, h'.trans hy⟩)
      · rcases ih with h | ⟨h, h'⟩ | ⟨h, h'⟩
        · exact Or.inr (Or.inl ⟨h, .refl _⟩)
        · exact Or.inr (Or.inl ⟨h, .refl _⟩)
        · exact Or.inl h
      · rcases ih with h | ⟨h, h'⟩ | ⟨h, h'⟩
        · exact Or.inr (Or.inr ⟨h, .refl _⟩)
        · exact Or.inl h
        · exact Or.inr (Or.inr ⟨h, .refl _⟩)
  · have up : ∀ {x y}, Conn L x y → Conn (e :: L) x y :=
      fun h => h.mono fun f hf => List.mem_cons_of_mem _ hf
    have hee : Conn (e :: L) e.1 e.2 := .mem_edge List.mem_cons_self
    rintro (h | ⟨h, h'⟩ | ⟨h, h'⟩)
    · exact up h
    · exact (up h).trans (hee.trans (up h'))
    · exact (up h).trans (hee.symm.trans (up h'))

/-- Exchange: an edge that the edge `f` newly connects makes `f` connected in turn. -/
theorem conn_exchange {L : List (N × N)} {e f : N × N} (h1 : ¬ Conn L e.1 e.2) (h2 : Conn (f :: L) e.1 e.2) :
    Conn (e :: L) f.1 f.2 := by
  rcases conn_cons.1 h2 with h | ⟨h, h'⟩ | ⟨h, h'⟩
  · exact absurd h h1
  · exact conn_cons.2 (Or.inr (Or.inl ⟨h.symm, h'.symm⟩))
  · exact conn_cons.2 (Or.inr (Or.inr ⟨h', h⟩))

theorem conn_congr {L M : List (N × N)} (h : ∀ e ∈ L, Conn M e.1 e.2) (h' : ∀ e ∈ M, Conn L e.1 e.2)
    (a b : N) : Conn L a b ↔ Conn M a b := ⟨Conn.of_edges h, Conn.of_edges h'⟩

theorem forest_congr {L M : List (N × N)} (h : ∀ a b, Conn L a b ↔ Conn M a b) (F : List (N × N)) :
    Forest L F ↔ Forest M F := by
  induction F generalizing L M with
  | nil => exact Iff.rfl
  | cons e F ih =>
    simp only [Forest]
    rw [h]
    refine and_congr Iff.rfl (ih fun a b => ?_)
    rw [conn_cons, conn_cons]
    simp only [h]

theorem forest_append {L A B : List (N × N)} : Forest L (A ++ B) ↔ Forest L A ∧ Forest (A ++ L) B := by
  induction A generalizing L with
  | nil => simp [Forest]
  | cons e A ih =>
    simp only [List.cons_append, Forest, ih, and_assoc]
    refine and_congr Iff.rfl (and_congr Iff.rfl (forest_congr (fun a b => ?_) B))
    exact ⟨Conn.mono (by simp; tauto), Conn.mono (by simp; tauto)⟩

/-- Swapping one edge of a relative forest for an outside edge it generates. -/
theorem forest_swap {L F : List (N × N)} {e : N × N} (hf : Forest L F) (he : ¬ Conn L e.1 e.2)
    (hs : Conn (F ++ L) e.1 e.2) :
    ∃ A f B, F = A ++ f :: B ∧ Forest (e :: L) (A ++ B) ∧
      ∀ a b, Conn (A ++ B ++ e :: L) a b ↔ Conn (F ++ L) a b := by
  induction F generalizing L with
  | nil => exact absurd hs he
  | cons f F ih =>
    obtain ⟨hf1, hf2⟩ := hf
    by_cases hc : Conn (f :: L) e.1 e.2
    · have hx := conn_exchange he hc
      have hcl : ∀ a b, Conn (e :: L) a b ↔ Conn (f :: L) a b := by
        apply conn_congr
        · intro g hg
          rcases List.mem_cons.1 hg with rfl | hg
          · exact hc
          · exact .mem_edge (List.mem_cons_of_mem _ hg)
        · intro g hg
          rcases List.mem_cons.1 hg with rfl | hg
          · exact hx
          · exact .mem_edge (List.mem_cons_of_mem _ hg)
      refine ⟨[], f, F, rfl, (forest_congr hcl F).2 hf2, ?_⟩
      apply conn_congr
      · intro g hg
        simp only [List.nil_append, List.mem_append, List.mem_cons] at hg
        rcases hg with hg | rfl | hg
        · exact .mem_edge (by simp [hg])
        · exact hc.mono (by simp; tauto)
        · exact .mem_edge (by simp [hg])
      · intro g hg
        simp only [List.cons_append, List.mem_append, List.mem_cons] at hg
        rcases hg with rfl | hg | hg
        · exact hx.mono (by simp; tauto)
        · exact .mem_edge (by simp [hg])
        · exact .mem_edge (by simp [hg])
    · obtain ⟨A, g, B, rfl, h1, h2⟩ := ih hf2 hc (hs.mono (by simp; tauto))
      refine ⟨f :: A, g, B, rfl, ⟨?_, ?_⟩, ?_⟩
      · intro h
        exact hc (conn_exchange hf1 h)
      · refine (forest_congr (fun a b => ?_) _).1 h1
        exact ⟨Conn.mono (by simp; tauto), Conn.mono (by simp; tauto)⟩
      · intro a b
        have := h2 a b
        constructor
        · intro h
          exact (this.1 (h.mono (by simp; tauto))).mono (by simp; tauto)
        · intro h
          exact (this.2 (h.mono (by simp; tauto))).mono (by simp; tauto)

end Printemps.Spec
