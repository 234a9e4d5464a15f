import Verif.Lemmas.Solution
import Mathlib.Tactic.Linarith

/-! # C62 — distances between solutions count the differing variables -/

namespace Printemps.C62
open Sol

theorem sparseVars_eq (name : ℕ → String) (value : ℕ → ℤ) (vs : List ℕ) (hn : vs.Nodup)
    (hinj : ∀ v ∈ vs, ∀ w ∈ vs, name v = name w → v = w) :
    sparseVars name value vs = (vs.filter (fun v => value v ≠ 0)).map (fun v => (name v, value v)) := by
  induction vs using List.reverseRecOn with
  | nil => rfl
  | append_singleton l w ih =>
    have hn' := List.nodup_append.1 hn
    rw [sparseVars_snoc, ih hn'.1 (fun v hv u hu => hinj v (by simp [hv]) u (by simp [hu]))]
    by_cases hw : value w ≠ 0
    · rw [if_pos hw, List.filter_append, List.map_append]
      have : ¬ ((l.filter (fun v => value v ≠ 0)).map (fun v => (name v, value v))).any (fun e => e.1 == name w) = true := by
        rw [StrMap.any_key, List.map_map]
        intro hc
        obtain ⟨v, hv, he⟩ := List.mem_map.1 hc
        have hvl := (List.mem_filter.1 hv).1
        have := hinj v (by simp [hvl]) w (by simp) he
        exact hn'.2.2 v hvl w (by simp) this
      unfold StrMap.put
      rw [if_neg this]
      simp [hw]
    · rw [if_neg hw, List.filter_append, List.map_append]
      simp [hw]

/-- The number of variables at which two assignments differ. -/
def differing (vs : List ℕ) (σ τ : ℕ → ℤ) : ℤ := (vs.filter (fun v => σ v ≠ τ v)).length

/-- The sum of the differences. -/
def total (vs : List ℕ) (σ τ : ℕ → ℤ) : ℤ := (vs.map (fun v => |σ v - τ v|)).sum

theorem dense_distance (vs : List ℕ) (a b : Dense) : denseDistance vs a b = differing vs a.values b.values := by
  unfold denseDistance differing
  have : ∀ (l : List ℕ) (s : ℤ), l.foldl (fun s v => if a.values v ≠ b.values v then s + 1 else s) s =
      s + ((l.filter (fun v => a.values v ≠ b.values v)).length : ℤ) := by
    intro l
    induction l with
    | nil => intro s; simp
    | cons v l ih =>
      intro s
      rw [List.foldl_cons, ih, List.filter_cons]
      by_cases h : a.values v ≠ b.values v
      · simp [h]; ring
      · simp [h]
  rw [this]; simp

/-- The weight of one entry of the shorter map. -/
private def w0 (longer : StrMap ℤ) (e : String × ℤ) : ℤ :=
  match longer.get e.1 with
  | none => 1
  | some x => if e.2 = x then -1 else 0

private def w1 (longer : StrMap ℤ) (e : String × ℤ) : ℤ :=
  match longer.get e.1 with
  | none => |e.2|
  | some x => - |x| + |x - e.2|

theorem fold_sum {α : Type} (f : ℤ → α → ℤ) (g : α → ℤ) (h : ∀ s e, f s e = s + g e) (l : List α) (s : ℤ) :
    l.foldl f s = s + (l.map g).sum := by
  induction l generalizing s with
  | nil => simp
  | cons e l ih => rw [List.foldl_cons, ih, h, List.map_cons, List.sum_cons]; ring

theorem loop0 (name : ℕ → String) (vs : List ℕ) (hn : vs.Nodup)
    (hinj : ∀ v ∈ vs, ∀ w ∈ vs, name v = name w → v = w) (σ τ : ℕ → ℤ) :
    l0Loop (sparseVars name σ vs) (sparseVars name τ vs) = differing vs σ τ := by
  have hget := (sparseVars_get name σ vs hinj).1
  unfold l0Loop
  rw [fold_sum _ (w0 (sparseVars name σ vs)) (by
    intro s e; unfold w0
    cases (sparseVars name σ vs).get e.1 with
    | none => rfl
    | some x => dsimp only; split <;> ring)]
  have e1 : ((sparseVars name σ vs).length : ℤ) = ((vs.filter (fun v => σ v ≠ 0)).length : ℤ) := by
    rw [sparseVars_eq name σ vs hn hinj, List.length_map]
  have e2 : ((sparseVars name τ vs).map (w0 (sparseVars name σ vs))).sum =
      ((vs.filter (fun v => τ v ≠ 0)).map (fun v => if σ v = 0 then (1 : ℤ) else if τ v = σ v then -1 else 0)).sum := by
    rw [sparseVars_eq name τ vs hn hinj, List.map_map]
    congr 1
    refine List.map_congr_left fun v hv => ?_
    simp only [Function.comp, w0]
    rw [hget v (List.mem_filter.1 hv).1]
    by_cases h : σ v = 0
    · simp [h]
    · simp [h]
  rw [e1, e2]
  unfold differing
  clear hget e1 e2 hn hinj
  induction vs with
  | nil => simp
  | cons v l ih =>
    simp only [List.filter_cons]
    by_cases h1 : σ v = 0
    · by_cases h2 : τ v = 0
      · simpa [h1, h2] using ih
      · have h3 : ¬ 0 = τ v := fun h => h2 h.symm
        simp only [h1, h2, h3, ne_eq, not_true_eq_false, not_false_eq_true, decide_true, decide_false, if_true, if_false,
          Bool.false_eq_true, List.map_cons, List.sum_cons, List.length_cons]
        push_cast
        linarith
    · by_cases h2 : τ v = 0
      · simp only [h1, h2, ne_eq, not_true_eq_false, not_false_eq_true, decide_true, decide_false, if_true, if_false,
          Bool.false_eq_true, List.length_cons]
        push_cast
        linarith
      · by_cases h3 : σ v = τ v
        · simp only [h1, h2, h3, ne_eq, not_true_eq_false, not_false_eq_true, decide_true, decide_false, if_true, if_false,
            Bool.false_eq_true, List.map_cons, List.sum_cons, List.length_cons]
          push_cast
          linarith
        · have h4 : ¬ τ v = σ v := fun h => h3 h.symm
          simp only [h1, h2, h3, h4, ne_eq, not_false_eq_true, decide_true, if_true, if_false,
            List.map_cons, List.sum_cons, List.length_cons]
          push_cast
          linarith

theorem loop1 (name : ℕ → String) (vs : List ℕ) (hn : vs.Nodup)
    (hinj : ∀ v ∈ vs, ∀ w ∈ vs, name v = name w → v = w) (σ τ : ℕ → ℤ) :
    l1Loop (sparseVars name σ vs) (sparseVars name τ vs) = total vs σ τ := by
  have hget := (sparseVars_get name σ vs hinj).1
  unfold l1Loop
  rw [fold_sum _ (w1 (sparseVars name σ vs)) (by
    intro s e; unfold w1
    cases (sparseVars name σ vs).get e.1 with
    | none => rfl
    | some x => dsimp only; ring),
    fold_sum (fun (s : ℤ) (e : String × ℤ) => s + |e.2|) (fun e => |e.2|) (fun _ _ => rfl), zero_add]
  have e1 : ((sparseVars name σ vs).map (fun e => |e.2|)).sum = ((vs.filter (fun v => σ v ≠ 0)).map (fun v => |σ v|)).sum := by
    rw [sparseVars_eq name σ vs hn hinj, List.map_map]; rfl
  have e2 : ((sparseVars name τ vs).map (w1 (sparseVars name σ vs))).sum =
      ((vs.filter (fun v => τ v ≠ 0)).map (fun v => if σ v = 0 then |τ v| else - |σ v| + |σ v - τ v|)).sum := by
    rw [sparseVars_eq name τ vs hn hinj, List.map_map]
    congr 1
    refine List.map_congr_left fun v hv => ?_
    simp only [Function.comp, w1]
    rw [hget v (List.mem_filter.1 hv).1]
    by_cases h : σ v = 0
    · simp [h]
    · simp [h]
  rw [e1, e2]
  unfold total
  clear hget e1 e2 hn hinj
  induction vs with
  | nil => simp
  | cons v l ih =>
    simp only [List.filter_cons]
    by_cases h1 : σ v = 0
    · by_cases h2 : τ v = 0
      · simpa [h1, h2] using ih
      · simp only [h1, h2, ne_eq, not_true_eq_false, not_false_eq_true, decide_true, decide_false, if_true, if_false,
          Bool.false_eq_true, List.map_cons, List.sum_cons]
        rw [zero_sub, abs_neg]
        linarith
    · by_cases h2 : τ v = 0
      · simp only [h1, h2, ne_eq, not_true_eq_false, not_false_eq_true, decide_true, decide_false, if_true, if_false,
          Bool.false_eq_true, List.map_cons, List.sum_cons, sub_zero]
        linarith
      · simp only [h1, h2, ne_eq, not_false_eq_true, decide_true, if_true, if_false,
          List.map_cons, List.sum_cons]
        linarith

theorem differing_comm (vs : List ℕ) (σ τ : ℕ → ℤ) : differing vs σ τ = differing vs τ σ := by
  unfold differing
  congr 2
  refine List.filter_congr fun v _ => ?_
  simp only [ne_eq, decide_not, eq_comm]

theorem total_comm (vs : List ℕ) (σ τ : ℕ → ℤ) : total vs σ τ = total vs τ σ := by
  unfold total
  congr 1
  exact List.map_congr_left fun v _ => abs_sub_comm _ _

/-- The distance of two sparse solutions of a model is the number of variables at which they differ, which is
also the distance of the dense solutions. -/
theorem sparse_distance (name : ℕ → String) (vs : List ℕ) (hn : vs.Nodup)
    (hinj : ∀ v ∈ vs, ∀ w ∈ vs, name v = name w → v = w) (a b : Dense) :
    distanceL0 (a.toSparse name vs).entries (b.toSparse name vs).entries = differing vs a.values b.values ∧
    distanceL0 (a.toSparse name vs).entries (b.toSparse name vs).entries = denseDistance vs a b := by
  rw [dense_distance, and_self]
  unfold distanceL0 Dense.toSparse
  split
  · rw [loop0 name vs hn hinj, differing_comm]
  · rw [loop0 name vs hn hinj]

/-- The sum distance of two sparse solutions. -/
theorem sparse_distance_l1 (name : ℕ → String) (vs : List ℕ) (hn : vs.Nodup)
    (hinj : ∀ v ∈ vs, ∀ w ∈ vs, name v = name w → v = w) (a b : Dense) :
    distanceL1 (a.toSparse name vs).entries (b.toSparse name vs).entries = total vs a.values b.values := by
  unfold distanceL1 Dense.toSparse
  split
  · rw [loop1 name vs hn hinj, total_comm]
  · rw [loop1 name vs hn hinj]

/-- The distance is a metric on the values of the variables. -/
theorem distance_is_metric (vs : List ℕ) (a b c : Dense) :
    (denseDistance vs a b = 0 ↔ ∀ v ∈ vs, a.values v = b.values v) ∧
    denseDistance vs a b = denseDistance vs b a ∧
    denseDistance vs a c ≤ denseDistance vs a b + denseDistance vs b c := by
  simp only [dense_distance]
  refine ⟨?_, differing_comm _ _ _, ?_⟩
  · unfold differing
    rw [Int.natCast_eq_zero, List.length_eq_zero_iff, List.filter_eq_nil_iff]
    simp
  · have hs : ∀ σ τ : ℕ → ℤ, differing vs σ τ = (vs.map (fun v => if σ v ≠ τ v then (1 : ℤ) else 0)).sum := by
      intro σ τ
      unfold differing
      induction vs with
      | nil => rfl
      | cons v l ih =>
        rw [List.filter_cons, List.map_cons, List.sum_cons, ← ih]
        by_cases h : σ v ≠ τ v
        · simp [h]; ring
        · simp [h]
    rw [hs, hs, hs]
    clear hs
    induction vs with
    | nil => simp
    | cons v l ih =>
      simp only [List.map_cons, List.sum_cons]
      have : (if a.values v ≠ c.values v then (1 : ℤ) else 0) ≤
          (if a.values v ≠ b.values v then (1 : ℤ) else 0) + (if b.values v ≠ c.values v then (1 : ℤ) else 0) := by
        split
        · next h =>
          split
          · split <;> omega
          · next h2 =>
            rw [if_pos (fun h3 => h ((not_not.1 h2).trans h3))]
            omega
        · split <;> split <;> omega
      linarith

example : distanceL0 [("a", 1), ("b", 2)] [("b", 3), ("c", 4)] = 3 ∧ distanceL1 [("a", 1), ("b", 2)] [("b", 3), ("c", 4)] = 6 := by
  decide +kernel

end Printemps.C62
