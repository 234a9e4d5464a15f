import Verif.Lemmas.MpsText
import Mathlib.Tactic.Push

/-! # Reading MPS files section by section -/

namespace Printemps.MpsFile
open Text

def RowKind.sense : RowKind → Sense
  | .free => .less
  | .less => .less
  | .equal => .equal
  | .greater => .greater

/-! ## ROWS -/

structure RowsOK (R : List (RowKind × Name)) (f : Mps.File) : Prop where
  objName : f.objName = (((R.filter (fun r => r.1 = .free)).getLast?).map Prod.snd).getD []
  conNames : f.conNames = (R.filter (fun r => r.1 ≠ .free)).map Prod.snd
  cons : ∀ x ∈ R, x.1 ≠ .free → f.cons.get x.2 = some { sense := x.1.sense }
  new : ∀ n, n ∉ R.map Prod.snd → f.cons.get n = none
  vars : f.vars = []
  varNames : f.varNames = []
  objCoef : f.objCoef = []

theorem rows_empty : RowsOK [] {} :=
  ⟨rfl, rfl, (by intro x hx; cases hx), (fun _ _ => rfl), rfl, rfl, rfl⟩

theorem rows_add {R : List (RowKind × Name)} {f : Mps.File} (h : RowsOK R f) (k : RowKind) (n : Name)
    (hn : n ∉ R.map Prod.snd) (hk : k ≠ .free) : RowsOK (R ++ [(k, n)]) (Mps.addRow f k.sense n) where
  objName := by
    rw [List.filter_append, List.filter_cons_of_neg (by simpa using hk), List.filter_nil, List.append_nil]
    exact h.objName
  conNames := by
    rw [List.filter_append, List.filter_cons_of_pos (by simpa using hk), List.filter_nil, List.map_append]
    show f.conNames ++ [n] = _
    rw [h.conNames]; rfl
  cons := by
    intro x hx hf
    unfold Mps.addRow
    dsimp only
    rw [Assoc.get_modify]
    rcases List.mem_append.1 hx with hx | hx
    · have : n ≠ x.2 := fun e => hn (e ▸ List.mem_map_of_mem hx)
      rw [if_neg this]
      exact h.cons x hx hf
    · rw [List.mem_singleton] at hx
      subst hx
      rw [if_pos rfl, h.new n hn]
      rfl
  new := by
    intro m hm
    unfold Mps.addRow
    dsimp only
    rw [List.map_append, List.mem_append, not_or] at hm
    rw [Assoc.get_modify, if_neg (fun e => hm.2 (by simp [e]))]
    exact h.new m hm.1
  vars := h.vars
  varNames := h.varNames
  objCoef := h.objCoef

theorem rows_step {R : List (RowKind × Name)} {f : Mps.File} (h : RowsOK R f) (x : RowKind × Name)
    (hn : x.2 ∉ R.map Prod.snd) : ∃ f', Mps.rowsStep f [x.1.word, x.2] = some f' ∧ RowsOK (R ++ [x]) f' := by
  obtain ⟨k, n⟩ := x
  cases k with
  | free =>
    refine ⟨{ f with objName := n }, rfl, ?_⟩
    refine ⟨?_, ?_, ?_, ?_, h.vars, h.varNames, h.objCoef⟩
    · rw [List.filter_append, List.filter_cons_of_pos (by simp), List.filter_nil, List.getLast?_append]; rfl
    · rw [List.filter_append, List.filter_cons_of_neg (by simp), List.filter_nil, List.append_nil]; exact h.conNames
    · intro x hx hf
      rcases List.mem_append.1 hx with hx | hx
      · exact h.cons x hx hf
      · rw [List.mem_singleton] at hx
        subst hx
        exact absurd rfl hf
    · intro m hm
      rw [List.map_append, List.mem_append, not_or] at hm
      exact h.new m hm.1
  | less => exact ⟨_, rfl, rows_add h .less n hn (by decide)⟩
  | equal => exact ⟨_, rfl, rows_add h .equal n hn (by decide)⟩
  | greater => exact ⟨_, rfl, rows_add h .greater n hn (by decide)⟩

theorem rows_all (L : List (RowKind × Name)) : ∀ (R : List (RowKind × Name)) (f : Mps.File) (b : Bool), RowsOK R f →
    ((R ++ L).map Prod.snd).Nodup →
    ∃ f', Mps.stepAll (L.map (fun r => [r.1.word, r.2])) ⟨f, .rows, b⟩ = some ⟨f', .rows, b⟩ ∧ RowsOK (R ++ L) f' := by
  induction L with
  | nil => intro R f b h _; exact ⟨f, rfl, by rwa [List.append_nil]⟩
  | cons x L ih =>
    intro R f b h hn
    have hx : x.2 ∉ R.map Prod.snd := by
      rw [List.map_append, List.nodup_append] at hn
      intro hm
      exact hn.2.2 _ hm x.2 (by simp) rfl
    obtain ⟨f1, e1, h1⟩ := rows_step h x hx
    obtain ⟨f2, e2, h2⟩ := ih (R ++ [x]) f1 b h1 (by rwa [List.append_assoc])
    refine ⟨f2, ?_, by rwa [List.append_assoc] at h2⟩
    rw [List.map_cons, Mps.stepAll, Mps.lineStep_section _ _ _ _ (by cases x.1 <;> decide)]
    show ((Mps.rowsStep f [x.1.word, x.2]).map _).bind _ = _
    rw [e1]
    exact e2

/-! ## COLUMNS -/

/-- The coefficients `l` of the row `r` are the entries `E`. -/
structure CoefOK (E : List Entry) (r : Name) (l : Assoc Name ℚ) : Prop where
  keys : (l.map Prod.fst).Nodup
  source : ∀ t ∈ l, ∃ e ∈ E, e.row = r ∧ e.column = t.1 ∧ e.coef = t.2
  value : ∀ val : Name → ℤ, (l.map fun t => t.2 * (val t.1 : ℚ)).sum =
    (E.map fun e => if e.row = r then e.coef * (val e.column : ℚ) else 0).sum

theorem coef_nil (r : Name) : CoefOK [] r [] := ⟨List.nodup_nil, (by intro t ht; cases ht), fun _ => rfl⟩

theorem coef_skip {E : List Entry} {r : Name} {l : Assoc Name ℚ} (h : CoefOK E r l) (e : Entry) (he : e.row ≠ r ∨ e.coef = 0) :
    CoefOK (E ++ [e]) r l where
  keys := h.keys
  source := fun t ht => by
    obtain ⟨e', h1, h2⟩ := h.source t ht
    exact ⟨e', List.mem_append_left _ h1, h2⟩
  value := fun val => by
    rw [h.value val, List.map_append, List.sum_append]
    rcases he with he | he
    · simp [he]
    · simp [he]

theorem coef_put {E : List Entry} {r : Name} {l : Assoc Name ℚ} (h : CoefOK E r l) (e : Entry) (he : e.row = r)
    (hn : (e.column, e.row) ∉ E.map fun e => (e.column, e.row)) : CoefOK (E ++ [e]) r (l.put e.column e.coef) := by
  have hnew : e.column ∉ l.map Prod.fst := by
    intro hm
    obtain ⟨t, ht, et⟩ := List.mem_map.1 hm
    obtain ⟨e', h1, h2, h3, _⟩ := h.source t ht
    exact hn (List.mem_map.2 ⟨e', h1, by rw [h2, h3, et, he]⟩)
  rw [Assoc.put_new _ _ _ hnew]
  refine ⟨?_, ?_, ?_⟩
  · rw [List.map_append, List.nodup_append]
    refine ⟨h.keys, by simp, ?_⟩
    intro a ha b hb hab
    simp only [List.map_cons, List.map_nil, List.mem_singleton] at hb
    subst hb; subst hab
    exact hnew ha
  · intro t ht
    rcases List.mem_append.1 ht with ht | ht
    · obtain ⟨e', h1, h2⟩ := h.source t ht
      exact ⟨e', List.mem_append_left _ h1, h2⟩
    · rw [List.mem_singleton] at ht
      subst ht
      exact ⟨e, by simp, he, rfl, rfl⟩
  · intro val
    rw [List.map_append, List.sum_append, h.value val, List.map_append, List.sum_append]
    simp [he]

def sideSum (S : List (Name × ℚ)) (r : Name) : ℚ := (S.map fun e => if e.1 = r then e.2 else 0).sum

/-- The objective and the constraints as read so far: entries `E`, right-hand sides `S`. -/
structure Core (o : Name) (rows : List (RowKind × Name)) (E : List Entry) (S : List (Name × ℚ)) (f : Mps.File) : Prop where
  objName : f.objName = o
  conNames : f.conNames = (rows.filter (fun r => r.1 ≠ .free)).map Prod.snd
  obj : CoefOK E o f.objCoef
  cons : ∀ x ∈ rows, x.1 ≠ .free → ∃ l, f.cons.get x.2 = some ⟨x.1.sense, l, sideSum S x.2⟩ ∧ CoefOK E x.2 l

/-- What is used about the rows of a file. -/
structure RowNames (o : Name) (rows : List (RowKind × Name)) : Prop where
  free : ∀ x ∈ rows, x.1 = .free ↔ x.2 = o
  inj : ∀ x ∈ rows, ∀ y ∈ rows, x.2 = y.2 → x = y

theorem core_rows {o : Name} {rows : List (RowKind × Name)} (ho : rows.filter (fun r => r.1 = .free) = [(.free, o)])
    {f : Mps.File} (h : RowsOK rows f) : Core o rows [] [] f where
  objName := by rw [h.objName, ho]; rfl
  conNames := h.conNames
  obj := by rw [h.objCoef]; exact coef_nil o
  cons := fun x hx hf => ⟨[], h.cons x hx hf, coef_nil _⟩

theorem entry_step {o : Name} {rows : List (RowKind × Name)} (hrow : RowNames o rows) {E : List Entry} {S : List (Name × ℚ)}
    {f : Mps.File} (h : Core o rows E S f) (n r : Name) (x : Number) (hr : r ∈ rows.map Prod.snd)
    (hsize : x.value = 0 ∨ 1 / 10000000000 < |x.value|) (hn : (n, r) ∉ E.map fun e => (e.column, e.row)) :
    ∃ f', Mps.addEntry n f (r, x.text) = some f' ∧ Core o rows (E ++ [⟨n, r, x.value⟩]) S f' ∧ f'.vars = f.vars ∧
      f'.varNames = f.varNames := by
  unfold Mps.addEntry
  dsimp only
  rw [atof_text]
  by_cases hq : |x.value| > EPSILON_10
  · rw [if_pos hq]
    obtain ⟨⟨k, r'⟩, hx, hr'⟩ := List.mem_map.1 hr
    obtain rfl : r' = r := hr'
    by_cases e : r' = f.objName
    · rw [if_pos e]
      have eo : r' = o := e.trans h.objName
      refine ⟨_, rfl, ⟨h.objName, h.conNames, coef_put h.obj _ eo hn, ?_⟩, rfl, rfl⟩
      intro y hy hf
      obtain ⟨l, h1, h2⟩ := h.cons y hy hf
      exact ⟨l, h1, coef_skip h2 _ (Or.inl (fun e' => hf ((hrow.free y hy).2 (e'.symm.trans eo))))⟩
    · rw [if_neg e]
      have eo : r' ≠ o := fun e' => e (e'.trans h.objName.symm)
      have hk : k ≠ .free := fun e' => eo ((hrow.free _ hx).1 e')
      obtain ⟨l, h1, h2⟩ := h.cons _ hx hk
      dsimp only at h1 h2
      rw [h1]
      refine ⟨_, rfl, ⟨h.objName, h.conNames, coef_skip h.obj _ (Or.inl eo), ?_⟩, rfl, rfl⟩
      intro y hy hf
      by_cases ey : r' = y.2
      · obtain rfl : (k, r') = y := hrow.inj _ hx _ hy ey
        refine ⟨l.put n x.value, ?_, coef_put h2 ⟨n, r', x.value⟩ rfl hn⟩
        rw [Assoc.get_put, if_pos rfl]
      · obtain ⟨l', h1', h2'⟩ := h.cons y hy hf
        refine ⟨l', ?_, coef_skip h2' _ (Or.inl ey)⟩
        rw [Assoc.get_put, if_neg ey]
        exact h1'
  · rw [if_neg hq]
    have hz : x.value = 0 := by
      rcases hsize with h | h
      · exact h
      · exact absurd (by unfold EPSILON_10; norm_num at h ⊢; exact h) hq
    refine ⟨f, rfl, ⟨h.objName, h.conNames, coef_skip h.obj _ (Or.inr hz), ?_⟩, rfl, rfl⟩
    intro y hy hf
    obtain ⟨l, h1, h2⟩ := h.cons y hy hf
    exact ⟨l, h1, coef_skip h2 _ (Or.inr hz)⟩

theorem entries_step {o : Name} {rows : List (RowKind × Name)} (hrow : RowNames o rows) {S : List (Name × ℚ)} (n : Name)
    (L : List (Name × Number)) : ∀ (E : List Entry) (f : Mps.File), Core o rows E S f →
    (∀ e ∈ L, e.1 ∈ rows.map Prod.snd ∧ (e.2.value = 0 ∨ 1 / 10000000000 < |e.2.value|)) →
    ((E ++ L.map fun e => (⟨n, e.1, e.2.value⟩ : Entry)).map fun e => (e.column, e.row)).Nodup →
    ∃ f', Mps.addEntries n (L.map fun e => (e.1, e.2.text)) f = some f' ∧
      Core o rows (E ++ L.map fun e => (⟨n, e.1, e.2.value⟩ : Entry)) S f' ∧ f'.vars = f.vars ∧ f'.varNames = f.varNames := by
  induction L with
  | nil => intro E f h _ _; exact ⟨f, rfl, by simpa using h, rfl, rfl⟩
  | cons e L ih =>
    intro E f h hL hn
    have hnew : (n, e.1) ∉ E.map fun e => (e.column, e.row) := by
      rw [List.map_append, List.nodup_append] at hn
      intro hm
      exact hn.2.2 _ hm (n, e.1) (by simp) rfl
    obtain ⟨f1, e1, h1, v1, w1⟩ := entry_step hrow h n e.1 e.2 (hL e (by simp)).1 (hL e (by simp)).2 hnew
    obtain ⟨f2, e2, h2, v2, w2⟩ := ih (E ++ [⟨n, e.1, e.2.value⟩]) f1 h1 (fun x hx => hL x (by simp [hx]))
      (by rw [List.append_assoc]; exact hn)
    refine ⟨f2, ?_, by rw [List.append_assoc] at h2; exact h2, v2.trans v1, w2.trans w1⟩
    rw [List.map_cons, Mps.addEntries, e1]
    exact e2

/-! ### The columns -/

theorem first_mem (M : List (Name × Bool)) : ∀ n, n ∈ (firstMentions M).map Prod.fst ↔ n ∈ M.map Prod.fst := by
  induction M with
  | nil => intro n; rfl
  | cons x M ih =>
    intro n
    rw [firstMentions, List.map_cons, List.map_cons, List.mem_cons, List.mem_cons]
    by_cases h : n = x.1
    · simp [h]
    · have : n ∈ ((firstMentions M).filter (fun y => y.1 ≠ x.1)).map Prod.fst ↔ n ∈ (firstMentions M).map Prod.fst := by
        constructor
        · intro hm
          obtain ⟨y, hy, e⟩ := List.mem_map.1 hm
          exact List.mem_map.2 ⟨y, (List.mem_filter.1 hy).1, e⟩
        · intro hm
          obtain ⟨y, hy, rfl⟩ := List.mem_map.1 hm
          exact List.mem_map.2 ⟨y, List.mem_filter.2 ⟨hy, by simpa using h⟩, rfl⟩
      rw [this, ih]

theorem first_nodup (M : List (Name × Bool)) : ((firstMentions M).map Prod.fst).Nodup := by
  induction M with
  | nil => exact List.nodup_nil
  | cons x M ih =>
    rw [firstMentions, List.map_cons, List.nodup_cons]
    refine ⟨?_, ?_⟩
    · intro hm
      obtain ⟨y, hy, e⟩ := List.mem_map.1 hm
      have := (List.mem_filter.1 hy).2
      simp [e] at this
    · exact ih.sublist (List.Sublist.map _ List.filter_sublist)

theorem first_snoc (M : List (Name × Bool)) (x : Name × Bool) :
    firstMentions (M ++ [x]) = if x.1 ∈ M.map Prod.fst then firstMentions M else firstMentions M ++ [x] := by
  induction M with
  | nil => rfl
  | cons y M ih =>
    rw [List.cons_append, firstMentions, ih, firstMentions]
    by_cases h : x.1 ∈ M.map Prod.fst
    · rw [if_pos h, if_pos (by rw [List.map_cons]; exact List.mem_cons_of_mem _ h)]
    · rw [if_neg h]
      by_cases e : x.1 = y.1
      · rw [if_pos (by rw [List.map_cons]; exact List.mem_cons.2 (Or.inl e)), List.filter_append,
          List.filter_cons_of_neg (by simpa using e), List.filter_nil, List.append_nil]
      · rw [if_neg (by rw [List.map_cons, List.mem_cons]; exact fun h' => h'.elim e h), List.filter_append,
          List.filter_cons_of_pos (by simpa using e), List.filter_nil]
        rfl

/-- The columns as read so far. -/
structure VarsNew (M : List (Name × Bool)) (f : Mps.File) : Prop where
  names : f.varNames = (firstMentions M).map Prod.fst
  vars : ∀ c ∈ firstMentions M, f.vars.get c.1 = some { integer := c.2 }
  new : ∀ n, n ∉ M.map Prod.fst → f.vars.get n = none

theorem var_step {M : List (Name × Bool)} {f : Mps.File} (h : VarsNew M f) (n : Name) (b : Bool) :
    VarsNew (M ++ [(n, b)]) (Mps.addVar b n f) := by
  unfold Mps.addVar
  by_cases hn : n ∈ M.map Prod.fst
  · obtain ⟨c, hc, rfl⟩ := List.mem_map.1 ((first_mem M n).2 hn)
    rw [h.vars c hc]
    dsimp only
    refine ⟨?_, ?_, ?_⟩
    · rw [first_snoc, if_pos hn]; exact h.names
    · rw [first_snoc, if_pos hn]; exact h.vars
    · intro m hm
      rw [List.map_append, List.mem_append, not_or] at hm
      exact h.new m hm.1
  · rw [h.new n hn]
    dsimp only
    refine ⟨?_, ?_, ?_⟩
    · rw [first_snoc, if_neg hn, List.map_append]
      show f.varNames ++ [n] = _
      rw [h.names]; rfl
    · rw [first_snoc, if_neg hn]
      intro c hc
      rw [Assoc.get_put]
      rcases List.mem_append.1 hc with hc | hc
      · have : n ≠ c.1 := fun e => hn ((first_mem M n).1 (e ▸ List.mem_map_of_mem hc))
        rw [if_neg this]
        exact h.vars c hc
      · rw [List.mem_singleton] at hc
        subst hc
        rw [if_pos rfl]
    · intro m hm
      rw [List.map_append, List.mem_append, not_or] at hm
      rw [Assoc.get_put, if_neg (fun e => hm.2 (by simp [e]))]
      exact h.new m hm.1

theorem pairs_words (l : List (Name × Number)) : Mps.pairs (pairWords l) = l.map fun e => (e.1, e.2.text) := by
  induction l with
  | nil => rfl
  | cons e l ih =>
    show (e.1, e.2.text) :: Mps.pairs (pairWords l) = _
    rw [ih]; rfl

theorem text_ne (x : Number) (w : Name) (hw : w.head? = some '\'') : x.text ≠ w := fun e => text_head x '\'' (by rw [e, hw]; rfl) rfl

/-- The columns and their entries. -/
def ColumnWords : ColumnLine → Prop
  | .integersBegin label _ => label ≠ "NAME".toList
  | .integersEnd label _ => label ≠ "NAME".toList
  | .entries c l => c ≠ "NAME".toList ∧ l ≠ []

theorem columns_all {o : Name} {rows : List (RowKind × Name)} (hrow : RowNames o rows) {S : List (Name × ℚ)}
    (L : List ColumnLine) : ∀ (M : List (Name × Bool)) (E : List Entry) (b : Bool) (f : Mps.File), Core o rows E S f →
    VarsNew M f → (∀ l ∈ L, ColumnWords l) →
    (∀ e ∈ L.flatMap ColumnLine.coefs, e.row ∈ rows.map Prod.snd ∧ (e.coef = 0 ∨ 1 / 10000000000 < |e.coef|)) →
    ((E ++ L.flatMap ColumnLine.coefs).map fun e => (e.column, e.row)).Nodup →
    ∃ f' b', Mps.stepAll (L.map ColumnLine.words) ⟨f, .columns, b⟩ = some ⟨f', .columns, b'⟩ ∧
      Core o rows (E ++ L.flatMap ColumnLine.coefs) S f' ∧ VarsNew (M ++ marked b L) f' := by
  induction L with
  | nil => intro M E b f h hv _ _ _; exact ⟨f, b, rfl, by simpa using h, by simpa [marked] using hv⟩
  | cons x L ih =>
    intro M E b f h hv hw hE hn
    have hwx := hw x (by simp)
    have hwL : ∀ l ∈ L, ColumnWords l := fun l hl => hw l (by simp [hl])
    cases x with
    | integersBegin label mark =>
      obtain ⟨f', b', e, h1, h2⟩ := ih M E true f h hv hwL hE hn
      refine ⟨f', b', ?_, h1, h2⟩
      rw [List.map_cons, Mps.stepAll]
      show (Mps.lineStep _ (label :: mark :: ["'INTORG'".toList])).bind _ = _
      rw [Mps.lineStep_section _ _ _ _ hwx]
      exact e
    | integersEnd label mark =>
      obtain ⟨f', b', e, h1, h2⟩ := ih M E false f h hv hwL hE hn
      refine ⟨f', b', ?_, h1, h2⟩
      rw [List.map_cons, Mps.stepAll]
      show (Mps.lineStep _ (label :: mark :: ["'INTEND'".toList])).bind _ = _
      rw [Mps.lineStep_section _ _ _ _ hwx]
      exact e
    | entries c l =>
      obtain ⟨hc, hl⟩ := hwx
      have ecoef : (ColumnLine.entries c l :: L).flatMap ColumnLine.coefs =
          (l.map fun e => (⟨c, e.1, e.2.value⟩ : Entry)) ++ L.flatMap ColumnLine.coefs := rfl
      rw [ecoef] at hE hn ⊢
      rw [← List.append_assoc] at hn
      obtain ⟨f1, e1, h1, v1, w1⟩ := entries_step hrow c l E f h (fun e he => by
          have := hE ⟨c, e.1, e.2.value⟩ (List.mem_append_left _ (List.mem_map.2 ⟨e, he, rfl⟩))
          exact this) (by
          rw [List.map_append] at hn
          exact (List.nodup_append.1 hn).1)
      have hv1 : VarsNew M f1 := ⟨w1.trans hv.names, by rw [v1]; exact hv.vars, by rw [v1]; exact hv.new⟩
      have hv2 := var_step hv1 c b
      have hcore : Core o rows (E ++ l.map fun e => (⟨c, e.1, e.2.value⟩ : Entry)) S (Mps.addVar b c f1) := by
        unfold Mps.addVar
        split
        · exact h1
        · exact ⟨h1.objName, h1.conNames, h1.obj, h1.cons⟩
      obtain ⟨f', b', e, k1, k2⟩ := ih (M ++ [(c, b)]) _ b _ hcore hv2 hwL
        (fun e he => hE e (List.mem_append_right _ he)) hn
      refine ⟨f', b', ?_, by rwa [List.append_assoc] at k1, by rw [List.append_assoc] at k2; exact k2⟩
      rw [List.map_cons, Mps.stepAll]
      obtain ⟨⟨r, x⟩, l', rfl⟩ := List.exists_cons_of_ne_nil hl
      show (Mps.lineStep _ (c :: r :: (x.text :: pairWords l'))).bind _ = _
      rw [Mps.lineStep_section _ _ _ _ hc]
      show ((Mps.columnsStep b f (c :: r :: x.text :: pairWords l')).map _).bind _ = _
      rw [Mps.columnsStep, if_neg (text_ne x _ rfl), if_neg (text_ne x _ rfl)]
      have ep : Mps.pairs (r :: x.text :: pairWords l') = ((r, x) :: l').map fun e => (e.1, e.2.text) :=
        pairs_words ((r, x) :: l')
      rw [ep, e1]
      exact e

/-! ## RHS -/

theorem sideSum_snoc (S : List (Name × ℚ)) (r n : Name) (q : ℚ) :
    sideSum (S ++ [(r, q)]) n = sideSum S n + if r = n then q else 0 := by
  unfold sideSum
  rw [List.map_append, List.sum_append]
  simp

theorem sideSum_zero (S : List (Name × ℚ)) (r : Name) (h : r ∉ S.map Prod.fst) : sideSum S r = 0 := by
  unfold sideSum
  refine List.sum_eq_zero ?_
  intro y hy
  obtain ⟨e, he, rfl⟩ := List.mem_map.1 hy
  exact if_neg (fun e' : e.1 = r => h (e' ▸ List.mem_map_of_mem he))

theorem side_step {o : Name} {rows : List (RowKind × Name)} (hrow : RowNames o rows) {E : List Entry} {S : List (Name × ℚ)}
    {f : Mps.File} (h : Core o rows E S f) (r : Name) (x : Number) (hr : ∃ k, k ≠ RowKind.free ∧ (k, r) ∈ rows)
    (hn : r ∉ S.map Prod.fst) :
    Core o rows E (S ++ [(r, x.value)])
      { f with cons := f.cons.modify r {} (fun c => { c with rhs := atof x.text }) } where
  objName := h.objName
  conNames := h.conNames
  obj := h.obj
  cons := by
    obtain ⟨k, hk, hx⟩ := hr
    intro y hy hf
    dsimp only
    rw [Assoc.get_modify, sideSum_snoc]
    by_cases e : r = y.2
    · obtain rfl : (k, r) = y := hrow.inj _ hx _ hy e
      obtain ⟨l, h1, h2⟩ := h.cons _ hy hf
      dsimp only at h1 ⊢
      refine ⟨l, ?_, h2⟩
      rw [if_pos rfl, if_pos rfl, h1, atof_text, sideSum_zero S r hn, zero_add]
      rfl
    · obtain ⟨l, h1, h2⟩ := h.cons y hy hf
      refine ⟨l, ?_, h2⟩
      rw [if_neg e, if_neg e, add_zero]
      exact h1

theorem sides_line {o : Name} {rows : List (RowKind × Name)} (hrow : RowNames o rows) {E : List Entry}
    (L : List (Name × Number)) : ∀ (S : List (Name × ℚ)) (f : Mps.File), Core o rows E S f →
    (∀ e ∈ L, ∃ k, k ≠ RowKind.free ∧ (k, e.1) ∈ rows) → ((S ++ L.map fun e => (e.1, e.2.value)).map Prod.fst).Nodup →
    Core o rows E (S ++ L.map fun e => (e.1, e.2.value))
      { f with cons := (L.map fun e => (e.1, e.2.text)).foldl (fun cs e => cs.modify e.1 {} (fun c => { c with rhs := atof e.2 })) f.cons } := by
  induction L with
  | nil => intro S f h _ _; simpa using h
  | cons e L ih =>
    intro S f h hL hn
    have hnew : e.1 ∉ S.map Prod.fst := by
      rw [List.map_append, List.nodup_append] at hn
      intro hm
      exact hn.2.2 _ hm e.1 (by simp) rfl
    have h1 := side_step hrow h e.1 e.2 (hL e (by simp)) hnew
    have := ih (S ++ [(e.1, e.2.value)]) _ h1 (fun x hx => hL x (by simp [hx])) (by rw [List.append_assoc]; exact hn)
    rw [List.append_assoc] at this
    exact this

theorem rhs_all {o : Name} {rows : List (RowKind × Name)} (hrow : RowNames o rows) {E : List Entry} (b : Bool)
    (L : List (Name × List (Name × Number))) : ∀ (S : List (Name × ℚ)) (f : Mps.File), Core o rows E S f →
    (∀ l ∈ L, l.1 ≠ "NAME".toList ∧ l.2 ≠ []) →
    (∀ e ∈ L.flatMap (fun l => l.2.map fun e => (e.1, e.2.value)), ∃ k, k ≠ RowKind.free ∧ (k, e.1) ∈ rows) →
    ((S ++ L.flatMap (fun l => l.2.map fun e => (e.1, e.2.value))).map Prod.fst).Nodup →
    ∃ f', Mps.stepAll (L.map (fun r => r.1 :: pairWords r.2)) ⟨f, .rhs, b⟩ = some ⟨f', .rhs, b⟩ ∧
      Core o rows E (S ++ L.flatMap (fun l => l.2.map fun e => (e.1, e.2.value))) f' ∧ f'.vars = f.vars ∧
      f'.varNames = f.varNames := by
  induction L with
  | nil => intro S f h _ _ _; exact ⟨f, rfl, by simpa using h, rfl, rfl⟩
  | cons x L ih =>
    intro S f h hw hE hn
    obtain ⟨s, l⟩ := x
    obtain ⟨hs, hl⟩ := hw (s, l) (by simp)
    have ecoef : ((s, l) :: L).flatMap (fun l => l.2.map fun e => (e.1, e.2.value)) =
        (l.map fun e => (e.1, e.2.value)) ++ L.flatMap (fun l => l.2.map fun e => (e.1, e.2.value)) := rfl
    rw [ecoef] at hE hn ⊢
    rw [← List.append_assoc] at hn
    have h1 := sides_line hrow l S f h (fun e he => by
        have := hE (e.1, e.2.value) (List.mem_append_left _ (List.mem_map.2 ⟨e, he, rfl⟩))
        exact this) (by
        rw [List.map_append] at hn
        exact (List.nodup_append.1 hn).1)
    obtain ⟨f', e, k1, k2, k3⟩ := ih _ _ h1 (fun l hl => hw l (by simp [hl])) (fun e he => hE e (List.mem_append_right _ he)) hn
    refine ⟨f', ?_, by rwa [List.append_assoc] at k1, k2, k3⟩
    rw [List.map_cons, Mps.stepAll]
    obtain ⟨⟨r, x⟩, l', rfl⟩ := List.exists_cons_of_ne_nil hl
    show (Mps.lineStep _ (s :: r :: (x.text :: pairWords l'))).bind _ = _
    rw [Mps.lineStep_section _ _ _ _ hs]
    show ((Mps.rhsStep f (s :: r :: x.text :: pairWords l')).map fun f => (⟨f, .rhs, b⟩ : Mps.St)).bind _ = _
    have ep : Mps.pairs (r :: x.text :: pairWords l') = ((r, x) :: l').map fun e => (e.1, e.2.text) :=
      pairs_words ((r, x) :: l')
    rw [Mps.rhsStep, ep]
    exact e

/-! ## BOUNDS -/

def isFixed : BoundLine → Bool
  | .limit .fx _ _ _ => true
  | _ => false

/-- A variable after its records `B`. -/
structure VarInv (c : Name × Bool) (B : List BoundLine) (x : Mps.MVar) : Prop where
  range : ((x.lb : ℚ), (x.ub : ℚ)) = B.foldl BoundLine.apply (0, huge)
  integer : x.integer = (c.2 || B.any BoundLine.integer)
  defined : x.boundDefined = decide (B ≠ [])
  fixed : x.fixed = B.any isFixed
  fixedValue : ∀ b, B = [b] → isFixed b = true → x.fixedValue = x.lb ∧ x.lb = x.ub

theorem varInv_new (c : Name × Bool) : VarInv c [] { integer := c.2 } where
  range := by
    show (((0 : ℤ) : ℚ), ((INT_HALF_MAX : ℤ) : ℚ)) = (0, huge)
    norm_num [INT_HALF_MAX, huge]
  integer := by simp
  defined := rfl
  fixed := rfl
  fixedValue := by intro b h; cases h

/-- The number of a record. -/
def HasValue (v : ℤ) : BoundLine → Prop
  | .limit _ _ _ y => y.value = v
  | .plain _ _ _ => True

/-- The numbers of a record are integers of the machine. -/
def InRange : BoundLine → Prop
  | .limit _ _ _ x => ∃ k : ℤ, x.value = k ∧ -2147483648 ≤ k ∧ k ≤ 2147483647
  | .plain _ _ _ => True

/-- What a record does to a variable. -/
def applied (b : BoundLine) (v : ℤ) (x : Mps.MVar) : Mps.MVar := match b with
  | .limit k _ _ _ => Mps.boundValue k.word v x
  | .plain k _ _ => Mps.boundNoValue k.word x

theorem varInv_step {c : Name × Bool} {B : List BoundLine} {x : Mps.MVar} (h : VarInv c B x) (b : BoundLine) (v : ℤ)
    (hv : HasValue v b) : VarInv c (B ++ [b]) (applied b v x) := by
  have hr1 : (x.lb : ℚ) = (B.foldl BoundLine.apply (0, huge)).1 := congrArg Prod.fst h.range
  have hr2 : (x.ub : ℚ) = (B.foldl BoundLine.apply (0, huge)).2 := congrArg Prod.snd h.range
  have hi := h.integer
  have hf := h.fixed
  have hB : ∀ b', B ++ [b] = [b'] → b = b' := by
    intro b' e
    cases B with
    | nil => simpa using e
    | cons _ _ => simp at e
  refine ⟨?_, ?_, ?_, ?_, ?_⟩
  · rw [List.foldl_append, ← h.range]
    rcases b with ⟨k, s, n, y⟩ | ⟨k, s, n⟩
    · have hv' : y.value = v := hv
      cases k <;> simp [applied, Mps.boundValue, LimitKind.word, BoundLine.apply, hv']
    · cases k <;> simp [applied, Mps.boundNoValue, PlainKind.word, BoundLine.apply, huge, INT_HALF_MAX, INT_HALF_MIN]
  · rw [List.any_append]
    rcases b with ⟨k, s, n, y⟩ | ⟨k, s, n⟩ <;>
      cases k <;> simp [applied, Mps.boundValue, Mps.boundNoValue, LimitKind.word, PlainKind.word, BoundLine.integer, hi]
  · rcases b with ⟨k, s, n, y⟩ | ⟨k, s, n⟩ <;>
      cases k <;> simp [applied, Mps.boundValue, Mps.boundNoValue, LimitKind.word, PlainKind.word]
  · rw [List.any_append]
    rcases b with ⟨k, s, n, y⟩ | ⟨k, s, n⟩ <;>
      cases k <;> simp [applied, Mps.boundValue, Mps.boundNoValue, LimitKind.word, PlainKind.word, isFixed, hf]
  · intro b' e1 e2
    obtain rfl := hB b' e1
    rcases b with ⟨k, s, n, y⟩ | ⟨k, s, n⟩
    · cases k <;> first | (cases e2; done) | simp [applied, Mps.boundValue, LimitKind.word]
    · cases e2

/-- The columns after the records `B`. -/
structure VarsOK (cols : List (Name × Bool)) (B : List BoundLine) (f : Mps.File) : Prop where
  names : f.varNames = cols.map Prod.fst
  vars : ∀ c ∈ cols, ∃ x, f.vars.get c.1 = some x ∧ VarInv c (B.filter fun b => b.column = c.1) x

theorem bounds_step {cols : List (Name × Bool)} {B : List BoundLine} {f : Mps.File} (h : VarsOK cols B f) (b : BoundLine)
    (hc : b.column ∈ cols.map Prod.fst) (hb : InRange b) :
    ∃ f', Mps.boundsStep f b.words = some f' ∧ VarsOK cols (B ++ [b]) f' ∧ f'.objName = f.objName ∧
      f'.conNames = f.conNames ∧ f'.objCoef = f.objCoef ∧ f'.cons = f.cons := by
  obtain ⟨c, hc, ec⟩ := List.mem_map.1 hc
  obtain ⟨x, hx, hi⟩ := h.vars c hc
  have key : ∀ v : ℤ, HasValue v b → VarsOK cols (B ++ [b]) { f with vars := f.vars.put b.column (applied b v x) } := by
    intro v hv
    refine ⟨h.names, ?_⟩
    intro c' hc'
    show ∃ y, (f.vars.put b.column _).get c'.1 = some y ∧ _
    rw [Assoc.get_put, List.filter_append]
    by_cases e : b.column = c'.1
    · obtain ⟨x', hx', hi'⟩ := h.vars c' hc'
      have : x' = x := by
        rw [ec, e, hx'] at hx
        simpa using hx
      subst this
      refine ⟨_, if_pos e, ?_⟩
      rw [List.filter_cons_of_pos (by simpa using e), List.filter_nil]
      exact varInv_step hi' b v hv
    · rw [if_neg e, List.filter_cons_of_neg (by simpa using e), List.filter_nil, List.append_nil]
      exact h.vars c' hc'
  rcases b with ⟨k, s, n, y⟩ | ⟨k, s, n⟩
  · obtain ⟨v, hv, h1, h2⟩ := hb
    refine ⟨_, ?_, key v hv, rfl, rfl, rfl, rfl⟩
    show (match f.vars.get n with
      | none => none
      | some x => (toInt (atof y.text)).map fun v => { f with vars := f.vars.put n (Mps.boundValue k.word v x) }) = _
    have ec' : c.1 = n := ec
    rw [← ec', hx, atof_text, hv, toInt_int v h1 h2]
    rfl
  · refine ⟨_, ?_, key 0 trivial, rfl, rfl, rfl, rfl⟩
    show (match f.vars.get n with
      | none => none
      | some x => some { f with vars := f.vars.put n (Mps.boundNoValue k.word x) }) = _
    have ec' : c.1 = n := ec
    rw [← ec', hx]
    rfl

theorem bounds_all (m : Bool) {cols : List (Name × Bool)} (L : List BoundLine) : ∀ (B : List BoundLine) (f : Mps.File),
    VarsOK cols B f →
    (∀ b ∈ L, b.column ∈ cols.map Prod.fst ∧ InRange b) →
    ∃ f', Mps.stepAll (L.map BoundLine.words) ⟨f, .bounds, m⟩ = some ⟨f', .bounds, m⟩ ∧ VarsOK cols (B ++ L) f' ∧
      f'.objName = f.objName ∧ f'.conNames = f.conNames ∧ f'.objCoef = f.objCoef ∧ f'.cons = f.cons := by
  induction L with
  | nil => intro B f h _; exact ⟨f, rfl, by simpa using h, rfl, rfl, rfl, rfl⟩
  | cons b L ih =>
    intro B f h hL
    obtain ⟨f1, e1, h1, a1, a2, a3, a4⟩ := bounds_step h b (hL b (by simp)).1 (hL b (by simp)).2
    obtain ⟨f2, e2, h2, b1, b2, b3, b4⟩ := ih (B ++ [b]) f1 h1 (fun x hx => hL x (by simp [hx]))
    refine ⟨f2, ?_, by rw [List.append_assoc] at h2; exact h2, b1.trans a1, b2.trans a2, b3.trans a3, b4.trans a4⟩
    rw [List.map_cons, Mps.stepAll]
    have : Mps.lineStep ⟨f, .bounds, m⟩ b.words = Mps.sectionStep ⟨f, .bounds, m⟩ b.words := by
      rcases b with ⟨k, s, n, y⟩ | ⟨k, s, n⟩
      · exact Mps.lineStep_section _ _ _ _ (by cases k <;> decide)
      · exact Mps.lineStep_section _ _ _ _ (by cases k <;> decide)
    rw [this]
    show ((Mps.boundsStep f b.words).map _).bind _ = _
    rw [e1]
    exact e2

/-! ## The whole file -/

/-- A column of the file that was read. -/
structure VarRead (d : Doc) (c : Name × Bool) (x : Mps.MVar) : Prop where
  range : ((x.lb : ℚ), (x.ub : ℚ)) = d.range c
  integer : (c.2 = true ∨ ∃ b ∈ d.records c.1, b.integer = true) → x.integer = true
  fixed : x.fixed = true → x.fixedValue = x.lb ∧ x.lb = x.ub

theorem rowNames_of {d : Doc} (h : d.OK) {o : Name} (ho : d.rows.filter (fun r => r.1 = .free) = [(.free, o)]) :
    RowNames o d.rows := by
  have hinj : ∀ x ∈ d.rows, ∀ y ∈ d.rows, x.2 = y.2 → x = y := fun x hx y hy e => List.inj_on_of_nodup_map h.rows hx hy e
  have hm : (RowKind.free, o) ∈ d.rows := (List.mem_filter.1 (by rw [ho]; simp : (RowKind.free, o) ∈ d.rows.filter (fun r => r.1 = .free))).1
  refine ⟨?_, hinj⟩
  intro x hx
  constructor
  · intro e
    have : x ∈ d.rows.filter (fun r => r.1 = .free) := List.mem_filter.2 ⟨hx, by simpa using e⟩
    rw [ho, List.mem_singleton] at this
    rw [this]
  · intro e
    rw [hinj x hx _ hm e]

theorem get_closed (l : Assoc Name Mps.MVar) (n : Name) :
    Assoc.get (l.map fun e => (e.1, Mps.defaultBounds e.2)) n = (Assoc.get l n).map Mps.defaultBounds := by
  induction l with
  | nil => rfl
  | cons e l ih =>
    rw [List.map_cons, Assoc.get, Assoc.get]
    by_cases h : e.1 = n
    · rw [if_pos h, if_pos h]; rfl
    · rw [if_neg h, if_neg h]; exact ih

theorem varRead {d : Doc} (h : d.OK) {c : Name × Bool} {x : Mps.MVar} (hx : VarInv c (d.records c.1) x) :
    VarRead d c (Mps.defaultBounds x) := by
  have hr := hx.range
  have hi := hx.integer
  have hd := hx.defined
  have hf := hx.fixed
  have hany : x.fixed = true → x.fixedValue = x.lb ∧ x.lb = x.ub ∧ d.records c.1 ≠ [] := by
    intro e
    rw [hf, List.any_eq_true] at e
    obtain ⟨b, hb, e⟩ := e
    obtain ⟨hb1, hb2⟩ := List.mem_filter.1 hb
    have hcol : b.column = c.1 := of_decide_eq_true hb2
    rcases b with ⟨k, s, n, y⟩ | ⟨k, s, n⟩
    · cases k <;> first | (cases e; done) | skip
      have : d.records n = [.limit .fx s n y] := h.fixed s n y hb1
      have hn : n = c.1 := hcol
      rw [hn] at this
      have r := hx.fixedValue _ this rfl
      exact ⟨r.1, r.2, by rw [this]; simp⟩
    · cases e
  unfold Mps.defaultBounds
  by_cases hB : d.records c.1 = []
  · rw [hB] at hr hi hd hf
    have hd' : x.boundDefined = false := by rw [hd]; rfl
    have hi' : x.integer = c.2 := by rw [hi]; simp
    have hf' : x.fixed = false := by rw [hf]; rfl
    by_cases hc : c.2 = true
    · have e : (!x.boundDefined && x.integer) = true := by rw [hd', hi', hc]; rfl
      rw [if_pos e]
      refine ⟨?_, fun _ => hi'.trans hc, fun e => absurd (hf'.symm.trans e) (by decide)⟩
      rw [Doc.range, if_pos ⟨hB, hc⟩]
      simp
    · have e : ¬ (!x.boundDefined && x.integer) = true := by rw [hi']; simp [hc]
      rw [if_neg e]
      refine ⟨?_, ?_, fun e => absurd (hf'.symm.trans e) (by decide)⟩
      · rw [Doc.range, if_neg (fun e => hc e.2), hB, hr]
      · rintro (e | ⟨b, hb, _⟩)
        · exact absurd e hc
        · rw [hB] at hb; cases hb
  · have e : ¬ (!x.boundDefined && x.integer) = true := by
      rw [hd]; simp [hB]
    rw [if_neg e]
    refine ⟨?_, ?_, fun e => ⟨(hany e).1, (hany e).2.1⟩⟩
    · rw [Doc.range, if_neg (fun e => hB e.1), hr]
    · intro e
      rw [hi]
      rcases e with e | e
      · rw [e]; rfl
      · rw [Bool.or_eq_true]; exact Or.inr (List.any_eq_true.2 e)

theorem read_ok {d : Doc} (h : d.OK) {o : Name} (ho : d.rows.filter (fun r => r.1 = .free) = [(.free, o)])
    {text : List (List Char)} (hw : Written text d.lines) :
    ∃ f, Mps.readMps text = some f ∧ Core o d.rows d.coefs d.sides f ∧ f.varNames = d.cols.map Prod.fst ∧
      ∀ c ∈ d.cols, ∃ x, f.vars.get c.1 = some x ∧ VarRead d c x := by
  have hrow := rowNames_of h ho
  have hA : d.lines = ([["NAME".toList, d.title], ["ROWS".toList]] ++ d.rows.map (fun r => [r.1.word, r.2]) ++
    [["COLUMNS".toList]] ++ d.columns.map ColumnLine.words ++
    [["RHS".toList]] ++ d.rhs.map (fun r => r.1 :: pairWords r.2) ++
    [["BOUNDS".toList]] ++ d.bounds.map BoundLine.words) ++ [["ENDATA".toList]] := rfl
  rw [hA] at hw
  unfold Mps.readMps
  rw [written_read hw]
  · obtain ⟨f1, e1, h1⟩ := rows_all d.rows [] { name := d.title } false
      ⟨rfl, rfl, (by intro x hx; cases hx), (fun _ _ => rfl), rfl, rfl, rfl⟩ h.rows
    have hc1 := core_rows ho h1
    obtain ⟨f2, b2, e2, h2, v2⟩ := columns_all hrow d.columns [] [] false f1 hc1
      ⟨h1.varNames, (by intro c hc; cases hc), (fun _ _ => by rw [h1.vars]; rfl)⟩
      (by
        intro l hl
        have := h.columnWords l hl
        cases l <;> exact this) h.entries h.once
    obtain ⟨f3, e3, h3, v3, w3⟩ := rhs_all hrow b2 d.rhs [] f2 h2 h.rhsWords h.sides h.sideOnce
    have hvars : VarsOK d.cols [] f3 := ⟨by rw [w3]; exact v2.names, fun c hc => ⟨_, by rw [v3]; exact v2.vars c hc, varInv_new c⟩⟩
    obtain ⟨f4, e4, h4, a1, a2, a3, a4⟩ := bounds_all b2 d.bounds [] f3 hvars (fun b hb => ⟨(h.bounds b hb).1, by have := (h.bounds b hb).2; cases b <;> exact this⟩)
    refine ⟨closed f4, ?_, ?_, h4.names, ?_⟩
    · have s1 : Mps.stepAll [["NAME".toList, d.title], ["ROWS".toList]] ⟨{}, .initial, false⟩ =
          some ⟨{ name := d.title }, .rows, false⟩ := rfl
      have s2 : Mps.stepAll [["COLUMNS".toList]] ⟨f1, .rows, false⟩ = some ⟨f1, .columns, false⟩ := rfl
      have s3 : Mps.stepAll [["RHS".toList]] ⟨f2, .columns, b2⟩ = some ⟨f2, .rhs, b2⟩ := rfl
      have s4 : Mps.stepAll [["BOUNDS".toList]] ⟨f3, .rhs, b2⟩ = some ⟨f3, .bounds, b2⟩ := rfl
      simp only [Mps.stepAll_append, s1, s2, s3, s4, e1, e2, e3, e4, Option.bind_some]
    · refine ⟨a1.trans h3.objName, a2.trans h3.conNames, ?_, ?_⟩
      · show CoefOK d.coefs o f4.objCoef
        rw [a3]; exact h3.obj
      · show ∀ x ∈ d.rows, x.1 ≠ .free → ∃ l, f4.cons.get x.2 = _ ∧ _
        rw [a4]; exact h3.cons
    · intro c hc
      obtain ⟨x, hx, hi⟩ := h4.vars c hc
      refine ⟨Mps.defaultBounds x, ?_, varRead h hi⟩
      show Assoc.get (f4.vars.map _) c.1 = _
      rw [get_closed, hx]; rfl
  · intro l hl
    simp only [List.mem_append, List.mem_map, List.mem_cons, List.not_mem_nil, or_false] at hl
    have two : ∀ (a b : Name) (r : List Name), a :: b :: r ≠ ["ENDATA".toList] := by
      intro a b r e
      cases e
    have keys : ["ROWS".toList] ≠ ["ENDATA".toList] ∧ ["COLUMNS".toList] ≠ ["ENDATA".toList] ∧
      ["RHS".toList] ≠ ["ENDATA".toList] ∧ ["BOUNDS".toList] ≠ ["ENDATA".toList] := by decide
    rcases hl with ((((((hl | ⟨r, _, rfl⟩) | rfl) | ⟨x, hx, rfl⟩) | rfl) | ⟨x, hx, rfl⟩) | rfl) | ⟨x, _, rfl⟩
    · rcases hl with rfl | rfl
      · exact two _ _ _
      · exact keys.1
    · exact two _ _ _
    · exact keys.2.1
    · have := h.columnWords x hx
      cases x with
      | integersBegin a b => exact two _ _ _
      | integersEnd a b => exact two _ _ _
      | entries c l =>
        obtain ⟨e, l', rfl⟩ := List.exists_cons_of_ne_nil this.2
        exact two _ _ _
    · exact keys.2.2.1
    · obtain ⟨e, l', e'⟩ := List.exists_cons_of_ne_nil (h.rhsWords x hx).2
      rw [e']
      exact two _ _ _
    · exact keys.2.2.2
    · rcases x with ⟨k, s, n, y⟩ | ⟨k, s, n⟩ <;> exact two _ _ _

end Printemps.MpsFile
