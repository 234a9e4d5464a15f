import Verif.Lemmas.MpsFile
import Verif.Model.Import
import Verif.Spec.Whole
import Verif.Lemmas.Presolve

/-! # The model a file becomes -/

namespace Printemps.MpsFile
open Text Spec

theorem mapM_forall₂ {α β : Type} (g : α → Option β) (P : α → β → Prop) (l : List α)
    (h : ∀ a ∈ l, ∃ b, g a = some b ∧ P a b) : ∃ bs, l.mapM g = some bs ∧ List.Forall₂ P l bs := by
  induction l with
  | nil => exact ⟨[], rfl, .nil⟩
  | cons a l ih =>
    obtain ⟨b, e, hb⟩ := h a (by simp)
    obtain ⟨bs, e', hbs⟩ := ih (fun a ha => h a (by simp [ha]))
    exact ⟨b :: bs, by rw [List.mapM_cons, e, e']; rfl, .cons hb hbs⟩

theorem forall₂_left {α β : Type} {P : α → β → Prop} {l : List α} {bs : List β} (h : List.Forall₂ P l bs) (i : ℕ) (a : α)
    (ha : l[i]? = some a) : ∃ b, bs[i]? = some b ∧ P a b := by
  induction h generalizing i with
  | nil => simp at ha
  | cons hab _ ih =>
    cases i with
    | zero =>
      simp only [List.getElem?_cons_zero, Option.some.injEq] at ha
      subst ha
      exact ⟨_, rfl, hab⟩
    | succ i => exact ih i ha

theorem forall₂_map_left {α β γ : Type} {P : α → β → Prop} {k : γ → α} {l : List γ} {bs : List β}
    (h : List.Forall₂ P (l.map k) bs) : List.Forall₂ (fun c b => P (k c) b) l bs := by
  induction l generalizing bs with
  | nil => cases h; exact .nil
  | cons c l ih => cases h with | cons h1 h2 => exact .cons h1 (ih h2)

/-- The values `σ` by index and `val` by name are the same. -/
def Named (names : List Name) (σ : ℕ → ℤ) (val : Name → ℤ) : Prop := ∀ (i : ℕ) (n : Name), names[i]? = some n → σ i = val n

theorem findIdx_mem (names : List Name) (n : Name) (h : n ∈ names) :
    ∃ i, names.findIdx? (fun m => m = n) = some i ∧ names[i]? = some n := by
  induction names with
  | nil => cases h
  | cons a l ih =>
    by_cases e : a = n
    · exact ⟨0, by simp [List.findIdx?_cons, e], by simp [e]⟩
    · obtain ⟨i, h1, h2⟩ := ih (by
        rcases List.mem_cons.1 h with h | h
        · exact absurd h.symm e
        · exact h)
      exact ⟨i + 1, by simp [List.findIdx?_cons, e, h1], by simpa using h2⟩

/-- The terms of a row. -/
structure TermsOK (d : Doc) (r : Name) (ts : List (VarId × ℚ)) : Prop where
  keys : (ts.map Prod.fst).Nodup
  uses : ∀ t ∈ ts, t.1 < d.cols.length
  coef : ∀ t ∈ ts, ∃ e ∈ d.coefs, e.row = r ∧ e.coef = t.2 ∧ (d.cols.map Prod.fst)[t.1]? = some e.column
  value : ∀ σ val, Named (d.cols.map Prod.fst) σ val → (ts.map fun t => t.2 * (σ t.1 : ℚ)).sum = d.rowValue r val

theorem column_mem (P : List ColumnLine) : ∀ (b : Bool), ∀ e ∈ P.flatMap ColumnLine.coefs,
    e.column ∈ (marked b P).map Prod.fst := by
  induction P with
  | nil => intro b e he; cases he
  | cons x P ih =>
    intro b e he
    rw [List.flatMap_cons, List.mem_append] at he
    cases x with
    | integersBegin l m => exact ih true e (he.resolve_left (by simp [ColumnLine.coefs]))
    | integersEnd l m => exact ih false e (he.resolve_left (by simp [ColumnLine.coefs]))
    | entries c l =>
      rw [marked, List.map_cons, List.mem_cons]
      rcases he with he | he
      · obtain ⟨y, _, rfl⟩ := List.mem_map.1 he
        exact Or.inl rfl
      · exact Or.inr (ih b e he)

theorem terms_ok {d : Doc} {r : Name} {l : Assoc Name ℚ} (h : CoefOK d.coefs r l) :
    ∃ ts, Mps.importTerms (d.cols.map Prod.fst) l = some ts ∧ TermsOK d r ts := by
  obtain ⟨ts, e, hf⟩ := mapM_forall₂
    (fun e : Name × ℚ => ((d.cols.map Prod.fst).findIdx? (fun n => n = e.1)).map fun i => (i, e.2))
    (fun (e : Name × ℚ) (t : VarId × ℚ) => (d.cols.map Prod.fst)[t.1]? = some e.1 ∧ t.2 = e.2) l (by
      intro t ht
      obtain ⟨en, h1, h2, h3, _⟩ := h.source t ht
      obtain ⟨i, k1, k2⟩ := findIdx_mem (d.cols.map Prod.fst) t.1 (by
        rw [← h3]
        exact (first_mem _ _).2 (column_mem d.columns false en h1))
      exact ⟨(i, t.2), by rw [k1]; rfl, k2, rfl⟩)
  refine ⟨ts, e, ?_, ?_, ?_, ?_⟩
  · have hk := h.keys
    clear h e
    induction hf with
    | nil => exact List.nodup_nil
    | @cons a t l ts hat hf ih =>
      rw [List.map_cons, List.nodup_cons] at hk ⊢
      refine ⟨?_, ih hk.2⟩
      intro hm
      obtain ⟨t', ht', et⟩ := List.mem_map.1 hm
      obtain ⟨i, hi⟩ := List.getElem?_of_mem ht'
      obtain ⟨a', ha', hp⟩ := forall₂_left hf.flip i t' hi
      rw [et, hat.1] at hp
      have := hp.1
      simp only [Option.some.injEq] at this
      exact hk.1 (this ▸ List.mem_map_of_mem (List.mem_of_getElem? ha'))
  · intro t ht
    obtain ⟨i, hi⟩ := List.getElem?_of_mem ht
    obtain ⟨a', ha', hp⟩ := forall₂_left hf.flip i t hi
    have := (List.getElem?_eq_some_iff.1 hp.1).1
    simpa using this
  · intro t ht
    obtain ⟨i, hi⟩ := List.getElem?_of_mem ht
    obtain ⟨a', ha', hp⟩ := forall₂_left hf.flip i t hi
    obtain ⟨en, h1, h2, h3, h4⟩ := h.source a' (List.mem_of_getElem? ha')
    exact ⟨en, h1, h2, h4.trans hp.2.symm, by rw [h3]; exact hp.1⟩
  · intro σ val hn
    unfold Doc.rowValue
    rw [← h.value val]
    clear h e
    induction hf with
    | nil => rfl
    | @cons a t l ts hat hf ih =>
      rw [List.map_cons, List.map_cons, List.sum_cons, List.sum_cons, ih, hn _ _ hat.1, hat.2]

/-- The variable of a column. -/
structure VarImp (d : Doc) (c : Name × Bool) (v : Var) : Prop where
  range : ((v.lb : ℚ), (v.ub : ℚ)) = d.range c
  fixed : v.fixed = true → v.value = v.lb ∧ v.lb = v.ub
  made : ∃ l u w, Var.init.setBound l u = some w ∧ (v = w ∨ ∃ x, v = w.fixBy x)

theorem var_ok {d : Doc} (h : d.OK) {c : Name × Bool} (hc : c ∈ d.cols) {x : Mps.MVar} (hx : VarRead d c x) (acc : Bool)
    (hacc : acc = true ∨ d.Integer) : ∃ v, Mps.importVar acc x = some v ∧ VarImp d c v := by
  have hr := hx.range
  have hr1 : (x.lb : ℚ) = (d.range c).1 := congrArg Prod.fst hr
  have hr2 : (x.ub : ℚ) = (d.range c).2 := congrArg Prod.snd hr
  have hle : x.lb ≤ x.ub := by
    have := h.ranges c hc
    rw [← hr1, ← hr2] at this
    exact_mod_cast this
  obtain ⟨w, hw, h1, h2, h3⟩ := Presolve.setBound_ok Var.init x.lb x.ub hle
  have hg : ¬ (!x.integer && !acc) = true := by
    rcases hacc with e | e
    · simp [e]
    · rw [hx.integer (e c hc)]; simp
  unfold Mps.importVar
  rw [if_neg hg, hw]
  by_cases hf : x.fixed = true
  · refine ⟨w.fixBy x.fixedValue, by rw [Option.map_some, if_pos hf], ?_, ?_, ⟨_, _, w, hw, Or.inr ⟨_, rfl⟩⟩⟩
    · rw [← hr]
      show (((w.lb : ℤ) : ℚ), ((w.ub : ℤ) : ℚ)) = _
      rw [h1, h2]
    · intro _
      show x.fixedValue = w.lb ∧ w.lb = w.ub
      rw [h1, h2]
      exact hx.fixed hf
  · refine ⟨w, by rw [Option.map_some, if_neg hf], ?_, ?_, ⟨_, _, w, hw, Or.inl rfl⟩⟩
    · rw [← hr, h1, h2]
    · intro e
      rw [h3] at e
      cases e

/-- The constraint of a row. -/
def ConImp (d : Doc) (senseOf : VarId → VarSense) (x : RowKind × Name) (c : Con) : Prop :=
  ∃ ts, TermsOK d x.2 ts ∧ c = Con.setup ((Expr.create ts 0).subValue (d.side x.2)) x.1.sense senseOf

/-- The imported problem. -/
structure Imports (d : Doc) (o : Name) (p : Mps.Imported) : Prop where
  names : p.names = d.cols.map Prod.fst
  vars : List.Forall₂ (VarImp d) d.cols p.vars
  conNames : p.conNames = (d.rows.filter (fun r => r.1 ≠ .free)).map Prod.snd
  cons : List.Forall₂ (ConImp d (fun v => (p.vars.getD v Var.init).sense)) (d.rows.filter (fun r => r.1 ≠ .free)) p.cons
  obj : ∃ ts, TermsOK d o ts ∧ p.obj = Expr.create ts 0

theorem import_ok {d : Doc} (h : d.OK) {o : Name} (ho : d.rows.filter (fun r => r.1 = .free) = [(.free, o)])
    {text : List (List Char)} (hw : Written text d.lines) (acc : Bool) (hacc : acc = true ∨ d.Integer) :
    ∃ p, Mps.load acc text = some (Mps.problem p, p.names, p.conNames) ∧ Imports d o p := by
  obtain ⟨f, hf, hcore, hnames, hvars⟩ := read_ok h ho hw
  obtain ⟨vs, ev, hv⟩ := mapM_forall₂ (fun n => (f.vars.get n).bind (Mps.importVar acc))
    (fun n v => ∀ c ∈ d.cols, c.1 = n → VarImp d c v) f.varNames (by
      intro n hn
      rw [hnames] at hn
      obtain ⟨c, hc, rfl⟩ := List.mem_map.1 hn
      obtain ⟨x, hx, hr⟩ := hvars c hc
      obtain ⟨v, e, hv⟩ := var_ok h hc hr acc hacc
      refine ⟨v, by rw [hx]; exact e, ?_⟩
      intro c' hc' e'
      rw [List.inj_on_of_nodup_map (first_nodup _) hc' hc e']
      exact hv)
  obtain ⟨cs, ec, hc⟩ := mapM_forall₂ (fun n => (f.cons.get n).bind
      (Mps.importCon f.varNames (fun v => (vs.getD v Var.init).sense)))
    (fun n c => ∀ x ∈ d.rows, x.1 ≠ .free → x.2 = n → ConImp d (fun v => (vs.getD v Var.init).sense) x c) f.conNames (by
      intro n hn
      rw [hcore.conNames] at hn
      obtain ⟨x, hx, rfl⟩ := List.mem_map.1 hn
      obtain ⟨hx1, hx2⟩ := List.mem_filter.1 hx
      obtain ⟨l, e1, hl⟩ := hcore.cons x hx1 (by simpa using hx2)
      obtain ⟨ts, e2, ht⟩ := terms_ok hl
      refine ⟨Con.setup ((Expr.create ts 0).subValue (d.side x.2)) x.1.sense (fun v => (vs.getD v Var.init).sense), ?_, ?_⟩
      · rw [e1]
        show Mps.importCon _ _ _ = _
        unfold Mps.importCon
        rw [hnames, e2]
        rfl
      · intro x' hx' _ e'
        rw [(rowNames_of h ho).inj x' hx' x hx1 e']
        exact ⟨ts, ht, rfl⟩)
  obtain ⟨ts, et, ht⟩ := terms_ok hcore.obj
  refine ⟨⟨f.varNames, vs, f.conNames, cs, Expr.create ts 0⟩, ?_, hnames, ?_, hcore.conNames, ?_, ts, ht, rfl⟩
  · unfold Mps.load
    rw [hf]
    show (Mps.importMps acc f).map _ = _
    unfold Mps.importMps
    rw [ev]
    dsimp only [Option.bind_some]
    rw [ec]
    dsimp only [Option.bind_some]
    rw [hnames, et]
    rfl
  · rw [hnames] at hv
    have := forall₂_map_left hv
    refine List.forall₂_iff_zip.2 ⟨this.length_eq, ?_⟩
    intro c v hcv
    exact List.forall₂_zip this hcv c (List.of_mem_zip hcv).1 rfl
  · rw [hcore.conNames] at hc
    have := forall₂_map_left hc
    refine List.forall₂_iff_zip.2 ⟨this.length_eq, ?_⟩
    intro x c hxc
    obtain ⟨h1, h2⟩ := List.mem_filter.1 (List.of_mem_zip hxc).1
    exact List.forall₂_zip this hxc x h1 (by simpa using h2) rfl

/-! ## What the problem says -/

theorem admits_iff {d : Doc} {c : Name × Bool} {v : Var} (h : VarImp d c v) (x : ℤ) :
    Admits v x ↔ (d.range c).1 ≤ (x : ℚ) ∧ (x : ℚ) ≤ (d.range c).2 := by
  have hr1 : (v.lb : ℚ) = (d.range c).1 := congrArg Prod.fst h.range
  have hr2 : (v.ub : ℚ) = (d.range c).2 := congrArg Prod.snd h.range
  rw [← hr1, ← hr2]
  unfold Admits
  by_cases hf : v.fixed = true
  · obtain ⟨e1, e2⟩ := h.fixed hf
    rw [← e2, e1]
    constructor
    · intro h
      rw [h.1 hf]
      exact ⟨le_refl _, le_refl _⟩
    · rintro ⟨h1, h2⟩
      refine ⟨fun _ => ?_, fun e => absurd (e.symm.trans hf) (by decide)⟩
      have h1' : v.lb ≤ x := by exact_mod_cast h1
      have h2' : x ≤ v.lb := by exact_mod_cast h2
      exact le_antisymm h2' h1'
  · have hf' : v.fixed = false := by simpa using hf
    constructor
    · intro h
      obtain ⟨h1, h2⟩ := h.2 hf'
      exact ⟨by exact_mod_cast h1, by exact_mod_cast h2⟩
    · rintro ⟨h1, h2⟩
      exact ⟨fun e => absurd e hf, fun _ => ⟨by exact_mod_cast h1, by exact_mod_cast h2⟩⟩

theorem holds_row {d : Doc} {so : VarId → VarSense} {x : RowKind × Name} (hx : x.1 ≠ .free) {c : Con} (h : ConImp d so x c)
    {σ : ℕ → ℤ} {val : Name → ℤ} (hn : Named (d.cols.map Prod.fst) σ val) :
    c.enabled = true ∧ (Holds c σ ↔ x.1.holds (d.rowValue x.2 val) (d.side x.2)) := by
  obtain ⟨ts, ht, rfl⟩ := h
  refine ⟨rfl, ?_⟩
  have hv : exprValue ((Expr.create ts 0).subValue (d.side x.2)) σ = d.rowValue x.2 val - d.side x.2 := by
    rw [← ht.value σ val hn]
    show (0 - d.side x.2) + (ts.map fun t => t.2 * (σ t.1 : ℚ)).sum = _
    ring
  show (cmpOf x.1.sense).holds (exprValue ((Expr.create ts 0).subValue (d.side x.2)) σ) 0 ↔ _
  rw [hv]
  rcases x with ⟨k, r⟩
  cases k with
  | free => exact absurd rfl hx
  | less => exact sub_nonpos
  | equal => exact sub_eq_zero
  | greater => exact sub_nonneg

end Printemps.MpsFile
