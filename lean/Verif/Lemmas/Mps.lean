import Verif.Model.Mps
import Verif.Lemmas.Assoc
import Verif.Lemmas.Text
import Verif.Lemmas.Sums
import Verif.Lemmas.Model
import Verif.Spec.Feasible

/-! # Reading back what the MPS writer writes -/

namespace Printemps.Mps
open Text Spec

/-! ## Lines and items -/

/-- The reader on lines that are already split into items. -/
def readItems : List (List Name) → St → Option File
  | [], _ => none
  | l :: ls, s =>
    if l = [kEndata] then some { s.file with vars := s.file.vars.map (fun e => (e.1, defaultBounds e.2)) }
    else (lineStep s l).bind (readItems ls)

theorem readLines_eq (ls : List (List Char)) (s : St) : readLines ls s = readItems (ls.map tokens) s := by
  induction ls generalizing s with
  | nil => rfl
  | cons l ls ih =>
    rw [readLines, List.map_cons, readItems]
    congr 2
    funext s
    exact ih s

/-- All steps of some lines. -/
def stepAll : List (List Name) → St → Option St
  | [], s => some s
  | l :: ls, s => (lineStep s l).bind (stepAll ls)

theorem stepAll_append (a b : List (List Name)) (s : St) : stepAll (a ++ b) s = (stepAll a s).bind (stepAll b) := by
  induction a generalizing s with
  | nil => rfl
  | cons l a ih =>
    rw [List.cons_append, stepAll, stepAll, Option.bind_assoc]
    congr 1
    funext s
    exact ih s

theorem readItems_append (a b : List (List Name)) (h : ∀ l ∈ a, l ≠ [kEndata]) (s : St) :
    readItems (a ++ b) s = (stepAll a s).bind (readItems b) := by
  induction a generalizing s with
  | nil => rfl
  | cons l a ih =>
    rw [List.cons_append, readItems, if_neg (h l (by simp)), stepAll, Option.bind_assoc]
    congr 1
    funext s
    exact ih (fun l hl => h l (by simp [hl])) s

theorem sp_space (n : ℕ) : ∀ c ∈ sp n, isSpace c = true := fun c hc => by
  rw [(List.mem_replicate.1 hc).2]; rfl

theorem sp_ne (n : ℕ) (h : n ≠ 0) : sp n ≠ [] := by
  unfold sp
  intro e
  exact h (by simpa using congrArg List.length e)

theorem tokens_sp (n : ℕ) (cs : List Char) : tokens (sp n ++ cs) = tokens cs := tokensFrom_spaces _ _ (sp_space n)

theorem tokens_word (w : List Char) (n : ℕ) (cs : List Char) (hw : Word w) (hn : n ≠ 0) :
    tokens (w ++ (sp n ++ cs)) = w :: tokens cs := tokensFrom_next _ _ _ hw (sp_space n) (sp_ne n hn)

theorem tokens_last (w : List Char) (hw : Word w) : tokens w = [w] := tokensFrom_last w hw

/-- A number that the writer prints exactly. -/
def Printed (q : ℚ) : Prop := Word (formatDouble q) ∧ atof (formatDouble q) = q

theorem printed_int (n : ℤ) (h : |n| < 1000000) : Printed n :=
  formatDouble_int n (by have := Int.abs_eq_natAbs n; omega)

instance (w : List Char) : Decidable (Word w) := by unfold Word; infer_instance
instance (q : ℚ) : Decidable (Printed q) := by unfold Printed; infer_instance

/-! ## The models that are written faithfully -/

/-- The coefficient of a variable in the objective as it is written. -/
def objOut (m : MState) (v : VarId) : ℚ := if m.isMin then m.objSens v else -m.objSens v

/-- The models that survive: all restrictions are about the format. -/
structure Writable (title : Name) (vname : VarId → Name) (cname : ConId → Name) (m : MState) : Prop where
  title : title = [] ∨ Word (deleteSpace title)
  varIds : m.varIds.Nodup
  conIds : m.conIds.Nodup
  vword : ∀ v ∈ m.varIds, Word (deleteSpace (vname v)) ∧ deleteSpace (vname v) ≠ kName
  cword : ∀ c ∈ m.conIds, Word (deleteSpace (cname c)) ∧ deleteSpace (cname c) ≠ kObj
  vinj : ∀ v ∈ m.varIds, ∀ w ∈ m.varIds, deleteSpace (vname v) = deleteSpace (vname w) → v = w
  cinj : ∀ c ∈ m.conIds, ∀ d ∈ m.conIds, deleteSpace (cname c) = deleteSpace (cname d) → c = d
  con : ∀ c ∈ m.conIds, ((m.con c).expr.terms.map Prod.fst).Nodup ∧ Printed (-(m.con c).expr.const) ∧
    ∀ t ∈ (m.con c).expr.terms, t.1 ∈ m.varIds ∧ |t.2| > EPSILON_10 ∧ Printed t.2
  obj : (m.obj.terms.map Prod.fst).Nodup ∧ ∀ t ∈ m.obj.terms, t.1 ∈ m.varIds ∧
    (t.2 = 0 ∨ (|t.2| > EPSILON_10 ∧ Printed t.2 ∧ Printed (-t.2)))
  /-- the sensitivities are those of the constraints, in any order -/
  sens : ∀ v ∈ m.varIds, (m.sens v).Perm (m.setupSens.sens v)
  objSens : ∀ v ∈ m.varIds, m.objSens v = Expr.lookup m.obj.terms v
  /-- every variable occurs somewhere -/
  occurs : ∀ v ∈ m.varIds, (∃ c ∈ m.conIds, v ∈ (m.con c).expr.terms.map Prod.fst) ∨ m.objSens v ≠ 0
  range : ∀ v ∈ m.varIds, -2147483648 ≤ (m.var v).lb ∧ (m.var v).lb ≤ (m.var v).ub ∧ (m.var v).ub ≤ 2147483647 ∧
    -2147483648 ≤ (m.var v).value ∧ (m.var v).value ≤ 2147483647
  /-- bounds that the format cannot express -/
  bounds : ∀ v ∈ m.varIds, (m.var v).fixed = false → (m.var v).lb ≠ INT_HALF_MIN ∧
    ¬ ((m.var v).lb = 0 ∧ (m.var v).ub = INT_HALF_MAX)

section
variable {title : Name} {vname : VarId → Name} {cname : ConId → Name} {m : MState}

/-- The letter of a sense. -/
def letter : Sense → Name
  | .equal => ['E'] | .less => ['L'] | .greater => ['G']

/-- The entries of a variable: objective first. -/
def entries (cname : ConId → Name) (m : MState) (v : VarId) : List (Name × ℚ) :=
  (if |m.objSens v| > EPSILON_10 then [(kObj, objOut m v)] else []) ++
  (m.sens v).map (fun s => (deleteSpace (cname s.1), s.2))

/-- The bound records of a variable. -/
def records (m : MState) (v : VarId) : List (Name × ℤ) :=
  if (m.var v).fixed then [(['F', 'X'], (m.var v).value)]
  else
    (if (m.var v).lb ≠ INT_HALF_MIN ∧ (m.var v).lb ≠ 0 then [(['L', 'O'], (m.var v).lb)] else []) ++
    (if (m.var v).ub ≠ INT_HALF_MAX then [(['U', 'P'], (m.var v).ub)] else [])

/-- The items of the written lines before `ENDATA`. -/
def items (title : Name) (vname : VarId → Name) (cname : ConId → Name) (m : MState) : List (List Name) :=
  [[kName, if title = [] then kUntitled else deleteSpace title], [kRows], [['N'], kObj]] ++
  (m.conIds.map (fun c => [letter (m.con c).sense, deleteSpace (cname c)]) ++
  ([[kColumns], [kMark0, kMarker, kIntOrg]] ++
  (m.varIds.flatMap (fun v => (entries cname m v).map (fun e => [deleteSpace (vname v), e.1, formatDouble e.2])) ++
  ([[kMark1, kMarker, kIntEnd], [kRhs]] ++
  (m.conIds.map (fun c => [['r', 'h', 's'], deleteSpace (cname c), formatDouble (-(m.con c).expr.const)]) ++
  ([[kBounds]] ++
  m.varIds.flatMap (fun v => (records m v).map (fun r => [r.1, ['b', 'n', 'd'], deleteSpace (vname v), intChars r.2]))))))))

theorem sens_mem (h : Writable title vname cname m) {v : VarId} (hv : v ∈ m.varIds) {s : ConId × ℚ} (hs : s ∈ m.sens v) :
    s.1 ∈ m.conIds ∧ v ∈ (m.con s.1).expr.terms.map Prod.fst ∧ s.2 = Expr.lookup (m.con s.1).expr.terms v ∧
    |s.2| > EPSILON_10 ∧ Printed s.2 := by
  have := (h.sens v hv).mem_iff.1 hs
  unfold MState.setupSens at this
  obtain ⟨c, hc, rfl⟩ := List.mem_map.1 this
  obtain ⟨h1, h2⟩ := List.mem_filter.1 hc
  have h2' : v ∈ (m.con c).expr.terms.map Prod.fst := of_decide_eq_true h2
  obtain ⟨t, ht, e⟩ := List.mem_map.1 h2'
  have e2 : Expr.lookup (m.con c).expr.terms v = t.2 := by
    subst e; exact Expr.lookup_of_mem _ (h.con c h1).1 t.1 t.2 ht
  refine ⟨h1, h2', rfl, ?_⟩
  show |Expr.lookup (m.con c).expr.terms v| > _ ∧ Printed (Expr.lookup (m.con c).expr.terms v)
  rw [e2]
  exact ((h.con c h1).2.2 t ht).2

theorem objOut_printed (h : Writable title vname cname m) {v : VarId} (hv : v ∈ m.varIds) (hs : m.objSens v ≠ 0) :
    |m.objSens v| > EPSILON_10 ∧ Printed (objOut m v) := by
  rw [h.objSens v hv] at hs
  unfold objOut
  rw [h.objSens v hv]
  by_cases hm : v ∈ m.obj.terms.map Prod.fst
  · obtain ⟨t, ht, e⟩ := List.mem_map.1 hm
    have e2 : Expr.lookup m.obj.terms v = t.2 := by
      subst e; exact Expr.lookup_of_mem _ h.obj.1 t.1 t.2 ht
    rw [e2] at hs ⊢
    rcases (h.obj.2 t ht).2 with h0 | ⟨h1, h2, h3⟩
    · exact absurd h0 hs
    · refine ⟨h1, ?_⟩
      split
      exacts [h2, h3]
  · exact absurd (Expr.lookup_of_not_mem _ _ hm) hs

theorem eps_pos : (0 : ℚ) < EPSILON_10 := by unfold EPSILON_10; norm_num

/-- All entries can be printed and are not dropped by the reader. -/
theorem entries_ok (h : Writable title vname cname m) {v : VarId} (hv : v ∈ m.varIds) {e : Name × ℚ}
    (he : e ∈ entries cname m v) : Word e.1 ∧ |e.2| > EPSILON_10 ∧ Printed e.2 := by
  unfold entries at he
  rcases List.mem_append.1 he with he | he
  · split at he
    · next h1 =>
      rw [List.mem_singleton] at he
      subst he
      have hne : m.objSens v ≠ 0 := fun e0 => by
        rw [e0, abs_zero] at h1; exact absurd h1 (not_lt.2 eps_pos.le)
      refine ⟨show Word kObj by decide, ?_, (objOut_printed h hv hne).2⟩
      show |objOut m v| > _
      unfold objOut
      split
      · exact h1
      · rw [abs_neg]; exact h1
    · simp at he
  · obtain ⟨s, hs, rfl⟩ := List.mem_map.1 he
    obtain ⟨h1, -, -, h4, h5⟩ := sens_mem h hv hs
    exact ⟨(h.cword _ h1).1, h4, h5⟩

theorem app_congr {α : Type} {a b c d : List α} (h1 : a = b) (h2 : c = d) : a ++ c = b ++ d := by rw [h1, h2]
theorem cons_congr {α : Type} {a b : α} {c d : List α} (h1 : a = b) (h2 : c = d) : a :: c = b :: d := by rw [h1, h2]

theorem tokens_writeMps (h : Writable title vname cname m) :
    (writeMps title vname cname m).map tokens = items title vname cname m ++ [[kEndata]] := by
  unfold writeMps items
  simp only [List.map_append, List.append_assoc, List.map_cons, List.map_nil, List.map_map, List.map_flatMap]
  refine app_congr ?_ ?_
  · refine cons_congr ?_ ?_
    · rw [tokens_word kName 1 _ (by decide) (by decide), tokens_last]
      split
      · decide
      · next ht => exact (h.title.resolve_left ht)
    · rw [tokens_last kRows (by decide), tokens_sp, tokens_word _ 4 _ (by decide) (by decide), tokens_last _ (by decide)]
  refine app_congr ?_ ?_
  · refine List.map_congr_left fun c hc => ?_
    show tokens (rowLine _ _) = _
    unfold rowLine
    rw [tokens_sp, tokens_word _ 4 _ (by cases (m.con c).sense <;> decide) (by decide), tokens_last _ (h.cword c hc).1]
    cases (m.con c).sense <;> rfl
  refine app_congr ?_ ?_
  · rw [tokens_last kColumns (by decide), tokens_sp, tokens_word _ 4 _ (by decide) (by decide),
      tokens_word _ 4 _ (by decide) (by decide), tokens_last _ (by decide)]
  refine app_congr ?_ ?_
  · have : ∀ l : List ℕ, (∀ v ∈ l, v ∈ m.varIds) → l.flatMap (fun v => (columnLines vname cname m v).map tokens) =
        l.flatMap (fun v => (entries cname m v).map (fun e => [deleteSpace (vname v), e.1, formatDouble e.2])) := by
      intro l hl
      induction l with
      | nil => rfl
      | cons v l ih =>
        rw [List.flatMap_cons, List.flatMap_cons, ih (fun w hw => hl w (by simp [hw]))]
        congr 1
        have hv := hl v (by simp)
        have hw := (h.vword v hv).1
        unfold columnLines entries
        rw [List.map_append, List.map_append, List.map_map, List.map_map]
        congr 1
        · split
          · next h1 =>
            have ho := entries_ok h hv (e := (kObj, objOut m v)) (by unfold entries; rw [if_pos h1]; simp)
            have ho' : Word (formatDouble (if m.isMin then m.objSens v else -m.objSens v)) := ho.2.2.1
            rw [List.map_singleton, List.map_singleton, tokens_sp, tokens_word _ 5 _ hw (by decide),
              tokens_word _ 4 _ (by decide) (by decide), tokens_last _ ho']
            rfl
          · rfl
        · refine List.map_congr_left fun s hs => ?_
          obtain ⟨h1, -, -, h4, h5⟩ := sens_mem h hv hs
          show tokens (sp 4 ++ _) = _
          rw [tokens_sp, tokens_word _ 4 _ hw (by decide), tokens_word _ 4 _ (h.cword _ h1).1 (by decide),
            tokens_last _ h5.1]
          rfl
    exact this _ (fun _ h => h)
  refine app_congr ?_ ?_
  · rw [tokens_last kRhs (by decide), tokens_sp, tokens_word _ 4 _ (by decide) (by decide),
      tokens_word _ 4 _ (by decide) (by decide), tokens_last _ (by decide)]
  refine app_congr ?_ ?_
  · refine List.map_congr_left fun c hc => ?_
    show tokens (rhsLine cname m c) = _
    unfold rhsLine
    rw [tokens_sp, tokens_word _ 4 _ (by decide) (by decide), tokens_word _ 4 _ (h.cword c hc).1 (by decide),
      tokens_last _ (h.con c hc).2.1.1]
  refine app_congr ?_ ?_
  · rw [tokens_last kBounds (by decide)]
  refine app_congr ?_ ?_
  · have hb : ∀ (k n : Name) (g : ℕ) (x : ℤ), Word k → Word (deleteSpace n) → g ≠ 0 →
        tokens (boundLine k g n x) = [k, ['b', 'n', 'd'], deleteSpace n, intChars x] := by
      intro k n g x hk hn hg
      unfold boundLine
      rw [tokens_sp, tokens_word _ 4 _ hk (by decide), tokens_word _ 4 _ (by decide) (by decide),
        tokens_word _ g _ hn hg, tokens_last _ (intChars_word x)]
    have : ∀ l : List ℕ, (∀ v ∈ l, v ∈ m.varIds) → l.flatMap (fun v => (boundLines vname m v).map tokens) =
        l.flatMap (fun v => (records m v).map (fun r => [r.1, ['b', 'n', 'd'], deleteSpace (vname v), intChars r.2])) := by
      intro l hl
      induction l with
      | nil => rfl
      | cons v l ih =>
        rw [List.flatMap_cons, List.flatMap_cons, ih (fun w hw => hl w (by simp [hw]))]
        congr 1
        have hw := (h.vword v (hl v (by simp))).1
        unfold boundLines records
        split
        · rw [List.map_singleton, List.map_singleton, hb _ _ _ _ (by decide) hw (by decide)]
        · rw [List.map_append, List.map_append]
          congr 1
          · split
            · rw [List.map_singleton, List.map_singleton, hb _ _ _ _ (by decide) hw (by decide)]
            · rfl
          · split
            · rw [List.map_singleton, List.map_singleton, hb _ _ _ _ (by decide) hw (by decide)]
            · rfl
    exact this _ (fun _ h => h)
  · rw [tokens_last kEndata (by decide)]

theorem items_ne : ∀ l ∈ items title vname cname m, l ≠ [kEndata] := by
  intro l hl e
  subst e
  unfold items at hl
  simp [kEndata, kRows, kColumns, kRhs, kBounds] at hl

/-! ## The sections -/

/-- A file in the shape in which the reader keeps it while reading what the writer wrote. -/
def shape (t : Name) (cname : ConId → Name) (m : MState) (g : ConId → Assoc Name ℚ) (r : ConId → ℚ) (o : Assoc Name ℚ)
    (vs : Assoc Name MVar) (ns : List Name) : File :=
  { name := t, vars := vs, cons := m.conIds.map (fun c => (deleteSpace (cname c), ⟨(m.con c).sense, g c, r c⟩)),
    objName := kObj, objCoef := o, varNames := ns, conNames := m.conIds.map (fun c => deleteSpace (cname c)) }

theorem shape_congr {t : Name} {g g' : ConId → Assoc Name ℚ} {r r' : ConId → ℚ} {o : Assoc Name ℚ}
    {vs : Assoc Name MVar} {ns : List Name} (hg : ∀ c ∈ m.conIds, g c = g' c) (hr : ∀ c ∈ m.conIds, r c = r' c) :
    shape t cname m g r o vs ns = shape t cname m g' r' o vs ns := by
  unfold shape
  congr 1
  exact List.map_congr_left fun c hc => by rw [hg c hc, hr c hc]

/-- A line of at least two items whose first item is not `NAME` is handed to the current section. -/
theorem lineStep_section (s : St) (k a : Name) (rest : List Name) (hk : k ≠ kName) :
    lineStep s (k :: a :: rest) = sectionStep s (k :: a :: rest) := by
  unfold lineStep
  simp [hk]

/-- The ROWS section. -/
theorem rows_run (h : Writable title vname cname m) (f : File) (i : Bool) (l done : List ConId)
    (hl : done ++ l = m.conIds)
    (hf : f.cons = done.map (fun c => (deleteSpace (cname c), (⟨(m.con c).sense, [], 0⟩ : MCon)))) :
    stepAll (l.map (fun c => [letter (m.con c).sense, deleteSpace (cname c)])) ⟨f, .rows, i⟩ =
      some ⟨{ f with cons := m.conIds.map (fun c => (deleteSpace (cname c), (⟨(m.con c).sense, [], 0⟩ : MCon))),
                     conNames := f.conNames ++ l.map (fun c => deleteSpace (cname c)) }, .rows, i⟩ := by
  induction l generalizing f done with
  | nil =>
    rw [List.append_nil] at hl
    subst hl
    rw [← hf]
    simp [stepAll]
  | cons c l ih =>
    have hc : c ∈ m.conIds := by rw [← hl]; simp
    have hnew : deleteSpace (cname c) ∉ f.cons.map Prod.fst := by
      rw [hf, List.map_map]
      intro hm
      obtain ⟨d, hd, e⟩ := List.mem_map.1 hm
      have hd' : d ∈ m.conIds := by rw [← hl]; simp [hd]
      have : d = c := h.cinj d hd' c hc e
      subst this
      have := h.conIds
      rw [← hl] at this
      exact (List.nodup_append.1 this).2.2 d hd d (by simp) rfl
    have step : lineStep ⟨f, .rows, i⟩ [letter (m.con c).sense, deleteSpace (cname c)] =
        some ⟨addRow f (m.con c).sense (deleteSpace (cname c)), .rows, i⟩ := by
      rw [lineStep_section _ _ _ _ (by cases (m.con c).sense <;> decide)]
      unfold sectionStep rowsStep
      cases (m.con c).sense <;> simp [letter]
    rw [List.map_cons, stepAll, step, Option.bind_some]
    have e : (addRow f (m.con c).sense (deleteSpace (cname c))).cons =
        (done ++ [c]).map (fun c => (deleteSpace (cname c), (⟨(m.con c).sense, [], 0⟩ : MCon))) := by
      unfold addRow Assoc.modify
      dsimp only
      rw [(Assoc.get_none_iff _ _).2 hnew, Assoc.put_new _ _ _ hnew, hf, List.map_append]
      rfl
    rw [ih _ (done ++ [c]) (by rw [← hl]; simp) e]
    simp [addRow]

/-- A coefficient text is not one of the markers. -/
theorem text_ne (q : ℚ) (hp : Printed q) (hq : |q| > EPSILON_10) : formatDouble q ≠ kIntOrg ∧ formatDouble q ≠ kIntEnd := by
  have h0 : q ≠ 0 := fun e => by rw [e, abs_zero] at hq; exact absurd hq (not_lt.2 eps_pos.le)
  constructor
  · intro e
    have := hp.2
    rw [e] at this
    exact h0 (this.symm.trans (by decide +kernel))
  · intro e
    have := hp.2
    rw [e] at this
    exact h0 (this.symm.trans (by decide +kernel))

/-- One line of the COLUMNS section. -/
theorem column_step (s : St) (hm : s.mode = .columns) (n a : Name) (q : ℚ) (hn : n ≠ kName) (hp : Printed q) (hq : |q| > EPSILON_10) :
    lineStep s [n, a, formatDouble q] =
      (addEntry n s.file (a, formatDouble q)).map (fun f => { s with file := addVar s.integer n f }) := by
  rw [lineStep_section _ _ _ _ hn]
  unfold sectionStep
  rw [hm]
  dsimp only
  unfold columnsStep
  dsimp only
  rw [if_neg (text_ne q hp hq).1, if_neg (text_ne q hp hq).2]
  show ((((addEntry n s.file (a, formatDouble q)).bind (addEntries n []))).map _).map _ = _
  cases addEntry n s.file (a, formatDouble q) with
  | none => rfl
  | some f => rfl

theorem addEntry_obj (t : Name) (g : ConId → Assoc Name ℚ) (r : ConId → ℚ) (o : Assoc Name ℚ) (vs : Assoc Name MVar)
    (ns : List Name) (n : Name) (q : ℚ) (hp : Printed q) (hq : |q| > EPSILON_10) :
    addEntry n (shape t cname m g r o vs ns) (kObj, formatDouble q) = some (shape t cname m g r (o.put n q) vs ns) := by
  unfold addEntry
  rw [hp.2]
  dsimp only
  rw [if_pos hq]
  unfold shape
  rw [if_pos rfl]

theorem addEntry_con (h : Writable title vname cname m) (t : Name) (g : ConId → Assoc Name ℚ) (r : ConId → ℚ)
    (o : Assoc Name ℚ) (vs : Assoc Name MVar) (ns : List Name) (n : Name) (c : ConId) (hc : c ∈ m.conIds) (q : ℚ)
    (hp : Printed q) (hq : |q| > EPSILON_10) :
    addEntry n (shape t cname m g r o vs ns) (deleteSpace (cname c), formatDouble q) =
      some (shape t cname m (fun d => if d = c then (g d).put n q else g d) r o vs ns) := by
  unfold addEntry
  rw [hp.2]
  dsimp only
  rw [if_pos hq, if_neg (show ¬ deleteSpace (cname c) = (shape t cname m g r o vs ns).objName from (h.cword c hc).2)]
  unfold shape
  dsimp only
  rw [Assoc.get_mapped m.conIds (fun c => deleteSpace (cname c)) (fun c => (⟨(m.con c).sense, g c, r c⟩ : MCon)) h.cinj c hc]
  dsimp only
  rw [Assoc.put_mapped m.conIds h.conIds (fun c => deleteSpace (cname c)) (fun c => (⟨(m.con c).sense, g c, r c⟩ : MCon)) h.cinj c hc]
  congr 2
  refine List.map_congr_left fun d _ => ?_
  by_cases e : d = c
  · subst e; simp
  · simp [e]

/-- The variable table after a line for `n`. -/
def withVar (n : Name) (vs : Assoc Name MVar) : Assoc Name MVar :=
  match vs.get n with | some _ => vs | none => vs.put n { integer := true }
/-- The variable names after a line for `n`. -/
def withName (n : Name) (vs : Assoc Name MVar) (ns : List Name) : List Name :=
  match vs.get n with | some _ => ns | none => ns ++ [n]

theorem addVar_shape (t : Name) (g : ConId → Assoc Name ℚ) (r : ConId → ℚ) (o : Assoc Name ℚ) (vs : Assoc Name MVar)
    (ns : List Name) (n : Name) :
    addVar true n (shape t cname m g r o vs ns) = shape t cname m g r o (withVar n vs) (withName n vs ns) := by
  unfold addVar withVar withName shape
  dsimp only
  cases vs.get n <;> rfl

theorem withVar_get (n : Name) (vs : Assoc Name MVar) : ∃ x, (withVar n vs).get n = some x := by
  unfold withVar
  cases e : vs.get n with
  | some x => exact ⟨x, e⟩
  | none => exact ⟨_, by rw [Assoc.get_put, if_pos rfl]⟩

/-- The lines of the constraints of one variable, once the variable exists. -/
theorem sens_run (h : Writable title vname cname m) (t : Name) (r : ConId → ℚ) (o : Assoc Name ℚ)
    (vs : Assoc Name MVar) (ns : List Name) (v : VarId) (hv : v ∈ m.varIds) (hx : ∃ x, vs.get (deleteSpace (vname v)) = some x)
    (L : List (ConId × ℚ)) (hL : (L.map Prod.fst).Nodup) (hmem : ∀ s ∈ L, s ∈ m.sens v) (g : ConId → Assoc Name ℚ) :
    stepAll (L.map (fun s => [deleteSpace (vname v), deleteSpace (cname s.1), formatDouble s.2]))
      ⟨shape t cname m g r o vs ns, .columns, true⟩ =
    some ⟨shape t cname m (fun c => if c ∈ L.map Prod.fst then (g c).put (deleteSpace (vname v)) (Expr.lookup L c) else g c)
      r o vs ns, .columns, true⟩ := by
  induction L generalizing g with
  | nil => simp [stepAll]
  | cons s L ih =>
    obtain ⟨h1, -, -, h4, h5⟩ := sens_mem h hv (hmem s (by simp))
    rw [List.map_cons, List.nodup_cons] at hL
    rw [List.map_cons, stepAll, column_step _ rfl _ _ _ (h.vword v hv).2 h5 h4, addEntry_con h _ _ _ _ _ _ _ _ h1 _ h5 h4,
      Option.map_some, Option.bind_some]
    dsimp only
    rw [addVar_shape]
    obtain ⟨x, hx⟩ := hx
    rw [show withVar (deleteSpace (vname v)) vs = vs by unfold withVar; rw [hx],
      show withName (deleteSpace (vname v)) vs ns = ns by unfold withName; rw [hx],
      ih hL.2 (fun s hs => hmem s (by simp [hs]))]
    congr 2
    refine shape_congr (fun c _ => ?_) (fun _ _ => rfl)
    obtain ⟨s1, s2⟩ := s
    dsimp only
    by_cases e : c = s1
    · subst e
      rw [if_neg hL.1, if_pos rfl, if_pos (by simp)]
      simp [Expr.lookup]
    · by_cases e2 : c ∈ L.map Prod.fst
      · rw [if_pos e2, if_neg e, if_pos (by rw [List.map_cons]; exact List.mem_cons_of_mem _ e2), Expr.lookup, if_neg (Ne.symm e)]
      · rw [if_neg e2, if_neg e, if_neg (by rw [List.map_cons, List.mem_cons]; exact fun h => h.elim e e2)]

/-- The coefficients of constraint `c` after the variables `done`. -/
def coefOf (vname : VarId → Name) (m : MState) (done : List VarId) (c : ConId) : Assoc Name ℚ :=
  (done.filter (fun v => v ∈ (m.con c).expr.terms.map Prod.fst)).map
    (fun v => (deleteSpace (vname v), Expr.lookup (m.con c).expr.terms v))
/-- The coefficients of the objective after the variables `done`. -/
def objOf (vname : VarId → Name) (m : MState) (done : List VarId) : Assoc Name ℚ :=
  (done.filter (fun v => |m.objSens v| > EPSILON_10)).map (fun v => (deleteSpace (vname v), objOut m v))

/-- The first line of a variable behaves like the others, except that it creates the variable. -/
theorem entries_run (h : Writable title vname cname m) (t : Name) (r : ConId → ℚ) (g : ConId → Assoc Name ℚ) (o : Assoc Name ℚ)
    (vs : Assoc Name MVar) (ns : List Name) (v : VarId) (hv : v ∈ m.varIds) (hnew : deleteSpace (vname v) ∉ vs.map Prod.fst) :
    stepAll ((entries cname m v).map (fun e => [deleteSpace (vname v), e.1, formatDouble e.2]))
      ⟨shape t cname m g r o vs ns, .columns, true⟩ =
    some ⟨shape t cname m
      (fun c => if c ∈ (m.sens v).map Prod.fst then (g c).put (deleteSpace (vname v)) (Expr.lookup (m.sens v) c) else g c) r
      (if |m.objSens v| > EPSILON_10 then o.put (deleteSpace (vname v)) (objOut m v) else o)
      (vs ++ [(deleteSpace (vname v), { integer := true })]) (ns ++ [deleteSpace (vname v)]), .columns, true⟩ := by
  have hnone := (Assoc.get_none_iff vs _).2 hnew
  have hV : withVar (deleteSpace (vname v)) vs = vs ++ [(deleteSpace (vname v), { integer := true })] := by
    unfold withVar; rw [hnone]; exact Assoc.put_new _ _ _ hnew
  have hN : withName (deleteSpace (vname v)) vs ns = ns ++ [deleteSpace (vname v)] := by
    unfold withName; rw [hnone]
  have hx : ∃ x, (vs ++ [(deleteSpace (vname v), ({ integer := true } : MVar))]).get (deleteSpace (vname v)) = some x := by
    rw [← hV]; exact withVar_get _ _
  have hnd : ((m.sens v).map Prod.fst).Nodup := by
    refine (((h.sens v hv).map Prod.fst).nodup_iff).2 ?_
    unfold MState.setupSens
    dsimp only
    rw [List.map_map]
    exact (h.conIds.filter _).map_on (fun _ _ _ _ e => e)
  unfold entries
  rw [List.map_append, List.map_map]
  by_cases ho : |m.objSens v| > EPSILON_10
  · obtain ⟨-, e2, e3⟩ := entries_ok h hv (e := (kObj, objOut m v)) (by unfold entries; rw [if_pos ho]; simp)
    rw [if_pos ho, if_pos ho, List.map_singleton, List.singleton_append, stepAll,
      column_step _ rfl _ _ _ (h.vword v hv).2 e3 e2, addEntry_obj _ _ _ _ _ _ _ _ e3 e2, Option.map_some, Option.bind_some]
    dsimp only
    rw [addVar_shape, hV, hN]
    exact sens_run h t r _ _ _ v hv hx (m.sens v) hnd (fun _ h => h) g
  · rw [if_neg ho, if_neg ho, List.map_nil, List.nil_append]
    cases hs : m.sens v with
    | nil =>
      exfalso
      rcases h.occurs v hv with ⟨c, hc, hvc⟩ | h0
      · have : (c, Expr.lookup (m.con c).expr.terms v) ∈ m.setupSens.sens v := by
          unfold MState.setupSens
          exact List.mem_map.2 ⟨c, List.mem_filter.2 ⟨hc, decide_eq_true hvc⟩, rfl⟩
        have := (h.sens v hv).mem_iff.2 this
        rw [hs] at this
        simp at this
      · exact ho (objOut_printed h hv h0).1
    | cons s L =>
      have hsv : s ∈ m.sens v := by rw [hs]; simp
      obtain ⟨h1, -, -, h4, h5⟩ := sens_mem h hv hsv
      rw [hs] at hnd
      rw [List.map_cons, List.nodup_cons] at hnd
      rw [List.map_cons, stepAll]
      show ((lineStep _ [deleteSpace (vname v), deleteSpace (cname s.1), formatDouble s.2]).bind _) = _
      rw [column_step _ rfl _ _ _ (h.vword v hv).2 h5 h4, addEntry_con h _ _ _ _ _ _ _ _ h1 _ h5 h4,
        Option.map_some, Option.bind_some]
      dsimp only
      rw [addVar_shape, hV, hN]
      refine (sens_run h t r _ _ _ v hv hx L hnd.2 (fun s' h' => by rw [hs]; simp [h']) _).trans ?_
      congr 2
      refine shape_congr (fun c _ => ?_) (fun _ _ => rfl)
      obtain ⟨s1, s2⟩ := s
      dsimp only
      by_cases e : c = s1
      · subst e
        rw [if_neg hnd.1, if_pos rfl, if_pos (by simp)]
        simp [Expr.lookup]
      · by_cases e2 : c ∈ L.map Prod.fst
        · rw [if_pos e2, if_neg e, if_pos (by rw [List.map_cons]; exact List.mem_cons_of_mem _ e2), Expr.lookup, if_neg (Ne.symm e)]
        · rw [if_neg e2, if_neg e, if_neg (by rw [List.map_cons, List.mem_cons]; exact fun h => h.elim e e2)]

/-- The COLUMNS section. -/
theorem columns_run (h : Writable title vname cname m) (t : Name) (r : ConId → ℚ) (l done : List VarId)
    (hl : done ++ l = m.varIds) :
    stepAll (l.flatMap (fun v => (entries cname m v).map (fun e => [deleteSpace (vname v), e.1, formatDouble e.2])))
      ⟨shape t cname m (coefOf vname m done) r (objOf vname m done)
        (done.map (fun v => (deleteSpace (vname v), { integer := true }))) (done.map (fun v => deleteSpace (vname v))), .columns, true⟩ =
    some ⟨shape t cname m (coefOf vname m m.varIds) r (objOf vname m m.varIds)
        (m.varIds.map (fun v => (deleteSpace (vname v), { integer := true }))) (m.varIds.map (fun v => deleteSpace (vname v))),
        .columns, true⟩ := by
  induction l generalizing done with
  | nil =>
    rw [List.append_nil] at hl
    subst hl
    rfl
  | cons v l ih =>
    have hv : v ∈ m.varIds := by rw [← hl]; simp
    have hdone : ∀ w ∈ done, deleteSpace (vname w) ≠ deleteSpace (vname v) := by
      intro w hw e
      have hw' : w ∈ m.varIds := by rw [← hl]; simp [hw]
      have : w = v := h.vinj w hw' v hv e
      subst this
      have := h.varIds
      rw [← hl] at this
      exact (List.nodup_append.1 this).2.2 w hw w (by simp) rfl
    have hnew : ∀ (p : VarId → Bool) (β : Type) (q : VarId → β),
        deleteSpace (vname v) ∉ ((done.filter p).map (fun v => (deleteSpace (vname v), q v))).map Prod.fst := by
      intro p β q hm
      rw [List.map_map] at hm
      obtain ⟨w, hw, e⟩ := List.mem_map.1 hm
      exact hdone w (List.mem_filter.1 hw).1 e
    have hnewV : deleteSpace (vname v) ∉ (done.map (fun v => (deleteSpace (vname v), ({ integer := true } : MVar)))).map Prod.fst := by
      intro hm
      rw [List.map_map] at hm
      obtain ⟨w, hw, e⟩ := List.mem_map.1 hm
      exact hdone w hw e
    rw [List.flatMap_cons, stepAll_append, entries_run h _ _ _ _ _ _ v hv hnewV, Option.bind_some]
    refine Eq.trans ?_ (ih (done ++ [v]) (by rw [← hl]; simp))
    congr 2
    rw [List.map_append, List.map_append]
    have eo : (if |m.objSens v| > EPSILON_10 then (objOf vname m done).put (deleteSpace (vname v)) (objOut m v) else objOf vname m done) =
        objOf vname m (done ++ [v]) := by
      unfold objOf
      rw [List.filter_append, List.map_append]
      split
      · next h1 => rw [Assoc.put_new _ _ _ (hnew _ _ _)]; simp [h1]
      · next h1 => simp [h1]
    rw [eo]
    refine shape_congr (fun c hc => ?_) (fun _ _ => rfl)
    unfold coefOf
    rw [List.filter_append, List.map_append]
    have hiff : c ∈ (m.sens v).map Prod.fst ↔ v ∈ (m.con c).expr.terms.map Prod.fst := by
      constructor
      · intro hm
        obtain ⟨s, hs, e⟩ := List.mem_map.1 hm
        have := (sens_mem h hv hs).2.1
        rw [e] at this
        exact this
      · intro hm
        refine List.mem_map.2 ⟨(c, Expr.lookup (m.con c).expr.terms v), (h.sens v hv).mem_iff.2 ?_, rfl⟩
        unfold MState.setupSens
        exact List.mem_map.2 ⟨c, List.mem_filter.2 ⟨hc, decide_eq_true hm⟩, rfl⟩
    by_cases e : v ∈ (m.con c).expr.terms.map Prod.fst
    · have hcs := hiff.2 e
      rw [if_pos hcs, Assoc.put_new _ _ _ (hnew _ _ _)]
      congr 1
      have hnd : ((m.sens v).map Prod.fst).Nodup := by
        refine (((h.sens v hv).map Prod.fst).nodup_iff).2 ?_
        unfold MState.setupSens
        dsimp only
        rw [List.map_map]
        exact (h.conIds.filter _).map_on (fun _ _ _ _ e => e)
      obtain ⟨s, hs, e1⟩ := List.mem_map.1 hcs
      have h3 := (sens_mem h hv hs).2.2.1
      obtain ⟨s1, s2⟩ := s
      dsimp only at e1 h3
      subst e1
      rw [Expr.lookup_of_mem _ hnd s1 s2 hs, h3, List.filter_singleton]
      simp only [e, decide_true, cond_true, List.map_singleton]
    · rw [if_neg (fun h => e (hiff.1 h)), List.filter_singleton]
      simp [e]

/-- The RHS section. -/
theorem rhs_run (h : Writable title vname cname m) (t : Name) (g : ConId → Assoc Name ℚ) (o : Assoc Name ℚ)
    (vs : Assoc Name MVar) (ns : List Name) (l done : List ConId) (hl : done ++ l = m.conIds) :
    stepAll (l.map (fun c => [['r', 'h', 's'], deleteSpace (cname c), formatDouble (-(m.con c).expr.const)]))
      ⟨shape t cname m g (fun c => if c ∈ done then -(m.con c).expr.const else 0) o vs ns, .rhs, false⟩ =
    some ⟨shape t cname m g (fun c => -(m.con c).expr.const) o vs ns, .rhs, false⟩ := by
  induction l generalizing done with
  | nil =>
    rw [List.append_nil] at hl
    subst hl
    rw [List.map_nil, stepAll]
    congr 2
    exact shape_congr (fun _ _ => rfl) (fun c hc => if_pos hc)
  | cons c l ih =>
    have hc : c ∈ m.conIds := by rw [← hl]; simp
    have step : lineStep ⟨shape t cname m g (fun c => if c ∈ done then -(m.con c).expr.const else 0) o vs ns, .rhs, false⟩
        [['r', 'h', 's'], deleteSpace (cname c), formatDouble (-(m.con c).expr.const)] =
        some ⟨shape t cname m g (fun d => if d ∈ done ++ [c] then -(m.con d).expr.const else 0) o vs ns, .rhs, false⟩ := by
      rw [lineStep_section _ _ _ _ (by decide)]
      unfold sectionStep rhsStep
      simp only [pairs, List.foldl_cons, List.foldl_nil, Option.map_some]
      congr 2
      rw [(h.con c hc).2.1.2]
      unfold shape
      dsimp only
      rw [Assoc.modify_mapped m.conIds h.conIds (fun c => deleteSpace (cname c)) _ h.cinj c hc]
      congr 1
      refine List.map_congr_left fun d _ => ?_
      by_cases e : d = c
      · subst e; simp
      · simp [e]
    rw [List.map_cons, stepAll]
    rw [step, Option.bind_some]
    exact ih (done ++ [c]) (by rw [← hl]; simp)

/-- A variable after its bound records. -/
def bounded (x : Var) : MVar :=
  if x.fixed then { integer := true, boundDefined := true, fixed := true, fixedValue := x.value, lb := x.value, ub := x.value }
  else { integer := true, boundDefined := true, lb := x.lb, ub := x.ub }

theorem bound_step (h : Writable title vname cname m) (t : Name) (g : ConId → Assoc Name ℚ) (r : ConId → ℚ)
    (o : Assoc Name ℚ) (b : VarId → MVar) (ns : List Name) (v : VarId) (hv : v ∈ m.varIds) (k : Name) (x : ℤ) (hk : k ≠ kName)
    (h1 : -2147483648 ≤ x) (h2 : x ≤ 2147483647) :
    lineStep ⟨shape t cname m g r o (m.varIds.map (fun v => (deleteSpace (vname v), b v))) ns, .bounds, false⟩
      [k, ['b', 'n', 'd'], deleteSpace (vname v), intChars x] =
    some ⟨shape t cname m g r o (m.varIds.map (fun w => (deleteSpace (vname w), if w = v then boundValue k x (b v) else b w))) ns,
      .bounds, false⟩ := by
  rw [lineStep_section _ _ _ _ hk]
  unfold sectionStep boundsStep shape
  dsimp only
  rw [Assoc.get_mapped m.varIds (fun v => deleteSpace (vname v)) b h.vinj v hv]
  dsimp only
  rw [atof_intChars, toInt_int x h1 h2, Option.map_some, Option.map_some,
    Assoc.put_mapped m.varIds h.varIds (fun v => deleteSpace (vname v)) b h.vinj v hv]

theorem records_run (h : Writable title vname cname m) (t : Name) (g : ConId → Assoc Name ℚ) (r : ConId → ℚ)
    (o : Assoc Name ℚ) (b : VarId → MVar) (ns : List Name) (v : VarId) (hv : v ∈ m.varIds) (hb : b v = { integer := true }) :
    stepAll ((records m v).map (fun r => [r.1, ['b', 'n', 'd'], deleteSpace (vname v), intChars r.2]))
      ⟨shape t cname m g r o (m.varIds.map (fun v => (deleteSpace (vname v), b v))) ns, .bounds, false⟩ =
    some ⟨shape t cname m g r o (m.varIds.map (fun w => (deleteSpace (vname w), if w = v then bounded (m.var v) else b w))) ns,
      .bounds, false⟩ := by
  obtain ⟨r1, r2, r3, r4, r5⟩ := h.range v hv
  unfold records bounded
  by_cases hf : (m.var v).fixed = true
  · rw [if_pos hf, if_pos hf, List.map_singleton, stepAll, bound_step h _ _ _ _ _ _ v hv _ _ (show (['F', 'X'] : Name) ≠ kName by decide) r4 r5, Option.bind_some,
      stepAll, hb]
    rfl
  · rw [if_neg hf, if_neg hf, List.map_append]
    obtain ⟨b1, b2⟩ := h.bounds v hv (by simpa using hf)
    by_cases hl : (m.var v).lb = 0
    · have hu : (m.var v).ub ≠ INT_HALF_MAX := fun e => b2 ⟨hl, e⟩
      rw [if_neg (fun hc => hc.2 hl), if_pos hu, List.map_nil, List.nil_append, List.map_singleton, stepAll,
        bound_step h _ _ _ _ _ _ v hv _ _ (show (['U', 'P'] : Name) ≠ kName by decide) (by omega) r3, Option.bind_some, stepAll, hb, hl]
      rfl
    · rw [if_pos ⟨b1, hl⟩, List.map_singleton, List.singleton_append, stepAll,
        bound_step h _ _ _ _ _ _ v hv _ _ (show (['L', 'O'] : Name) ≠ kName by decide) r1 (by omega), Option.bind_some]
      by_cases hu : (m.var v).ub = INT_HALF_MAX
      · rw [if_neg (not_not.2 hu), List.map_nil, stepAll, hb, hu]
        rfl
      · rw [if_pos hu, List.map_singleton, stepAll]
        rw [bound_step h _ _ _ _ (fun w => if w = v then boundValue ['L', 'O'] (m.var v).lb (b v) else b w) _ v hv _ _ (show (['U', 'P'] : Name) ≠ kName by decide) (by omega) r3,
          Option.bind_some, stepAll, if_pos rfl, hb]
        congr 4
        refine funext fun w => ?_
        by_cases e : w = v
        · rw [if_pos e, if_pos e]; rfl
        · rw [if_neg e, if_neg e, if_neg e]

/-- The BOUNDS section. -/
theorem bounds_run (h : Writable title vname cname m) (t : Name) (g : ConId → Assoc Name ℚ) (r : ConId → ℚ)
    (o : Assoc Name ℚ) (ns : List Name) (l done : List VarId) (hl : done ++ l = m.varIds) :
    stepAll (l.flatMap (fun v => (records m v).map (fun r => [r.1, ['b', 'n', 'd'], deleteSpace (vname v), intChars r.2])))
      ⟨shape t cname m g r o (m.varIds.map (fun v => (deleteSpace (vname v),
        if v ∈ done then bounded (m.var v) else { integer := true }))) ns, .bounds, false⟩ =
    some ⟨shape t cname m g r o (m.varIds.map (fun v => (deleteSpace (vname v), bounded (m.var v)))) ns, .bounds, false⟩ := by
  induction l generalizing done with
  | nil =>
    rw [List.append_nil] at hl
    subst hl
    rw [List.flatMap_nil, stepAll]
    congr 3
    exact List.map_congr_left fun v hv => by rw [if_pos hv]
  | cons v l ih =>
    have hv : v ∈ m.varIds := by rw [← hl]; simp
    have hnd : v ∉ done := fun hd => by
      have := h.varIds
      rw [← hl] at this
      exact (List.nodup_append.1 this).2.2 v hd v (by simp) rfl
    rw [List.flatMap_cons, stepAll_append,
      records_run h _ _ _ _ (fun v => if v ∈ done then bounded (m.var v) else { integer := true }) _ v hv (if_neg hnd), Option.bind_some]
    refine Eq.trans ?_ (ih (done ++ [v]) (by rw [← hl]; simp))
    congr 4
    refine funext fun w => ?_
    by_cases e : w = v
    · subst e; simp
    · simp [e]

/-- The file that the reader builds from what the writer wrote. -/
def fileOf (title : Name) (vname : VarId → Name) (cname : ConId → Name) (m : MState) : File :=
  shape (if title = [] then kUntitled else deleteSpace title) cname m (coefOf vname m m.varIds) (fun c => -(m.con c).expr.const)
    (objOf vname m m.varIds) (m.varIds.map (fun v => (deleteSpace (vname v), bounded (m.var v))))
    (m.varIds.map (fun v => deleteSpace (vname v)))

theorem items_run (h : Writable title vname cname m) :
    stepAll (items title vname cname m) ⟨{}, .initial, false⟩ = some ⟨fileOf title vname cname m, .bounds, false⟩ := by
  have start : stepAll [[kName, if title = [] then kUntitled else deleteSpace title], [kRows], [['N'], kObj]] ⟨{}, .initial, false⟩ =
      some ⟨{ name := if title = [] then kUntitled else deleteSpace title, objName := kObj }, .rows, false⟩ := rfl
  unfold items
  rw [stepAll_append, start, Option.bind_some, stepAll_append, rows_run h _ _ m.conIds [] rfl rfl, Option.bind_some, stepAll_append]
  have cols : ∀ f : File, stepAll [[kColumns], [kMark0, kMarker, kIntOrg]] ⟨f, .rows, false⟩ = some ⟨f, .columns, true⟩ :=
    fun f => rfl
  rw [cols, Option.bind_some, stepAll_append]
  have := columns_run h (if title = [] then kUntitled else deleteSpace title) (fun _ => 0) m.varIds [] rfl
  refine (congrArg (fun x => Option.bind x _) this).trans ?_
  rw [Option.bind_some, stepAll_append]
  have rhs : ∀ f : File, stepAll [[kMark1, kMarker, kIntEnd], [kRhs]] ⟨f, .columns, true⟩ = some ⟨f, .rhs, false⟩ :=
    fun f => rfl
  rw [rhs, Option.bind_some, stepAll_append]
  have := rhs_run h (if title = [] then kUntitled else deleteSpace title) (coefOf vname m m.varIds) (objOf vname m m.varIds)
    (m.varIds.map (fun v => (deleteSpace (vname v), { integer := true }))) (m.varIds.map (fun v => deleteSpace (vname v))) m.conIds [] rfl
  rw [show (fun c => if c ∈ ([] : List ConId) then -(m.con c).expr.const else 0) = fun _ => (0 : ℚ) from
    funext fun c => if_neg (by simp)] at this
  rw [this, Option.bind_some, stepAll_append]
  have bnd : ∀ f : File, stepAll [[kBounds]] ⟨f, .rhs, false⟩ = some ⟨f, .bounds, false⟩ := fun f => rfl
  rw [bnd, Option.bind_some]
  have := bounds_run h (if title = [] then kUntitled else deleteSpace title) (coefOf vname m m.varIds) (fun c => -(m.con c).expr.const)
    (objOf vname m m.varIds) (m.varIds.map (fun v => deleteSpace (vname v))) m.varIds [] rfl
  rw [show (fun v => (deleteSpace (vname v), if v ∈ ([] : List VarId) then bounded (m.var v) else ({ integer := true } : MVar))) =
    fun v => (deleteSpace (vname v), ({ integer := true } : MVar)) from funext fun c => by rw [if_neg (by simp)]] at this
  exact this

theorem defaultBounds_bounded (x : Var) : defaultBounds (bounded x) = bounded x := by
  unfold bounded
  split <;> rfl

/-- Reading back. -/
theorem read_write (h : Writable title vname cname m) :
    readMps (writeMps title vname cname m) = some (fileOf title vname cname m) := by
  unfold readMps
  rw [readLines_eq, tokens_writeMps h, readItems_append _ _ items_ne, items_run h, Option.bind_some, readItems, if_pos rfl]
  congr 1
  unfold fileOf shape
  simp only [List.map_map]
  congr 1
  refine List.map_congr_left fun v _ => ?_
  simp [defaultBounds_bounded]

end
end Printemps.Mps
