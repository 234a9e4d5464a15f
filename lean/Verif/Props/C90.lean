import Verif.Lemmas.MpsImport
import Mathlib.Tactic.Linarith

/-! # C90: an MPS file gets the problem it describes -/

namespace Printemps.C90
open MpsFile Spec

theorem goal_eq {d : Doc} (h : d.OK) {o : Name} (ho : d.rows.filter (fun r => r.1 = .free) = [(.free, o)]) (val : Name → ℤ) :
    d.goal val = d.rowValue o val := by
  have hf : d.rows.find? (fun r => r.1 = .free) = some (.free, o) := by
    rw [← List.head?_filter, ho]; rfl
  have hs : d.side o = 0 := by
    refine sideSum_zero d.sides o ?_
    intro hm
    obtain ⟨e, he, rfl⟩ := List.mem_map.1 hm
    obtain ⟨k, hk, hm⟩ := h.sides e he
    exact hk (((rowNames_of h ho).free _ hm).2 rfl)
  unfold Doc.goal
  rw [hf]
  show d.rowValue o val - d.side o = _
  rw [hs, sub_zero]

/-- **An MPS file gets the problem it describes.**  Any text with the lines of a file `d`, with any blanks and empty lines
in between, is loaded, and

* the variables are the columns, in the order in which they are first mentioned, and the constraints are the rows other
  than the free one, in order;
* the assignments that solve the model are exactly those that satisfy what the file says, constraint by constraint;
* the objective is the free row, to be made small.

Missing: the conditions of `Doc.OK`, in particular one free row, no right-hand side for it, no further records for fixed
columns, and the sections and records that are not part of `Doc` (findings below and in C44). -/
theorem file_gets_its_problem_partial (d : Doc) (h : d.OK) (text : List (List Char)) (hw : Written text d.lines)
    (acceptContinuous : Bool) (hacc : acceptContinuous = true ∨ d.Integer) :
    ∃ m, Mps.load acceptContinuous text =
        some (m, d.cols.map Prod.fst, (d.rows.filter (fun r => r.1 ≠ .free)).map Prod.snd) ∧
      m.varIds = List.range d.cols.length ∧ m.conIds = List.range (d.rows.filter (fun r => r.1 ≠ .free)).length ∧
      m.objDefined = true ∧ m.isMin = true ∧
      ∀ (σ : ℕ → ℤ) (val : Name → ℤ), (∀ (i : ℕ) (c : Name × Bool), d.cols[i]? = some c → σ i = val c.1) →
        (Solves m σ ↔ d.Satisfied val) ∧
        (∀ (i : ℕ) (r : RowKind × Name), (d.rows.filter (fun r => r.1 ≠ .free))[i]? = some r →
          (Holds (m.con i) σ ↔ r.1.holds (d.rowValue r.2 val) (d.side r.2))) ∧
        exprValue m.obj σ = d.goal val := by
  obtain ⟨o, ho⟩ := h.free
  obtain ⟨p, e, hp⟩ := import_ok h ho hw acceptContinuous hacc
  have lv : p.vars.length = d.cols.length := hp.vars.length_eq.symm
  have lc : p.cons.length = (d.rows.filter (fun r => r.1 ≠ .free)).length := hp.cons.length_eq.symm
  refine ⟨Mps.problem p, by rw [e, hp.names, hp.conNames], ?_, ?_, rfl, rfl, ?_⟩
  · show List.range p.vars.length = _
    rw [lv]
  · show List.range p.cons.length = _
    rw [lc]
  · intro σ val hn
    have hn' : Named (d.cols.map Prod.fst) σ val := by
      intro i n hi
      rw [List.getElem?_map] at hi
      obtain ⟨c, hc, rfl⟩ := Option.map_eq_some_iff.1 hi
      exact hn i c hc
    have hvar : ∀ (i : ℕ) (c : Name × Bool), d.cols[i]? = some c → VarImp d c ((Mps.problem p).var i) := by
      intro i c hc
      obtain ⟨v, hv, hi⟩ := forall₂_left hp.vars i c hc
      have : (Mps.problem p).var i = v := by
        show p.vars.getD i _ = v
        rw [List.getD_eq_getElem?_getD, hv]; rfl
      rw [this]; exact hi
    have hcon : ∀ (i : ℕ) (r : RowKind × Name), (d.rows.filter (fun r => r.1 ≠ .free))[i]? = some r →
        ((Mps.problem p).con i).enabled = true ∧
          (Holds ((Mps.problem p).con i) σ ↔ r.1.holds (d.rowValue r.2 val) (d.side r.2)) := by
      intro i r hr
      obtain ⟨c, hc, hi⟩ := forall₂_left hp.cons i r hr
      have : (Mps.problem p).con i = c := by
        show p.cons.getD i _ = c
        rw [List.getD_eq_getElem?_getD, hc]; rfl
      rw [this]
      exact holds_row (by simpa using (List.mem_filter.1 (List.mem_of_getElem? hr)).2) hi hn'
    refine ⟨?_, fun i r hr => (hcon i r hr).2, ?_⟩
    · constructor
      · rintro ⟨h1, h2⟩
        refine ⟨?_, ?_⟩
        · intro r hr
          by_cases hf : r.1 = .free
          · obtain ⟨k, n⟩ := r
            obtain rfl : k = .free := hf
            trivial
          · obtain ⟨i, hi⟩ := List.getElem?_of_mem (List.mem_filter.2 ⟨hr, by simpa using hf⟩ :
              r ∈ d.rows.filter (fun r => r.1 ≠ .free))
            have hlt := (List.getElem?_eq_some_iff.1 hi).1
            exact (hcon i r hi).2.1 (h2 i (List.mem_range.2 (by rw [lc]; exact hlt)) (hcon i r hi).1)
        · intro c hc
          obtain ⟨i, hi⟩ := List.getElem?_of_mem hc
          have hlt := (List.getElem?_eq_some_iff.1 hi).1
          have := (admits_iff (hvar i c hi) (σ i)).1 (h1 i (List.mem_range.2 (by rw [lv]; exact hlt)))
          rwa [hn i c hi] at this
      · rintro ⟨h1, h2⟩
        refine ⟨?_, ?_⟩
        · intro i hi
          have hlt : i < d.cols.length := by rw [← lv]; exact List.mem_range.1 hi
          have hc := List.getElem?_eq_getElem hlt
          rw [admits_iff (hvar i _ hc), hn i _ hc]
          exact h2 _ (List.getElem_mem hlt)
        · intro i hi _
          have hlt : i < (d.rows.filter (fun r => r.1 ≠ .free)).length := by rw [← lc]; exact List.mem_range.1 hi
          have hr := List.getElem?_eq_getElem hlt
          exact (hcon i _ hr).2.2 (h1 _ (List.mem_filter.1 (List.getElem_mem hlt)).1)
    · obtain ⟨ts, ht, eo⟩ := hp.obj
      rw [goal_eq h ho]
      show exprValue p.obj σ = _
      rw [eo, ← ht.value σ val hn']
      exact zero_add _

/-- Both kinds of values determine each other, so nothing is lost by the translation. -/
theorem values_by_name (d : Doc) :
    (∀ val : Name → ℤ, ∃ σ : ℕ → ℤ, ∀ (i : ℕ) (c : Name × Bool), d.cols[i]? = some c → σ i = val c.1) ∧
    ∀ σ : ℕ → ℤ, ∃ val : Name → ℤ, ∀ (i : ℕ) (c : Name × Bool), d.cols[i]? = some c → σ i = val c.1 := by
  refine ⟨fun val => ⟨fun i => ((d.cols[i]?).map fun c => val c.1).getD 0, ?_⟩,
    fun σ => ⟨fun n => σ ((d.cols.map Prod.fst).idxOf n), ?_⟩⟩
  · intro i c hc
    show ((d.cols[i]?).map fun c => val c.1).getD 0 = _
    rw [hc]; rfl
  · intro i c hc
    have hlt := (List.getElem?_eq_some_iff.1 hc).1
    have e : (d.cols.map Prod.fst)[i]'(by simpa using hlt) = c.1 := by
      rw [List.getElem_map, (List.getElem?_eq_some_iff.1 hc).2]
    show σ i = σ _
    congr 1
    rw [← e]
    have hnd : (d.cols.map Prod.fst).Nodup := first_nodup _
    exact (List.Nodup.idxOf_getElem hnd i (by simpa using hlt)).symm

/-! ### A file meeting the conditions -/

namespace Sample

def int (n : Fin 10) : Number := ⟨.none, [n], none, none⟩
def neg (n : Fin 10) : Number := ⟨.minus, [n], none, none⟩

/-- Minimise `-2 x0 + x2 - y - w` under `x0 + x1 + x2 = 1`, `2 x0 + x1 + 3 x2 + y ≤ 6`. -/
def doc : Doc where
  title := "sample".toList
  rows := [(.free, "cost".toList), (.equal, "one".toList), (.less, "cap".toList)]
  columns := [.integersBegin "M1".toList "'MARKER'".toList,
    .entries "x0".toList [("cost".toList, neg 2), ("one".toList, int 1)],
    .entries "x0".toList [("cap".toList, ⟨.none, [2, 0], none, some (false, .minus, [1])⟩)],
    .entries "x1".toList [("one".toList, ⟨.none, [1], some [0], none⟩), ("cap".toList, int 1)],
    .entries "x2".toList [("cost".toList, int 1), ("one".toList, int 1)],
    .entries "x2".toList [("cap".toList, ⟨.plus, [3], some [], none⟩)],
    .entries "y".toList [("cost".toList, neg 1), ("cap".toList, int 1)],
    .entries "w".toList [("cost".toList, neg 1), ("cap".toList, int 0)],
    .integersEnd "M2".toList "'MARKER'".toList]
  rhs := [("rhs".toList, [("one".toList, int 1), ("cap".toList, int 6)])]
  bounds := [.limit .up "bnd".toList "y".toList (int 5)]

def text : List (List Char) :=
  ["NAME sample".toList, "ROWS".toList, " N  cost".toList, " E  one".toList, " L  cap".toList, "COLUMNS".toList,
   "  M1 'MARKER' 'INTORG'".toList,
   "  x0  cost  -2   one  1".toList, "  x0  cap  20e-1".toList, "".toList, "  x1  one  1.0  cap  1 ".toList,
   "  x2  cost  1  one  1".toList, "  x2  cap  +3.".toList, "  y  cost  -1  cap  1".toList,
   "  w  cost  -1 cap 0".toList, "  M2 'MARKER' 'INTEND'".toList,
   "RHS".toList, "  rhs  one  1  cap  6".toList, "BOUNDS".toList, " UP  bnd  y  5".toList, "ENDATA".toList,
   "anything".toList]

theorem written : Written text doc.lines := by
  have h1 : (text.take 9).map Text.tokens = doc.lines.take 9 := by decide +kernel
  have h2 : ((text.drop 10).take 11).map Text.tokens = doc.lines.drop 9 := by decide +kernel
  have app : ∀ (a b : List (List Char)) (ws : List (List Name)), Written b ws → Written (a ++ b) (a.map Text.tokens ++ ws) := by
    intro a b ws h
    induction a with
    | nil => exact h
    | cons l a ih => exact .line l _ _ _ (spells_from l [] (by simp)) ih
  have e1 : text = text.take 9 ++ ("".toList :: ((text.drop 10).take 11 ++ ["anything".toList])) := by decide +kernel
  have e2 : doc.lines = doc.lines.take 9 ++ (doc.lines.drop 9 ++ []) := by rw [List.append_nil, List.take_append_drop]
  rw [e1, e2, ← h1, ← h2]
  exact app _ _ _ (.blank _ _ _ (.blank _ (by simp)) (app _ _ _ (.done _)))

theorem ok : doc.OK where
  free := ⟨"cost".toList, by decide +kernel⟩
  rows := by decide +kernel
  columnWords := by simp [doc]
  rhsWords := by simp [doc]
  entries := by decide +kernel
  once := by decide +kernel
  sides := by
    intro e he
    have : e.1 = "one".toList ∨ e.1 = "cap".toList := by
      revert e
      decide +kernel
    rcases this with h | h <;> rw [h]
    · exact ⟨.equal, by decide, by decide +kernel⟩
    · exact ⟨.less, by decide, by decide +kernel⟩
  sideOnce := by decide +kernel
  bounds := by
    intro b hb
    have : b = .limit .up "bnd".toList "y".toList (int 5) := by simpa [doc] using hb
    subst this
    exact ⟨by decide +kernel, 5, by decide +kernel, by decide, by decide⟩
  fixed := by
    intro s c x h
    simp [doc] at h
  ranges := by decide +kernel

theorem integer : doc.Integer := by
  intro c hc
  left
  revert c
  decide +kernel

example : doc.OK ∧ Written text doc.lines ∧ doc.Integer ∧
    doc.cols.map Prod.fst = ["x0".toList, "x1".toList, "x2".toList, "y".toList, "w".toList] ∧
    doc.cols.map doc.range = [(0, 1), (0, 1), (0, 1), (0, 5), (0, 1)] ∧
    doc.Satisfied (fun n => if n = "x0".toList then 1 else if n = "y".toList then 4 else 0) ∧
    ¬ doc.Satisfied (fun n => if n = "x0".toList then 1 else if n = "y".toList then 5 else 0) := by
  refine ⟨ok, written, integer, by decide +kernel, by decide +kernel, ⟨?_, by decide +kernel⟩, ?_⟩
  · intro r hr
    simp only [doc, List.mem_cons, List.not_mem_nil, or_false] at hr
    rcases hr with rfl | rfl | rfl
    · trivial
    · show _ = _; decide +kernel
    · show _ ≤ _; decide +kernel
  · rintro ⟨h, _⟩
    have h := h (.less, "cap".toList) (by simp [doc])
    have h' : doc.rowValue "cap".toList (fun n => if n = "x0".toList then 1 else if n = "y".toList then 5 else 0) ≤
      doc.side "cap".toList := h
    revert h'
    decide +kernel

end Sample

/-! ### What is not read as it is meant -/

namespace Wrong

/-- A small file: minimise `x` under `x ≥ 3`, with further lines at the given places. -/
def file (rows rhs bounds : List (List Char)) : List (List Char) :=
  ["NAME t".toList, "ROWS".toList, " N cost".toList] ++ rows ++ [" G c".toList, "COLUMNS".toList,
   " M1 'MARKER' 'INTORG'".toList, " x cost 1 c 1".toList, " M2 'MARKER' 'INTEND'".toList,
   "RHS".toList, " rhs c 3".toList] ++ rhs ++ ["BOUNDS".toList, " UP bnd x 9".toList] ++ bounds ++ ["ENDATA".toList]

/-- The file as it is meant. -/
def doc (rhs : List (Name × List (Name × Number))) : Doc where
  title := "t".toList
  rows := [(.free, "cost".toList), (.greater, "c".toList)]
  columns := [.integersBegin "M1".toList "'MARKER'".toList,
    .entries "x".toList [("cost".toList, Sample.int 1), ("c".toList, Sample.int 1)],
    .integersEnd "M2".toList "'MARKER'".toList]
  rhs := ("rhs".toList, [("c".toList, Sample.int 3)]) :: rhs
  bounds := [.limit .up "bnd".toList "x".toList (Sample.int 9)]

/-- The constants of the constraints and the objective of the loaded model. -/
def seen (text : List (List Char)) : Option (List ℚ × List (VarId × ℚ) × ℚ × Bool) :=
  (Mps.load false text).map fun r =>
    (r.1.conIds.map fun c => (r.1.con c).expr.const, r.1.obj.terms, r.1.obj.const, r.1.isMin)

end Wrong

/-- The right-hand side of the free row is the constant of the objective with the opposite sign.  It is stored with a
constraint that does not exist, so that the objective of the model differs from that of the file by this constant
(mps/mps.h:225-240, model/model.h:3553-3566). -/
theorem constant_of_the_objective_is_lost : ∃ (d : Doc) (text : List (List Char)) (m : MState) (names : List Name × List Name),
    Written text d.lines ∧ d.cols.map Prod.fst = ["x".toList] ∧ Mps.load false text = some (m, names) ∧
    ∀ val, exprValue m.obj (fun _ => val "x".toList) = d.goal val - 10 := by
  let d := Wrong.doc [("rhs".toList, [("cost".toList, ⟨.minus, [1, 0], none, none⟩)])]
  let text := Wrong.file [] [" rhs cost -10".toList] []
  have hw : Written text d.lines := by
    have e : d.lines = text.map Text.tokens := by decide +kernel
    rw [e]; exact written_of text
  have hs : Wrong.seen text = some ([-3], [(0, 1)], 0, true) := by decide +kernel
  unfold Wrong.seen at hs
  obtain ⟨⟨m, names⟩, hm, e⟩ := Option.map_eq_some_iff.1 hs
  simp only [Prod.mk.injEq] at e
  refine ⟨d, text, m, names, hw, by decide +kernel, hm, ?_⟩
  intro val
  have e1 : exprValue m.obj (fun _ => val "x".toList) = val "x".toList := by
    unfold exprValue
    rw [e.2.1, e.2.2.1]
    simp
  have e2 : d.goal val = d.rowValue "cost".toList val - d.side "cost".toList := rfl
  have e3 : d.side "cost".toList = -10 := by decide +kernel
  have e4 : d.rowValue "cost".toList val = val "x".toList := by
    have ec : d.coefs = [⟨"x".toList, "cost".toList, (Sample.int 1).value⟩, ⟨"x".toList, "c".toList, (Sample.int 1).value⟩] := rfl
    have ev : (Sample.int 1).value = 1 := by decide +kernel
    unfold Doc.rowValue
    rw [ec, ev]
    simp
  rw [e1, e2, e3, e4]
  ring

/-- Files with two free rows are refused if the first one is used: only the last one is known when the columns are read
(mps/mps.h:145-147, 196-213). -/
theorem second_free_row_is_refused : Mps.load false (Wrong.file [" N other".toList] [] []) = none ∧
    (Mps.load false (Wrong.file [] [] [])).isSome = true := by
  constructor
  · rw [← Option.isNone_iff_eq_none]; decide +kernel
  · decide +kernel

/-- Lines beginning with a star are comments in MPS files.  They are not skipped: a comment among the rows makes the file
refused, and one among the right-hand sides may change a right-hand side (mps/mps.h:98-130). -/
theorem comments_are_read : Mps.load false (Wrong.file ["* rows".toList] [] []) = none ∧
    Wrong.seen (Wrong.file [] ["* c 7".toList] []) = some ([-7], [(0, 1)], 0, true) ∧
    Wrong.seen (Wrong.file [] [] []) = some ([-3], [(0, 1)], 0, true) := by
  refine ⟨?_, by decide +kernel, by decide +kernel⟩
  rw [← Option.isNone_iff_eq_none]; decide +kernel

/-- A file that is to be maximised is minimised: the line after the name is taken for another name (mps/mps.h:131-141,
model/model.h:3566). -/
theorem direction_is_ignored : Wrong.seen ("NAME t".toList :: "OBJSENSE MAX".toList :: (Wrong.file [] [] []).drop 1) =
    some ([-3], [(0, 1)], 0, true) := by decide +kernel

/-- A record of kind `BV` with a number has no effect (mps/mps.h:359-404). -/
theorem binary_record_with_number_is_ignored :
    (Mps.load false (Wrong.file [] [] [" BV bnd x 1".toList])).map (fun r => ((r.1.var 0).lb, (r.1.var 0).ub)) = some (0, 9) ∧
    (Mps.load false (Wrong.file [] [] [" BV bnd x".toList])).map (fun r => ((r.1.var 0).lb, (r.1.var 0).ub)) = some (0, 1) := by
  constructor <;> decide +kernel

end Printemps.C90
