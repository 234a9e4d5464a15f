import Verif.Model.Constraint
import Mathlib.Algebra.Order.Ring.Rat
import Mathlib.Algebra.Order.Group.Unbundled.Abs

/-! # Specification: what an MPS file says

A file is a list of lines; a line is a list of words separated by blanks.  `Doc` is the content of a file with the sections
NAME, ROWS, COLUMNS, RHS and BOUNDS, and `Doc.Satisfied`, `Doc.goal` say which problem it describes. -/

namespace Printemps.MpsFile

abbrev Name := List Char

/-! ## Words and numbers -/

/-- The characters that separate words. -/
def Blank (c : Char) : Prop := c = ' ' ∨ c = '\t' ∨ c = '\n' ∨ c = '\r' ∨ c = Char.ofNat 11 ∨ c = Char.ofNat 12

/-- A line consists of these words. -/
inductive Spells : List Char → List Name → Prop
  | blank (g : List Char) (hg : ∀ c ∈ g, Blank c) : Spells g []
  | word (g w rest : List Char) (ws : List Name) (hg : ∀ c ∈ g, Blank c) (hne : w ≠ []) (hw : ∀ c ∈ w, ¬ Blank c)
      (hr : ∀ c ∈ rest.head?, Blank c) (h : Spells rest ws) : Spells (g ++ (w ++ rest)) (w :: ws)

/-- An optional sign, as in `+5`, `-5`, `5`. -/
inductive Sign where
  | none | plus | minus

/-- A number in decimal notation, e.g. `-12.5e+3`, `.5`. -/
structure Number where
  sign : Sign
  whole : List (Fin 10)
  decimals : Option (List (Fin 10))
  /-- with a small or capital letter -/
  exponent : Option (Bool × Sign × List (Fin 10))

def Sign.text : Sign → List Char
  | .none => []
  | .plus => ['+']
  | .minus => ['-']

def Sign.factor : Sign → ℤ
  | .minus => -1
  | _ => 1

def digitsText (l : List (Fin 10)) : List Char := l.map fun d => Char.ofNat (48 + d.val)

/-- The number with the digits `l`. -/
def digitsValue (l : List (Fin 10)) : ℕ := l.foldl (fun a d => a * 10 + d.val) 0

def Number.text (x : Number) : List Char :=
  x.sign.text ++ (digitsText x.whole ++
    ((match x.decimals with
      | none => []
      | some l => '.' :: digitsText l) ++
    (match x.exponent with
      | none => []
      | some (capital, s, l) => (if capital then 'E' else 'e') :: (s.text ++ digitsText l))))

def Number.value (x : Number) : ℚ :=
  x.sign.factor *
    ((digitsValue x.whole : ℚ) + (match x.decimals with
      | none => 0
      | some l => (digitsValue l : ℚ) / 10 ^ l.length)) *
    (match x.exponent with
      | none => 1
      | some (_, s, l) => (10 : ℚ) ^ (s.factor * (digitsValue l : ℤ)))

/-! ## Files -/

inductive RowKind where
  | free | less | equal | greater
deriving DecidableEq

def RowKind.word : RowKind → Name
  | .free => ['N']
  | .less => ['L']
  | .equal => ['E']
  | .greater => ['G']

/-- Lines of the section COLUMNS: the markers between which columns are integer, and entries of a column. -/
inductive ColumnLine where
  | integersBegin (label mark : Name)
  | integersEnd (label mark : Name)
  | entries (column : Name) (l : List (Name × Number))

inductive LimitKind where
  | lo | up | fx | li | ui
deriving DecidableEq

inductive PlainKind where
  | bv | fr
deriving DecidableEq

/-- Lines of the section BOUNDS, with the name of the set of bounds. -/
inductive BoundLine where
  | limit (k : LimitKind) (set column : Name) (x : Number)
  | plain (k : PlainKind) (set column : Name)

/-- The content of a file.  Lines of the section RHS begin with the name of the set of right-hand sides. -/
structure Doc where
  title : Name
  rows : List (RowKind × Name)
  columns : List ColumnLine
  rhs : List (Name × List (Name × Number))
  bounds : List BoundLine

def pairWords (l : List (Name × Number)) : List Name := l.flatMap fun e => [e.1, e.2.text]

def ColumnLine.words : ColumnLine → List Name
  | .integersBegin label mark => [label, mark, "'INTORG'".toList]
  | .integersEnd label mark => [label, mark, "'INTEND'".toList]
  | .entries c l => c :: pairWords l

def LimitKind.word : LimitKind → Name
  | .lo => ['L', 'O']
  | .up => ['U', 'P']
  | .fx => ['F', 'X']
  | .li => ['L', 'I']
  | .ui => ['U', 'I']

def PlainKind.word : PlainKind → Name
  | .bv => ['B', 'V']
  | .fr => ['F', 'R']

def BoundLine.words : BoundLine → List Name
  | .limit k s c x => [k.word, s, c, x.text]
  | .plain k s c => [k.word, s, c]

def BoundLine.column : BoundLine → Name
  | .limit _ _ c _ => c
  | .plain _ _ c => c

/-- The words of the lines of the file. -/
def Doc.lines (d : Doc) : List (List Name) :=
  [["NAME".toList, d.title], ["ROWS".toList]] ++ d.rows.map (fun r => [r.1.word, r.2]) ++
  [["COLUMNS".toList]] ++ d.columns.map ColumnLine.words ++
  [["RHS".toList]] ++ d.rhs.map (fun r => r.1 :: pairWords r.2) ++
  [["BOUNDS".toList]] ++ d.bounds.map BoundLine.words ++ [["ENDATA".toList]]

/-- The text has these words, with any blanks and blank lines in between; what follows the last line does not matter. -/
inductive Written : List (List Char) → List (List Name) → Prop
  | done (rest : List (List Char)) : Written rest []
  | blank (l : List Char) (ls : List (List Char)) (ws : List (List Name)) (hl : Spells l []) (h : Written ls ws) :
      Written (l :: ls) ws
  | line (l : List Char) (ls : List (List Char)) (w : List Name) (ws : List (List Name)) (hl : Spells l w)
      (h : Written ls ws) : Written (l :: ls) (w :: ws)

/-! ## What it means -/

/-- A coefficient: column, row and number. -/
structure Entry where
  column : Name
  row : Name
  coef : ℚ

def ColumnLine.coefs : ColumnLine → List Entry
  | .entries c l => l.map fun e => ⟨c, e.1, e.2.value⟩
  | _ => []

/-- All coefficients. -/
def Doc.coefs (d : Doc) : List Entry := d.columns.flatMap ColumnLine.coefs

/-- The value of a row at given values of the columns. -/
def Doc.rowValue (d : Doc) (r : Name) (val : Name → ℤ) : ℚ :=
  (d.coefs.map fun e => if e.row = r then e.coef * (val e.column : ℚ) else 0).sum

/-- All right-hand sides. -/
def Doc.sides (d : Doc) : List (Name × ℚ) := d.rhs.flatMap fun l => l.2.map fun e => (e.1, e.2.value)

/-- The right-hand side of a row, 0 if there is none. -/
def Doc.side (d : Doc) (r : Name) : ℚ := (d.sides.map fun e => if e.1 = r then e.2 else 0).sum

/-- The columns with a line each, and whether the line is between the markers. -/
def marked : Bool → List ColumnLine → List (Name × Bool)
  | _, [] => []
  | _, .integersBegin _ _ :: l => marked true l
  | _, .integersEnd _ _ :: l => marked false l
  | b, .entries c _ :: l => (c, b) :: marked b l

/-- A column belongs to the part where it is first mentioned. -/
def firstMentions : List (Name × Bool) → List (Name × Bool)
  | [] => []
  | x :: l => x :: (firstMentions l).filter (fun y => y.1 ≠ x.1)

/-- The columns in the order of their first lines, and whether they are between the markers. -/
def Doc.cols (d : Doc) : List (Name × Bool) := firstMentions (marked false d.columns)

/-- The largest number the solver can deal with. -/
def huge : ℚ := 1073741823

/-- A range after a further record. -/
def BoundLine.apply (r : ℚ × ℚ) : BoundLine → ℚ × ℚ
  | .limit .lo _ _ x => (x.value, r.2)
  | .limit .li _ _ x => (x.value, r.2)
  | .limit .up _ _ x => (r.1, x.value)
  | .limit .ui _ _ x => (r.1, x.value)
  | .limit .fx _ _ x => (x.value, x.value)
  | .plain .bv _ _ => (0, 1)
  | .plain .fr _ _ => (-huge, huge)

/-- The records that say that their column is integer. -/
def BoundLine.integer : BoundLine → Bool
  | .limit .li _ _ _ => true
  | .limit .ui _ _ _ => true
  | .plain .bv _ _ => true
  | _ => false

/-- The records of a column. -/
def Doc.records (d : Doc) (c : Name) : List BoundLine := d.bounds.filter fun b => b.column = c

/-- The range of a column: from 0 on, changed by the records; integer columns between the markers without any record are
0/1. -/
def Doc.range (d : Doc) (c : Name × Bool) : ℚ × ℚ :=
  if d.records c.1 = [] ∧ c.2 = true then (0, 1) else (d.records c.1).foldl BoundLine.apply (0, huge)

def RowKind.holds : RowKind → ℚ → ℚ → Prop
  | .free, _, _ => True
  | .less, a, b => a ≤ b
  | .equal, a, b => a = b
  | .greater, a, b => a ≥ b

/-- The values satisfy what the file says. -/
def Doc.Satisfied (d : Doc) (val : Name → ℤ) : Prop :=
  (∀ r ∈ d.rows, r.1.holds (d.rowValue r.2 val) (d.side r.2)) ∧
  ∀ c ∈ d.cols, (d.range c).1 ≤ (val c.1 : ℚ) ∧ (val c.1 : ℚ) ≤ (d.range c).2

/-- The first free row is to be made small; its right-hand side is subtracted. -/
def Doc.goal (d : Doc) (val : Name → ℤ) : ℚ :=
  match d.rows.find? (fun r => r.1 = .free) with
  | some r => d.rowValue r.2 val - d.side r.2
  | none => 0

/-! ## Files that are read faithfully -/

structure Doc.OK (d : Doc) : Prop where
  /-- One free row (`C90.second_free_row_is_refused`); rows have different names. -/
  free : ∃ o, d.rows.filter (fun r => r.1 = .free) = [(.free, o)]
  rows : (d.rows.map Prod.snd).Nodup
  /-- Lines do not begin with `NAME`. -/
  columnWords : ∀ l ∈ d.columns, match l with
    | .integersBegin label _ => label ≠ "NAME".toList
    | .integersEnd label _ => label ≠ "NAME".toList
    | .entries c l => c ≠ "NAME".toList ∧ l ≠ []
  rhsWords : ∀ l ∈ d.rhs, l.1 ≠ "NAME".toList ∧ l.2 ≠ []
  /-- Coefficients are for rows of the file, at most one for each column and row, and zero or above `1e-10` in size. -/
  entries : ∀ e ∈ d.coefs, e.row ∈ d.rows.map Prod.snd ∧ (e.coef = 0 ∨ 1 / 10000000000 < |e.coef|)
  once : (d.coefs.map fun e => (e.column, e.row)).Nodup
  /-- Right-hand sides are for rows other than the free one (`C90.constant_of_the_objective_is_lost`), one for each. -/
  sides : ∀ e ∈ d.sides, ∃ k, k ≠ .free ∧ (k, e.1) ∈ d.rows
  sideOnce : (d.sides.map Prod.fst).Nodup
  /-- Records are for columns of the file; numbers are integers of the machine (C44). -/
  bounds : ∀ b ∈ d.bounds, b.column ∈ d.cols.map Prod.fst ∧ match b with
    | .limit _ _ _ x => ∃ k : ℤ, x.value = k ∧ -2147483648 ≤ k ∧ k ≤ 2147483647
    | .plain _ _ _ => True
  /-- Fixed columns have no other records. -/
  fixed : ∀ s c x, BoundLine.limit .fx s c x ∈ d.bounds → d.records c = [.limit .fx s c x]
  /-- Ranges are not empty. -/
  ranges : ∀ c ∈ d.cols, (d.range c).1 ≤ (d.range c).2

/-- All columns are integer. -/
def Doc.Integer (d : Doc) : Prop := ∀ c ∈ d.cols, c.2 = true ∨ ∃ b ∈ d.records c.1, b.integer = true

end Printemps.MpsFile
