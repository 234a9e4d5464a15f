import Verif.Model.Expression

/-! # Model of `utility/sparse/sparse_matrix.h`, `diagonal.h` and the products of `function.h`

`none` is a thrown `std::logic_error` or an access outside a vector (undefined behaviour).  The square root
is a parameter. -/

namespace Printemps.Sparse

/-- One nonzero: `values[i]`, `row_indices[i]`, `column_indices[i]`, utility/sparse/sparse_matrix.h:12-14.
Simplification: the three vectors of equal length are one list. -/
structure Entry where
  row : ℕ
  col : ℕ
  value : ℚ
deriving DecidableEq, Repr

/-- The members, utility/sparse/sparse_matrix.h:12-24 (of the norms only where they are defined).  `row_ptrs` and the scalers
are functions of the position. -/
structure Matrix where
  entries : List Entry
  ptrs : ℕ → ℕ
  rowScaler : ℕ → ℚ
  colScaler : ℕ → ℚ
  rows : ℕ
  cols : ℕ

/-- The counting loop, utility/sparse/sparse_matrix.h:71-73. -/
def countRows (p : ℕ → ℕ) (es : List Entry) : ℕ → ℕ :=
  es.foldl (fun p e => Function.update p (e.row + 1) (p (e.row + 1) + 1)) p

/-- The loop of prefix sums, utility/sparse/sparse_matrix.h:74-76. -/
def prefixSums (p : ℕ → ℕ) (n : ℕ) : ℕ → ℕ :=
  (List.range n).foldl (fun p i => Function.update p (i + 1) (p (i + 1) + p i)) p

/-- `setup`, utility/sparse/sparse_matrix.h:54-79.  `old` are the row pointers before the call: `resize`
keeps them (a constructor call has none, so `fun _ => 0`).  The call of `setup_norm` (lines 82-96) reads
`*std::max_element` of a vector with one element per column, which is undefined for an empty vector: without
columns the result is `none`. -/
def setup (old : ℕ → ℕ) (es : List Entry) (rows cols : ℕ) : Option Matrix :=
  if decide (0 < cols) && es.all (fun e => decide (e.row < rows) && decide (e.col < cols)) then
    some { entries := es, ptrs := prefixSums (countRows old es) rows
           rowScaler := fun _ => 1, colScaler := fun _ => 1, rows := rows, cols := cols }
  else none

/-- The constructor, utility/sparse/sparse_matrix.h:32-38. -/
def construct (es : List Entry) (rows cols : ℕ) : Option Matrix := setup (fun _ => 0) es rows cols

/-- The loop over `j` for one row, utility/sparse/sparse_matrix.h:226-229 (`c = 1`, `start = 0`) and
utility/sparse/function.h:119-124. -/
def rowLoop (m : Matrix) (c : ℚ) (x : List ℚ) (start : ℚ) (i : ℕ) : Option ℚ :=
  (List.range' (m.ptrs i) (m.ptrs (i + 1) - m.ptrs i)).foldlM (fun acc j =>
    match m.entries[j]? with
    | none => none
    | some e => (x[e.col]?).map (fun y => acc + c * e.value * y)) start

/-- `dot`, utility/sparse/sparse_matrix.h:211-238.  The rows may be computed in parallel. -/
def dot (m : Matrix) (x : List ℚ) : Option (List ℚ) :=
  if m.cols ≠ x.length then none
  else (List.range m.rows).mapM (rowLoop m 1 x 0)

/-- `linear_combination(result, c, matrix, x, d, y)`, utility/sparse/function.h:105-126. -/
def linearCombination (c : ℚ) (m : Matrix) (x : List ℚ) (d : ℚ) (y : List ℚ) : Option (List ℚ) :=
  (List.range m.rows).mapM (fun i => (y[i]?).bind fun yi => rowLoop m c x (d * yi) i)

/-- `transpose`, utility/sparse/sparse_matrix.h:181-209: two stable sorts (`List.mergeSort` is stable), then a
new matrix with rows and columns exchanged. -/
def transpose (m : Matrix) : Option Matrix :=
  let sorted := (m.entries.mergeSort (fun a b => decide (a.row ≤ b.row))).mergeSort
    (fun a b => decide (a.col ≤ b.col))
  construct (sorted.map (fun e => ⟨e.col, e.row, e.value⟩)) m.cols m.rows

/-- `scale_row`, utility/sparse/sparse_matrix.h:241-256: every position in the range of a row is multiplied
by the entry of the diagonal.  `d` has the right size. -/
def scaleRow (m : Matrix) (d : ℕ → ℚ) : Matrix :=
  { m with
    entries := (List.range m.rows).foldl (fun es i =>
      (List.range' (m.ptrs i) (m.ptrs (i + 1) - m.ptrs i)).foldl (fun es j =>
        es.modify j (fun e => { e with value := e.value * d i })) es) m.entries }

/-- `scale_column`, utility/sparse/sparse_matrix.h:266-280. -/
def scaleColumn (m : Matrix) (d : ℕ → ℚ) : Matrix :=
  { m with entries := m.entries.map (fun e => { e with value := e.value * d e.col }) }

/-- The sums of absolute values of `pock_chambolle_scaling`, utility/sparse/sparse_matrix.h:101-108
(starting from the ones of a new `Diagonal`). -/
def absSums (index : Entry → ℕ) (es : List Entry) : ℕ → ℚ :=
  es.foldl (fun s e => Function.update s (index e) (s (index e) + |e.value|)) (fun _ => 1)

/-- The maxima of absolute values of `ruiz_scaling`, utility/sparse/sparse_matrix.h:143-149. -/
def absMaxs (index : Entry → ℕ) (s : ℕ → ℚ) (es : List Entry) : ℕ → ℚ :=
  es.foldl (fun s e => Function.update s (index e) (max (s (index e)) |e.value|)) s

/-- Square root with the safeguard for empty rows and columns, utility/sparse/sparse_matrix.h:109-123,
151-165. -/
def rooted (sqrtf : ℚ → ℚ) (s : ℕ → ℚ) : ℕ → ℚ := fun i => if s i < EPSILON_10 then 1 else sqrtf (s i)

/-- Division of all values and accumulation of the scalers, utility/sparse/sparse_matrix.h:124-132, 167-175. -/
def applyScaling (m : Matrix) (r c : ℕ → ℚ) : Matrix :=
  { m with
    entries := m.entries.map (fun e => { e with value := e.value / (r e.row * c e.col) })
    rowScaler := fun i => m.rowScaler i * r i
    colScaler := fun i => m.colScaler i * c i }

/-- `pock_chambolle_scaling`, utility/sparse/sparse_matrix.h:99-134. -/
def pockChambolle (sqrtf : ℚ → ℚ) (m : Matrix) : Matrix :=
  applyScaling m (rooted sqrtf (absSums Entry.row m.entries)) (rooted sqrtf (absSums Entry.col m.entries))

/-- The loop of `ruiz_scaling`, utility/sparse/sparse_matrix.h:137-178; the local scalers are kept from one
iteration to the next. -/
def ruizLoop (sqrtf : ℚ → ℚ) : ℕ → Matrix → (ℕ → ℚ) → (ℕ → ℚ) → Matrix
  | 0, m, _, _ => m
  | n + 1, m, r, c =>
    let r' := rooted sqrtf (absMaxs Entry.row r m.entries)
    let c' := rooted sqrtf (absMaxs Entry.col c m.entries)
    ruizLoop sqrtf n (applyScaling m r' c') r' c'

/-- `ruiz_scaling`, utility/sparse/sparse_matrix.h:137-178. -/
def ruiz (sqrtf : ℚ → ℚ) (n : ℕ) (m : Matrix) : Matrix := ruizLoop sqrtf n m (fun _ => 1) (fun _ => 1)

end Printemps.Sparse
