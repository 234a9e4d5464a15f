import Verif.Lemmas.SparseMatrix

/-! # C47 — sparse matrix-vector product, transpose and scaling

The specification is in `Spec/Matrix.lean`: `matrixOf` is the matrix described by the nonzeros (equal
positions add up) and `mulVec` the product with a vector. -/

namespace Printemps.C47
open Sparse Spec

/-- The nonzeros as triples (row, column, value). -/
def triples (es : List Entry) : List (ℕ × ℕ × ℚ) := es.map (fun e => (e.row, e.col, e.value))

/-- The vector `y` of length `n` has the entries `f 0, …, f (n-1)`. -/
def IsVector (y : List ℚ) (n : ℕ) (f : ℕ → ℚ) : Prop := y.length = n ∧ ∀ i < n, y[i]? = some (f i)

theorem isVector_map (n : ℕ) (f : ℕ → ℚ) : IsVector ((List.range n).map f) n f := by
  refine ⟨by simp, fun i hi => ?_⟩
  simp [hi]

/-- The constructor is defined exactly for matrices with a column and indices inside the given size. -/
theorem construct_defined_iff (es : List Entry) (rows cols : ℕ) :
    (∃ m, construct es rows cols = some m) ↔ 0 < cols ∧ ∀ e ∈ es, e.row < rows ∧ e.col < cols := by
  constructor
  · rintro ⟨m, h⟩
    exact ⟨construct_pos es rows cols m h, (construct_spec es rows cols m h).2.2.2.1⟩
  · rintro ⟨hp, h⟩
    unfold construct setup
    rw [if_pos]
    · exact ⟨_, rfl⟩
    · refine Bool.and_eq_true_iff.2 ⟨by simpa using hp, ?_⟩
      rw [List.all_eq_true]
      intro e he
      simpa using h e he

theorem dot_of_rowsOK (m : Matrix) (hm : RowsOK m) (x : List ℚ) (hx : x.length = m.cols) :
    ∃ y, dot m x = some y ∧ IsVector y m.rows (mulVec (toMatrix m.entries) m.cols (fun j => x.getD j 0)) := by
  refine ⟨(List.range m.rows).map (mulVec (toMatrix m.entries) m.cols (fun j => x.getD j 0)), ?_, isVector_map _ _⟩
  unfold dot
  rw [if_neg (by rw [hx]; simp)]
  apply mapM_range
  intro i hi
  rw [rowLoop_eq m hm 1 x hx 0 i hi]
  congr 1
  ring

/-- For nonzeros sorted by row the compressed product is the mathematical product. -/
theorem product_is_product (es : List Entry) (rows cols : ℕ) (m : Matrix) (h : construct es rows cols = some m)
    (hs : es.Pairwise (fun a b => a.row ≤ b.row)) (x : List ℚ) (hx : x.length = cols) :
    ∃ y, dot m x = some y ∧ IsVector y rows (mulVec (matrixOf (triples es)) cols (fun j => x.getD j 0)) := by
  obtain ⟨h1, h2, h3, _⟩ := construct_spec es rows cols m h
  have := dot_of_rowsOK m (construct_rowsOK es rows cols m h hs) x (by rw [h3, hx])
  rw [h1, h2, h3] at this
  exact this

/-- A vector of the wrong size is rejected. -/
theorem wrong_size_throws (m : Matrix) (x : List ℚ) (h : x.length ≠ m.cols) : dot m x = none := by
  unfold dot
  rw [if_pos (Ne.symm h)]

/-- The combination `c A x + d y` is the mathematical one. -/
theorem linear_combination_is_linear_combination (es : List Entry) (rows cols : ℕ) (m : Matrix)
    (h : construct es rows cols = some m) (hs : es.Pairwise (fun a b => a.row ≤ b.row)) (x y : List ℚ)
    (hx : x.length = cols) (hy : y.length = rows) (c d : ℚ) :
    ∃ z, linearCombination c m x d y = some z ∧
      IsVector z rows (fun i => c * mulVec (matrixOf (triples es)) cols (fun j => x.getD j 0) i + d * y.getD i 0) := by
  obtain ⟨h1, h2, h3, _⟩ := construct_spec es rows cols m h
  have hm := construct_rowsOK es rows cols m h hs
  refine ⟨(List.range rows).map (fun i => c * mulVec (matrixOf (triples es)) cols (fun j => x.getD j 0) i + d * y.getD i 0),
    ?_, isVector_map _ _⟩
  unfold linearCombination
  rw [h2]
  apply mapM_range
  intro i hi
  have hy' : y[i]? = some (y.getD i 0) := by simp [List.getD, hy, hi]
  rw [hy', Option.bind_some, rowLoop_eq m hm c x (by rw [h3, hx]) _ i (by rw [h2]; exact hi), h1, h3]
  congr 1
  rw [add_comm]
  rfl

/-- Transposing a matrix with rows, whatever the order of its nonzeros, gives a matrix that can be multiplied: its
rows are the columns, and the product is the one with the mathematical transpose. -/
theorem transpose_is_transpose (es : List Entry) (rows cols : ℕ) (m : Matrix) (h : construct es rows cols = some m)
    (hrows : 0 < rows) :
    ∃ t, transpose m = some t ∧ t.rows = cols ∧ t.cols = rows ∧
      (∀ i j, matrixOf (triples t.entries) j i = matrixOf (triples es) i j) ∧
      t.entries.Pairwise (fun a b => a.row ≤ b.row) ∧
      ∀ x : List ℚ, x.length = rows → ∃ y, dot t x = some y ∧
        IsVector y cols (mulVec (fun j i => matrixOf (triples es) i j) rows (fun i => x.getD i 0)) := by
  obtain ⟨h1, h2, h3, h4, _⟩ := construct_spec es rows cols m h
  let s1 := es.mergeSort (fun a b => decide (a.row ≤ b.row))
  let s2 := s1.mergeSort (fun a b => decide (a.col ≤ b.col))
  have hp : s2.Perm es := (List.mergeSort_perm _ _).trans (List.mergeSort_perm _ _)
  have hcol : s2.Pairwise (fun a b => a.col ≤ b.col) := by
    have := List.pairwise_mergeSort (le := fun a b : Entry => decide (a.col ≤ b.col))
      (fun a b c h1 h2 => by simp only [decide_eq_true_eq] at *; omega)
      (fun a b => by simp only [Bool.or_eq_true, decide_eq_true_eq]; omega) s1
    exact this.imp (fun hh => by simpa using hh)
  let sw : List Entry := s2.map (fun e => ⟨e.col, e.row, e.value⟩)
  have hsw : ∀ e ∈ sw, e.row < cols ∧ e.col < rows := by
    intro e he
    obtain ⟨e', he', rfl⟩ := List.mem_map.1 he
    have := h4 e' (hp.mem_iff.1 he')
    exact ⟨this.2, this.1⟩
  obtain ⟨t, ht⟩ := (construct_defined_iff sw cols rows).2 ⟨hrows, hsw⟩
  have ht' : transpose m = some t := by
    unfold transpose
    rw [h1, h2, h3]
    exact ht
  have hsorted : sw.Pairwise (fun a b => a.row ≤ b.row) := by
    show (s2.map _).Pairwise _
    rw [List.pairwise_map]
    exact hcol
  have hmat : ∀ i j, matrixOf (triples sw) j i = matrixOf (triples es) i j := by
    intro i j
    have e1 : toMatrix sw j i = toMatrix s2 i j := toMatrix_swap s2 i j
    have e2 := congrFun (congrFun (toMatrix_perm hp) i) j
    exact e1.trans e2
  have e0 := construct_spec sw cols rows t ht
  refine ⟨t, ht', e0.2.1, e0.2.2.1, by rw [e0.1]; exact hmat, by rw [e0.1]; exact hsorted, fun x hx => ?_⟩
  obtain ⟨y, hy1, hy2⟩ := product_is_product sw cols rows t ht hsorted x hx
  refine ⟨y, hy1, ?_⟩
  have : (fun j i => matrixOf (triples es) i j) = matrixOf (triples sw) := by
    funext j i; exact (hmat i j).symm
  rw [this]
  exact hy2

/-- Scaling rows (columns) multiplies every entry by the diagonal element of its row (column). -/
theorem scaling_rows_and_columns (es : List Entry) (rows cols : ℕ) (m : Matrix) (h : construct es rows cols = some m)
    (hs : es.Pairwise (fun a b => a.row ≤ b.row)) (d : ℕ → ℚ) (i j : ℕ) :
    matrixOf (triples (scaleRow m d).entries) i j = matrixOf (triples es) i j * d i ∧
    matrixOf (triples (scaleColumn m d).entries) i j = matrixOf (triples es) i j * d j := by
  obtain ⟨h1, _⟩ := construct_spec es rows cols m h
  constructor
  · rw [scaleRow_entries m (construct_rowsOK es rows cols m h hs), h1]
    exact toMatrix_factor es (fun i _ => d i) i j
  · unfold scaleColumn
    dsimp only
    rw [h1]
    exact toMatrix_factor es (fun _ j => d j) i j

/-! ### Ruiz and Pock-Chambolle scaling -/

/-- What is used of the square root. -/
def SqrtPositive (sqrtf : ℚ → ℚ) : Prop := ∀ x, 0 < x → 0 < sqrtf x

/-- `m'` is `m` scaled by positive factors that are recorded in its scalers. -/
def ScaledFrom (m m' : Matrix) : Prop :=
  (∀ i, 0 < m'.rowScaler i) ∧ (∀ j, 0 < m'.colScaler j) ∧
  (∀ i j, m'.rowScaler i * matrixOf (triples m'.entries) i j * m'.colScaler j =
    m.rowScaler i * matrixOf (triples m.entries) i j * m.colScaler j) ∧
  m'.rows = m.rows ∧ m'.cols = m.cols ∧ m'.ptrs = m.ptrs ∧
  m'.entries.map (fun e => (e.row, e.col)) = m.entries.map (fun e => (e.row, e.col))

theorem rooted_pos {sqrtf : ℚ → ℚ} (hq : SqrtPositive sqrtf) (s : ℕ → ℚ) (i : ℕ) : 0 < rooted sqrtf s i := by
  unfold rooted
  split
  · norm_num
  · next h =>
    apply hq
    have : (0 : ℚ) < EPSILON_10 := by norm_num [EPSILON_10]
    linarith [not_lt.1 h]

theorem applyScaling_scaled (m : Matrix) (r c : ℕ → ℚ) (hr : ∀ i, 0 < r i) (hc : ∀ j, 0 < c j)
    (h1 : ∀ i, 0 < m.rowScaler i) (h2 : ∀ j, 0 < m.colScaler j) : ScaledFrom m (applyScaling m r c) := by
  refine ⟨fun i => mul_pos (h1 i) (hr i), fun j => mul_pos (h2 j) (hc j), fun i j => ?_, rfl, rfl, rfl, ?_⟩
  · have e : matrixOf (triples (applyScaling m r c).entries) i j = matrixOf (triples m.entries) i j * (1 / (r i * c j)) := by
      have := toMatrix_factor m.entries (fun i j => 1 / (r i * c j)) i j
      simp only [mul_one_div] at this
      rw [mul_one_div]
      exact this
    rw [e]
    show m.rowScaler i * r i * _ * (m.colScaler j * c j) = _
    have := ne_of_gt (hr i)
    have := ne_of_gt (hc j)
    field_simp
  · unfold applyScaling
    simp

theorem ScaledFrom.trans {a b c : Matrix} (h1 : ScaledFrom a b) (h2 : ScaledFrom b c) : ScaledFrom a c :=
  ⟨h2.1, h2.2.1, fun i j => (h2.2.2.1 i j).trans (h1.2.2.1 i j), h2.2.2.2.1.trans h1.2.2.2.1,
    h2.2.2.2.2.1.trans h1.2.2.2.2.1, h2.2.2.2.2.2.1.trans h1.2.2.2.2.2.1, h2.2.2.2.2.2.2.trans h1.2.2.2.2.2.2⟩

theorem ruizLoop_scaled {sqrtf : ℚ → ℚ} (hq : SqrtPositive sqrtf) (n : ℕ) (m : Matrix) (r c : ℕ → ℚ)
    (h1 : ∀ i, 0 < m.rowScaler i) (h2 : ∀ j, 0 < m.colScaler j) : ScaledFrom m (ruizLoop sqrtf n m r c) := by
  induction n generalizing m r c with
  | zero => exact ⟨h1, h2, fun _ _ => rfl, rfl, rfl, rfl, rfl⟩
  | succ n ih =>
    have s := applyScaling_scaled m (rooted sqrtf (absMaxs Entry.row r m.entries))
      (rooted sqrtf (absMaxs Entry.col c m.entries)) (rooted_pos hq _) (rooted_pos hq _) h1 h2
    exact s.trans (ih _ _ _ s.1 s.2.1)

/-- Any number of Ruiz scalings followed, if wanted, by a Pock-Chambolle scaling divides entry `(i, j)` by the
recorded positive factors of its row and column, and touches nothing else. -/
theorem scaling_is_recorded (sqrtf : ℚ → ℚ) (hq : SqrtPositive sqrtf) (es : List Entry) (rows cols : ℕ) (m : Matrix)
    (h : construct es rows cols = some m) (n : ℕ) (pock : Bool) :
    let m' := if pock then pockChambolle sqrtf (ruiz sqrtf n m) else ruiz sqrtf n m
    (∀ i, 0 < m'.rowScaler i) ∧ (∀ j, 0 < m'.colScaler j) ∧
    (∀ i j, m'.rowScaler i * matrixOf (triples m'.entries) i j * m'.colScaler j = matrixOf (triples es) i j) ∧
    m'.rows = rows ∧ m'.cols = cols ∧ m'.ptrs = m.ptrs ∧
    m'.entries.map (fun e => (e.row, e.col)) = es.map (fun e => (e.row, e.col)) := by
  obtain ⟨e1, e2, e3, _, e5, e6⟩ := construct_spec es rows cols m h
  have h1 : ∀ i, 0 < m.rowScaler i := by rw [e5]; intro i; norm_num
  have h2 : ∀ i, 0 < m.colScaler i := by rw [e6]; intro i; norm_num
  have s := ruizLoop_scaled hq n m (fun _ => 1) (fun _ => 1) h1 h2
  have main : ∀ m', ScaledFrom m m' → (∀ i, 0 < m'.rowScaler i) ∧ (∀ j, 0 < m'.colScaler j) ∧
      (∀ i j, m'.rowScaler i * matrixOf (triples m'.entries) i j * m'.colScaler j = matrixOf (triples es) i j) ∧
      m'.rows = rows ∧ m'.cols = cols ∧ m'.ptrs = m.ptrs ∧
      m'.entries.map (fun e => (e.row, e.col)) = es.map (fun e => (e.row, e.col)) := by
    intro m' hs
    refine ⟨hs.1, hs.2.1, fun i j => ?_, hs.2.2.2.1.trans e2, hs.2.2.2.2.1.trans e3, hs.2.2.2.2.2.1, ?_⟩
    · rw [hs.2.2.1, e1, e5, e6]; ring
    · rw [hs.2.2.2.2.2.2, e1]
  cases pock
  · exact main _ s
  · have s2 := applyScaling_scaled (ruiz sqrtf n m) (rooted sqrtf (absSums Entry.row (ruiz sqrtf n m).entries))
      (rooted sqrtf (absSums Entry.col (ruiz sqrtf n m).entries)) (rooted_pos hq _) (rooted_pos hq _) s.1 s.2.1
    exact main _ (s.trans s2)

/-! ### Non-vacuity and the role of the preconditions -/

/-- a 2×3 matrix with a repeated position -/
def es0 : List Entry := [⟨0, 0, 1⟩, ⟨0, 2, 2⟩, ⟨0, 2, 3⟩, ⟨1, 1, -1⟩]

example : ∃ m, construct es0 2 3 = some m ∧ es0.Pairwise (fun a b => a.row ≤ b.row) ∧
    dot m [1, 10, 100] = some [501, -10] ∧ (construct es0 2 3).bind transpose ≠ none :=
  have h : ∃ m, construct es0 2 3 = some m := (construct_defined_iff es0 2 3).2 (by decide)
  ⟨h.choose, h.choose_spec, by decide, by
    have e : (construct es0 2 3).bind (fun m => dot m [1, 10, 100]) = some [501, -10] := by decide +kernel
    rw [h.choose_spec, Option.bind_some] at e
    exact e, by
    obtain ⟨t, ht, _⟩ := transpose_is_transpose es0 2 3 h.choose h.choose_spec (by decide)
    rw [h.choose_spec, Option.bind_some, ht]; simp⟩

example : SqrtPositive (fun x => (x + 1) / 2) := fun x h => by
  show 0 < (x + 1) / 2
  linarith

/-- A matrix without rows cannot be transposed: the norms of its transpose are undefined. -/
theorem transpose_without_rows_is_undefined (cols : ℕ) (m : Matrix) (h : construct [] 0 cols = some m) :
    transpose m = none := by
  obtain ⟨h1, h2, h3, -⟩ := construct_spec _ _ _ _ h
  unfold transpose
  rw [h1, h2, h3]
  simp [construct, setup]

example : ∃ m, construct [] 0 3 = some m := (construct_defined_iff [] 0 3).2 (by simp)

/-- Without the order by row the compressed product is wrong. -/
theorem unsorted_entries_break_the_product :
    ((construct [⟨1, 0, 1⟩, ⟨0, 0, 2⟩] 2 1).bind fun m => dot m [1]) = some [1, 2] ∧
    mulVec (matrixOf [(1, 0, 1), (0, 0, 2)]) 1 (fun _ => 1) 0 = 2 := by
  refine ⟨by decide +kernel, ?_⟩
  simp [mulVec, matrixOf]

/-- Calling `setup` again on a used matrix keeps the old row pointers: reading then leaves the vectors. -/
theorem second_setup_is_broken :
    ((construct [⟨0, 0, 1⟩, ⟨1, 0, 1⟩] 2 1).bind fun m => (setup m.ptrs [⟨0, 0, 1⟩, ⟨1, 0, 1⟩] 2 1).bind fun m => dot m [1]) =
      none ∧
    ((construct [⟨0, 0, 1⟩, ⟨1, 0, 1⟩] 2 1).bind fun m => dot m [1]) = some [1, 1] := by
  decide +kernel

end Printemps.C47
