import Verif.Prelude

/-! # Model of `utility/binary_matrix.h`

A square matrix of size `n` is a function of row and column; only entries below `n` are ever read or
written. `int` entries are natural numbers, `x & 1` is `x % 2`. -/

namespace Printemps.BinMat

/-- The entries of a matrix, `m_rows`, binary_matrix.h:12. -/
abbrev Mat := ℕ → ℕ → ℕ

/-- `identity`, binary_matrix.h:204-210, and the initial value of `B`, binary_matrix.h:76-78. -/
def identity : Mat := fun i j => if i = j then 1 else 0

/-- `swap(A[row], A[rank])`, binary_matrix.h:93-94. -/
def swapRows (M : Mat) (a b : ℕ) : Mat := fun i => if i = a then M b else if i = b then M a else M i

/-- The inner loop over `k` of the elimination, binary_matrix.h:99-102 and 114-117: row `src` is added to
row `dst` modulo 2 (`src ≠ dst`). -/
def addRow (n : ℕ) (M : Mat) (src dst : ℕ) : Mat :=
  fun i k => if i = dst ∧ k < n then (M i k + M src k) % 2 else M i k

/-- The pivot search, binary_matrix.h:81-87: the first row from `rank` on with a one in column `j`. -/
def pivot (n : ℕ) (A : Mat) (rank j : ℕ) : Option ℕ :=
  (List.range' rank (n - rank)).find? fun i => A i j == 1

/-- Rows `rows` that have a one in column `j` get row `src` added, in both matrices,
binary_matrix.h:97-104 and 111-119. -/
def clear (n : ℕ) (src j : ℕ) (rows : List ℕ) (s : Mat × Mat) : Mat × Mat :=
  rows.foldl (fun s i => if s.1 i j = 1 then (addRow n s.1 src i, addRow n s.2 src i) else s) s

/-- One round of forward elimination, binary_matrix.h:80-106. -/
def forwardStep (n : ℕ) (s : (Mat × Mat) × ℕ) (j : ℕ) : (Mat × Mat) × ℕ :=
  match pivot n s.1.1 s.2 j with
  | none => s
  | some row =>
    let t := if row ≠ s.2 then (swapRows s.1.1 row s.2, swapRows s.1.2 row s.2) else s.1
    (clear n s.2 j (List.range' (s.2 + 1) (n - (s.2 + 1))) t, s.2 + 1)

/-- Forward elimination, binary_matrix.h:80-106. -/
def forward (n : ℕ) (A : Mat) : (Mat × Mat) × ℕ :=
  (List.range n).foldl (forwardStep n) ((A, identity), 0)

/-- Back substitution, binary_matrix.h:109-120: columns from the last down to 1, rows upwards. -/
def backward (n : ℕ) (s : Mat × Mat) : Mat × Mat :=
  ((List.range' 1 (n - 1)).reverse).foldl (fun s j => clear n j j (List.range j).reverse s) s

/-- `inverse_and_rank`, binary_matrix.h:69-124. -/
def inverseAndRank (n : ℕ) (A : Mat) : Mat × ℕ :=
  let s := forward n A
  if s.2 = n then ((backward n s.1).2, s.2) else (s.1.2, s.2)

/-- `dot` with a vector, binary_matrix.h:127-138. -/
def dotVec (n : ℕ) (M : Mat) (v : ℕ → ℕ) (i : ℕ) : ℕ :=
  (List.range n).foldl (fun acc k => acc + M i k * v k) 0 % 2

/-- `dot` with a matrix, binary_matrix.h:141-157. -/
def dotMat (n : ℕ) (M N : Mat) : Mat := fun i j =>
  (List.range n).foldl (fun acc k => acc + M i k * N k j) 0 % 2

/-- `nonzeros[i]`, binary_matrix.h:164-171. -/
def nonzeros (n : ℕ) (A : Mat) (i : ℕ) : List ℕ := (List.range n).filter fun j => decide (0 < A i j)

/-- The body of the double loop over `i` and `j`, binary_matrix.h:177-190. -/
def reachStep (n : ℕ) (A : Mat) (s : Mat × Bool) (p : ℕ × ℕ) : Mat × Bool :=
  if 0 < s.1 p.1 p.2 then s
  else if (nonzeros n A p.1).any (fun k => s.1 k p.2 != 0) then
    (fun i j => if i = p.1 ∧ j = p.2 then 1 else s.1 i j, true)
  else s

/-- All index pairs in loop order, binary_matrix.h:175-176. -/
def indexPairs (n : ℕ) : List (ℕ × ℕ) :=
  (List.range n).flatMap fun i => (List.range n).map fun j => (i, j)

/-- One pass, binary_matrix.h:174-191. -/
def reachPass (n : ℕ) (A R : Mat) : Mat × Bool := (indexPairs n).foldl (reachStep n A) (R, false)

/-- The passes, binary_matrix.h:173-195. -/
def reachLoop (n : ℕ) (A : Mat) : ℕ → Mat → Mat
  | 0, R => R
  | l + 1, R =>
    let s := reachPass n A R
    if !s.2 then s.1 else reachLoop n A l s.1

/-- `reachability`, binary_matrix.h:160-199. -/
def reachability (n : ℕ) (A : Mat) : Mat := reachLoop n A n A

end Printemps.BinMat
