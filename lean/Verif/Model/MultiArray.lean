import Verif.Prelude
import Mathlib.Algebra.BigOperators.Group.List.Basic

/-! # Model of `multi_array/abstract_multi_array.h`

`int` is `ℕ` here (indices and extents are non-negative; overflow is not modelled). -/

namespace Printemps.MultiArray

/-- `std::partial_sum` with `std::multiplies`, used in abstract_multi_array.h:28-31. -/
def partialProducts : List ℕ → ℕ → List ℕ
  | [], _ => []
  | a :: l, acc => acc * a :: partialProducts l (acc * a)

/-- `compute_strides`, abstract_multi_array.h:25-32: the last stride is 1, and reading backwards the
strides continue with the partial products of the reversed shape without its first extent. -/
def strides (shape : List ℕ) : List ℕ := (1 :: partialProducts shape.reverse.dropLast 1).reverse

/-- `m_number_of_elements`, abstract_multi_array.h:63-64. -/
def numberOfElements (shape : List ℕ) : ℕ := shape.foldl (· * ·) 1

/-- `flat_index`, abstract_multi_array.h:74-83 (`std::inner_product`). -/
def flatIndex (shape idx : List ℕ) : ℕ :=
  (List.zipWith (· * ·) idx (strides shape)).foldl (· + ·) 0

/-- Loop of `multi_dimensional_index`, abstract_multi_array.h:94-98. -/
def unflatten : List ℕ → ℕ → List ℕ
  | [], _ => []
  | s :: l, remain => remain / s :: unflatten l (remain % s)

/-- `multi_dimensional_index`, abstract_multi_array.h:86-100 (and 103-116). -/
def multiIndex (shape : List ℕ) (flat : ℕ) : List ℕ := unflatten (strides shape) flat

/-- Decimal digits, most significant first, as printed by `sprintf("%d")` for a non-negative int. -/
def decimal (n : ℕ) : List Char :=
  if n < 10 then [Nat.digitChar n] else decimal (n / 10) ++ [Nat.digitChar (n % 10)]
termination_by n
decreasing_by omega

/-- `sprintf("%<k>d", n)`: left-padded with blanks to width `k`. -/
def padded (k n : ℕ) : List Char := List.replicate (k - (decimal n).length) ' ' ++ decimal n

/-- `m_max_digits`, abstract_multi_array.h:67: the number of digits of the largest extent. -/
def maxDigits (shape : List ℕ) : ℕ := (decimal (shape.foldl max 0)).length

/-- The loop of `indices_label`, abstract_multi_array.h:130-135. -/
def joinLabel (k : ℕ) : List ℕ → List Char
  | [] => []
  | [n] => padded k n
  | n :: l => padded k n ++ [',', ' '] ++ joinLabel k l

/-- `indices_label`, abstract_multi_array.h:119-137. -/
def indicesLabel (shape : List ℕ) (flat : ℕ) : List Char :=
  if numberOfElements shape = 1 then [] else
    ['['] ++ joinLabel (maxDigits shape) (multiIndex shape flat) ++ [']']

end Printemps.MultiArray
