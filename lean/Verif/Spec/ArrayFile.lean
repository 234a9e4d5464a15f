import Verif.Model.ArrayFile
import Verif.Spec.Json

/-! # What a file with the values of a solution should say -/

namespace Printemps.Spec
open Json ArrayFile

/-- The element number `i` of an array. -/
def nth : Elems → ℕ → Option Val
  | .nil, _ => none
  | .cons v _, 0 => some v
  | .cons _ r, i + 1 => nth r i

/-- The value at a multi-dimensional index of nested arrays: `array[i][j]…`. -/
def entryAt : Val → List ℕ → Option Val
  | v, [] => some v
  | .arr es, i :: is => (nth es i).bind fun v => entryAt v is
  | _, _ :: _ => none

/-- An index within a shape. -/
def Within (shape idx : List ℕ) : Prop := List.Forall₂ (· < ·) idx shape

/-- The place of an element: elements are kept in the order of their indices, the last one running fastest. -/
def place : List ℕ → List ℕ → ℕ
  | [], _ => 0
  | _, [] => 0
  | _ :: rest, i :: is => i * rest.prod + place rest is

/-- A number rounded to six decimals: half a millionth off at most. -/
def SixDecimals (q r : ℚ) : Prop := (∃ k : ℤ, r = k / 1000000) ∧ |r - q| ≤ 1 / 2000000

/-- What is written for a value: integers as they are, real numbers with six decimals. -/
def Written : Num → Val → Prop
  | .int n, v => v = .int n
  | .real q, v => ∃ r, v = .real r ∧ SixDecimals q r

/-- The array `v` has the values of the proxy at their indices, and no others. -/
def Shows (x : Proxy) (v : Val) : Prop :=
  (∀ idx, Within x.shape idx → ∃ n w, x.values[place x.shape idx]? = some n ∧ entryAt v idx = some w ∧ Written n w) ∧
  (∀ idx, idx.length = x.shape.length → ¬ Within x.shape idx → entryAt v idx = none)

/-- A proxy as the library makes them: at least one dimension, and as many values and names as the shape says; integers are of
type `int`. -/
structure WellMade (x : Proxy) : Prop where
  shape : x.shape ≠ []
  values : x.values.length = x.shape.prod
  names : x.names.length = x.shape.prod
  ints : ∀ n, Num.int n ∈ x.values → -2147483648 ≤ n ∧ n ≤ 2147483647

/-- The array `v` has the very values of the proxy at their indices, and no others. -/
def ShowsExactly (x : Proxy) (v : Val) : Prop :=
  (∀ idx, Within x.shape idx → ∃ n, x.values[place x.shape idx]? = some n ∧ entryAt v idx = some n.val) ∧
  (∀ idx, idx.length = x.shape.length → ¬ Within x.shape idx → entryAt v idx = none)

/-- A number that the text formats of the library do not change: six decimals and seven digits are enough for it. -/
def Short (q : ℚ) : Prop := (∃ k : ℤ, q = k / 1000000) ∧ Text.atof (Text.formatE q) = q

/-- A solution whose numbers are short, whose names are plain, and whose counts are of type `int`. -/
structure ShortSolution (s : Named) : Prop where
  name : PlainS s.name
  counts : (-2147483648 ≤ s.numberOfVariables ∧ s.numberOfVariables ≤ 2147483647) ∧
    (-2147483648 ≤ s.numberOfConstraints ∧ s.numberOfConstraints ≤ 2147483647)
  objective : Text.atof (Text.formatE s.objective) = s.objective
  violation : Text.atof (Text.formatE s.totalViolation) = s.totalViolation
  reals : ∀ x ∈ s.variables_ ++ s.expressions ++ s.constraints ++ s.violations, ∀ q, Num.real q ∈ x.values → Short q

/-- The names and the lists of a section. -/
def fileSections (s : Named) : List (Str × List Proxy) :=
  [(sVariables, s.variables_), (sExpressions, s.expressions), (sConstraints, s.constraints), (sViolations, s.violations)]

/-- Every section has arrays that are well made, with names that are plain and distinct. -/
def GoodSections (s : Named) : Prop := ∀ y ∈ fileSections s, (∀ x ∈ y.2, WellMade x ∧ PlainS x.name) ∧ (y.2.map Proxy.name).Nodup

/-- A number is right in seven digits. -/
def SevenDigits (q q' : ℚ) : Prop := |q' - q| ≤ |q| / 2000000

/-- What is read for a value: an integer as it is, a real number in seven digits. -/
def ReadAs : Num → Val → Prop
  | .int n, v => v = .int n
  | .real q, v => ∃ r, v = .real r ∧ SevenDigits q r

end Printemps.Spec
