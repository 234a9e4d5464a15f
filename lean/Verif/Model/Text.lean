import Mathlib.Data.Nat.Log
import Mathlib.Data.Rat.Defs
import Mathlib.Data.Rat.Floor

/-! # Text: numbers and tokens of the C++ standard library, as used by the readers and writers

Only the parts used by mps/mps.h, utility/json/json.h and the writers of model/model.h.  Text is a list of
characters.  Simplification: numbers are exact decimals (no rounding to the nearest `double` when reading). -/

namespace Printemps.Text

/-- `std::isspace` of the "C" locale, as used by `stream >> item`, mps/mps.h:98-100. -/
def isSpace (c : Char) : Bool :=
  c == ' ' || c == '\t' || c == '\n' || c == '\r' || c == Char.ofNat 11 || c == Char.ofNat 12

/-- `while (stream >> item)`, mps/mps.h:98-100, with the characters `cur` of the current item read so far. -/
def tokensFrom (cur : List Char) : List Char → List (List Char)
  | [] => if cur = [] then [] else [cur]
  | c :: cs =>
    if isSpace c then (if cur = [] then tokensFrom [] cs else cur :: tokensFrom [] cs)
    else tokensFrom (cur ++ [c]) cs

/-- The items of a line, mps/mps.h:94-100. -/
def tokens (line : List Char) : List (List Char) := tokensFrom [] line

/-- `utility::delete_space`, utility/string_utility.h:52-61. -/
def deleteSpace (s : List Char) : List Char := s.filter (fun c => c ≠ ' ')

/-- `std::isdigit`. -/
def isDigit (c : Char) : Bool := decide (48 ≤ c.toNat ∧ c.toNat ≤ 57)

/-- The character of a digit. -/
def digitChar (d : ℕ) : Char := Char.ofNat (48 + d)

/-- The decimal digits of a number (with as many steps as the first argument allows). -/
def natCharsAux : ℕ → ℕ → List Char
  | 0, _ => []
  | fuel + 1, n => if n < 10 then [digitChar n] else natCharsAux fuel (n / 10) ++ [digitChar (n % 10)]

/-- `std::to_string` / `<<` of a non-negative integer. -/
def natChars (n : ℕ) : List Char := natCharsAux (n + 1) n

/-- `std::to_string` / `<<` of an integer. -/
def intChars (n : ℤ) : List Char := if n < 0 then '-' :: natChars n.natAbs else natChars n.natAbs

/-- Reading digits from the front: value (starting from `acc`), number of digits (starting from `k`), rest. -/
def readDigits (acc k : ℕ) : List Char → ℕ × ℕ × List Char
  | [] => (acc, k, [])
  | c :: cs => if isDigit c then readDigits (acc * 10 + (c.toNat - 48)) (k + 1) cs else (acc, k, c :: cs)

/-- An optional sign. -/
def readSign : List Char → Bool × List Char
  | '-' :: cs => (true, cs)
  | '+' :: cs => (false, cs)
  | cs => (false, cs)

/-- An optional exponent. -/
def readExponent : List Char → ℤ
  | c :: cs =>
    if c = 'e' ∨ c = 'E' then
      let s := readSign cs
      let v : ℤ := (readDigits 0 0 s.2).1
      if s.1 then -v else v
    else 0
  | [] => 0

/-- `a * 10^e`. -/
def scale10 (a : ℚ) (e : ℤ) : ℚ := if 0 ≤ e then a * 10 ^ e.toNat else a / 10 ^ (-e).toNat

/-- `atof` / `std::stod` on decimal notation.  Simplification: hexadecimal notation, `inf`, `nan` and leading
white space are not modelled. -/
def atof (cs : List Char) : ℚ :=
  let s := readSign cs
  let i := readDigits 0 0 s.2
  let f := match i.2.2 with
    | '.' :: r => readDigits i.1 0 r
    | r => (i.1, 0, r)
  let v := scale10 (f.1 : ℚ) (readExponent f.2.2 - f.2.1)
  if s.1 then -v else v

/-- `static_cast<int>(double)`: truncation towards zero; `none` (undefined behaviour) outside of `int`. -/
def toInt (q : ℚ) : Option ℤ :=
  let t : ℤ := if q < 0 then -⌊-q⌋ else ⌊q⌋
  if -2147483648 ≤ t ∧ t ≤ 2147483647 then some t else none

/-- Digits without trailing zeros. -/
def stripZeros (cs : List Char) : List Char := (cs.reverse.dropWhile (fun c => c = '0')).reverse

/-- Rounding to the nearest integer, ties to even. -/
def roundEven (q : ℚ) : ℕ :=
  let n := ⌊q⌋.toNat
  let d := q - n
  if d > 1 / 2 ∨ (d = 1 / 2 ∧ n % 2 = 1) then n + 1 else n

/-- The decimal exponent of a positive number. -/
def exponent10 (q : ℚ) : ℤ :=
  if 1 ≤ q then (Nat.log 10 ⌊q⌋.toNat : ℤ) else -(Nat.clog 10 ⌈1 / q⌉.toNat : ℤ)

/-- `%g` with six significant digits of a positive number. -/
def formatPositive (q : ℚ) : List Char :=
  let e0 := exponent10 q
  let m0 := roundEven (scale10 q (5 - e0))
  let m := if m0 ≥ 1000000 then 100000 else m0
  let e := if m0 ≥ 1000000 then e0 + 1 else e0
  let ds := natChars m
  if -4 ≤ e ∧ e < 6 then
    let ip := if 0 ≤ e then ds.take (e.toNat + 1) else ['0']
    let fp := stripZeros (if 0 ≤ e then ds.drop (e.toNat + 1) else List.replicate ((-e).toNat - 1) '0' ++ ds)
    if fp = [] then ip else ip ++ '.' :: fp
  else
    let fp := stripZeros (ds.drop 1)
    let ex := natChars e.natAbs
    (ds.take 1) ++ (if fp = [] then [] else '.' :: fp) ++ ['e', if e < 0 then '-' else '+'] ++
      (if ex.length < 2 then '0' :: ex else ex)

/-- `ofs << x` for a `double`: `%g` with six significant digits (the default format of a stream).  Integers
below one million are printed as their digits. -/
def formatDouble (q : ℚ) : List Char :=
  if q.den = 1 ∧ q.num.natAbs < 1000000 then intChars q.num
  else if q < 0 then '-' :: formatPositive (-q) else formatPositive q

/-- `%e` of a positive number: one digit, a point, six digits and the exponent. -/
def formatPositiveE (q : ℚ) : List Char :=
  let e0 := exponent10 q
  let m0 := roundEven (scale10 q (6 - e0))
  let m := if m0 ≥ 10000000 then 1000000 else m0
  let e := if m0 ≥ 10000000 then e0 + 1 else e0
  let ds := natChars m
  let ex := natChars e.natAbs
  (ds.take 1) ++ '.' :: (ds.drop 1 ++ 'e' :: (if e < 0 then '-' else '+') :: (if ex.length < 2 then '0' :: ex else ex))

/-- `os << std::scientific << x` for a `double`, utility/json/json.h:231-245. -/
def formatE (q : ℚ) : List Char :=
  if q = 0 then ['0', '.', '0', '0', '0', '0', '0', '0', 'e', '+', '0', '0']
  else if q < 0 then '-' :: formatPositiveE (-q) else formatPositiveE q

/-- `std::stoi`: `none` is a thrown exception (no digits, or outside of `int`). -/
def stoi (cs : List Char) : Option ℤ :=
  let s := readSign cs
  let d := readDigits 0 0 s.2
  let v : ℤ := if s.1 then -d.1 else d.1
  if d.2.1 = 0 then none else if -2147483648 ≤ v ∧ v ≤ 2147483647 then some v else none

/-- `std::stod`: `none` is a thrown exception (no digits).  Simplification: as for `atof`; overflow is not
modelled. -/
def stod (cs : List Char) : Option ℚ :=
  let i := readDigits 0 0 (readSign cs).2
  let f := match i.2.2 with
    | '.' :: r => (readDigits 0 0 r).2.1
    | _ => 0
  if i.2.1 + f = 0 then none else some (atof cs)

end Printemps.Text
