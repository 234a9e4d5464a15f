import Verif.Model.Text

/-! # Model of utility/json/json.h

Text and tokens are lists of characters.  Simplifications: all integer types are one (the C++ code throws when it
prints a `long long` inside of an array), `float` and `long double` are not modelled, the index of a `JsonObject` is
the function `Members.get`.  `none` is a thrown exception, undefined behaviour or an endless loop. -/

namespace Printemps.Json
open Text

/-- A key or a string. -/
abbrev Str := List Char

mutual
/-- A value: what `std::any` holds, utility/json/json.h:11-12. -/
inductive Val where
  | null | bool (b : Bool) | int (n : ℤ) | real (q : ℚ) | str (s : Str) | obj (ms : Members) | arr (es : Elems)
/-- `JsonObject::body`, utility/json/json.h:19-21. -/
inductive Members where
  | nil | cons (k : Str) (v : Val) (r : Members)
/-- `JsonArray::body`, utility/json/json.h:81-83. -/
inductive Elems where
  | nil | cons (v : Val) (r : Elems)
end

/-- `JsonObject::get`, utility/json/json.h:67-77: the last member with the key (`map[key]` is overwritten,
utility/json/json.h:43-47). -/
def Members.get (k : Str) : Members → Option Val
  | .nil => none
  | .cons k' v r => match r.get k with
    | some x => some x
    | none => if k' = k then some v else none

/-- `indent_space`, utility/json/json.h:159-166. -/
def indent (n : ℕ) : List Char := List.replicate (4 * n) ' '

/-- `true` or `false`, utility/json/json.h:246-250. -/
def boolChars (b : Bool) : List Char := if b then ['t', 'r', 'u', 'e'] else ['f', 'a', 'l', 's', 'e']
/-- `null`. -/
def kNull : List Char := ['n', 'u', 'l', 'l']

mutual
/-- One value in `operator<<`, utility/json/json.h:182-274 and 321-422; objects 172-282, arrays 311-427.  `n` is the
indent level of the surrounding text. -/
def write (n : ℕ) : Val → List Char
  | .null => kNull
  | .bool b => boolChars b
  | .int i => intChars i
  | .real q => formatE q
  | .str s => '"' :: (s ++ ['"'])
  | .obj .nil => ['{', '}']
  | .obj (.cons k v r) => '{' :: ' ' :: (writeMembers (n + 1) [] (.cons k v r) ++ '\n' :: (indent n ++ ['}']))
  | .arr .nil => ['[', ']']
  | .arr (.cons v r) => '[' :: ' ' :: (writeElems (n + 1) [] (.cons v r) ++ '\n' :: (indent n ++ [']']))
/-- The loop over the members, utility/json/json.h:182-276; `sep` is the separator before the first of them. -/
def writeMembers (n : ℕ) (sep : List Char) : Members → List Char
  | .nil => []
  | .cons k v r => sep ++ '\n' :: (indent n ++ '"' :: (k ++ '"' :: ':' :: ' ' :: (write n v ++ writeMembers n [',', ' '] r)))
/-- The loop over the elements, utility/json/json.h:321-422. -/
def writeElems (n : ℕ) (sep : List Char) : Elems → List Char
  | .nil => []
  | .cons v r => sep ++ '\n' :: (indent n ++ (write n v ++ writeElems n [',', ' '] r))
end

/-- `close_count`, utility/json/json.h:285-308, with the count and the quotation flag so far. -/
def closeCount (l r : Char) (count : ℤ) (quoted : Bool) : List Char → ℤ
  | [] => count
  | c :: cs =>
    if quoted then closeCount l r count (if c = '"' then false else true) cs
    else if c = '"' then closeCount l r count true cs
    else if c = l then closeCount l r (count + 1) false cs
    else if c = r then closeCount l r (count - 1) false cs
    else closeCount l r count false cs

/-- The rule `\r\n` to nothing, utility/json/json.h:432. -/
def dropCrLf : List Char → List Char
  | '\r' :: '\n' :: cs => dropCrLf cs
  | c :: cs => c :: dropCrLf cs
  | [] => []

/-- A rule for one character, utility/json/json.h:433-444. -/
def replace (c : Char) (w : List Char) (cs : List Char) : List Char := cs.flatMap (fun d => if d = c then w else [d])

/-- The replacements before the tokens are split, utility/json/json.h:431-444, in this order. -/
def preprocess (cs : List Char) : List Char :=
  replace ']' [' ', ']'] (replace '[' ['[', ' '] (replace '}' [' ', '}'] (replace '{' ['{', ' ']
    (replace ':' [' '] (replace ',' [' '] (dropCrLf cs))))))

/-- Splitting into tokens, utility/json/json.h:446-480; `cur` is the open token (`[]` if none), `quoted` the
quotation flag. -/
def split (cur : List Char) (quoted : Bool) : List Char → List (List Char)
  | [] => if cur = [] then [] else [cur]
  | c :: cs =>
    let q := if c = '"' then !quoted else quoted
    if c = ' ' ∨ c = '\t' then
      if cur = [] then split [] q cs
      else if q then split (cur ++ [c]) q cs
      else cur :: split [] q cs
    else split (cur ++ [c]) q cs

/-- `tokenize`, utility/json/json.h:430-480. -/
def tokenize (cs : List Char) : List (List Char) := split [] false (preprocess cs)

/-- The loop of `find_end_position`, utility/json/json.h:483-501, from index `i` on. -/
def findEndFrom (l r : Str) (count : ℤ) (i : ℕ) : List Str → ℕ
  | [] => 0
  | t :: ts =>
    if t = l then findEndFrom l r (count + 1) (i + 1) ts
    else if t = r then (if count - 1 = 0 then i else findEndFrom l r (count - 1) (i + 1) ts)
    else findEndFrom l r count (i + 1) ts

/-- `find_end_position`, utility/json/json.h:483-501. -/
def findEnd (ts : List Str) (start : ℕ) (l r : Str) : ℕ := findEndFrom l r 0 start (ts.drop start)

/-- `is_integer`, utility/json/json.h:141-156. -/
def isInteger : List Char → Bool
  | [] => true
  | c :: cs => (isDigit c || c == '+' || c == '-') && cs.all isDigit

/-- `TOKEN.substr(1, TOKEN.size() - 2)`, utility/json/json.h:524, 557. -/
def unquote (t : Str) : Str := (t.drop 1).take (t.length - 2)

/-- A token that is not a bracket, in an object, utility/json/json.h:553-583. -/
def leaf (t : Str) : Option Val :=
  if t.head? = some '"' then some (.str (unquote t))
  else if t = kNull then some .null
  else if t = boolChars true then some (.bool true)
  else if t = boolChars false then some (.bool false)
  else if isInteger t then (stoi t).map .int
  else (stod t).map .real

/-- A token that is not a bracket, in an array, utility/json/json.h:623-653: `true` and `false` become strings. -/
def leafArr (t : Str) : Option Val :=
  if t.head? = some '"' then some (.str (unquote t))
  else if t = kNull then some .null
  else if t = boolChars true then some (.str (boolChars true))
  else if t = boolChars false then some (.str (boolChars false))
  else if isInteger t then (stoi t).map .int
  else (stod t).map .real

/-- `END_POSITION`, utility/json/json.h:515-516, 599-600. -/
def endPosition (ts : List Str) (e : ℕ) : ℕ := if e > 0 then e else ts.length - 1

mutual
/-- The loop of `parse_json_object`, utility/json/json.h:520-588, from `position` on, one key and one value at a
time.  The first argument bounds the steps. -/
def objLoop : ℕ → List Str → ℕ → ℕ → Option Members
  | 0, _, _, _ => none
  | fuel + 1, ts, stop, pos =>
    if pos < stop then
      if pos + 1 < stop then
        match ts[pos]?, ts[pos + 1]? with
        | some k, some t =>
          if t = ['{'] then
            let e := findEnd ts (pos + 1) ['{'] ['}']
            (objLoop fuel ts (endPosition ts e) (pos + 2)).bind fun ms =>
              (objLoop fuel ts stop (e + 1)).map fun r => .cons (unquote k) (.obj ms) r
          else if t = ['['] then
            let e := findEnd ts (pos + 1) ['['] [']']
            (arrLoop fuel ts (endPosition ts e) (pos + 2)).bind fun es =>
              (objLoop fuel ts stop (e + 1)).map fun r => .cons (unquote k) (.arr es) r
          else (leaf t).bind fun v => (objLoop fuel ts stop (pos + 2)).map fun r => .cons (unquote k) v r
        | _, _ => none
      else some .nil
    else some .nil
/-- The loop of `parse_json_array`, utility/json/json.h:602-656. -/
def arrLoop : ℕ → List Str → ℕ → ℕ → Option Elems
  | 0, _, _, _ => none
  | fuel + 1, ts, stop, pos =>
    if pos < stop then
      match ts[pos]? with
      | some t =>
        if t = ['{'] then
          let e := findEnd ts pos ['{'] ['}']
          (objLoop fuel ts (endPosition ts e) (pos + 1)).bind fun ms =>
            (arrLoop fuel ts stop (e + 1)).map fun r => .cons (.obj ms) r
        else if t = ['['] then
          let e := findEnd ts pos ['['] [']']
          (arrLoop fuel ts (endPosition ts e) (pos + 1)).bind fun es =>
            (arrLoop fuel ts stop (e + 1)).map fun r => .cons (.arr es) r
        else (leafArr t).bind fun v => (arrLoop fuel ts stop (pos + 1)).map fun r => .cons v r
      | none => none
    else some .nil
end

/-- `parse_json_object` on a text, utility/json/json.h:662-665. -/
def parseObject (fuel : ℕ) (cs : List Char) : Option Members :=
  let ts := tokenize cs
  if ts = [] then none else objLoop fuel ts (endPosition ts 0) 1

/-- `parse_json_array` on a text, utility/json/json.h:668-671. -/
def parseArray (fuel : ℕ) (cs : List Char) : Option Elems :=
  let ts := tokenize cs
  if ts = [] then none else arrLoop fuel ts (endPosition ts 0) 1

/-- The loop over `std::getline`, utility/json/json.h:702-704, 741-743: the lines are joined without the line
ends. -/
def joinLines (cs : List Char) : List Char := cs.filter (fun c => c ≠ '\n')

/-- `read_json_object`, utility/json/json.h:690-726, on the content of the file. -/
def readObject (fuel : ℕ) (file : List Char) : Option Members :=
  let s := joinLines file
  if closeCount '{' '}' 0 false s ≠ 0 then none
  else if closeCount '[' ']' 0 false s ≠ 0 then none
  else if (tokenize s).head? ≠ some ['{'] ∨ (tokenize s).getLast? ≠ some ['}'] then none
  else parseObject fuel s

/-- `read_json_array`, utility/json/json.h:729-765. -/
def readArray (fuel : ℕ) (file : List Char) : Option Elems :=
  let s := joinLines file
  if closeCount '{' '}' 0 false s ≠ 0 then none
  else if closeCount '[' ']' 0 false s ≠ 0 then none
  else if (tokenize s).head? ≠ some ['['] ∨ (tokenize s).getLast? ≠ some [']'] then none
  else parseArray fuel s

end Printemps.Json
