import Verif.Model.Json

/-! # What a written document is read as

Documents with any strings that contain no quotation mark, and integers of type `int`.  Reading the file of such a
document gives the same document except that line ends in strings and keys disappear, commas and colons in them
become spaces, brackets in them get a space on their inner side, real numbers are what they are printed as, and
Boolean values directly in arrays become strings. -/

namespace Printemps.Json
open Text

/-- A character of a string, as it is read back. -/
def respellChar (c : Char) : Str :=
  if c = '\n' then []
  else if c = ',' then [' ']
  else if c = ':' then [' ']
  else if c = '{' then ['{', ' ']
  else if c = '}' then [' ', '}']
  else if c = '[' then ['[', ' ']
  else if c = ']' then [' ', ']']
  else [c]

/-- A string or a key, as it is read back. -/
def respell (s : Str) : Str := s.flatMap respellChar

mutual
/-- Strings and keys without quotation marks; integers of type `int`. -/
def CleanV : Val → Prop
  | .null => True
  | .bool _ => True
  | .int n => -2147483648 ≤ n ∧ n ≤ 2147483647
  | .real _ => True
  | .str s => '"' ∉ s
  | .obj ms => CleanM ms
  | .arr es => CleanE es
/-- The same for members. -/
def CleanM : Members → Prop
  | .nil => True
  | .cons k v r => '"' ∉ k ∧ CleanV v ∧ CleanM r
/-- The same for elements. -/
def CleanE : Elems → Prop
  | .nil => True
  | .cons v r => CleanV v ∧ CleanE r
end

mutual
/-- A value, as it is read back; `inArray` says whether it stands directly in an array. -/
def echoV (inArray : Bool) : Val → Val
  | .null => .null
  | .bool b => if inArray then .str (boolChars b) else .bool b
  | .int n => .int n
  | .real q => .real (atof (formatE q))
  | .str s => .str (respell s)
  | .obj ms => .obj (echoM ms)
  | .arr es => .arr (echoE es)
/-- Members, as they are read back. -/
def echoM : Members → Members
  | .nil => .nil
  | .cons k v r => .cons (respell k) (echoV false v) (echoM r)
/-- Elements, as they are read back. -/
def echoE : Elems → Elems
  | .nil => .nil
  | .cons v r => .cons (echoV true v) (echoE r)
end

end Printemps.Json
