import Verif.Model.Option

/-! # Specification: what an option file says -/

namespace Printemps.Spec
open Json Opt

/-- The value with the given name in a list of named values. -/
def named {α : Type} (l : List (Str × α)) (k : Str) : Option α := (l.find? (fun p => p.1 = k)).map Prod.snd

/-- The value of the option `s.f`. -/
def option (o : Options) (s f : Str) : Option OVal := (named o s).bind fun l => named l f

/-- What the file says about the option `s.f`: the value of the key `f` in the object of the key `s`. -/
def entry (ms : Members) (s f : Str) : Option Val :=
  match ms.get s with
  | some (.obj m) => m.get f
  | _ => none

/-- The value of an option that an entry stands for: a truth value, an integer, a number (which may be written as an
integer), or an element of an enumeration, by name or by number. -/
inductive Means : Kind → Val → OVal → Prop
  | bool (b) : Means .bool (.bool b) (.bool b)
  | int (n) : Means .int (.int n) (.int n)
  | real (q) : Means .double (.real q) (.real q)
  | whole (n : ℤ) : Means .double (.int n) (.real n)
  | name (names s) (i : ℕ) (h : names[i]? = some s) : Means (.mode names) (.str s) (.mode names i)
  | number (names) (n : ℤ) (h0 : 0 ≤ n) (h1 : n < names.length) : Means (.mode names) (.int n) (.mode names n)

/-- A value has a type. -/
def HasKind : Kind → OVal → Prop
  | .bool, .bool _ => True
  | .int, .int _ => True
  | .double, .real _ => True
  | .mode names, .mode names' n => names' = names ∧ 0 ≤ n ∧ n < names.length
  | _, _ => False

/-- Options: the sections and members there are, with values of the right type. -/
def Typed (o : Options) : Prop :=
  List.Forall₂ (fun (s : Opt.Section) (p : Str × List (Str × OVal)) => p.1 = s.name ∧
    List.Forall₂ (fun (f : Field) (q : Str × OVal) => q.1 = f.name ∧ HasKind f.kind q.2) s.fields p.2) sections o

/-- A value that is printed exactly: integers of type `int`, numbers with at most seven digits. -/
def Exact : OVal → Prop
  | .int n => -2147483648 ≤ n ∧ n ≤ 2147483647
  | .real q => Text.atof (Text.formatE q) = q
  | _ => True

end Printemps.Spec
