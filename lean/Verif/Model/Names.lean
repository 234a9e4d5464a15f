import Verif.Model.MultiArray
import Verif.Model.Presolve

/-! # Model of the names of variables, expressions and constraints

`create_variable(s)` etc. and `setup_unique_names` of model/model.h.  A name is a list of characters.  Every
element refers to an extension object holding its name (multi_array/abstract_multi_array_element.h:12-23); the
memory of extensions is a function from addresses to names. -/

namespace Printemps.Names
open MultiArray

/-- A name, a `std::string` (multi_array/abstract_multi_array_element.h:16). -/
abbrev Name := List Char

/-- An array and its name: `m_variable_proxies[i]` with `m_variable_names[i]` (and the same for expressions and
constraints), model/model.h:28-43; `ext j` is the address of the extension of the `j`-th element. -/
structure NamedArray where
  name : Name
  shape : List ℕ
  ext : ℕ → ℕ

/-- `MAX_NUMBER_OF_VARIABLE_PROXIES` and the two others, model/model.h:17-19. -/
def MAX_PROXIES : ℕ := 100

/-- `utility::has_space`, utility/string_utility.h:41-49. -/
def hasSpace (s : Name) : Bool := s.any (fun c => c = ' ')

/-- `create_variables(name, shape)`, model/model.h:253-281 (lines 171-197 and 211-238 for scalars and vectors;
the functions for expressions and constraints are alike): the arrays after the call.  The addresses of the
extensions are a parameter.  Simplification: the failure for an empty shape is not modelled. -/
def create (arrays : List NamedArray) (name : Name) (shape : List ℕ) (ext : ℕ → ℕ) :
    Outcome (List NamedArray) :=
  if hasSpace name then .thrown
  else if arrays.length ≥ MAX_PROXIES then .thrown
  else .ok (arrays ++ [⟨name, shape, ext⟩])

/-- The body of the inner loops of `setup_unique_names`, model/model.h:879-885, 894-901, 910-917: an element
without a name gets the name of the array followed by its label. -/
def nameElement (a : NamedArray) (mem : ℕ → Name) (j : ℕ) : ℕ → Name :=
  if mem (a.ext j) = [] then fun p => if p = a.ext j then a.name ++ indicesLabel a.shape j else mem p
  else mem

/-- An inner loop of `setup_unique_names`, model/model.h:876-886. -/
def nameArray (mem : ℕ → Name) (a : NamedArray) : ℕ → Name :=
  (List.range (numberOfElements a.shape)).foldl (nameElement a) mem

/-- An outer loop of `setup_unique_names`, model/model.h:875-887 (variables), 890-903 (expressions) and 906-919
(constraints). -/
def setupUniqueNames (arrays : List NamedArray) (mem : ℕ → Name) : ℕ → Name := arrays.foldl nameArray mem

end Printemps.Names
