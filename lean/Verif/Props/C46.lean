import Verif.Lemmas.Scientific
import Verif.Lemmas.JsonEcho

/-! # C46 — JSON documents survive a round trip -/

namespace Printemps.C46
open Json Text

theorem getLast_tk (t b : Str) (ts : List Str) : (t :: (ts ++ [b])).getLast? = some b := by
  rw [← List.cons_append, List.getLast?_append]
  simp

/-- An object written to a file (at any indent level) and read back is the same object: the same keys in the same
order, with the same values at any depth. -/
theorem file_round_trip_object_partial (ms : Members) (h : PlainM ms) (n : ℕ) :
    ∃ N, ∀ fuel ≥ N, readObject fuel (write n (.obj ms)) = some ms := by
  have hv : PlainV false (.obj ms) := by unfold PlainV; exact h
  obtain ⟨N, hN⟩ := parses_members ms h
  refine ⟨N, fun fuel hf => ?_⟩
  have ht := tokenize_write n (.obj ms) false hv
  have e : tk (.obj ms) = ['{'] :: (tkM ms ++ [['}']]) := by rw [tk]
  unfold readObject parseObject
  dsimp only
  rw [close_write _ _ (Or.inl ⟨rfl, rfl⟩) n _ false hv, close_write _ _ (Or.inr ⟨rfl, rfl⟩) n _ false hv, ht, e,
    if_neg (by decide), if_neg (by decide), if_neg (by rw [getLast_tk]; simp), if_neg (by simp)]
  have he : endPosition (['{'] :: (tkM ms ++ [['}']])) 0 = 0 + 1 + (tkM ms).length := by
    simp [endPosition]
    omega
  have := hN fuel hf [['{']] [['}']]
  simp only [List.length_cons, List.length_nil, List.singleton_append] at this
  rw [he]
  exact this

/-- The same for arrays. -/
theorem file_round_trip_array_partial (es : Elems) (h : PlainE es) (n : ℕ) :
    ∃ N, ∀ fuel ≥ N, readArray fuel (write n (.arr es)) = some es := by
  have hv : PlainV false (.arr es) := by unfold PlainV; exact h
  obtain ⟨N, hN⟩ := parses_elems es h
  refine ⟨N, fun fuel hf => ?_⟩
  have ht := tokenize_write n (.arr es) false hv
  have e : tk (.arr es) = ['['] :: (tkE es ++ [[']']]) := by rw [tk]
  unfold readArray parseArray
  dsimp only
  rw [close_write _ _ (Or.inl ⟨rfl, rfl⟩) n _ false hv, close_write _ _ (Or.inr ⟨rfl, rfl⟩) n _ false hv, ht, e,
    if_neg (by decide), if_neg (by decide), if_neg (by rw [getLast_tk]; simp), if_neg (by simp)]
  have he : endPosition (['['] :: (tkE es ++ [[']']])) 0 = 0 + 1 + (tkE es).length := by
    simp [endPosition]
    omega
  have := hN fuel hf [['[']] [[']']]
  simp only [List.length_cons, List.length_nil, List.singleton_append] at this
  rw [he]
  exact this

/-- Two plain objects with the same text are the same object. -/
theorem text_determines_object (a b : Members) (ha : PlainM a) (hb : PlainM b) (n : ℕ)
    (h : write n (.obj a) = write n (.obj b)) : a = b := by
  obtain ⟨N, hN⟩ := file_round_trip_object_partial a ha n
  obtain ⟨M, hM⟩ := file_round_trip_object_partial b hb n
  have h1 := hN (N + M) (by omega)
  have h2 := hM (N + M) (by omega)
  rw [h, h2] at h1
  exact (Option.some.inj h1).symm

/-- A document with nested objects and arrays, integers, null, a Boolean value and strings is plain … -/
def sample : Members :=
  .cons ['a'] (.int (-12)) (.cons ['b', ' ', 'c'] (.arr (.cons (.str ['x', ' ', 'y']) (.cons .null
    (.cons (.obj (.cons ['d'] (.bool true) .nil)) (.cons (.arr .nil) .nil))))) (.cons ['e'] (.obj .nil)
    (.cons ['f'] (.real (5 / 2)) .nil)))

theorem sample_plain : PlainM sample := by
  simp only [sample, PlainM, PlainV, PlainE]
  decide +kernel

/-- … and is read back. -/
example : ∃ N, ∀ fuel ≥ N, readObject fuel (write 0 (.obj sample)) = some sample :=
  file_round_trip_object_partial sample sample_plain 0
example : ∃ N, ∀ fuel ≥ N, readArray fuel (write 2 (.arr (.cons (.obj sample) .nil))) = some (.cons (.obj sample) .nil) :=
  file_round_trip_array_partial _ (by unfold PlainE PlainE; unfold PlainV; exact ⟨sample_plain, trivial⟩) 2

/-! ## Documents with any strings -/

/-- An object with any strings and keys without quotation marks, and any real numbers and Boolean values, written to
a file (at any indent level) and read back: every key and every value is found at its place, spelled as `echoM` says. -/
theorem file_is_echo_object (ms : Members) (h : CleanM ms) (n : ℕ) :
    ∃ N, ∀ fuel ≥ N, readObject fuel (write n (.obj ms)) = some (echoM ms) := by
  have hv : CleanV (.obj ms) := by unfold CleanV; exact h
  obtain ⟨N, hN⟩ := cparses_members ms h
  refine ⟨N, fun fuel hf => ?_⟩
  have ht := ctokenize_write n (.obj ms) hv
  have e : tk (spellV (.obj ms)) = ['{'] :: (tkM (spellM ms) ++ [['}']]) := by rw [spellV, tk]
  unfold readObject parseObject
  dsimp only
  rw [cclose_write _ _ (Or.inl ⟨rfl, rfl⟩) n _ hv, cclose_write _ _ (Or.inr ⟨rfl, rfl⟩) n _ hv, ht, e,
    if_neg (by decide), if_neg (by decide), if_neg (by rw [getLast_tk]; simp), if_neg (by simp)]
  have he : endPosition (['{'] :: (tkM (spellM ms) ++ [['}']])) 0 = 0 + 1 + (tkM (spellM ms)).length := by
    simp [endPosition]
    omega
  have := hN fuel hf [['{']] [['}']]
  simp only [List.length_cons, List.length_nil, List.singleton_append] at this
  rw [he]
  exact this

/-- The same for arrays. -/
theorem file_is_echo_array (es : Elems) (h : CleanE es) (n : ℕ) :
    ∃ N, ∀ fuel ≥ N, readArray fuel (write n (.arr es)) = some (echoE es) := by
  have hv : CleanV (.arr es) := by unfold CleanV; exact h
  obtain ⟨N, hN⟩ := cparses_elems es h
  refine ⟨N, fun fuel hf => ?_⟩
  have ht := ctokenize_write n (.arr es) hv
  have e : tk (spellV (.arr es)) = ['['] :: (tkE (spellE es) ++ [[']']]) := by rw [spellV, tk]
  unfold readArray parseArray
  dsimp only
  rw [cclose_write _ _ (Or.inl ⟨rfl, rfl⟩) n _ hv, cclose_write _ _ (Or.inr ⟨rfl, rfl⟩) n _ hv, ht, e,
    if_neg (by decide), if_neg (by decide), if_neg (by rw [getLast_tk]; simp), if_neg (by simp)]
  have he : endPosition (['['] :: (tkE (spellE es) ++ [[']']])) 0 = 0 + 1 + (tkE (spellE es)).length := by
    simp [endPosition]
    omega
  have := hN fuel hf [['[']] [[']']]
  simp only [List.length_cons, List.length_nil, List.singleton_append] at this
  rw [he]
  exact this

/-- A document with the names the library gives to the elements of arrays, an inexact number, a line end in a string
and a Boolean value in an array. -/
def named : Members :=
  .cons ['x', '[', '0', ',', ' ', '1', ']'] (.real (1 / 3)) (.cons ['a', ':', 'b'] (.arr (.cons (.bool false)
    (.cons (.str ['p', '\n', 'q', '}']) .nil))) .nil)

/-- It is read back with other keys, a rounded number, another string and a string for the Boolean value. -/
example : ∃ N, ∀ fuel ≥ N, readObject fuel (write 0 (.obj named)) =
    some (.cons ['x', '[', ' ', '0', ' ', ' ', '1', ' ', ']'] (.real (3333333 / 10000000)) (.cons ['a', ' ', 'b']
      (.arr (.cons (.str ['f', 'a', 'l', 's', 'e']) (.cons (.str ['p', 'q', ' ', '}']) .nil))) .nil)) := by
  obtain ⟨N, hN⟩ := file_is_echo_object named (by simp only [named, CleanM, CleanV, CleanE]; decide) 0
  refine ⟨N, fun fuel hf => ?_⟩
  rw [hN fuel hf]
  simp only [named, echoM, echoV, echoE]
  rw [show atof (formatE (1 / 3)) = 3333333 / 10000000 by decide +kernel]
  rfl

theorem respell_plain (s : Str) (h : PlainS s) : respell s = s := by rw [← pj_respell, pj_plain s h]

mutual
theorem echoV_plain (a : Bool) (v : Val) (h : PlainV a v) : CleanV v ∧ echoV a v = v := by
  match v, h with
  | .null, _ => exact ⟨by unfold CleanV; trivial, by rw [echoV]⟩
  | .bool b, h => unfold PlainV at h; exact ⟨by unfold CleanV; trivial, by rw [echoV, h]; rfl⟩
  | .int n, h => unfold PlainV at h; exact ⟨by unfold CleanV; exact h, by rw [echoV]⟩
  | .real q, h => unfold PlainV at h; exact ⟨by unfold CleanV; trivial, by rw [echoV, h]⟩
  | .str s, h =>
    unfold PlainV at h
    exact ⟨by unfold CleanV; exact fun hm => h _ hm (by simp), by rw [echoV, respell_plain s h]⟩
  | .obj ms, h =>
    unfold PlainV at h
    obtain ⟨h1, h2⟩ := echoM_plain ms h
    exact ⟨by unfold CleanV; exact h1, by rw [echoV, h2]⟩
  | .arr es, h =>
    unfold PlainV at h
    obtain ⟨h1, h2⟩ := echoE_plain es h
    exact ⟨by unfold CleanV; exact h1, by rw [echoV, h2]⟩
/-- Plain documents are read as they are: `file_round_trip_object_partial` is a case of `file_is_echo_object`. -/
theorem echoM_plain (ms : Members) (h : PlainM ms) : CleanM ms ∧ echoM ms = ms := by
  match ms, h with
  | .nil, _ => exact ⟨by unfold CleanM; trivial, by rw [echoM]⟩
  | .cons k v r, h =>
    unfold PlainM at h
    obtain ⟨h1, h2⟩ := echoV_plain false v h.2.1
    obtain ⟨h3, h4⟩ := echoM_plain r h.2.2
    exact ⟨by unfold CleanM; exact ⟨fun hm => h.1 _ hm (by simp), h1, h3⟩, by rw [echoM, respell_plain k h.1, h2, h4]⟩
theorem echoE_plain (es : Elems) (h : PlainE es) : CleanE es ∧ echoE es = es := by
  match es, h with
  | .nil, _ => exact ⟨by unfold CleanE; trivial, by rw [echoE]⟩
  | .cons v r, h =>
    unfold PlainE at h
    obtain ⟨h1, h2⟩ := echoV_plain true v h.1
    obtain ⟨h3, h4⟩ := echoE_plain r h.2
    exact ⟨by unfold CleanE; exact ⟨h1, h3⟩, by rw [echoE, h2, h4]⟩
end

/-! ## What does not survive -/

/-- A quotation mark in a string makes the file unreadable. -/
theorem quote_in_string_throws : ∀ fuel, readArray fuel (write 0 (.arr (.cons (.str ['a', '"', 'b']) .nil))) = none := by
  intro fuel
  have ht : (tokenize (joinLines (write 0 (.arr (.cons (.str ['a', '"', 'b']) .nil))))).getLast? ≠ some [']'] := by
    decide +kernel
  unfold readArray
  dsimp only
  repeat' split
  all_goals first
    | rfl
    | exact absurd (by assumption) ht
    | skip
  all_goals simp_all

/-- Parsing the printed text itself (not through a file) reads another document, because the line ends are taken for
letters: `{"a": 1}` becomes `{"": "a"}`. -/
theorem text_parser_wrong : PlainM (.cons ['a'] (.int 1) .nil) ∧
    ∀ fuel ≥ 5, parseObject fuel (write 0 (.obj (.cons ['a'] (.int 1) .nil))) = some (.cons [] (.str ['a']) .nil) := by
  refine ⟨by simp only [PlainM, PlainV]; decide, fun fuel hf => ?_⟩
  obtain ⟨fuel, rfl⟩ : ∃ f, fuel = f + 5 := ⟨fuel - 5, by omega⟩
  have ht : tokenize (write 0 (.obj (.cons ['a'] (.int 1) .nil))) = [['{'], ['\n'], ['"', 'a', '"'], ['1', '\n'], ['}']] := by
    decide +kernel
  unfold parseObject
  dsimp only
  rw [ht]
  rfl

/-- A Boolean value in an array becomes a string. -/
theorem boolean_in_array_lost : ∀ fuel ≥ 5, readArray fuel (write 0 (.arr (.cons (.bool true) .nil))) =
    some (.cons (.str ['t', 'r', 'u', 'e']) .nil) := by
  intro fuel hf
  obtain ⟨fuel, rfl⟩ : ∃ f, fuel = f + 5 := ⟨fuel - 5, by omega⟩
  have ht : tokenize (joinLines (write 0 (.arr (.cons (.bool true) .nil)))) = [['['], ['t', 'r', 'u', 'e'], [']']] := by
    decide +kernel
  unfold readArray parseArray
  dsimp only
  rw [ht, show closeCount '{' '}' 0 false (joinLines (write 0 (.arr (.cons (.bool true) .nil)))) = 0 by decide +kernel,
    show closeCount '[' ']' 0 false (joinLines (write 0 (.arr (.cons (.bool true) .nil)))) = 0 by decide +kernel]
  rfl

/-- A comma in a string becomes a space. -/
theorem comma_in_string_lost : ∀ fuel ≥ 5, readArray fuel (write 0 (.arr (.cons (.str ['a', ',', 'b']) .nil))) =
    some (.cons (.str ['a', ' ', 'b']) .nil) := by
  intro fuel hf
  obtain ⟨fuel, rfl⟩ : ∃ f, fuel = f + 5 := ⟨fuel - 5, by omega⟩
  have ht : tokenize (joinLines (write 0 (.arr (.cons (.str ['a', ',', 'b']) .nil)))) = [['['], ['"', 'a', ' ', 'b', '"'], [']']] := by
    decide +kernel
  unfold readArray parseArray
  dsimp only
  rw [ht, show closeCount '{' '}' 0 false (joinLines (write 0 (.arr (.cons (.str ['a', ',', 'b']) .nil)))) = 0 by decide +kernel,
    show closeCount '[' ']' 0 false (joinLines (write 0 (.arr (.cons (.str ['a', ',', 'b']) .nil)))) = 0 by decide +kernel]
  rfl

/-- An integer that does not fit into an `int` cannot be read back: `std::stoi` throws. -/
theorem large_integer_throws : ∀ fuel, readArray fuel (write 0 (.arr (.cons (.int 3000000000) .nil))) = none := by
  intro fuel
  have ht : tokenize (joinLines (write 0 (.arr (.cons (.int 3000000000) .nil)))) =
      [['['], ['3', '0', '0', '0', '0', '0', '0', '0', '0', '0'], [']']] := by
    decide +kernel
  unfold readArray parseArray
  dsimp only
  rw [ht, show closeCount '{' '}' 0 false (joinLines (write 0 (.arr (.cons (.int 3000000000) .nil)))) = 0 by decide +kernel,
    show closeCount '[' ']' 0 false (joinLines (write 0 (.arr (.cons (.int 3000000000) .nil)))) = 0 by decide +kernel]
  cases fuel with
  | zero => rfl
  | succ fuel =>
    have : leafArr ['3', '0', '0', '0', '0', '0', '0', '0', '0', '0'] = (Option.none : Option Val).map id := by
      unfold leafArr
      rw [if_neg (by decide), if_neg (by decide), if_neg (by decide), if_neg (by decide), if_pos (by decide),
        show stoi ['3', '0', '0', '0', '0', '0', '0', '0', '0', '0'] = none by decide +kernel]
      rfl
    rw [if_neg (by decide), if_neg (by decide), if_neg (by decide), if_neg (by decide), arrLoop, if_pos (by decide)]
    dsimp only [List.getElem?_cons_succ, List.getElem?_cons_zero]
    rw [if_neg (by decide), if_neg (by decide), this]
    rfl

/-- A real number is read back as the printed value with seven digits. -/
theorem real_rounded : atof (formatE (123456789 / 100000000)) = 1234568 / 1000000 := by decide +kernel

/-- Real numbers are read back in seven digits: the error is half a unit of the seventh digit at most, for numbers of any
size. -/
theorem real_read_back_close (q : ℚ) : |atof (formatE q) - q| ≤ |q| / 2000000 := formatE_close q

/-- Numbers with seven digits, with the decimal point anywhere, are read back exactly. -/
theorem seven_digits_exact (k j : ℤ) (hk : |k| < 10000000) : atof (formatE ((k : ℚ) * 10 ^ j)) = (k : ℚ) * 10 ^ j :=
  formatE_exact k j hk

/-- Both happen: a third is changed by less than a unit in the seventh digit, and 12.5 is kept. -/
example : atof (formatE (1 / 3)) = 3333333 / 10000000 ∧ atof (formatE (-25 / 2)) = -25 / 2 := by decide +kernel

end Printemps.C46
