import Verif.Lemmas.Json
import Verif.Spec.JsonEcho

/-! # Lemmas: what a written document is read as -/

namespace Printemps.Json
open Text

mutual
/-- The value with its strings and keys as they are read. -/
def spellV : Val → Val
  | .null => .null
  | .bool b => .bool b
  | .int n => .int n
  | .real q => .real q
  | .str s => .str (respell s)
  | .obj ms => .obj (spellM ms)
  | .arr es => .arr (spellE es)
/-- The same for members. -/
def spellM : Members → Members
  | .nil => .nil
  | .cons k v r => .cons (respell k) (spellV v) (spellM r)
/-- The same for elements. -/
def spellE : Elems → Elems
  | .nil => .nil
  | .cons v r => .cons (spellV v) (spellE r)
end

theorem pj_respell (s : Str) : pj s = respell s := by
  induction s with
  | nil => rfl
  | cons c s ih =>
    rw [pj_cons, ih]
    unfold respell
    rw [List.flatMap_cons]
    congr 1
    unfold respellChar
    by_cases h0 : c = '\n'
    · subst h0; rfl
    by_cases h1 : c = ','
    · subst h1; rfl
    by_cases h2 : c = ':'
    · subst h2; rfl
    by_cases h3 : c = '{'
    · subst h3; rfl
    by_cases h4 : c = '}'
    · subst h4; rfl
    by_cases h5 : c = '['
    · subst h5; rfl
    by_cases h6 : c = ']'
    · subst h6; rfl
    rw [if_neg h0, if_neg h1, if_neg h2, if_neg h3, if_neg h4, if_neg h5, if_neg h6]
    unfold pj
    rw [join_id _ (by simpa using Ne.symm h0), pre6_id]
    intro d hd
    rw [List.mem_singleton.1 hd]
    simp only [List.mem_cons, List.not_mem_nil, or_false]
    tauto

theorem pj_no_quote (s : Str) (h : '"' ∉ s) : '"' ∉ pj s := by
  rw [pj_respell]
  unfold respell
  rw [List.mem_flatMap]
  rintro ⟨c, hc, hm⟩
  unfold respellChar at hm
  have hne : c ≠ '"' := fun e => h (e ▸ hc)
  repeat' split at hm
  all_goals simp only [List.mem_cons, List.not_mem_nil, or_false] at hm
  all_goals first
    | exact absurd hm (by decide)
    | exact hne hm.symm

theorem join_no_quote (s : Str) (h : '"' ∉ s) : '"' ∉ joinLines s := fun hm => h (List.mem_of_mem_filter hm)

theorem cpj_quote (s : Str) : pj (quote s) = quote (pj s) := by
  unfold quote
  rw [pj_cons, pj_append]
  rfl

theorem cjoin_quote (s : Str) : joinLines (quote s) = quote (joinLines s) := by
  unfold quote
  rw [join_cons _ (by decide), join_append]
  rfl

theorem csplit_quoted (w cur s : List Char) (h : '"' ∉ w) (hcur : cur ≠ []) : split cur true (w ++ s) = split (cur ++ w) true s := by
  induction w generalizing cur with
  | nil => simp
  | cons c w ih =>
    rw [List.mem_cons, not_or] at h
    have ih' := ih (cur ++ [c]) h.2 (by simp)
    rw [List.cons_append, split]
    simp only [if_neg (Ne.symm h.1), if_neg hcur, if_true, ite_self]
    rw [ih']
    simp

theorem csplit_quote (k s : List Char) (h : '"' ∉ k) : split [] false (quote k ++ s) = split (quote k) false s := by
  unfold quote
  rw [List.cons_append, split_cons, if_neg (by decide), if_pos rfl, Bool.not_false, List.nil_append, List.append_assoc,
    csplit_quoted k _ _ h (by simp), List.singleton_append, List.singleton_append, split_cons, if_neg (by decide), if_pos rfl, Bool.not_true]
  simp

mutual
theorem csplit_val (n : ℕ) (v : Val) (h : CleanV v) (s : List Char) (hs : Sep s) :
    split [] false (pj (write n v) ++ s) = tk (spellV v) ++ split [] false s := by
  match v, h with
  | .null, _ =>
    unfold write
    rw [pj_word _ (by decide)]
    exact split_okWord _ _ (by decide) hs
  | .bool b, _ =>
    unfold write
    rw [pj_word _ (by cases b <;> decide)]
    exact split_okWord _ _ (by cases b <;> decide) hs
  | .int i, _ =>
    unfold write
    rw [pj_word _ (intChars_ok i)]
    exact split_okWord _ _ (intChars_ok i) hs
  | .real q, _ =>
    unfold write
    rw [pj_word _ (formatE_ok q).1]
    exact split_okWord _ _ (formatE_ok q).1 hs
  | .str t, h =>
    unfold CleanV at h
    show split [] false (pj (quote t) ++ s) = _
    rw [cpj_quote t, csplit_quote _ s (pj_no_quote t h), split_end _ _ (by simp [quote]) hs, spellV, tk, pj_respell]
    rfl
  | .obj .nil, _ =>
    show split [] false ('{' :: ' ' :: ' ' :: ('}' :: s)) = _
    rw [split_bracket '{' (by decide) _ (sep_space _), show (' ' :: ' ' :: ('}' :: s)) = [' ', ' '] ++ ('}' :: s) from rfl,
      split_spaces _ _ (by decide), split_bracket '}' (by decide) _ hs]
    rfl
  | .arr .nil, _ =>
    show split [] false ('[' :: ' ' :: ' ' :: (']' :: s)) = _
    rw [split_bracket '[' (by decide) _ (sep_space _), show (' ' :: ' ' :: (']' :: s)) = [' ', ' '] ++ (']' :: s) from rfl,
      split_spaces _ _ (by decide), split_bracket ']' (by decide) _ hs]
    rfl
  | .obj (.cons k v r), h =>
    unfold CleanV at h
    unfold write
    rw [pj_cons2, pj_append, pj_nl, pj_append, pj_indent, show pj ['{', ' '] = '{' :: [' ', ' '] from rfl,
      show pj ['}'] = ' ' :: ['}'] from rfl]
    simp only [List.append_assoc, List.cons_append, List.nil_append]
    rw [split_bracket '{' (by decide) _ (sep_space _)]
    rw [show ∀ l : List Char, ' ' :: ' ' :: l = [' ', ' '] ++ l from fun l => rfl, split_spaces _ _ (by decide),
      csplit_members (n + 1) (.cons k v r) h [] (Or.inl rfl) _ (sep_indent n _),
      split_spaces _ _ (indent_chars n), show ∀ l : List Char, ' ' :: l = [' '] ++ l from fun _ => rfl, split_spaces _ _ (by decide),
      split_bracket '}' (by decide) _ hs, spellV, tk]
    simp
  | .arr (.cons v r), h =>
    unfold CleanV at h
    unfold write
    rw [pj_cons2, pj_append, pj_nl, pj_append, pj_indent, show pj ['[', ' '] = '[' :: [' ', ' '] from rfl,
      show pj [']'] = ' ' :: [']'] from rfl]
    simp only [List.append_assoc, List.cons_append, List.nil_append]
    rw [split_bracket '[' (by decide) _ (sep_space _)]
    rw [show ∀ l : List Char, ' ' :: ' ' :: l = [' ', ' '] ++ l from fun l => rfl, split_spaces _ _ (by decide),
      csplit_elems (n + 1) (.cons v r) h [] (Or.inl rfl) _ (sep_indent n _),
      split_spaces _ _ (indent_chars n), show ∀ l : List Char, ' ' :: l = [' '] ++ l from fun _ => rfl, split_spaces _ _ (by decide),
      split_bracket ']' (by decide) _ hs, spellV, tk]
    simp
theorem csplit_members (n : ℕ) (ms : Members) (h : CleanM ms) (sep : List Char) (hsep : sep = [] ∨ sep = [',', ' ']) (s : List Char)
    (hs : Sep s) : split [] false (pj (writeMembers n sep ms) ++ s) = tkM (spellM ms) ++ split [] false s := by
  match ms, h with
  | .nil, _ => unfold writeMembers spellM tkM; rfl
  | .cons k v r, h =>
    unfold CleanM at h
    unfold writeMembers
    have e : ∀ x, '"' :: (k ++ '"' :: ':' :: ' ' :: x) = quote k ++ (':' :: ' ' :: x) := fun x => by simp [quote]
    have hsp : ∀ c ∈ pj sep, c = ' ' := by rcases hsep with rfl | rfl <;> decide
    rw [e, pj_append, pj_nl, pj_append, pj_indent, pj_append, cpj_quote k, pj_cons2, pj_append, List.append_assoc,
      split_spaces _ _ hsp, List.append_assoc, split_spaces _ _ (indent_chars n), List.append_assoc, csplit_quote _ _ (pj_no_quote k h.1),
      show pj [':', ' '] = [' ', ' '] from rfl, List.append_assoc]
    rw [split_end (quote (pj k)) ([' ', ' '] ++ _) (by simp [quote]) (sep_space _), split_spaces _ _ (by decide), List.append_assoc, csplit_val n v h.2.1 _ (sep_members n r s hs),
      csplit_members n r h.2.2 _ (Or.inr rfl) s hs, spellM, tkM, pj_respell]
    simp
theorem csplit_elems (n : ℕ) (es : Elems) (h : CleanE es) (sep : List Char) (hsep : sep = [] ∨ sep = [',', ' ']) (s : List Char)
    (hs : Sep s) : split [] false (pj (writeElems n sep es) ++ s) = tkE (spellE es) ++ split [] false s := by
  match es, h with
  | .nil, _ => unfold writeElems spellE tkE; rfl
  | .cons v r, h =>
    unfold CleanE at h
    unfold writeElems
    have hsp : ∀ c ∈ pj sep, c = ' ' := by rcases hsep with rfl | rfl <;> decide
    rw [pj_append, pj_nl, pj_append, pj_indent, pj_append, List.append_assoc,
      split_spaces _ _ hsp, List.append_assoc, split_spaces _ _ (indent_chars n), List.append_assoc,
      csplit_val n v h.1 _ (sep_elems n r s hs), csplit_elems n r h.2 _ (Or.inr rfl) s hs, spellE, tkE]
    simp
end

theorem ctokenize_write (n : ℕ) (v : Val) (h : CleanV v) : tokenize (joinLines (write n v)) = tk (spellV v) := by
  rw [tokenize_join, ← List.append_nil (pj _), csplit_val n v h [] (Or.inl rfl)]
  simp [split]

theorem cclose_quoted (l r : Char) (w : Str) (hw : '"' ∉ w) (s : List Char) (n : ℤ) :
    closeCount l r n true (w ++ s) = closeCount l r n true s := by
  induction w with
  | nil => rfl
  | cons c w ih =>
    rw [List.mem_cons, not_or] at hw
    rw [List.cons_append, closeCount, if_pos rfl, if_neg (Ne.symm hw.1), ih hw.2]

theorem cclose_quote (l r : Char) (w : Str) (hw : '"' ∉ w) (s : List Char) (n : ℤ) :
    closeCount l r n false (quote w ++ s) = closeCount l r n false s := by
  unfold quote
  rw [List.cons_append, closeCount, if_neg (by decide), if_pos rfl, List.append_assoc, cclose_quoted l r w hw,
    List.singleton_append, closeCount, if_pos rfl, if_pos rfl]

mutual
theorem cclose_val (l r : Char) (hp : Pair l r) (n : ℕ) (v : Val) (h : CleanV v) (s : List Char) (k : ℤ) :
    closeCount l r k false (joinLines (write n v) ++ s) = closeCount l r k false s := by
  match v, h with
  | .null, _ =>
    unfold write
    rw [join_word _ (by decide)]
    exact close_word l r hp _ (fun c hc => Or.inl ((show OkWord kNull by decide).2 c hc)) s k
  | .bool b, _ =>
    unfold write
    have hb : OkWord (boolChars b) := by cases b <;> decide
    rw [join_word _ hb]
    exact close_word l r hp _ (fun c hc => Or.inl (hb.2 c hc)) s k
  | .int i, _ =>
    unfold write
    rw [join_word _ (intChars_ok i)]
    exact close_word l r hp _ (fun c hc => Or.inl ((intChars_ok i).2 c hc)) s k
  | .real q, _ =>
    unfold write
    rw [join_word _ (formatE_ok q).1]
    exact close_word l r hp _ (fun c hc => Or.inl ((formatE_ok q).1.2 c hc)) s k
  | .str t, h =>
    unfold CleanV at h
    unfold write
    have := cclose_quote l r (joinLines t) (join_no_quote t h) s k
    rw [← cjoin_quote t] at this
    exact this
  | .obj .nil, _ =>
    unfold write
    rw [join_cons2 _ _ _ (by decide) (by decide), List.cons_append, List.cons_append, close_open l r hp '{' (Or.inl rfl),
      close_close l r hp '{' '}' (Or.inl ⟨rfl, rfl⟩)]
    rfl
  | .arr .nil, _ =>
    unfold write
    rw [join_cons2 _ _ _ (by decide) (by decide), List.cons_append, List.cons_append, close_open l r hp '[' (Or.inr rfl),
      close_close l r hp '[' ']' (Or.inr ⟨rfl, rfl⟩)]
    rfl
  | .obj (.cons key v rest), h =>
    unfold CleanV at h
    unfold write
    rw [join_cons2 _ _ _ (by decide) (by decide), join_append, join_nl, join_append, join_indent, List.cons_append, List.cons_append,
      close_open l r hp '{' (Or.inl rfl), List.append_assoc, List.append_assoc]
    rw [show ∀ x : List Char, ' ' :: x = [' '] ++ x from fun _ => rfl, close_word l r hp [' '] (by simp),
      cclose_members l r hp (n + 1) (.cons key v rest) h [] (Or.inl rfl), close_word l r hp (indent n) (fun c hc => Or.inr (Or.inl (indent_chars n c hc))),
      join_cons _ (by decide), List.cons_append, close_close l r hp '{' '}' (Or.inl ⟨rfl, rfl⟩)]
    rfl
  | .arr (.cons v rest), h =>
    unfold CleanV at h
    unfold write
    rw [join_cons2 _ _ _ (by decide) (by decide), join_append, join_nl, join_append, join_indent, List.cons_append, List.cons_append,
      close_open l r hp '[' (Or.inr rfl), List.append_assoc, List.append_assoc]
    rw [show ∀ x : List Char, ' ' :: x = [' '] ++ x from fun _ => rfl, close_word l r hp [' '] (by simp),
      cclose_elems l r hp (n + 1) (.cons v rest) h [] (Or.inl rfl), close_word l r hp (indent n) (fun c hc => Or.inr (Or.inl (indent_chars n c hc))),
      join_cons _ (by decide), List.cons_append, close_close l r hp '[' ']' (Or.inr ⟨rfl, rfl⟩)]
    rfl
theorem cclose_members (l r : Char) (hp : Pair l r) (n : ℕ) (ms : Members) (h : CleanM ms) (sep : List Char)
    (hsep : sep = [] ∨ sep = [',', ' ']) (s : List Char) (i : ℤ) :
    closeCount l r i false (joinLines (writeMembers n sep ms) ++ s) = closeCount l r i false s := by
  match ms, h with
  | .nil, _ => unfold writeMembers; rfl
  | .cons k v rest, h =>
    unfold CleanM at h
    unfold writeMembers
    have e : ∀ x, '"' :: (k ++ '"' :: ':' :: ' ' :: x) = quote k ++ (':' :: ' ' :: x) := fun x => by simp [quote]
    have h1 : joinLines sep = sep := by rcases hsep with rfl | rfl <;> rfl
    have h2 : ∀ c ∈ sep, OkChar c ∨ c = ' ' ∨ c = ',' ∨ c = ':' := by rcases hsep with rfl | rfl <;> decide
    rw [e, join_append, h1, join_nl, join_append, join_indent, join_append, cjoin_quote k, join_cons2 _ _ _ (by decide) (by decide),
      join_append]
    simp only [List.append_assoc, List.cons_append]
    rw [close_word l r hp sep h2, close_word l r hp (indent n) (fun c hc => Or.inr (Or.inl (indent_chars n c hc))), cclose_quote l r _ (join_no_quote k h.1),
      show ∀ x : List Char, ':' :: ' ' :: x = [':', ' '] ++ x from fun _ => rfl, close_word l r hp [':', ' '] (by decide),
      cclose_val l r hp n v h.2.1, cclose_members l r hp n rest h.2.2 _ (Or.inr rfl)]
theorem cclose_elems (l r : Char) (hp : Pair l r) (n : ℕ) (es : Elems) (h : CleanE es) (sep : List Char)
    (hsep : sep = [] ∨ sep = [',', ' ']) (s : List Char) (i : ℤ) :
    closeCount l r i false (joinLines (writeElems n sep es) ++ s) = closeCount l r i false s := by
  match es, h with
  | .nil, _ => unfold writeElems; rfl
  | .cons v rest, h =>
    unfold CleanE at h
    unfold writeElems
    have h1 : joinLines sep = sep := by rcases hsep with rfl | rfl <;> rfl
    have h2 : ∀ c ∈ sep, OkChar c ∨ c = ' ' ∨ c = ',' ∨ c = ':' := by rcases hsep with rfl | rfl <;> decide
    rw [join_append, h1, join_nl, join_append, join_indent, join_append]
    simp only [List.append_assoc]
    rw [close_word l r hp sep h2, close_word l r hp (indent n) (fun c hc => Or.inr (Or.inl (indent_chars n c hc))),
      cclose_val l r hp n v h.1, cclose_elems l r hp n rest h.2 _ (Or.inr rfl)]
end

theorem cclose_write (l r : Char) (hp : Pair l r) (n : ℕ) (v : Val) (h : CleanV v) :
    closeCount l r 0 false (joinLines (write n v)) = 0 := by
  rw [← List.append_nil (joinLines _), cclose_val l r hp n v h]
  rfl

/-- A leaf, as it is read in objects and in arrays. -/
theorem cleaf_back (v : Val) (hl : IsLeaf v) (h : CleanV v) :
    ∃ t, tk (spellV v) = [t] ∧ t ∉ [['{'], ['}'], ['['], [']']] ∧ leaf t = some (echoV false v) ∧ leafArr t = some (echoV true v) := by
  match v, hl, h with
  | .null, _, _ => exact ⟨_, by rw [spellV, tk], by decide, rfl, rfl⟩
  | .bool b, _, h => exact ⟨_, by rw [spellV, tk], by cases b <;> decide, by cases b <;> rfl, by cases b <;> rfl⟩
  | .int n, _, h =>
    unfold CleanV at h
    obtain ⟨c, r, e, hc⟩ := intChars_front n
    obtain ⟨h1, h2, h3⟩ := front_ne _ c r e hc
    refine ⟨_, by rw [spellV, tk], word_ne _ (intChars_ok n), ?_, ?_⟩
    · unfold leaf
      rw [if_neg (intChars_head n), if_neg h1, if_neg h2, if_neg h3, if_pos (intChars_isInteger n), stoi_intChars n h]
      rfl
    · unfold leafArr
      rw [if_neg (intChars_head n), if_neg h1, if_neg h2, if_neg h3, if_pos (intChars_isInteger n), stoi_intChars n h]
      rfl
  | .real q, _, h =>
    obtain ⟨c, r, e, hc⟩ := formatE_front q
    obtain ⟨h1, h2, h3⟩ := front_ne _ c r e hc
    have h4 : ¬ isInteger (formatE q) = true := by rw [formatE_not_integer]; decide
    refine ⟨_, by rw [spellV, tk], word_ne _ (formatE_ok q).1, ?_, ?_⟩
    · unfold leaf
      rw [if_neg (word_head _ (formatE_ok q).1), if_neg h1, if_neg h2, if_neg h3, if_neg h4, stod_formatE]
      rfl
    · unfold leafArr
      rw [if_neg (word_head _ (formatE_ok q).1), if_neg h1, if_neg h2, if_neg h3, if_neg h4, stod_formatE]
      rfl
  | .str s, _, _ =>
    refine ⟨_, by rw [spellV, tk], quote_ne _, ?_, ?_⟩
    · unfold leaf
      rw [if_pos (show (quote (respell s)).head? = some '"' from rfl), unquote_quote]
      rfl
    · unfold leafArr
      rw [if_pos (show (quote (respell s)).head? = some '"' from rfl), unquote_quote]
      rfl

/-- The members are read wherever their tokens stand. -/
def CParsesM (ms : Members) : Prop := ∃ N, ∀ fuel ≥ N, ∀ pre post : List Str,
  objLoop fuel (pre ++ (tkM (spellM ms) ++ post)) (pre.length + (tkM (spellM ms)).length) pre.length = some (echoM ms)
/-- The elements are read wherever their tokens stand. -/
def CParsesE (es : Elems) : Prop := ∃ N, ∀ fuel ≥ N, ∀ pre post : List Str,
  arrLoop fuel (pre ++ (tkE (spellE es) ++ post)) (pre.length + (tkE (spellE es)).length) pre.length = some (echoE es)
/-- The content of a value is read. -/
def CParsesV : Val → Prop
  | .obj ms => CParsesM ms
  | .arr es => CParsesE es
  | _ => True

theorem cparses_cons (k : Str) (v : Val) (rest : Members) (hv : CleanV v) (pv : CParsesV v) (pr : CParsesM rest) :
    CParsesM (.cons k v rest) := by
  obtain ⟨N2, h2⟩ := pr
  have hlen : (tkM (spellM (.cons k v rest))).length = 1 + (tk (spellV v)).length + (tkM (spellM rest)).length := by
    rw [spellM, tkM]; simp; omega
  have hpos := tk_len (spellV v)
  match v, hv, pv, hlen, hpos with
  | .obj ms, hv, pv, hlen, hpos =>
    obtain ⟨N1, h1⟩ := pv
    refine ⟨N1 + N2 + 1, fun fuel hf pre post => ?_⟩
    obtain ⟨fuel, rfl⟩ : ∃ f, fuel = f + 1 := ⟨fuel - 1, by omega⟩
    have ets : pre ++ (tkM (spellM (.cons k (.obj ms) rest)) ++ post) = (pre ++ [quote (respell k)]) ++ (tk (spellV (.obj ms)) ++ (tkM (spellM rest) ++ post)) := by
      rw [spellM, tkM]; simp
    have ets2 : pre ++ (tkM (spellM (.cons k (.obj ms) rest)) ++ post) =
        (pre ++ [quote (respell k), ['{']]) ++ (tkM (spellM ms) ++ (['}'] :: (tkM (spellM rest) ++ post))) := by
      rw [spellM, tkM, spellV, tk]; simp
    have ets3 : pre ++ (tkM (spellM (.cons k (.obj ms) rest)) ++ post) =
        (pre ++ quote (respell k) :: tk (spellV (.obj ms))) ++ (tkM (spellM rest) ++ post) := by
      rw [spellM, tkM]; simp
    have ets4 : pre ++ (tkM (spellM (.cons k (.obj ms) rest)) ++ post) =
        pre ++ quote (respell k) :: ['{'] :: (tkM (spellM ms) ++ (['}'] :: (tkM (spellM rest) ++ post))) := by
      rw [ets2]; simp
    have hL : (tk (spellV (.obj ms))).length = (tkM (spellM ms)).length + 2 := by rw [spellV, tk]; simp
    have hend : findEnd (pre ++ (tkM (spellM (.cons k (.obj ms) rest)) ++ post)) (pre.length + 1) ['{'] ['}'] =
        pre.length + 2 + (tkM (spellM ms)).length := by
      have := findEnd_obj (spellM ms) (pre ++ [quote (respell k)]) (tkM (spellM rest) ++ post)
      rw [← spellV] at this
      rw [← ets] at this
      simp only [List.length_append, List.length_cons, List.length_nil] at this
      omega
    have hin := h1 fuel (by omega) (pre ++ [quote (respell k), ['{']]) (['}'] :: (tkM (spellM rest) ++ post))
    rw [← ets2] at hin
    have hout := h2 fuel (by omega) (pre ++ quote (respell k) :: tk (spellV (.obj ms))) post
    rw [← ets3] at hout
    simp only [List.length_append, List.length_cons, List.length_nil] at hin hout
    rw [objLoop, if_pos (by omega), if_pos (by omega)]
    rw [show (pre ++ (tkM (spellM (.cons k (.obj ms) rest)) ++ post))[pre.length]? = some (quote (respell k)) by rw [ets4]; exact get_at _ _ _,
      show (pre ++ (tkM (spellM (.cons k (.obj ms) rest)) ++ post))[pre.length + 1]? = some ['{'] by rw [ets4]; exact get_at1 _ _ _ _]
    dsimp only
    rw [if_pos rfl, hend, endPosition, if_pos (by omega)]
    rw [show pre.length + 2 = pre.length + (0 + 1 + 1) by omega, hin, Option.bind_some,
      show pre.length + (tkM (spellM (.cons k (.obj ms) rest))).length = pre.length + ((tk (spellV (.obj ms))).length + 1) + (tkM (spellM rest)).length by omega,
      show pre.length + (0 + 1 + 1) + (tkM (spellM ms)).length + 1 = pre.length + ((tk (spellV (.obj ms))).length + 1) by omega, hout, unquote_quote, echoM]
    rfl
  | .arr es, hv, pv, hlen, hpos =>
    obtain ⟨N1, h1⟩ := pv
    refine ⟨N1 + N2 + 1, fun fuel hf pre post => ?_⟩
    obtain ⟨fuel, rfl⟩ : ∃ f, fuel = f + 1 := ⟨fuel - 1, by omega⟩
    have ets : pre ++ (tkM (spellM (.cons k (.arr es) rest)) ++ post) = (pre ++ [quote (respell k)]) ++ (tk (spellV (.arr es)) ++ (tkM (spellM rest) ++ post)) := by
      rw [spellM, tkM]; simp
    have ets2 : pre ++ (tkM (spellM (.cons k (.arr es) rest)) ++ post) =
        (pre ++ [quote (respell k), ['[']]) ++ (tkE (spellE es) ++ ([']'] :: (tkM (spellM rest) ++ post))) := by
      rw [spellM, tkM, spellV, tk]; simp
    have ets3 : pre ++ (tkM (spellM (.cons k (.arr es) rest)) ++ post) =
        (pre ++ quote (respell k) :: tk (spellV (.arr es))) ++ (tkM (spellM rest) ++ post) := by
      rw [spellM, tkM]; simp
    have ets4 : pre ++ (tkM (spellM (.cons k (.arr es) rest)) ++ post) =
        pre ++ quote (respell k) :: ['['] :: (tkE (spellE es) ++ ([']'] :: (tkM (spellM rest) ++ post))) := by
      rw [ets2]; simp
    have hL : (tk (spellV (.arr es))).length = (tkE (spellE es)).length + 2 := by rw [spellV, tk]; simp
    have hend : findEnd (pre ++ (tkM (spellM (.cons k (.arr es) rest)) ++ post)) (pre.length + 1) ['['] [']'] =
        pre.length + 2 + (tkE (spellE es)).length := by
      have := findEnd_arr (spellE es) (pre ++ [quote (respell k)]) (tkM (spellM rest) ++ post)
      rw [← spellV] at this
      rw [← ets] at this
      simp only [List.length_append, List.length_cons, List.length_nil] at this
      omega
    have hin := h1 fuel (by omega) (pre ++ [quote (respell k), ['[']]) ([']'] :: (tkM (spellM rest) ++ post))
    rw [← ets2] at hin
    have hout := h2 fuel (by omega) (pre ++ quote (respell k) :: tk (spellV (.arr es))) post
    rw [← ets3] at hout
    simp only [List.length_append, List.length_cons, List.length_nil] at hin hout
    rw [objLoop, if_pos (by omega), if_pos (by omega)]
    rw [show (pre ++ (tkM (spellM (.cons k (.arr es) rest)) ++ post))[pre.length]? = some (quote (respell k)) by rw [ets4]; exact get_at _ _ _,
      show (pre ++ (tkM (spellM (.cons k (.arr es) rest)) ++ post))[pre.length + 1]? = some ['['] by rw [ets4]; exact get_at1 _ _ _ _]
    dsimp only
    rw [if_neg (by decide), if_pos rfl, hend, endPosition, if_pos (by omega)]
    rw [show pre.length + 2 = pre.length + (0 + 1 + 1) by omega, hin, Option.bind_some,
      show pre.length + (tkM (spellM (.cons k (.arr es) rest))).length = pre.length + ((tk (spellV (.arr es))).length + 1) + (tkM (spellM rest)).length by omega,
      show pre.length + (0 + 1 + 1) + (tkE (spellE es)).length + 1 = pre.length + ((tk (spellV (.arr es))).length + 1) by omega, hout, unquote_quote, echoM]
    rfl
  | .null, hv, _, hlen, hpos => exact leaf_cons k .null rest trivial hv N2 h2
  | .bool b, hv, _, hlen, hpos => exact leaf_cons k (.bool b) rest trivial hv N2 h2
  | .int n, hv, _, hlen, hpos => exact leaf_cons k (.int n) rest trivial hv N2 h2
  | .real q, hv, _, hlen, hpos => exact leaf_cons k (.real q) rest trivial hv N2 h2
  | .str s, hv, _, hlen, hpos => exact leaf_cons k (.str s) rest trivial hv N2 h2
where
  leaf_cons (k : Str) (v : Val) (rest : Members) (hl : IsLeaf v) (hv : CleanV v) (N2 : ℕ)
      (h2 : ∀ fuel ≥ N2, ∀ pre post : List Str,
        objLoop fuel (pre ++ (tkM (spellM rest) ++ post)) (pre.length + (tkM (spellM rest)).length) pre.length = some (echoM rest)) :
      CParsesM (.cons k v rest) := by
    obtain ⟨t, ht, hne, hlf, -⟩ := cleaf_back v hl hv
    refine ⟨N2 + 1, fun fuel hf pre post => ?_⟩
    obtain ⟨fuel, rfl⟩ : ∃ f, fuel = f + 1 := ⟨fuel - 1, by omega⟩
    have ets : pre ++ (tkM (spellM (.cons k v rest)) ++ post) = pre ++ quote (respell k) :: t :: (tkM (spellM rest) ++ post) := by
      rw [spellM, tkM, ht]; simp
    have ets3 : pre ++ (tkM (spellM (.cons k v rest)) ++ post) = (pre ++ [quote (respell k), t]) ++ (tkM (spellM rest) ++ post) := by
      rw [ets]; simp
    have hlen : (tkM (spellM (.cons k v rest))).length = 2 + (tkM (spellM rest)).length := by rw [spellM, tkM, ht]; simp; omega
    have hout := h2 fuel (by omega) (pre ++ [quote (respell k), t]) post
    rw [← ets3] at hout
    simp only [List.length_append, List.length_cons, List.length_nil] at hout
    simp only [List.mem_cons, List.not_mem_nil, or_false, not_or] at hne
    rw [objLoop, if_pos (by omega), if_pos (by omega)]
    rw [show (pre ++ (tkM (spellM (.cons k v rest)) ++ post))[pre.length]? = some (quote (respell k)) by rw [ets]; exact get_at _ _ _,
      show (pre ++ (tkM (spellM (.cons k v rest)) ++ post))[pre.length + 1]? = some t by rw [ets]; exact get_at1 _ _ _ _]
    dsimp only
    rw [if_neg hne.1, if_neg hne.2.2.1, hlf, Option.bind_some,
      show pre.length + (tkM (spellM (.cons k v rest))).length = pre.length + (0 + 1 + 1) + (tkM (spellM rest)).length by omega,
      show pre.length + 2 = pre.length + (0 + 1 + 1) by omega, hout, unquote_quote, echoM]
    rfl

theorem cparses_econs (v : Val) (rest : Elems) (hv : CleanV v) (pv : CParsesV v) (pr : CParsesE rest) :
    CParsesE (.cons v rest) := by
  obtain ⟨N2, h2⟩ := pr
  have hlen : (tkE (spellE (.cons v rest))).length = (tk (spellV v)).length + (tkE (spellE rest)).length := by
    rw [spellE, tkE]; simp
  have hpos := tk_len (spellV v)
  match v, hv, pv, hlen, hpos with
  | .obj ms, hv, pv, hlen, hpos =>
    obtain ⟨N1, h1⟩ := pv
    refine ⟨N1 + N2 + 1, fun fuel hf pre post => ?_⟩
    obtain ⟨fuel, rfl⟩ : ∃ f, fuel = f + 1 := ⟨fuel - 1, by omega⟩
    have ets : pre ++ (tkE (spellE (.cons (.obj ms) rest)) ++ post) = pre ++ (tk (spellV (.obj ms)) ++ (tkE (spellE rest) ++ post)) := by
      rw [spellE, tkE]; simp
    have ets2 : pre ++ (tkE (spellE (.cons (.obj ms) rest)) ++ post) =
        (pre ++ [['{']]) ++ (tkM (spellM ms) ++ (['}'] :: (tkE (spellE rest) ++ post))) := by
      rw [spellE, tkE, spellV, tk]; simp
    have ets3 : pre ++ (tkE (spellE (.cons (.obj ms) rest)) ++ post) = (pre ++ tk (spellV (.obj ms))) ++ (tkE (spellE rest) ++ post) := by
      rw [spellE, tkE]; simp
    have ets4 : pre ++ (tkE (spellE (.cons (.obj ms) rest)) ++ post) = pre ++ ['{'] :: (tkM (spellM ms) ++ (['}'] :: (tkE (spellE rest) ++ post))) := by
      rw [ets2]; simp
    have hL : (tk (spellV (.obj ms))).length = (tkM (spellM ms)).length + 2 := by rw [spellV, tk]; simp
    have hend : findEnd (pre ++ (tkE (spellE (.cons (.obj ms) rest)) ++ post)) pre.length ['{'] ['}'] = pre.length + 1 + (tkM (spellM ms)).length := by
      rw [ets, spellV]; exact findEnd_obj (spellM ms) pre (tkE (spellE rest) ++ post)
    have hin := h1 fuel (by omega) (pre ++ [['{']]) (['}'] :: (tkE (spellE rest) ++ post))
    rw [← ets2] at hin
    have hout := h2 fuel (by omega) (pre ++ tk (spellV (.obj ms))) post
    rw [← ets3] at hout
    simp only [List.length_append, List.length_cons, List.length_nil] at hin hout
    rw [arrLoop, if_pos (by omega)]
    rw [show (pre ++ (tkE (spellE (.cons (.obj ms) rest)) ++ post))[pre.length]? = some ['{'] by rw [ets4]; exact get_at _ _ _]
    dsimp only
    rw [if_pos rfl, hend, endPosition, if_pos (by omega)]
    rw [show pre.length + 1 = pre.length + (0 + 1) by omega, hin, Option.bind_some,
      show pre.length + (tkE (spellE (.cons (.obj ms) rest))).length = pre.length + (tk (spellV (.obj ms))).length + (tkE (spellE rest)).length by omega,
      show pre.length + (0 + 1) + (tkM (spellM ms)).length + 1 = pre.length + (tk (spellV (.obj ms))).length by omega, hout]
    rfl
  | .arr es, hv, pv, hlen, hpos =>
    obtain ⟨N1, h1⟩ := pv
    refine ⟨N1 + N2 + 1, fun fuel hf pre post => ?_⟩
    obtain ⟨fuel, rfl⟩ : ∃ f, fuel = f + 1 := ⟨fuel - 1, by omega⟩
    have ets : pre ++ (tkE (spellE (.cons (.arr es) rest)) ++ post) = pre ++ (tk (spellV (.arr es)) ++ (tkE (spellE rest) ++ post)) := by
      rw [spellE, tkE]; simp
    have ets2 : pre ++ (tkE (spellE (.cons (.arr es) rest)) ++ post) =
        (pre ++ [['[']]) ++ (tkE (spellE es) ++ ([']'] :: (tkE (spellE rest) ++ post))) := by
      rw [spellE, tkE, spellV, tk]; simp
    have ets3 : pre ++ (tkE (spellE (.cons (.arr es) rest)) ++ post) = (pre ++ tk (spellV (.arr es))) ++ (tkE (spellE rest) ++ post) := by
      rw [spellE, tkE]; simp
    have ets4 : pre ++ (tkE (spellE (.cons (.arr es) rest)) ++ post) = pre ++ ['['] :: (tkE (spellE es) ++ ([']'] :: (tkE (spellE rest) ++ post))) := by
      rw [ets2]; simp
    have hL : (tk (spellV (.arr es))).length = (tkE (spellE es)).length + 2 := by rw [spellV, tk]; simp
    have hend : findEnd (pre ++ (tkE (spellE (.cons (.arr es) rest)) ++ post)) pre.length ['['] [']'] = pre.length + 1 + (tkE (spellE es)).length := by
      rw [ets, spellV]; exact findEnd_arr (spellE es) pre (tkE (spellE rest) ++ post)
    have hin := h1 fuel (by omega) (pre ++ [['[']]) ([']'] :: (tkE (spellE rest) ++ post))
    rw [← ets2] at hin
    have hout := h2 fuel (by omega) (pre ++ tk (spellV (.arr es))) post
    rw [← ets3] at hout
    simp only [List.length_append, List.length_cons, List.length_nil] at hin hout
    rw [arrLoop, if_pos (by omega)]
    rw [show (pre ++ (tkE (spellE (.cons (.arr es) rest)) ++ post))[pre.length]? = some ['['] by rw [ets4]; exact get_at _ _ _]
    dsimp only
    rw [if_neg (by decide), if_pos rfl, hend, endPosition, if_pos (by omega)]
    rw [show pre.length + 1 = pre.length + (0 + 1) by omega, hin, Option.bind_some,
      show pre.length + (tkE (spellE (.cons (.arr es) rest))).length = pre.length + (tk (spellV (.arr es))).length + (tkE (spellE rest)).length by omega,
      show pre.length + (0 + 1) + (tkE (spellE es)).length + 1 = pre.length + (tk (spellV (.arr es))).length by omega, hout]
    rfl
  | .null, hv, _, hlen, hpos => exact leaf_cons .null rest trivial hv N2 h2
  | .bool b, hv, _, hlen, hpos => exact leaf_cons (.bool b) rest trivial hv N2 h2
  | .int n, hv, _, hlen, hpos => exact leaf_cons (.int n) rest trivial hv N2 h2
  | .real q, hv, _, hlen, hpos => exact leaf_cons (.real q) rest trivial hv N2 h2
  | .str s, hv, _, hlen, hpos => exact leaf_cons (.str s) rest trivial hv N2 h2
where
  leaf_cons (v : Val) (rest : Elems) (hl : IsLeaf v) (hv : CleanV v) (N2 : ℕ)
      (h2 : ∀ fuel ≥ N2, ∀ pre post : List Str,
        arrLoop fuel (pre ++ (tkE (spellE rest) ++ post)) (pre.length + (tkE (spellE rest)).length) pre.length = some (echoE rest)) :
      CParsesE (.cons v rest) := by
    obtain ⟨t, ht, hne, -, hlf⟩ := cleaf_back v hl hv
    refine ⟨N2 + 1, fun fuel hf pre post => ?_⟩
    obtain ⟨fuel, rfl⟩ : ∃ f, fuel = f + 1 := ⟨fuel - 1, by omega⟩
    have ets : pre ++ (tkE (spellE (.cons v rest)) ++ post) = pre ++ t :: (tkE (spellE rest) ++ post) := by
      rw [spellE, tkE, ht]; simp
    have ets3 : pre ++ (tkE (spellE (.cons v rest)) ++ post) = (pre ++ [t]) ++ (tkE (spellE rest) ++ post) := by
      rw [ets]; simp
    have hlen : (tkE (spellE (.cons v rest))).length = 1 + (tkE (spellE rest)).length := by rw [spellE, tkE, ht]; simp; omega
    have hout := h2 fuel (by omega) (pre ++ [t]) post
    rw [← ets3] at hout
    simp only [List.length_append, List.length_cons, List.length_nil] at hout
    simp only [List.mem_cons, List.not_mem_nil, or_false, not_or] at hne
    rw [arrLoop, if_pos (by omega)]
    rw [show (pre ++ (tkE (spellE (.cons v rest)) ++ post))[pre.length]? = some t by rw [ets]; exact get_at _ _ _]
    dsimp only
    rw [if_neg hne.1, if_neg hne.2.2.1, hlf, Option.bind_some,
      show pre.length + (tkE (spellE (.cons v rest))).length = pre.length + (0 + 1) + (tkE (spellE rest)).length by omega,
      show pre.length + 1 = pre.length + (0 + 1) by omega, hout]
    rfl
mutual
theorem cparses_val (v : Val) (h : CleanV v) : CParsesV v := by
  match v, h with
  | .null, _ => trivial
  | .bool _, _ => trivial
  | .int _, _ => trivial
  | .real _, _ => trivial
  | .str _, _ => trivial
  | .obj ms, h => unfold CleanV at h; exact cparses_members ms h
  | .arr es, h => unfold CleanV at h; exact cparses_elems es h
theorem cparses_members (ms : Members) (h : CleanM ms) : CParsesM ms := by
  match ms, h with
  | .nil, _ =>
    refine ⟨1, fun fuel hf pre post => ?_⟩
    obtain ⟨fuel, rfl⟩ : ∃ f, fuel = f + 1 := ⟨fuel - 1, by omega⟩
    rw [spellM, tkM, objLoop, if_neg (by simp)]; rfl
  | .cons k v rest, h =>
    unfold CleanM at h
    exact cparses_cons k v rest h.2.1 (cparses_val v h.2.1) (cparses_members rest h.2.2)
theorem cparses_elems (es : Elems) (h : CleanE es) : CParsesE es := by
  match es, h with
  | .nil, _ =>
    refine ⟨1, fun fuel hf pre post => ?_⟩
    obtain ⟨fuel, rfl⟩ : ∃ f, fuel = f + 1 := ⟨fuel - 1, by omega⟩
    rw [spellE, tkE, arrLoop, if_neg (by simp)]; rfl
  | .cons v rest, h =>
    unfold CleanE at h
    exact cparses_econs v rest h.1 (cparses_val v h.1) (cparses_elems rest h.2)
end

end Printemps.Json
