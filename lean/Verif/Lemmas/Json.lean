import Verif.Model.Json
import Verif.Spec.Json
import Verif.Lemmas.Text

/-! # Lemmas about JSON text -/

namespace Printemps.Json
open Text

/-! ## Words -/

/-- A character of a number or a keyword. -/
def OkChar (c : Char) : Prop := c ∉ [' ', '\t', '\n', '"', ',', ':', '{', '}', '[', ']']
instance (c : Char) : Decidable (OkChar c) := by unfold OkChar; infer_instance

/-- A word without quotation. -/
def OkWord (w : Str) : Prop := w ≠ [] ∧ ∀ c ∈ w, OkChar c
instance (w : Str) : Decidable (OkWord w) := by unfold OkWord; infer_instance

theorem digit_ok (c : Char) (h : isDigit c = true) : OkChar c := by
  unfold isDigit at h
  rw [decide_eq_true_iff] at h
  have key : ∀ d : Char, (d.toNat < 48 ∨ 57 < d.toNat) → c ≠ d := fun d hd e => by subst e; omega
  unfold OkChar
  simp only [List.mem_cons, List.not_mem_nil, or_false, not_or]
  exact ⟨key _ (by decide), key _ (by decide), key _ (by decide), key _ (by decide), key _ (by decide), key _ (by decide),
    key _ (by decide), key _ (by decide), key _ (by decide), key _ (by decide)⟩

theorem intChars_ok (n : ℤ) : OkWord (intChars n) := by
  unfold intChars
  split
  · refine ⟨by simp, fun c hc => ?_⟩
    rcases List.mem_cons.1 hc with rfl | hc
    · decide
    · exact digit_ok c (natChars_digits _ c hc)
  · exact ⟨natChars_ne _, fun c hc => digit_ok c (natChars_digits _ c hc)⟩

theorem formatPositiveE_ok (q : ℚ) : (∀ c ∈ formatPositiveE q, OkChar c) ∧ '.' ∈ formatPositiveE q ∧
    formatPositiveE q ≠ [] := by
  unfold formatPositiveE
  dsimp only
  generalize (if roundEven (scale10 q (6 - exponent10 q)) ≥ 10000000 then exponent10 q + 1 else exponent10 q) = e
  refine ⟨fun c hc => ?_, by simp, by simp⟩
  simp only [List.mem_append, List.mem_cons] at hc
  rcases hc with hc | rfl | hc | rfl | hc | hc
  · exact digit_ok c (natChars_digits _ c (List.mem_of_mem_take hc))
  · decide
  · exact digit_ok c (natChars_digits _ c (List.mem_of_mem_drop hc))
  · decide
  · subst hc; split <;> decide
  · split at hc
    · rcases List.mem_cons.1 hc with rfl | hc
      · decide
      · exact digit_ok c (natChars_digits _ c hc)
    · exact digit_ok c (natChars_digits _ c hc)

theorem formatE_ok (q : ℚ) : OkWord (formatE q) ∧ '.' ∈ formatE q := by
  unfold formatE
  split
  · decide
  · split
    · obtain ⟨h1, h2, h3⟩ := formatPositiveE_ok (-q)
      refine ⟨⟨by simp, fun c hc => ?_⟩, by simp [h2]⟩
      rcases List.mem_cons.1 hc with rfl | hc
      · decide
      · exact h1 c hc
    · obtain ⟨h1, h2, h3⟩ := formatPositiveE_ok q
      exact ⟨⟨h3, h1⟩, h2⟩

/-! ## Documents -/

/-- A string with quotes. -/
def quote (s : Str) : Str := '"' :: (s ++ ['"'])

mutual
/-- The tokens of a value. -/
def tk : Val → List Str
  | .null => [kNull]
  | .bool b => [boolChars b]
  | .int n => [intChars n]
  | .real q => [formatE q]
  | .str s => [quote s]
  | .obj ms => ['{'] :: (tkM ms ++ [['}']])
  | .arr es => ['['] :: (tkE es ++ [[']']])
/-- The tokens of members. -/
def tkM : Members → List Str
  | .nil => []
  | .cons k v r => quote k :: (tk v ++ tkM r)
/-- The tokens of elements. -/
def tkE : Elems → List Str
  | .nil => []
  | .cons v r => tk v ++ tkE r
end

/-! ## Splitting -/

/-- The six rules for single characters. -/
def pre6 (cs : List Char) : List Char :=
  replace ']' [' ', ']'] (replace '[' ['[', ' '] (replace '}' [' ', '}'] (replace '{' ['{', ' ']
    (replace ':' [' '] (replace ',' [' '] cs)))))

theorem pre6_append (a b : List Char) : pre6 (a ++ b) = pre6 a ++ pre6 b := by
  unfold pre6 replace
  simp only [List.flatMap_append]

theorem replace_id (c : Char) (w cs : List Char) (h : c ∉ cs) : replace c w cs = cs := by
  unfold replace
  induction cs with
  | nil => rfl
  | cons d cs ih =>
    rw [List.mem_cons, not_or] at h
    rw [List.flatMap_cons, if_neg (Ne.symm h.1), ih h.2]
    rfl

theorem pre6_id (cs : List Char) (h : ∀ c ∈ cs, c ∉ [',', ':', '{', '}', '[', ']']) : pre6 cs = cs := by
  have key : ∀ d ∈ [',', ':', '{', '}', '[', ']'], d ∉ cs := fun d hd hc => h d hc hd
  unfold pre6
  rw [replace_id ',' _ _ (key _ (by decide)), replace_id ':' _ _ (key _ (by decide)), replace_id '{' _ _ (key _ (by decide)),
    replace_id '}' _ _ (key _ (by decide)), replace_id '[' _ _ (key _ (by decide)), replace_id ']' _ _ (key _ (by decide))]

theorem dropCrLf_id (cs : List Char) (h : '\n' ∉ cs) : dropCrLf cs = cs := by
  induction cs with
  | nil => rfl
  | cons c cs ih =>
    rw [List.mem_cons, not_or] at h
    unfold dropCrLf
    split
    · next e =>
      simp only [List.cons.injEq] at e
      exact absurd (by rw [e.2]; simp) h.2
    · next c' cs' _ e =>
      simp only [List.cons.injEq] at e
      rw [← e.1, ← e.2, ih h.2]
    · next e => simp at e

theorem join_append (a b : List Char) : joinLines (a ++ b) = joinLines a ++ joinLines b := List.filter_append ..
theorem join_cons (c : Char) (h : c ≠ '\n') (b : List Char) : joinLines (c :: b) = c :: joinLines b := by
  unfold joinLines; simp [h]
theorem join_nl (b : List Char) : joinLines ('\n' :: b) = joinLines b := by
  unfold joinLines; simp
theorem join_id (cs : List Char) (h : '\n' ∉ cs) : joinLines cs = cs := by
  unfold joinLines
  rw [List.filter_eq_self]
  intro c hc
  simp only [decide_not, Bool.not_eq_true', decide_eq_false_iff_not]
  rintro rfl
  exact h hc
theorem join_no_nl (cs : List Char) : '\n' ∉ joinLines cs := by
  unfold joinLines
  simp

/-- The text handed to the splitting loop. -/
def pj (cs : List Char) : List Char := pre6 (joinLines cs)
theorem pj_append (a b : List Char) : pj (a ++ b) = pj a ++ pj b := by unfold pj; rw [join_append, pre6_append]
theorem pj_nl (b : List Char) : pj ('\n' :: b) = pj b := by unfold pj; rw [join_nl]
theorem pj_cons (c : Char) (b : List Char) : pj (c :: b) = pj [c] ++ pj b := by
  rw [← pj_append]; rfl
theorem pj_cons2 (c d : Char) (b : List Char) : pj (c :: d :: b) = pj [c, d] ++ pj b := by
  rw [← pj_append]; rfl
theorem tokenize_join (cs : List Char) : tokenize (joinLines cs) = split [] false (pj cs) := by
  unfold tokenize preprocess pj pre6
  rw [dropCrLf_id _ (join_no_nl cs)]

theorem indent_chars (n : ℕ) : ∀ c ∈ indent n, c = ' ' := fun _ hc => (List.mem_replicate.1 hc).2

theorem pj_indent (n : ℕ) : pj (indent n) = indent n := by
  unfold pj
  rw [join_id _ (fun h => absurd (indent_chars n _ h) (by decide)), pre6_id]
  intro c hc
  rw [indent_chars n c hc]
  decide

theorem pj_word (w : Str) (h : OkWord w) : pj w = w := by
  unfold pj
  rw [join_id _ (fun hc => absurd (h.2 _ hc) (by decide)), pre6_id]
  intro c hc hm
  refine absurd (h.2 c hc) ?_
  unfold OkChar
  simp only [List.mem_cons, List.not_mem_nil, or_false] at hm ⊢
  tauto

theorem pj_plain (s : Str) (h : PlainS s) : pj s = s := by
  unfold pj
  rw [join_id _ (fun hc => absurd (by simp) (h _ hc)), pre6_id]
  intro c hc hm
  refine h c hc ?_
  simp only [List.mem_cons, List.not_mem_nil, or_false] at hm ⊢
  tauto

theorem pj_quote (s : Str) (h : PlainS s) : pj (quote s) = quote s := by
  unfold quote
  rw [pj_cons, pj_append, pj_plain s h]
  rfl

/-- End of the text or a space. -/
def Sep (s : List Char) : Prop := s = [] ∨ ∃ r, s = ' ' :: r

theorem split_cons (cur : List Char) (quoted : Bool) (c : Char) (cs : List Char) : split cur quoted (c :: cs) =
    (if c = ' ' ∨ c = '\t' then
      if cur = [] then split [] (if c = '"' then !quoted else quoted) cs
      else if (if c = '"' then !quoted else quoted) then split (cur ++ [c]) (if c = '"' then !quoted else quoted) cs
      else cur :: split [] (if c = '"' then !quoted else quoted) cs
    else split (cur ++ [c]) (if c = '"' then !quoted else quoted) cs) := by
  rw [split]

theorem split_spaces (w s : List Char) (h : ∀ c ∈ w, c = ' ') : split [] false (w ++ s) = split [] false s := by
  induction w with
  | nil => rfl
  | cons c w ih =>
    rw [List.cons_append, h c (by simp), split]
    simp only [if_neg (show ¬ (' ' : Char) = '"' by decide), true_or, if_true]
    exact ih (fun c hc => h c (by simp [hc]))

theorem split_word (w cur s : List Char) (h : ∀ c ∈ w, OkChar c) : split cur false (w ++ s) = split (cur ++ w) false s := by
  induction w generalizing cur with
  | nil => simp
  | cons c w ih =>
    have hc := h c (by simp)
    unfold OkChar at hc
    simp only [List.mem_cons, List.not_mem_nil, or_false, not_or] at hc
    rw [List.cons_append, split]
    simp only [if_neg hc.2.2.2.1]
    rw [if_neg (by tauto), ih _ (fun c hc => h c (by simp [hc]))]
    simp

theorem split_quoted (w cur s : List Char) (h : PlainS w) (hcur : cur ≠ []) : split cur true (w ++ s) = split (cur ++ w) true s := by
  induction w generalizing cur with
  | nil => simp
  | cons c w ih =>
    have hc := h c (by simp)
    simp only [List.mem_cons, List.not_mem_nil, or_false, not_or] at hc
    have ih' := ih (cur ++ [c]) (fun c hc => h c (by simp [hc])) (by simp)
    rw [List.cons_append, split]
    simp only [if_neg hc.1, if_neg hcur, if_true, ite_self]
    rw [ih']
    simp

theorem split_quote (k s : List Char) (h : PlainS k) : split [] false (quote k ++ s) = split (quote k) false s := by
  unfold quote
  rw [List.cons_append, split_cons, if_neg (by decide), if_pos rfl, Bool.not_false, List.nil_append, List.append_assoc,
    split_quoted k _ _ h (by simp), List.singleton_append, List.singleton_append, split_cons, if_neg (by decide), if_pos rfl, Bool.not_true]
  simp

theorem split_end (w s : List Char) (hw : w ≠ []) (hs : Sep s) : split w false s = w :: split [] false s := by
  rcases hs with rfl | ⟨r, rfl⟩
  · rw [split, if_neg hw]; rfl
  · rw [split]
    simp only [if_neg (show ¬ (' ' : Char) = '"' by decide), true_or, if_true, if_neg hw]
    rw [if_neg (by decide), show split [] false (' ' :: r) = split [] false r from split_spaces [' '] r (by decide)]

theorem split_okWord (w s : List Char) (hw : OkWord w) (hs : Sep s) : split [] false (w ++ s) = w :: split [] false s := by
  rw [split_word w [] s hw.2, List.nil_append, split_end w s hw.1 hs]

theorem split_bracket (b : Char) (hb : b ∈ ['{', '}', '[', ']']) (s : List Char) (hs : Sep s) :
    split [] false (b :: s) = [b] :: split [] false s := by
  have h1 : b ≠ '"' ∧ b ≠ ' ' ∧ b ≠ '\t' := by
    simp only [List.mem_cons, List.not_mem_nil, or_false] at hb
    rcases hb with rfl | rfl | rfl | rfl <;> decide
  rw [split]
  simp only [if_neg h1.1]
  rw [if_neg (by tauto), List.nil_append, split_end [b] s (by simp) hs]

theorem sep_space (s : List Char) : Sep (' ' :: s) := Or.inr ⟨s, rfl⟩

theorem sep_indent (n : ℕ) (s : List Char) : Sep (indent n ++ ' ' :: s) := by
  unfold indent
  cases h : 4 * n with
  | zero => exact sep_space s
  | succ k => exact Or.inr ⟨_, by rw [List.replicate_succ, List.cons_append]⟩

theorem sep_members (n : ℕ) (ms : Members) (s : List Char) (hs : Sep s) : Sep (pj (writeMembers n [',', ' '] ms) ++ s) := by
  cases ms with
  | nil => exact hs
  | cons k v r =>
    unfold writeMembers
    rw [List.cons_append, pj_cons]
    exact Or.inr ⟨_, rfl⟩

theorem sep_elems (n : ℕ) (es : Elems) (s : List Char) (hs : Sep s) : Sep (pj (writeElems n [',', ' '] es) ++ s) := by
  cases es with
  | nil => exact hs
  | cons v r =>
    unfold writeElems
    rw [List.cons_append, pj_cons]
    exact Or.inr ⟨_, rfl⟩

mutual
theorem split_val (n : ℕ) (v : Val) (a : Bool) (h : PlainV a v) (s : List Char) (hs : Sep s) :
    split [] false (pj (write n v) ++ s) = tk v ++ split [] false s := by
  match v, h with
  | .null, _ =>
    unfold write
    rw [pj_word _ (by decide)]
    exact split_okWord _ _ (by decide) hs
  | .bool b, _ =>
    unfold write
    rw [pj_word _ (by cases b <;> decide)]
    exact split_okWord _ _ (by cases b <;> decide) hs
  | .int i, _ =>
    unfold write
    rw [pj_word _ (intChars_ok i)]
    exact split_okWord _ _ (intChars_ok i) hs
  | .real q, _ =>
    unfold write
    rw [pj_word _ (formatE_ok q).1]
    exact split_okWord _ _ (formatE_ok q).1 hs
  | .str t, h =>
    unfold PlainV at h
    show split [] false (pj (quote t) ++ s) = _
    rw [pj_quote t h, split_quote t s h, split_end _ _ (by simp [quote]) hs]
    rfl
  | .obj .nil, _ =>
    show split [] false ('{' :: ' ' :: ' ' :: ('}' :: s)) = _
    rw [split_bracket '{' (by decide) _ (sep_space _), show (' ' :: ' ' :: ('}' :: s)) = [' ', ' '] ++ ('}' :: s) from rfl,
      split_spaces _ _ (by decide), split_bracket '}' (by decide) _ hs]
    rfl
  | .arr .nil, _ =>
    show split [] false ('[' :: ' ' :: ' ' :: (']' :: s)) = _
    rw [split_bracket '[' (by decide) _ (sep_space _), show (' ' :: ' ' :: (']' :: s)) = [' ', ' '] ++ (']' :: s) from rfl,
      split_spaces _ _ (by decide), split_bracket ']' (by decide) _ hs]
    rfl
  | .obj (.cons k v r), h =>
    unfold PlainV at h
    unfold write
    rw [pj_cons2, pj_append, pj_nl, pj_append, pj_indent, show pj ['{', ' '] = '{' :: [' ', ' '] from rfl,
      show pj ['}'] = ' ' :: ['}'] from rfl]
    simp only [List.append_assoc, List.cons_append, List.nil_append]
    rw [split_bracket '{' (by decide) _ (sep_space _)]
    rw [show ∀ l : List Char, ' ' :: ' ' :: l = [' ', ' '] ++ l from fun l => rfl, split_spaces _ _ (by decide),
      split_members (n + 1) (.cons k v r) h [] (Or.inl rfl) _ (sep_indent n _),
      split_spaces _ _ (indent_chars n), show ∀ l : List Char, ' ' :: l = [' '] ++ l from fun _ => rfl, split_spaces _ _ (by decide),
      split_bracket '}' (by decide) _ hs, tk]
    simp
  | .arr (.cons v r), h =>
    unfold PlainV at h
    unfold write
    rw [pj_cons2, pj_append, pj_nl, pj_append, pj_indent, show pj ['[', ' '] = '[' :: [' ', ' '] from rfl,
      show pj [']'] = ' ' :: [']'] from rfl]
    simp only [List.append_assoc, List.cons_append, List.nil_append]
    rw [split_bracket '[' (by decide) _ (sep_space _)]
    rw [show ∀ l : List Char, ' ' :: ' ' :: l = [' ', ' '] ++ l from fun l => rfl, split_spaces _ _ (by decide),
      split_elems (n + 1) (.cons v r) h [] (Or.inl rfl) _ (sep_indent n _),
      split_spaces _ _ (indent_chars n), show ∀ l : List Char, ' ' :: l = [' '] ++ l from fun _ => rfl, split_spaces _ _ (by decide),
      split_bracket ']' (by decide) _ hs, tk]
    simp
theorem split_members (n : ℕ) (ms : Members) (h : PlainM ms) (sep : List Char) (hsep : sep = [] ∨ sep = [',', ' ']) (s : List Char)
    (hs : Sep s) : split [] false (pj (writeMembers n sep ms) ++ s) = tkM ms ++ split [] false s := by
  match ms, h with
  | .nil, _ => unfold writeMembers tkM; rfl
  | .cons k v r, h =>
    unfold PlainM at h
    unfold writeMembers
    have e : ∀ x, '"' :: (k ++ '"' :: ':' :: ' ' :: x) = quote k ++ (':' :: ' ' :: x) := fun x => by simp [quote]
    have hsp : ∀ c ∈ pj sep, c = ' ' := by rcases hsep with rfl | rfl <;> decide
    rw [e, pj_append, pj_nl, pj_append, pj_indent, pj_append, pj_quote k h.1, pj_cons2, pj_append, List.append_assoc,
      split_spaces _ _ hsp, List.append_assoc, split_spaces _ _ (indent_chars n), List.append_assoc, split_quote k _ h.1,
      show pj [':', ' '] = [' ', ' '] from rfl, List.append_assoc]
    rw [split_end (quote k) ([' ', ' '] ++ _) (by simp [quote]) (sep_space _), split_spaces _ _ (by decide), List.append_assoc, split_val n v false h.2.1 _ (sep_members n r s hs),
      split_members n r h.2.2 _ (Or.inr rfl) s hs, tkM]
    simp
theorem split_elems (n : ℕ) (es : Elems) (h : PlainE es) (sep : List Char) (hsep : sep = [] ∨ sep = [',', ' ']) (s : List Char)
    (hs : Sep s) : split [] false (pj (writeElems n sep es) ++ s) = tkE es ++ split [] false s := by
  match es, h with
  | .nil, _ => unfold writeElems tkE; rfl
  | .cons v r, h =>
    unfold PlainE at h
    unfold writeElems
    have hsp : ∀ c ∈ pj sep, c = ' ' := by rcases hsep with rfl | rfl <;> decide
    rw [pj_append, pj_nl, pj_append, pj_indent, pj_append, List.append_assoc,
      split_spaces _ _ hsp, List.append_assoc, split_spaces _ _ (indent_chars n), List.append_assoc,
      split_val n v true h.1 _ (sep_elems n r s hs), split_elems n r h.2 _ (Or.inr rfl) s hs, tkE]
    simp
end

theorem tokenize_write (n : ℕ) (v : Val) (a : Bool) (h : PlainV a v) : tokenize (joinLines (write n v)) = tk v := by
  rw [tokenize_join, ← List.append_nil (pj _), split_val n v a h [] (Or.inl rfl)]
  simp [split]

/-! ## Counting brackets -/

/-- The two kinds of brackets. -/
def Pair (l r : Char) : Prop := (l = '{' ∧ r = '}') ∨ (l = '[' ∧ r = ']')

theorem close_word (l r : Char) (hp : Pair l r) (w : Str) (hw : ∀ c ∈ w, OkChar c ∨ c = ' ' ∨ c = ',' ∨ c = ':') (s : List Char) (n : ℤ) :
    closeCount l r n false (w ++ s) = closeCount l r n false s := by
  induction w with
  | nil => rfl
  | cons c w ih =>
    have hc := hw c (by simp)
    have : c ≠ '"' ∧ c ≠ l ∧ c ≠ r := by
      rcases hc with hc | rfl | rfl | rfl
      · unfold OkChar at hc
        simp only [List.mem_cons, List.not_mem_nil, or_false, not_or] at hc
        rcases hp with ⟨rfl, rfl⟩ | ⟨rfl, rfl⟩ <;> tauto
      all_goals rcases hp with ⟨rfl, rfl⟩ | ⟨rfl, rfl⟩ <;> decide
    rw [List.cons_append, closeCount, if_neg (by decide), if_neg this.1, if_neg this.2.1, if_neg this.2.2,
      ih (fun c hc => hw c (by simp [hc]))]

theorem close_quoted (l r : Char) (w : Str) (hw : PlainS w) (s : List Char) (n : ℤ) :
    closeCount l r n true (w ++ s) = closeCount l r n true s := by
  induction w with
  | nil => rfl
  | cons c w ih =>
    have hc := hw c (by simp)
    simp only [List.mem_cons, List.not_mem_nil, or_false, not_or] at hc
    rw [List.cons_append, closeCount, if_pos rfl, if_neg hc.1, ih (fun c hc => hw c (by simp [hc]))]

theorem close_quote (l r : Char) (w : Str) (hw : PlainS w) (s : List Char) (n : ℤ) :
    closeCount l r n false (quote w ++ s) = closeCount l r n false s := by
  unfold quote
  rw [List.cons_append, closeCount, if_neg (by decide), if_pos rfl, List.append_assoc, close_quoted l r w hw,
    List.singleton_append, closeCount, if_pos rfl, if_pos rfl]

theorem join_word (w : Str) (h : OkWord w) : joinLines w = w :=
  join_id _ (fun hc => absurd (h.2 _ hc) (by decide))
theorem join_quote (w : Str) (h : PlainS w) : joinLines (quote w) = quote w := by
  refine join_id _ fun hc => ?_
  unfold quote at hc
  simp only [List.mem_cons, List.mem_append, List.not_mem_nil, or_false] at hc
  rcases hc with hc | hc | hc
  · exact absurd hc (by decide)
  · exact h _ hc (by simp)
  · exact absurd hc (by decide)
theorem join_indent (n : ℕ) : joinLines (indent n) = indent n :=
  join_id _ (fun h => absurd (indent_chars n _ h) (by decide))
theorem join_cons2 (c d : Char) (b : List Char) (hc : c ≠ '\n') (hd : d ≠ '\n') : joinLines (c :: d :: b) = c :: d :: joinLines b := by
  rw [join_cons c hc, join_cons d hd]

/-- The effect of an opening bracket on the count. -/
def up (b c : Char) : ℤ := if c = b then 1 else 0

theorem close_open (l r : Char) (hp : Pair l r) (b : Char) (hb : b = '{' ∨ b = '[') (s : List Char) (n : ℤ) :
    closeCount l r n false (b :: s) = closeCount l r (n + up b l) false s := by
  rcases hb with rfl | rfl <;> rcases hp with ⟨rfl, rfl⟩ | ⟨rfl, rfl⟩ <;> simp [closeCount, up]

theorem close_close (l r : Char) (hp : Pair l r) (b b' : Char) (hb : (b = '{' ∧ b' = '}') ∨ (b = '[' ∧ b' = ']')) (s : List Char) (n : ℤ) :
    closeCount l r (n + up b l) false (b' :: s) = closeCount l r n false s := by
  rcases hb with ⟨rfl, rfl⟩ | ⟨rfl, rfl⟩ <;> rcases hp with ⟨rfl, rfl⟩ | ⟨rfl, rfl⟩ <;> simp [closeCount, up]

mutual
theorem close_val (l r : Char) (hp : Pair l r) (n : ℕ) (v : Val) (a : Bool) (h : PlainV a v) (s : List Char) (k : ℤ) :
    closeCount l r k false (joinLines (write n v) ++ s) = closeCount l r k false s := by
  match v, h with
  | .null, _ =>
    unfold write
    rw [join_word _ (by decide)]
    exact close_word l r hp _ (fun c hc => Or.inl ((show OkWord kNull by decide).2 c hc)) s k
  | .bool b, _ =>
    unfold write
    have hb : OkWord (boolChars b) := by cases b <;> decide
    rw [join_word _ hb]
    exact close_word l r hp _ (fun c hc => Or.inl (hb.2 c hc)) s k
  | .int i, _ =>
    unfold write
    rw [join_word _ (intChars_ok i)]
    exact close_word l r hp _ (fun c hc => Or.inl ((intChars_ok i).2 c hc)) s k
  | .real q, _ =>
    unfold write
    rw [join_word _ (formatE_ok q).1]
    exact close_word l r hp _ (fun c hc => Or.inl ((formatE_ok q).1.2 c hc)) s k
  | .str t, h =>
    unfold PlainV at h
    unfold write
    have := close_quote l r t h s k
    rw [← join_quote t h] at this
    exact this
  | .obj .nil, _ =>
    unfold write
    rw [join_cons2 _ _ _ (by decide) (by decide), List.cons_append, List.cons_append, close_open l r hp '{' (Or.inl rfl),
      close_close l r hp '{' '}' (Or.inl ⟨rfl, rfl⟩)]
    rfl
  | .arr .nil, _ =>
    unfold write
    rw [join_cons2 _ _ _ (by decide) (by decide), List.cons_append, List.cons_append, close_open l r hp '[' (Or.inr rfl),
      close_close l r hp '[' ']' (Or.inr ⟨rfl, rfl⟩)]
    rfl
  | .obj (.cons key v rest), h =>
    unfold PlainV at h
    unfold write
    rw [join_cons2 _ _ _ (by decide) (by decide), join_append, join_nl, join_append, join_indent, List.cons_append, List.cons_append,
      close_open l r hp '{' (Or.inl rfl), List.append_assoc, List.append_assoc]
    rw [show ∀ x : List Char, ' ' :: x = [' '] ++ x from fun _ => rfl, close_word l r hp [' '] (by simp),
      close_members l r hp (n + 1) (.cons key v rest) h [] (Or.inl rfl), close_word l r hp (indent n) (fun c hc => Or.inr (Or.inl (indent_chars n c hc))),
      join_cons _ (by decide), List.cons_append, close_close l r hp '{' '}' (Or.inl ⟨rfl, rfl⟩)]
    rfl
  | .arr (.cons v rest), h =>
    unfold PlainV at h
    unfold write
    rw [join_cons2 _ _ _ (by decide) (by decide), join_append, join_nl, join_append, join_indent, List.cons_append, List.cons_append,
      close_open l r hp '[' (Or.inr rfl), List.append_assoc, List.append_assoc]
    rw [show ∀ x : List Char, ' ' :: x = [' '] ++ x from fun _ => rfl, close_word l r hp [' '] (by simp),
      close_elems l r hp (n + 1) (.cons v rest) h [] (Or.inl rfl), close_word l r hp (indent n) (fun c hc => Or.inr (Or.inl (indent_chars n c hc))),
      join_cons _ (by decide), List.cons_append, close_close l r hp '[' ']' (Or.inr ⟨rfl, rfl⟩)]
    rfl
theorem close_members (l r : Char) (hp : Pair l r) (n : ℕ) (ms : Members) (h : PlainM ms) (sep : List Char)
    (hsep : sep = [] ∨ sep = [',', ' ']) (s : List Char) (i : ℤ) :
    closeCount l r i false (joinLines (writeMembers n sep ms) ++ s) = closeCount l r i false s := by
  match ms, h with
  | .nil, _ => unfold writeMembers; rfl
  | .cons k v rest, h =>
    unfold PlainM at h
    unfold writeMembers
    have e : ∀ x, '"' :: (k ++ '"' :: ':' :: ' ' :: x) = quote k ++ (':' :: ' ' :: x) := fun x => by simp [quote]
    have h1 : joinLines sep = sep := by rcases hsep with rfl | rfl <;> rfl
    have h2 : ∀ c ∈ sep, OkChar c ∨ c = ' ' ∨ c = ',' ∨ c = ':' := by rcases hsep with rfl | rfl <;> decide
    rw [e, join_append, h1, join_nl, join_append, join_indent, join_append, join_quote k h.1, join_cons2 _ _ _ (by decide) (by decide),
      join_append]
    simp only [List.append_assoc, List.cons_append]
    rw [close_word l r hp sep h2, close_word l r hp (indent n) (fun c hc => Or.inr (Or.inl (indent_chars n c hc))), close_quote l r k h.1,
      show ∀ x : List Char, ':' :: ' ' :: x = [':', ' '] ++ x from fun _ => rfl, close_word l r hp [':', ' '] (by decide),
      close_val l r hp n v false h.2.1, close_members l r hp n rest h.2.2 _ (Or.inr rfl)]
theorem close_elems (l r : Char) (hp : Pair l r) (n : ℕ) (es : Elems) (h : PlainE es) (sep : List Char)
    (hsep : sep = [] ∨ sep = [',', ' ']) (s : List Char) (i : ℤ) :
    closeCount l r i false (joinLines (writeElems n sep es) ++ s) = closeCount l r i false s := by
  match es, h with
  | .nil, _ => unfold writeElems; rfl
  | .cons v rest, h =>
    unfold PlainE at h
    unfold writeElems
    have h1 : joinLines sep = sep := by rcases hsep with rfl | rfl <;> rfl
    have h2 : ∀ c ∈ sep, OkChar c ∨ c = ' ' ∨ c = ',' ∨ c = ':' := by rcases hsep with rfl | rfl <;> decide
    rw [join_append, h1, join_nl, join_append, join_indent, join_append]
    simp only [List.append_assoc]
    rw [close_word l r hp sep h2, close_word l r hp (indent n) (fun c hc => Or.inr (Or.inl (indent_chars n c hc))),
      close_val l r hp n v true h.1, close_elems l r hp n rest h.2 _ (Or.inr rfl)]
end

theorem close_write (l r : Char) (hp : Pair l r) (n : ℕ) (v : Val) (a : Bool) (h : PlainV a v) :
    closeCount l r 0 false (joinLines (write n v)) = 0 := by
  rw [← List.append_nil (joinLines _), close_val l r hp n v a h]
  rfl

/-! ## Parsing -/

/-- The two kinds of bracket tokens. -/
def TPair (l r : Str) : Prop := (l = ['{'] ∧ r = ['}']) ∨ (l = ['['] ∧ r = [']'])

theorem word_ne (w : Str) (h : OkWord w) : w ∉ [['{'], ['}'], ['['], [']']] := by
  intro hm
  simp only [List.mem_cons, List.not_mem_nil, or_false] at hm
  rcases hm with rfl | rfl | rfl | rfl <;> exact absurd h (by decide)

theorem quote_ne (s : Str) : quote s ∉ [['{'], ['}'], ['['], [']']] := by
  unfold quote
  simp

theorem find_other (l r : Str) (hp : TPair l r) (t : Str) (ht : t ∉ [['{'], ['}'], ['['], [']']]) (c : ℤ) (i : ℕ) (ts : List Str) :
    findEndFrom l r c i (t :: ts) = findEndFrom l r c (i + 1) ts := by
  simp only [List.mem_cons, List.not_mem_nil, or_false, not_or] at ht
  rw [findEndFrom]
  rcases hp with ⟨rfl, rfl⟩ | ⟨rfl, rfl⟩
  · rw [if_neg ht.1, if_neg ht.2.1]
  · rw [if_neg ht.2.2.1, if_neg ht.2.2.2]

theorem find_open (l r b : Str) (hp : TPair l r) (hb : b = ['{'] ∨ b = ['[']) (c : ℤ) (i : ℕ) (ts : List Str) :
    findEndFrom l r c i (b :: ts) = findEndFrom l r (c + if b = l then 1 else 0) (i + 1) ts := by
  rcases hb with rfl | rfl <;> rcases hp with ⟨rfl, rfl⟩ | ⟨rfl, rfl⟩ <;> simp [findEndFrom]

theorem find_close (l r b b' : Str) (hp : TPair l r) (hb : TPair b b') (c : ℤ) (hc : 1 ≤ c) (i : ℕ) (ts : List Str) :
    findEndFrom l r (c + if b = l then 1 else 0) i (b' :: ts) = findEndFrom l r c (i + 1) ts := by
  have : ¬ c = 0 := by omega
  rcases hb with ⟨rfl, rfl⟩ | ⟨rfl, rfl⟩ <;> rcases hp with ⟨rfl, rfl⟩ | ⟨rfl, rfl⟩ <;> simp [findEndFrom, this]

mutual
theorem find_val (l r : Str) (hp : TPair l r) (v : Val) (c : ℤ) (hc : 1 ≤ c) (i : ℕ) (ts : List Str) :
    findEndFrom l r c i (tk v ++ ts) = findEndFrom l r c (i + (tk v).length) ts := by
  match v with
  | .null => unfold tk; exact find_other l r hp _ (word_ne _ (by decide)) c i ts
  | .bool b => unfold tk; exact find_other l r hp _ (word_ne _ (by cases b <;> decide)) c i ts
  | .int n => unfold tk; exact find_other l r hp _ (word_ne _ (intChars_ok n)) c i ts
  | .real q => unfold tk; exact find_other l r hp _ (word_ne _ (formatE_ok q).1) c i ts
  | .str s => unfold tk; exact find_other l r hp _ (quote_ne s) c i ts
  | .obj ms =>
    unfold tk
    rw [List.cons_append, find_open l r _ hp (Or.inl rfl), List.append_assoc,
      find_members l r hp ms _ (by split <;> omega), List.singleton_append, find_close l r ['{'] ['}'] hp (Or.inl ⟨rfl, rfl⟩) c hc]
    simp only [List.length_cons, List.length_append, List.length_nil]
    congr 1
    omega
  | .arr es =>
    unfold tk
    rw [List.cons_append, find_open l r _ hp (Or.inr rfl), List.append_assoc,
      find_elems l r hp es _ (by split <;> omega), List.singleton_append, find_close l r ['['] [']'] hp (Or.inr ⟨rfl, rfl⟩) c hc]
    simp only [List.length_cons, List.length_append, List.length_nil]
    congr 1
    omega
theorem find_members (l r : Str) (hp : TPair l r) (ms : Members) (c : ℤ) (hc : 1 ≤ c) (i : ℕ) (ts : List Str) :
    findEndFrom l r c i (tkM ms ++ ts) = findEndFrom l r c (i + (tkM ms).length) ts := by
  match ms with
  | .nil => unfold tkM; rfl
  | .cons k v rest =>
    unfold tkM
    rw [List.cons_append, find_other l r hp _ (quote_ne k), List.append_assoc, find_val l r hp v c hc, find_members l r hp rest c hc]
    simp only [List.length_cons, List.length_append]
    congr 1
    omega
theorem find_elems (l r : Str) (hp : TPair l r) (es : Elems) (c : ℤ) (hc : 1 ≤ c) (i : ℕ) (ts : List Str) :
    findEndFrom l r c i (tkE es ++ ts) = findEndFrom l r c (i + (tkE es).length) ts := by
  match es with
  | .nil => unfold tkE; rfl
  | .cons v rest =>
    unfold tkE
    rw [List.append_assoc, find_val l r hp v c hc, find_elems l r hp rest c hc]
    simp only [List.length_append]
    congr 1
    omega
end

theorem findEnd_obj (ms : Members) (pre post : List Str) :
    findEnd (pre ++ (tk (.obj ms) ++ post)) pre.length ['{'] ['}'] = pre.length + 1 + (tkM ms).length := by
  unfold findEnd
  rw [List.drop_left, tk, List.cons_append, find_open _ _ _ (Or.inl ⟨rfl, rfl⟩) (Or.inl rfl), List.append_assoc,
    find_members _ _ (Or.inl ⟨rfl, rfl⟩) ms _ (by decide)]
  simp [findEndFrom]

theorem findEnd_arr (es : Elems) (pre post : List Str) :
    findEnd (pre ++ (tk (.arr es) ++ post)) pre.length ['['] [']'] = pre.length + 1 + (tkE es).length := by
  unfold findEnd
  rw [List.drop_left, tk, List.cons_append, find_open _ _ _ (Or.inr ⟨rfl, rfl⟩) (Or.inr rfl), List.append_assoc,
    find_elems _ _ (Or.inr ⟨rfl, rfl⟩) es _ (by decide)]
  simp [findEndFrom]

/-- Values without brackets. -/
def IsLeaf : Val → Prop
  | .obj _ => False
  | .arr _ => False
  | _ => True

theorem unquote_quote (s : Str) : unquote (quote s) = s := by
  unfold unquote quote
  simp

theorem intChars_head (n : ℤ) : (intChars n).head? ≠ some '"' := by
  have h := (intChars_ok n).2
  intro e
  have : '"' ∈ intChars n := List.mem_of_mem_head? (by rw [e]; rfl)
  exact absurd (h _ this) (by decide)

theorem intChars_isInteger (n : ℤ) : isInteger (intChars n) = true := by
  unfold intChars
  split
  · unfold isInteger
    simp only [Bool.and_eq_true, List.all_eq_true]
    exact ⟨by decide, natChars_digits _⟩
  · have h := natChars_digits n.natAbs
    generalize natChars n.natAbs = w at h
    cases w with
    | nil => rfl
    | cons c w =>
      unfold isInteger
      simp only [Bool.and_eq_true, List.all_eq_true, Bool.or_eq_true]
      exact ⟨Or.inl (Or.inl (h c (by simp))), fun d hd => h d (by simp [hd])⟩

theorem readDigits_count (acc k : ℕ) (cs : List Char) (c : Char) (rest : List Char) (h : cs = c :: rest) (hc : isDigit c = true) :
    (readDigits acc k cs).2.1 ≠ 0 := by
  subst h
  have key : ∀ (cs : List Char) (acc k : ℕ), k ≤ (readDigits acc k cs).2.1 := by
    intro cs
    induction cs with
    | nil => intro acc k; exact le_refl _
    | cons d ds ih =>
      intro acc k
      rw [readDigits]
      split
      · exact le_trans (Nat.le_succ k) (ih _ _)
      · exact le_refl _
  rw [readDigits, if_pos hc]
  have := key rest (acc * 10 + (c.toNat - 48)) (k + 1)
  omega

theorem stoi_intChars (n : ℤ) (h : -2147483648 ≤ n ∧ n ≤ 2147483647) : stoi (intChars n) = some n := by
  obtain ⟨k, hk⟩ := readDigits_natChars n.natAbs
  have hk0 : k ≠ 0 := by
    have hd := natChars_digits n.natAbs
    have hne := natChars_ne n.natAbs
    cases hw : natChars n.natAbs with
    | nil => exact absurd hw hne
    | cons c w =>
      have := readDigits_count 0 0 (natChars n.natAbs) c w hw (hd c (by rw [hw]; simp))
      rw [hk] at this
      exact this
  unfold stoi intChars
  split
  · next hn =>
    rw [show readSign ('-' :: natChars n.natAbs) = (true, natChars n.natAbs) from rfl]
    dsimp only
    rw [hk]
    dsimp only
    rw [if_neg hk0, if_pos rfl, if_pos (by omega)]
    congr 1
    omega
  · next hn =>
    rw [readSign_natChars]
    dsimp only
    rw [hk]
    dsimp only
    rw [if_neg hk0, if_neg (show ¬ (false = true) by decide), if_pos (by omega)]
    congr 1
    omega

theorem readDigits_pos_of_digits (w : List Char) (hne : w ≠ []) (hd : ∀ c ∈ w, isDigit c = true) (s : List Char) :
    (readDigits 0 0 (w ++ s)).2.1 ≠ 0 := by
  cases w with
  | nil => exact absurd rfl hne
  | cons c w => exact readDigits_count 0 0 _ c (w ++ s) rfl (hd c (by simp))

theorem formatPositiveE_front (q : ℚ) : ∃ (c : Char) (r : List Char), formatPositiveE q = c :: r ∧ isDigit c = true := by
  unfold formatPositiveE
  dsimp only
  have h1 := natChars_ne (if roundEven (scale10 q (6 - exponent10 q)) ≥ 10000000 then 1000000 else roundEven (scale10 q (6 - exponent10 q)))
  have h2 := natChars_digits (if roundEven (scale10 q (6 - exponent10 q)) ≥ 10000000 then 1000000 else roundEven (scale10 q (6 - exponent10 q)))
  generalize natChars (if roundEven (scale10 q (6 - exponent10 q)) ≥ 10000000 then 1000000 else roundEven (scale10 q (6 - exponent10 q))) = w at h1 h2
  cases w with
  | nil => exact absurd rfl h1
  | cons c w => exact ⟨c, _, rfl, h2 c (by simp)⟩

theorem stod_formatE (q : ℚ) : stod (formatE q) = some (atof (formatE q)) := by
  have key : (readDigits 0 0 (readSign (formatE q)).2).2.1 ≠ 0 := by
    unfold formatE
    split
    · decide
    · split
      · obtain ⟨c, r, e, hc⟩ := formatPositiveE_front (-q)
        rw [e]
        exact readDigits_count 0 0 _ c r rfl hc
      · obtain ⟨c, r, e, hc⟩ := formatPositiveE_front q
        rw [e]
        have hne := isDigit_ne c hc
        have : readSign (c :: r) = (false, c :: r) := by
          unfold readSign
          split
          · next e => simp only [List.cons.injEq] at e; exact absurd e.1 hne.1
          · next e => simp only [List.cons.injEq] at e; exact absurd e.1 hne.2.1
          · rfl
        rw [this]
        exact readDigits_count 0 0 _ c r rfl hc
  unfold stod
  dsimp only
  rw [if_neg (by omega)]

theorem formatE_front (q : ℚ) : ∃ (c : Char) (r : List Char), formatE q = c :: r ∧ (isDigit c = true ∨ c = '-') := by
  unfold formatE
  split
  · exact ⟨_, _, rfl, Or.inl (by decide)⟩
  · split
    · exact ⟨_, _, rfl, Or.inr rfl⟩
    · obtain ⟨c, r, e, hc⟩ := formatPositiveE_front q
      exact ⟨c, r, e, Or.inl hc⟩

theorem word_head (w : Str) (h : OkWord w) : w.head? ≠ some '"' := by
  intro e
  have : '"' ∈ w := List.mem_of_mem_head? (by rw [e]; rfl)
  exact absurd (h.2 _ this) (by decide)

theorem front_ne (w : Str) (c : Char) (r : List Char) (e : w = c :: r) (hc : isDigit c = true ∨ c = '-') :
    w ≠ kNull ∧ w ≠ boolChars true ∧ w ≠ boolChars false := by
  subst e
  refine ⟨?_, ?_, ?_⟩ <;>
  · intro e
    have := congrArg List.head? e
    simp only [List.head?_cons] at this
    have hcc := Option.some.inj this
    subst hcc
    revert hc
    decide

theorem intChars_front (n : ℤ) : ∃ (c : Char) (r : List Char), intChars n = c :: r ∧ (isDigit c = true ∨ c = '-') := by
  unfold intChars
  split
  · exact ⟨_, _, rfl, Or.inr rfl⟩
  · have h1 := natChars_ne n.natAbs
    have h2 := natChars_digits n.natAbs
    generalize natChars n.natAbs = w at h1 h2
    cases w with
    | nil => exact absurd rfl h1
    | cons c w => exact ⟨c, w, rfl, Or.inl (h2 c (by simp))⟩

theorem formatE_not_integer (q : ℚ) : isInteger (formatE q) = false := by
  have h := (formatE_ok q).2
  obtain ⟨c, r, e, hc⟩ := formatE_front q
  rw [e] at h ⊢
  unfold isInteger
  rw [Bool.and_eq_false_iff]
  right
  rw [List.all_eq_false]
  refine ⟨'.', ?_, by decide⟩
  rcases List.mem_cons.1 h with e' | h
  · rw [← e'] at hc; exact absurd hc (by decide)
  · exact h

/-- A leaf is read back, both in objects and in arrays. -/
theorem leaf_back (v : Val) (hl : IsLeaf v) (a : Bool) (h : PlainV a v) :
    ∃ t, tk v = [t] ∧ t ∉ [['{'], ['}'], ['['], [']']] ∧ leaf t = some v ∧ (a = true → leafArr t = some v) := by
  match v, hl, h with
  | .null, _, _ => exact ⟨_, by rw [tk], by decide, rfl, fun _ => rfl⟩
  | .bool b, _, h =>
    unfold PlainV at h
    exact ⟨_, by rw [tk], by cases b <;> decide, by cases b <;> rfl, fun ha => by rw [h] at ha; cases ha⟩
  | .int n, _, h =>
    unfold PlainV at h
    obtain ⟨c, r, e, hc⟩ := intChars_front n
    obtain ⟨h1, h2, h3⟩ := front_ne _ c r e hc
    refine ⟨_, by rw [tk], word_ne _ (intChars_ok n), ?_, fun _ => ?_⟩
    · unfold leaf
      rw [if_neg (intChars_head n), if_neg h1, if_neg h2, if_neg h3, if_pos (intChars_isInteger n), stoi_intChars n h]
      rfl
    · unfold leafArr
      rw [if_neg (intChars_head n), if_neg h1, if_neg h2, if_neg h3, if_pos (intChars_isInteger n), stoi_intChars n h]
      rfl
  | .real q, _, h =>
    unfold PlainV at h
    obtain ⟨c, r, e, hc⟩ := formatE_front q
    obtain ⟨h1, h2, h3⟩ := front_ne _ c r e hc
    have h4 : ¬ isInteger (formatE q) = true := by rw [formatE_not_integer]; decide
    refine ⟨_, by rw [tk], word_ne _ (formatE_ok q).1, ?_, fun _ => ?_⟩
    · unfold leaf
      rw [if_neg (word_head _ (formatE_ok q).1), if_neg h1, if_neg h2, if_neg h3, if_neg h4, stod_formatE, h]
      rfl
    · unfold leafArr
      rw [if_neg (word_head _ (formatE_ok q).1), if_neg h1, if_neg h2, if_neg h3, if_neg h4, stod_formatE, h]
      rfl
  | .str s, _, _ =>
    refine ⟨_, by rw [tk], quote_ne s, ?_, fun _ => ?_⟩
    · unfold leaf
      rw [if_pos (show (quote s).head? = some '"' from rfl), unquote_quote]
    · unfold leafArr
      rw [if_pos (show (quote s).head? = some '"' from rfl), unquote_quote]

/-- The members are parsed back wherever their tokens stand. -/
def ParsesM (ms : Members) : Prop := ∃ N, ∀ fuel ≥ N, ∀ pre post : List Str,
  objLoop fuel (pre ++ (tkM ms ++ post)) (pre.length + (tkM ms).length) pre.length = some ms
/-- The elements are parsed back wherever their tokens stand. -/
def ParsesE (es : Elems) : Prop := ∃ N, ∀ fuel ≥ N, ∀ pre post : List Str,
  arrLoop fuel (pre ++ (tkE es ++ post)) (pre.length + (tkE es).length) pre.length = some es
/-- The content of a value is parsed back. -/
def ParsesV : Val → Prop
  | .obj ms => ParsesM ms
  | .arr es => ParsesE es
  | _ => True

theorem get_at (pre : List Str) (t : Str) (post : List Str) : (pre ++ t :: post)[pre.length]? = some t := by
  rw [List.getElem?_append_right (le_refl _)]; simp

theorem get_at1 (pre : List Str) (k t : Str) (post : List Str) : (pre ++ k :: t :: post)[pre.length + 1]? = some t := by
  rw [List.getElem?_append_right (by omega)]; simp

theorem tk_len (v : Val) : 1 ≤ (tk v).length := by
  cases v <;> simp [tk]

theorem parses_cons (k : Str) (v : Val) (rest : Members) (hv : PlainV false v) (pv : ParsesV v) (pr : ParsesM rest) :
    ParsesM (.cons k v rest) := by
  obtain ⟨N2, h2⟩ := pr
  have hlen : (tkM (.cons k v rest)).length = 1 + (tk v).length + (tkM rest).length := by
    rw [tkM]; simp; omega
  have hpos := tk_len v
  match v, hv, pv, hlen, hpos with
  | .obj ms, hv, pv, hlen, hpos =>
    obtain ⟨N1, h1⟩ := pv
    refine ⟨N1 + N2 + 1, fun fuel hf pre post => ?_⟩
    obtain ⟨fuel, rfl⟩ : ∃ f, fuel = f + 1 := ⟨fuel - 1, by omega⟩
    have ets : pre ++ (tkM (.cons k (.obj ms) rest) ++ post) = (pre ++ [quote k]) ++ (tk (.obj ms) ++ (tkM rest ++ post)) := by
      rw [tkM]; simp
    have ets2 : pre ++ (tkM (.cons k (.obj ms) rest) ++ post) =
        (pre ++ [quote k, ['{']]) ++ (tkM ms ++ (['}'] :: (tkM rest ++ post))) := by
      rw [tkM, tk]; simp
    have ets3 : pre ++ (tkM (.cons k (.obj ms) rest) ++ post) =
        (pre ++ quote k :: tk (.obj ms)) ++ (tkM rest ++ post) := by
      rw [tkM]; simp
    have ets4 : pre ++ (tkM (.cons k (.obj ms) rest) ++ post) =
        pre ++ quote k :: ['{'] :: (tkM ms ++ (['}'] :: (tkM rest ++ post))) := by
      rw [ets2]; simp
    have hL : (tk (.obj ms)).length = (tkM ms).length + 2 := by rw [tk]; simp
    have hend : findEnd (pre ++ (tkM (.cons k (.obj ms) rest) ++ post)) (pre.length + 1) ['{'] ['}'] =
        pre.length + 2 + (tkM ms).length := by
      have := findEnd_obj ms (pre ++ [quote k]) (tkM rest ++ post)
      rw [← ets] at this
      simp only [List.length_append, List.length_cons, List.length_nil] at this
      omega
    have hin := h1 fuel (by omega) (pre ++ [quote k, ['{']]) (['}'] :: (tkM rest ++ post))
    rw [← ets2] at hin
    have hout := h2 fuel (by omega) (pre ++ quote k :: tk (.obj ms)) post
    rw [← ets3] at hout
    simp only [List.length_append, List.length_cons, List.length_nil] at hin hout
    rw [objLoop, if_pos (by omega), if_pos (by omega)]
    rw [show (pre ++ (tkM (.cons k (.obj ms) rest) ++ post))[pre.length]? = some (quote k) by rw [ets4]; exact get_at _ _ _,
      show (pre ++ (tkM (.cons k (.obj ms) rest) ++ post))[pre.length + 1]? = some ['{'] by rw [ets4]; exact get_at1 _ _ _ _]
    dsimp only
    rw [if_pos rfl, hend, endPosition, if_pos (by omega)]
    rw [show pre.length + 2 = pre.length + (0 + 1 + 1) by omega, hin, Option.bind_some,
      show pre.length + (tkM (.cons k (.obj ms) rest)).length = pre.length + ((tk (.obj ms)).length + 1) + (tkM rest).length by omega,
      show pre.length + (0 + 1 + 1) + (tkM ms).length + 1 = pre.length + ((tk (.obj ms)).length + 1) by omega, hout, unquote_quote]
    rfl
  | .arr es, hv, pv, hlen, hpos =>
    obtain ⟨N1, h1⟩ := pv
    refine ⟨N1 + N2 + 1, fun fuel hf pre post => ?_⟩
    obtain ⟨fuel, rfl⟩ : ∃ f, fuel = f + 1 := ⟨fuel - 1, by omega⟩
    have ets : pre ++ (tkM (.cons k (.arr es) rest) ++ post) = (pre ++ [quote k]) ++ (tk (.arr es) ++ (tkM rest ++ post)) := by
      rw [tkM]; simp
    have ets2 : pre ++ (tkM (.cons k (.arr es) rest) ++ post) =
        (pre ++ [quote k, ['[']]) ++ (tkE es ++ ([']'] :: (tkM rest ++ post))) := by
      rw [tkM, tk]; simp
    have ets3 : pre ++ (tkM (.cons k (.arr es) rest) ++ post) =
        (pre ++ quote k :: tk (.arr es)) ++ (tkM rest ++ post) := by
      rw [tkM]; simp
    have ets4 : pre ++ (tkM (.cons k (.arr es) rest) ++ post) =
        pre ++ quote k :: ['['] :: (tkE es ++ ([']'] :: (tkM rest ++ post))) := by
      rw [ets2]; simp
    have hL : (tk (.arr es)).length = (tkE es).length + 2 := by rw [tk]; simp
    have hend : findEnd (pre ++ (tkM (.cons k (.arr es) rest) ++ post)) (pre.length + 1) ['['] [']'] =
        pre.length + 2 + (tkE es).length := by
      have := findEnd_arr es (pre ++ [quote k]) (tkM rest ++ post)
      rw [← ets] at this
      simp only [List.length_append, List.length_cons, List.length_nil] at this
      omega
    have hin := h1 fuel (by omega) (pre ++ [quote k, ['[']]) ([']'] :: (tkM rest ++ post))
    rw [← ets2] at hin
    have hout := h2 fuel (by omega) (pre ++ quote k :: tk (.arr es)) post
    rw [← ets3] at hout
    simp only [List.length_append, List.length_cons, List.length_nil] at hin hout
    rw [objLoop, if_pos (by omega), if_pos (by omega)]
    rw [show (pre ++ (tkM (.cons k (.arr es) rest) ++ post))[pre.length]? = some (quote k) by rw [ets4]; exact get_at _ _ _,
      show (pre ++ (tkM (.cons k (.arr es) rest) ++ post))[pre.length + 1]? = some ['['] by rw [ets4]; exact get_at1 _ _ _ _]
    dsimp only
    rw [if_neg (by decide), if_pos rfl, hend, endPosition, if_pos (by omega)]
    rw [show pre.length + 2 = pre.length + (0 + 1 + 1) by omega, hin, Option.bind_some,
      show pre.length + (tkM (.cons k (.arr es) rest)).length = pre.length + ((tk (.arr es)).length + 1) + (tkM rest).length by omega,
      show pre.length + (0 + 1 + 1) + (tkE es).length + 1 = pre.length + ((tk (.arr es)).length + 1) by omega, hout, unquote_quote]
    rfl
  | .null, hv, _, hlen, hpos => exact leaf_cons k .null rest trivial hv N2 h2
  | .bool b, hv, _, hlen, hpos => exact leaf_cons k (.bool b) rest trivial hv N2 h2
  | .int n, hv, _, hlen, hpos => exact leaf_cons k (.int n) rest trivial hv N2 h2
  | .real q, hv, _, hlen, hpos => exact leaf_cons k (.real q) rest trivial hv N2 h2
  | .str s, hv, _, hlen, hpos => exact leaf_cons k (.str s) rest trivial hv N2 h2
where
  leaf_cons (k : Str) (v : Val) (rest : Members) (hl : IsLeaf v) (hv : PlainV false v) (N2 : ℕ)
      (h2 : ∀ fuel ≥ N2, ∀ pre post : List Str,
        objLoop fuel (pre ++ (tkM rest ++ post)) (pre.length + (tkM rest).length) pre.length = some rest) :
      ParsesM (.cons k v rest) := by
    obtain ⟨t, ht, hne, hlf, -⟩ := leaf_back v hl false hv
    refine ⟨N2 + 1, fun fuel hf pre post => ?_⟩
    obtain ⟨fuel, rfl⟩ : ∃ f, fuel = f + 1 := ⟨fuel - 1, by omega⟩
    have ets : pre ++ (tkM (.cons k v rest) ++ post) = pre ++ quote k :: t :: (tkM rest ++ post) := by
      rw [tkM, ht]; simp
    have ets3 : pre ++ (tkM (.cons k v rest) ++ post) = (pre ++ [quote k, t]) ++ (tkM rest ++ post) := by
      rw [ets]; simp
    have hlen : (tkM (.cons k v rest)).length = 2 + (tkM rest).length := by rw [tkM, ht]; simp; omega
    have hout := h2 fuel (by omega) (pre ++ [quote k, t]) post
    rw [← ets3] at hout
    simp only [List.length_append, List.length_cons, List.length_nil] at hout
    simp only [List.mem_cons, List.not_mem_nil, or_false, not_or] at hne
    rw [objLoop, if_pos (by omega), if_pos (by omega)]
    rw [show (pre ++ (tkM (.cons k v rest) ++ post))[pre.length]? = some (quote k) by rw [ets]; exact get_at _ _ _,
      show (pre ++ (tkM (.cons k v rest) ++ post))[pre.length + 1]? = some t by rw [ets]; exact get_at1 _ _ _ _]
    dsimp only
    rw [if_neg hne.1, if_neg hne.2.2.1, hlf, Option.bind_some,
      show pre.length + (tkM (.cons k v rest)).length = pre.length + (0 + 1 + 1) + (tkM rest).length by omega,
      show pre.length + 2 = pre.length + (0 + 1 + 1) by omega, hout, unquote_quote]
    rfl

theorem parses_econs (v : Val) (rest : Elems) (hv : PlainV true v) (pv : ParsesV v) (pr : ParsesE rest) :
    ParsesE (.cons v rest) := by
  obtain ⟨N2, h2⟩ := pr
  have hlen : (tkE (.cons v rest)).length = (tk v).length + (tkE rest).length := by
    rw [tkE]; simp
  have hpos := tk_len v
  match v, hv, pv, hlen, hpos with
  | .obj ms, hv, pv, hlen, hpos =>
    obtain ⟨N1, h1⟩ := pv
    refine ⟨N1 + N2 + 1, fun fuel hf pre post => ?_⟩
    obtain ⟨fuel, rfl⟩ : ∃ f, fuel = f + 1 := ⟨fuel - 1, by omega⟩
    have ets : pre ++ (tkE (.cons (.obj ms) rest) ++ post) = pre ++ (tk (.obj ms) ++ (tkE rest ++ post)) := by
      rw [tkE]; simp
    have ets2 : pre ++ (tkE (.cons (.obj ms) rest) ++ post) =
        (pre ++ [['{']]) ++ (tkM ms ++ (['}'] :: (tkE rest ++ post))) := by
      rw [tkE, tk]; simp
    have ets3 : pre ++ (tkE (.cons (.obj ms) rest) ++ post) = (pre ++ tk (.obj ms)) ++ (tkE rest ++ post) := by
      rw [tkE]; simp
    have ets4 : pre ++ (tkE (.cons (.obj ms) rest) ++ post) = pre ++ ['{'] :: (tkM ms ++ (['}'] :: (tkE rest ++ post))) := by
      rw [ets2]; simp
    have hL : (tk (.obj ms)).length = (tkM ms).length + 2 := by rw [tk]; simp
    have hend : findEnd (pre ++ (tkE (.cons (.obj ms) rest) ++ post)) pre.length ['{'] ['}'] = pre.length + 1 + (tkM ms).length := by
      rw [ets]; exact findEnd_obj ms pre (tkE rest ++ post)
    have hin := h1 fuel (by omega) (pre ++ [['{']]) (['}'] :: (tkE rest ++ post))
    rw [← ets2] at hin
    have hout := h2 fuel (by omega) (pre ++ tk (.obj ms)) post
    rw [← ets3] at hout
    simp only [List.length_append, List.length_cons, List.length_nil] at hin hout
    rw [arrLoop, if_pos (by omega)]
    rw [show (pre ++ (tkE (.cons (.obj ms) rest) ++ post))[pre.length]? = some ['{'] by rw [ets4]; exact get_at _ _ _]
    dsimp only
    rw [if_pos rfl, hend, endPosition, if_pos (by omega)]
    rw [show pre.length + 1 = pre.length + (0 + 1) by omega, hin, Option.bind_some,
      show pre.length + (tkE (.cons (.obj ms) rest)).length = pre.length + (tk (.obj ms)).length + (tkE rest).length by omega,
      show pre.length + (0 + 1) + (tkM ms).length + 1 = pre.length + (tk (.obj ms)).length by omega, hout]
    rfl
  | .arr es, hv, pv, hlen, hpos =>
    obtain ⟨N1, h1⟩ := pv
    refine ⟨N1 + N2 + 1, fun fuel hf pre post => ?_⟩
    obtain ⟨fuel, rfl⟩ : ∃ f, fuel = f + 1 := ⟨fuel - 1, by omega⟩
    have ets : pre ++ (tkE (.cons (.arr es) rest) ++ post) = pre ++ (tk (.arr es) ++ (tkE rest ++ post)) := by
      rw [tkE]; simp
    have ets2 : pre ++ (tkE (.cons (.arr es) rest) ++ post) =
        (pre ++ [['[']]) ++ (tkE es ++ ([']'] :: (tkE rest ++ post))) := by
      rw [tkE, tk]; simp
    have ets3 : pre ++ (tkE (.cons (.arr es) rest) ++ post) = (pre ++ tk (.arr es)) ++ (tkE rest ++ post) := by
      rw [tkE]; simp
    have ets4 : pre ++ (tkE (.cons (.arr es) rest) ++ post) = pre ++ ['['] :: (tkE es ++ ([']'] :: (tkE rest ++ post))) := by
      rw [ets2]; simp
    have hL : (tk (.arr es)).length = (tkE es).length + 2 := by rw [tk]; simp
    have hend : findEnd (pre ++ (tkE (.cons (.arr es) rest) ++ post)) pre.length ['['] [']'] = pre.length + 1 + (tkE es).length := by
      rw [ets]; exact findEnd_arr es pre (tkE rest ++ post)
    have hin := h1 fuel (by omega) (pre ++ [['[']]) ([']'] :: (tkE rest ++ post))
    rw [← ets2] at hin
    have hout := h2 fuel (by omega) (pre ++ tk (.arr es)) post
    rw [← ets3] at hout
    simp only [List.length_append, List.length_cons, List.length_nil] at hin hout
    rw [arrLoop, if_pos (by omega)]
    rw [show (pre ++ (tkE (.cons (.arr es) rest) ++ post))[pre.length]? = some ['['] by rw [ets4]; exact get_at _ _ _]
    dsimp only
    rw [if_neg (by decide), if_pos rfl, hend, endPosition, if_pos (by omega)]
    rw [show pre.length + 1 = pre.length + (0 + 1) by omega, hin, Option.bind_some,
      show pre.length + (tkE (.cons (.arr es) rest)).length = pre.length + (tk (.arr es)).length + (tkE rest).length by omega,
      show pre.length + (0 + 1) + (tkE es).length + 1 = pre.length + (tk (.arr es)).length by omega, hout]
    rfl
  | .null, hv, _, hlen, hpos => exact leaf_cons .null rest trivial hv N2 h2
  | .bool b, hv, _, hlen, hpos => exact leaf_cons (.bool b) rest trivial hv N2 h2
  | .int n, hv, _, hlen, hpos => exact leaf_cons (.int n) rest trivial hv N2 h2
  | .real q, hv, _, hlen, hpos => exact leaf_cons (.real q) rest trivial hv N2 h2
  | .str s, hv, _, hlen, hpos => exact leaf_cons (.str s) rest trivial hv N2 h2
where
  leaf_cons (v : Val) (rest : Elems) (hl : IsLeaf v) (hv : PlainV true v) (N2 : ℕ)
      (h2 : ∀ fuel ≥ N2, ∀ pre post : List Str,
        arrLoop fuel (pre ++ (tkE rest ++ post)) (pre.length + (tkE rest).length) pre.length = some rest) :
      ParsesE (.cons v rest) := by
    obtain ⟨t, ht, hne, -, hlf⟩ := leaf_back v hl true hv
    refine ⟨N2 + 1, fun fuel hf pre post => ?_⟩
    obtain ⟨fuel, rfl⟩ : ∃ f, fuel = f + 1 := ⟨fuel - 1, by omega⟩
    have ets : pre ++ (tkE (.cons v rest) ++ post) = pre ++ t :: (tkE rest ++ post) := by
      rw [tkE, ht]; simp
    have ets3 : pre ++ (tkE (.cons v rest) ++ post) = (pre ++ [t]) ++ (tkE rest ++ post) := by
      rw [ets]; simp
    have hlen : (tkE (.cons v rest)).length = 1 + (tkE rest).length := by rw [tkE, ht]; simp; omega
    have hout := h2 fuel (by omega) (pre ++ [t]) post
    rw [← ets3] at hout
    simp only [List.length_append, List.length_cons, List.length_nil] at hout
    simp only [List.mem_cons, List.not_mem_nil, or_false, not_or] at hne
    rw [arrLoop, if_pos (by omega)]
    rw [show (pre ++ (tkE (.cons v rest) ++ post))[pre.length]? = some t by rw [ets]; exact get_at _ _ _]
    dsimp only
    rw [if_neg hne.1, if_neg hne.2.2.1, hlf rfl, Option.bind_some,
      show pre.length + (tkE (.cons v rest)).length = pre.length + (0 + 1) + (tkE rest).length by omega,
      show pre.length + 1 = pre.length + (0 + 1) by omega, hout]
    rfl

mutual
theorem parses_val (a : Bool) (v : Val) (h : PlainV a v) : ParsesV v := by
  match v, h with
  | .null, _ => trivial
  | .bool _, _ => trivial
  | .int _, _ => trivial
  | .real _, _ => trivial
  | .str _, _ => trivial
  | .obj ms, h => unfold PlainV at h; exact parses_members ms h
  | .arr es, h => unfold PlainV at h; exact parses_elems es h
theorem parses_members (ms : Members) (h : PlainM ms) : ParsesM ms := by
  match ms, h with
  | .nil, _ =>
    refine ⟨1, fun fuel hf pre post => ?_⟩
    obtain ⟨fuel, rfl⟩ : ∃ f, fuel = f + 1 := ⟨fuel - 1, by omega⟩
    rw [tkM, objLoop, if_neg (by simp)]
  | .cons k v rest, h =>
    unfold PlainM at h
    exact parses_cons k v rest h.2.1 (parses_val false v h.2.1) (parses_members rest h.2.2)
theorem parses_elems (es : Elems) (h : PlainE es) : ParsesE es := by
  match es, h with
  | .nil, _ =>
    refine ⟨1, fun fuel hf pre post => ?_⟩
    obtain ⟨fuel, rfl⟩ : ∃ f, fuel = f + 1 := ⟨fuel - 1, by omega⟩
    rw [tkE, arrLoop, if_neg (by simp)]
  | .cons v rest, h =>
    unfold PlainE at h
    exact parses_econs v rest h.1 (parses_val true v h.1) (parses_elems rest h.2)
end

end Printemps.Json
