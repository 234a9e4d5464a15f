import Verif.Spec.MpsFile
import Verif.Lemmas.Mps
import Mathlib.Algebra.Order.Field.Basic
import Mathlib.Tactic.FieldSimp
import Mathlib.Tactic.Ring

/-! # Words and numbers of MPS files -/

namespace Printemps.MpsFile
open Text

theorem blank_iff (c : Char) : Blank c ↔ isSpace c = true := by
  unfold Blank isSpace
  simp only [Bool.or_eq_true, beq_iff_eq]
  tauto

theorem spells_tokens {l : List Char} {ws : List Name} (h : Spells l ws) : tokens l = ws := by
  induction h with
  | blank g hg =>
    have := tokensFrom_spaces g [] (fun c hc => (blank_iff c).1 (hg c hc))
    rw [List.append_nil] at this
    exact this
  | word g w rest ws hg hne hw hr _ ih =>
    show tokensFrom [] _ = _
    have hword : Word w := ⟨hne, fun c hc => by
      have := hw c hc
      rw [blank_iff] at this
      exact Bool.eq_false_iff.2 this⟩
    rw [tokensFrom_spaces g _ (fun c hc => (blank_iff c).1 (hg c hc))]
    cases rest with
    | nil =>
      rw [List.append_nil, tokensFrom_last w hword]
      rw [← ih]; rfl
    | cons c cs =>
      have hc : isSpace c = true := (blank_iff c).1 (hr c rfl)
      have := tokensFrom_next w [c] cs hword (by simpa using hc) (by simp)
      rw [show w ++ c :: cs = w ++ ([c] ++ cs) from rfl, this, ← ih]
      show w :: _ = w :: tokensFrom [] (c :: cs)
      rw [tokensFrom, if_pos hc, if_pos rfl]

theorem spells_blank {l : List Char} {ws : List Name} (h : Spells l ws) (c : Char) (hc : Blank c) : Spells (c :: l) ws := by
  have hcons : ∀ g : List Char, (∀ d ∈ g, Blank d) → ∀ d ∈ c :: g, Blank d := by
    intro g hg d hd
    rcases List.mem_cons.1 hd with rfl | hd
    · exact hc
    · exact hg d hd
  cases h with
  | blank g hg => exact .blank _ (hcons _ hg)
  | word g w rest ws hg hne hw hr h => exact .word (c :: g) w rest ws (hcons g hg) hne hw hr h

theorem spells_from (l : List Char) : ∀ cur : List Char, (∀ c ∈ cur, ¬ Blank c) → Spells (cur ++ l) (tokensFrom cur l) := by
  induction l with
  | nil =>
    intro cur hcur
    rw [tokensFrom]
    split
    · rename_i e
      subst e
      exact .blank [] (by simp)
    · rename_i e
      exact .word [] cur [] [] (by simp) e hcur (by simp) (.blank [] (by simp))
  | cons c cs ih =>
    intro cur hcur
    rw [tokensFrom]
    by_cases hc : isSpace c = true
    · rw [if_pos hc]
      have hb := (blank_iff c).2 hc
      have hs := spells_blank (ih [] (by simp)) c hb
      split
      · rename_i e
        subst e
        exact hs
      · rename_i e
        have hh : ∀ d ∈ (c :: cs).head?, Blank d := by
          intro d hd
          have : c = d := by simpa using hd
          exact this ▸ hb
        exact .word [] cur (c :: cs) _ (by simp) e hcur hh hs
    · rw [if_neg hc]
      have := ih (cur ++ [c]) (by
        intro d hd
        rcases List.mem_append.1 hd with hd | hd
        · exact hcur d hd
        · rw [List.mem_singleton] at hd
          subst hd
          rw [blank_iff]; exact hc)
      rwa [List.append_assoc] at this

theorem written_of (text : List (List Char)) : Written text (text.map tokens) := by
  induction text with
  | nil => exact .done []
  | cons l ls ih => exact .line l ls _ _ (spells_from l [] (by simp)) ih

/-! ## Numbers -/

theorem digit_toNat (d : Fin 10) : (Char.ofNat (48 + d.val)).toNat = 48 + d.val := digitChar_toNat d.val d.isLt
theorem digit_isDigit (d : Fin 10) : isDigit (Char.ofNat (48 + d.val)) = true := digitChar_isDigit d.val d.isLt

theorem digitsText_digits (l : List (Fin 10)) : ∀ c ∈ digitsText l, isDigit c = true := by
  intro c hc
  obtain ⟨d, _, rfl⟩ := List.mem_map.1 hc
  exact digit_isDigit d

theorem foldl_digits (l : List (Fin 10)) (a : ℕ) :
    (digitsText l).foldl (fun a c => a * 10 + (c.toNat - 48)) a = l.foldl (fun a d => a * 10 + d.val) a := by
  induction l generalizing a with
  | nil => rfl
  | cons d l ih =>
    show (digitsText l).foldl _ (a * 10 + ((Char.ofNat (48 + d.val)).toNat - 48)) = _
    rw [ih, digit_toNat, Nat.add_sub_cancel_left]
    rfl

theorem foldl_from (l : List (Fin 10)) (a : ℕ) :
    l.foldl (fun a d => a * 10 + d.val) a = a * 10 ^ l.length + digitsValue l := by
  unfold digitsValue
  induction l generalizing a with
  | nil => simp
  | cons d l ih =>
    rw [List.foldl_cons, ih, List.foldl_cons, ih (0 * 10 + d.val), List.length_cons, pow_succ]
    ring

/-- The text does not go on with a digit. -/
def Stops (cs : List Char) : Prop := ∀ c ∈ cs.head?, isDigit c = false

theorem readDigits_text (a k : ℕ) (l : List (Fin 10)) (cs : List Char) (h : Stops cs) :
    readDigits a k (digitsText l ++ cs) = (a * 10 ^ l.length + digitsValue l, k + l.length, cs) := by
  rw [readDigits_append a k _ (digitsText_digits l), foldl_digits, foldl_from]
  have e : (digitsText l).length = l.length := by simp [digitsText]
  rw [e]
  cases cs with
  | nil => rfl
  | cons c cs => rw [readDigits, if_neg (by rw [h c rfl]; decide)]

theorem scale10_eq (a : ℚ) (e : ℤ) : scale10 a e = a * 10 ^ e := by
  unfold scale10
  split
  · rename_i h
    obtain ⟨n, rfl⟩ := Int.eq_ofNat_of_zero_le h
    simp
  · rename_i h
    obtain ⟨n, hn⟩ := Int.eq_ofNat_of_zero_le (show 0 ≤ -e by omega)
    obtain rfl : e = -(n : ℤ) := by omega
    simp [div_eq_mul_inv]

theorem digit_of_mem {l : List (Fin 10)} {cs : List Char} {c : Char} (h : c ∈ (digitsText l ++ cs).head?) :
    isDigit c = true ∨ c ∈ cs.head? := by
  cases l with
  | nil => exact Or.inr h
  | cons d l =>
    have : c = Char.ofNat (48 + d.val) := by
      simpa [digitsText, eq_comm] using h
    subst this
    exact Or.inl (digit_isDigit d)

theorem readSign_text (s : Sign) (l : List (Fin 10)) (cs : List Char) (h : ∀ c ∈ cs.head?, c ≠ '-' ∧ c ≠ '+') :
    readSign (s.text ++ (digitsText l ++ cs)) = ((match s with
      | .minus => true
      | _ => false), digitsText l ++ cs) := by
  cases s with
  | plus => rfl
  | minus => rfl
  | none =>
    show readSign (digitsText l ++ cs) = (false, digitsText l ++ cs)
    have hh : ∀ c ∈ (digitsText l ++ cs).head?, c ≠ '-' ∧ c ≠ '+' := by
      intro c hc
      rcases digit_of_mem hc with hd | hc
      · exact ⟨(isDigit_ne c hd).1, (isDigit_ne c hd).2.1⟩
      · exact h c hc
    generalize digitsText l ++ cs = t at hh
    cases t with
    | nil => rfl
    | cons c t =>
      obtain ⟨h1, h2⟩ := hh c rfl
      unfold readSign
      split
      · rename_i e; simp only [List.cons.injEq] at e; exact absurd e.1 h1
      · rename_i e; simp only [List.cons.injEq] at e; exact absurd e.1 h2
      · rfl

/-- The part of a number after the decimals. -/
def exponentText : Option (Bool × Sign × List (Fin 10)) → List Char
  | none => []
  | some (capital, s, l) => (if capital then 'E' else 'e') :: (s.text ++ digitsText l)

def exponentValue : Option (Bool × Sign × List (Fin 10)) → ℤ
  | none => 0
  | some (_, s, l) => s.factor * (digitsValue l : ℤ)

theorem exponentText_head (x : Option (Bool × Sign × List (Fin 10))) (c : Char) (h : c ∈ (exponentText x).head?) :
    c = 'E' ∨ c = 'e' := by
  rcases x with _ | ⟨b, s, l⟩
  · cases h
  · cases b <;> simp [exponentText] at h <;> subst h <;> simp

theorem readExponent_text (x : Option (Bool × Sign × List (Fin 10))) : readExponent (exponentText x) = exponentValue x := by
  rcases x with _ | ⟨b, s, l⟩
  · rfl
  · have key : readExponent ((if b then 'E' else 'e') :: (s.text ++ digitsText l)) =
        (if (readSign (s.text ++ digitsText l)).1 then
          -(((readDigits 0 0 (readSign (s.text ++ digitsText l)).2).1 : ℕ) : ℤ)
        else (((readDigits 0 0 (readSign (s.text ++ digitsText l)).2).1 : ℕ) : ℤ)) := by
      rw [readExponent, if_pos (by cases b <;> simp)]
    show readExponent ((if b then 'E' else 'e') :: (s.text ++ digitsText l)) = _
    rw [key]
    have e := readSign_text s l [] (by intro c hc; cases hc)
    rw [List.append_nil] at e
    rw [e]
    have e2 := readDigits_text 0 0 l [] (by intro c hc; cases hc)
    rw [List.append_nil] at e2
    dsimp only
    rw [e2]
    cases s <;> simp [exponentValue, Sign.factor]

/-- The decimals of a number whose digits before the point are `a`. -/
def frac (a : ℕ) : List Char → ℕ × ℕ × List Char
  | '.' :: r => readDigits a 0 r
  | r => (a, 0, r)

theorem atof_frac (cs : List Char) : atof cs =
    if (readSign cs).1 then
      -scale10 ((frac (readDigits 0 0 (readSign cs).2).1 (readDigits 0 0 (readSign cs).2).2.2).1 : ℚ)
        (readExponent (frac (readDigits 0 0 (readSign cs).2).1 (readDigits 0 0 (readSign cs).2).2.2).2.2 -
          (frac (readDigits 0 0 (readSign cs).2).1 (readDigits 0 0 (readSign cs).2).2.2).2.1)
    else scale10 ((frac (readDigits 0 0 (readSign cs).2).1 (readDigits 0 0 (readSign cs).2).2.2).1 : ℚ)
        (readExponent (frac (readDigits 0 0 (readSign cs).2).1 (readDigits 0 0 (readSign cs).2).2.2).2.2 -
          (frac (readDigits 0 0 (readSign cs).2).1 (readDigits 0 0 (readSign cs).2).2.2).2.1) := rfl

theorem frac_none (a : ℕ) (t : List Char) (h : ∀ c ∈ t.head?, c ≠ '.') : frac a t = (a, 0, t) := by
  unfold frac
  split
  · rename_i r
    exact absurd rfl (h '.' rfl)
  · rfl

theorem atof_text (x : Number) : atof x.text = x.value := by
  obtain ⟨s, w, dec, ex⟩ := x
  have hx : Number.text ⟨s, w, dec, ex⟩ = s.text ++ (digitsText w ++ ((match (generalizing := false) dec with
      | none => []
      | some l => '.' :: digitsText l) ++ exponentText ex)) := by
    unfold Number.text exponentText
    rcases ex with _ | ⟨b, s', l⟩ <;> rfl
  have hv : Number.value ⟨s, w, dec, ex⟩ = s.factor * ((digitsValue w : ℚ) + (match (generalizing := false) dec with
      | none => 0
      | some l => (digitsValue l : ℚ) / 10 ^ l.length)) * (10 : ℚ) ^ exponentValue ex := by
    unfold Number.value exponentValue
    rcases ex with _ | ⟨b, s', l⟩
    · cases dec <;> simp
    · rfl
  have hstop : Stops (exponentText ex) := by
    intro c hc
    rcases exponentText_head ex c hc with rfl | rfl <;> decide
  have hsign : ∀ c ∈ ((match (generalizing := false) dec with
      | none => []
      | some l => '.' :: digitsText l) ++ exponentText ex).head?, c ≠ '-' ∧ c ≠ '+' := by
    intro c hc
    cases dec with
    | none =>
      rcases exponentText_head ex c hc with rfl | rfl <;> decide
    | some l =>
      have : c = '.' := by simpa [eq_comm] using hc
      subst this; decide
  have hfac : ∀ v : ℚ, (if (match (generalizing := false) s with
      | .minus => true
      | _ => false) = true then -v else v) = s.factor * v := by
    intro v; cases s <;> simp [Sign.factor]
  rw [hx, hv]
  rw [atof_frac, readSign_text s w _ hsign]
  dsimp only
  rw [hfac]
  rw [mul_assoc]
  congr 1
  have hten : (10 : ℚ) ≠ 0 := by norm_num
  cases dec with
  | none =>
    dsimp only
    rw [List.nil_append, readDigits_text 0 0 w _ hstop]
    dsimp only
    have ht : ∀ c ∈ (exponentText ex).head?, c ≠ '.' := by
      intro c hc
      rcases exponentText_head ex c hc with rfl | rfl <;> decide
    rw [frac_none _ _ ht]
    dsimp only
    rw [scale10_eq, readExponent_text]
    simp
  | some l =>
    dsimp only
    have h1 : Stops ('.' :: digitsText l ++ exponentText ex) := by
      intro c hc
      have : c = '.' := by simpa [eq_comm] using hc
      subst this; decide
    rw [readDigits_text 0 0 w _ h1]
    dsimp only [List.cons_append]
    rw [frac, readDigits_text _ 0 l _ hstop]
    dsimp only
    rw [scale10_eq, readExponent_text, zpow_sub₀ hten]
    push_cast
    simp only [zero_mul, zero_add, zpow_natCast]
    have : (10 : ℚ) ^ l.length ≠ 0 := pow_ne_zero _ hten
    field_simp

theorem text_head (x : Number) : ∀ c ∈ x.text.head?, c ≠ '\'' := by
  obtain ⟨s, w, dec, ex⟩ := x
  intro c hc
  have hd : ∀ d : Char, isDigit d = true → d ≠ '\'' := by
    intro d h e; subst e; exact absurd h (by decide)
  unfold Number.text at hc
  cases s with
  | plus => have : c = '+' := by simpa [Sign.text, eq_comm] using hc
            subst this; decide
  | minus => have : c = '-' := by simpa [Sign.text, eq_comm] using hc
             subst this; decide
  | none =>
    rcases digit_of_mem (show c ∈ (digitsText w ++ _).head? from hc) with h | h
    · exact hd c h
    · cases dec with
      | some l => have : c = '.' := by simpa [eq_comm] using h
                  subst this; decide
      | none =>
        rcases exponentText_head ex c (by rcases ex with _ | ⟨b, s', l⟩ <;> exact h) with rfl | rfl <;> decide

/-! ## Lines -/

/-- What remains of the file at its end. -/
def closed (f : Mps.File) : Mps.File := { f with vars := f.vars.map (fun e => (e.1, Mps.defaultBounds e.2)) }

theorem written_read {ls : List (List Char)} {A : List (List Name)} (h : Written ls (A ++ [["ENDATA".toList]]))
    (hA : ∀ l ∈ A, l ≠ ["ENDATA".toList]) (s : Mps.St) :
    Mps.readLines ls s = (Mps.stepAll A s).bind fun s => some (closed s.file) := by
  generalize hw : A ++ [["ENDATA".toList]] = ws at h
  induction h generalizing A s with
  | done rest => simp at hw
  | blank l ls ws hl _ ih =>
    rw [Mps.readLines, spells_tokens hl, if_neg (by decide)]
    exact ih hA s hw
  | line l ls w ws hl _ ih =>
    rw [Mps.readLines, spells_tokens hl]
    cases A with
    | nil =>
      simp only [List.nil_append, List.cons.injEq] at hw
      obtain ⟨rfl, rfl⟩ := hw
      rw [if_pos (by rfl)]
      rfl
    | cons a A =>
      simp only [List.cons_append, List.cons.injEq] at hw
      obtain ⟨rfl, rfl⟩ := hw
      rw [if_neg (show a ≠ [Mps.kEndata] from hA a (by simp)), Mps.stepAll, Option.bind_assoc]
      congr 1
      funext s'
      exact ih (fun l hl => hA l (by simp [hl])) s' rfl

end Printemps.MpsFile
