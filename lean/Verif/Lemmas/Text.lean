import Verif.Model.Text
import Mathlib.Tactic.Linarith
import Mathlib.Tactic.IntervalCases
import Mathlib.Tactic.FieldSimp

/-! # Lemmas about tokens and numbers -/

namespace Printemps.Text

/-! ## Tokens -/

/-- A word: not empty, no white space. -/
def Word (w : List Char) : Prop := w ≠ [] ∧ ∀ c ∈ w, isSpace c = false

theorem tokensFrom_word (cur w : List Char) (hw : ∀ c ∈ w, isSpace c = false) (cs : List Char) :
    tokensFrom cur (w ++ cs) = tokensFrom (cur ++ w) cs := by
  induction w generalizing cur with
  | nil => simp
  | cons c w ih =>
    rw [List.cons_append, tokensFrom, if_neg (by simp [hw c (by simp)]), ih _ (fun c hc => hw c (by simp [hc]))]
    simp

theorem tokensFrom_spaces (s cs : List Char) (hs : ∀ c ∈ s, isSpace c = true) :
    tokensFrom [] (s ++ cs) = tokensFrom [] cs := by
  induction s with
  | nil => rfl
  | cons c s ih =>
    rw [List.cons_append, tokensFrom, if_pos (hs c (by simp)), if_pos rfl, ih (fun c hc => hs c (by simp [hc]))]

/-- A word followed by at least one white space and the rest. -/
theorem tokensFrom_next (w s cs : List Char) (hw : Word w) (hs : ∀ c ∈ s, isSpace c = true) (hne : s ≠ []) :
    tokensFrom [] (w ++ (s ++ cs)) = w :: tokensFrom [] cs := by
  rw [tokensFrom_word [] w hw.2, List.nil_append]
  cases s with
  | nil => exact absurd rfl hne
  | cons c s =>
    rw [List.cons_append, tokensFrom, if_pos (hs c (by simp)), if_neg hw.1,
      tokensFrom_spaces s cs (fun c hc => hs c (by simp [hc]))]

theorem tokensFrom_last (w : List Char) (hw : Word w) : tokensFrom [] w = [w] := by
  have := tokensFrom_word [] w hw.2 []
  rw [List.append_nil] at this
  rw [this, List.nil_append, tokensFrom, if_neg hw.1]

/-! ## Numbers -/

theorem digitChar_toNat (d : ℕ) (h : d < 10) : (digitChar d).toNat = 48 + d := by
  interval_cases d <;> rfl

theorem digitChar_isDigit (d : ℕ) (h : d < 10) : isDigit (digitChar d) = true := by
  unfold isDigit; rw [digitChar_toNat d h]; simp; omega

theorem readDigits_append (acc k : ℕ) (ds : List Char) (hd : ∀ c ∈ ds, isDigit c = true) (cs : List Char) :
    readDigits acc k (ds ++ cs) =
      readDigits (ds.foldl (fun a c => a * 10 + (c.toNat - 48)) acc) (k + ds.length) cs := by
  induction ds generalizing acc k with
  | nil => simp
  | cons c ds ih =>
    rw [List.cons_append, readDigits, if_pos (hd c (by simp)), ih _ _ (fun c hc => hd c (by simp [hc]))]
    simp [Nat.add_comm, Nat.add_left_comm]

theorem natCharsAux_spec (fuel n : ℕ) (h : n < fuel) :
    natCharsAux fuel n ≠ [] ∧ (∀ c ∈ natCharsAux fuel n, isDigit c = true) ∧
    (natCharsAux fuel n).foldl (fun a c => a * 10 + (c.toNat - 48)) 0 = n := by
  induction fuel generalizing n with
  | zero => omega
  | succ fuel ih =>
    unfold natCharsAux
    split
    · next hn =>
      refine ⟨by simp, fun c hc => ?_, ?_⟩
      · rw [List.mem_singleton] at hc; subst hc; exact digitChar_isDigit n hn
      · simp [digitChar_toNat n hn]
    · next hn =>
      obtain ⟨h1, h2, h3⟩ := ih (n / 10) (by omega)
      refine ⟨by simp, fun c hc => ?_, ?_⟩
      · rcases List.mem_append.1 hc with hc | hc
        · exact h2 c hc
        · rw [List.mem_singleton] at hc; subst hc; exact digitChar_isDigit _ (Nat.mod_lt _ (by omega))
      · rw [List.foldl_append, h3, List.foldl_cons, List.foldl_nil, digitChar_toNat _ (Nat.mod_lt _ (by omega))]
        omega

theorem natChars_ne (n : ℕ) : natChars n ≠ [] := (natCharsAux_spec (n + 1) n (by omega)).1
theorem natChars_digits (n : ℕ) : ∀ c ∈ natChars n, isDigit c = true := (natCharsAux_spec (n + 1) n (by omega)).2.1

theorem readDigits_natChars (n : ℕ) : ∃ k, readDigits 0 0 (natChars n) = (n, k, []) := by
  obtain ⟨-, h2, h3⟩ := natCharsAux_spec (n + 1) n (by omega)
  have := readDigits_append 0 0 (natChars n) h2 []
  rw [List.append_nil] at this
  refine ⟨0 + (natChars n).length, ?_⟩
  rw [this]
  show readDigits ((natChars n).foldl _ 0) _ [] = _
  rw [show (natChars n).foldl (fun a c => a * 10 + (c.toNat - 48)) 0 = n from h3]
  rfl

theorem isDigit_ne (c : Char) (h : isDigit c = true) : c ≠ '-' ∧ c ≠ '+' ∧ isSpace c = false ∧ c ≠ '.' := by
  unfold isDigit at h
  rw [decide_eq_true_iff] at h
  have key : ∀ d : Char, (d.toNat < 48) → c ≠ d := fun d hd e => by subst e; omega
  refine ⟨key _ (by decide), key _ (by decide), ?_, key _ (by decide)⟩
  unfold isSpace
  simp only [Bool.or_eq_false_iff, beq_eq_false_iff_ne]
  exact ⟨⟨⟨⟨⟨key _ (by decide), key _ (by decide)⟩, key _ (by decide)⟩, key _ (by decide)⟩, key _ (by decide)⟩, key _ (by decide)⟩

theorem readSign_natChars (n : ℕ) : readSign (natChars n) = (false, natChars n) := by
  have h := natChars_digits n
  have hne := natChars_ne n
  generalize natChars n = l at h hne
  cases l with
  | nil => exact absurd rfl hne
  | cons c l =>
    obtain ⟨h1, h2, -⟩ := isDigit_ne c (h c (by simp))
    unfold readSign
    split
    · next e => simp only [List.cons.injEq] at e; exact absurd e.1 h1
    · next e => simp only [List.cons.injEq] at e; exact absurd e.1 h2
    · rfl

theorem atof_aux (n : ℕ) : atof (natChars n) = n := by
  obtain ⟨k, hk⟩ := readDigits_natChars n
  unfold atof
  rw [readSign_natChars]
  dsimp only
  rw [hk]
  simp [scale10, readExponent]

/-- Printing an integer and reading it back. -/
theorem atof_intChars (n : ℤ) : atof (intChars n) = n := by
  unfold intChars
  split
  · next h =>
    obtain ⟨k, hk⟩ := readDigits_natChars n.natAbs
    unfold atof
    rw [show readSign ('-' :: natChars n.natAbs) = (true, natChars n.natAbs) from rfl]
    dsimp only
    rw [hk]
    simp only [scale10, readExponent, if_true]
    simp
    rw [abs_of_neg (by exact_mod_cast h)]; ring
  · next h =>
    rw [atof_aux, Nat.cast_natAbs, abs_of_nonneg (by omega)]

theorem intChars_word (n : ℤ) : Word (intChars n) := by
  unfold intChars
  split
  · refine ⟨by simp, fun c hc => ?_⟩
    rcases List.mem_cons.1 hc with rfl | hc
    · rfl
    · exact (isDigit_ne c (natChars_digits _ c hc)).2.2.1
  · exact ⟨natChars_ne _, fun c hc => (isDigit_ne c (natChars_digits _ c hc)).2.2.1⟩

/-- Integers below one million are written exactly. -/
theorem formatDouble_int (n : ℤ) (h : n.natAbs < 1000000) :
    Word (formatDouble n) ∧ atof (formatDouble n) = n := by
  unfold formatDouble
  rw [if_pos ⟨Rat.den_intCast n, by rw [Rat.num_intCast]; exact h⟩, Rat.num_intCast]
  exact ⟨intChars_word n, atof_intChars n⟩

theorem toInt_int (n : ℤ) (h1 : -2147483648 ≤ n) (h2 : n ≤ 2147483647) : toInt (n : ℚ) = some n := by
  unfold toInt
  have : (if (n : ℚ) < 0 then -⌊-(n : ℚ)⌋ else ⌊(n : ℚ)⌋) = n := by
    split
    · rw [show (-(n : ℚ)) = ((-n : ℤ) : ℚ) by push_cast; rfl, Int.floor_intCast]; omega
    · exact Int.floor_intCast n
  dsimp only
  rw [this, if_pos ⟨h1, h2⟩]

end Printemps.Text
