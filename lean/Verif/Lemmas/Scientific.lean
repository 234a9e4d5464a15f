import Verif.Lemmas.ArrayFile
import Mathlib.Algebra.Order.Field.Power
import Mathlib.Tactic.Positivity
import Mathlib.Data.List.TakeWhile

/-! # Lemmas: how exactly numbers are printed

`%e` has seven digits, `%g` has six. -/

namespace Printemps.Text
open ArrayFile

theorem scale10_eq (a : ℚ) (e : ℤ) : scale10 a e = a * (10 : ℚ) ^ e := by
  unfold scale10
  split
  · next h =>
    obtain ⟨n, rfl⟩ := Int.eq_ofNat_of_zero_le h
    rw [Int.toNat_natCast, zpow_natCast]
  · next h =>
    obtain ⟨n, hn⟩ := Int.eq_ofNat_of_zero_le (show 0 ≤ -e by omega)
    rw [show e = -(n : ℤ) by omega, neg_neg, Int.toNat_natCast, zpow_neg, zpow_natCast, div_eq_mul_inv]

/-- The decimal exponent. -/
theorem exponent10_spec (q : ℚ) (h : 0 < q) : (10 : ℚ) ^ exponent10 q ≤ q ∧ q < (10 : ℚ) ^ (exponent10 q + 1) := by
  unfold exponent10
  split
  · next h1 =>
    have hf : (1 : ℤ) ≤ ⌊q⌋ := Int.le_floor.2 (by exact_mod_cast h1)
    obtain ⟨n, hn⟩ := Int.eq_ofNat_of_zero_le (show 0 ≤ ⌊q⌋ by omega)
    rw [hn, Int.toNat_natCast]
    have hn0 : n ≠ 0 := by omega
    have hle := Nat.pow_log_le_self 10 hn0
    have hlt := Nat.lt_pow_succ_log_self (b := 10) (by norm_num) n
    have h2 := Int.floor_le q
    have h3 := Int.lt_floor_add_one q
    rw [hn] at h2 h3
    push_cast at h2 h3
    constructor
    · rw [zpow_natCast]
      refine le_trans ?_ h2
      exact_mod_cast hle
    · rw [show ((Nat.log 10 n : ℤ) + 1) = ((Nat.log 10 n + 1 : ℕ) : ℤ) by push_cast; ring, zpow_natCast]
      refine lt_of_lt_of_le h3 ?_
      have : n + 1 ≤ 10 ^ (Nat.log 10 n + 1) := hlt
      exact_mod_cast this
  · next h1 =>
    push Not at h1
    have hinv : 1 < 1 / q := by rw [lt_div_iff₀ h]; linarith
    have hc : (2 : ℤ) ≤ ⌈1 / q⌉ := by
      have : (1 : ℤ) < ⌈1 / q⌉ := Int.lt_ceil.2 (by exact_mod_cast hinv)
      omega
    obtain ⟨n, hn⟩ := Int.eq_ofNat_of_zero_le (show 0 ≤ ⌈1 / q⌉ by omega)
    rw [hn, Int.toNat_natCast]
    have hn2 : 1 < n := by omega
    have hle := Nat.le_pow_clog (b := 10) (by norm_num) n
    have hlt := Nat.pow_pred_clog_lt_self (b := 10) (by norm_num) hn2
    have hpos : 0 < Nat.clog 10 n := Nat.clog_pos (by norm_num) hn2
    have h2 := Int.le_ceil (1 / q)
    rw [hn] at h2
    push_cast at h2
    have h3 : ((10 ^ (Nat.clog 10 n).pred : ℕ) : ℚ) < 1 / q := by
      have : ((10 ^ (Nat.clog 10 n).pred : ℕ) : ℤ) < ⌈1 / q⌉ := by rw [hn]; exact_mod_cast hlt
      exact_mod_cast Int.lt_ceil.1 this
    constructor
    · rw [zpow_neg, zpow_natCast, inv_le_comm₀ (by positivity) h, ← one_div]
      exact le_trans h2 (by exact_mod_cast hle)
    · obtain ⟨c, hcc⟩ : ∃ c, Nat.clog 10 n = c + 1 := ⟨Nat.clog 10 n - 1, by omega⟩
      rw [hcc] at h3 ⊢
      rw [show (-((c + 1 : ℕ) : ℤ) + 1) = -(c : ℤ) by push_cast; ring, zpow_neg, zpow_natCast, lt_inv_comm₀ h (by positivity), ← one_div]
      rw [Nat.pred_succ] at h3
      exact_mod_cast h3

/-- The digits of a rounded number, with `p + 1` digits: the digits before a carry, and what they stand for. -/
theorem rounded_spec (p : ℕ) (q : ℚ) (h : 0 < q) :
    (10 : ℕ) ^ p ≤ roundEven (scale10 q (p - exponent10 q)) ∧ roundEven (scale10 q (p - exponent10 q)) ≤ 10 ^ (p + 1) ∧
    |(roundEven (scale10 q (p - exponent10 q)) : ℚ) * 10 ^ (exponent10 q - p) - q| ≤ q / (2 * 10 ^ p) := by
  obtain ⟨h1, h2⟩ := exponent10_spec q h
  rw [scale10_eq]
  generalize exponent10 q = e at h1 h2
  have ht : (0 : ℚ) < 10 := by norm_num
  have hx1 : (10 : ℚ) ^ p ≤ q * 10 ^ ((p : ℤ) - e) := by
    have := mul_le_mul_of_nonneg_right h1 (zpow_pos ht ((p : ℤ) - e)).le
    rwa [← zpow_add₀ ht.ne', show e + ((p : ℤ) - e) = (p : ℤ) by ring, zpow_natCast] at this
  have hx2 : q * 10 ^ ((p : ℤ) - e) < (10 : ℚ) ^ (p + 1) := by
    have := mul_lt_mul_of_pos_right h2 (zpow_pos ht ((p : ℤ) - e))
    rwa [← zpow_add₀ ht.ne', show e + 1 + ((p : ℤ) - e) = ((p + 1 : ℕ) : ℤ) by push_cast; ring, zpow_natCast] at this
  have hq : q = q * 10 ^ ((p : ℤ) - e) * 10 ^ (e - p) := by
    rw [mul_assoc, ← zpow_add₀ ht.ne', show (p : ℤ) - e + (e - p) = 0 by ring, zpow_zero, mul_one]
  have hx0 : 0 ≤ q * 10 ^ ((p : ℤ) - e) := le_trans (by positivity) hx1
  have hn := roundEven_near _ hx0
  refine ⟨?_, ?_, ?_⟩
  · have : ((10 : ℕ) ^ p : ℚ) < (roundEven (q * 10 ^ ((p : ℤ) - e)) : ℚ) + 1 := by
      rw [abs_le] at hn
      push_cast
      linarith [hn.1]
    have h' : (10 : ℕ) ^ p < roundEven (q * 10 ^ ((p : ℤ) - e)) + 1 := by exact_mod_cast this
    omega
  · have : (roundEven (q * 10 ^ ((p : ℤ) - e)) : ℚ) < ((10 : ℕ) ^ (p + 1) : ℚ) + 1 := by
      rw [abs_le] at hn
      push_cast
      linarith [hn.2]
    have h' : roundEven (q * 10 ^ ((p : ℤ) - e)) < (10 : ℕ) ^ (p + 1) + 1 := by exact_mod_cast this
    omega
  · have hz := zpow_pos ht (e - (p : ℤ))
    have e1 : (roundEven (q * 10 ^ ((p : ℤ) - e)) : ℚ) * 10 ^ (e - (p : ℤ)) - q =
        ((roundEven (q * 10 ^ ((p : ℤ) - e)) : ℚ) - q * 10 ^ ((p : ℤ) - e)) * 10 ^ (e - (p : ℤ)) := by
      rw [sub_mul, ← hq]
    rw [e1, abs_mul, abs_of_pos hz]
    have e2 : (10 : ℚ) ^ (e - (p : ℤ)) = 10 ^ e / 10 ^ p := by rw [zpow_sub₀ ht.ne', zpow_natCast]
    calc |(roundEven (q * 10 ^ ((p : ℤ) - e)) : ℚ) - q * 10 ^ ((p : ℤ) - e)| * 10 ^ (e - (p : ℤ))
        ≤ 1 / 2 * 10 ^ (e - (p : ℤ)) := mul_le_mul_of_nonneg_right hn hz.le
      _ = 10 ^ e / (2 * 10 ^ p) := by rw [e2]; field_simp
      _ ≤ q / (2 * 10 ^ p) := div_le_div_of_nonneg_right h1 (by positivity)

theorem roundEven_nat (n : ℕ) : roundEven (n : ℚ) = n := by
  unfold roundEven
  rw [Int.floor_natCast, Int.toNat_natCast]
  dsimp only
  rw [sub_self, if_neg]
  norm_num

/-- A number with `p + 1` digits is not changed by the rounding. -/
theorem rounded_exact (p k : ℕ) (j : ℤ) (hk : 0 < k) (hk2 : k < 10 ^ (p + 1)) :
    (roundEven (scale10 ((k : ℚ) * 10 ^ j) (p - exponent10 ((k : ℚ) * 10 ^ j))) : ℚ) * 10 ^ (exponent10 ((k : ℚ) * 10 ^ j) - p) =
      (k : ℚ) * 10 ^ j := by
  have ht : (0 : ℚ) < 10 := by norm_num
  have hk' : (0 : ℚ) < k := by exact_mod_cast hk
  have hq : (0 : ℚ) < (k : ℚ) * 10 ^ j := mul_pos hk' (zpow_pos ht j)
  obtain ⟨h1, -⟩ := exponent10_spec _ hq
  rw [scale10_eq]
  generalize exponent10 ((k : ℚ) * 10 ^ j) = e at h1
  have hlt : (10 : ℚ) ^ e < 10 ^ (j + (p + 1 : ℕ)) := by
    refine lt_of_le_of_lt h1 ?_
    rw [zpow_add₀ ht.ne', zpow_natCast, mul_comm]
    exact mul_lt_mul_of_pos_left (by exact_mod_cast hk2) (zpow_pos ht j)
  have he : e < j + (p + 1 : ℕ) := (zpow_lt_zpow_iff_right₀ (by norm_num)).1 hlt
  obtain ⟨n, hn⟩ := Int.eq_ofNat_of_zero_le (show 0 ≤ j + ((p : ℤ) - e) by push_cast at he; omega)
  have hx : (k : ℚ) * 10 ^ j * 10 ^ ((p : ℤ) - e) = ((k * 10 ^ n : ℕ) : ℚ) := by
    rw [mul_assoc, ← zpow_add₀ ht.ne', hn]
    push_cast
    rfl
  rw [hx, roundEven_nat, ← hx, mul_assoc, ← zpow_add₀ ht.ne', show (p : ℤ) - e + (e - p) = 0 by ring, zpow_zero, mul_one]

/-! ## Reading digits -/

/-- The number that digits stand for. -/
def digitsValue (ds : List Char) : ℕ := ds.foldl (fun a c => a * 10 + (c.toNat - 48)) 0

theorem digitsValue_append (a b : List Char) : digitsValue (a ++ b) = digitsValue a * 10 ^ b.length + digitsValue b := by
  unfold digitsValue
  rw [List.foldl_append, digits_fold]

theorem digitsValue_lt (ds : List Char) (h : ∀ c ∈ ds, isDigit c = true) : digitsValue ds < 10 ^ ds.length := by
  induction ds using List.reverseRecOn with
  | nil => decide
  | append_singleton ds c ih =>
    have h1 := ih fun d hd => h d (by simp [hd])
    have hc := h c (by simp)
    unfold isDigit at hc
    rw [decide_eq_true_iff] at hc
    rw [digitsValue_append, List.length_append, List.length_singleton, pow_add]
    have : digitsValue [c] ≤ 9 := by
      unfold digitsValue
      simp only [List.foldl_cons, List.foldl_nil]
      omega
    omega

theorem digitsValue_natChars (n : ℕ) : digitsValue (natChars n) = n := (natCharsAux_spec (n + 1) n (by omega)).2.2

theorem natChars_length (p n : ℕ) (h1 : 10 ^ p ≤ n) (h2 : n < 10 ^ (p + 1)) : (natChars n).length = p + 1 := by
  have h3 : (natChars n).length ≤ p + 1 := natCharsAux_length (n + 1) n (p + 1) (by omega) h2
  have h4 := digitsValue_lt (natChars n) (natChars_digits n)
  rw [digitsValue_natChars] at h4
  have h5 : 10 ^ p < 10 ^ (natChars n).length := lt_of_le_of_lt h1 h4
  have := (Nat.pow_lt_pow_iff_right (a := 10) (by norm_num)).1 h5
  omega

theorem read_digits (acc k : ℕ) (ds : List Char) (h : ∀ c ∈ ds, isDigit c = true) (s : List Char)
    (hs : ∀ c ∈ s.head?, isDigit c = false) :
    readDigits acc k (ds ++ s) = (acc * 10 ^ ds.length + digitsValue ds, k + ds.length, s) := by
  rw [readDigits_append acc k ds h, digits_fold]
  cases s with
  | nil => rfl
  | cons c s => rw [readDigits_nonDigit _ _ _ (hs c (by simp))]; rfl

/-- Digits, a point with more digits unless there are none, and an exponent. -/
theorem atof_digits (ip fp tail : List Char) (hip : ∀ c ∈ ip, isDigit c = true) (hne : ip ≠ []) (hfp : ∀ c ∈ fp, isDigit c = true)
    (ht : ∀ c ∈ tail.head?, isDigit c = false ∧ c ≠ '.') :
    readSign (ip ++ ((if fp = [] then [] else '.' :: fp) ++ tail)) = (false, ip ++ ((if fp = [] then [] else '.' :: fp) ++ tail)) ∧
    ∀ b cs, readSign cs = (b, ip ++ ((if fp = [] then [] else '.' :: fp) ++ tail)) →
      atof cs = (if b then -1 else 1) * ((digitsValue (ip ++ fp) : ℚ) * 10 ^ (readExponent tail - fp.length)) := by
  constructor
  · cases ip with
    | nil => exact absurd rfl hne
    | cons c l =>
      obtain ⟨h1, h2, -⟩ := isDigit_ne c (hip c (by simp))
      rw [List.cons_append]
      unfold readSign
      split
      · next e => simp only [List.cons.injEq] at e; exact absurd e.1 h1
      · next e => simp only [List.cons.injEq] at e; exact absurd e.1 h2
      · rfl
  · intro b cs hcs
    have hb : ∀ v : ℚ, (if b = true then -v else v) = (if b = true then (-1 : ℚ) else 1) * v := by
      intro v; cases b <;> simp
    by_cases hf : fp = []
    · subst hf
      rw [if_pos rfl, List.nil_append] at hcs
      have h1 := read_digits 0 0 ip hip tail fun c hc => (ht c hc).1
      unfold atof
      rw [hcs]
      dsimp only
      rw [h1]
      have h2 : (match (tail : List Char) with
          | '.' :: r => readDigits (digitsValue ip) 0 r
          | r => (digitsValue ip, 0, r)) = (digitsValue ip, 0, tail) := by
        split
        · next r => exact absurd rfl (ht '.' (by simp)).2
        · rfl
      simp only [zero_mul, zero_add]
      have hgoal : ∀ f : ℕ × ℕ × List Char, f = (digitsValue ip, 0, tail) →
          (if b = true then -scale10 (f.1 : ℚ) (readExponent f.2.2 - f.2.1) else scale10 (f.1 : ℚ) (readExponent f.2.2 - f.2.1)) =
          (if b = true then (-1 : ℚ) else 1) * ((digitsValue (ip ++ []) : ℚ) * 10 ^ (readExponent tail - ([] : List Char).length)) := by
        rintro f rfl
        rw [hb, scale10_eq, List.append_nil, List.length_nil]
      exact hgoal _ h2
    · rw [if_neg hf] at hcs
      have h1 := read_digits 0 0 ip hip ('.' :: (fp ++ tail)) fun c hc => by
        rw [List.head?_cons, Option.mem_some_iff] at hc
        rw [← hc]; decide
      have h2 := read_digits (digitsValue ip) 0 fp hfp tail fun c hc => (ht c hc).1
      unfold atof
      rw [hcs]
      dsimp only
      rw [List.cons_append, h1]
      simp only [zero_mul, zero_add]
      rw [h2]
      dsimp only
      rw [hb, scale10_eq, ← digitsValue_append, zero_add]

/-- Zeros at the end of the digits after the point do not matter. -/
theorem strip_value (ip fp : List Char) (x : ℤ) :
    (digitsValue (ip ++ stripZeros fp) : ℚ) * 10 ^ (x - (stripZeros fp).length) = (digitsValue (ip ++ fp) : ℚ) * 10 ^ (x - fp.length) ∧
    (∀ c ∈ stripZeros fp, c ∈ fp) := by
  obtain ⟨k, hk⟩ : ∃ k, fp = stripZeros fp ++ List.replicate k '0' := by
    unfold stripZeros
    have h := List.takeWhile_append_dropWhile (p := fun c : Char => decide (c = '0')) (l := fp.reverse)
    refine ⟨(fp.reverse.takeWhile fun c : Char => decide (c = '0')).length, ?_⟩
    have h2 : fp.reverse.takeWhile (fun c : Char => decide (c = '0')) =
        List.replicate (fp.reverse.takeWhile fun c : Char => decide (c = '0')).length '0' := by
      rw [List.eq_replicate_iff]
      exact ⟨rfl, fun c hc => by have := List.mem_takeWhile_imp hc; exact of_decide_eq_true this⟩
    have h3 := congrArg List.reverse h
    rw [List.reverse_append, List.reverse_reverse] at h3
    conv_lhs => rw [← h3]
    congr 1
    conv_lhs => rw [h2]
    rw [List.reverse_replicate]
  have hz : ∀ k, digitsValue (List.replicate k '0') = 0 := by
    intro k
    induction k with
    | zero => rfl
    | succ k ih => unfold digitsValue at ih ⊢; rw [List.replicate_succ, List.foldl_cons]; exact ih
  generalize stripZeros fp = s at hk
  subst hk
  refine ⟨?_, fun c hc => by simp [hc]⟩
  rw [← List.append_assoc, digitsValue_append (ip ++ s), hz, List.length_append, List.length_replicate]
  have ht : (10 : ℚ) ≠ 0 := by norm_num
  push_cast
  rw [add_zero, mul_assoc, ← zpow_natCast, ← zpow_add₀ ht]
  congr 2
  ring

/-- A printed exponent. -/
def exponentText (e : ℤ) : List Char :=
  'e' :: (if e < 0 then '-' else '+') :: (if (natChars e.natAbs).length < 2 then '0' :: natChars e.natAbs else natChars e.natAbs)

theorem readExponent_text (e : ℤ) : readExponent (exponentText e) = e := by
  have hd : ∀ s, s = (if (natChars e.natAbs).length < 2 then '0' :: natChars e.natAbs else natChars e.natAbs) →
      (readDigits 0 0 s).1 = e.natAbs := by
    intro s hs
    have hr := read_digits 0 0 (natChars e.natAbs) (natChars_digits _) [] (by simp)
    rw [List.append_nil, digitsValue_natChars] at hr
    have hr2 := read_digits 0 1 (natChars e.natAbs) (natChars_digits _) [] (by simp)
    rw [List.append_nil, digitsValue_natChars] at hr2
    subst hs
    split
    · rw [readDigits, if_pos (by decide)]
      rw [show (0 * 10 + ('0'.toNat - 48)) = 0 from rfl, hr2]
      simp
    · rw [hr]; simp
  unfold exponentText
  generalize (if (natChars e.natAbs).length < 2 then '0' :: natChars e.natAbs else natChars e.natAbs) = t at hd
  have hd := hd t rfl
  by_cases he : e < 0
  · rw [if_pos he]
    have : readExponent ('e' :: '-' :: t) = -((readDigits 0 0 t).1 : ℤ) := rfl
    rw [this, hd]
    omega
  · rw [if_neg he]
    have : readExponent ('e' :: '+' :: t) = ((readDigits 0 0 t).1 : ℤ) := rfl
    rw [this, hd]
    omega

/-! ## `%e` -/

/-- A carry does not change the number. -/
theorem carry (p : ℕ) (e0 : ℤ) (m0 : ℕ) (h1 : 10 ^ p ≤ m0) (h2 : m0 ≤ 10 ^ (p + 1)) :
    let m := if m0 ≥ 10 ^ (p + 1) then 10 ^ p else m0
    let e := if m0 ≥ 10 ^ (p + 1) then e0 + 1 else e0
    (m : ℚ) * 10 ^ (e - p) = (m0 : ℚ) * 10 ^ (e0 - p) ∧ (natChars m).length = p + 1 := by
  dsimp only
  by_cases h : m0 ≥ 10 ^ (p + 1)
  · rw [if_pos h, if_pos h, show m0 = 10 ^ (p + 1) by omega]
    refine ⟨?_, natChars_length p _ (le_refl _) (Nat.pow_lt_pow_right (by norm_num) (by omega))⟩
    have ht : (10 : ℚ) ≠ 0 := by norm_num
    push_cast
    rw [show e0 + 1 - (p : ℤ) = 1 + (e0 - p) by ring, zpow_add₀ ht, zpow_one, pow_succ]
    ring
  · rw [if_neg h, if_neg h]
    exact ⟨rfl, natChars_length p _ h1 (by omega)⟩

theorem formatPositiveE_value (q : ℚ) (h : 0 < q) (b : Bool) (cs : List Char) (hcs : readSign cs = (b, formatPositiveE q)) :
    readSign (formatPositiveE q) = (false, formatPositiveE q) ∧
    atof cs = (if b then -1 else 1) * ((roundEven (scale10 q (6 - exponent10 q)) : ℚ) * 10 ^ (exponent10 q - 6)) := by
  obtain ⟨h1, h2, -⟩ := rounded_spec 6 q h
  obtain ⟨hc, hl⟩ := carry 6 (exponent10 q) _ h1 h2
  have hdef : formatPositiveE q =
      ((natChars (if roundEven (scale10 q (6 - exponent10 q)) ≥ 10 ^ (6 + 1) then 10 ^ 6 else roundEven (scale10 q (6 - exponent10 q)))).take 1) ++
      ('.' :: (natChars (if roundEven (scale10 q (6 - exponent10 q)) ≥ 10 ^ (6 + 1) then 10 ^ 6 else roundEven (scale10 q (6 - exponent10 q)))).drop 1 ++
       exponentText (if roundEven (scale10 q (6 - exponent10 q)) ≥ 10 ^ (6 + 1) then exponent10 q + 1 else exponent10 q)) := rfl
  simp only [Nat.cast_ofNat] at hc hl
  revert hc hl hdef hcs
  generalize (if roundEven (scale10 q (6 - exponent10 q)) ≥ 10 ^ (6 + 1) then 10 ^ 6 else roundEven (scale10 q (6 - exponent10 q))) = m
  generalize (if roundEven (scale10 q (6 - exponent10 q)) ≥ 10 ^ (6 + 1) then exponent10 q + 1 else exponent10 q) = e
  intro hcs hdef hc hl
  have hd := natChars_digits m
  have hv := digitsValue_natChars m
  generalize natChars m = ds at hd hv hl hdef
  have hfp : ds.drop 1 ≠ [] := by
    intro e0
    have := congrArg List.length e0
    rw [List.length_drop, hl] at this
    simp at this
  have hip : ds.take 1 ≠ [] := by
    intro e0
    have := congrArg List.length e0
    rw [List.length_take, hl] at this
    simp at this
  obtain ⟨ha, hb⟩ := atof_digits (ds.take 1) (ds.drop 1) (exponentText e) (fun c hc => hd c (List.mem_of_mem_take hc)) hip
    (fun c hc => hd c (List.mem_of_mem_drop hc)) (by
      intro c hc
      have : c = 'e' := by simpa [exponentText] using hc.symm
      rw [this]; decide)
  rw [if_neg hfp, ← hdef] at ha hb
  refine ⟨ha, ?_⟩
  rw [hb b cs hcs, List.take_append_drop, hv, readExponent_text, List.length_drop, hl]
  rw [← hc]
  norm_num

/-- **`%e` is right in seven digits**: the number that is read back is off by half a unit of the seventh digit at most. -/
theorem formatE_close (q : ℚ) : |atof (formatE q) - q| ≤ |q| / 2000000 := by
  unfold formatE
  by_cases h0 : q = 0
  · rw [if_pos h0, h0, show atof ['0', '.', '0', '0', '0', '0', '0', '0', 'e', '+', '0', '0'] = 0 by decide +kernel]
    simp
  rw [if_neg h0]
  by_cases hn : q < 0
  · rw [if_pos hn]
    have hq : 0 < -q := by linarith
    obtain ⟨-, -, h3⟩ := rounded_spec 6 (-q) hq
    obtain ⟨-, h4⟩ := formatPositiveE_value (-q) hq true ('-' :: formatPositiveE (-q)) rfl
    rw [h4, if_pos rfl]
    norm_num at h3 ⊢
    rw [abs_of_neg hn, ← abs_neg]
    refine le_trans (le_of_eq ?_) h3
    congr 1
    ring
  · rw [if_neg hn]
    have hq : 0 < q := lt_of_le_of_ne (not_lt.1 hn) (Ne.symm h0)
    obtain ⟨-, -, h3⟩ := rounded_spec 6 q hq
    obtain ⟨h5, -⟩ := formatPositiveE_value q hq true ('-' :: formatPositiveE q) rfl
    obtain ⟨-, h4⟩ := formatPositiveE_value q hq false (formatPositiveE q) h5
    rw [h4, if_neg (by decide)]
    norm_num at h3 ⊢
    rw [abs_of_pos hq]
    exact h3

/-- **`%e` keeps numbers with seven digits.** -/
theorem formatE_exact (k j : ℤ) (hk : |k| < 10000000) : atof (formatE ((k : ℚ) * 10 ^ j)) = (k : ℚ) * 10 ^ j := by
  have ht : (0 : ℚ) < 10 ^ j := zpow_pos (by norm_num) j
  unfold formatE
  rcases lt_trichotomy k 0 with h | h | h
  · obtain ⟨n, hn⟩ := Int.eq_ofNat_of_zero_le (show 0 ≤ -k by omega)
    have hn0 : 0 < n := by omega
    have hkn : (k : ℚ) = -(n : ℚ) := by
      have : k = -(n : ℤ) := by omega
      rw [this]; push_cast; rfl
    have hneg : (k : ℚ) * 10 ^ j < 0 := mul_neg_of_neg_of_pos (by exact_mod_cast h) ht
    rw [if_neg hneg.ne, if_pos hneg]
    have hq : 0 < -((k : ℚ) * 10 ^ j) := by linarith
    obtain ⟨-, h4⟩ := formatPositiveE_value _ hq true ('-' :: formatPositiveE (-((k : ℚ) * 10 ^ j))) rfl
    rw [h4, if_pos rfl]
    have e : -((k : ℚ) * 10 ^ j) = (n : ℚ) * 10 ^ j := by rw [hkn]; ring
    have := rounded_exact 6 n j hn0 (by rw [abs_of_neg h] at hk; norm_num; omega)
    rw [e]
    simp only [Nat.cast_ofNat] at this
    rw [this, hkn]
    ring
  · subst h
    simp only [Int.cast_zero, zero_mul, if_true]
    decide +kernel
  · obtain ⟨n, rfl⟩ := Int.eq_ofNat_of_zero_le (show 0 ≤ k by omega)
    have hn0 : 0 < n := by omega
    have hq : (0 : ℚ) < ((n : ℤ) : ℚ) * 10 ^ j := mul_pos (by exact_mod_cast hn0) ht
    rw [if_neg hq.ne', if_neg (not_lt.2 hq.le)]
    obtain ⟨h5, -⟩ := formatPositiveE_value _ hq true ('-' :: formatPositiveE (((n : ℤ) : ℚ) * 10 ^ j)) rfl
    obtain ⟨-, h4⟩ := formatPositiveE_value _ hq false _ h5
    rw [h4, if_neg (by decide)]
    have := rounded_exact 6 n j hn0 (by rw [abs_of_pos (by omega)] at hk; norm_num; omega)
    simp only [Nat.cast_ofNat] at this
    push_cast
    rw [this]
    ring

/-! ## `%g` -/

/-- What `%g` writes for a positive number: digits, a point with more digits unless there are none, and an exponent
unless it is not needed. -/
theorem formatPositive_shape (q : ℚ) (h : 0 < q) : ∃ ip fp0 tail : List Char, ∃ x : ℤ,
    formatPositive q = ip ++ ((if stripZeros fp0 = [] then [] else '.' :: stripZeros fp0) ++ tail) ∧
    (∀ c ∈ ip, isDigit c = true) ∧ ip ≠ [] ∧ (∀ c ∈ fp0, isDigit c = true) ∧
    ((tail = [] ∧ x = 0) ∨ tail = exponentText x) ∧
    (digitsValue (ip ++ fp0) : ℚ) * 10 ^ (x - fp0.length) =
      (roundEven (scale10 q (5 - exponent10 q)) : ℚ) * 10 ^ (exponent10 q - 5) := by
  obtain ⟨h1, h2, -⟩ := rounded_spec 5 q h
  obtain ⟨hc, hl⟩ := carry 5 (exponent10 q) _ h1 h2
  simp only [Nat.cast_ofNat] at hc hl
  unfold formatPositive
  dsimp only
  revert hc hl
  generalize (if roundEven (scale10 q (5 - exponent10 q)) ≥ 10 ^ (5 + 1) then 10 ^ 5 else roundEven (scale10 q (5 - exponent10 q))) = m
  generalize (if roundEven (scale10 q (5 - exponent10 q)) ≥ 10 ^ (5 + 1) then exponent10 q + 1 else exponent10 q) = e
  intro hc hl
  have hd := natChars_digits m
  have hv := digitsValue_natChars m
  rw [← hc]
  generalize natChars m = ds at hd hv hl
  by_cases hr : -4 ≤ e ∧ e < 6
  · rw [if_pos hr]
    by_cases h0 : 0 ≤ e
    · refine ⟨ds.take (e.toNat + 1), ds.drop (e.toNat + 1), [], 0, ?_, fun c hc => hd c (List.mem_of_mem_take hc), ?_,
        fun c hc => hd c (List.mem_of_mem_drop hc), Or.inl ⟨rfl, rfl⟩, ?_⟩
      · simp only [h0, if_true, List.append_nil]
        split <;> simp
      · intro e0
        have := congrArg List.length e0
        rw [List.length_take, hl] at this
        simp at this
      · rw [List.take_append_drop, hv, List.length_drop, hl]
        congr 2
        omega
    · refine ⟨['0'], List.replicate ((-e).toNat - 1) '0' ++ ds, [], 0, ?_, by decide, by decide, ?_, Or.inl ⟨rfl, rfl⟩, ?_⟩
      · simp only [h0, if_false, List.append_nil]
        split <;> simp
      · intro c hc
        rw [List.mem_append] at hc
        rcases hc with hc | hc
        · rw [List.eq_of_mem_replicate hc]; decide
        · exact hd c hc
      · have hz : ∀ k, digitsValue ('0' :: List.replicate k '0') = 0 := by
          intro k
          have e2 : ∀ k, digitsValue (List.replicate k '0') = 0 := by
            intro k
            induction k with
            | zero => rfl
            | succ k ih => unfold digitsValue at ih ⊢; rw [List.replicate_succ, List.foldl_cons]; exact ih
          exact e2 (k + 1)
        rw [← List.append_assoc, digitsValue_append, List.singleton_append, hz, zero_mul, zero_add, hv, List.length_append,
          List.length_replicate, hl]
        congr 2
        omega
  · rw [if_neg hr]
    refine ⟨ds.take 1, ds.drop 1, exponentText e, e, ?_, fun c hc => hd c (List.mem_of_mem_take hc), ?_,
      fun c hc => hd c (List.mem_of_mem_drop hc), Or.inr rfl, ?_⟩
    · rw [List.append_assoc, List.append_assoc]
      rfl
    · intro e0
      have := congrArg List.length e0
      rw [List.length_take, hl] at this
      simp at this
    · rw [List.take_append_drop, hv, List.length_drop, hl]
      norm_num

theorem formatPositive_value (q : ℚ) (h : 0 < q) (b : Bool) (cs : List Char) (hcs : readSign cs = (b, formatPositive q)) :
    readSign (formatPositive q) = (false, formatPositive q) ∧
    atof cs = (if b then -1 else 1) * ((roundEven (scale10 q (5 - exponent10 q)) : ℚ) * 10 ^ (exponent10 q - 5)) := by
  obtain ⟨ip, fp0, tail, x, hdef, hip, hne, hfp, ht, hv⟩ := formatPositive_shape q h
  obtain ⟨hs1, hs2⟩ := strip_value ip fp0 x
  have htail : readExponent tail = x ∧ ∀ c ∈ tail.head?, isDigit c = false ∧ c ≠ '.' := by
    rcases ht with ⟨rfl, rfl⟩ | rfl
    · exact ⟨rfl, by simp⟩
    · refine ⟨readExponent_text x, ?_⟩
      intro c hc
      have : c = 'e' := by simpa [exponentText] using hc.symm
      rw [this]; decide
  obtain ⟨ha, hb⟩ := atof_digits ip (stripZeros fp0) tail hip hne (fun c hc => hfp c (hs2 c hc)) htail.2
  rw [← hdef] at ha hb
  refine ⟨ha, ?_⟩
  rw [hb b cs hcs, htail.1, hs1, hv]

/-- **`%g` is right in six digits**: the number that is read back is off by half a unit of the sixth digit at most. -/
theorem formatDouble_close (q : ℚ) : |atof (formatDouble q) - q| ≤ |q| / 200000 := by
  unfold formatDouble
  by_cases hi : q.den = 1 ∧ q.num.natAbs < 1000000
  · rw [if_pos hi, atof_intChars, show (q.num : ℚ) = q from by
      conv_rhs => rw [← Rat.num_div_den q, hi.1]
      simp]
    rw [sub_self, abs_zero]
    positivity
  rw [if_neg hi]
  have h0 : q ≠ 0 := by rintro rfl; exact hi (by decide)
  by_cases hn : q < 0
  · rw [if_pos hn]
    have hq : 0 < -q := by linarith
    obtain ⟨-, -, h3⟩ := rounded_spec 5 (-q) hq
    obtain ⟨-, h4⟩ := formatPositive_value (-q) hq true ('-' :: formatPositive (-q)) rfl
    rw [h4, if_pos rfl]
    norm_num at h3 ⊢
    rw [abs_of_neg hn, ← abs_neg]
    refine le_trans (le_of_eq ?_) h3
    congr 1
    ring
  · rw [if_neg hn]
    have hq : 0 < q := lt_of_le_of_ne (not_lt.1 hn) (Ne.symm h0)
    obtain ⟨-, -, h3⟩ := rounded_spec 5 q hq
    obtain ⟨h5, -⟩ := formatPositive_value q hq true ('-' :: formatPositive q) rfl
    obtain ⟨-, h4⟩ := formatPositive_value q hq false (formatPositive q) h5
    rw [h4, if_neg (by decide)]
    norm_num at h3 ⊢
    rw [abs_of_pos hq]
    exact h3

/-- **`%g` keeps numbers with six digits.** -/
theorem formatDouble_exact (k j : ℤ) (hk : |k| < 1000000) : atof (formatDouble ((k : ℚ) * 10 ^ j)) = (k : ℚ) * 10 ^ j := by
  have ht : (0 : ℚ) < 10 ^ j := zpow_pos (by norm_num) j
  unfold formatDouble
  by_cases hi : ((k : ℚ) * 10 ^ j).den = 1 ∧ ((k : ℚ) * 10 ^ j).num.natAbs < 1000000
  · rw [if_pos hi, atof_intChars]
    generalize (k : ℚ) * 10 ^ j = q at hi
    conv_rhs => rw [← Rat.num_div_den q, hi.1]
    simp
  rw [if_neg hi]
  rcases lt_trichotomy k 0 with h | h | h
  · obtain ⟨n, hn⟩ := Int.eq_ofNat_of_zero_le (show 0 ≤ -k by omega)
    have hn0 : 0 < n := by omega
    have hkn : (k : ℚ) = -(n : ℚ) := by
      have : k = -(n : ℤ) := by omega
      rw [this]; push_cast; rfl
    have hneg : (k : ℚ) * 10 ^ j < 0 := mul_neg_of_neg_of_pos (by exact_mod_cast h) ht
    rw [if_pos hneg]
    have hq : 0 < -((k : ℚ) * 10 ^ j) := by linarith
    obtain ⟨-, h4⟩ := formatPositive_value _ hq true ('-' :: formatPositive (-((k : ℚ) * 10 ^ j))) rfl
    rw [h4, if_pos rfl]
    have e : -((k : ℚ) * 10 ^ j) = (n : ℚ) * 10 ^ j := by rw [hkn]; ring
    have := rounded_exact 5 n j hn0 (by rw [abs_of_neg h] at hk; norm_num; omega)
    rw [e]
    simp only [Nat.cast_ofNat] at this
    rw [this, hkn]
    ring
  · subst h
    exact absurd (by simp) hi
  · obtain ⟨n, rfl⟩ := Int.eq_ofNat_of_zero_le (show 0 ≤ k by omega)
    have hn0 : 0 < n := by omega
    have hq : (0 : ℚ) < ((n : ℤ) : ℚ) * 10 ^ j := mul_pos (by exact_mod_cast hn0) ht
    rw [if_neg (not_lt.2 hq.le)]
    obtain ⟨h5, -⟩ := formatPositive_value _ hq true ('-' :: formatPositive (((n : ℤ) : ℚ) * 10 ^ j)) rfl
    obtain ⟨-, h4⟩ := formatPositive_value _ hq false _ h5
    rw [h4, if_neg (by decide)]
    have := rounded_exact 5 n j hn0 (by rw [abs_of_pos (by omega)] at hk; norm_num; omega)
    simp only [Nat.cast_ofNat] at this
    push_cast
    rw [this]
    ring

end Printemps.Text
