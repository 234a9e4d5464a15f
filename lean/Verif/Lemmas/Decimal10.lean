import Verif.Lemmas.Scientific
import Verif.Model.Standalone

/-! # Lemmas: the objective in a solution file (`%.10e`) has eleven digits -/

namespace Printemps.Text
open ArrayFile Opt

theorem formatPositive10_value (q : ℚ) (h : 0 < q) (b : Bool) (cs : List Char) (hcs : readSign cs = (b, Cmd.formatPositive10 q)) :
    readSign (Cmd.formatPositive10 q) = (false, Cmd.formatPositive10 q) ∧
    atof cs = (if b then -1 else 1) * ((roundEven (scale10 q (10 - exponent10 q)) : ℚ) * 10 ^ (exponent10 q - 10)) := by
  obtain ⟨h1, h2, -⟩ := rounded_spec 10 q h
  obtain ⟨hc, hl⟩ := carry 10 (exponent10 q) _ h1 h2
  have hdef : Cmd.formatPositive10 q =
      ((natChars (if roundEven (scale10 q (10 - exponent10 q)) ≥ 10 ^ (10 + 1) then 10 ^ 10 else roundEven (scale10 q (10 - exponent10 q)))).take 1) ++
      ('.' :: (natChars (if roundEven (scale10 q (10 - exponent10 q)) ≥ 10 ^ (10 + 1) then 10 ^ 10 else roundEven (scale10 q (10 - exponent10 q)))).drop 1 ++
       exponentText (if roundEven (scale10 q (10 - exponent10 q)) ≥ 10 ^ (10 + 1) then exponent10 q + 1 else exponent10 q)) := rfl
  simp only [Nat.cast_ofNat] at hc hl
  revert hc hl hdef hcs
  generalize (if roundEven (scale10 q (10 - exponent10 q)) ≥ 10 ^ (10 + 1) then 10 ^ 10 else roundEven (scale10 q (10 - exponent10 q))) = m
  generalize (if roundEven (scale10 q (10 - exponent10 q)) ≥ 10 ^ (10 + 1) then exponent10 q + 1 else exponent10 q) = e
  intro hcs hdef hc hl
  have hd := natChars_digits m
  have hv := digitsValue_natChars m
  generalize natChars m = ds at hd hv hl hdef
  have hfp : ds.drop 1 ≠ [] := by
    intro e0
    have := congrArg List.length e0
    rw [List.length_drop, hl] at this
    simp at this
  have hip : ds.take 1 ≠ [] := by
    intro e0
    have := congrArg List.length e0
    rw [List.length_take, hl] at this
    simp at this
  obtain ⟨ha, hb⟩ := atof_digits (ds.take 1) (ds.drop 1) (exponentText e) (fun c hc => hd c (List.mem_of_mem_take hc)) hip
    (fun c hc => hd c (List.mem_of_mem_drop hc)) (by
      intro c hc
      have : c = 'e' := by simpa [exponentText] using hc.symm
      rw [this]; decide)
  rw [if_neg hfp, ← hdef] at ha hb
  refine ⟨ha, ?_⟩
  rw [hb b cs hcs, List.take_append_drop, hv, readExponent_text, List.length_drop, hl]
  rw [← hc]
  norm_num

/-- **`%.10e` is right in eleven digits**: the number that is read back is off by half a unit of the eleventh digit at most. -/
theorem format10_close (q : ℚ) : |atof (Cmd.format10 q) - q| ≤ |q| / 20000000000 := by
  unfold Cmd.format10
  by_cases h0 : q = 0
  · rw [if_pos h0, h0, show atof c!"0.0000000000e+00" = 0 by decide +kernel]
    simp
  rw [if_neg h0]
  by_cases hn : q < 0
  · rw [if_pos hn]
    have hq : 0 < -q := by linarith
    obtain ⟨-, -, h3⟩ := rounded_spec 10 (-q) hq
    obtain ⟨-, h4⟩ := formatPositive10_value (-q) hq true ('-' :: Cmd.formatPositive10 (-q)) rfl
    rw [h4, if_pos rfl]
    norm_num at h3 ⊢
    rw [abs_of_neg hn, ← abs_neg]
    refine le_trans (le_of_eq ?_) h3
    congr 1
    ring
  · rw [if_neg hn]
    have hq : 0 < q := lt_of_le_of_ne (not_lt.1 hn) (Ne.symm h0)
    obtain ⟨-, -, h3⟩ := rounded_spec 10 q hq
    obtain ⟨h5, -⟩ := formatPositive10_value q hq true ('-' :: Cmd.formatPositive10 q) rfl
    obtain ⟨-, h4⟩ := formatPositive10_value q hq false (Cmd.formatPositive10 q) h5
    rw [h4, if_neg (by decide)]
    norm_num at h3 ⊢
    rw [abs_of_pos hq]
    exact h3

end Printemps.Text
