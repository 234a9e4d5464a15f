import Verif.Props.C33

/-! # C34 — constant-sum, constant-difference and constant-ratio moves

The property is false of the code for constraints written with the opposite signs and for fractional
coefficients; it is proved for the other ones. -/

namespace Printemps.C34
open Spec Moves C33
open ConType (classify)

/-- The constraints for which the moves are right.  Sum: `x + y + k = 0` with an integer `k`.  Difference:
the coefficient of the variable created first (smaller address) is 1, and the constant is an integer.
Ratio: both coefficients are integers. -/
def Good (t : ConType) (c : Con) : Prop :=
  match t with
  | .constantSum => (∀ u ∈ c.expr.terms, u.2 = 1) ∧ ∃ z : ℤ, c.expr.const = z
  | .constantDifference => (∀ u ∈ c.expr.terms, (∀ w ∈ c.expr.terms, u.1 ≤ w.1) → u.2 = 1) ∧ ∃ z : ℤ, c.expr.const = z
  | .constantRatio => ∀ u ∈ c.expr.terms, ∃ z : ℤ, u.2 = z
  | _ => False

private theorem first_le (c : Con) (p : Binomial) (hp : binomial c = some p) :
    ∀ w ∈ c.expr.terms, p.first ≤ w.1 := by
  unfold binomial at hp
  split at hp
  · rename_i t u ht
    intro w hw
    rw [ht] at hw
    simp only [List.mem_cons, List.not_mem_nil, or_false] at hw
    split at hp
    · rename_i hlt
      cases hp
      rcases hw with rfl | rfl
      · exact le_of_lt hlt
      · exact le_refl _
    · rename_i hlt
      cases hp
      rcases hw with rfl | rfl
      · exact le_refl _
      · exact not_lt.1 hlt
  · exact absurd hp (by simp)

private theorem unit_div (a b : ℚ) (ha : |a| = 1) (za zb : ℤ) (ea : a = za) (eb : b = zb) :
    -b / a = ((-(zb * za) : ℤ) : ℚ) ∧ a * (-b / a) = -b := by
  have h : a = 1 ∨ a = -1 := by
    rcases abs_cases a with ⟨e, _⟩ | ⟨e, _⟩
    · left; linarith
    · right; linarith
  have h2 : (za : ℚ) = 1 ∨ (za : ℚ) = -1 := by rw [← ea]; exact h
  rcases h with e | e <;> rw [ea] at e ⊢ <;> rw [eb] <;> push_cast <;> rw [e] <;> constructor <;> ring

/-- Every move made for a constant-sum, constant-difference or constant-ratio constraint of the good form leads
to a state satisfying the constraint, whatever the values were before.  Missing: constraints of the other
forms, see the counterexamples below. -/
theorem moves_satisfy_their_constraint_partial (m : MState) (lt : ℕ → ℕ → Bool) (val : ℕ → ℤ) (t : ConType)
    (hm : NoRepeats m) (hg : ∀ i ∈ m.conIds, (classify m.var lt (m.con i)).1 = t → Good t (m.con i))
    (ht : t = .constantSum ∨ t = .constantDifference ∨ t = .constantRatio) (moves : List (List (ℕ × ℤ)))
    (h : ofModel m lt val t = some moves) (mv : List (ℕ × ℤ)) (hmv : mv ∈ moves) :
    ∃ i ∈ m.conIds, (m.con i).enabled = true ∧ (classify m.var lt (m.con i)).1 = t ∧
      (mv.map Prod.fst).Perm ((m.con i).expr.terms.map Prod.fst) ∧ Holds (m.con i) (applyMove val mv) := by
  obtain ⟨i, hi, h1, h2, h3, l, h4, h5⟩ := ofModel_mem m lt val t moves h mv hmv
  refine ⟨i, hi, h1, h2, ?_⟩
  have hgood := hg i hi h2
  have hpair : isPair (classify m.var lt (m.con i)).1 = true := by
    rw [h2]; rcases ht with rfl | rfl | rfl <;> rfl
  obtain ⟨p, hp, hne, hperm, hs, hk, hse', hfa, hsb, hh⟩ := binomial_shape m.var lt (m.con i) (hm i hi) hpair
  rw [h2] at hs
  have key : ∀ a b : ℤ, mv = [(p.first, a), (p.second, b)] → p.sense = .equal →
      p.k + (p.a * (a : ℚ) + p.b * (b : ℚ)) = 0 →
      (mv.map Prod.fst).Perm ((m.con i).expr.terms.map Prod.fst) ∧ Holds (m.con i) (applyMove val mv) := by
    intro a b e hse hz
    refine ⟨by rw [e]; exact hperm, ?_⟩
    rw [hh, hse, e, (apply_two val _ _ a b hne).1, (apply_two val _ _ a b hne).2]
    exact hz
  have key' : ∀ a b : ℤ, mv = [(p.second, b), (p.first, a)] → p.sense = .equal →
      p.k + (p.a * (a : ℚ) + p.b * (b : ℚ)) = 0 →
      (mv.map Prod.fst).Perm ((m.con i).expr.terms.map Prod.fst) ∧ Holds (m.con i) (applyMove val mv) := by
    intro a b e hse hz
    refine ⟨by rw [e]; exact (List.Perm.swap _ _ _).trans hperm, ?_⟩
    rw [hh, hse, e, (apply_two val _ _ b a (Ne.symm hne)).1, (apply_two val _ _ b a (Ne.symm hne)).2]
    exact hz
  rcases ht with rfl | rfl | rfl
  all_goals
    unfold ofClass at h4
    rw [hp] at h4
    simp only [Option.map_some, Option.some.injEq] at h4
    subst h4
  · simp only [constantSum, List.mem_cons, List.not_mem_nil, or_false] at h5
    obtain ⟨hse, e3, hc⟩ := hs
    obtain ⟨g1, z, g2⟩ := hgood
    have ea : p.a = 1 := g1 _ hfa
    have eb : p.b = 1 := g1 _ hsb
    rw [← hk] at g2
    have tr : ∀ x : ℤ, ((Expr.truncQ (-p.k - (x : ℚ)) : ℤ) : ℚ) = -p.k - x := by
      intro x
      rw [show -p.k - (x : ℚ) = ((-z - x : ℤ) : ℚ) by rw [g2]; push_cast; ring, truncQ_int]
    rcases h5 with h5 | h5 <;> refine key _ _ h5 hse ?_ <;> rw [tr, ea, eb] <;> ring
  · simp only [constantDifference, List.mem_cons, List.not_mem_nil, or_false] at h5
    obtain ⟨hse, e3, hc⟩ := hs
    obtain ⟨g1, z, g2⟩ := hgood
    have ea : p.a = 1 := g1 _ hfa (first_le _ p hp)
    have eb : p.b = -1 := by
      rcases hc with hc | hc
      · exact hc.2
      · rw [hc.1] at ea; norm_num at ea
    rw [← hk] at g2
    have tr : ∀ x : ℤ, ((Expr.truncQ (p.k + (x : ℚ)) : ℤ) : ℚ) = p.k + x := by
      intro x
      rw [show p.k + (x : ℚ) = ((z + x : ℤ) : ℚ) by rw [g2]; push_cast; ring, truncQ_int]
    rcases h5 with h5 | h5 <;> refine key _ _ h5 hse ?_ <;> rw [tr, ea, eb] <;> ring
  · obtain ⟨hse, e3, hc⟩ := hs
    obtain ⟨za, ea⟩ := hgood _ hfa
    obtain ⟨zb, eb⟩ := hgood _ hsb
    simp only [] at ea eb
    have tr : ∀ (x z : ℤ), ((Expr.truncQ ((x : ℚ) * (z : ℚ)) : ℤ) : ℚ) = x * z := by
      intro x z; rw [show (x : ℚ) * z = ((x * z : ℤ) : ℚ) by push_cast; ring, truncQ_int]
    by_cases hkey : (classify m.var lt (m.con i)).2 = some p.first
    · have ha1 : |p.a| = 1 := by
        rcases hc with hc | hc
        · exact hc.2.1
        · rw [hkey] at hc; exact absurd (Option.some.inj hc.1) hne
      obtain ⟨u1, u2⟩ := unit_div p.a p.b ha1 za zb ea eb
      simp only [constantRatio, if_pos hkey, List.mem_cons, List.not_mem_nil, or_false] at h5
      have r : ∀ x : ℚ, 0 + (p.a * (x * (-p.b / p.a)) + p.b * x) = 0 := by
        intro x
        rw [show p.a * (x * (-p.b / p.a)) = x * (p.a * (-p.b / p.a)) by ring, u2]; ring
      rcases h5 with h5 | h5 <;> refine key' _ _ h5 hse ?_ <;> rw [u1, tr, ← u1, e3] <;> exact r _
    · have hb1 : |p.b| = 1 := by
        rcases hc with hc | hc
        · exact absurd hc.1 hkey
        · exact hc.2.1
      obtain ⟨u1, u2⟩ := unit_div p.b p.a hb1 zb za eb ea
      simp only [constantRatio, if_neg hkey, List.mem_cons, List.not_mem_nil, or_false] at h5
      have r : ∀ x : ℚ, 0 + (p.a * x + p.b * (x * (-p.a / p.b))) = 0 := by
        intro x
        rw [show p.b * (x * (-p.a / p.b)) = x * (p.b * (-p.a / p.b)) by ring, u2]; ring
      rcases h5 with h5 | h5 <;> refine key _ _ h5 hse ?_ <;> rw [u1, tr, ← u1, e3] <;> exact r _

private theorem wrong_sign (m : MState) (val : ℕ → ℤ) (i : ℕ) (p : Binomial)
    (x y : ℤ) (hne : p.first ≠ p.second) (mv : List (ℕ × ℤ)) (e : mv = [(p.first, x), (p.second, y)])
    (hse : p.sense = .equal) (hz : p.k + (p.a * (x : ℚ) + p.b * (y : ℚ)) ≠ 0)
    (hh : ∀ (σ : ℕ → ℤ), Holds (m.con i) σ ↔ match p.sense with
      | Sense.less => p.k + (p.a * (σ p.first : ℚ) + p.b * (σ p.second : ℚ)) ≤ 0
      | Sense.equal => p.k + (p.a * (σ p.first : ℚ) + p.b * (σ p.second : ℚ)) = 0
      | Sense.greater => p.k + (p.a * (σ p.first : ℚ) + p.b * (σ p.second : ℚ)) ≥ 0) :
    ¬ Holds (m.con i) (applyMove val mv) := by
  rw [hh, hse, e, (apply_two val _ _ x y hne).1, (apply_two val _ _ x y hne).2]
  exact hz

/-- For constraints `-x - y + k = 0` with an integer `k` every generated move does the opposite: the
constraint is violated after it, whatever the values were before. -/
theorem negative_sum_moves_always_violate (m : MState) (lt : ℕ → ℕ → Bool) (val : ℕ → ℤ) (hm : NoRepeats m)
    (hneg : ∀ i ∈ m.conIds, (classify m.var lt (m.con i)).1 = .constantSum →
      (∀ u ∈ (m.con i).expr.terms, u.2 = -1) ∧ ∃ z : ℤ, (m.con i).expr.const = z)
    (moves : List (List (ℕ × ℤ))) (h : ofModel m lt val .constantSum = some moves) (mv : List (ℕ × ℤ))
    (hmv : mv ∈ moves) :
    ∃ i ∈ m.conIds, (m.con i).enabled = true ∧ (classify m.var lt (m.con i)).1 = .constantSum ∧
      (mv.map Prod.fst).Perm ((m.con i).expr.terms.map Prod.fst) ∧ ¬ Holds (m.con i) (applyMove val mv) := by
  obtain ⟨i, hi, h1, h2, h3, l, h4, h5⟩ := ofModel_mem m lt val _ moves h mv hmv
  refine ⟨i, hi, h1, h2, ?_⟩
  obtain ⟨p, hp, hne, hperm, hs, hk, hse', hfa, hsb, hh⟩ :=
    binomial_shape m.var lt (m.con i) (hm i hi) (by rw [h2]; rfl)
  rw [h2] at hs
  obtain ⟨hse, e3, hc⟩ := hs
  obtain ⟨g1, z, g2⟩ := hneg i hi h2
  have ea : p.a = -1 := g1 _ hfa
  have eb : p.b = -1 := g1 _ hsb
  rw [← hk] at g2
  unfold ofClass at h4
  rw [hp] at h4
  simp only [Option.map_some, Option.some.injEq] at h4
  subst h4
  simp only [constantSum, List.mem_cons, List.not_mem_nil, or_false] at h5
  have tr : ∀ x : ℤ, ((Expr.truncQ (-p.k - (x : ℚ)) : ℤ) : ℚ) = -p.k - x := by
    intro x
    rw [show -p.k - (x : ℚ) = ((-z - x : ℤ) : ℚ) by rw [g2]; push_cast; ring, truncQ_int]
  have hz : ∀ x : ℤ, p.k + (p.a * (x : ℚ) + p.b * ((Expr.truncQ (-p.k - (x : ℚ)) : ℤ) : ℚ)) ≠ 0 := by
    intro x hx
    rw [tr, ea, eb] at hx
    exact e3 (by linarith)
  rcases h5 with h5 | h5
  · exact ⟨by rw [h5]; exact hperm, wrong_sign m val i p _ _ hne mv h5 hse (hz _) hh⟩
  · exact ⟨by rw [h5]; exact hperm, wrong_sign m val i p _ _ hne mv h5 hse (hz _) hh⟩

private def mk (ts : List (ℕ × ℚ)) (k : ℚ) : MState := { Example.model with
  var := fun _ => Example.int5, varIds := [0, 1]
  con := fun _ => Con.setup { terms := ts, const := k } .equal (fun _ => .integer), conIds := [0] }
private def lt' (a b : ℕ) : Bool := decide (a < b)

/-! The theorems apply. -/
example : ofModel (mk [(0, 1), (1, 1)] (-5)) lt' (fun _ => 2) .constantSum =
    some [[(0, 3), (1, 2)], [(0, 1), (1, 4)]] := by decide +kernel
example : ofModel (mk [(0, 1), (1, -1)] 2) lt' (fun _ => 2) .constantDifference =
    some [[(0, 3), (1, 5)], [(0, 1), (1, 3)]] := by decide +kernel
example : ofModel (mk [(0, -3), (1, 1)] 0) lt' (fun _ => 1) .constantRatio =
    some [[(0, 2), (1, 6)], [(0, 0), (1, 0)]] := by decide +kernel
example : ∀ i ∈ (mk [(0, 1), (1, -1)] 2).conIds,
    (classify (mk [(0, 1), (1, -1)] 2).var lt' ((mk [(0, 1), (1, -1)] 2).con i)).1 = .constantDifference →
    Good .constantDifference ((mk [(0, 1), (1, -1)] 2).con i) :=
  fun i hi _ => ⟨(by decide +kernel : ∀ u ∈ ([(0, 1), (1, -1)] : List (ℕ × ℚ)),
    (∀ w ∈ ([(0, 1), (1, -1)] : List (ℕ × ℚ)), u.1 ≤ w.1) → u.2 = 1), 2, rfl⟩
example : NoRepeats (mk [(0, -1), (1, -1)] 5) ∧
    ofModel (mk [(0, -1), (1, -1)] 5) lt' (fun _ => 2) .constantSum =
    some [[(0, 3), (1, -8)], [(0, 1), (1, -6)]] := ⟨by unfold NoRepeats; decide +kernel, by decide +kernel⟩

private theorem fails (ts : List (ℕ × ℚ)) (k : ℚ) (t : ConType) (val : ℕ → ℤ) (mv : List (ℕ × ℤ))
    (h : ∃ l, ofModel (mk ts k) lt' val t = some l ∧ mv ∈ l) (hv : k + Expr.lin ts (applyMove val mv) ≠ 0) :
    ∃ moves, ofModel (mk ts k) lt' val t = some moves ∧ ∃ mv ∈ moves,
      ¬ Holds ((mk ts k).con 0) (applyMove val mv) := by
  obtain ⟨l, h1, h2⟩ := h
  refine ⟨l, h1, mv, h2, ?_⟩
  rw [ConType.holds_iff]
  exact hv

/-- Also the difference is wrong if the variable created first has the coefficient -1: from the solution
`x = 3, y = 1` of `-x + y + 2 = 0` the moves lead to `x = 4, y = 6` and `x = 2, y = 4`. -/
theorem difference_moves_can_violate : ∃ moves, ofModel (mk [(0, -1), (1, 1)] 2) lt'
      (fun v => if v = 0 then 3 else 1) .constantDifference = some moves ∧ ∃ mv ∈ moves,
      ¬ Holds ((mk [(0, -1), (1, 1)] 2).con 0) (applyMove (fun v => if v = 0 then 3 else 1) mv) :=
  fails _ _ _ _ [(0, 4), (1, 6)] ⟨[[(0, 4), (1, 6)], [(0, 2), (1, 4)]], by decide +kernel, by simp⟩ (by decide +kernel)

/-- The ratio is wrong for fractional coefficients: `x = y / 2` from `x = 1, y = 2` gives `x = 1, y = 3`
(the second value is truncated), which violates the constraint. -/
theorem ratio_moves_can_violate : ∃ moves, ofModel (mk [(0, -1/2), (1, 1)] 0) lt'
      (fun v => if v = 0 then 2 else 1) .constantRatio = some moves ∧ ∃ mv ∈ moves,
      ¬ Holds ((mk [(0, -1/2), (1, 1)] 0).con 0) (applyMove (fun v => if v = 0 then 2 else 1) mv) :=
  fails _ _ _ _ [(0, 3), (1, 1)] ⟨[[(0, 3), (1, 1)], [(0, 1), (1, 0)]], by decide +kernel, by simp⟩ (by decide +kernel)

end Printemps.C34
