import Verif.Props.C33

/-! # C35 — precedence, variable-bound and aggregation moves -/

namespace Printemps.C35
open Spec Moves C33
open ConType (classify)

/-- No coefficient is zero. -/
def NoZeros (m : MState) : Prop := ∀ i ∈ m.conIds, ∀ t ∈ (m.con i).expr.terms, t.2 ≠ 0

private theorem source (m : MState) (lt : ℕ → ℕ → Bool) (val : ℕ → ℤ) (t : ConType) (hpt : isPair t = true)
    (hm : NoRepeats m) (moves : List (List (ℕ × ℤ))) (h : ofModel m lt val t = some moves) (mv : List (ℕ × ℤ))
    (hmv : mv ∈ moves) :
    ∃ i ∈ m.conIds, (m.con i).enabled = true ∧ (classify m.var lt (m.con i)).1 = t ∧
      ∃ p, p.first ≠ p.second ∧ [p.first, p.second].Perm (m.con i).expr.vars ∧
        Shape t (classify m.var lt (m.con i)).2 p.first p.a p.second p.b p.k p.sense ∧
        (p.first, p.a) ∈ (m.con i).expr.terms ∧ (p.second, p.b) ∈ (m.con i).expr.terms ∧
        (∃ l, ofClass val (classify m.var lt (m.con i)).2 (m.con i) t = some l ∧ mv ∈ l) ∧ binomial (m.con i) = some p ∧
        p.k = (m.con i).expr.const ∧
        ∀ σ : ℕ → ℤ, Holds (m.con i) σ ↔ match p.sense with
        | .less => p.k + (p.a * (σ p.first : ℚ) + p.b * (σ p.second : ℚ)) ≤ 0
        | .equal => p.k + (p.a * (σ p.first : ℚ) + p.b * (σ p.second : ℚ)) = 0
        | .greater => p.k + (p.a * (σ p.first : ℚ) + p.b * (σ p.second : ℚ)) ≥ 0 := by
  obtain ⟨i, hi, h1, h2, h3, l, h4, h5⟩ := ofModel_mem m lt val t moves h mv hmv
  obtain ⟨p, hp, hne, hperm, hs, hk, hse', hfa, hsb, hh⟩ :=
    binomial_shape m.var lt (m.con i) (hm i hi) (by rw [h2]; exact hpt)
  rw [h2] at hs
  exact ⟨i, hi, h1, h2, p, hne, hperm, hs, hfa, hsb, ⟨l, h4, h5⟩, hp, hk, hh⟩

/-- A move made for a precedence constraint moves both variables by one in the same direction; the constraint
is satisfied after it exactly if it was before. -/
theorem precedence_moves_keep_the_constraint (m : MState) (lt : ℕ → ℕ → Bool) (val : ℕ → ℤ) (hm : NoRepeats m)
    (moves : List (List (ℕ × ℤ))) (h : ofModel m lt val .precedence = some moves) (mv : List (ℕ × ℤ))
    (hmv : mv ∈ moves) :
    ∃ i ∈ m.conIds, (m.con i).enabled = true ∧ (classify m.var lt (m.con i)).1 = .precedence ∧
      (mv.map Prod.fst).Perm ((m.con i).expr.terms.map Prod.fst) ∧
      (mv.map (fun a => a.2 - val a.1) = [1, 1] ∨ mv.map (fun a => a.2 - val a.1) = [-1, -1]) ∧
      (Holds (m.con i) (applyMove val mv) ↔ Holds (m.con i) val) := by
  obtain ⟨i, hi, h1, h2, p, hne, hperm, hs, hfa, hsb, ⟨l, h4, h5⟩, hp, hk, hh⟩ :=
    source m lt val .precedence rfl hm moves h mv hmv
  refine ⟨i, hi, h1, h2, ?_⟩
  unfold ofClass at h4
  rw [hp] at h4
  simp only [Option.map_some, Option.some.injEq] at h4
  subst h4
  simp only [precedence, List.mem_cons, List.not_mem_nil, or_false] at h5
  have same : ∀ d : ℤ, mv = [(p.first, val p.first + d), (p.second, val p.second + d)] →
      (Holds (m.con i) (applyMove val mv) ↔ Holds (m.con i) val) := by
    intro d e
    rw [hh, hh, e, (apply_two val _ _ _ _ hne).1, (apply_two val _ _ _ _ hne).2]
    have : p.k + (p.a * ((val p.first + d : ℤ) : ℚ) + p.b * ((val p.second + d : ℤ) : ℚ)) =
        p.k + (p.a * (val p.first : ℚ) + p.b * (val p.second : ℚ)) := by
      rw [hs.2]; push_cast; ring
    rw [this]
  rcases h5 with h5 | h5
  · exact ⟨by rw [h5]; exact hperm, Or.inl (by rw [h5]; simp), same 1 h5⟩
  · exact ⟨by rw [h5]; exact hperm, Or.inr (by rw [h5]; simp), same (-1) h5⟩

private theorem tight_holds (s : Sense) (k a b : ℚ) (hb : b ≠ 0) (x : ℤ) :
    match s with
    | .less => k + (a * (x : ℚ) + b * (tight s k a b x : ℚ)) ≤ 0
    | .equal => True
    | .greater => k + (a * (x : ℚ) + b * (tight s k a b x : ℚ)) ≥ 0 := by
  have ht : b * ((-k - a * (x : ℚ)) / b) = -k - a * x := mul_div_cancel₀ _ hb
  have hf := Int.floor_le ((-k - a * (x : ℚ)) / b)
  have hc := Int.le_ceil ((-k - a * (x : ℚ)) / b)
  rcases lt_or_gt_of_ne hb with hn | hp
  · cases s with
    | equal => trivial
    | less =>
      simp only [tight]
      rw [if_neg (by rintro (h | h); exacts [absurd h.1 (by linarith), absurd h.2 (by simp)])]
      have := mul_le_mul_of_nonpos_left hc (le_of_lt hn)
      linarith
    | greater =>
      simp only [tight]
      rw [if_pos (Or.inr ⟨hn, trivial⟩)]
      have := mul_le_mul_of_nonpos_left hf (le_of_lt hn)
      linarith
  · cases s with
    | equal => trivial
    | less =>
      simp only [tight]
      rw [if_pos (Or.inl ⟨hp, trivial⟩)]
      have := mul_le_mul_of_nonneg_left hf (le_of_lt hp)
      linarith
    | greater =>
      simp only [tight]
      rw [if_neg (by rintro (h | h); exacts [absurd h.2 (by simp), absurd h.1 (by linarith)])]
      have := mul_le_mul_of_nonneg_left hc (le_of_lt hp)
      linarith

/-- A move made for a variable-bound constraint moves one variable by one and leads to a state satisfying the
constraint, whatever the values were before. -/
theorem variable_bound_moves_satisfy_the_constraint (m : MState) (lt : ℕ → ℕ → Bool) (val : ℕ → ℤ)
    (hm : NoRepeats m) (hz : NoZeros m) (moves : List (List (ℕ × ℤ)))
    (h : ofModel m lt val .variableBound = some moves) (mv : List (ℕ × ℤ)) (hmv : mv ∈ moves) :
    ∃ i ∈ m.conIds, (m.con i).enabled = true ∧ (classify m.var lt (m.con i)).1 = .variableBound ∧
      (mv.map Prod.fst).Perm ((m.con i).expr.terms.map Prod.fst) ∧
      (∃ a ∈ mv, a.2 = val a.1 + 1 ∨ a.2 = val a.1 - 1) ∧ Holds (m.con i) (applyMove val mv) := by
  obtain ⟨i, hi, h1, h2, p, hne, hperm, hs, hfa, hsb, ⟨l, h4, h5⟩, hp, hk, hh⟩ :=
    source m lt val .variableBound rfl hm moves h mv hmv
  refine ⟨i, hi, h1, h2, ?_⟩
  have ha : p.a ≠ 0 := hz i hi _ hfa
  have hb : p.b ≠ 0 := hz i hi _ hsb
  have hs : p.sense ≠ .equal := hs
  unfold ofClass at h4
  rw [hp] at h4
  simp only [Option.map_some, Option.some.injEq] at h4
  subst h4
  simp only [variableBound, List.mem_cons, List.not_mem_nil, or_false] at h5
  have second : ∀ x : ℤ, mv = [(p.first, x), (p.second, tight p.sense p.k p.a p.b x)] →
      Holds (m.con i) (applyMove val mv) := by
    intro x e
    have := tight_holds p.sense p.k p.a p.b hb x
    rw [hh, e, (apply_two val _ _ _ _ hne).1, (apply_two val _ _ _ _ hne).2]
    cases hc : p.sense <;> rw [hc] at this <;> first | exact this | exact absurd hc hs
  have first : ∀ x : ℤ, mv = [(p.first, tight p.sense p.k p.b p.a x), (p.second, x)] →
      Holds (m.con i) (applyMove val mv) := by
    intro x e
    have := tight_holds p.sense p.k p.b p.a ha x
    rw [hh, e, (apply_two val _ _ _ _ hne).1, (apply_two val _ _ _ _ hne).2, add_comm (p.a * _)]
    cases hc : p.sense <;> rw [hc] at this <;> first | exact this | exact absurd hc hs
  rcases h5 with h5 | h5 | h5 | h5
  · exact ⟨by rw [h5]; exact hperm, ⟨(p.first, val p.first + 1), by rw [h5]; simp, Or.inl rfl⟩, second _ h5⟩
  · exact ⟨by rw [h5]; exact hperm, ⟨(p.first, val p.first - 1), by rw [h5]; simp, Or.inr rfl⟩, second _ h5⟩
  · exact ⟨by rw [h5]; exact hperm, ⟨(p.second, val p.second + 1), by rw [h5]; simp, Or.inl rfl⟩, first _ h5⟩
  · exact ⟨by rw [h5]; exact hperm, ⟨(p.second, val p.second - 1), by rw [h5]; simp, Or.inr rfl⟩, first _ h5⟩

/-- Rounding `q + 1/2` down gives an integer nearest to `q`. -/
private theorem nearest_le (q : ℚ) (w : ℤ) : |((⌊q + 1/2⌋ : ℤ) : ℚ) - q| ≤ |(w : ℚ) - q| := by
  have h1 := Int.floor_le (q + 1/2)
  have h2 := Int.lt_floor_add_one (q + 1/2)
  set z := ⌊q + 1/2⌋
  rcases lt_trichotomy w z with h | h | h
  · have : (w : ℚ) + 1 ≤ z := by exact_mod_cast h
    rw [abs_of_nonpos (show (w : ℚ) - q ≤ 0 by linarith)]
    apply abs_le.2; constructor <;> linarith
  · rw [h]
  · have : (z : ℚ) + 1 ≤ w := by exact_mod_cast h
    rw [abs_of_nonneg (show (0 : ℚ) ≤ w - q by linarith)]
    apply abs_le.2; constructor <;> linarith

private theorem residual_le (k a b : ℚ) (hb : b ≠ 0) (x w : ℤ) :
    |k + (a * (x : ℚ) + b * (nearest k a b x : ℚ))| ≤ |k + (a * (x : ℚ) + b * (w : ℚ))| := by
  have e : ∀ z : ℚ, k + (a * (x : ℚ) + b * z) = b * (z - (-k - a * (x : ℚ)) / b) := by
    intro z; rw [mul_sub, mul_div_cancel₀ _ hb]; ring
  rw [e, e, abs_mul, abs_mul]
  exact mul_le_mul_of_nonneg_left (nearest_le _ w) (abs_nonneg _)

/-- A move made for an aggregation constraint moves one variable `x` by one and gives the other variable `y`
a value with the smallest possible violation: no other integer value `w` of `y` makes the expression smaller
in absolute value.  In particular the constraint is satisfied after the move whenever it can be satisfied by
any integer value of `y` at all. -/
theorem aggregation_moves_are_nearest (m : MState) (lt : ℕ → ℕ → Bool) (val : ℕ → ℤ)
    (hm : NoRepeats m) (hz : NoZeros m) (moves : List (List (ℕ × ℤ)))
    (h : ofModel m lt val .aggregation = some moves) (mv : List (ℕ × ℤ)) (hmv : mv ∈ moves) :
    ∃ i ∈ m.conIds, (m.con i).enabled = true ∧ (classify m.var lt (m.con i)).1 = .aggregation ∧
      (mv.map Prod.fst).Perm ((m.con i).expr.terms.map Prod.fst) ∧
      ∃ x y : ℕ, x ≠ y ∧ (mv.map Prod.fst).Perm [x, y] ∧
        (applyMove val mv x = val x + 1 ∨ applyMove val mv x = val x - 1) ∧
        ∀ w : ℤ,
          |exprValue (m.con i).expr (applyMove val mv)| ≤
            |exprValue (m.con i).expr (Function.update (applyMove val mv) y w)| ∧
          (Holds (m.con i) (Function.update (applyMove val mv) y w) → Holds (m.con i) (applyMove val mv)) := by
  obtain ⟨i, hi, h1, h2, p, hne, hperm, hs, hfa, hsb, ⟨l, h4, h5⟩, hp, hk, hh⟩ :=
    source m lt val .aggregation rfl hm moves h mv hmv
  refine ⟨i, hi, h1, h2, ?_⟩
  have ha : p.a ≠ 0 := hz i hi _ hfa
  have hb : p.b ≠ 0 := hz i hi _ hsb
  have hs : p.sense = .equal := hs
  have hval : ∀ σ : ℕ → ℤ, exprValue (m.con i).expr σ = p.k + (p.a * (σ p.first : ℚ) + p.b * (σ p.second : ℚ)) := by
    intro σ
    rw [ConType.value_eq, hk]
    unfold binomial at hp
    split at hp
    · rename_i t u ht
      rw [ht]
      split at hp
      · cases hp; simp [Expr.lin_cons, add_comm]
      · cases hp; simp [Expr.lin_cons]
    · exact absurd hp (by simp)
  have hzero : ∀ σ : ℕ → ℤ, Holds (m.con i) σ ↔ exprValue (m.con i).expr σ = 0 := by
    intro σ; rw [hh, hs, hval]
  have fin : ∀ (y : ℕ) (w : ℤ), |exprValue (m.con i).expr (applyMove val mv)| ≤
            |exprValue (m.con i).expr (Function.update (applyMove val mv) y w)| →
      |exprValue (m.con i).expr (applyMove val mv)| ≤
            |exprValue (m.con i).expr (Function.update (applyMove val mv) y w)| ∧
      (Holds (m.con i) (Function.update (applyMove val mv) y w) → Holds (m.con i) (applyMove val mv)) := by
    intro y w hle
    refine ⟨hle, fun hw => ?_⟩
    rw [hzero] at hw ⊢
    rw [hw, abs_zero] at hle
    exact abs_eq_zero.1 (le_antisymm hle (abs_nonneg _))
  unfold ofClass at h4
  rw [hp] at h4
  simp only [Option.map_some, Option.some.injEq] at h4
  subst h4
  simp only [aggregation, List.mem_cons, List.not_mem_nil, or_false] at h5
  have second : ∀ x : ℤ, mv = [(p.first, x), (p.second, nearest p.k p.a p.b x)] → ∀ w : ℤ,
      |exprValue (m.con i).expr (applyMove val mv)| ≤
            |exprValue (m.con i).expr (Function.update (applyMove val mv) p.second w)| := by
    intro x e w
    rw [hval, hval, Function.update_self, Function.update_of_ne hne, e, (apply_two val _ _ _ _ hne).1,
      (apply_two val _ _ _ _ hne).2]
    exact residual_le _ _ _ hb _ _
  have first : ∀ x : ℤ, mv = [(p.first, nearest p.k p.b p.a x), (p.second, x)] → ∀ w : ℤ,
      |exprValue (m.con i).expr (applyMove val mv)| ≤
            |exprValue (m.con i).expr (Function.update (applyMove val mv) p.first w)| := by
    intro x e w
    rw [hval, hval, Function.update_self, Function.update_of_ne (Ne.symm hne), e, (apply_two val _ _ _ _ hne).1,
      (apply_two val _ _ _ _ hne).2, add_comm (p.a * _), add_comm (p.a * _)]
    exact residual_le _ _ _ ha _ _
  rcases h5 with h5 | h5 | h5 | h5
  · exact ⟨by rw [h5]; exact hperm, p.first, p.second, hne, by rw [h5]; exact List.Perm.refl _,
      Or.inl (by rw [h5, (apply_two val _ _ _ _ hne).1]), fun w => fin _ _ (second _ h5 w)⟩
  · exact ⟨by rw [h5]; exact hperm, p.first, p.second, hne, by rw [h5]; exact List.Perm.refl _,
      Or.inr (by rw [h5, (apply_two val _ _ _ _ hne).1]), fun w => fin _ _ (second _ h5 w)⟩
  · exact ⟨by rw [h5]; exact hperm, p.second, p.first, Ne.symm hne, by rw [h5]; exact List.Perm.swap _ _ _,
      Or.inl (by rw [h5, (apply_two val _ _ _ _ hne).2]), fun w => fin _ _ (first _ h5 w)⟩
  · exact ⟨by rw [h5]; exact hperm, p.second, p.first, Ne.symm hne, by rw [h5]; exact List.Perm.swap _ _ _,
      Or.inr (by rw [h5, (apply_two val _ _ _ _ hne).2]), fun w => fin _ _ (first _ h5 w)⟩

private def mk (ts : List (ℕ × ℚ)) (k : ℚ) (s : Sense) : MState := { Example.model with
  var := fun _ => Example.int5, varIds := [0, 1]
  con := fun _ => Con.setup { terms := ts, const := k } s (fun _ => .integer), conIds := [0] }
private def lt' (a b : ℕ) : Bool := decide (a < b)

/-! Models of each class; the theorems apply to them. -/
example : ofModel (mk [(0, 2), (1, -2)] 3 .less) lt' (fun v => v) .precedence =
    some [[(0, 1), (1, 2)], [(0, -1), (1, 0)]] := by decide +kernel
example : ofModel (mk [(1, -3), (0, 2)] 1 .less) lt' (fun v => v) .variableBound =
    some [[(0, 1), (1, 1)], [(0, -1), (1, 0)], [(0, 2), (1, 2)], [(0, -1), (1, 0)]] := by decide +kernel
example : ofModel (mk [(1, -3), (0, 2)] 1 .equal) lt' (fun v => v) .aggregation =
    some [[(0, 1), (1, 1)], [(0, -1), (1, 0)], [(0, 3), (1, 2)], [(0, 0), (1, 0)]] := by decide +kernel
example : NoRepeats (mk [(1, -3), (0, 2)] 1 .equal) ∧ NoZeros (mk [(1, -3), (0, 2)] 1 .equal) := by
  unfold NoRepeats NoZeros; decide +kernel

end Printemps.C35
