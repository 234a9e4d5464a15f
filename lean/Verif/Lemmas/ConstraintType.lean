import Verif.Spec.ConstraintType
import Verif.Lemmas.Dependent

/-! Helper lemmas about the classification of constraints. -/

namespace Printemps.ConType
open Spec Expr Presolve

/-- The stored flags are the ones of the current expression. -/
structure Fresh (var : ℕ → Var) (c : Con) : Prop where
  coef : c.onlyBinaryCoef = true → ∀ t ∈ c.expr.terms, t.2 = 1
  variable' : c.onlyBinaryVar = true → ∀ t ∈ c.expr.terms,
    (var t.1).sense = .binary ∨ (var t.1).sense = .dependentBinary ∨ (var t.1).sense = .selection

theorem value_eq (c : Con) (σ : ℕ → ℤ) : exprValue c.expr σ = c.expr.const + lin c.expr.terms σ := by
  rw [exprValue_eq, evaluate_eq]

theorem holds_iff (c : Con) (σ : ℕ → ℤ) : Holds c σ ↔ match c.sense with
    | .less => c.expr.const + lin c.expr.terms σ ≤ 0
    | .equal => c.expr.const + lin c.expr.terms σ = 0
    | .greater => c.expr.const + lin c.expr.terms σ ≥ 0 := by
  unfold Holds
  rw [value_eq]
  cases c.sense <;> rfl

theorem isBin_iff (v : Var) : isBin v = true ↔ v.sense = .binary ∨ v.sense = .dependentBinary := by
  unfold isBin; cases v.sense <;> simp

theorem isInt_iff (v : Var) : isInt v = true ↔ v.sense = .integer ∨ v.sense = .dependentInteger := by
  unfold isInt; cases v.sense <;> simp

theorem isBinSel_iff (v : Var) : isBinSel v = true ↔ v.sense = .binary ∨ v.sense = .selection := by
  unfold isBinSel; cases v.sense <;> simp

theorem smaller_or (lt : ℕ → ℕ → Bool) (x y : ℕ) :
    (some (smaller lt x y) : Option ℕ) = some x ∨ (some (smaller lt x y) : Option ℕ) = some y := by
  unfold smaller; split
  · exact Or.inl rfl
  · exact Or.inr rfl

theorem pairBinary_meaning (var : ℕ → Var) (lt : ℕ → ℕ → Bool) (c : Con) (x : ℕ) (a : ℚ) (y : ℕ) (b : ℚ)
    (hx : x ≠ y) (ht : c.expr.terms = [(x, a), (y, b)]) (hs : c.sense = .equal) (r : Result)
    (hr : pairBinary var lt c.expr.const x a y b = some r) : Meaning var c r.1 r.2 := by
  have hv : c.expr.vars = [x, y] := by unfold Expr.vars; rw [ht]; rfl
  have hh : ∀ σ, Holds c σ ↔ c.expr.const + (a * (σ x : ℚ) + b * (σ y : ℚ)) = 0 := by
    intro σ; rw [holds_iff, hs, ht]; simp [lin_cons]
  have zo : ∀ σ, ZeroOne var c σ → isBin (var x) = true → isBin (var y) = true →
      (σ x = 0 ∨ σ x = 1) ∧ (σ y = 0 ∨ σ y = 1) := by
    intro σ hz h1 h2
    rw [isBin_iff] at h1 h2
    exact ⟨hz x (by rw [hv]; simp) (by tauto), hz y (by rw [hv]; simp) (by tauto)⟩
  unfold pairBinary at hr
  split at hr
  swap
  · exact absurd hr (by simp)
  rename_i hbb
  split at hr
  · rename_i h; simp only [Option.some.injEq] at hr; subst hr
    obtain ⟨ha, hb, hk⟩ := h
    refine ⟨x, y, hx, hv, smaller_or lt x y, fun σ hz => ?_⟩
    rw [hh, ha, hb, hk]
    obtain ⟨z1, z2⟩ := zo σ hz hbb.1 hbb.2
    rcases z1 with z1 | z1 <;> rcases z2 with z2 | z2 <;> rw [z1, z2] <;> norm_num
  split at hr
  · rename_i h; simp only [Option.some.injEq] at hr; subst hr
    obtain ⟨ha, hb, hk⟩ := h
    refine ⟨x, y, hx, hv, smaller_or lt x y, fun σ hz => ?_⟩
    rw [hh, ha, hb, hk]
    obtain ⟨z1, z2⟩ := zo σ hz hbb.1 hbb.2
    rcases z1 with z1 | z1 <;> rcases z2 with z2 | z2 <;> rw [z1, z2] <;> norm_num
  split at hr
  · rename_i h; simp only [Option.some.injEq] at hr; subst hr
    obtain ⟨ha, hb, hk⟩ := h
    refine ⟨x, y, hx, hv, smaller_or lt x y, fun σ hz => ?_⟩
    rw [hh, ha, hb, hk]
    obtain ⟨z1, z2⟩ := zo σ hz hbb.1 hbb.2
    rcases z1 with z1 | z1 <;> rcases z2 with z2 | z2 <;> rw [z1, z2] <;> norm_num
  split at hr
  · rename_i h; simp only [Option.some.injEq] at hr; subst hr
    obtain ⟨ha, hb, hk⟩ := h
    refine ⟨x, y, hx, hv, smaller_or lt x y, fun σ hz => ?_⟩
    rw [hh, ha, hb, hk]
    obtain ⟨z1, z2⟩ := zo σ hz hbb.1 hbb.2
    rcases z1 with z1 | z1 <;> rcases z2 with z2 | z2 <;> rw [z1, z2] <;> norm_num
  exact absurd hr (by simp)

theorem pairUnit_meaning (var : ℕ → Var) (lt : ℕ → ℕ → Bool) (c : Con) (x : ℕ) (a : ℚ) (y : ℕ) (b : ℚ)
    (hx : x ≠ y) (ht : c.expr.terms = [(x, a), (y, b)]) (hs : c.sense = .equal) (r : Result)
    (hr : pairUnit lt c.expr.const x a y b = some r) : Meaning var c r.1 r.2 := by
  have hv : c.expr.vars = [x, y] := by unfold Expr.vars; rw [ht]; rfl
  have hh : ∀ σ, Holds c σ ↔ c.expr.const + (a * (σ x : ℚ) + b * (σ y : ℚ)) = 0 := by
    intro σ; rw [holds_iff, hs, ht]; simp [lin_cons]
  unfold pairUnit at hr
  split at hr
  · rename_i h; simp only [Option.some.injEq] at hr; subst hr
    obtain ⟨ha, hb, hk⟩ := h
    refine ⟨x, y, hx, hv, smaller_or lt x y, fun σ => ?_⟩
    rw [hh, ha, hb, hk]
    constructor
    · intro h; have : (σ x : ℚ) = -σ y := by linarith
      exact_mod_cast this
    · intro h; rw [h]; push_cast; ring
  split at hr
  · rename_i h; simp only [Option.some.injEq] at hr; subst hr
    obtain ⟨ha, hb, hk⟩ := h
    refine ⟨x, y, hx, hv, smaller_or lt x y, fun σ => ?_⟩
    rw [hh, ha, hb, hk]
    constructor
    · intro h; have : (σ x : ℚ) = -σ y := by linarith
      exact_mod_cast this
    · intro h; rw [h]; push_cast; ring
  split at hr
  · rename_i h; simp only [Option.some.injEq] at hr; subst hr
    obtain ⟨ha, hb, hk⟩ := h
    refine ⟨x, y, hx, hv, smaller_or lt x y, fun σ => ?_⟩
    rw [hh, ha, hb, hk]
    constructor
    · intro h; have : (σ x : ℚ) = σ y := by linarith
      exact_mod_cast this
    · intro h; rw [h]; ring
  split at hr
  · rename_i h; simp only [Option.some.injEq] at hr; subst hr
    obtain ⟨ha, hb, hk⟩ := h
    refine ⟨x, y, hx, hv, smaller_or lt x y, fun σ => ?_⟩
    rw [hh, ha, hb, hk]
    constructor
    · intro h; have : (σ x : ℚ) = σ y := by linarith
      exact_mod_cast this
    · intro h; rw [h]; ring
  split at hr
  · rename_i h; simp only [Option.some.injEq] at hr; subst hr
    obtain ⟨ha, hb, hk⟩ := h
    refine ⟨x, y, hx, hv, smaller_or lt x y, -c.expr.const, neg_ne_zero.2 hk, fun σ => ?_⟩
    rw [hh, ha, hb]
    constructor <;> intro h <;> linarith
  split at hr
  · rename_i h; simp only [Option.some.injEq] at hr; subst hr
    obtain ⟨ha, hb, hk⟩ := h
    refine ⟨x, y, hx, hv, smaller_or lt x y, c.expr.const, hk, fun σ => ?_⟩
    rw [hh, ha, hb]
    constructor <;> intro h <;> linarith
  split at hr
  · rename_i h; simp only [Option.some.injEq] at hr; subst hr
    obtain ⟨ha, hb, hk⟩ := h
    refine ⟨x, y, hx, hv, smaller_or lt x y, -c.expr.const, neg_ne_zero.2 hk, fun σ => ?_⟩
    rw [hh, ha, hb]
    constructor <;> intro h <;> linarith
  split at hr
  · rename_i h; simp only [Option.some.injEq] at hr; subst hr
    obtain ⟨ha, hb, hk⟩ := h
    refine ⟨x, y, hx, hv, smaller_or lt x y, c.expr.const, hk, fun σ => ?_⟩
    rw [hh, ha, hb]
    constructor <;> intro h <;> linarith
  exact absurd hr (by simp)

theorem pairHalf_meaning (var : ℕ → Var) (c : Con) (x : ℕ) (a : ℚ) (y : ℕ) (b : ℚ)
    (hx : x ≠ y) (ht : c.expr.terms = [(x, a), (y, b)]) (hs : c.sense = .equal) (r : Result)
    (hr : pairHalf c.isInteger c.expr.const x a y b = some r) : Meaning var c r.1 r.2 := by
  have hv : c.expr.vars = [x, y] := by unfold Expr.vars; rw [ht]; rfl
  have hh : ∀ σ, Holds c σ ↔ c.expr.const + (a * (σ x : ℚ) + b * (σ y : ℚ)) = 0 := by
    intro σ; rw [holds_iff, hs, ht]; simp [lin_cons]
  have half : ∀ (w : ℕ) (e : ℚ) (u : ℕ) (f : ℚ), w ≠ u →
      (c.expr.vars = [w, u] ∨ c.expr.vars = [u, w]) → |e| = 1 →
      (∀ σ : ℕ → ℤ, Holds c σ ↔ c.expr.const + (e * (σ w : ℚ) + f * (σ u : ℚ)) = 0) →
      Meaning var c .intermediate (some w) := by
    intro w e u f hwu hvs he hH
    refine ⟨w, rfl, by rcases hvs with h | h <;> rw [h] <;> simp, ⟨[(u, -(e * f))], -(e * c.expr.const), 0⟩,
      by simp [Expr.vars, hwu], fun σ => ?_⟩
    rw [hH, exprValue_eq, evaluate_eq]
    simp only [lin_cons, lin_nil]
    rcases eq_or_eq_neg_of_abs_eq he with rfl | rfl
    · constructor <;> intro h <;> linarith
    · constructor <;> intro h <;> linarith
  have ratio : ∀ (w : ℕ) (e : ℚ) (u : ℕ) (f : ℚ), w ≠ u →
      (c.expr.vars = [w, u] ∨ c.expr.vars = [u, w]) → |e| = 1 → |f| ≠ 1 → c.expr.const = 0 →
      (∀ σ : ℕ → ℤ, Holds c σ ↔ c.expr.const + (e * (σ w : ℚ) + f * (σ u : ℚ)) = 0) →
      Meaning var c .constantRatio (some w) := by
    intro w e u f hwu hvs he hf hk hH
    refine ⟨w, u, hwu, hvs, rfl, -(e * f), by rw [abs_neg, abs_mul, he, one_mul]; exact hf, fun σ => ?_⟩
    rw [hH, hk]
    rcases eq_or_eq_neg_of_abs_eq he with rfl | rfl
    · constructor <;> intro h <;> linarith
    · constructor <;> intro h <;> linarith
  have hh' : ∀ σ, Holds c σ ↔ c.expr.const + (b * (σ y : ℚ) + a * (σ x : ℚ)) = 0 := by
    intro σ; rw [hh, add_comm (a * _)]
  unfold pairHalf at hr
  split at hr
  · rename_i h; simp only [Option.some.injEq] at hr; subst hr
    exact ratio x a y b hx (Or.inl hv) h.1 h.2.1 h.2.2 hh
  split at hr
  · rename_i h; simp only [Option.some.injEq] at hr; subst hr
    exact ratio y b x a (Ne.symm hx) (Or.inr hv) h.2.1 h.1 h.2.2 hh'
  split at hr
  · rename_i h; simp only [Option.some.injEq] at hr; subst hr
    exact half x a y b hx (Or.inl hv) h.1 hh
  split at hr
  · rename_i h; simp only [Option.some.injEq] at hr; subst hr
    exact half y b x a (Ne.symm hx) (Or.inr hv) h.2.1 hh'
  exact absurd hr (by simp)

theorem pairEqual_meaning (var : ℕ → Var) (lt : ℕ → ℕ → Bool) (c : Con) (x : ℕ) (a : ℚ) (y : ℕ) (b : ℚ)
    (hx : x ≠ y) (ht : c.expr.terms = [(x, a), (y, b)]) (hs : c.sense = .equal) :
    Meaning var c (pairEqual var lt c x a y b).1 (pairEqual var lt c x a y b).2 := by
  have hv : c.expr.vars = [x, y] := by unfold Expr.vars; rw [ht]; rfl
  have hh : ∀ σ, Holds c σ ↔ c.expr.const + (a * (σ x : ℚ) + b * (σ y : ℚ)) = 0 := by
    intro σ; rw [holds_iff, hs, ht]; simp [lin_cons]
  have agg : Meaning var c .aggregation none :=
    ⟨x, y, hx, hv, a, b, -c.expr.const, fun σ => by rw [hh]; constructor <;> intro h <;> linarith⟩
  unfold pairEqual
  cases h1 : pairBinary var lt c.expr.const x a y b with
  | some r => exact pairBinary_meaning var lt c x a y b hx ht hs r h1
  | none =>
    simp only []
    by_cases hi : isInt (var x) = true ∧ isInt (var y) = true
    · rw [if_pos hi]
      cases h2 : pairUnit lt c.expr.const x a y b with
      | some r => exact pairUnit_meaning var lt c x a y b hx ht hs r h2
      | none =>
        simp only []
        cases h3 : pairHalf c.isInteger c.expr.const x a y b with
        | some r => exact pairHalf_meaning var c x a y b hx ht hs r h3
        | none => exact agg
    · rw [if_neg hi]; exact agg

theorem diff_le (p k u v : ℚ) (hp : 0 < p) : k + p * (u - v) ≤ 0 ↔ u ≤ v + -k / p := by
  rw [show u ≤ v + -k / p ↔ u - v ≤ -k / p from ⟨fun h => by linarith, fun h => by linarith⟩, le_div_iff₀ hp]
  constructor <;> intro h <;> linarith

theorem pairInequality_meaning (var : ℕ → Var) (c : Con) (x : ℕ) (a : ℚ) (y : ℕ) (b : ℚ) (ha : a ≠ 0)
    (hx : x ≠ y) (ht : c.expr.terms = [(x, a), (y, b)]) (hs : c.sense ≠ .equal) :
    Meaning var c (pairInequality var x a y b).1 (pairInequality var x a y b).2 := by
  have hv : c.expr.vars = [x, y] := by unfold Expr.vars; rw [ht]; rfl
  have hl : ∀ σ, lin c.expr.terms σ = a * (σ x : ℚ) + b * (σ y : ℚ) := by
    intro σ; rw [ht]; simp [lin_cons]
  unfold pairInequality
  split
  · rename_i h
    have hb : b = -a := by linarith [h.2]
    have fwd : (0 < a ∧ c.sense = .less ∨ a < 0 ∧ c.sense = .greater) ∨
        (0 < a ∧ c.sense = .greater ∨ a < 0 ∧ c.sense = .less) := by
      rcases lt_or_gt_of_ne ha with hn | hp <;> cases hc : c.sense
      · exact Or.inr (Or.inr ⟨hn, rfl⟩)
      · exact absurd hc hs
      · exact Or.inl (Or.inr ⟨hn, rfl⟩)
      · exact Or.inl (Or.inl ⟨hp, rfl⟩)
      · exact absurd hc hs
      · exact Or.inr (Or.inl ⟨hp, rfl⟩)
    rcases fwd with (⟨h1, h2⟩ | ⟨h1, h2⟩) | (⟨h1, h2⟩ | ⟨h1, h2⟩)
    · refine ⟨x, y, hx, Or.inl hv, -c.expr.const / a, fun σ => ?_⟩
      rw [holds_iff, h2, hl, hb, ← diff_le a _ _ _ h1]
      simp only []
      constructor <;> intro h <;> linarith
    · refine ⟨x, y, hx, Or.inl hv, -(-c.expr.const) / -a, fun σ => ?_⟩
      rw [holds_iff, h2, hl, hb, ← diff_le (-a) _ _ _ (by linarith)]
      simp only []
      constructor <;> intro h <;> linarith
    · refine ⟨y, x, Ne.symm hx, Or.inr hv, -(-c.expr.const) / a, fun σ => ?_⟩
      rw [holds_iff, h2, hl, hb, ← diff_le a _ _ _ h1]
      simp only []
      constructor <;> intro h <;> linarith
    · refine ⟨y, x, Ne.symm hx, Or.inr hv, -c.expr.const / -a, fun σ => ?_⟩
      rw [holds_iff, h2, hl, hb, ← diff_le (-a) _ _ _ (by linarith)]
      simp only []
      constructor <;> intro h <;> linarith
  · cases hc : c.sense with
    | equal => exact absurd hc hs
    | less =>
      refine ⟨x, y, hx, hv, a, b, -c.expr.const, fun σ => ?_⟩
      rw [holds_iff, hc, hl]
      simp only []
      constructor <;> intro h <;> linarith
    | greater =>
      refine ⟨x, y, hx, hv, -a, -b, c.expr.const, fun σ => ?_⟩
      rw [holds_iff, hc, hl]
      simp only []
      constructor <;> intro h <;> linarith

/-! Set constraints -/

theorem lin_ones (ts : List (ℕ × ℚ)) (σ : ℕ → ℤ) (h1 : ∀ t ∈ ts, t.2 = 1) (h2 : ∀ t ∈ ts, σ t.1 = 0 ∨ σ t.1 = 1) :
    lin ts σ = (((ts.map Prod.fst).filter (fun v => σ v = 1)).length : ℚ) := by
  induction ts with
  | nil => simp
  | cons t ts ih =>
    have ih := ih (fun t ht => h1 t (List.mem_cons_of_mem _ ht)) (fun t ht => h2 t (List.mem_cons_of_mem _ ht))
    rw [lin_cons, ih, h1 t (by simp), List.map_cons]
    rcases h2 t (by simp) with e | e
    · rw [List.filter_cons_of_neg (by simp [e]), e]; simp
    · rw [List.filter_cons_of_pos (by simp [e]), e]; simp; ring

theorem setTypes_meaning (var : ℕ → Var) (c : Con) (hf : Fresh var c) (r : Result) (hr : setTypes c = some r) :
    Meaning var c r.1 r.2 := by
  unfold setTypes at hr
  split at hr
  · rename_i hb
    have hl : ∀ σ, ZeroOne var c σ → lin c.expr.terms σ = (ones c σ : ℚ) := by
      intro σ hz
      exact lin_ones _ σ (hf.coef hb.1) (fun t ht => hz t.1 (List.mem_map.2 ⟨t, ht, rfl⟩) (hf.variable' hb.2 t ht))
    split at hr
    · rename_i h
      simp only [Option.some.injEq] at hr; subst hr
      intro σ hz
      rw [holds_iff, h.2, h.1, hl σ hz]
      simp only []
      rw [show (-1 + (ones c σ : ℚ) = 0) ↔ ((ones c σ : ℚ) = (1 : ℕ)) by
        push_cast; constructor <;> intro h <;> linarith, Nat.cast_inj]
    split at hr
    · rename_i h
      simp only [Option.some.injEq] at hr; subst hr
      intro σ hz
      rw [holds_iff, h.2, h.1, hl σ hz]
      simp only []
      rw [show (-1 + (ones c σ : ℚ) ≤ 0) ↔ ((ones c σ : ℚ) ≤ (1 : ℕ)) by
        push_cast; constructor <;> intro h <;> linarith, Nat.cast_le]
    split at hr
    · rename_i h
      simp only [Option.some.injEq] at hr; subst hr
      intro σ hz
      rw [holds_iff, h.2, h.1, hl σ hz]
      simp only []
      rw [show (-1 + (ones c σ : ℚ) ≥ 0) ↔ (((1 : ℕ) : ℚ) ≤ (ones c σ : ℚ)) by
        push_cast; constructor <;> intro h <;> linarith, Nat.cast_le]
    split at hr
    · rename_i h
      simp only [Option.some.injEq] at hr; subst hr
      refine ⟨-c.expr.const, by linarith [h.1], fun σ hz => ?_⟩
      rw [holds_iff, h.2, hl σ hz]
      simp only []
      constructor <;> intro h <;> linarith
    split at hr
    · rename_i h
      simp only [Option.some.injEq] at hr; subst hr
      refine ⟨-c.expr.const, by linarith [h.1], fun σ hz => ?_⟩
      rw [holds_iff, h.2, hl σ hz]
      simp only []
      constructor <;> intro h <;> linarith
    split at hr
    · rename_i h
      simp only [Option.some.injEq] at hr; subst hr
      refine ⟨-c.expr.const, by linarith [h.1], fun σ hz => ?_⟩
      rw [holds_iff, h.2, hl σ hz]
      simp only []
      constructor <;> intro h <;> linarith
    · exact absurd hr (by simp)
  · exact absurd hr (by simp)

/-! Flow constraints and soft selections -/

/-- The sum of the values of the listed variables. -/
def total (l : List ℕ) (σ : ℕ → ℤ) : ℚ := (l.map (fun v => (σ v : ℚ))).sum

theorem total_cons (v : ℕ) (l : List ℕ) (σ : ℕ → ℤ) : total (v :: l) σ = (σ v : ℚ) + total l σ := by
  simp [total]

theorem lin_units (ts : List (ℕ × ℚ)) (σ : ℕ → ℤ) (h : ∀ t ∈ ts, |t.2| = 1) :
    lin ts σ = total ((ts.filter (fun t => t.2 = 1)).map Prod.fst) σ
      - total ((ts.filter (fun t => ¬ t.2 = 1)).map Prod.fst) σ := by
  induction ts with
  | nil => simp [total]
  | cons t ts ih =>
    have ih := ih (fun t ht => h t (List.mem_cons_of_mem _ ht))
    rw [lin_cons, ih]
    rcases eq_or_eq_neg_of_abs_eq (h t (by simp)) with e | e
    · rw [List.filter_cons_of_pos (by simp [e]), List.filter_cons_of_neg (by simp [e]), List.map_cons, total_cons, e]
      ring
    · have hne : ¬ t.2 = 1 := by rw [e]; norm_num
      rw [List.filter_cons_of_neg (by simp [hne]), List.filter_cons_of_pos (by simp [hne]), List.map_cons,
        total_cons, e]
      ring

theorem filter_perm (ts : List (ℕ × ℚ)) (p : ℕ × ℚ → Prop) [DecidablePred p] :
    (ts.map Prod.fst).Perm ((ts.filter (fun t => p t)).map Prod.fst ++ (ts.filter (fun t => ¬ p t)).map Prod.fst) := by
  induction ts with
  | nil => simp
  | cons t ts ih =>
    by_cases h : p t
    · rw [List.filter_cons_of_pos (by simpa using h), List.filter_cons_of_neg (by simpa using h)]
      simpa using ih
    · rw [List.filter_cons_of_neg (by simpa using h), List.filter_cons_of_pos (by simpa using h)]
      rw [List.map_cons, List.map_cons]
      exact (List.Perm.cons _ ih).trans List.perm_middle.symm

theorem total_ones (l : List ℕ) (σ : ℕ → ℤ) (h : ∀ v ∈ l, σ v = 0 ∨ σ v = 1) :
    total l σ = ((l.filter (fun v => σ v = 1)).length : ℚ) := by
  induction l with
  | nil => simp [total]
  | cons v l ih =>
    have ih := ih (fun t ht => h t (List.mem_cons_of_mem _ ht))
    rw [total_cons, ih]
    rcases h v (by simp) with e | e
    · rw [List.filter_cons_of_neg (by simp [e]), e]; simp
    · rw [List.filter_cons_of_pos (by simp [e]), e]; simp; ring

theorem filter_ones_zero (l : List ℕ) (σ : ℕ → ℤ) (h : ∀ v ∈ l, σ v = 0 ∨ σ v = 1) :
    (l.filter (fun v => σ v = 1)).length = 0 ↔ ∀ v ∈ l, σ v = 0 := by
  rw [List.length_eq_zero_iff, List.filter_eq_nil_iff]
  constructor
  · intro hh v hv
    rcases h v hv with e | e
    · exact e
    · exact absurd e (by simpa using hh v hv)
  · intro hh v hv; rw [hh v hv]; simp

theorem soft (x : ℕ) (l : List ℕ) (σ : ℕ → ℤ) (hx : σ x = 0 ∨ σ x = 1) (h : ∀ v ∈ l, σ v = 0 ∨ σ v = 1) :
    (σ x : ℚ) = total l σ ↔ (σ x = 0 ∧ ∀ v ∈ l, σ v = 0) ∨
      (σ x = 1 ∧ (l.filter (fun v => σ v = 1)).length = 1) := by
  rw [total_ones l σ h, ← filter_ones_zero l σ h]
  generalize (l.filter (fun v => σ v = 1)).length = n
  rcases hx with e | e
  · rw [e]
    constructor
    · intro h; left; refine ⟨rfl, ?_⟩
      have : ((0 : ℕ) : ℚ) = (n : ℚ) := by push_cast at h ⊢; exact h
      exact (Nat.cast_inj.1 this).symm
    · rintro (⟨_, h⟩ | ⟨h, _⟩)
      · rw [h]; norm_num
      · exact absurd h (by norm_num)
  · rw [e]
    constructor
    · intro h; right; refine ⟨rfl, ?_⟩
      have : ((1 : ℕ) : ℚ) = (n : ℚ) := by push_cast at h ⊢; exact h
      exact (Nat.cast_inj.1 this).symm
    · rintro (⟨h, _⟩ | ⟨_, h⟩)
      · exact absurd h (by norm_num)
      · rw [h]; norm_num

theorem flowTypes_meaning (var : ℕ → Var) (c : Con) (r : Result) (hr : flowTypes var c = some r) :
    Meaning var c r.1 r.2 := by
  unfold flowTypes at hr
  simp only [] at hr
  split at hr
  swap
  · exact absurd hr (by simp)
  rename_i h0
  obtain ⟨hs, hu⟩ := h0
  have hu : ∀ t ∈ c.expr.terms, |t.2| = 1 := fun t ht => by simpa using List.all_eq_true.1 hu t ht
  have hlin := fun σ => lin_units c.expr.terms σ hu
  have hperm := filter_perm c.expr.terms (fun t => t.2 = 1)
  generalize hp : c.expr.terms.filter (fun t => t.2 = 1) = p at *
  generalize hm : c.expr.terms.filter (fun t => ¬ t.2 = 1) = m at *
  have hH : ∀ σ, Holds c σ ↔ total (p.map Prod.fst) σ = total (m.map Prod.fst) σ + -c.expr.const := by
    intro σ
    rw [holds_iff, hs, hlin]
    simp only []
    constructor <;> intro h <;> linarith
  have flow : Meaning var c .binaryFlow none := ⟨p.map Prod.fst, m.map Prod.fst, -c.expr.const, hperm, hH⟩
  split at hr
  · rename_i hb
    have hz : ∀ σ, ZeroOne var c σ → ∀ v ∈ c.expr.vars, σ v = 0 ∨ σ v = 1 := by
      intro σ h v hv
      obtain ⟨t, ht, rfl⟩ := List.mem_map.1 hv
      refine h t.1 hv ?_
      rcases (isBinSel_iff _).1 (List.all_eq_true.1 hb t ht) with e | e
      · exact Or.inl e
      · exact Or.inr (Or.inr e)
    have softP : ∀ x, p = [x] → m ≠ [] → c.expr.const = 0 → Meaning var c .softSelection (some x.1) := by
      intro x hx hne hk
      refine ⟨x.1, m.map Prod.fst, rfl, by simpa using hne, by rw [hx] at hperm; exact hperm, fun σ h => ?_⟩
      have hvs := hz σ h
      have hmem : ∀ v ∈ x.1 :: m.map Prod.fst, σ v = 0 ∨ σ v = 1 := by
        intro v hv
        rw [hx] at hperm
        exact hvs v (hperm.mem_iff.2 hv)
      rw [hH, hx, hk, ← soft x.1 _ σ (hmem _ (by simp)) (fun v hv => hmem v (List.mem_cons_of_mem _ hv))]
      simp [total]
    have softM : ∀ y, m = [y] → p ≠ [] → c.expr.const = 0 → Meaning var c .softSelection (some y.1) := by
      intro y hy hne hk
      have hperm' : c.expr.vars.Perm (y.1 :: p.map Prod.fst) := by
        rw [hy] at hperm
        exact hperm.trans (List.perm_append_comm.trans (by simp))
      refine ⟨y.1, p.map Prod.fst, rfl, by simpa using hne, hperm', fun σ h => ?_⟩
      have hvs := hz σ h
      have hmem : ∀ v ∈ y.1 :: p.map Prod.fst, σ v = 0 ∨ σ v = 1 := fun v hv => hvs v (hperm'.mem_iff.2 hv)
      rw [hH, hy, hk, ← soft y.1 _ σ (hmem _ (by simp)) (fun v hv => hmem v (List.mem_cons_of_mem _ hv))]
      simp only [total, List.map_cons, List.map_nil, List.sum_cons, List.sum_nil, add_zero, neg_zero]
      exact eq_comm
    split at hr
    · split at hr
      · rename_i h
        simp only [Option.some.injEq] at hr; subst hr
        exact softP _ rfl (by simp) h.2
      · split at hr
        · rename_i y hy
          split at hr
          · rename_i h
            simp only [Option.some.injEq] at hr; subst hr
            exact softM y (by simpa using hy) (by simp) h.2
          · simp only [Option.some.injEq] at hr; subst hr; exact flow
        · simp only [Option.some.injEq] at hr; subst hr; exact flow
    · rename_i y _ _ _
      split at hr
      · rename_i h
        simp only [Option.some.injEq] at hr; subst hr
        exact softM _ rfl (by simp) h.2
      · simp only [Option.some.injEq] at hr; subst hr; exact flow
    · simp only [Option.some.injEq] at hr; subst hr; exact flow
  · split at hr
    · rename_i h
      simp only [Option.some.injEq] at hr; subst hr
      exact ⟨p.map Prod.fst, m.map Prod.fst, -c.expr.const, hperm, by simpa using h.2.1, by simpa using h.2.2, hH⟩
    · exact absurd hr (by simp)

/-! Min-max, max-min, intermediate -/

theorem solve_unit (c : Con) (hw : c.expr.WF) (x : ℕ) (a : ℚ) (hx : (x, a) ∈ c.expr.terms) (ha : a = 1 ∨ a = -1) :
    ∃ f : Expr, x ∉ f.vars ∧ x ∈ c.expr.vars ∧ ∀ σ : ℕ → ℤ, exprValue c.expr σ = a * ((σ x : ℚ) - exprValue f σ) := by
  have hv : x ∈ c.expr.vars := List.mem_map.2 ⟨_, hx, rfl⟩
  obtain ⟨f, hf⟩ := Dependent.solve_some c.expr x hv
  refine ⟨f, fun h => ((Dependent.solve_vars _ _ _ hf x).1 h).2 rfl, hv, fun σ => ?_⟩
  have := Dependent.solve_value c.expr f hw x hf σ
  rw [lookup_of_mem _ hw x a hx] at this
  rw [this]
  rcases ha with rfl | rfl
  · ring
  · ring

theorem boundTypes_meaning (var : ℕ → Var) (c : Con) (hw : c.expr.WF) (r : Result)
    (hr : boundTypes var c = some r) : Meaning var c r.1 r.2 := by
  unfold boundTypes at hr
  split at hr
  swap
  · exact absurd hr (by simp)
  simp only [] at hr
  generalize hp : (c.expr.terms.filter (fun t => isInt (var t.1) && !(var t.1).fixed)).filter (fun t => t.2 = 1) = p at hr
  generalize hm : (c.expr.terms.filter (fun t => isInt (var t.1) && !(var t.1).fixed)).filter (fun t => t.2 = -1) = m at hr
  have hpm : ∀ t ∈ p, t ∈ c.expr.terms ∧ t.2 = 1 := by
    intro t ht; rw [← hp] at ht
    obtain ⟨h1, h2⟩ := List.mem_filter.1 ht
    exact ⟨(List.mem_filter.1 h1).1, by simpa using h2⟩
  have hmm : ∀ t ∈ m, t ∈ c.expr.terms ∧ t.2 = -1 := by
    intro t ht; rw [← hm] at ht
    obtain ⟨h1, h2⟩ := List.mem_filter.1 ht
    exact ⟨(List.mem_filter.1 h1).1, by simpa using h2⟩
  have one : ∀ l : List (ℕ × ℚ), l.length = 1 → ∃ t, l = [t] := fun l h => List.length_eq_one_iff.1 h
  have useM : m.length = 1 → ∃ t, m.head?.map Prod.fst = some t ∧ ∃ f : Expr, t ∉ f.vars ∧ t ∈ c.expr.vars ∧
      ∀ σ : ℕ → ℤ, exprValue c.expr σ = -1 * ((σ t : ℚ) - exprValue f σ) := by
    intro h
    obtain ⟨t, ht⟩ := one m h
    obtain ⟨h1, h2⟩ := hmm t (by rw [ht]; simp)
    obtain ⟨f, hf⟩ := solve_unit c hw t.1 (-1) (by rw [← h2]; exact h1) (Or.inr rfl)
    exact ⟨t.1, by rw [ht]; rfl, f, hf⟩
  have useP : p.length = 1 → ∃ t, p.head?.map Prod.fst = some t ∧ ∃ f : Expr, t ∉ f.vars ∧ t ∈ c.expr.vars ∧
      ∀ σ : ℕ → ℤ, exprValue c.expr σ = 1 * ((σ t : ℚ) - exprValue f σ) := by
    intro h
    obtain ⟨t, ht⟩ := one p h
    obtain ⟨h1, h2⟩ := hpm t (by rw [ht]; simp)
    obtain ⟨f, hf⟩ := solve_unit c hw t.1 1 (by rw [← h2]; exact h1) (Or.inl rfl)
    exact ⟨t.1, by rw [ht]; rfl, f, hf⟩
  split at hr
  · rename_i h; simp only [Option.some.injEq] at hr; subst hr
    obtain ⟨t, e, f, h1, h2, h3⟩ := useM h.2.1
    refine ⟨t, e, h2, f, h1, fun σ => ?_⟩
    rw [holds_iff, h.1]; simp only []; rw [← value_eq, h3]
    constructor <;> intro h <;> linarith
  split at hr
  · rename_i h; simp only [Option.some.injEq] at hr; subst hr
    obtain ⟨t, e, f, h1, h2, h3⟩ := useP h.2.1
    refine ⟨t, e, h2, f, h1, fun σ => ?_⟩
    rw [holds_iff, h.1]; simp only []; rw [← value_eq, h3]
    constructor <;> intro h <;> linarith
  split at hr
  · rename_i h; simp only [Option.some.injEq] at hr; subst hr
    obtain ⟨t, e, f, h1, h2, h3⟩ := useM h.2.1
    refine ⟨t, e, h2, f, h1, fun σ => ?_⟩
    rw [holds_iff, h.1]; simp only []; rw [← value_eq, h3]
    constructor <;> intro h <;> linarith
  split at hr
  · rename_i h; simp only [Option.some.injEq] at hr; subst hr
    obtain ⟨t, e, f, h1, h2, h3⟩ := useP h.2.1
    refine ⟨t, e, h2, f, h1, fun σ => ?_⟩
    rw [holds_iff, h.1]; simp only []; rw [← value_eq, h3]
    constructor <;> intro h <;> linarith
  split at hr
  · rename_i h; simp only [Option.some.injEq] at hr; subst hr
    obtain ⟨t, e, f, h1, h2, h3⟩ := useM h.2.1
    refine ⟨t, e, h2, f, h1, fun σ => ?_⟩
    rw [holds_iff, h.1]; simp only []; rw [← value_eq, h3]
    constructor <;> intro h <;> linarith
  split at hr
  · rename_i h; simp only [Option.some.injEq] at hr; subst hr
    obtain ⟨t, e, f, h1, h2, h3⟩ := useP h.2.1
    refine ⟨t, e, h2, f, h1, fun σ => ?_⟩
    rw [holds_iff, h.1]; simp only []; rw [← value_eq, h3]
    constructor <;> intro h <;> linarith
  · exact absurd hr (by simp)

/-! Knapsacks -/

theorem lin_as_sum (ts : List (ℕ × ℚ)) (h : (ts.map Prod.fst).Nodup) (σ : ℕ → ℤ) (s : ℚ) :
    ((ts.map Prod.fst).map (fun v => (s * lookup ts v) * (σ v : ℚ))).sum = s * lin ts σ := by
  have : (ts.map Prod.fst).map (fun v => (s * lookup ts v) * (σ v : ℚ)) = ts.map (fun t => s * (t.2 * (σ t.1 : ℚ))) := by
    rw [List.map_map]
    apply List.map_congr_left
    intro t ht
    show s * lookup ts t.1 * _ = _
    rw [lookup_of_mem ts h t.1 t.2 ht]; ring
  rw [this]
  clear this h
  induction ts with
  | nil => simp
  | cons t ts ih => rw [List.map_cons, List.sum_cons, ih, lin_cons]; ring

theorem knapsackTypes_meaning (var : ℕ → Var) (c : Con) (hw : c.expr.WF) (r : Result)
    (hr : knapsackTypes var c = some r) : Meaning var c r.1 r.2 := by
  unfold knapsackTypes at hr
  simp only [] at hr
  have hpos : c.expr.terms.all (fun t => !decide (t.2 < 0)) = true → ∀ v ∈ c.expr.vars, 0 ≤ 1 * lookup c.expr.terms v := by
    intro h v hv
    obtain ⟨t, ht, rfl⟩ := List.mem_map.1 hv
    rw [lookup_of_mem _ hw t.1 t.2 ht]
    have := List.all_eq_true.1 h t ht
    simp at this; linarith
  have hneg : c.expr.terms.all (fun t => !decide (t.2 > 0)) = true → ∀ v ∈ c.expr.vars, 0 ≤ -1 * lookup c.expr.terms v := by
    intro h v hv
    obtain ⟨t, ht, rfl⟩ := List.mem_map.1 hv
    rw [lookup_of_mem _ hw t.1 t.2 ht]
    have := List.all_eq_true.1 h t ht
    simp at this; linarith
  have hle : ((c.expr.terms.all (fun t => !decide (t.2 < 0)) && c.sense == .less) ||
      (c.expr.terms.all (fun t => !decide (t.2 > 0)) && c.sense == .greater)) = true → Weighted c (· ≤ ·) := by
    intro h
    rw [Bool.or_eq_true, Bool.and_eq_true, Bool.and_eq_true] at h
    rcases h with ⟨h1, h2⟩ | ⟨h1, h2⟩
    · have h2 : c.sense = .less := by simpa using h2
      refine ⟨fun v => 1 * lookup c.expr.terms v, -c.expr.const, hpos h1, fun σ => ?_⟩
      rw [holds_iff, h2, Expr.vars, lin_as_sum _ hw]
      simp only []
      constructor <;> intro h <;> linarith
    · have h2 : c.sense = .greater := by simpa using h2
      refine ⟨fun v => -1 * lookup c.expr.terms v, c.expr.const, hneg h1, fun σ => ?_⟩
      rw [holds_iff, h2, Expr.vars, lin_as_sum _ hw]
      simp only []
      constructor <;> intro h <;> linarith
  split at hr
  · split at hr
    · rename_i h; simp only [Option.some.injEq] at hr; subst hr
      obtain ⟨hs, h⟩ := h
      rw [Bool.or_eq_true] at h
      rcases h with h1 | h1
      · refine ⟨fun v => 1 * lookup c.expr.terms v, -c.expr.const, hpos h1, fun σ => ?_⟩
        rw [holds_iff, hs, Expr.vars, lin_as_sum _ hw]
        simp only []
        constructor <;> intro h <;> linarith
      · refine ⟨fun v => -1 * lookup c.expr.terms v, c.expr.const, hneg h1, fun σ => ?_⟩
        rw [holds_iff, hs, Expr.vars, lin_as_sum _ hw]
        simp only []
        constructor <;> intro h <;> linarith
    split at hr
    · rename_i h; simp only [Option.some.injEq] at hr; subst hr
      exact hle h.2
    split at hr
    · rename_i h; simp only [Option.some.injEq] at hr; subst hr
      exact hle h
    · exact absurd hr (by simp)
  · split at hr
    · rename_i h; simp only [Option.some.injEq] at hr; subst hr
      exact hle h
    · exact absurd hr (by simp)

/-! GF(2) constraints -/

theorem lin_parity (ts : List (ℕ × ℚ)) (σ : ℕ → ℤ) (h : ∀ t ∈ ts, |t.2| = 1)
    (hz : ∀ t ∈ ts, σ t.1 = 0 ∨ σ t.1 = 1) :
    ∃ n : ℤ, lin ts σ = n ∧ |n| ≤ ts.length ∧
      n % 2 = (((ts.map Prod.fst).filter (fun v => σ v = 1)).length : ℤ) % 2 := by
  induction ts with
  | nil => exact ⟨0, by simp⟩
  | cons t ts ih =>
    obtain ⟨n, h1, h2, h3⟩ := ih (fun t ht => h t (List.mem_cons_of_mem _ ht))
      (fun t ht => hz t (List.mem_cons_of_mem _ ht))
    rw [abs_le] at h2
    rw [List.map_cons, lin_cons, h1, List.length_cons]
    rcases hz t (by simp) with e | e
    · refine ⟨n, by rw [e]; simp, by rw [abs_le]; push_cast; omega, ?_⟩
      rw [List.filter_cons_of_neg (by simp [e])]; exact h3
    · rw [List.filter_cons_of_pos (by simp [e]), List.length_cons, e]
      rcases eq_or_eq_neg_of_abs_eq (h t (by simp)) with f | f
      · exact ⟨n + 1, by rw [f]; push_cast; ring, by rw [abs_le]; push_cast; omega, by push_cast; omega⟩
      · exact ⟨n - 1, by rw [f]; push_cast; ring, by rw [abs_le]; push_cast; omega, by push_cast; omega⟩

theorem ite_none_some {α : Type} {P : Prop} [Decidable P] {x r : α}
    (h : (if P then none else some x) = some r) : ¬ P ∧ x = r := by
  by_cases hp : P
  · rw [if_pos hp] at h; exact absurd h (by simp)
  · rw [if_neg hp] at h; exact ⟨hp, by simpa using h⟩

theorem gf2Type_meaning (var : ℕ → Var) (c : Con) (hw : c.expr.WF) (hlen : c.expr.terms.length ≤ 1000000000)
    (r : Result) (hr : gf2Type var c = some r) : Meaning var c r.1 r.2 := by
  unfold gf2Type at hr
  simp only [] at hr
  split at hr
  swap
  · exact absurd hr (by simp)
  rename_i h0
  obtain ⟨hk, hs, hall⟩ := h0
  split at hr
  swap
  · exact absurd hr (by simp)
  rename_i k hkey
  obtain ⟨hb, rfl⟩ := ite_none_some hr
  clear hr
  rw [not_or] at hb
  have hkm : k ∈ c.expr.terms ∧ gf2Key var k = true := by
    have : k ∈ c.expr.terms.filter (gf2Key var) := by rw [hkey]; simp
    exact List.mem_filter.1 this
  have hka : |k.2| = 2 := by
    have := hkm.2; unfold gf2Key at this; simp only [Bool.and_eq_true, decide_eq_true_eq] at this; exact this.2
  have hkv : k.1 ∈ c.expr.vars := List.mem_map.2 ⟨k, hkm.1, rfl⟩
  have hunfixed : ∀ t ∈ c.expr.terms, (var t.1).fixed = false := by
    intro t ht
    have := List.all_eq_true.1 hall t ht
    simp only [Bool.and_eq_true, Bool.not_eq_true'] at this
    exact this.1
  generalize hrest : c.expr.terms.filter (fun t => t.1 ≠ k.1) = rest at *
  have hrm : ∀ t ∈ rest, t ∈ c.expr.terms ∧ t.1 ≠ k.1 := by
    intro t ht; rw [← hrest] at ht
    obtain ⟨a, b⟩ := List.mem_filter.1 ht
    exact ⟨a, by simpa using b⟩
  have hunit : ∀ t ∈ rest, |t.2| = 1 := by
    intro t ht
    obtain ⟨h1, h2⟩ := hrm t ht
    have := List.all_eq_true.1 hall t h1
    simp only [Bool.and_eq_true, Bool.or_eq_true, decide_eq_true_eq] at this
    rcases this.2 with h | h
    · exfalso
      have : t ∈ c.expr.terms.filter (gf2Key var) := List.mem_filter.2 ⟨h1, h⟩
      rw [hkey, List.mem_singleton] at this
      exact h2 (by rw [this])
    · exact h.2
  have hrv : rest.map Prod.fst = c.expr.vars.filter (fun v => v ≠ k.1) := by
    rw [← hrest, Expr.vars, List.filter_map]; rfl
  have hperm : c.expr.vars.Perm (k.1 :: rest.map Prod.fst) := by
    have h1 := List.perm_cons_erase hkv
    rw [List.Nodup.erase_eq_filter hw] at h1
    rw [hrv]
    refine h1.trans (List.Perm.of_eq ?_)
    congr 1
    apply List.filter_congr
    intro v _
    by_cases h : v = k.1
    · rw [h]; simp
    · have h2 : (v == k.1) = false := beq_false_of_ne h
      simp [bne, h, h2]
  have hlr : rest.length ≤ c.expr.terms.length := by rw [← hrest]; exact List.length_filter_le _ _
  have herase : (c.expr.erase k.1).terms = rest := by rw [← hrest]; rfl
  have hval : ∀ (σ : ℕ → ℤ) (z : ℤ), exprValue c.expr (Function.update σ k.1 z) =
      k.2 * z + (c.expr.const + lin rest σ) := by
    intro σ z
    have h1 := Dependent.exprValue_erase c.expr hw k.1 (Function.update σ k.1 z)
    rw [lookup_of_mem _ hw k.1 k.2 hkm.1, Function.update_self] at h1
    have h2 : exprValue (c.expr.erase k.1) (Function.update σ k.1 z) = c.expr.const + lin rest σ := by
      rw [exprValue_eq, evaluate_eq, herase]
      have : lin rest (Function.update σ k.1 z) = lin rest σ :=
        lin_congr _ _ _ (fun t ht => Function.update_of_ne (hrm t ht).2 _ _)
      rw [this]; rfl
    rw [h2] at h1
    linarith
  obtain ⟨kk, hkk, hkkp⟩ : ∃ kk : ℤ, c.expr.const = kk ∧ (kk = 0 ∨ kk = 1 ∨ kk = -1) := by
    rcases hk with h | h
    · exact ⟨0, by rw [h]; simp, Or.inl rfl⟩
    · rcases eq_or_eq_neg_of_abs_eq h with h | h
      · exact ⟨1, by rw [h]; simp, Or.inr (Or.inl rfl)⟩
      · exact ⟨-1, by rw [h]; simp, Or.inr (Or.inr rfl)⟩
  refine ⟨k.1, rest.map Prod.fst, rfl, hperm, if kk = 0 then 0 else 1, by split <;> omega, fun σ hσ => ?_⟩
  obtain ⟨n, n1, n2, n3⟩ := lin_parity rest σ hunit (fun t ht => (hσ t.1 (List.mem_map.2 ⟨t, ht, rfl⟩)).1)
  rw [abs_le] at n2
  generalize ((rest.map Prod.fst).filter (fun v => σ v = 1)).length = cnt at n3 ⊢
  have hH : ∀ z : ℤ, Holds c (Function.update σ k.1 z) ↔ k.2 * z + ((kk : ℚ) + n) = 0 := by
    intro z
    rw [holds_iff, hs]
    simp only []
    rw [← value_eq, hval, n1, hkk]
  have hbounds : (c.expr.erase k.1).lowerBound (fun v => (var v).box) ≤ (kk : ℚ) + n ∧
      (kk : ℚ) + n ≤ (c.expr.erase k.1).upperBound (fun v => (var v).box) := by
    have := Dependent.bounds_enclose_on (c.expr.erase k.1) var σ (by
      intro v hv
      rw [Expr.vars, herase] at hv
      obtain ⟨t, ht, rfl⟩ := List.mem_map.1 hv
      refine ⟨fun h => ?_, fun _ => (hσ t.1 hv).2⟩
      rw [hunfixed t (hrm t ht).1] at h; exact absurd h (by simp))
    have hv : exprValue (c.expr.erase k.1) σ = (kk : ℚ) + n := by
      rw [exprValue_eq, evaluate_eq, herase, n1, ← hkk]; rfl
    rw [hv] at this
    exact this
  generalize (c.expr.erase k.1).lowerBound (fun v => (var v).box) = L at *
  generalize (c.expr.erase k.1).upperBound (fun v => (var v).box) = U at *
  have hpar : (cnt % 2 = if kk = 0 then 0 else 1) ↔ (kk + n) % 2 = 0 := by
    rcases hkkp with rfl | rfl | rfl <;> simp <;> omega
  rw [hpar]
  have hlen' : (rest.length : ℤ) ≤ 1000000000 := by exact_mod_cast le_trans hlr hlen
  have inb : ∀ z : ℤ, (-1000000001 ≤ 2 * z ∧ 2 * z ≤ 1000000001) →
      ((if k.2 > 0 then -U else L) ≤ 2 * (z : ℚ) ∧ 2 * (z : ℚ) ≤ (if k.2 > 0 then -L else U)) →
      (var k.1).lb ≤ z ∧ z ≤ (var k.1).ub := by
    intro z hz hr
    obtain ⟨b1, b2⟩ := hb
    constructor
    · by_cases hl : (var k.1).lb = INT_HALF_MIN
      · rw [hl]; unfold INT_HALF_MIN; omega
      · refine le_trans (not_lt.1 (fun h => b1 ⟨hl, h⟩)) (Int.ceil_le.2 ?_)
        linarith [hr.1]
    · by_cases hl : (var k.1).ub = INT_HALF_MAX
      · rw [hl]; unfold INT_HALF_MAX; omega
      · refine le_trans (Int.le_floor.2 ?_) (not_lt.1 (fun h => b2 ⟨hl, h⟩))
        linarith [hr.2]
  constructor
  · rintro ⟨z, _, _, hz⟩
    rw [hH] at hz
    rcases eq_or_eq_neg_of_abs_eq hka with e | e
    · rw [e] at hz
      have : 2 * z + (kk + n) = 0 := by exact_mod_cast hz
      omega
    · rw [e] at hz
      have : -2 * z + (kk + n) = 0 := by exact_mod_cast hz
      omega
  · intro hp
    have hkr : -1 ≤ kk ∧ kk ≤ 1 := by rcases hkkp with h | h | h <;> omega
    rcases eq_or_eq_neg_of_abs_eq hka with e | e
    · obtain ⟨z, hz⟩ : ∃ z, 2 * z = -(kk + n) := ⟨-(kk + n) / 2, by omega⟩
      have hzq : 2 * (z : ℚ) = -((kk : ℚ) + n) := by exact_mod_cast hz
      obtain ⟨i1, i2⟩ := inb z (by omega) (by
        rw [if_pos (by rw [e]; norm_num), if_pos (by rw [e]; norm_num), hzq]
        exact ⟨by linarith [hbounds.2], by linarith [hbounds.1]⟩)
      refine ⟨z, i1, i2, ?_⟩
      rw [hH, e, hzq]; ring
    · obtain ⟨z, hz⟩ : ∃ z, 2 * z = kk + n := ⟨(kk + n) / 2, by omega⟩
      have hzq : 2 * (z : ℚ) = (kk : ℚ) + n := by exact_mod_cast hz
      obtain ⟨i1, i2⟩ := inb z (by omega) (by
        rw [if_neg (by rw [e]; norm_num), if_neg (by rw [e]; norm_num), hzq]
        exact hbounds)
      refine ⟨z, i1, i2, ?_⟩
      rw [hH, e, ← hzq]; ring

/-! Three variables -/

theorem three_equal (x y z : ℤ) (hx : x = 0 ∨ x = 1) (hy : y = 0 ∨ y = 1) (hz : z = 0 ∨ z = 1) :
    (x : ℚ) + y = 2 * z ↔ x = z ∧ y = z := by
  rcases hx with rfl | rfl <;> rcases hy with rfl | rfl <;> rcases hz with rfl | rfl <;> norm_num

theorem perm_of_lengths (ts p q : List (ℕ × ℚ)) (h3 : ts.length = 3) (f g : ℕ × ℚ → Bool)
    (hp : p = ts.filter f) (hq : q = ts.filter g) (hd : ∀ t, ¬ (f t = true ∧ g t = true)) (h2 : p.length = 2)
    (h1 : q.length = 1) : ts.Perm (p ++ q) := by
  have hsub : ∀ l : List (ℕ × ℚ), (∀ t ∈ l, f t = false → g t = true) →
      l.Perm (l.filter f ++ l.filter g) := by
    intro l hl
    induction l with
    | nil => simp
    | cons t l ih =>
      have ih := ih (fun t ht => hl t (List.mem_cons_of_mem _ ht))
      by_cases hf : f t = true
      · have hg : ¬ g t = true := fun h => hd t ⟨hf, h⟩
        rw [List.filter_cons_of_pos hf, List.filter_cons_of_neg hg]
        exact List.Perm.cons _ ih
      · have hg : g t = true := hl t (by simp) (by simpa using hf)
        rw [List.filter_cons_of_neg hf, List.filter_cons_of_pos hg]
        exact (List.Perm.cons _ ih).trans List.perm_middle.symm
  rw [hp, hq]
  apply hsub
  have hlen : ∀ l : List (ℕ × ℚ), (l.filter f).length + (l.filter g).length ≤ l.length ∧
      ((l.filter f).length + (l.filter g).length = l.length → ∀ t ∈ l, f t = false → g t = true) := by
    intro l
    induction l with
    | nil => simp
    | cons t l ih =>
      obtain ⟨i1, i2⟩ := ih
      by_cases hf : f t = true
      · have hg : ¬ g t = true := fun h => hd t ⟨hf, h⟩
        rw [List.filter_cons_of_pos hf, List.filter_cons_of_neg hg, List.length_cons, List.length_cons]
        refine ⟨by omega, fun e u hu hfu => ?_⟩
        rcases List.mem_cons.1 hu with rfl | hu
        · rw [hf] at hfu; exact absurd hfu (by simp)
        · exact i2 (by omega) u hu hfu
      · by_cases hg : g t = true
        · rw [List.filter_cons_of_neg hf, List.filter_cons_of_pos hg, List.length_cons, List.length_cons]
          refine ⟨by omega, fun e u hu hfu => ?_⟩
          rcases List.mem_cons.1 hu with rfl | hu
          · exact hg
          · exact i2 (by omega) u hu hfu
        · rw [List.filter_cons_of_neg hf, List.filter_cons_of_neg hg, List.length_cons]
          exact ⟨by omega, fun e => by omega⟩
  refine (hlen ts).2 ?_
  rw [← hp, ← hq, h2, h1, h3]

theorem lin_perm {l l' : List (ℕ × ℚ)} (h : l.Perm l') (σ : ℕ → ℤ) : lin l σ = lin l' σ := by
  unfold lin
  exact (h.map _).sum_eq

theorem trinomial_meaning (var : ℕ → Var) (c : Con) (h3 : c.expr.terms.length = 3) (hs : c.sense = .equal)
    (hk : c.expr.const = 0) (r : Result) (hr : trinomial var c.expr.terms = some r) : Meaning var c r.1 r.2 := by
  unfold trinomial at hr
  split at hr
  swap
  · exact absurd hr (by simp)
  rename_i hb
  simp only [] at hr
  have hzo : ∀ σ, ZeroOne var c σ → ∀ v ∈ c.expr.vars, σ v = 0 ∨ σ v = 1 := by
    intro σ h v hv
    obtain ⟨t, ht, rfl⟩ := List.mem_map.1 hv
    refine h t.1 hv ?_
    rcases (isBin_iff _).1 (List.all_eq_true.1 hb t ht) with e | e
    · exact Or.inl e
    · exact Or.inr (Or.inl e)
  have main : ∀ (s : ℚ), (s = 1 ∨ s = -1) → ∀ p q : List (ℕ × ℚ), p = c.expr.terms.filter (fun t => t.2 = s) →
      q = c.expr.terms.filter (fun t => t.2 = -(2 * s)) → p.length = 2 → q.length = 1 →
      Meaning var c .trinomialExclusiveNor (q.head?.map Prod.fst) := by
    intro s hs1 p q hp hq h2 h1
    have hperm := perm_of_lengths c.expr.terms p q h3 _ _ hp hq (by
      rintro t ⟨ha, hb⟩
      simp only [decide_eq_true_eq] at ha hb
      rw [ha] at hb
      rcases hs1 with rfl | rfl <;> norm_num at hb) h2 h1
    obtain ⟨z, hz⟩ := List.length_eq_one_iff.1 h1
    obtain ⟨x, y, hxy⟩ := List.length_eq_two.1 h2
    have hcoef : x.2 = s ∧ y.2 = s ∧ z.2 = -(2 * s) := by
      have e1 : x ∈ p := by rw [hxy]; simp
      have e2 : y ∈ p := by rw [hxy]; simp
      have e3 : z ∈ q := by rw [hz]; simp
      rw [hp] at e1 e2
      rw [hq] at e3
      exact ⟨by simpa using (List.mem_filter.1 e1).2, by simpa using (List.mem_filter.1 e2).2,
        by simpa using (List.mem_filter.1 e3).2⟩
    rw [hxy, hz] at hperm
    have hvp : c.expr.vars.Perm [x.1, y.1, z.1] := by
      have := hperm.map Prod.fst
      unfold Expr.vars
      simpa using this
    refine ⟨x.1, y.1, z.1, hvp, by rw [hz]; rfl, fun σ h => ?_⟩
    have hv := hzo σ h
    have m : ∀ v ∈ [x.1, y.1, z.1], σ v = 0 ∨ σ v = 1 := fun v hv' => hv v (hvp.mem_iff.2 hv')
    rw [← three_equal _ _ _ (m x.1 (by simp)) (m y.1 (by simp)) (m z.1 (by simp)), holds_iff, hs, hk,
      lin_perm hperm]
    simp only [List.cons_append, List.nil_append, lin_cons, lin_nil]
    rw [hcoef.1, hcoef.2.1, hcoef.2.2]
    rcases hs1 with rfl | rfl <;> constructor <;> intro h <;> linarith
  split at hr
  · rename_i h; simp only [Option.some.injEq] at hr; subst hr
    exact main 1 (Or.inl rfl) _ _ rfl (by norm_num) h.1 h.2
  split at hr
  · rename_i h; simp only [Option.some.injEq] at hr; subst hr
    exact main (-1) (Or.inr rfl) _ _ rfl (by norm_num) h.1 h.2
  · exact absurd hr (by simp)

/-! All together -/

theorem general_meaning (var : ℕ → Var) (c : Con) (hw : c.expr.WF) (hf : Fresh var c)
    (hlen : c.expr.terms.length ≤ 1000000000) : Meaning var c (general var c).1 (general var c).2 := by
  unfold general
  cases h1 : setTypes c with
  | some r => exact setTypes_meaning var c hf r h1
  | none =>
    cases h2 : flowTypes var c with
    | some r => exact flowTypes_meaning var c r h2
    | none =>
      cases h3 : boundTypes var c with
      | some r => exact boundTypes_meaning var c hw r h3
      | none =>
        cases h4 : knapsackTypes var c with
        | some r => exact knapsackTypes_meaning var c hw r h4
        | none =>
          cases h5 : gf2Type var c with
          | some r => exact gf2Type_meaning var c hw hlen r h5
          | none => trivial

theorem classify_meaning (var : ℕ → Var) (lt : ℕ → ℕ → Bool) (c : Con) (hw : c.expr.WF) (hf : Fresh var c)
    (hlen : c.expr.terms.length ≤ 1000000000) (hnz : ∀ t ∈ c.expr.terms, t.2 ≠ 0)
    (hk : (classify var lt c).1 = .trinomialExclusiveNor → c.expr.const = 0) :
    Meaning var c (classify var lt c).1 (classify var lt c).2 := by
  have hg := general_meaning var c hw hf hlen
  unfold classify at hk ⊢
  split
  · rename_i t ht
    exact ⟨t.1, by unfold Expr.vars; rw [ht]; rfl⟩
  · rename_i t u ht
    have hne : t.1 ≠ u.1 := by
      have := hw; unfold Expr.WF Expr.vars at this; rw [ht] at this; simpa using this
    split
    · split
      · exact pairEqual_meaning var lt c t.1 t.2 u.1 u.2 hne ht ‹_›
      · exact pairInequality_meaning var c t.1 t.2 u.1 u.2 (hnz t (by rw [ht]; simp)) hne ht ‹_›
    · exact hg
  · rename_i t u w ht
    rw [ht] at hk
    simp only [] at hk
    split
    · rename_i h
      rw [if_pos h] at hk
      cases h1 : trinomial var [t, u, w] with
      | some r =>
        rw [h1] at hk
        have hty : r.1 = .trinomialExclusiveNor := by
          unfold trinomial at h1
          split at h1
          · simp only [] at h1
            split at h1
            · simp only [Option.some.injEq] at h1; rw [← h1]
            · split at h1
              · simp only [Option.some.injEq] at h1; rw [← h1]
              · exact absurd h1 (by simp)
          · exact absurd h1 (by simp)
        exact trinomial_meaning var c (by rw [ht]; rfl) h.1 (hk hty) r (by rw [ht]; exact h1)
      | none => exact hg
    · exact hg
  · exact hg

end Printemps.ConType
