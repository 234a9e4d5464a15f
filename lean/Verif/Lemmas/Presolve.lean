import Verif.Spec.Feasible
import Verif.Model.Presolve
import Verif.Props.C03

/-! Helper lemmas about the presolve model. -/

namespace Printemps.Presolve
open Spec Expr

theorem inBounds_respects (var : ℕ → Var) (σ : ℕ → ℤ) :
    C03.Respects (boxes var) σ ↔ InBounds var σ := Iff.rfl

theorem exprValue_eq (e : Expr) (σ : ℕ → ℤ) : exprValue e σ = e.evaluate σ := by
  rw [evaluate_eq]; rfl

instance (k : Cmp) (a b : ℚ) : Decidable (k.holds a b) := by
  cases k <;> unfold Cmp.holds <;> infer_instance

instance (c : Con) (σ : ℕ → ℤ) : Decidable (Holds c σ) := by unfold Holds; infer_instance

instance (v : Var) (x : ℤ) : Decidable (Admits v x) := by unfold Admits; infer_instance

/-- Does an outcome satisfy a test? (for concrete evaluations) -/
def test {α : Type} (o : Outcome α) (p : α → Bool) : Bool :=
  match o with
  | .ok a => p a
  | _ => false

theorem test_ok {α : Type} {o : Outcome α} {p : α → Bool} (h : test o p = true) : ∃ a, o = .ok a ∧ p a = true := by
  cases o with
  | ok a => exact ⟨a, rfl, h⟩
  | thrown => exact absurd h (by simp [test])
  | undefined => exact absurd h (by simp [test])

/-- Is an outcome undefined behaviour? (for concrete evaluations) -/
def isUndefined {α : Type} (o : Outcome α) : Bool :=
  match o with
  | .undefined => true
  | _ => false

theorem isUndefined_eq {α : Type} {o : Outcome α} (h : isUndefined o = true) : o = .undefined := by
  cases o <;> simp [isUndefined] at h ⊢

theorem exprValue_update (e : Expr) (h : e.WF) (σ : ℕ → ℤ) (v : ℕ) (a : ℚ) (hv : (v, a) ∈ e.terms) (x : ℤ) :
    exprValue e (Function.update σ v x) = exprValue e σ + a * ((x : ℚ) - σ v) := by
  rw [exprValue_eq, exprValue_eq, evaluate_eq, evaluate_eq, lin_update _ h, lookup_of_mem _ h v a hv]
  push_cast; ring

/-- Value of the expression with one unfixed variable pushed to one of its bounds. -/
theorem value_pushed_le (e : Expr) (h : e.WF) (var : ℕ → Var) (σ : ℕ → ℤ) (hb : InBounds var σ) (v : ℕ)
    (a : ℚ) (hv : (v, a) ∈ e.terms) (hf : (var v).fixed = false) (x : ℤ) (h1 : (var v).lb ≤ x)
    (h2 : x ≤ (var v).ub) :
    exprValue e σ + a * ((x : ℚ) - σ v) ≤ e.upperBound (boxes var) ∧
    e.lowerBound (boxes var) ≤ exprValue e σ + a * ((x : ℚ) - σ v) := by
  rw [← exprValue_update e h σ v a hv x, exprValue_eq]
  have : InBounds var (Function.update σ v x) := by
    intro w
    by_cases hw : w = v
    · subst hw
      rw [Function.update_self]
      exact ⟨fun hh => by rw [hf] at hh; exact absurd hh (by simp), fun _ => ⟨h1, h2⟩⟩
    · rw [Function.update_of_ne hw]; exact hb w
  have := C03.bounds_enclose e (boxes var) _ ((inBounds_respects _ _).2 this)
  exact ⟨this.2, this.1⟩

/-! ### `set_bound` on an unfixed variable -/

theorem setBound_ok (v : Var) (l u : ℤ) (h : l ≤ u) :
    ∃ w, v.setBound l u = some w ∧ w.lb = l ∧ w.ub = u ∧ w.fixed = v.fixed := by
  refine ⟨_, by rw [Var.setBound, if_neg (by omega)], ?_⟩
  unfold Var.updateMargin Var.setupSense
  split <;> simp

theorem setBound_some (v w : Var) (l u : ℤ) (h : v.setBound l u = some w) :
    l ≤ u ∧ w.lb = l ∧ w.ub = u ∧ w.fixed = v.fixed := by
  by_cases hlu : l ≤ u
  · obtain ⟨w', h1, h2⟩ := setBound_ok v l u hlu
    rw [h] at h1
    cases h1
    exact ⟨hlu, h2⟩
  · rw [Var.setBound, if_pos (by omega)] at h
    exact absurd h (by simp)

theorem raiseLower_spec (v old : Var) (bound x : ℤ) (hx : x ≤ old.ub) (hb : bound ≤ x) :
    ∃ w, raiseLower v old bound = .ok w ∧ w.fixed = v.fixed ∧
      ((bound > old.lb ∧ |bound| < BOUND_LIMIT ∧ w.lb = bound ∧ w.ub = old.ub) ∨
       (¬ (bound > old.lb ∧ |bound| < BOUND_LIMIT) ∧ w = v)) := by
  unfold raiseLower
  split
  · obtain ⟨w, h1, h2, h3, h4⟩ := setBound_ok v bound old.ub (by omega)
    refine ⟨w, by rw [h1]; rfl, h4, Or.inl ⟨by tauto, by tauto, h2, h3⟩⟩
  · exact ⟨v, rfl, rfl, Or.inr ⟨by assumption, rfl⟩⟩

theorem reduceUpper_spec (v old : Var) (bound x : ℤ) (hx : old.lb ≤ x) (hb : x ≤ bound) :
    ∃ w, reduceUpper v old bound = .ok w ∧ w.fixed = v.fixed ∧
      ((bound < old.ub ∧ |bound| < BOUND_LIMIT ∧ w.lb = old.lb ∧ w.ub = bound) ∨
       (¬ (bound < old.ub ∧ |bound| < BOUND_LIMIT) ∧ w = v)) := by
  unfold reduceUpper
  split
  · obtain ⟨w, h1, h2, h3, h4⟩ := setBound_ok v old.lb bound (by omega)
    refine ⟨w, by rw [h1]; rfl, h4, Or.inl ⟨by tauto, by tauto, h2, h3⟩⟩
  · exact ⟨v, rfl, rfl, Or.inr ⟨by assumption, rfl⟩⟩

/-- One variable was tightened around `x`: still unfixed, the new bounds lie inside the old ones and
contain `x`. -/
def Tightened (v w : Var) (x : ℤ) : Prop :=
  w.fixed = v.fixed ∧ v.lb ≤ w.lb ∧ w.ub ≤ v.ub ∧ w.lb ≤ x ∧ x ≤ w.ub

theorem ceil_div_le (q a : ℚ) (ha : 0 < a) (x : ℤ) (h : q ≤ a * x) : ⌈q / a⌉ ≤ x := by
  rw [Int.ceil_le, div_le_iff₀ ha]; linarith

theorem le_floor_div (q a : ℚ) (ha : 0 < a) (x : ℤ) (h : a * x ≤ q) : x ≤ ⌊q / a⌋ := by
  rw [Int.le_floor, le_div_iff₀ ha]; linarith

theorem ceil_div_le_neg (q a : ℚ) (ha : a < 0) (x : ℤ) (h : a * x ≤ q) : ⌈q / a⌉ ≤ x := by
  rw [Int.ceil_le, div_le_iff_of_neg ha]; linarith

theorem le_floor_div_neg (q a : ℚ) (ha : a < 0) (x : ℤ) (h : q ≤ a * x) : x ≤ ⌊q / a⌋ := by
  rw [Int.le_floor, le_div_iff_of_neg ha]; linarith

theorem holds_ge (c : Con) (σ) (h : Holds c σ) (hg : c.isGe = true) : 0 ≤ exprValue c.expr σ := by
  unfold Holds at h
  unfold Con.isGe at hg
  cases hs : c.sense <;> rw [hs] at h hg <;> simp [cmpOf, Cmp.holds] at h hg
  · exact le_of_eq h.symm
  · exact h

theorem holds_le (c : Con) (σ) (h : Holds c σ) (hg : c.isLe = true) : exprValue c.expr σ ≤ 0 := by
  unfold Holds at h
  unfold Con.isLe at hg
  cases hs : c.sense <;> rw [hs] at h hg <;> simp [cmpOf, Cmp.holds] at h hg
  · exact h
  · exact le_of_eq h

theorem tightenPositive_spec (c : Con) (hw : c.expr.WF) (var : ℕ → Var) (σ : ℕ → ℤ) (hb : InBounds var σ)
    (hh : Holds c σ) (v : ℕ) (a : ℚ) (hv : (v, a) ∈ c.expr.terms) (hf : (var v).fixed = false) (ha : 0 < a) :
    ∃ w, tightenPositive c (c.expr.lowerBound (boxes var)) (c.expr.upperBound (boxes var)) a (var v) = .ok w ∧
      Tightened (var v) w (σ v) := by
  obtain ⟨hl, hu⟩ := (hb v).2 hf
  set x := var v with hx
  have e1 := (value_pushed_le c.expr hw var σ hb v a hv hf x.ub (le_trans hl hu) le_rfl).1
  have e2 := (value_pushed_le c.expr hw var σ hb v a hv hf x.lb le_rfl (le_trans hl hu)).2
  unfold tightenPositive
  have s1 : ∃ w, (if c.isGe then raiseLower x x ⌈-(c.expr.upperBound (boxes var) - a * (x.ub : ℚ)) / a⌉
      else .ok x) = .ok w ∧ Tightened x w (σ v) := by
    split
    · have hg := holds_ge c σ hh ‹_›
      obtain ⟨w, h1, h2, h3⟩ := raiseLower_spec x x
        ⌈-(c.expr.upperBound (boxes var) - a * (x.ub : ℚ)) / a⌉ (σ v) hu
        (ceil_div_le _ a ha _ (by linarith))
      refine ⟨w, h1, h2, ?_⟩
      have := ceil_div_le (-(c.expr.upperBound (boxes var) - a * (x.ub : ℚ))) a ha (σ v) (by linarith)
      rcases h3 with ⟨p, _, q, r⟩ | ⟨_, rfl⟩
      · omega
      · omega
    · exact ⟨x, rfl, rfl, le_rfl, le_rfl, hl, hu⟩
  obtain ⟨w, h1, t1⟩ := s1
  rw [h1]
  show ∃ w', (if c.isLe then reduceUpper w x ⌊-(c.expr.lowerBound (boxes var) - a * (x.lb : ℚ)) / a⌋
      else .ok w) = .ok w' ∧ Tightened x w' (σ v)
  split
  · have hg := holds_le c σ hh ‹_›
    have hfl := le_floor_div (-(c.expr.lowerBound (boxes var) - a * (x.lb : ℚ))) a ha (σ v) (by linarith)
    obtain ⟨w', k1, k2, k3⟩ := reduceUpper_spec w x
      ⌊-(c.expr.lowerBound (boxes var) - a * (x.lb : ℚ)) / a⌋ (σ v) hl hfl
    refine ⟨w', k1, k2.trans t1.1, ?_⟩
    rcases k3 with ⟨p, _, q, r⟩ | ⟨_, rfl⟩
    · omega
    · exact t1.2
  · exact ⟨w, rfl, t1⟩

theorem tightenNegative_spec (c : Con) (hw : c.expr.WF) (var : ℕ → Var) (σ : ℕ → ℤ) (hb : InBounds var σ)
    (hh : Holds c σ) (v : ℕ) (a : ℚ) (hv : (v, a) ∈ c.expr.terms) (hf : (var v).fixed = false) (ha : a < 0) :
    ∃ w, tightenNegative c (c.expr.lowerBound (boxes var)) (c.expr.upperBound (boxes var)) a (var v) = .ok w ∧
      Tightened (var v) w (σ v) := by
  obtain ⟨hl, hu⟩ := (hb v).2 hf
  set x := var v with hx
  have e1 := (value_pushed_le c.expr hw var σ hb v a hv hf x.lb le_rfl (le_trans hl hu)).1
  have e2 := (value_pushed_le c.expr hw var σ hb v a hv hf x.ub (le_trans hl hu) le_rfl).2
  unfold tightenNegative
  rw [if_neg (ne_of_lt ha)]
  have s1 : ∃ w, (if c.isGe then reduceUpper x x ⌊-(c.expr.upperBound (boxes var) - a * (x.lb : ℚ)) / a⌋
      else .ok x) = .ok w ∧ Tightened x w (σ v) := by
    split
    · have hg := holds_ge c σ hh ‹_›
      have hfl := le_floor_div_neg (-(c.expr.upperBound (boxes var) - a * (x.lb : ℚ))) a ha (σ v) (by linarith)
      obtain ⟨w, h1, h2, h3⟩ := reduceUpper_spec x x
        ⌊-(c.expr.upperBound (boxes var) - a * (x.lb : ℚ)) / a⌋ (σ v) hl hfl
      refine ⟨w, h1, h2, ?_⟩
      rcases h3 with ⟨p, _, q, r⟩ | ⟨_, rfl⟩
      · omega
      · omega
    · exact ⟨x, rfl, rfl, le_rfl, le_rfl, hl, hu⟩
  obtain ⟨w, h1, t1⟩ := s1
  rw [h1]
  show ∃ w', (if c.isLe then raiseLower w x ⌈-(c.expr.lowerBound (boxes var) - a * (x.ub : ℚ)) / a⌉
      else .ok w) = .ok w' ∧ Tightened x w' (σ v)
  split
  · have hg := holds_le c σ hh ‹_›
    have hfl := ceil_div_le_neg (-(c.expr.lowerBound (boxes var) - a * (x.ub : ℚ))) a ha (σ v) (by linarith)
    obtain ⟨w', k1, k2, k3⟩ := raiseLower_spec w x
      ⌈-(c.expr.lowerBound (boxes var) - a * (x.ub : ℚ)) / a⌉ (σ v) hu hfl
    refine ⟨w', k1, k2.trans t1.1, ?_⟩
    rcases k3 with ⟨p, _, q, r⟩ | ⟨_, rfl⟩
    · omega
    · exact t1.2
  · exact ⟨w, rfl, t1⟩

theorem tightenLoop_spec (f : ℚ → Var → Outcome Var) (σ : ℕ → ℤ) :
    ∀ (ts : List (ℕ × ℚ)) (var : ℕ → Var), (ts.map Prod.fst).Nodup →
      (∀ t ∈ ts, ∃ w, f t.2 (var t.1) = .ok w ∧ Tightened (var t.1) w (σ t.1)) →
      ∃ var', tightenLoop f ts var = .ok var' ∧ (∀ v, v ∉ ts.map Prod.fst → var' v = var v) ∧
        ∀ t ∈ ts, Tightened (var t.1) (var' t.1) (σ t.1) := by
  intro ts
  induction ts with
  | nil => intro var _ _; exact ⟨var, rfl, fun _ _ => rfl, by simp⟩
  | cons t ts ih =>
    intro var hn hf
    obtain ⟨w, h1, h2⟩ := hf t (by simp)
    rw [List.map_cons, List.nodup_cons] at hn
    obtain ⟨var', k1, k2, k3⟩ := ih (Function.update var t.1 w) hn.2 (by
      intro u hu
      have : u.1 ≠ t.1 := fun e => hn.1 (e ▸ List.mem_map_of_mem (f := Prod.fst) hu)
      rw [Function.update_of_ne this]
      exact hf u (List.mem_cons_of_mem _ hu))
    refine ⟨var', ?_, ?_, ?_⟩
    · rw [tightenLoop, h1]; exact k1
    · intro v hv
      rw [List.map_cons, List.mem_cons, not_or] at hv
      rw [k2 v hv.2, Function.update_of_ne hv.1]
    · intro u hu
      rcases List.mem_cons.1 hu with rfl | hu
      · rw [k2 _ hn.1, Function.update_self]; exact h2
      · have : u.1 ≠ t.1 := fun e => hn.1 (e ▸ List.mem_map_of_mem (f := Prod.fst) hu)
        have := k3 u hu
        rwa [Function.update_of_ne (by assumption)] at this

/-- Every variable is unchanged or was tightened around its value in `σ`. -/
def Shrunk (var var' : ℕ → Var) (σ : ℕ → ℤ) : Prop :=
  ∀ v, var' v = var v ∨ ((var v).fixed = false ∧ Tightened (var v) (var' v) (σ v))

theorem Shrunk.inBounds {var var' : ℕ → Var} {σ : ℕ → ℤ} (h : Shrunk var var' σ) (hb : InBounds var σ) :
    InBounds var' σ := by
  intro v
  rcases h v with e | ⟨hf, t⟩
  · rw [e]; exact hb v
  · exact ⟨fun hh => by rw [t.1, hf] at hh; exact absurd hh (by simp), fun _ => ⟨t.2.2.2.1, t.2.2.2.2⟩⟩

theorem Shrunk.back {var var' : ℕ → Var} {σ : ℕ → ℤ} (h : Shrunk var var' σ) (τ : ℕ → ℤ)
    (hb : InBounds var' τ) : InBounds var τ := by
  intro v
  rcases h v with e | ⟨hf, t⟩
  · rw [← e]; exact hb v
  · obtain ⟨h1, h2⟩ := (hb v).2 (t.1.trans hf)
    exact ⟨fun hh => by rw [hf] at hh; exact absurd hh (by simp),
      fun _ => ⟨le_trans t.2.1 h1, le_trans h2 t.2.2.1⟩⟩

/-- The general (not redundant, not singleton) branch of the tightening. -/
def tightenGeneral (c : Con) (var : ℕ → Var) : Outcome ((ℕ → Var) × Bool) :=
  (tightenLoop (tightenPositive c (c.expr.lowerBound (boxes var)) (c.expr.upperBound (boxes var)))
    ((mutableTerms c.expr var).filter (fun t => decide (t.2 > 0))) var).bind fun var1 =>
  (tightenLoop (tightenNegative c (c.expr.lowerBound (boxes var)) (c.expr.upperBound (boxes var)))
    ((mutableTerms c.expr var).filter (fun t => !decide (t.2 > 0))) var1).bind fun var2 =>
    .ok (var2, false)

theorem tightenConstraint_cases (c : Con) (var : ℕ → Var) :
    (isRedundant c var = true ∧ tightenConstraint c var = .ok (var, true)) ∨
    (isRedundant c var = false ∧ ∃ v a, mutableTerms c.expr var = [(v, a)] ∧
      tightenConstraint c var = singleton c var v a) ∨
    (isRedundant c var = false ∧ (mutableTerms c.expr var).length ≠ 1 ∧
      tightenConstraint c var = tightenGeneral c var) := by
  unfold tightenConstraint tightenGeneral
  by_cases hr : isRedundant c var = true
  · left; exact ⟨hr, by rw [if_pos hr]⟩
  · right
    rw [if_neg hr]
    have hr' : isRedundant c var = false := by simpa using hr
    rcases hm : mutableTerms c.expr var with _ | ⟨⟨v, a⟩, _ | ⟨t, ts⟩⟩
    · right; exact ⟨hr', by simp, rfl⟩
    · left; exact ⟨hr', v, a, rfl, rfl⟩
    · right; exact ⟨hr', by simp, rfl⟩

theorem mem_mutableTerms {e : Expr} {var : ℕ → Var} {t : ℕ × ℚ} :
    t ∈ mutableTerms e var ↔ t ∈ e.terms ∧ (var t.1).fixed = false := by
  unfold mutableTerms
  rw [List.mem_filter]
  simp

theorem tightenGeneral_spec (c : Con) (hw : c.expr.WF) (hz : ∀ t ∈ c.expr.terms, t.2 ≠ 0) (var : ℕ → Var)
    (σ : ℕ → ℤ) (hb : InBounds var σ) (hh : Holds c σ) :
    ∃ var', tightenGeneral c var = .ok (var', false) ∧ Shrunk var var' σ := by
  have hn : ((mutableTerms c.expr var).map Prod.fst).Nodup :=
    List.Nodup.sublist ((List.filter_sublist).map _) hw
  have hsub : ∀ p : ℕ × ℚ → Bool, (((mutableTerms c.expr var).filter p).map Prod.fst).Nodup := fun p =>
    List.Nodup.sublist ((List.filter_sublist).map _) hn
  obtain ⟨var1, a1, a2, a3⟩ := tightenLoop_spec
    (tightenPositive c (c.expr.lowerBound (boxes var)) (c.expr.upperBound (boxes var))) σ
    ((mutableTerms c.expr var).filter (fun t => decide (t.2 > 0))) var (hsub _) (by
      intro t ht
      rw [List.mem_filter, mem_mutableTerms] at ht
      exact tightenPositive_spec c hw var σ hb hh t.1 t.2 ht.1.1 ht.1.2 (by simpa using ht.2))
  have hdisj : ∀ t ∈ (mutableTerms c.expr var).filter (fun t => !decide (t.2 > 0)),
      t.1 ∉ ((mutableTerms c.expr var).filter (fun t => decide (t.2 > 0))).map Prod.fst := by
    intro t ht hc
    obtain ⟨u, hu, e⟩ := List.mem_map.1 hc
    rw [List.mem_filter] at ht hu
    have : u = t := by
      have h1 := lookup_of_mem _ hn u.1 u.2 hu.1
      have h2 := lookup_of_mem _ hn t.1 t.2 ht.1
      rw [e, h2] at h1
      exact Prod.ext e h1.symm
    subst this
    have h1 := hu.2
    have h2 := ht.2
    simp only [h1] at h2
    simp at h2
  obtain ⟨var2, b1, b2, b3⟩ := tightenLoop_spec
    (tightenNegative c (c.expr.lowerBound (boxes var)) (c.expr.upperBound (boxes var))) σ
    ((mutableTerms c.expr var).filter (fun t => !decide (t.2 > 0))) var1 (hsub _) (by
      intro t ht
      rw [a2 _ (hdisj t ht)]
      rw [List.mem_filter, mem_mutableTerms] at ht
      refine tightenNegative_spec c hw var σ hb hh t.1 t.2 ht.1.1 ht.1.2 ?_
      have h1 : ¬ t.2 > 0 := by simpa using ht.2
      exact lt_of_le_of_ne (not_lt.1 h1) (hz t ht.1.1))
  refine ⟨var2, ?_, ?_⟩
  · simp only [tightenGeneral, a1, Outcome.bind, b1]
  · intro v
    by_cases h1 : v ∈ ((mutableTerms c.expr var).filter (fun t => !decide (t.2 > 0))).map Prod.fst
    · obtain ⟨t, ht, rfl⟩ := List.mem_map.1 h1
      have := b3 t ht
      rw [a2 _ (hdisj t ht)] at this
      rw [List.mem_filter, mem_mutableTerms] at ht
      exact Or.inr ⟨ht.1.2, this⟩
    · rw [b2 v h1]
      by_cases h2 : v ∈ ((mutableTerms c.expr var).filter (fun t => decide (t.2 > 0))).map Prod.fst
      · obtain ⟨t, ht, rfl⟩ := List.mem_map.1 h2
        have := a3 t ht
        rw [List.mem_filter, mem_mutableTerms] at ht
        exact Or.inr ⟨ht.1.2, this⟩
      · exact Or.inl (a2 v h2)

/-! ### Redundancy -/

theorem isRedundant_holds (c : Con) (var : ℕ → Var) (h : isRedundant c var = true) (σ : ℕ → ℤ)
    (hb : InBounds var σ) : Holds c σ := by
  obtain ⟨h1, h2⟩ := C03.bounds_enclose c.expr (boxes var) σ ((inBounds_respects _ _).2 hb)
  rw [← exprValue_eq] at h1 h2
  unfold isRedundant at h
  unfold Holds
  cases hs : c.sense <;> rw [hs] at h <;> simp [cmpOf, Cmp.holds] at h ⊢
  · exact le_trans h2 h
  · rw [h.1] at h1
    rw [h.2] at h2
    exact le_antisymm h2 h1
  · exact le_trans h h1

/-! ### Singletons -/

/-- A rational number that is an integer. -/
def IsInt (q : ℚ) : Prop := ∃ k : ℤ, q = k

theorem truncQ_int (k : ℤ) : truncQ (k : ℚ) = k := by
  unfold truncQ
  split <;> simp

theorem fixedTerm_foldl (ts : List (ℕ × ℚ)) (b : ℕ → Box)
    (h : ∀ t ∈ ts, (b t.1).fixed = true → IsInt (t.2 * ((b t.1).value : ℚ))) (acc : ℤ) :
    ((ts.foldl (fun (acc : ℤ) t =>
      if (b t.1).fixed then truncQ ((acc : ℚ) + t.2 * ((b t.1).value : ℚ)) else acc) acc : ℤ) : ℚ)
    = acc + ((ts.filter (fun t => (b t.1).fixed)).map (fun t => t.2 * ((b t.1).value : ℚ))).sum := by
  induction ts generalizing acc with
  | nil => simp
  | cons t ts ih =>
    have ih := ih (fun u hu => h u (List.mem_cons_of_mem _ hu))
    rw [List.foldl_cons, List.filter_cons]
    by_cases hf : (b t.1).fixed = true
    · obtain ⟨k, hk⟩ := h t (by simp) hf
      rw [if_pos hf, ih, if_pos hf, List.map_cons, List.sum_cons, hk, ← Int.cast_add, truncQ_int]
      push_cast; ring
    · rw [if_neg hf, if_neg hf, ih]

theorem exprValue_split (e : Expr) (var : ℕ → Var) (σ : ℕ → ℤ) (hb : InBounds var σ)
    (hi : ∀ t ∈ e.terms, (var t.1).fixed = true → IsInt (t.2 * ((var t.1).value : ℚ))) :
    exprValue e σ = e.const + e.fixedTermValue (boxes var) +
      ((mutableTerms e var).map (fun t => t.2 * (σ t.1 : ℚ))).sum := by
  unfold exprValue fixedTermValue mutableTerms
  rw [fixedTerm_foldl e.terms (boxes var) hi 0]
  have : ∀ ts : List (ℕ × ℚ), (ts.map (fun t => t.2 * (σ t.1 : ℚ))).sum
      = ((ts.filter (fun t => (boxes var t.1).fixed)).map
          (fun t => t.2 * ((boxes var t.1).value : ℚ))).sum
        + ((ts.filter (fun t => !(var t.1).fixed)).map (fun t => t.2 * (σ t.1 : ℚ))).sum := by
    intro ts
    induction ts with
    | nil => simp
    | cons t ts ih =>
      rw [List.map_cons, List.sum_cons, ih, List.filter_cons, List.filter_cons]
      by_cases hf : (var t.1).fixed = true
      · have : (boxes var t.1).fixed = true := hf
        rw [if_pos this, if_neg (by simp [hf]), List.map_cons, List.sum_cons, (hb t.1).1 hf]
        show t.2 * ((var t.1).value : ℚ) + _ = _
        show _ = t.2 * ((var t.1).value : ℚ) + _ + _
        ring
      · have h2 : ¬ (boxes var t.1).fixed = true := hf
        rw [if_neg h2, if_pos (by simpa using hf), List.map_cons, List.sum_cons]
        ring
  rw [this]
  push_cast
  ring

theorem exprValue_singleton (e : Expr) (var : ℕ → Var) (σ : ℕ → ℤ) (hb : InBounds var σ)
    (hi : ∀ t ∈ e.terms, (var t.1).fixed = true → IsInt (t.2 * ((var t.1).value : ℚ))) (v : ℕ) (a : ℚ)
    (hm : mutableTerms e var = [(v, a)]) :
    exprValue e σ = a * σ v + (e.fixedTermValue (boxes var) + e.const) := by
  rw [exprValue_split e var σ hb hi, hm]
  simp
  ring

theorem inBounds_update (var : ℕ → Var) (σ : ℕ → ℤ) (v : ℕ) (w : Var) (hb : InBounds var σ)
    (hw : Admits w (σ v)) : InBounds (Function.update var v w) σ := by
  intro u
  by_cases hu : u = v
  · subst hu; rw [Function.update_self]; exact hw
  · rw [Function.update_of_ne hu]; exact hb u

theorem shrunk_update (var : ℕ → Var) (σ : ℕ → ℤ) (v : ℕ) (w : Var) (hf : (var v).fixed = false)
    (hw : Tightened (var v) w (σ v)) : Shrunk var (Function.update var v w) σ := by
  intro u
  by_cases hu : u = v
  · subst hu; rw [Function.update_self]; exact Or.inr ⟨hf, hw⟩
  · rw [Function.update_of_ne hu]; exact Or.inl rfl

/-- The number the singleton branch compares with: `-(fixed terms + constant) / coefficient`. -/
def singletonBound (c : Con) (var : ℕ → Var) (a : ℚ) : ℚ :=
  -(c.expr.fixedTermValue (boxes var) + c.expr.const) / a

/-- The cases in which the singleton branch loses nothing and gains nothing: for an equality the
quotient is an integer within the bounds; for an inequality a bound that would be tightened is smaller
than `BOUND_LIMIT`. -/
def SingletonOK (c : Con) (var : ℕ → Var) (v : ℕ) (a : ℚ) : Prop :=
  match c.sense with
  | .equal => ∃ k : ℤ, singletonBound c var a = k ∧ (var v).lb ≤ k ∧ k ≤ (var v).ub
  | .less => if a > 0 then (⌊singletonBound c var a⌋ < (var v).ub → |⌊singletonBound c var a⌋| < BOUND_LIMIT)
      else ((var v).lb < ⌈singletonBound c var a⌉ → |⌈singletonBound c var a⌉| < BOUND_LIMIT)
  | .greater => if a < 0 then (⌊singletonBound c var a⌋ < (var v).ub → |⌊singletonBound c var a⌋| < BOUND_LIMIT)
      else ((var v).lb < ⌈singletonBound c var a⌉ → |⌈singletonBound c var a⌉| < BOUND_LIMIT)

theorem bind_ok {α β : Type} {o : Outcome α} {f : α → Outcome β} {b : β} (h : o.bind f = .ok b) :
    ∃ a, o = .ok a ∧ f a = .ok b := by
  cases o with
  | ok a => exact ⟨a, rfl, h⟩
  | thrown => exact absurd h (by simp [Outcome.bind])
  | undefined => exact absurd h (by simp [Outcome.bind])

theorem reduceUpper_ok (v w : Var) (k : ℤ) (h : reduceUpper v v k = .ok w)
    (hl : k < v.ub → |k| < BOUND_LIMIT) : w.fixed = v.fixed ∧ w.lb = v.lb ∧ w.ub = min v.ub k := by
  unfold reduceUpper at h
  split at h
  · rename_i hc
    cases hs : v.setBound v.lb k with
    | none => rw [hs] at h; exact absurd h (by simp [Outcome.ofOption])
    | some w' =>
      rw [hs] at h
      cases h
      obtain ⟨_, h2, h3, h4⟩ := setBound_some _ _ _ _ hs
      exact ⟨h4, h2, by rw [h3, min_eq_right (le_of_lt hc.1)]⟩
  · rename_i hc
    cases h
    refine ⟨rfl, rfl, (min_eq_left ?_).symm⟩
    by_contra hlt
    exact hc ⟨not_le.1 hlt, hl (not_le.1 hlt)⟩

theorem raiseLower_ok (v w : Var) (k : ℤ) (h : raiseLower v v k = .ok w)
    (hl : v.lb < k → |k| < BOUND_LIMIT) : w.fixed = v.fixed ∧ w.ub = v.ub ∧ w.lb = max v.lb k := by
  unfold raiseLower at h
  split at h
  · rename_i hc
    cases hs : v.setBound k v.ub with
    | none => rw [hs] at h; exact absurd h (by simp [Outcome.ofOption])
    | some w' =>
      rw [hs] at h
      cases h
      obtain ⟨_, h2, h3, h4⟩ := setBound_some _ _ _ _ hs
      exact ⟨h4, h3, by rw [h2, max_eq_right (le_of_lt hc.1)]⟩
  · rename_i hc
    cases h
    refine ⟨rfl, rfl, (max_eq_left ?_).symm⟩
    by_contra hlt
    exact hc ⟨not_le.1 hlt, hl (not_le.1 hlt)⟩

theorem admits_min (v w : Var) (k x : ℤ) (hf : v.fixed = false)
    (h : w.fixed = v.fixed ∧ w.lb = v.lb ∧ w.ub = min v.ub k) :
    Admits w x ↔ Admits v x ∧ x ≤ k := by
  obtain ⟨h1, h2, h3⟩ := h
  unfold Admits
  rw [h1, hf, h2, h3]
  simp only [le_min_iff]
  constructor
  · rintro ⟨_, h⟩
    have := h trivial
    exact ⟨⟨by simp, fun _ => ⟨this.1, this.2.1⟩⟩, this.2.2⟩
  · rintro ⟨⟨_, h⟩, h'⟩
    have := h trivial
    exact ⟨by simp, fun _ => ⟨this.1, this.2, h'⟩⟩

theorem admits_max (v w : Var) (k x : ℤ) (hf : v.fixed = false)
    (h : w.fixed = v.fixed ∧ w.ub = v.ub ∧ w.lb = max v.lb k) :
    Admits w x ↔ Admits v x ∧ k ≤ x := by
  obtain ⟨h1, h2, h3⟩ := h
  unfold Admits
  rw [h1, hf, h2, h3]
  simp only [max_le_iff]
  constructor
  · rintro ⟨_, h⟩
    have := h trivial
    exact ⟨⟨by simp, fun _ => ⟨this.1.1, this.2⟩⟩, this.1.2⟩
  · rintro ⟨⟨_, h⟩, h'⟩
    have := h trivial
    exact ⟨by simp, fun _ => ⟨⟨this.1, h'⟩, this.2⟩⟩

theorem le_iff_floor (a b : ℚ) (ha : 0 < a) (x : ℤ) : a * x + b ≤ 0 ↔ x ≤ ⌊-b / a⌋ := by
  rw [Int.le_floor, le_div_iff₀ ha]; constructor <;> intro h <;> linarith

theorem ge_iff_ceil (a b : ℚ) (ha : 0 < a) (x : ℤ) : 0 ≤ a * x + b ↔ ⌈-b / a⌉ ≤ x := by
  rw [Int.ceil_le, div_le_iff₀ ha]; constructor <;> intro h <;> linarith

theorem le_iff_ceil_neg (a b : ℚ) (ha : a < 0) (x : ℤ) : a * x + b ≤ 0 ↔ ⌈-b / a⌉ ≤ x := by
  rw [Int.ceil_le, div_le_iff_of_neg ha]; constructor <;> intro h <;> linarith

theorem ge_iff_floor_neg (a b : ℚ) (ha : a < 0) (x : ℤ) : 0 ≤ a * x + b ↔ x ≤ ⌊-b / a⌋ := by
  rw [Int.le_floor, le_div_iff_of_neg ha]; constructor <;> intro h <;> linarith

/-- The singleton branch is exact in the good cases. -/
theorem singleton_exact (c : Con) (var var' : ℕ → Var) (v : ℕ) (a : ℚ) (d : Bool)
    (hf : (var v).fixed = false) (hr : singleton c var v a = .ok (var', d)) (ha : a ≠ 0)
    (hok : SingletonOK c var v a) :
    d = true ∧ (∀ u, u ≠ v → var' u = var u) ∧
    ∀ x : ℤ, Admits (var' v) x ↔ Admits (var v) x ∧
      (cmpOf c.sense).holds (a * x + (c.expr.fixedTermValue (boxes var) + c.expr.const)) 0 := by
  unfold singleton at hr
  unfold SingletonOK at hok
  have hupd : ∀ w u, u ≠ v → Function.update var v w u = var u := fun w u hu => Function.update_of_ne hu _ _
  cases hs : c.sense
  · rw [hs] at hr hok
    simp only [] at hr hok
    by_cases hp : a > 0
    · rw [if_pos hp] at hr hok
      obtain ⟨w, h1, h2⟩ := bind_ok hr
      cases h2
      refine ⟨rfl, hupd w, fun x => ?_⟩
      rw [Function.update_self, admits_min _ _ _ x hf (reduceUpper_ok _ _ _ h1 hok)]
      exact and_congr Iff.rfl (le_iff_floor a _ hp x).symm
    · have hn : a < 0 := lt_of_le_of_ne (not_lt.1 hp) ha
      rw [if_neg hp] at hr hok
      rw [if_pos hn] at hr
      obtain ⟨w, h1, h2⟩ := bind_ok hr
      cases h2
      refine ⟨rfl, hupd w, fun x => ?_⟩
      rw [Function.update_self, admits_max _ _ _ x hf (raiseLower_ok _ _ _ h1 hok)]
      exact and_congr Iff.rfl (le_iff_ceil_neg a _ hn x).symm
  · rw [hs] at hr hok
    simp only [] at hr hok
    rw [if_neg ha] at hr
    cases hr
    obtain ⟨k, hk, hl, hu⟩ := hok
    refine ⟨rfl, hupd _, fun x => ?_⟩
    rw [Function.update_self]
    have hk' : -(c.expr.fixedTermValue (boxes var) + c.expr.const) / a = k := hk
    rw [hk', truncQ_int]
    have h3 : a * x + (c.expr.fixedTermValue (boxes var) + c.expr.const) = a * ((x : ℚ) - k) := by
      rw [← hk']; field_simp; ring
    have h4 : Admits ((var v).fixBy k) x ↔ x = k := by
      simp [Admits, Var.fixBy, Var.updateMargin]
    have h5 : Admits (var v) x ↔ (var v).lb ≤ x ∧ x ≤ (var v).ub := by
      simp [Admits, hf]
    rw [h4, h5, h3]
    simp only [cmpOf, Cmp.holds, mul_eq_zero, ha, false_or, sub_eq_zero]
    constructor
    · rintro rfl; exact ⟨⟨hl, hu⟩, rfl⟩
    · rintro ⟨_, h⟩; exact_mod_cast h
  · rw [hs] at hr hok
    simp only [] at hr hok
    by_cases hn : a < 0
    · rw [if_pos hn] at hr hok
      obtain ⟨w, h1, h2⟩ := bind_ok hr
      cases h2
      refine ⟨rfl, hupd w, fun x => ?_⟩
      rw [Function.update_self, admits_min _ _ _ x hf (reduceUpper_ok _ _ _ h1 hok)]
      exact and_congr Iff.rfl (ge_iff_floor_neg a _ hn x).symm
    · have hp : a > 0 := lt_of_le_of_ne (not_lt.1 hn) (Ne.symm ha)
      rw [if_neg hn] at hr hok
      rw [if_pos hp] at hr
      obtain ⟨w, h1, h2⟩ := bind_ok hr
      cases h2
      refine ⟨rfl, hupd w, fun x => ?_⟩
      rw [Function.update_self, admits_max _ _ _ x hf (raiseLower_ok _ _ _ h1 hok)]
      exact and_congr Iff.rfl (ge_iff_ceil a _ hp x).symm

/-- A satisfying value in the bounds survives the singleton branch, which always ends normally. -/
theorem singleton_keeps (c : Con) (var : ℕ → Var) (v : ℕ) (a : ℚ) (hf : (var v).fixed = false) (ha : a ≠ 0)
    (x : ℤ) (hx : Admits (var v) x)
    (hh : (cmpOf c.sense).holds (a * x + (c.expr.fixedTermValue (boxes var) + c.expr.const)) 0) :
    ∃ w, singleton c var v a = .ok (Function.update var v w, true) ∧ Admits w x := by
  obtain ⟨hl, hu⟩ := hx.2 hf
  have adm : ∀ w : Var, w.fixed = (var v).fixed → w.lb ≤ x → x ≤ w.ub → Admits w x := fun w h1 h2 h3 =>
    ⟨fun h => by rw [h1, hf] at h; exact absurd h (by simp), fun _ => ⟨h2, h3⟩⟩
  unfold singleton
  cases hs : c.sense <;> rw [hs] at hh <;> simp only [] <;> simp only [cmpOf, Cmp.holds] at hh
  · by_cases hp : a > 0
    · rw [if_pos hp]
      obtain ⟨w, h1, h2, h3⟩ := reduceUpper_spec (var v) (var v) _ x hl ((le_iff_floor a _ hp x).1 hh)
      refine ⟨w, by rw [h1]; rfl, ?_⟩
      have := (le_iff_floor a _ hp x).1 hh
      rcases h3 with ⟨_, _, q, r⟩ | ⟨_, rfl⟩
      · exact adm w h2 (by omega) (by omega)
      · exact hx
    · have hn : a < 0 := lt_of_le_of_ne (not_lt.1 hp) ha
      rw [if_neg hp, if_pos hn]
      obtain ⟨w, h1, h2, h3⟩ := raiseLower_spec (var v) (var v) _ x hu ((le_iff_ceil_neg a _ hn x).1 hh)
      refine ⟨w, by rw [h1]; rfl, ?_⟩
      have := (le_iff_ceil_neg a _ hn x).1 hh
      rcases h3 with ⟨_, _, q, r⟩ | ⟨_, rfl⟩
      · exact adm w h2 (by omega) (by omega)
      · exact hx
  · rw [if_neg ha]
    refine ⟨_, rfl, ?_⟩
    have : -(c.expr.fixedTermValue (boxes var) + c.expr.const) / a = x := by
      rw [div_eq_iff ha]; linarith
    rw [this, truncQ_int]
    simp [Admits, Var.fixBy, Var.updateMargin]
  · by_cases hn : a < 0
    · rw [if_pos hn]
      obtain ⟨w, h1, h2, h3⟩ := reduceUpper_spec (var v) (var v) _ x hl ((ge_iff_floor_neg a _ hn x).1 hh)
      refine ⟨w, by rw [h1]; rfl, ?_⟩
      have := (ge_iff_floor_neg a _ hn x).1 hh
      rcases h3 with ⟨_, _, q, r⟩ | ⟨_, rfl⟩
      · exact adm w h2 (by omega) (by omega)
      · exact hx
    · have hp : a > 0 := lt_of_le_of_ne (not_lt.1 hn) (Ne.symm ha)
      rw [if_neg hn, if_pos hp]
      obtain ⟨w, h1, h2, h3⟩ := raiseLower_spec (var v) (var v) _ x hu ((ge_iff_ceil a _ hp x).1 hh)
      refine ⟨w, by rw [h1]; rfl, ?_⟩
      have := (ge_iff_ceil a _ hp x).1 hh
      rcases h3 with ⟨_, _, q, r⟩ | ⟨_, rfl⟩
      · exact adm w h2 (by omega) (by omega)
      · exact hx

/-- Bounds of unfixed variables are smaller than `BOUND_LIMIT` in size. -/
def Small (var : ℕ → Var) : Prop :=
  ∀ v, (var v).fixed = false → -BOUND_LIMIT < (var v).lb ∧ (var v).ub < BOUND_LIMIT

/-- With a satisfying value and small bounds every singleton is a good case. -/
theorem singletonOK_of_witness (c : Con) (var : ℕ → Var) (v : ℕ) (a : ℚ) (hf : (var v).fixed = false)
    (ha : a ≠ 0) (hs : Small var) (x : ℤ) (hx : Admits (var v) x)
    (hh : (cmpOf c.sense).holds (a * x + (c.expr.fixedTermValue (boxes var) + c.expr.const)) 0) :
    SingletonOK c var v a := by
  obtain ⟨hl, hu⟩ := hx.2 hf
  obtain ⟨sl, su⟩ := hs v hf
  have habs : ∀ k : ℤ, -BOUND_LIMIT < k → k < BOUND_LIMIT → |k| < BOUND_LIMIT := fun k h1 h2 =>
    abs_lt.2 ⟨h1, h2⟩
  unfold SingletonOK
  unfold singletonBound
  cases hs : c.sense <;> rw [hs] at hh <;> simp only [] <;> simp only [cmpOf, Cmp.holds] at hh
  · by_cases hp : a > 0
    · rw [if_pos hp]
      have := (le_iff_floor a _ hp x).1 hh
      exact fun h => habs _ (by omega) (by omega)
    · have hn : a < 0 := lt_of_le_of_ne (not_lt.1 hp) ha
      rw [if_neg hp]
      have := (le_iff_ceil_neg a _ hn x).1 hh
      exact fun h => habs _ (by omega) (by omega)
  · refine ⟨x, ?_, hl, hu⟩
    rw [div_eq_iff ha]; linarith
  · by_cases hn : a < 0
    · rw [if_pos hn]
      have := (ge_iff_floor_neg a _ hn x).1 hh
      exact fun h => habs _ (by omega) (by omega)
    · have hp : a > 0 := lt_of_le_of_ne (not_lt.1 hn) (Ne.symm ha)
      rw [if_neg hn]
      have := (ge_iff_ceil a _ hp x).1 hh
      exact fun h => habs _ (by omega) (by omega)

end Printemps.Presolve
