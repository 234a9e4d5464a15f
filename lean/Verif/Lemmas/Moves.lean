import Verif.Model.Moves
import Verif.Spec.Move
import Verif.Lemmas.ConstraintType

/-! Helper lemmas about the moves made from constraints. -/

namespace Printemps.Moves
open Spec ConType Expr Presolve

/-- The classes of constraints with two variables that have their own moves. -/
def isPair : ConType → Bool
  | .exclusiveOr | .exclusiveNor | .invertedIntegers | .balancedIntegers | .constantSum | .constantDifference
  | .constantRatio | .aggregation | .precedence | .variableBound => true
  | _ => false

/-- Coefficients `a`, `b`, constant `k` and sense of a constraint of a class for two variables. -/
def Shape (t : ConType) (key : Option ℕ) (x : ℕ) (a : ℚ) (y : ℕ) (b k : ℚ) (s : Sense) : Prop :=
  match t with
  | .exclusiveOr => s = .equal ∧ ((a = 1 ∧ b = 1 ∧ k = -1) ∨ (a = -1 ∧ b = -1 ∧ k = 1))
  | .exclusiveNor => s = .equal ∧ k = 0 ∧ ((a = 1 ∧ b = -1) ∨ (a = -1 ∧ b = 1))
  | .invertedIntegers => s = .equal ∧ k = 0 ∧ ((a = 1 ∧ b = 1) ∨ (a = -1 ∧ b = -1))
  | .balancedIntegers => s = .equal ∧ k = 0 ∧ ((a = 1 ∧ b = -1) ∨ (a = -1 ∧ b = 1))
  | .constantSum => s = .equal ∧ k ≠ 0 ∧ ((a = 1 ∧ b = 1) ∨ (a = -1 ∧ b = -1))
  | .constantDifference => s = .equal ∧ k ≠ 0 ∧ ((a = 1 ∧ b = -1) ∨ (a = -1 ∧ b = 1))
  | .constantRatio => s = .equal ∧ k = 0 ∧ ((key = some x ∧ |a| = 1 ∧ |b| ≠ 1) ∨ (key = some y ∧ |b| = 1 ∧ |a| ≠ 1))
  | .aggregation => s = .equal
  | .precedence => s ≠ .equal ∧ a = -b
  | .variableBound => s ≠ .equal
  | _ => True

theorem Shape.swap {t : ConType} {key : Option ℕ} {x : ℕ} {a : ℚ} {y : ℕ} {b k : ℚ} {s : Sense}
    (h : Shape t key x a y b k s) : Shape t key y b x a k s := by
  unfold Shape at h ⊢
  cases t <;> simp only [] at h ⊢ <;> first | trivial | tauto | skip
  exact ⟨h.1, by linarith [h.2]⟩

theorem pairEqual_shape (var : ℕ → Var) (lt : ℕ → ℕ → Bool) (c : Con) (x : ℕ) (a : ℚ) (y : ℕ) (b : ℚ)
    (hs : c.sense = .equal) :
    Shape (pairEqual var lt c x a y b).1 (pairEqual var lt c x a y b).2 x a y b c.expr.const c.sense := by
  unfold pairEqual
  split
  · rename_i r h
    unfold pairBinary at h
    split at h
    swap
    · exact absurd h (by simp)
    split at h
    · rename_i e; rw [Option.some.injEq] at h; subst h; exact ⟨hs, Or.inl e⟩
    split at h
    · rename_i e; rw [Option.some.injEq] at h; subst h; exact ⟨hs, Or.inr e⟩
    split at h
    · rename_i e; rw [Option.some.injEq] at h; subst h; exact ⟨hs, e.2.2, Or.inl ⟨e.1, e.2.1⟩⟩
    split at h
    · rename_i e; rw [Option.some.injEq] at h; subst h; exact ⟨hs, e.2.2, Or.inr ⟨e.1, e.2.1⟩⟩
    exact absurd h (by simp)
  · split
    · split
      · rename_i r h
        unfold pairUnit at h
        split at h
        · rename_i e; rw [Option.some.injEq] at h; subst h; exact ⟨hs, e.2.2, Or.inl ⟨e.1, e.2.1⟩⟩
        split at h
        · rename_i e; rw [Option.some.injEq] at h; subst h; exact ⟨hs, e.2.2, Or.inr ⟨e.1, e.2.1⟩⟩
        split at h
        · rename_i e; rw [Option.some.injEq] at h; subst h; exact ⟨hs, e.2.2, Or.inl ⟨e.1, e.2.1⟩⟩
        split at h
        · rename_i e; rw [Option.some.injEq] at h; subst h; exact ⟨hs, e.2.2, Or.inr ⟨e.1, e.2.1⟩⟩
        split at h
        · rename_i e; rw [Option.some.injEq] at h; subst h; exact ⟨hs, e.2.2, Or.inl ⟨e.1, e.2.1⟩⟩
        split at h
        · rename_i e; rw [Option.some.injEq] at h; subst h; exact ⟨hs, e.2.2, Or.inr ⟨e.1, e.2.1⟩⟩
        split at h
        · rename_i e; rw [Option.some.injEq] at h; subst h; exact ⟨hs, e.2.2, Or.inl ⟨e.1, e.2.1⟩⟩
        split at h
        · rename_i e; rw [Option.some.injEq] at h; subst h; exact ⟨hs, e.2.2, Or.inr ⟨e.1, e.2.1⟩⟩
        exact absurd h (by simp)
      · split
        · rename_i r h
          unfold pairHalf at h
          split at h
          · rename_i e; rw [Option.some.injEq] at h; subst h; exact ⟨hs, e.2.2, Or.inl ⟨rfl, e.1, e.2.1⟩⟩
          split at h
          · rename_i e; rw [Option.some.injEq] at h; subst h; exact ⟨hs, e.2.2, Or.inr ⟨rfl, e.2.1, e.1⟩⟩
          split at h
          · rw [Option.some.injEq] at h; subst h; trivial
          split at h
          · rw [Option.some.injEq] at h; subst h; trivial
          exact absurd h (by simp)
        · exact hs
    · exact hs

theorem pairInequality_shape (var : ℕ → Var) (c : Con) (x : ℕ) (a : ℚ) (y : ℕ) (b : ℚ) (hs : c.sense ≠ .equal) :
    Shape (pairInequality var x a y b).1 (pairInequality var x a y b).2 x a y b c.expr.const c.sense := by
  unfold pairInequality
  split
  · rename_i h; exact ⟨hs, h.2⟩
  · exact hs

theorem setTypes_pair (c : Con) (r : Result) (h : setTypes c = some r) : isPair r.1 = false := by
  unfold setTypes at h
  split at h
  · split at h
    · rw [Option.some.injEq] at h; subst h; rfl
    split at h
    · rw [Option.some.injEq] at h; subst h; rfl
    split at h
    · rw [Option.some.injEq] at h; subst h; rfl
    split at h
    · rw [Option.some.injEq] at h; subst h; rfl
    split at h
    · rw [Option.some.injEq] at h; subst h; rfl
    split at h
    · rw [Option.some.injEq] at h; subst h; rfl
    exact absurd h (by simp)
  · exact absurd h (by simp)

theorem flowTypes_pair (var : ℕ → Var) (c : Con) (r : Result) (h : flowTypes var c = some r) : isPair r.1 = false := by
  unfold flowTypes at h
  simp only [] at h
  split at h
  · split at h
    · split at h
      · split at h
        · rw [Option.some.injEq] at h; subst h; rfl
        · split at h
          · split at h <;> · rw [Option.some.injEq] at h; subst h; rfl
          · rw [Option.some.injEq] at h; subst h; rfl
      · split at h <;> · rw [Option.some.injEq] at h; subst h; rfl
      · rw [Option.some.injEq] at h; subst h; rfl
    · split at h
      · rw [Option.some.injEq] at h; subst h; rfl
      · exact absurd h (by simp)
  · exact absurd h (by simp)

theorem boundTypes_pair (var : ℕ → Var) (c : Con) (r : Result) (h : boundTypes var c = some r) : isPair r.1 = false := by
  unfold boundTypes at h
  simp only [] at h
  split at h
  · split at h
    · rw [Option.some.injEq] at h; subst h; rfl
    split at h
    · rw [Option.some.injEq] at h; subst h; rfl
    split at h
    · rw [Option.some.injEq] at h; subst h; rfl
    split at h
    · rw [Option.some.injEq] at h; subst h; rfl
    split at h
    · rw [Option.some.injEq] at h; subst h; rfl
    split at h
    · rw [Option.some.injEq] at h; subst h; rfl
    exact absurd h (by simp)
  · exact absurd h (by simp)

theorem knapsackTypes_pair (var : ℕ → Var) (c : Con) (r : Result) (h : knapsackTypes var c = some r) :
    isPair r.1 = false := by
  unfold knapsackTypes at h
  simp only [] at h
  split at h
  · split at h
    · rw [Option.some.injEq] at h; subst h; rfl
    split at h
    · rw [Option.some.injEq] at h; subst h; rfl
    split at h
    · rw [Option.some.injEq] at h; subst h; rfl
    exact absurd h (by simp)
  · split at h
    · rw [Option.some.injEq] at h; subst h; rfl
    exact absurd h (by simp)

theorem gf2Type_pair (var : ℕ → Var) (c : Con) (r : Result) (h : gf2Type var c = some r) : isPair r.1 = false := by
  unfold gf2Type at h
  simp only [] at h
  split at h
  · split at h
    · obtain ⟨_, h⟩ := ite_none_some h
      subst h; rfl
    · exact absurd h (by simp)
  · exact absurd h (by simp)

theorem general_pair (var : ℕ → Var) (c : Con) : isPair (general var c).1 = false := by
  unfold general
  cases h1 : setTypes c with
  | some r => exact setTypes_pair c r h1
  | none =>
    cases h2 : flowTypes var c with
    | some r => exact flowTypes_pair var c r h2
    | none =>
      cases h3 : boundTypes var c with
      | some r => exact boundTypes_pair var c r h3
      | none =>
        cases h4 : knapsackTypes var c with
        | some r => exact knapsackTypes_pair var c r h4
        | none =>
          cases h5 : gf2Type var c with
          | some r => exact gf2Type_pair var c r h5
          | none => rfl

theorem trinomial_type (var : ℕ → Var) (ts : List (ℕ × ℚ)) (r : Result) (h : trinomial var ts = some r) :
    r.1 = .trinomialExclusiveNor := by
  unfold trinomial at h
  split at h
  · simp only [] at h
    split at h
    · rw [Option.some.injEq] at h; rw [← h]
    split at h
    · rw [Option.some.injEq] at h; rw [← h]
    exact absurd h (by simp)
  · exact absurd h (by simp)

/-- A constraint of a class for two variables. -/
theorem classify_shape (var : ℕ → Var) (lt : ℕ → ℕ → Bool) (c : Con) (h : isPair (classify var lt c).1 = true) :
    ∃ t u, c.expr.terms = [t, u] ∧
      Shape (classify var lt c).1 (classify var lt c).2 t.1 t.2 u.1 u.2 c.expr.const c.sense := by
  have hg := general_pair var c
  unfold classify at h ⊢
  split at h
  · exact absurd h (by simp [isPair])
  · rename_i t u ht
    refine ⟨t, u, ht, ?_⟩
    split at h
    · rename_i hf
      rw [if_pos hf]
      split
      · exact pairEqual_shape var lt c _ _ _ _ ‹_›
      · exact pairInequality_shape var c _ _ _ _ ‹_›
    · rw [hg] at h; exact absurd h (by simp)
  · rename_i t u w ht
    split at h
    · cases h1 : trinomial var [t, u, w] with
      | some r =>
        rw [h1, Option.getD_some, trinomial_type var _ r h1] at h
        exact absurd h (by simp [isPair])
      | none => rw [h1, Option.getD_none, hg] at h; exact absurd h (by simp)
    · rw [hg] at h; exact absurd h (by simp)
  · rw [hg] at h; exact absurd h (by simp)

/-- The pair that is made from the constraint. -/
theorem binomial_shape (var : ℕ → Var) (lt : ℕ → ℕ → Bool) (c : Con) (hw : c.expr.WF)
    (h : isPair (classify var lt c).1 = true) :
    ∃ p, binomial c = some p ∧ p.first ≠ p.second ∧ [p.first, p.second].Perm c.expr.vars ∧
      Shape (classify var lt c).1 (classify var lt c).2 p.first p.a p.second p.b p.k p.sense ∧
      p.k = c.expr.const ∧ p.sense = c.sense ∧ (p.first, p.a) ∈ c.expr.terms ∧ (p.second, p.b) ∈ c.expr.terms ∧
      ∀ σ : ℕ → ℤ, Holds c σ ↔ match p.sense with
        | .less => p.k + (p.a * (σ p.first : ℚ) + p.b * (σ p.second : ℚ)) ≤ 0
        | .equal => p.k + (p.a * (σ p.first : ℚ) + p.b * (σ p.second : ℚ)) = 0
        | .greater => p.k + (p.a * (σ p.first : ℚ) + p.b * (σ p.second : ℚ)) ≥ 0 := by
  obtain ⟨t, u, ht, hs⟩ := classify_shape var lt c h
  have hv : c.expr.vars = [t.1, u.1] := by unfold Expr.vars; rw [ht]; rfl
  have hne : t.1 ≠ u.1 := by
    have := hw; unfold Expr.WF at this; rw [hv] at this; simpa using this
  have hl : ∀ σ, lin c.expr.terms σ = t.2 * (σ t.1 : ℚ) + u.2 * (σ u.1 : ℚ) := by
    intro σ; rw [ht]; simp [lin_cons]
  unfold binomial
  rw [ht]
  simp only []
  split
  · refine ⟨_, rfl, Ne.symm hne, by rw [hv]; exact List.Perm.swap _ _ _, hs.swap, rfl, rfl, by simp, by simp,
      fun σ => ?_⟩
    rw [holds_iff, hl, add_comm (t.2 * _)]
    cases c.sense <;> exact Iff.rfl
  · refine ⟨_, rfl, hne, by rw [hv], hs, rfl, rfl, by simp, by simp, fun σ => ?_⟩
    rw [holds_iff, hl]
    cases c.sense <;> exact Iff.rfl

theorem mapM_some {α β : Type} (f : α → Option β) (l : List α) (h : ∀ a ∈ l, ∃ b, f a = some b) :
    ∃ r, l.mapM f = some r := by
  induction l with
  | nil => exact ⟨[], rfl⟩
  | cons a l ih =>
    obtain ⟨b, hb⟩ := h a (by simp)
    obtain ⟨r, hr⟩ := ih (fun x hx => h x (by simp [hx]))
    exact ⟨b :: r, by rw [List.mapM_cons, hb, hr]; rfl⟩

theorem mapM_mem {α β : Type} (f : α → Option β) (l : List α) (r : List β) (h : l.mapM f = some r) (b : β)
    (hb : b ∈ r) : ∃ a ∈ l, f a = some b := by
  induction l generalizing r with
  | nil => rw [List.mapM_nil] at h; cases h; exact absurd hb (by simp)
  | cons a l ih =>
    rw [List.mapM_cons] at h
    cases h1 : f a with
    | none => rw [h1] at h; exact absurd h (by simp)
    | some c =>
      cases h2 : l.mapM f with
      | none => rw [h1, h2] at h; exact absurd h (by simp)
      | some r' =>
        rw [h1, h2] at h
        simp only [Option.pure_def, Option.bind_eq_bind, Option.bind_some, Option.some.injEq] at h
        subst h
        rcases List.mem_cons.1 hb with rfl | hb
        · exact ⟨a, by simp, h1⟩
        · obtain ⟨x, hx, e⟩ := ih r' h2 hb
          exact ⟨x, by simp [hx], e⟩

theorem mapM_mem' {α β : Type} (f : α → Option β) (l : List α) (r : List β) (h : l.mapM f = some r) (a : α)
    (ha : a ∈ l) : ∃ b ∈ r, f a = some b := by
  induction l generalizing r with
  | nil => exact absurd ha (by simp)
  | cons x l ih =>
    rw [List.mapM_cons] at h
    cases h1 : f x with
    | none => rw [h1] at h; exact absurd h (by simp)
    | some c =>
      cases h2 : l.mapM f with
      | none => rw [h1, h2] at h; exact absurd h (by simp)
      | some r' =>
        rw [h1, h2] at h
        simp only [Option.pure_def, Option.bind_eq_bind, Option.bind_some, Option.some.injEq] at h
        subst h
        rcases List.mem_cons.1 ha with rfl | ha
        · exact ⟨c, by simp, h1⟩
        · obtain ⟨b, hb, e⟩ := ih r' h2 ha
          exact ⟨b, by simp [hb], e⟩

/-- Every generated move comes from an enabled constraint of the class without fixed or selection variables. -/
theorem ofModel_mem (m : MState) (lt : ℕ → ℕ → Bool) (val : ℕ → ℤ) (t : ConType) (ms : List (List (ℕ × ℤ)))
    (h : ofModel m lt val t = some ms) (alts : List (ℕ × ℤ)) (ha : alts ∈ ms) :
    ∃ i ∈ m.conIds, (m.con i).enabled = true ∧ (classify m.var lt (m.con i)).1 = t ∧
      (∀ v ∈ (m.con i).expr.vars, (m.var v).fixed = false ∧ (m.var v).sense ≠ .selection) ∧
      ∃ l, ofClass val (classify m.var lt (m.con i)).2 (m.con i) t = some l ∧ alts ∈ l := by
  unfold ofModel at h
  rw [Option.map_eq_some_iff] at h
  obtain ⟨r, hr, rfl⟩ := h
  rw [List.mem_flatten] at ha
  obtain ⟨l, hl, ha⟩ := ha
  obtain ⟨c, hc, e⟩ := mapM_mem _ _ r hr l hl
  unfold effective at hc
  rw [List.mem_filter, List.mem_filter, List.mem_map] at hc
  obtain ⟨⟨⟨i, hi, rfl⟩, ht⟩, hen⟩ := hc
  rw [Bool.and_eq_true, List.all_eq_true] at hen
  refine ⟨i, hi, hen.1, by simpa using ht, fun v hv => ?_, l, e, ha⟩
  unfold Expr.vars at hv
  rw [List.mem_map] at hv
  obtain ⟨t, ht, rfl⟩ := hv
  have := hen.2 t ht
  simpa using this

/-- Every enabled constraint of the class without fixed or selection variables gives its moves. -/
theorem ofModel_complete (m : MState) (lt : ℕ → ℕ → Bool) (val : ℕ → ℤ) (t : ConType) (ms : List (List (ℕ × ℤ)))
    (h : ofModel m lt val t = some ms) (i : ℕ) (hi : i ∈ m.conIds) (he : (m.con i).enabled = true)
    (ht : (classify m.var lt (m.con i)).1 = t)
    (hv : ∀ v ∈ (m.con i).expr.vars, (m.var v).fixed = false ∧ (m.var v).sense ≠ .selection) :
    ∃ l, ofClass val (classify m.var lt (m.con i)).2 (m.con i) t = some l ∧ ∀ a ∈ l, a ∈ ms := by
  unfold ofModel at h
  rw [Option.map_eq_some_iff] at h
  obtain ⟨r, hr, rfl⟩ := h
  have hmem : m.con i ∈ effective m.var (m.conIds.map m.con |>.filter (fun c => (ConType.classify m.var lt c).1 = t)) := by
    unfold effective
    rw [List.mem_filter, List.mem_filter]
    refine ⟨⟨List.mem_map_of_mem hi, by simpa using ht⟩, ?_⟩
    rw [Bool.and_eq_true, List.all_eq_true]
    refine ⟨he, fun x hx => ?_⟩
    have := hv x.1 (by unfold Expr.vars; exact List.mem_map_of_mem hx)
    simp [this.1, this.2]
  obtain ⟨l, hl, e⟩ := mapM_mem' _ _ r hr _ hmem
  exact ⟨l, e, fun a ha => List.mem_flatten.2 ⟨l, hl, ha⟩⟩

theorem ofModel_some (m : MState) (lt : ℕ → ℕ → Bool) (val : ℕ → ℤ) (t : ConType) (ht : isPair t = true)
    (hw : ∀ i ∈ m.conIds, (m.con i).expr.WF) : ∃ ms, ofModel m lt val t = some ms := by
  unfold ofModel
  obtain ⟨r, hr⟩ := mapM_some (fun c => ofClass val (classify m.var lt c).2 c t)
    (effective m.var (m.conIds.map m.con |>.filter (fun c => (ConType.classify m.var lt c).1 = t))) (by
      intro c hc
      unfold effective at hc
      rw [List.mem_filter, List.mem_filter, List.mem_map] at hc
      obtain ⟨⟨⟨i, hi, rfl⟩, e⟩, hen⟩ := hc
      have e : (classify m.var lt (m.con i)).1 = t := by simpa using e
      obtain ⟨p, hp, _⟩ := binomial_shape m.var lt (m.con i) (hw i hi) (by rw [e]; exact ht)
      unfold ofClass
      cases t <;> first | (simp only [hp]; exact ⟨_, rfl⟩) | exact absurd ht (by simp [isPair]))
  exact ⟨_, by rw [hr]; rfl⟩

theorem apply_two (σ : ℕ → ℤ) (x y : ℕ) (u v : ℤ) (h : x ≠ y) :
    applyMove σ [(x, u), (y, v)] x = u ∧ applyMove σ [(x, u), (y, v)] y = v := by
  show Function.update (Function.update σ x u) y v x = u ∧ Function.update (Function.update σ x u) y v y = v
  rw [Function.update_of_ne h, Function.update_self, Function.update_self]
  exact ⟨rfl, rfl⟩

theorem truncQ_int (z : ℤ) : Expr.truncQ (z : ℚ) = z := by
  unfold Expr.truncQ; split <;> simp

end Printemps.Moves
