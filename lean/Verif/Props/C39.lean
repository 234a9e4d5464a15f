import Verif.Props.C40

/-! # C39 — the shrunken penalty coefficient is exact -/

namespace Printemps.C39
open Spec Expr

/-- Augmented objective: objective (as minimised) plus coefficient times total violation. -/
def augmented (m : MState) (σ : ℕ → ℤ) : ℚ := minObjective m σ + m.globalPen * totalViolation m σ

/-- `σ` minimises the augmented objective among all assignments within bounds and fixings. -/
def MinimisesAugmented (m : MState) (σ : ℕ → ℤ) : Prop :=
  InBounds m.var σ ∧ ∀ τ, InBounds m.var τ → augmented m σ ≤ augmented m τ

/-- The enabled constraints have integer coefficients and constants. -/
def IntegerData (m : MState) : Prop :=
  ∀ c ∈ m.conIds, (m.con c).enabled = true →
    (∃ k : ℤ, (m.con c).expr.const = k) ∧ ∀ t ∈ (m.con c).expr.terms, ∃ k : ℤ, t.2 = k

theorem integer_value (e : Expr) (hc : ∃ k : ℤ, e.const = k) (ht : ∀ t ∈ e.terms, ∃ k : ℤ, t.2 = k)
    (σ : ℕ → ℤ) : ∃ k : ℤ, exprValue e σ = k := by
  obtain ⟨k, hk⟩ := hc
  unfold exprValue
  rw [hk]
  generalize e.terms = ts at ht
  induction ts with
  | nil => exact ⟨k, by simp⟩
  | cons t ts ih =>
    obtain ⟨a, ha⟩ := ht t (List.mem_cons_self)
    obtain ⟨b, hb⟩ := ih (fun t h => ht t (List.mem_cons_of_mem _ h))
    refine ⟨a * σ t.1 + b, ?_⟩
    rw [List.map_cons, List.sum_cons, ha]
    push_cast
    linarith

theorem violation_nonneg (c : Con) (σ : ℕ → ℤ) : 0 ≤ violation c σ := by
  unfold violation
  cases c.sense <;> simp [cmpOf, Cmp.gap]

theorem violation_zero_iff (c : Con) (σ : ℕ → ℤ) : violation c σ = 0 ↔ Holds c σ := by
  unfold violation Holds
  cases c.sense <;> simp [cmpOf, Cmp.gap, Cmp.holds]

theorem violation_int (c : Con) (σ : ℕ → ℤ) (h : ∃ k : ℤ, exprValue c.expr σ = k) : ∃ k : ℤ, violation c σ = k := by
  obtain ⟨k, hk⟩ := h
  unfold violation
  rw [hk]
  cases c.sense <;> simp only [cmpOf, Cmp.gap]
  · exact ⟨max k 0, by push_cast; simp⟩
  · exact ⟨|k|, by push_cast; simp⟩
  · exact ⟨max (-k) 0, by push_cast; simp⟩

theorem totalViolation_nonneg (m : MState) (σ : ℕ → ℤ) : 0 ≤ totalViolation m σ :=
  List.sum_nonneg (by
    intro x hx
    obtain ⟨c, _, rfl⟩ := List.mem_map.1 hx
    exact violation_nonneg c σ)

theorem mem_enabledCons (m : MState) (k : Con) : k ∈ enabledCons m ↔ ∃ c ∈ m.conIds, m.con c = k ∧ k.enabled = true := by
  unfold enabledCons
  rw [List.mem_filter, List.mem_map]
  constructor
  · rintro ⟨⟨c, h1, h2⟩, h3⟩; exact ⟨c, h1, h2, h3⟩
  · rintro ⟨c, h1, h2, h3⟩; exact ⟨⟨c, h1, h2⟩, h3⟩

theorem feasible_totalViolation (m : MState) (σ : ℕ → ℤ) (hf : Feasible m σ) : totalViolation m σ = 0 := by
  unfold totalViolation
  refine List.sum_eq_zero ?_
  intro x hx
  obtain ⟨k, hk, rfl⟩ := List.mem_map.1 hx
  obtain ⟨c, h1, rfl, h3⟩ := (mem_enabledCons m k).1 hk
  exact (violation_zero_iff _ σ).2 (hf.2 c h1 h3)

/-- With integer data an infeasible assignment has total violation at least one. -/
theorem one_le_totalViolation (m : MState) (hi : IntegerData m) (σ : ℕ → ℤ) (hb : InBounds m.var σ)
    (hn : ¬ Feasible m σ) : 1 ≤ totalViolation m σ := by
  have : ∃ c ∈ m.conIds, (m.con c).enabled = true ∧ ¬ Holds (m.con c) σ := by
    by_contra h
    push Not at h
    exact hn ⟨hb, fun c h1 h2 => h c h1 h2⟩
  obtain ⟨c, h1, h2, h3⟩ := this
  obtain ⟨i1, i2⟩ := hi c h1 h2
  obtain ⟨k, hk⟩ := violation_int (m.con c) σ (integer_value _ i1 i2 σ)
  have h0 : violation (m.con c) σ ≠ 0 := fun h => h3 ((violation_zero_iff _ σ).1 h)
  have hpos := violation_nonneg (m.con c) σ
  have hk1 : (1 : ℚ) ≤ violation (m.con c) σ := by
    rw [hk] at h0 hpos ⊢
    have : (0 : ℤ) < k := lt_of_le_of_ne (by exact_mod_cast hpos) (fun h => h0 (by rw [← h]; rfl))
    exact_mod_cast this
  refine le_trans hk1 ?_
  unfold totalViolation
  refine List.single_le_sum ?_ _ (List.mem_map.2 ⟨m.con c, (mem_enabledCons m _).2 ⟨c, h1, rfl, h2⟩, rfl⟩)
  intro x hx
  obtain ⟨c, _, rfl⟩ := List.mem_map.1 hx
  exact violation_nonneg c σ

theorem objective_range (m : MState) (σ τ : ℕ → ℤ) (h1 : InBounds m.var σ) (h2 : InBounds m.var τ) :
    minObjective m σ - minObjective m τ ≤ m.obj.upperBound m.boxes - m.obj.lowerBound m.boxes := by
  have a := C03.bounds_enclose m.obj m.boxes σ h1
  have b := C03.bounds_enclose m.obj m.boxes τ h2
  rw [← Presolve.exprValue_eq] at a b
  unfold minObjective
  split
  · split
    · linarith [a.2, b.1]
    · linarith [a.1, b.2]
  · linarith [a.1, a.2]

/-- A coefficient larger than the range of the objective is exact. -/
theorem exact_of_large (m : MState) (hi : IntegerData m)
    (hp : m.obj.upperBound m.boxes - m.obj.lowerBound m.boxes < m.globalPen) (hf : ∃ τ, Feasible m τ)
    (σ : ℕ → ℤ) (hm : MinimisesAugmented m σ) : Feasible m σ ∧ IsBest m (minObjective m σ) := by
  have key : Feasible m σ := by
    by_contra hn
    obtain ⟨τ, hτ⟩ := hf
    have h1 := hm.2 τ hτ.1
    unfold augmented at h1
    rw [feasible_totalViolation m τ hτ] at h1
    have h2 := one_le_totalViolation m hi σ hm.1 hn
    have h3 := objective_range m τ σ hτ.1 hm.1
    have h4 := objective_range m τ τ hτ.1 hτ.1
    have h5 : m.globalPen * 1 ≤ m.globalPen * totalViolation m σ := mul_le_mul_of_nonneg_left h2 (by linarith)
    linarith
  refine ⟨key, ⟨σ, key, rfl⟩, fun τ hτ => ?_⟩
  have h1 := hm.2 τ hτ.1
  unfold augmented at h1
  rw [feasible_totalViolation m τ hτ, feasible_totalViolation m σ key] at h1
  linarith

/-- Everything but the penalty coefficients is left alone by the penalty setup. -/
theorem setup_keeps (m : MState) (p : ℚ) (b : Bool) :
    (m.setupPenalty p b).var = m.var ∧ (m.setupPenalty p b).conIds = m.conIds ∧
    (m.setupPenalty p b).obj = m.obj ∧
    (∀ c, ((m.setupPenalty p b).con c).expr = (m.con c).expr ∧ ((m.setupPenalty p b).con c).sense = (m.con c).sense ∧
      ((m.setupPenalty p b).con c).enabled = (m.con c).enabled) ∧
    (∀ σ, minObjective (m.setupPenalty p b) σ = minObjective m σ) := by
  unfold MState.setupPenalty MState.shrinkPenalty
  dsimp only
  refine ⟨by split <;> first | rfl | (split <;> rfl), by split <;> first | rfl | (split <;> rfl),
    by split <;> first | rfl | (split <;> rfl), fun c => ?_, fun σ => ?_⟩
  · refine ⟨?_, ?_, ?_⟩ <;> (split <;> rfl)
  · split
    · split <;> rfl
    · rfl

/-- The coefficient after setup: the smaller of the option value and objective range plus one when all
constraints are flagged integer and shrinking is on; the option value otherwise.  All constraints hold
the same number. -/
theorem setup_coefficient (m : MState) (p : ℚ) (b : Bool) :
    (m.setupPenalty p b).globalPen =
      (if (∀ c ∈ m.conIds, (m.con c).isInteger = true) ∧ b = true then
        min p (m.obj.upperBound m.boxes - m.obj.lowerBound m.boxes + 1) else p) ∧
    ∀ c ∈ m.conIds, ((m.setupPenalty p b).con c).penGlobal = (m.setupPenalty p b).globalPen := by
  constructor
  · unfold MState.setupPenalty MState.shrinkPenalty
    dsimp only
    have e : (m.conIds.all (fun c => (m.con c).isInteger) && b) = true ↔
        (∀ c ∈ m.conIds, (m.con c).isInteger = true) ∧ b = true := by
      rw [Bool.and_eq_true, List.all_eq_true]
    by_cases h : (∀ c ∈ m.conIds, (m.con c).isInteger = true) ∧ b = true
    · rw [if_pos (e.2 h), if_pos h]
      show (if min p (m.obj.upperBound m.boxes - m.obj.lowerBound m.boxes + 1) < p then
          ({ m with globalPen := min p (m.obj.upperBound m.boxes - m.obj.lowerBound m.boxes + 1) } : MState)
          else { m with globalPen := p }).globalPen = _
      split
      · rfl
      · next h => exact le_antisymm (not_lt.1 h) (min_le_left _ _)
    · rw [if_neg (fun k => h (e.1 k)), if_neg h]
  · intro c hc
    unfold MState.setupPenalty
    dsimp only
    rw [if_pos hc]

/-- After the penalty setup with shrinking, for a model with integer constraint data (and flagged so) and
an initial coefficient above the range of the objective: if a feasible assignment exists, every minimiser
of objective plus global coefficient times total violation over the bounded integer assignments is
feasible and optimal for the original problem. -/
theorem shrunken_penalty_exact (m : MState) (initial : ℚ) (shrink : Bool) (hi : IntegerData m)
    (hp : m.obj.upperBound m.boxes - m.obj.lowerBound m.boxes < initial) (hf : ∃ τ, Feasible m τ)
    (σ : ℕ → ℤ) (hm : MinimisesAugmented (m.setupPenalty initial shrink) σ) :
    Feasible m σ ∧ IsBest m (minObjective m σ) := by
  obtain ⟨e1, e2, e3, e4, e5⟩ := setup_keeps m initial shrink
  have ef : ∀ τ, Feasible (m.setupPenalty initial shrink) τ ↔ Feasible m τ := by
    intro τ
    unfold Feasible Holds
    rw [e1, e2]
    constructor
    · rintro ⟨h1, h2⟩
      refine ⟨h1, fun c hc he => ?_⟩
      have := h2 c hc (by rw [(e4 c).2.2]; exact he)
      rwa [(e4 c).1, (e4 c).2.1] at this
    · rintro ⟨h1, h2⟩
      refine ⟨h1, fun c hc he => ?_⟩
      rw [(e4 c).1, (e4 c).2.1]
      exact h2 c hc (by rw [← (e4 c).2.2]; exact he)
  have hb : (m.setupPenalty initial shrink).boxes = m.boxes := by unfold MState.boxes; rw [e1]
  obtain ⟨k1, k2, k3⟩ := exact_of_large (m.setupPenalty initial shrink)
    (by
      intro c hc he
      rw [e2] at hc
      rw [(e4 c).1]
      exact hi c hc (by rw [← (e4 c).2.2]; exact he))
    (by
      rw [e3, hb, (setup_coefficient m initial shrink).1]
      split
      · exact lt_min hp (by linarith)
      · exact hp)
    (by obtain ⟨τ, h⟩ := hf; exact ⟨τ, (ef τ).2 h⟩) σ hm
  refine ⟨(ef σ).1 k1, ⟨σ, (ef σ).1 k1, rfl⟩, fun τ hτ => ?_⟩
  have := k3 τ ((ef τ).2 hτ)
  rwa [e5, e5] at this

/-- Shrinking never gives up exactness: the coefficient is either exact or the one the user chose. -/
theorem shrinking_only_to_exact (m : MState) (initial : ℚ) (shrink : Bool) :
    (m.setupPenalty initial shrink).globalPen = initial ∨
    m.obj.upperBound m.boxes - m.obj.lowerBound m.boxes < (m.setupPenalty initial shrink).globalPen := by
  rw [(setup_coefficient m initial shrink).1]
  split
  · rcases le_total initial (m.obj.upperBound m.boxes - m.obj.lowerBound m.boxes + 1) with h | h
    · left; exact min_eq_left h
    · right; rw [min_eq_right h]; linarith
  · left; rfl

/-! ### Non-vacuity and the limits -/

/-- minimise `-x` for `x` in `[0,5]` with `x <= 2` -/
def small : MState :=
  { Example.raw with
    var := fun _ => Example.int5
    varIds := [0]
    con := fun _ => Con.setup ⟨[(0, 1)], -2, 0⟩ .less Example.senses
    conIds := [0]
    obj := ⟨[(0, -1)], 0, 0⟩ }

theorem small_inBounds (σ : ℕ → ℤ) : InBounds small.var σ ↔ ∀ v, 0 ≤ σ v ∧ σ v ≤ 5 := by
  constructor
  · intro h v; exact (h v).2 rfl
  · intro h v; exact ⟨fun k => absurd (show (Example.int5.fixed = true) from k) (by decide), fun _ => h v⟩

theorem small_augmented (p : ℚ) (b : Bool) (σ : ℕ → ℤ) :
    augmented (small.setupPenalty p b) σ =
      - (σ 0 : ℚ) + (small.setupPenalty p b).globalPen * max ((σ 0 : ℚ) - 2) 0 := by
  obtain ⟨e1, e2, e3, e4, e5⟩ := setup_keeps small p b
  have e4' := e4 0
  unfold augmented
  rw [e5]
  have hv : totalViolation (small.setupPenalty p b) σ = max ((σ 0 : ℚ) - 2) 0 := by
    unfold totalViolation enabledCons
    rw [e2, show small.conIds = [0] from rfl]
    have hc : ((small.setupPenalty p b).con 0).enabled = true := by rw [(e4 0).2.2]; rfl
    rw [List.map_singleton, List.filter_singleton, hc]
    show [violation ((small.setupPenalty p b).con 0) σ].sum = _
    unfold violation
    rw [(e4 0).1, (e4 0).2.1]
    simp only [small, Con.setup, cmpOf, Cmp.gap, exprValue, List.map_cons, List.map_nil, List.sum_cons, List.sum_nil]
    rw [add_zero, add_zero, one_mul, sub_zero, neg_add_eq_sub]
  rw [hv]
  congr 1
  simp [minObjective, small, Example.raw, exprValue]

/-- The hypotheses of the main theorem are met by the example with the initial coefficient 100, which is
shrunk to 6, and `x = 2` is the minimiser. -/
example : IntegerData small ∧ (small.obj.upperBound small.boxes - small.obj.lowerBound small.boxes < 100) ∧
    (small.setupPenalty 100 true).globalPen = 6 ∧ (∃ τ, Feasible small τ) ∧
    MinimisesAugmented (small.setupPenalty 100 true) (fun _ => 2) := by
  refine ⟨?_, by decide +kernel, by decide +kernel, ⟨fun _ => 0, (small_inBounds _).2 (fun _ => by decide), ?_⟩, ?_, ?_⟩
  · intro c _ _
    refine ⟨⟨-2, by norm_num [small, Con.setup]⟩, fun t ht => ?_⟩
    have : t = (0, 1) := by simpa [small, Con.setup] using ht
    exact ⟨1, by rw [this]; norm_num⟩
  · intro c _ _
    show (cmpOf .less).holds _ _
    simp [cmpOf, Cmp.holds, exprValue, small, Con.setup]
  · rw [(setup_keeps small 100 true).1]
    exact (small_inBounds _).2 (fun _ => by decide)
  · intro τ hτ
    rw [(setup_keeps small 100 true).1, small_inBounds] at hτ
    rw [small_augmented, small_augmented, show (small.setupPenalty 100 true).globalPen = 6 by decide +kernel]
    have h1 := le_max_left ((τ 0 : ℚ) - 2) 0
    have h2 := le_max_right ((τ 0 : ℚ) - 2) 0
    have : max (((2 : ℤ) : ℚ) - 2) 0 = 0 := by norm_num
    rw [this]
    push_cast
    linarith

/-- An initial coefficient below the range of the objective is kept, and need not be exact: with the
coefficient 1/2 the minimiser of the example is the infeasible `x = 5`. -/
theorem small_initial_coefficient_not_exact :
    (∃ τ, Feasible small τ) ∧ (small.setupPenalty (1 / 2) true).globalPen = 1 / 2 ∧
    MinimisesAugmented (small.setupPenalty (1 / 2) true) (fun _ => 5) ∧ ¬ Feasible small (fun _ => 5) := by
  have hg : (small.setupPenalty (1 / 2) true).globalPen = 1 / 2 := by decide +kernel
  refine ⟨⟨fun _ => 0, (small_inBounds _).2 (fun _ => by decide), ?_⟩, hg, ⟨?_, ?_⟩, ?_⟩
  · intro c _ _
    show (cmpOf .less).holds _ _
    simp [cmpOf, Cmp.holds, exprValue, small, Con.setup]
  · rw [(setup_keeps small (1 / 2) true).1]
    exact (small_inBounds _).2 (fun _ => by decide)
  · intro τ hτ
    rw [(setup_keeps small (1 / 2) true).1, small_inBounds] at hτ
    rw [small_augmented, small_augmented, hg]
    have h1 := le_max_left ((τ 0 : ℚ) - 2) 0
    have h2 := le_max_right ((τ 0 : ℚ) - 2) 0
    have : max (((5 : ℤ) : ℚ) - 2) 0 = 3 := by norm_num
    rw [this]
    have h3 : (τ 0 : ℚ) ≤ 5 := by exact_mod_cast (hτ 0).2
    push_cast
    linarith
  · intro h
    have := h.2 0 (by decide) rfl
    revert this
    show ¬ (cmpOf .less).holds _ _
    simp only [cmpOf, Cmp.holds, exprValue, small, Con.setup, List.map_cons, List.map_nil, List.sum_cons, List.sum_nil]
    norm_num

end Printemps.C39
