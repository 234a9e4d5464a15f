import Verif.Lemmas.PresolveSets

/-! Helper lemmas for the presolve steps that keep the optimum but not all solutions. -/

namespace Printemps.Presolve
open Spec Expr

theorem exprValue_update_lookup (e : Expr) (h : e.WF) (σ : ℕ → ℤ) (v : ℕ) (x : ℤ) :
    exprValue e (Function.update σ v x) = exprValue e σ + lookup e.terms v * ((x : ℚ) - σ v) := by
  rw [exprValue_eq, exprValue_eq, evaluate_eq, evaluate_eq, lin_update _ h]
  push_cast; ring

theorem lookup_of_not_mem (ts : List (ℕ × ℚ)) (v : ℕ) (h : v ∉ ts.map Prod.fst) : lookup ts v = 0 := by
  induction ts with
  | nil => rfl
  | cons t ts ih =>
    obtain ⟨w, a⟩ := t
    simp only [List.map_cons, List.mem_cons, not_or] at h
    unfold lookup
    rw [if_neg (fun e => h.1 e.symm)]
    exact ih h.2

theorem exprValue_update_not_mem (e : Expr) (h : e.WF) (σ : ℕ → ℤ) (v : ℕ) (x : ℤ) (hv : v ∉ e.vars) :
    exprValue e (Function.update σ v x) = exprValue e σ := by
  rw [exprValue_update_lookup e h, lookup_of_not_mem _ _ hv]; ring

/-- Coefficient of a variable in the objective as minimised. -/
def cost (m : MState) (v : ℕ) : ℚ :=
  if m.objDefined then (if m.isMin then lookup m.obj.terms v else - lookup m.obj.terms v) else 0

theorem minObjective_update (m : MState) (h : m.obj.WF) (σ : ℕ → ℤ) (v : ℕ) (x : ℤ) :
    minObjective m (Function.update σ v x) = minObjective m σ + cost m v * ((x : ℚ) - σ v) := by
  unfold minObjective cost
  rw [exprValue_update_lookup _ h]
  split
  · split <;> ring
  · ring

/-! ### Independent variables -/

/-- The conditions under which a variable may be fixed as independent. -/
def IndependentOK (m : MState) (v : ℕ) : Prop :=
  (m.var v).lb ≤ (m.var v).ub ∧
    (|lookup m.obj.terms v| ≥ EPSILON_10 ∨ (lookup m.obj.terms v = 0 ∧ (m.var v).lb ≤ 0 ∧ 0 ≤ (m.var v).ub))

theorem independentValue_mem (m : MState) (v : ℕ) (hs : m.objSens v = lookup m.obj.terms v)
    (h : IndependentOK m v) : (m.var v).lb ≤ independentValue m v ∧ independentValue m v ≤ (m.var v).ub := by
  unfold independentValue
  rw [hs]
  obtain ⟨h1, h2⟩ := h
  split
  · rename_i hlt
    rcases h2 with h2 | h2
    · exact absurd hlt (not_lt.2 h2)
    · exact h2.2
  · split <;> split <;> constructor <;> first | exact le_refl _ | exact h1

theorem independentValue_best (m : MState) (v : ℕ) (hs : m.objSens v = lookup m.obj.terms v)
    (h : IndependentOK m v) (x : ℤ) (h1 : (m.var v).lb ≤ x) (h2 : x ≤ (m.var v).ub) :
    cost m v * ((independentValue m v : ℚ) - x) ≤ 0 := by
  have q1 : ((m.var v).lb : ℚ) ≤ x := by exact_mod_cast h1
  have q2 : (x : ℚ) ≤ (m.var v).ub := by exact_mod_cast h2
  unfold cost
  split
  · unfold independentValue
    rw [hs]
    have hz : |lookup m.obj.terms v| < EPSILON_10 → lookup m.obj.terms v = 0 := by
      intro hlt
      rcases h.2 with h3 | h3
      · exact absurd hlt (not_lt.2 h3)
      · exact h3.1
    generalize hk : lookup m.obj.terms v = k at hz
    by_cases hlt : |k| < EPSILON_10
    · rw [hz hlt]; simp
    · rw [if_neg hlt]
      by_cases hpos : k > 0
      · rw [if_pos hpos]; split <;> nlinarith
      · rw [if_neg hpos]
        have : k ≤ 0 := not_lt.1 hpos
        split <;> nlinarith
  · simp

/-- One variable fixed as independent. -/
def independentStep (m : MState) (v : ℕ) : MState :=
  { m with var := Function.update m.var v ((m.var v).fixBy (independentValue m v)) }

theorem independentStep_keeps (m : MState) (v : ℕ) (hw : AllWF m) (ho : m.obj.WF)
    (hs : m.objSens v = lookup m.obj.terms v) (h : IndependentOK m v) (hf : (m.var v).fixed = false)
    (hr : relatedCons m v = []) : KeepsOptimum m (independentStep m v) := by
  have hno : ∀ c ∈ m.conIds, v ∉ (m.con c).expr.vars := by
    intro c hc hv
    have : c ∈ relatedCons m v := List.mem_filter.2 ⟨hc, by simpa using hv⟩
    rw [hr] at this; exact absurd this (by simp)
  refine ⟨fun σ hσ => ⟨fun u => ?_, hσ.2⟩, fun σ hσ => ⟨Function.update σ v (independentValue m v), ⟨fun u => ?_, ?_⟩, ?_⟩,
    fun _ => rfl⟩
  · have := hσ.1 u
    by_cases hu : u = v
    · subst hu
      simp only [independentStep, Function.update_self, admits_fixBy] at this
      rw [this]
      exact ⟨fun e => by rw [hf] at e; exact absurd e (by simp), fun _ => independentValue_mem m u hs h⟩
    · simpa only [independentStep, Function.update_of_ne hu] using this
  · by_cases hu : u = v
    · subst hu
      simp only [independentStep, Function.update_self, admits_fixBy]
    · simp only [independentStep, Function.update_of_ne hu]
      exact hσ.1 u
  · intro c hc he
    show Holds (m.con c) _
    unfold Holds
    rw [exprValue_update_not_mem _ (hw c hc) _ _ _ (hno c hc)]
    exact hσ.2 c hc he
  · rw [minObjective_update m ho]
    have hb := (hσ.1 v).2 hf
    linarith [independentValue_best m v hs h (σ v) hb.1 hb.2]

theorem removeIndependent_keeps (l : List ℕ) : ∀ (m : MState), AllWF m → m.obj.WF →
    (∀ v ∈ l, m.objSens v = lookup m.obj.terms v) →
    (∀ v ∈ l, (m.var v).fixed = false → relatedCons m v = [] → IndependentOK m v) →
    KeepsOptimum m (removeIndependent l m).1 := by
  induction l with
  | nil => intro m _ _ _ _; exact KeepsOptimum.refl m
  | cons v l ih =>
    intro m hw ho hs hok
    have tl : ∀ {P : ℕ → Prop}, (∀ u ∈ v :: l, P u) → ∀ u ∈ l, P u :=
      fun h c hc => h c (List.mem_cons_of_mem _ hc)
    unfold removeIndependent
    split
    · exact ih m hw ho (tl hs) (tl hok)
    · rename_i hf
      split
      · rename_i hr
        refine (independentStep_keeps m v hw ho (hs v (by simp)) (hok v (by simp) (by simpa using hf) hr)
          (by simpa using hf) hr).trans ?_
        refine ih (independentStep m v) hw ho (tl hs) (fun u hu huf hur => ?_)
        by_cases huv : u = v
        · subst huv
          simp [independentStep, Var.fixBy, Var.updateMargin] at huf
        · have e : (independentStep m v).var u = m.var u := by
            simp only [independentStep, Function.update_of_ne huv]
          rw [e] at huf
          have := tl hok u hu huf hur
          unfold IndependentOK at this ⊢
          rw [e]; exact this
      · exact ih m hw ho (tl hs) (tl hok)

/-- What happens to each variable. -/
theorem removeIndependent_var (l : List ℕ) : ∀ (m : MState), l.Nodup → ∀ v,
    (removeIndependent l m).1.var v =
      if v ∈ l ∧ (m.var v).fixed = false ∧ relatedCons m v = [] then (m.var v).fixBy (independentValue m v)
      else m.var v := by
  induction l with
  | nil => intro m _ v; simp [removeIndependent]
  | cons u l ih =>
    intro m hn v
    rw [List.nodup_cons] at hn
    unfold removeIndependent
    by_cases hf : (m.var u).fixed = true
    · rw [if_pos hf, ih m hn.2 v]
      by_cases huv : v = u
      · subst huv; simp [hf]
      · simp [huv]
    · rw [if_neg hf]
      by_cases hr : relatedCons m u = []
      · rw [if_pos hr]
        show (removeIndependent l (independentStep m u)).1.var v = _
        rw [ih (independentStep m u) hn.2 v]
        by_cases huv : v = u
        · subst huv
          rw [if_neg (fun h => hn.1 h.1), if_pos ⟨by simp, by simpa using hf, hr⟩]
          simp only [independentStep, Function.update_self]
        · have e : (independentStep m u).var v = m.var v := by
            simp only [independentStep, Function.update_of_ne huv]
          have e2 : independentValue (independentStep m u) v = independentValue m v := by
            unfold independentValue; rw [e]; rfl
          have e3 : relatedCons (independentStep m u) v = relatedCons m v := rfl
          rw [e, e2, e3]
          simp [huv]
      · rw [if_neg hr, ih m hn.2 v]
        by_cases huv : v = u
        · subst huv; simp [hr]
        · simp [huv]

/-! ### Dominated variables of set constraints -/

/-- Set partitioning, packing and covering constraints: `Σ x (=, ≤, ≥) 1`. -/
def SetForm (c : Con) : Prop := (∀ t ∈ c.expr.terms, t.2 = 1) ∧ c.expr.const = -1

theorem exprValue_setForm (c : Con) (h : SetForm c) (σ : ℕ → ℤ) :
    exprValue c.expr σ = (((c.expr.vars.map σ).sum : ℤ) : ℚ) - 1 := by
  unfold exprValue Expr.vars
  rw [sum_terms_const _ _ h.1, h.2]; ring

theorem sum_map_update (l : List ℕ) (hn : l.Nodup) (σ : ℕ → ℤ) (v : ℕ) (x : ℤ) :
    (l.map (Function.update σ v x)).sum = (l.map σ).sum + (if v ∈ l then x - σ v else 0) := by
  induction l with
  | nil => simp
  | cons a l ih =>
    rw [List.nodup_cons] at hn
    rw [List.map_cons, List.sum_cons, List.map_cons, List.sum_cons, ih hn.2]
    by_cases ha : a = v
    · subst ha
      simp [hn.1]; ring
    · rw [Function.update_of_ne ha]
      have : (v ∈ a :: l) ↔ v ∈ l := by
        rw [List.mem_cons]
        exact ⟨fun h => h.resolve_left (fun e => ha e.symm), Or.inr⟩
      simp only [this]; ring

/-- Same set constraints: a constraint mentions both variables or none. -/
theorem related_eq_mem {m : MState} {i j : ℕ} (h : relatedCons m i = relatedCons m j) (c : ℕ) (hc : c ∈ m.conIds) :
    i ∈ (m.con c).expr.vars ↔ j ∈ (m.con c).expr.vars := by
  have h1 : c ∈ relatedCons m i ↔ i ∈ (m.con c).expr.vars := by
    unfold relatedCons; rw [List.mem_filter]; simp [hc]
  have h2 : c ∈ relatedCons m j ↔ j ∈ (m.con c).expr.vars := by
    unfold relatedCons; rw [List.mem_filter]; simp [hc]
  rw [← h1, ← h2, h]

theorem sum_two_le (l : List ℕ) (σ : ℕ → ℤ) (h0 : ∀ v ∈ l, 0 ≤ σ v) (hn : l.Nodup) (i j : ℕ) (hij : i ≠ j)
    (hi : i ∈ l) (hj : j ∈ l) : σ i + σ j ≤ (l.map σ).sum := by
  have h := sum_subset_split l [i, j] hn (by simp [hij]) (by
    intro v hv
    simp only [List.mem_cons, List.not_mem_nil, or_false] at hv
    rcases hv with rfl | rfl <;> assumption) σ
  have : 0 ≤ ((l.filter (fun v => decide (v ∉ [i, j]))).map σ).sum := List.sum_nonneg (by
    intro x hx
    obtain ⟨v, hv, rfl⟩ := List.mem_map.1 hx
    exact h0 v (List.mem_filter.1 hv).1)
  simp only [List.map_cons, List.map_nil, List.sum_cons, List.sum_nil] at h
  omega

/-- The variable may be dropped: it is not profitable, or no feasible assignment chooses it together with another
variable of the same constraints. -/
def Droppable (m : MState) (j : ℕ) : Prop :=
  0 ≤ cost m j ∨ ∀ i, i ≠ j → relatedCons m i = relatedCons m j → ∀ σ, Feasible m σ → σ i = 1 → σ j ≠ 1

/-- The second alternative holds if a constraint allows only one of the variables. -/
theorem droppable_of_con (m : MState) (j : ℕ) (hw : AllWF m)
    (hset : ∀ c ∈ m.conIds, (m.con c).enabled = true → SetForm (m.con c))
    (hnn : ∀ c ∈ m.conIds, NonnegVars (m.con c) m.var)
    (h : 0 ≤ cost m j ∨ ∃ c ∈ m.conIds, (m.con c).enabled = true ∧ (m.con c).sense ≠ .greater ∧
      j ∈ (m.con c).expr.vars) : Droppable m j := by
  rcases h with h | ⟨c, hcm, he, hs, hjc⟩
  · exact Or.inl h
  · refine Or.inr (fun i hij hr σ hσ hi1 hj1 => ?_)
    have hh := hσ.2 c hcm he
    have h2 := sum_two_le _ σ (fun v hv => (hnn c hcm).le hσ.1 hv) (hw c hcm) i j hij
      ((related_eq_mem hr c hcm).2 hjc) hjc
    have h2q : (2 : ℚ) ≤ (((m.con c).expr.vars.map σ).sum : ℤ) := by
      have : (2 : ℤ) ≤ ((m.con c).expr.vars.map σ).sum := by omega
      exact_mod_cast this
    unfold Holds at hh
    rw [exprValue_setForm _ (hset c hcm he)] at hh
    cases hs' : (m.con c).sense
    · rw [hs'] at hh; simp only [cmpOf, Cmp.holds] at hh; linarith
    · rw [hs'] at hh; simp only [cmpOf, Cmp.holds] at hh; linarith
    · exact hs hs'

theorem dominatedStep_keeps (m : MState) (i j : ℕ) (hij : i ≠ j) (hw : AllWF m) (ho : m.obj.WF)
    (hset : ∀ c ∈ m.conIds, (m.con c).enabled = true → SetForm (m.con c))
    (hnn : ∀ c ∈ m.conIds, NonnegVars (m.con c) m.var)
    (fi : (m.var i).fixed = false) (bi : (m.var i).lb = 0 ∧ (m.var i).ub = 1)
    (fj : (m.var j).fixed = false) (bj : (m.var j).lb = 0 ∧ (m.var j).ub = 1)
    (hr : relatedCons m i = relatedCons m j) (hc : cost m i ≤ cost m j) (hd : Droppable m j) :
    KeepsOptimum m (fixZero [j] m) := by
  have hadm : ∀ v ∈ [j], Admits (m.var v) 0 := by
    intro v hv
    rw [List.mem_singleton] at hv
    subst hv
    exact ⟨fun e => by rw [fj] at e; exact absurd e (by simp), fun _ => by omega⟩
  have hz : ∀ σ, Feasible (fixZero [j] m) σ ↔ Feasible m σ ∧ σ j = 0 := by
    intro σ
    constructor
    · rintro ⟨h1, h2⟩
      have := (fixZero_inBounds [j] m σ hadm).1 h1
      exact ⟨⟨this.1, h2⟩, this.2 j (by simp)⟩
    · rintro ⟨h1, h2⟩
      refine ⟨(fixZero_inBounds [j] m σ hadm).2 ⟨h1.1, fun v hv => ?_⟩, h1.2⟩
      rw [List.mem_singleton] at hv; subst hv; exact h2
  refine ⟨fun σ hσ => ((hz σ).1 hσ).1, fun σ hσ => ?_, fun _ => rfl⟩
  have qi := (hσ.1 i).2 fi
  have qj := (hσ.1 j).2 fj
  by_cases hj0 : σ j = 0
  · exact ⟨σ, (hz σ).2 ⟨hσ, hj0⟩, le_refl _⟩
  have hj1 : σ j = 1 := by omega
  have adm1 : Admits (m.var i) 1 := ⟨fun e => by rw [fi] at e; exact absurd e (by simp), fun _ => by omega⟩
  have adm0 : Admits (m.var j) 0 := hadm j (by simp)
  -- a constraint of the set form after dropping `j`
  by_cases hi0 : σ i = 0
  · refine ⟨Function.update (Function.update σ i 1) j 0, (hz _).2 ⟨⟨fun u => ?_, fun c hcm he => ?_⟩, by simp⟩, ?_⟩
    · by_cases huj : u = j
      · subst huj; rw [Function.update_self]; exact adm0
      · rw [Function.update_of_ne huj]
        by_cases hui : u = i
        · subst hui; rw [Function.update_self]; exact adm1
        · rw [Function.update_of_ne hui]; exact hσ.1 u
    · have hh := hσ.2 c hcm he
      have sf := hset c hcm he
      unfold Holds at hh ⊢
      rw [exprValue_setForm _ sf] at hh ⊢
      rw [sum_map_update _ (hw c hcm), sum_map_update _ (hw c hcm), Function.update_of_ne (Ne.symm hij), hi0, hj1]
      have := related_eq_mem hr c hcm
      by_cases hm : i ∈ (m.con c).expr.vars
      · rw [if_pos hm, if_pos (this.1 hm)]
        have e : ((m.con c).expr.vars.map σ).sum + (1 - 0) + (0 - 1) = ((m.con c).expr.vars.map σ).sum := by ring
        rw [e]; exact hh
      · rw [if_neg hm, if_neg (fun h => hm (this.2 h)), add_zero, add_zero]
        exact hh
    · rw [minObjective_update m ho, minObjective_update m ho, Function.update_of_ne (Ne.symm hij), hi0, hj1]
      push_cast
      linarith
  · have hi1 : σ i = 1 := by omega
    have hsum : ∀ c ∈ m.conIds, i ∈ (m.con c).expr.vars → 2 ≤ ((m.con c).expr.vars.map σ).sum := by
      intro c hcm hic
      have := sum_two_le _ σ (fun v hv => (hnn c hcm).le hσ.1 hv) (hw c hcm) i j hij hic
        ((related_eq_mem hr c hcm).1 hic)
      omega
    refine ⟨Function.update σ j 0, (hz _).2 ⟨⟨fun u => ?_, fun c hcm he => ?_⟩, by simp⟩, ?_⟩
    · by_cases huj : u = j
      · subst huj; rw [Function.update_self]; exact adm0
      · rw [Function.update_of_ne huj]; exact hσ.1 u
    · have hh := hσ.2 c hcm he
      have sf := hset c hcm he
      unfold Holds at hh ⊢
      rw [exprValue_setForm _ sf] at hh ⊢
      rw [sum_map_update _ (hw c hcm), hj1]
      by_cases hm : i ∈ (m.con c).expr.vars
      · have h2 := hsum c hcm hm
        have h2q : (2 : ℚ) ≤ (((m.con c).expr.vars.map σ).sum : ℤ) := by exact_mod_cast h2
        rw [if_pos ((related_eq_mem hr c hcm).1 hm)]
        cases hs : (m.con c).sense
        · rw [hs] at hh; simp only [cmpOf, Cmp.holds] at hh ⊢; linarith
        · rw [hs] at hh; simp only [cmpOf, Cmp.holds] at hh ⊢; linarith
        · simp only [cmpOf, Cmp.holds]; push_cast; linarith
      · rw [if_neg (fun h => hm ((related_eq_mem hr c hcm).2 h)), add_zero]
        exact hh
    · rw [minObjective_update m ho, hj1]
      rcases hd with hd | hd
      · push_cast; linarith
      · exact absurd hj1 (hd i hij hr σ hσ hi1)

/-- Conditions on the whole model for dropping dominated variables. -/
structure SetModel (m : MState) : Prop where
  wf : AllWF m
  obj : m.obj.WF
  sens : ∀ v, m.objSens v = lookup m.obj.terms v
  set : ∀ c ∈ m.conIds, (m.con c).enabled = true → SetForm (m.con c)
  nonneg : ∀ c ∈ m.conIds, NonnegVars (m.con c) m.var
  pair : ∀ i ∈ m.varIds, (m.var i).fixed = false → ∀ j ∈ m.varIds, relatedCons m i = relatedCons m j →
    (m.var j).fixed = true → (m.var j).value = 0
  bounds : ∀ v ∈ m.varIds, (m.var v).fixed = false → (m.var v).lb = 0 ∧ (m.var v).ub = 1
  droppable : ∀ v ∈ m.varIds, (m.var v).fixed = false → Droppable m v

theorem SetModel.fixZero {m : MState} (h : SetModel m) (l : List ℕ)
    (hs : ∀ σ, Feasible (fixZero l m) σ → Feasible m σ) : SetModel (fixZero l m) where
  wf := h.wf
  obj := h.obj
  sens := h.sens
  set := h.set
  nonneg c hc v hv := by
    have := h.nonneg c hc v hv
    unfold Presolve.fixZero
    simp only []
    by_cases hvl : v ∈ l
    · rw [if_pos hvl]
      exact ⟨fun _ => le_refl _, fun e => absurd e (by simp [Var.fixBy, Var.updateMargin])⟩
    · rw [if_neg hvl]; exact this
  pair i hi fi j hj hr fj := by
    unfold Presolve.fixZero at fi fj ⊢
    simp only [] at fi fj ⊢
    by_cases hil : i ∈ l
    · rw [if_pos hil] at fi; exact absurd fi (by simp [Var.fixBy, Var.updateMargin])
    · rw [if_neg hil] at fi
      by_cases hjl : j ∈ l
      · rw [if_pos hjl]; rfl
      · rw [if_neg hjl] at fj ⊢; exact h.pair i hi fi j hj hr fj
  bounds v hm e := by
    unfold Presolve.fixZero at e ⊢
    simp only [] at e ⊢
    by_cases hv : v ∈ l
    · rw [if_pos hv] at e; exact absurd e (by simp [Var.fixBy, Var.updateMargin])
    · rw [if_neg hv] at e ⊢; exact h.bounds v hm e
  droppable v hm e := by
    have hv : v ∉ l := by
      intro hv
      unfold Presolve.fixZero at e
      simp only [] at e
      rw [if_pos hv] at e; exact absurd e (by simp [Var.fixBy, Var.updateMargin])
    have e' : (m.var v).fixed = false := by
      unfold Presolve.fixZero at e
      simp only [] at e
      rw [if_neg hv] at e; exact e
    rcases h.droppable v hm e' with k | k
    · exact Or.inl k
    · exact Or.inr (fun i hi hr σ hσ => k i hi hr σ (hs σ hσ))

theorem fixZero_singleton_fixed (m : MState) (i j : ℕ) (hij : i ≠ j) : (fixZero [j] m).var i = m.var i := by
  unfold fixZero
  simp only []
  rw [if_neg]
  simpa using hij

theorem dropDominatedBy_keeps (i : ℕ) (js : List ℕ) : ∀ (m : MState), SetModel m → (m.var i).fixed = false →
    i ∉ js → i ∈ m.varIds → (∀ j ∈ js, j ∈ m.varIds) → (∀ j ∈ js, cost m i ≤ cost m j) →
    KeepsOptimum m (dropDominatedBy i js m) ∧ SetModel (dropDominatedBy i js m) ∧
    (dropDominatedBy i js m).obj = m.obj ∧ (dropDominatedBy i js m).isMin = m.isMin ∧
    (dropDominatedBy i js m).objDefined = m.objDefined ∧ (dropDominatedBy i js m).varIds = m.varIds := by
  induction js with
  | nil => intro m hm _ _ _ _ _; exact ⟨KeepsOptimum.refl m, hm, rfl, rfl, rfl, rfl⟩
  | cons j js ih =>
    intro m hm hf hi hiv hjv hc
    have hjv' : ∀ k ∈ js, k ∈ m.varIds := fun k hk => hjv k (List.mem_cons_of_mem _ hk)
    simp only [List.mem_cons, not_or] at hi
    unfold dropDominatedBy
    rw [List.foldl_cons]
    have hc' : ∀ k ∈ js, cost m i ≤ cost m k := fun k hk => hc k (List.mem_cons_of_mem _ hk)
    by_cases h1 : (m.var j).fixed = true ∧ (m.var j).value = 0
    · rw [if_pos h1]; exact ih m hm hf hi.2 hiv hjv' hc'
    · rw [if_neg h1]
      by_cases h2 : relatedCons m i = relatedCons m j
      · rw [if_pos h2]
        have hjm := hjv j (by simp)
        have fj : (m.var j).fixed = false := by
          cases hfj : (m.var j).fixed
          · rfl
          · exact absurd ⟨hfj, hm.pair i hiv hf j hjm h2 hfj⟩ h1
        have hstep := dominatedStep_keeps m i j hi.1 hm.wf hm.obj hm.set hm.nonneg hf (hm.bounds i hiv hf)
          fj (hm.bounds j hjm fj) h2 (hc j (by simp)) (hm.droppable j hjm fj)
        obtain ⟨k1, k2, k3⟩ := ih (fixZero [j] m) (hm.fixZero [j] hstep.sound)
          (by rw [fixZero_singleton_fixed m i j hi.1]; exact hf) hi.2 hiv hjv' hc'
        exact ⟨hstep.trans k1, k2, k3⟩
      · rw [if_neg h2]; exact ih m hm hf hi.2 hiv hjv' hc'

theorem cost_congr {m m' : MState} (h1 : m'.obj = m.obj) (h2 : m'.isMin = m.isMin)
    (h3 : m'.objDefined = m.objDefined) (v : ℕ) : cost m' v = cost m v := by
  unfold cost; rw [h1, h2, h3]

theorem dropDominatedBy_con (i : ℕ) (js : List ℕ) : ∀ (m : MState),
    (dropDominatedBy i js m).con = m.con ∧ (dropDominatedBy i js m).conIds = m.conIds := by
  induction js with
  | nil => intro m; exact ⟨rfl, rfl⟩
  | cons j js ih =>
    intro m
    unfold dropDominatedBy
    rw [List.foldl_cons]
    split
    · exact ih m
    · split
      · exact ih (fixZero [j] m)
      · exact ih m

theorem varHash_congr {m m' : MState} (h1 : m'.con = m.con) (h2 : m'.conIds = m.conIds) (v : ℕ) :
    varHash m' v = varHash m v := by
  unfold varHash relatedCons; rw [h1, h2]

theorem mem_takeWhile_holds (p : ℕ → Bool) (l : List ℕ) (j : ℕ) (h : j ∈ l.takeWhile p) : p j = true := by
  induction l with
  | nil => simp at h
  | cons a l ih =>
    rw [List.takeWhile_cons] at h
    split at h
    · rcases List.mem_cons.1 h with rfl | h
      · assumption
      · exact ih h
    · simp at h

/-- `l` is sorted so that among variables of equal hash cheaper ones come first. -/
def CheapFirst (m : MState) (l : List ℕ) : Prop :=
  l.Pairwise (fun a b => varHash m a = varHash m b → cost m a ≤ cost m b)

theorem dropDominated_keeps (l : List ℕ) : ∀ (m : MState), SetModel m → l.Nodup → (∀ v ∈ l, v ∈ m.varIds) → CheapFirst m l →
    KeepsOptimum m (dropDominated m l) := by
  induction l with
  | nil => intro m _ _ _ _; exact KeepsOptimum.refl m
  | cons i rest ih =>
    intro m hm hn hv hs
    have hv' : ∀ v ∈ rest, v ∈ m.varIds := fun v h => hv v (List.mem_cons_of_mem _ h)
    rw [List.nodup_cons] at hn
    unfold CheapFirst at hs
    rw [List.pairwise_cons] at hs
    unfold dropDominated
    split
    · exact ih m hm hn.2 hv' hs.2
    · rename_i hf
      simp only []
      have hsub : ∀ j ∈ rest.takeWhile (fun j => varHash m i == varHash m j), j ∈ rest ∧ varHash m i = varHash m j := by
        intro j hj
        refine ⟨(List.takeWhile_sublist _).subset hj, ?_⟩
        have := mem_takeWhile_holds _ _ _ hj
        simpa using this
      obtain ⟨k1, k2, k3, k4, k5, k6⟩ := dropDominatedBy_keeps i (rest.takeWhile (fun j => varHash m i == varHash m j)) m hm
        (by simpa using hf) (fun h => hn.1 (hsub i h).1) (hv i (by simp)) (fun j hj => hv' j (hsub j hj).1)
        (fun j hj => hs.1 j (hsub j hj).1 (hsub j hj).2)
      split
      · exact k1
      · refine k1.trans (ih _ k2 hn.2 (by rw [k6]; exact hv') ?_)
        obtain ⟨c1, c2⟩ := dropDominatedBy_con i (rest.takeWhile (fun j => varHash m i == varHash m j)) m
        unfold CheapFirst
        refine hs.2.imp ?_
        intro a b hab
        rw [varHash_congr c1 c2, varHash_congr c1 c2, cost_congr k3 k4 k5, cost_congr k3 k4 k5]
        exact hab

theorem setVarLe_total (m : MState) (a b : ℕ) : (setVarLe m a b || setVarLe m b a) = true := by
  unfold setVarLe
  by_cases h1 : varHash m a = varHash m b
  · by_cases h2 : m.objSens a = m.objSens b
    · simp only [h1, h2, ne_eq, not_true_eq_false, if_false, ge_iff_le, Bool.or_eq_true, decide_eq_true_eq]
      exact le_total _ _
    · have h2' : ¬ m.objSens b = m.objSens a := fun e => h2 e.symm
      simp only [h1, h2, h2', ne_eq, not_true_eq_false, not_false_eq_true, if_false, if_true]
      rcases lt_or_gt_of_ne h2 with h | h <;> cases m.isMin <;> simp [h]
  · have h1' : ¬ varHash m b = varHash m a := fun e => h1 e.symm
    simp only [h1, h1', ne_eq, not_false_eq_true, if_true, Bool.or_eq_true, decide_eq_true_eq]
    exact Nat.lt_or_gt_of_ne h1

theorem setVarLe_iff (m : MState) (a b : ℕ) : setVarLe m a b = true ↔
    varHash m a < varHash m b ∨ (varHash m a = varHash m b ∧
      ((if m.isMin then m.objSens a else - m.objSens a) < (if m.isMin then m.objSens b else - m.objSens b) ∨
        (m.objSens a = m.objSens b ∧ (m.var b).value ≤ (m.var a).value))) := by
  unfold setVarLe
  by_cases h1 : varHash m a = varHash m b
  · by_cases h2 : m.objSens a = m.objSens b
    · simp [h1, h2]
    · cases hm : m.isMin <;> simp [h1, h2]
  · simp only [h1, ne_eq, not_false_eq_true, if_true, decide_eq_true_eq, false_and, or_false]

theorem setVarLe_trans (m : MState) (a b c : ℕ) (h : setVarLe m a b = true) (k : setVarLe m b c = true) :
    setVarLe m a c = true := by
  rw [setVarLe_iff] at h k ⊢
  rcases h with h | ⟨h1, h2⟩
  · rcases k with k | ⟨k1, _⟩
    · exact Or.inl (lt_trans h k)
    · exact Or.inl (k1 ▸ h)
  · rcases k with k | ⟨k1, k2⟩
    · exact Or.inl (h1.symm ▸ k)
    · refine Or.inr ⟨h1.trans k1, ?_⟩
      rcases h2 with h2 | ⟨h2, h3⟩
      · rcases k2 with k2 | ⟨k2, k3⟩
        · exact Or.inl (lt_trans h2 k2)
        · exact Or.inl (k2 ▸ h2)
      · rcases k2 with k2 | ⟨k2, k3⟩
        · exact Or.inl (h2.symm ▸ k2)
        · exact Or.inr ⟨h2.trans k2, le_trans k3 h3⟩

theorem sorted_cheapFirst (m : MState) (hs : ∀ v, m.objSens v = lookup m.obj.terms v) (l : List ℕ) :
    CheapFirst m (l.mergeSort (setVarLe m)) := by
  have h := List.pairwise_mergeSort (le := setVarLe m) (setVarLe_trans m) (setVarLe_total m) l
  unfold CheapFirst
  refine h.imp ?_
  intro a b hab hh
  rw [setVarLe_iff] at hab
  unfold cost
  rcases hab with hab | ⟨_, hab | ⟨hab, _⟩⟩
  · exact absurd hh (Nat.ne_of_lt hab)
  · rw [hs, hs] at hab
    split
    · split
      · rename_i hm; simp only [hm, if_true] at hab; exact le_of_lt hab
      · rename_i hm; simp only [hm] at hab; exact le_of_lt hab
    · exact le_refl _
  · rw [hs, hs] at hab
    rw [hab]

theorem removeRedundantSetVariables_keeps (setCons : List ℕ) (m : MState) (h : SetModel m) (hn : m.varIds.Nodup) :
    KeepsOptimum m (removeRedundantSetVariables setCons m) := by
  unfold removeRedundantSetVariables
  split
  · exact KeepsOptimum.refl m
  · split
    · exact KeepsOptimum.refl m
    · exact dropDominated_keeps _ m h ((List.mergeSort_perm _ _).nodup_iff.2 hn)
        (fun v hv => (List.mergeSort_perm _ _).mem_iff.1 hv) (sorted_cheapFirst m h.sens _)

end Printemps.Presolve
