import Verif.Spec.Dependent
import Verif.Model.Dependent
import Verif.Lemmas.PresolveOpt

/-! Helper lemmas about dependent variables. -/

namespace Printemps.Dependent
open Spec Expr Presolve

theorem lin_filter_ne (ts : List (ℕ × ℚ)) (h : (ts.map Prod.fst).Nodup) (v : ℕ) (σ : ℕ → ℤ) :
    lin (ts.filter (fun t => t.1 ≠ v)) σ = lin ts σ - lookup ts v * (σ v : ℚ) := by
  induction ts with
  | nil => simp [lookup]
  | cons t ts ih =>
    obtain ⟨w, a⟩ := t
    rw [List.map_cons, List.nodup_cons] at h
    by_cases hw : w = v
    · subst hw
      have hn := Expr.lookup_of_not_mem ts w h.1
      rw [List.filter_cons_of_neg (by simp), ih h.2, hn, lin_cons]
      simp [lookup]
    · rw [List.filter_cons_of_pos (by simpa using hw), lin_cons, lin_cons, ih h.2]
      simp only [lookup, if_neg hw]
      ring

theorem exprValue_erase (e : Expr) (h : e.WF) (v : ℕ) (σ : ℕ → ℤ) :
    exprValue (e.erase v) σ = exprValue e σ - lookup e.terms v * (σ v : ℚ) := by
  rw [exprValue_eq, exprValue_eq, evaluate_eq, evaluate_eq]
  show e.const + lin (e.terms.filter (fun t => t.1 ≠ v)) σ = _
  rw [lin_filter_ne _ h]; ring

theorem solve_value (e f : Expr) (h : e.WF) (v : ℕ) (hs : e.solve v = some f) (σ : ℕ → ℤ) :
    exprValue f σ = (exprValue e σ - lookup e.terms v * (σ v : ℚ)) * (-(1 / lookup e.terms v)) := by
  unfold Expr.solve at hs
  split at hs
  · simp only [Option.some.injEq] at hs
    rw [← hs, ← exprValue_erase e h, exprValue_eq, exprValue_eq, evaluate_eq, evaluate_eq]
    show _ * _ + lin (List.map _ (e.terms.filter _)) σ = (e.const + lin (e.terms.filter _) σ) * _
    rw [lin_map_mul]
    show e.const * _ + _ = _
    ring
  · exact absurd hs (by simp)

/-- An equality holds exactly when the variable equals the solved expression. -/
theorem solve_iff (e f : Expr) (h : e.WF) (v : ℕ) (hs : e.solve v = some f) (ha : lookup e.terms v ≠ 0)
    (σ : ℕ → ℤ) : exprValue e σ = 0 ↔ (σ v : ℚ) = exprValue f σ := by
  rw [solve_value e f h v hs]
  have : (exprValue e σ - lookup e.terms v * (σ v : ℚ)) * (-(1 / lookup e.terms v))
      = σ v - exprValue e σ / lookup e.terms v := by
    field_simp; ring
  rw [this]
  constructor
  · intro h0; rw [h0]; simp
  · intro h0
    have : exprValue e σ / lookup e.terms v = 0 := by linarith
    rcases div_eq_zero_iff.1 this with h1 | h1
    · exact h1
    · exact absurd h1 ha

theorem solve_vars (e f : Expr) (v : ℕ) (hs : e.solve v = some f) (w : ℕ) :
    w ∈ f.vars ↔ w ∈ e.vars ∧ w ≠ v := by
  unfold Expr.solve at hs
  split at hs
  · simp only [Option.some.injEq] at hs
    rw [← hs]
    unfold Expr.vars
    simp only [List.map_map]
    show w ∈ (e.terms.filter (fun t => t.1 ≠ v)).map _ ↔ _
    constructor
    · intro h
      obtain ⟨t, ht, rfl⟩ := List.mem_map.1 h
      obtain ⟨h1, h2⟩ := List.mem_filter.1 ht
      exact ⟨List.mem_map.2 ⟨t, h1, rfl⟩, by simpa using h2⟩
    · rintro ⟨h1, h2⟩
      obtain ⟨t, ht, rfl⟩ := List.mem_map.1 h1
      exact List.mem_map.2 ⟨t, List.mem_filter.2 ⟨ht, by simpa using h2⟩, rfl⟩
  · exact absurd hs (by simp)

theorem solve_wf (e f : Expr) (h : e.WF) (v : ℕ) (hs : e.solve v = some f) : f.WF := by
  unfold Expr.solve at hs
  split at hs
  · simp only [Option.some.injEq] at hs
    rw [← hs]
    unfold Expr.WF Expr.vars
    simp only [List.map_map]
    have : (Prod.fst ∘ fun t : ℕ × ℚ => (t.1, t.2 * -(1 / lookup e.terms v))) = Prod.fst := rfl
    show (List.map _ (e.terms.filter (fun t => t.1 ≠ v))).Nodup
    rw [this]
    exact h.sublist (List.filter_sublist.map Prod.fst)
  · exact absurd hs (by simp)

theorem solve_some (e : Expr) (v : ℕ) (h : v ∈ e.vars) : ∃ f, e.solve v = some f := by
  unfold Expr.solve; rw [if_pos h]; exact ⟨_, rfl⟩

/-- Interval bounds, needing only the variables that occur. -/
theorem bounds_enclose_on (e : Expr) (var : ℕ → Var) (σ : ℕ → ℤ) (h : ∀ v ∈ e.vars, Admits (var v) (σ v)) :
    e.lowerBound (boxes var) ≤ exprValue e σ ∧ exprValue e σ ≤ e.upperBound (boxes var) := by
  rw [exprValue_eq, evaluate_eq, lowerBound, upperBound, C03.foldl_lower, C03.foldl_upper, lin]
  constructor
  · refine add_le_add le_rfl (List.sum_le_sum fun t ht => ?_)
    obtain ⟨h1, h2⟩ := h t.1 (List.mem_map.2 ⟨t, ht, rfl⟩)
    by_cases hf : (boxes var t.1).fixed = true
    · rw [if_pos hf, h1 hf]; exact le_refl _
    · have h2 := h2 (by rw [Bool.not_eq_true] at hf; exact hf)
      rw [if_neg hf]
      split
      · exact mul_le_mul_of_nonneg_left (by exact_mod_cast h2.1) (le_of_lt ‹_›)
      · exact mul_le_mul_of_nonpos_left (by exact_mod_cast h2.2) (not_lt.1 ‹_›)
  · refine add_le_add le_rfl (List.sum_le_sum fun t ht => ?_)
    obtain ⟨h1, h2⟩ := h t.1 (List.mem_map.2 ⟨t, ht, rfl⟩)
    by_cases hf : (boxes var t.1).fixed = true
    · rw [if_pos hf, h1 hf]; exact le_refl _
    · have h2 := h2 (by rw [Bool.not_eq_true] at hf; exact hf)
      rw [if_neg hf]
      split
      · exact mul_le_mul_of_nonneg_left (by exact_mod_cast h2.2) (le_of_lt ‹_›)
      · exact mul_le_mul_of_nonpos_left (by exact_mod_cast h2.1) (not_lt.1 ‹_›)

/-! ### Extraction -/

theorem surviving_sub (m : MState) (key : ℕ → ℕ) (l : List ℕ) : ∀ kept, ∀ c ∈ surviving m key kept l,
    c ∈ l ∧ (m.con c).enabled = true := by
  induction l with
  | nil => intro kept c hc; simp [surviving] at hc
  | cons i l ih =>
    intro kept c hc
    unfold surviving at hc
    split at hc
    · rename_i h
      rcases List.mem_cons.1 hc with rfl | hc
      · exact ⟨by simp, h.1⟩
      · exact ⟨List.mem_cons_of_mem _ (ih _ c hc).1, (ih _ c hc).2⟩
    · exact ⟨List.mem_cons_of_mem _ (ih _ c hc).1, (ih _ c hc).2⟩

theorem chosen_sub (m : MState) (key : ℕ → ℕ) (l : List ℕ) (c : ℕ) (hc : c ∈ chosen m key l) :
    c ∈ l ∧ (m.con c).enabled = true :=
  surviving_sub m key l [] c (List.mem_filter.1 hc).1

/-- A constraint of the form `e - b (≤, ≥) 0`. -/
theorem holds_extra_ge (senseOf : ℕ → VarSense) (e : Expr) (_ : e.WF) (b : ℤ) (σ : ℕ → ℤ) :
    Holds (Con.setup (e.subValue b) .greater senseOf) σ ↔ (b : ℚ) ≤ exprValue e σ := by
  unfold Holds
  show exprValue (Con.setup (e.subValue b) .greater senseOf).expr σ ≥ 0 ↔ _
  have : exprValue (Con.setup (e.subValue b) .greater senseOf).expr σ = exprValue e σ - b := by
    rw [exprValue_eq, exprValue_eq]
    show (e.subValue b).evaluate σ = _
    exact evaluate_subValue e b σ
  rw [this]
  constructor <;> intro h <;> linarith

theorem holds_extra_le (senseOf : ℕ → VarSense) (e : Expr) (_ : e.WF) (b : ℤ) (σ : ℕ → ℤ) :
    Holds (Con.setup (e.subValue b) .less senseOf) σ ↔ exprValue e σ ≤ (b : ℚ) := by
  unfold Holds
  show exprValue (Con.setup (e.subValue b) .less senseOf).expr σ ≤ 0 ↔ _
  have : exprValue (Con.setup (e.subValue b) .less senseOf).expr σ = exprValue e σ - b := by
    rw [exprValue_eq, exprValue_eq]
    show (e.subValue b).evaluate σ = _
    exact evaluate_subValue e b σ
  rw [this]
  constructor <;> intro h <;> linarith

theorem extra_of_bounds (senseOf : ℕ → VarSense) (m : MState) (v : ℕ) (e : Expr) (h : e.WF) (σ : ℕ → ℤ)
    (h1 : ((m.var v).lb : ℚ) ≤ exprValue e σ) (h2 : exprValue e σ ≤ ((m.var v).ub : ℚ)) :
    ∀ k ∈ extraConstraints senseOf m v e, Holds k σ ∧ k.enabled = true := by
  intro k hk
  unfold extraConstraints at hk
  rcases List.mem_append.1 hk with hk | hk
  · split at hk
    · rw [List.mem_singleton] at hk; subst hk
      exact ⟨(holds_extra_ge senseOf e h _ σ).2 h1, rfl⟩
    · simp at hk
  · split at hk
    · rw [List.mem_singleton] at hk; subst hk
      exact ⟨(holds_extra_le senseOf e h _ σ).2 h2, rfl⟩
    · simp at hk

theorem bounds_of_extra (senseOf : ℕ → VarSense) (m : MState) (v : ℕ) (e : Expr) (h : e.WF) (σ : ℕ → ℤ)
    (hk : ∀ k ∈ extraConstraints senseOf m v e, Holds k σ)
    (hr : ((m.var v).lb = INT_HALF_MIN → (INT_HALF_MIN : ℚ) ≤ exprValue e σ) ∧
      ((m.var v).ub = INT_HALF_MAX → exprValue e σ ≤ (INT_HALF_MAX : ℚ)))
    (hb : e.lowerBound (boxes m.var) ≤ exprValue e σ ∧ exprValue e σ ≤ e.upperBound (boxes m.var)) :
    ((m.var v).lb : ℚ) ≤ exprValue e σ ∧ exprValue e σ ≤ ((m.var v).ub : ℚ) := by
  unfold extraConstraints at hk
  constructor
  · by_cases h1 : (m.var v).lb ≠ INT_HALF_MIN ∧ ((m.var v).lb : ℚ) > e.lowerBound (boxes m.var)
    · rw [if_pos h1] at hk
      exact (holds_extra_ge senseOf e h _ σ).1 (hk _ (by simp))
    · by_cases h2 : (m.var v).lb = INT_HALF_MIN
      · rw [h2]; exact hr.1 h2
      · have : ¬ ((m.var v).lb : ℚ) > e.lowerBound (boxes m.var) := fun h3 => h1 ⟨h2, h3⟩
        exact le_trans (not_lt.1 this) hb.1
  · by_cases h1 : (m.var v).ub ≠ INT_HALF_MAX ∧ ((m.var v).ub : ℚ) < e.upperBound (boxes m.var)
    · rw [if_pos h1] at hk
      exact (holds_extra_le senseOf e h _ σ).1 (hk _ (by simp))
    · by_cases h2 : (m.var v).ub = INT_HALF_MAX
      · rw [h2]; exact hr.2 h2
      · have : ¬ ((m.var v).ub : ℚ) < e.upperBound (boxes m.var) := fun h3 => h1 ⟨h2, h3⟩
        exact le_trans hb.2 (not_lt.1 this)

/-- What the theorem about extraction needs to know about the candidate constraints. -/
structure Candidates (m : MState) (key : ℕ → ℕ) (cs : List ℕ) : Prop where
  mem : ∀ c ∈ cs, c ∈ m.conIds
  sense : ∀ c ∈ cs, (m.con c).sense = .equal
  keyMem : ∀ c ∈ cs, key c ∈ (m.con c).expr.vars
  coef : ∀ c ∈ cs, lookup (m.con c).expr.terms (key c) ≠ 0
  unfixed : ∀ c ∈ cs, (m.var (key c)).fixed = false
  noDep : ∀ c ∈ cs, (m.con c).enabled = true → ∀ v ∈ (m.con c).expr.vars, ¬ IsDependent m v

theorem solved_spec {m : MState} {key : ℕ → ℕ} {cs : List ℕ} (h : Candidates m key cs) (_ : AllWF m) (c : ℕ)
    (hc : c ∈ cs) : (m.con c).expr.solve (key c) = some (solved m key c) := by
  obtain ⟨f, hf⟩ := solve_some _ _ (h.keyMem c hc)
  unfold solved
  rw [hf]; rfl

theorem admits_mark (v : Var) (x : ℤ) : Admits (markDependent v) x ↔ Admits v x := Iff.rfl

/-- Feasibility of the model after extraction, in terms of the model before it. -/
theorem extract_feasible (senseOf : ℕ → VarSense) (key : ℕ → ℕ) (cs : List ℕ) (nextC nextE : ℕ) (m m' : MState)
    (hC : ∀ c ∈ m.conIds, c < nextC) (hE : ∀ d ∈ m.dependents, d.2 < nextE)
    (hx : extract senseOf key cs nextC nextE m = some m') (σ : ℕ → ℤ) :
    FeasibleDep m' σ ↔
      (∀ v, ¬ IsDependent m v → v ∉ (chosen m key cs).map key → Admits (m.var v) (σ v)) ∧
      (∀ d ∈ m.dependents, (σ d.1 : ℚ) = exprValue (m.uexpr d.2).expr σ) ∧
      (∀ c ∈ chosen m key cs, (σ (key c) : ℚ) = exprValue (solved m key c) σ ∧
        ∀ k ∈ extraConstraints senseOf m (key c) (solved m key c), k.enabled = true → Holds k σ) ∧
      (∀ c ∈ m.conIds, (m.con c).enabled = true → c ∉ chosen m key cs → Holds (m.con c) σ) := by
  unfold extract at hx
  simp only [] at hx
  split at hx
  · simp only [Option.some.injEq] at hx
    generalize hchd : chosen m key cs = ch at *
    generalize hexd : ch.flatMap (fun c => extraConstraints senseOf m (key c) (solved m key c)) = extra at hx
    have hcon : ∀ c, c < nextC → m'.con c = if c ∈ ch then { m.con c with enabled := false } else m.con c := by
      intro c hc
      rw [← hx]
      simp only []
      rw [if_neg (fun h => absurd h.1 (not_le.2 hc))]
    have hnew : ∀ k (hk : k < extra.length), m'.con (nextC + k) = extra[k] := by
      intro k hk
      rw [← hx]
      simp only []
      rw [if_pos ⟨Nat.le_add_right _ _, Nat.add_lt_add_left hk _⟩, Nat.add_sub_cancel_left, getD_of_lt _ _ hk]
    have hue : ∀ i, i < nextE → m'.uexpr i = m.uexpr i := by
      intro i hi
      rw [← hx]
      simp only []
      rw [if_neg (fun h => absurd h.1 (not_le.2 hi))]
    have hun : ∀ k (hk : k < ch.length), (m'.uexpr (nextE + k)).expr = solved m key ch[k] := by
      intro k hk
      rw [← hx]
      simp only []
      rw [if_pos ⟨Nat.le_add_right _ _, Nat.add_lt_add_left hk _⟩, Nat.add_sub_cancel_left,
        getD_of_lt _ _ (by rw [List.length_map]; exact hk), List.getElem_map]
    have hids : m'.conIds = m.conIds ++ (List.range extra.length).map (nextC + ·) := by rw [← hx]
    have hdeps : m'.dependents = m.dependents ++
        (List.range ch.length).map (fun k => ((ch.map key).getD k 0, nextE + k)) := by rw [← hx]
    have hvar : ∀ v x, Admits (m'.var v) x ↔ Admits (m.var v) x := by
      intro v x
      rw [← hx]
      simp only []
      split
      · exact admits_mark _ _
      · exact Iff.rfl
    have hdep : ∀ v, IsDependent m' v ↔ IsDependent m v ∨ v ∈ ch.map key := by
      intro v
      unfold IsDependent
      rw [hdeps]
      constructor
      · rintro ⟨d, hd, rfl⟩
        rcases List.mem_append.1 hd with hd | hd
        · exact Or.inl ⟨d, hd, rfl⟩
        · obtain ⟨k, hk, rfl⟩ := List.mem_map.1 hd
          right
          have hk' := List.mem_range.1 hk
          simp only []
          rw [getD_of_lt _ _ (by rw [List.length_map]; exact hk')]
          exact List.getElem_mem _
      · rintro (⟨d, hd, rfl⟩ | hv)
        · exact ⟨d, List.mem_append_left _ hd, rfl⟩
        · obtain ⟨k, hk, hkv⟩ := List.getElem_of_mem hv
          refine ⟨((ch.map key).getD k 0, nextE + k), List.mem_append_right _ (List.mem_map.2
            ⟨k, List.mem_range.2 (by rw [List.length_map] at hk; exact hk), rfl⟩), ?_⟩
          simp only []
          rw [getD_of_lt _ _ hk]; exact hkv
    constructor
    · intro hf
      refine ⟨fun v h1 h2 => (hvar v _).1 (hf.bounds v (fun h => ((hdep v).1 h).elim h1 h2)), fun d hd => ?_,
        fun c hc => ⟨?_, fun k hk hke => ?_⟩, fun c hc he hnc => ?_⟩
      · have := hf.defs d (by rw [hdeps]; exact List.mem_append_left _ hd)
        rw [hue d.2 (hE d hd)] at this; exact this
      · obtain ⟨k, hk, rfl⟩ := List.getElem_of_mem hc
        have := hf.defs ((ch.map key).getD k 0, nextE + k)
          (by rw [hdeps]; exact List.mem_append_right _ (List.mem_map.2 ⟨k, List.mem_range.2 hk, rfl⟩))
        simp only [] at this
        rw [hun k hk, getD_of_lt _ _ (by rw [List.length_map]; exact hk), List.getElem_map] at this
        exact this
      · have hmem : k ∈ extra := by rw [← hexd]; exact List.mem_flatMap.2 ⟨c, hc, hk⟩
        obtain ⟨q, hq, rfl⟩ := List.getElem_of_mem hmem
        have := hf.cons (nextC + q) (by
          rw [hids]; exact List.mem_append_right _ (List.mem_map.2 ⟨q, List.mem_range.2 hq, rfl⟩))
        rw [hnew q hq] at this
        exact this hke
      · have := hf.cons c (by rw [hids]; exact List.mem_append_left _ hc)
        rw [hcon c (hC c hc), if_neg hnc] at this
        exact this he
    · rintro ⟨h1, h2, h3, h4⟩
      refine ⟨fun v hv => (hvar v _).2 (h1 v (fun h => hv ((hdep v).2 (Or.inl h)))
        (fun h => hv ((hdep v).2 (Or.inr h)))), fun d hd => ?_, fun c hc he => ?_⟩
      · rw [hdeps] at hd
        rcases List.mem_append.1 hd with hd | hd
        · rw [hue d.2 (hE d hd)]; exact h2 d hd
        · obtain ⟨k, hk, rfl⟩ := List.mem_map.1 hd
          have hk' := List.mem_range.1 hk
          simp only []
          rw [hun k hk', getD_of_lt _ _ (by rw [List.length_map]; exact hk'), List.getElem_map]
          exact (h3 _ (List.getElem_mem _)).1
      · rw [hids] at hc
        rcases List.mem_append.1 hc with hc | hc
        · rw [hcon c (hC c hc)] at he ⊢
          by_cases hcc : c ∈ ch
          · rw [if_pos hcc] at he; exact absurd he (by simp)
          · rw [if_neg hcc] at he ⊢; exact h4 c hc he hcc
        · obtain ⟨q, hq, rfl⟩ := List.mem_map.1 hc
          have hq' := List.mem_range.1 hq
          rw [hnew q hq'] at he ⊢
          have hmem : extra[q] ∈ extra := List.getElem_mem _
          generalize extra[q] = x at hmem he ⊢
          rw [← hexd] at hmem
          obtain ⟨c, hc, hk⟩ := List.mem_flatMap.1 hmem
          exact (h3 c hc).2 _ hk he
  · exact absurd hx (by simp)

/-- The defining expressions do not refer to each other in a cycle. -/
def Acyclic (m : MState) (key : ℕ → ℕ) (ch : List ℕ) : Prop :=
  ∃ r : ℕ → ℕ, ∀ c ∈ ch, ∀ w ∈ (m.con c).expr.vars, w ≠ key c → w ∈ ch.map key → r w < r (key c)

theorem extract_ok (senseOf : ℕ → VarSense) (key : ℕ → ℕ) (cs : List ℕ) (nextC nextE : ℕ) (m : MState)
    (h : Candidates m key cs) : ∃ m', extract senseOf key cs nextC nextE m = some m' ∧
      m'.obj = m.obj ∧ m'.isMin = m.isMin ∧ m'.objDefined = m.objDefined := by
  unfold extract
  simp only []
  rw [if_pos]
  · exact ⟨_, rfl, rfl, rfl, rfl⟩
  · rw [List.all_eq_true]
    intro c hc
    simpa using h.keyMem c (chosen_sub m key cs c hc).1

theorem extract_iff_of (senseOf : ℕ → VarSense) (key : ℕ → ℕ) (cs : List ℕ) (nextC nextE : ℕ) (m m' : MState)
    (hw : AllWF m) (h : Candidates m key cs) (hC : ∀ c ∈ m.conIds, c < nextC)
    (hE : ∀ d ∈ m.dependents, d.2 < nextE) (ha : Acyclic m key (chosen m key cs))
    (hx : extract senseOf key cs nextC nextE m = some m') (σ : ℕ → ℤ)
    (hr : ∀ c ∈ cs, ((m.var (key c)).lb = INT_HALF_MIN → INT_HALF_MIN ≤ σ (key c)) ∧
      ((m.var (key c)).ub = INT_HALF_MAX → σ (key c) ≤ INT_HALF_MAX)) :
    FeasibleDep m σ ↔ FeasibleDep m' σ := by
  have hsub := chosen_sub m key cs
  rw [extract_feasible senseOf key cs nextC nextE m m' hC hE hx σ]
  have eqv : ∀ c ∈ chosen m key cs, (Holds (m.con c) σ ↔ (σ (key c) : ℚ) = exprValue (solved m key c) σ) := by
    intro c hc
    have hcs := (hsub c hc).1
    have hs := solved_spec h hw c hcs
    rw [← solve_iff _ _ (hw c (h.mem c hcs)) _ hs (h.coef c hcs)]
    unfold Holds
    rw [h.sense c hcs]
    exact Iff.rfl
  have swf : ∀ c ∈ chosen m key cs, (solved m key c).WF := fun c hc =>
    solve_wf _ _ (hw c (h.mem c (hsub c hc).1)) _ (solved_spec h hw c (hsub c hc).1)
  constructor
  · intro hf
    refine ⟨fun v h1 _ => hf.bounds v h1, hf.defs, fun c hc => ?_, fun c hc he _ => hf.cons c hc he⟩
    have hcs := (hsub c hc).1
    have hv := (eqv c hc).1 (hf.cons c (h.mem c hcs) (hsub c hc).2)
    refine ⟨hv, fun k hk _ => ?_⟩
    have hb := (hf.bounds (key c) (h.noDep c hcs (hsub c hc).2 _ (h.keyMem c hcs))).2 (h.unfixed c hcs)
    refine (extra_of_bounds senseOf m (key c) _ (swf c hc) σ ?_ ?_ k hk).1
    · rw [← hv]; exact_mod_cast hb.1
    · rw [← hv]; exact_mod_cast hb.2
  · rintro ⟨h1, h2, h3, h4⟩
    obtain ⟨r, hrk⟩ := ha
    have key_bounds : ∀ n, ∀ c ∈ chosen m key cs, r (key c) = n → Admits (m.var (key c)) (σ (key c)) := by
      intro n
      induction n using Nat.strong_induction_on with
      | _ n ih =>
        intro c hc hn
        have hcs := (hsub c hc).1
        have hs := solved_spec h hw c hcs
        have hvars : ∀ w ∈ (solved m key c).vars, Admits (m.var w) (σ w) := by
          intro w hwv
          obtain ⟨w1, w2⟩ := (solve_vars _ _ _ hs w).1 hwv
          by_cases hk : w ∈ (chosen m key cs).map key
          · have hlt := hrk c hc w w1 w2 hk
            obtain ⟨c2, hc2, rfl⟩ := List.mem_map.1 hk
            exact ih _ (hn ▸ hlt) c2 hc2 rfl
          · exact h1 w (h.noDep c hcs (hsub c hc).2 w w1) hk
        have hb := bounds_enclose_on _ _ σ hvars
        obtain ⟨hv, hk⟩ := h3 c hc
        have hrange : ((m.var (key c)).lb = INT_HALF_MIN → (INT_HALF_MIN : ℚ) ≤ exprValue (solved m key c) σ) ∧
            ((m.var (key c)).ub = INT_HALF_MAX → exprValue (solved m key c) σ ≤ (INT_HALF_MAX : ℚ)) := by
          rw [← hv]
          exact ⟨fun h => by exact_mod_cast (hr c hcs).1 h, fun h => by exact_mod_cast (hr c hcs).2 h⟩
        have hke : ∀ k ∈ extraConstraints senseOf m (key c) (solved m key c), k.enabled = true := by
          intro k hk'
          unfold extraConstraints at hk'
          rcases List.mem_append.1 hk' with hk' | hk'
          · split at hk'
            · rw [List.mem_singleton] at hk'; subst hk'; rfl
            · simp at hk'
          · split at hk'
            · rw [List.mem_singleton] at hk'; subst hk'; rfl
            · simp at hk'
        have := bounds_of_extra senseOf m (key c) _ (swf c hc) σ (fun k hk' => hk k hk' (hke k hk')) hrange hb
        rw [← hv] at this
        refine ⟨fun e => ?_, fun _ => ⟨by exact_mod_cast this.1, by exact_mod_cast this.2⟩⟩
        rw [h.unfixed c hcs] at e; exact absurd e (by simp)
    refine ⟨fun v hv => ?_, h2, fun c hc he => ?_⟩
    · by_cases hk : v ∈ (chosen m key cs).map key
      · obtain ⟨c, hc, rfl⟩ := List.mem_map.1 hk
        exact key_bounds _ c hc rfl
      · exact h1 v hv hk
    · by_cases hcc : c ∈ chosen m key cs
      · exact (eqv c hcc).2 (h3 c hcc).1
      · exact h4 c hc he hcc

theorem extract_iff (senseOf : ℕ → VarSense) (key : ℕ → ℕ) (cs : List ℕ) (nextC nextE : ℕ) (m m' : MState)
    (hw : AllWF m) (h : Candidates m key cs) (hC : ∀ c ∈ m.conIds, c < nextC)
    (hE : ∀ d ∈ m.dependents, d.2 < nextE) (ha : Acyclic m key (chosen m key cs))
    (hx : extract senseOf key cs nextC nextE m = some m') (σ : ℕ → ℤ)
    (hr : ∀ c ∈ cs, INT_HALF_MIN ≤ σ (key c) ∧ σ (key c) ≤ INT_HALF_MAX) :
    FeasibleDep m σ ↔ FeasibleDep m' σ :=
  extract_iff_of senseOf key cs nextC nextE m m' hw h hC hE ha hx σ
    (fun c hc => ⟨fun _ => (hr c hc).1, fun _ => (hr c hc).2⟩)

/-! ### Elimination -/

theorem mem_keys_foldl_upsert (us : List (ℕ × ℚ)) (x : ℕ) : ∀ ts : List (ℕ × ℚ),
    x ∈ (us.foldl (fun ts u => upsert ts u.1 u.2) ts).map Prod.fst ↔ x ∈ us.map Prod.fst ∨ x ∈ ts.map Prod.fst := by
  induction us with
  | nil => intro ts; simp
  | cons u us ih =>
    intro ts
    rw [List.foldl_cons, ih, mem_keys_upsert, List.map_cons, List.mem_cons]
    tauto

theorem substitute_vars (e f : Expr) (v w : ℕ) :
    w ∈ (e.substitute v f).vars ↔ w ≠ v ∧ (w ∈ e.vars ∨ w ∈ f.vars) := by
  have h : w ∈ (e.addAssign (f.mul (lookup e.terms v))).vars ↔ w ∈ f.vars ∨ w ∈ e.vars := by
    unfold Expr.vars
    show w ∈ ((f.mul _).terms.foldl _ e.terms).map Prod.fst ↔ _
    rw [mem_keys_foldl_upsert]
    have : (f.mul (lookup e.terms v)).terms.map Prod.fst = f.terms.map Prod.fst := by
      show (f.terms.map _).map Prod.fst = _
      rw [List.map_map]; rfl
    rw [this]
  unfold Expr.substitute
  generalize e.addAssign (f.mul (lookup e.terms v)) = g at h
  have h2 : w ∈ (g.erase v).vars ↔ w ≠ v ∧ w ∈ g.vars := by
    unfold Expr.vars
    show w ∈ (g.terms.filter (fun t => t.1 ≠ v)).map _ ↔ _
    constructor
    · intro h
      obtain ⟨t, ht, rfl⟩ := List.mem_map.1 h
      obtain ⟨h1, h2⟩ := List.mem_filter.1 ht
      exact ⟨by simpa using h2, List.mem_map.2 ⟨t, h1, rfl⟩⟩
    · rintro ⟨h2, h1⟩
      obtain ⟨t, ht, rfl⟩ := List.mem_map.1 h1
      exact List.mem_map.2 ⟨t, List.mem_filter.2 ⟨ht, by simpa using h2⟩, rfl⟩
  rw [h2, h]; tauto

theorem wf_erase (e : Expr) (h : e.WF) (v : ℕ) : (e.erase v).WF := by
  unfold Expr.WF Expr.vars
  exact h.sublist (List.filter_sublist.map Prod.fst)

theorem substitute_wf (e f : Expr) (h : e.WF) (v : ℕ) : (e.substitute v f).WF :=
  wf_erase _ (wf_addAssign _ _ h) v

theorem lookup_foldl_upsert_of_not_mem (us : List (ℕ × ℚ)) (v : ℕ) (h : v ∉ us.map Prod.fst) :
    ∀ ts : List (ℕ × ℚ), lookup (us.foldl (fun ts u => upsert ts u.1 u.2) ts) v = lookup ts v := by
  induction us with
  | nil => intro ts; rfl
  | cons u us ih =>
    intro ts
    rw [List.map_cons, List.mem_cons, not_or] at h
    rw [List.foldl_cons, ih h.2]
    induction ts with
    | nil => simp [upsert, lookup, Ne.symm h.1]
    | cons t ts iht =>
      obtain ⟨w, a⟩ := t
      unfold upsert
      split
      · rename_i hw
        have hwv : w ≠ v := fun e => h.1 (by rw [← e, hw])
        simp [lookup, hwv]
      · simp only [lookup]
        rw [iht]

/-- Substituting a definition without self reference changes the value by the coefficient times the error of
the definition. -/
theorem substitute_value (e f : Expr) (h : e.WF) (v : ℕ) (hv : v ∉ f.vars) (σ : ℕ → ℤ) :
    exprValue (e.substitute v f) σ = exprValue e σ + lookup e.terms v * (exprValue f σ - (σ v : ℚ)) := by
  unfold Expr.substitute
  rw [exprValue_erase _ (wf_addAssign _ _ h)]
  have h1 : lookup (e.addAssign (f.mul (lookup e.terms v))).terms v = lookup e.terms v := by
    refine lookup_foldl_upsert_of_not_mem _ v ?_ e.terms
    show v ∉ (f.terms.map _).map Prod.fst
    rw [List.map_map]; exact hv
  rw [h1, exprValue_eq, exprValue_eq, exprValue_eq, evaluate_addAssign, evaluate_mul]
  ring

theorem substitute_same (e f : Expr) (h : e.WF) (v : ℕ) (hv : v ∉ f.vars) (σ : ℕ → ℤ)
    (hd : (σ v : ℚ) = exprValue f σ) : exprValue (e.substitute v f) σ = exprValue e σ := by
  rw [substitute_value e f h v hv, hd]; ring

/-- All definitions hold. -/
def Defs (ds : List (ℕ × ℕ)) (u : ℕ → UserExpr) (σ : ℕ → ℤ) : Prop :=
  ∀ d ∈ ds, (σ d.1 : ℚ) = exprValue (u d.2).expr σ

/-- The definitions are ordered by a rank. -/
def Ranked (ds : List (ℕ × ℕ)) (u : ℕ → UserExpr) (r : ℕ → ℕ) : Prop :=
  ∀ d ∈ ds, ∀ w ∈ (u d.2).expr.vars, w ∈ ds.map Prod.fst → r w < r d.1

theorem Ranked.self {ds : List (ℕ × ℕ)} {u : ℕ → UserExpr} {r : ℕ → ℕ} (h : Ranked ds u r) {d : ℕ × ℕ}
    (hd : d ∈ ds) : d.1 ∉ (u d.2).expr.vars := fun hv =>
  absurd (h d hd d.1 hv (List.mem_map.2 ⟨d, hd, rfl⟩)) (lt_irrefl _)

theorem elimObj_spec (m : MState) (ds0 : List (ℕ × ℕ)) (hs : ∀ d ∈ ds0, d.1 ∉ (m.uexpr d.2).expr.vars)
    (σ : ℕ → ℤ) (hd : Defs ds0 m.uexpr σ) (ds : List (ℕ × ℕ)) : ∀ s : Expr × ℕ, (∀ d ∈ ds, d ∈ ds0) → s.1.WF →
    exprValue (elimObj m ds s).1 σ = exprValue s.1 σ := by
  induction ds with
  | nil => intro s _ _; rfl
  | cons d ds ih =>
    intro s hsub hw
    unfold elimObj
    have hdm := hsub d (by simp)
    split
    · rw [ih _ (fun d hd => hsub d (List.mem_cons_of_mem _ hd)) (substitute_wf _ _ hw _)]
      exact substitute_same _ _ hw _ (hs d hdm) σ (hd d hdm)
    · exact ih _ (fun d hd => hsub d (List.mem_cons_of_mem _ hd)) hw

theorem elimObj_wf (m : MState) (ds : List (ℕ × ℕ)) : ∀ s : Expr × ℕ, s.1.WF → (elimObj m ds s).1.WF := by
  induction ds with
  | nil => intro s h; exact h
  | cons d ds ih =>
    intro s hw
    unfold elimObj
    split
    · exact ih _ (substitute_wf _ _ hw _)
    · exact ih _ hw

theorem elimObj_count (m : MState) (ds : List (ℕ × ℕ)) : ∀ s : Expr × ℕ, s.2 ≤ (elimObj m ds s).2 ∧
    ((elimObj m ds s).2 = s.2 ↔ ∀ d ∈ ds, d.1 ∉ s.1.vars) ∧
    ((elimObj m ds s).2 = s.2 → (elimObj m ds s).1 = s.1) := by
  induction ds with
  | nil => intro s; simp [elimObj]
  | cons d ds ih =>
    intro s
    unfold elimObj
    split
    · rename_i h
      obtain ⟨h1, _, _⟩ := ih (s.1.substitute d.1 (m.uexpr d.2).expr, s.2 + 1)
      simp only [] at h1
      refine ⟨by omega, ⟨fun e => by omega, fun e => absurd h (e d (by simp))⟩, fun e => by omega⟩
    · rename_i h
      obtain ⟨h1, h2, h3⟩ := ih s
      refine ⟨h1, ?_, h3⟩
      rw [h2]
      constructor
      · intro e d' hd'
        rcases List.mem_cons.1 hd' with rfl | hd'
        · exact h
        · exact e d' hd'
      · intro e d' hd'; exact e d' (List.mem_cons_of_mem _ hd')

/-- If the definitions mention no variable of `S`, no new variable of `S` appears, and the substituted ones
disappear. -/
theorem elimObj_vars (m : MState) (S : ℕ → Prop) (ds : List (ℕ × ℕ))
    (hf : ∀ d ∈ ds, ∀ w ∈ (m.uexpr d.2).expr.vars, ¬ S w) : ∀ s : Expr × ℕ, ∀ w ∈ (elimObj m ds s).1.vars, S w →
    w ∈ s.1.vars ∧ w ∉ ds.map Prod.fst := by
  induction ds with
  | nil => intro s w hw _; exact ⟨hw, by simp⟩
  | cons d ds ih =>
    intro s w hw hS
    have ih := ih (fun d hd => hf d (List.mem_cons_of_mem _ hd))
    unfold elimObj at hw
    split at hw
    · obtain ⟨h1, h2⟩ := ih _ w hw hS
      simp only [] at h1
      obtain ⟨h3, h4⟩ := (substitute_vars _ _ _ _).1 h1
      refine ⟨h4.resolve_right (fun h => hf d (by simp) w h hS), ?_⟩
      rw [List.map_cons, List.mem_cons, not_or]
      exact ⟨h3, h2⟩
    · rename_i hn
      obtain ⟨h1, h2⟩ := ih _ w hw hS
      refine ⟨h1, ?_⟩
      rw [List.map_cons, List.mem_cons, not_or]
      exact ⟨fun e => hn (e ▸ h1), h2⟩

/-! Constraints -/

/-- The data of a constraint other than its expression. -/
def SameKind (k k' : Con) : Prop := k'.sense = k.sense ∧ k'.enabled = k.enabled

theorem elimConsOf_spec (v : ℕ) (f : Expr) (cs : List ℕ) : ∀ s : (ℕ → Con) × ℕ,
    s.2 ≤ (elimConsOf v f cs s).2 ∧
    (∀ c, SameKind (s.1 c) ((elimConsOf v f cs s).1 c)) ∧
    (∀ c, (s.1 c).expr.WF → ((elimConsOf v f cs s).1 c).expr.WF) ∧
    ((elimConsOf v f cs s).2 = s.2 ↔ ∀ c ∈ cs, (s.1 c).enabled = false) ∧
    ((elimConsOf v f cs s).2 = s.2 → (elimConsOf v f cs s).1 = s.1) := by
  induction cs with
  | nil => intro s; simp [elimConsOf, SameKind]
  | cons c cs ih =>
    intro s
    unfold elimConsOf
    split
    · rename_i he
      generalize hk : ({ s.1 c with expr := (s.1 c).expr.substitute v f } : Con) = k
      have hks : k.sense = (s.1 c).sense := by rw [← hk]
      have hke : k.enabled = (s.1 c).enabled := by rw [← hk]
      have hkx : k.expr = (s.1 c).expr.substitute v f := by rw [← hk]
      obtain ⟨h1, h2, h3, h4, h5⟩ := ih (Function.update s.1 c k, s.2 + 1)
      simp only [] at h1 h2 h3
      have up : ∀ c', SameKind (s.1 c') (Function.update s.1 c k c') := by
        intro c'
        by_cases hc : c' = c
        · subst hc; rw [Function.update_self]; exact ⟨hks, hke⟩
        · rw [Function.update_of_ne hc]; exact ⟨rfl, rfl⟩
      refine ⟨by omega, fun c' => ⟨(h2 c').1.trans (up c').1, (h2 c').2.trans (up c').2⟩, fun c' hw => h3 c' ?_,
        ⟨fun e => by omega, fun e => ?_⟩, fun e => by omega⟩
      · by_cases hc : c' = c
        · subst hc; rw [Function.update_self, hkx]; exact substitute_wf _ _ hw _
        · rw [Function.update_of_ne hc]; exact hw
      · have := e c (by simp); rw [this] at he; exact absurd he (by simp)
    · rename_i he
      obtain ⟨h1, h2, h3, h4, h5⟩ := ih s
      refine ⟨h1, h2, h3, ?_, h5⟩
      rw [h4]
      constructor
      · intro e c' hc'
        rcases List.mem_cons.1 hc' with rfl | hc'
        · simpa using he
        · exact e c' hc'
      · intro e c' hc'; exact e c' (List.mem_cons_of_mem _ hc')

theorem elimConsOf_value (v : ℕ) (f : Expr) (hv : v ∉ f.vars) (σ : ℕ → ℤ) (hd : (σ v : ℚ) = exprValue f σ)
    (cs : List ℕ) : ∀ s : (ℕ → Con) × ℕ, ∀ c, ((s.1 c).enabled = true → (s.1 c).expr.WF) →
    exprValue ((elimConsOf v f cs s).1 c).expr σ = exprValue (s.1 c).expr σ := by
  induction cs with
  | nil => intro s c _; rfl
  | cons i cs ih =>
    intro s c hw
    unfold elimConsOf
    split
    · rename_i he
      rw [ih _ c (by
        intro hc'
        simp only [] at hc' ⊢
        by_cases hc : c = i
        · subst hc; rw [Function.update_self]; exact substitute_wf _ _ (hw he) _
        · rw [Function.update_of_ne hc] at hc' ⊢; exact hw hc')]
      simp only []
      by_cases hc : c = i
      · subst hc; rw [Function.update_self]; exact substitute_same _ _ (hw he) _ hv σ hd
      · rw [Function.update_of_ne hc]
    · exact ih s c hw

theorem elimConsOf_vars (v : ℕ) (f : Expr) (S : ℕ → Prop) (hf : ∀ w ∈ f.vars, ¬ S w) (cs : List ℕ) :
    ∀ s : (ℕ → Con) × ℕ, ∀ c, (s.1 c).enabled = true → ∀ w ∈ ((elimConsOf v f cs s).1 c).expr.vars, S w →
      w ∈ (s.1 c).expr.vars ∧ (c ∈ cs → w ≠ v) := by
  induction cs with
  | nil => intro s c _ w hw _; exact ⟨hw, fun h => absurd h (by simp)⟩
  | cons i cs ih =>
    intro s c hec w hw hS
    unfold elimConsOf at hw
    split at hw
    · rename_i he
      obtain ⟨h1, h2⟩ := ih _ c (by
        simp only []
        by_cases hc : c = i
        · subst hc; rw [Function.update_self]; exact hec
        · rw [Function.update_of_ne hc]; exact hec) w hw hS
      simp only [] at h1
      by_cases hc : c = i
      · subst hc
        rw [Function.update_self] at h1
        obtain ⟨h3, h4⟩ := (substitute_vars _ _ _ _).1 h1
        exact ⟨h4.resolve_right (fun h => hf w h hS), fun _ => h3⟩
      · rw [Function.update_of_ne hc] at h1
        exact ⟨h1, fun h => h2 ((List.mem_cons.1 h).resolve_left hc)⟩
    · rename_i he
      obtain ⟨h1, h2⟩ := ih s c hec w hw hS
      exact ⟨h1, fun h => h2 ((List.mem_cons.1 h).resolve_left (fun e => he (e ▸ hec)))⟩

theorem elimCons_spec (m : MState) (rel : ℕ → List ℕ) (ds : List (ℕ × ℕ)) : ∀ s : (ℕ → Con) × ℕ,
    s.2 ≤ (elimCons m rel ds s).2 ∧
    (∀ c, SameKind (s.1 c) ((elimCons m rel ds s).1 c)) ∧
    (∀ c, (s.1 c).expr.WF → ((elimCons m rel ds s).1 c).expr.WF) ∧
    ((elimCons m rel ds s).2 = s.2 ↔ ∀ d ∈ ds, ∀ c ∈ rel d.1, (s.1 c).enabled = false) ∧
    ((elimCons m rel ds s).2 = s.2 → (elimCons m rel ds s).1 = s.1) := by
  induction ds with
  | nil => intro s; simp [elimCons, SameKind]
  | cons d ds ih =>
    intro s
    unfold elimCons
    obtain ⟨a1, a2, a3, a4, a5⟩ := elimConsOf_spec d.1 (m.uexpr d.2).expr (rel d.1) s
    generalize elimConsOf d.1 (m.uexpr d.2).expr (rel d.1) s = s' at *
    obtain ⟨h1, h2, h3, h4, h5⟩ := ih s'
    refine ⟨by omega, fun c => ⟨(h2 c).1.trans (a2 c).1, (h2 c).2.trans (a2 c).2⟩, fun c hw => h3 c (a3 c hw),
      ⟨fun e => ?_, fun e => ?_⟩, fun e => ?_⟩
    · have e1 : s'.2 = s.2 := by omega
      have e2 := h4.1 (by omega)
      rw [a5 e1] at e2
      intro d' hd'
      rcases List.mem_cons.1 hd' with rfl | hd'
      · exact a4.1 e1
      · exact e2 d' hd'
    · have e1 := a4.2 (e d (by simp))
      have e2 := h4.2 (by
        rw [a5 e1]; intro d' hd'; exact e d' (List.mem_cons_of_mem _ hd'))
      omega
    · have e1 : s'.2 = s.2 := by omega
      rw [h5 (by omega), a5 e1]

theorem elimCons_value (m : MState) (rel : ℕ → List ℕ) (ds0 : List (ℕ × ℕ))
    (hs : ∀ d ∈ ds0, d.1 ∉ (m.uexpr d.2).expr.vars) (σ : ℕ → ℤ) (hd : Defs ds0 m.uexpr σ) (ds : List (ℕ × ℕ)) :
    ∀ s : (ℕ → Con) × ℕ, (∀ d ∈ ds, d ∈ ds0) → ∀ c, ((s.1 c).enabled = true → (s.1 c).expr.WF) →
    exprValue ((elimCons m rel ds s).1 c).expr σ = exprValue (s.1 c).expr σ := by
  induction ds with
  | nil => intro s _ c _; rfl
  | cons d ds ih =>
    intro s hsub c hw
    unfold elimCons
    have hdm := hsub d (by simp)
    obtain ⟨_, a2, a3, _, _⟩ := elimConsOf_spec d.1 (m.uexpr d.2).expr (rel d.1) s
    rw [ih _ (fun d hd => hsub d (List.mem_cons_of_mem _ hd)) c
      (fun he => a3 c (hw (by rw [(a2 c).2] at he; exact he)))]
    exact elimConsOf_value _ _ (hs d hdm) σ (hd d hdm) _ s c hw

theorem elimCons_vars (m : MState) (rel : ℕ → List ℕ) (S : ℕ → Prop) (ds : List (ℕ × ℕ))
    (hf : ∀ d ∈ ds, ∀ w ∈ (m.uexpr d.2).expr.vars, ¬ S w) : ∀ s : (ℕ → Con) × ℕ, ∀ c,
    (s.1 c).enabled = true → ∀ w ∈ ((elimCons m rel ds s).1 c).expr.vars, S w →
      w ∈ (s.1 c).expr.vars ∧ (c ∈ rel w → w ∉ ds.map Prod.fst) := by
  induction ds with
  | nil => intro s c _ w hw _; exact ⟨hw, by simp⟩
  | cons d ds ih =>
    intro s c he w hw hS
    unfold elimCons at hw
    obtain ⟨_, a2, a3, _, _⟩ := elimConsOf_spec d.1 (m.uexpr d.2).expr (rel d.1) s
    obtain ⟨h1, h2⟩ := ih (fun d hd => hf d (List.mem_cons_of_mem _ hd)) _ c (by rw [(a2 c).2]; exact he) w hw hS
    obtain ⟨h3, h4⟩ := elimConsOf_vars d.1 _ S (hf d (by simp)) _ s c he w h1 hS
    refine ⟨h3, fun hr => ?_⟩
    rw [List.map_cons, List.mem_cons, not_or]
    exact ⟨fun e => h4 (e ▸ hr) e, h2 hr⟩

/-! Expressions -/

theorem elimExprsOf_spec (ds : List (ℕ × ℕ)) (r : ℕ → ℕ) (d : ℕ × ℕ) (hdm : d ∈ ds) (is : List ℕ) :
    ∀ s : (ℕ → UserExpr) × ℕ, Ranked ds s.1 r → (∀ i, (s.1 i).expr.WF) →
    Ranked ds (elimExprsOf d is s).1 r ∧ (∀ i, ((elimExprsOf d is s).1 i).expr.WF) ∧
    (∀ σ, Defs ds (elimExprsOf d is s).1 σ ↔ Defs ds s.1 σ) ∧
    (elimExprsOf d is s).1 d.2 = s.1 d.2 ∧
    (∀ i ∈ is, d.1 ∉ ((elimExprsOf d is s).1 i).expr.vars) ∧
    (∀ i, ∀ w ∈ ((elimExprsOf d is s).1 i).expr.vars, w ∈ (s.1 i).expr.vars ∨ w ∈ (s.1 d.2).expr.vars) ∧
    s.2 ≤ (elimExprsOf d is s).2 ∧
    ((elimExprsOf d is s).2 = s.2 ↔ ∀ i ∈ is, d.1 ∉ (s.1 i).expr.vars) ∧
    ((elimExprsOf d is s).2 = s.2 → (elimExprsOf d is s).1 = s.1) := by
  induction is with
  | nil => intro s hr hw; simp [elimExprsOf]; exact ⟨hr, hw, fun i w hw => Or.inl hw⟩
  | cons i is ih =>
    intro s hr hw
    unfold elimExprsOf
    split
    · rename_i hv
      have hne : i ≠ d.2 := by
        intro e; rw [e] at hv; exact hr.self hdm hv
      generalize hu : Function.update s.1 i { s.1 i with expr := (s.1 i).expr.substitute d.1 (s.1 d.2).expr } = u
      have hui : (u i).expr = (s.1 i).expr.substitute d.1 (s.1 d.2).expr := by
        rw [← hu, Function.update_self]
      have huo : ∀ j, j ≠ i → u j = s.1 j := fun j hj => by rw [← hu, Function.update_of_ne hj]
      have hud : u d.2 = s.1 d.2 := huo _ (Ne.symm hne)
      have hr' : Ranked ds u r := by
        intro d' hd' w hw' hws
        by_cases hi : d'.2 = i
        · rw [hi, hui] at hw'
          obtain ⟨h1, h2⟩ := (substitute_vars _ _ _ _).1 hw'
          rcases h2 with h2 | h2
          · exact hr d' hd' w (hi ▸ h2) hws
          · exact lt_trans (hr d hdm w h2 hws) (hr d' hd' d.1 (hi ▸ hv) (List.mem_map.2 ⟨d, hdm, rfl⟩))
        · rw [huo _ hi] at hw'; exact hr d' hd' w hw' hws
      have hw' : ∀ j, (u j).expr.WF := by
        intro j
        by_cases hj : j = i
        · rw [hj, hui]; exact substitute_wf _ _ (hw i) _
        · rw [huo j hj]; exact hw j
      have hdefs : ∀ σ, Defs ds u σ ↔ Defs ds s.1 σ := by
        intro σ
        have same : (σ d.1 : ℚ) = exprValue (s.1 d.2).expr σ → exprValue (u i).expr σ = exprValue (s.1 i).expr σ := by
          intro h; rw [hui]; exact substitute_same _ _ (hw i) _ (hr.self hdm) σ h
        constructor
        · intro h d' hd'
          have h0 := h d hdm
          rw [hud] at h0
          by_cases hi : d'.2 = i
          · rw [hi, ← same h0]; rw [← hi]; exact h d' hd'
          · rw [← huo _ hi]; exact h d' hd'
        · intro h d' hd'
          by_cases hi : d'.2 = i
          · rw [hi, same (h d hdm), ← hi]; exact h d' hd'
          · rw [huo _ hi]; exact h d' hd'
      obtain ⟨b1, b2, b3, b4, b5, b6, b7, b8, b9⟩ := ih (u, s.2 + 1) hr' hw'
      simp only [] at b3 b4 b6 b7 b8 b9
      refine ⟨b1, b2, fun σ => (b3 σ).trans (hdefs σ), b4.trans hud, ?_, ?_, by omega,
        ⟨fun e => by omega, fun e => absurd hv (e i (by simp))⟩, fun e => by omega⟩
      · intro j hj
        rcases List.mem_cons.1 hj with rfl | hj
        · intro hmem
          rcases b6 j d.1 hmem with h | h
          · rw [hui] at h; exact ((substitute_vars _ _ _ _).1 h).1 rfl
          · rw [hud] at h; exact hr.self hdm h
        · exact b5 j hj
      · intro j w hmem
        rcases b6 j w hmem with h | h
        · by_cases hj : j = i
          · rw [hj, hui] at h; rw [hj]; exact ((substitute_vars _ _ _ _).1 h).2
          · rw [huo j hj] at h; exact Or.inl h
        · rw [hud] at h; exact Or.inr h
    · rename_i hv
      obtain ⟨b1, b2, b3, b4, b5, b6, b7, b8, b9⟩ := ih s hr hw
      refine ⟨b1, b2, b3, b4, ?_, b6, b7, ?_, b9⟩
      · intro j hj
        rcases List.mem_cons.1 hj with rfl | hj
        · intro hmem
          rcases b6 j d.1 hmem with h | h
          · exact hv h
          · exact hr.self hdm h
        · exact b5 j hj
      · rw [b8]
        constructor
        · intro e j hj
          rcases List.mem_cons.1 hj with rfl | hj
          · exact hv
          · exact e j hj
        · intro e j hj; exact e j (List.mem_cons_of_mem _ hj)

theorem elimExprs_spec (ds0 : List (ℕ × ℕ)) (r : ℕ → ℕ) (ids : List ℕ) (hids : ∀ d ∈ ds0, d.2 ∈ ids)
    (ds : List (ℕ × ℕ)) : ∀ s : (ℕ → UserExpr) × ℕ, (∀ d ∈ ds, d ∈ ds0) → Ranked ds0 s.1 r →
    (∀ i, (s.1 i).expr.WF) →
    Ranked ds0 (elimExprs ids ds s).1 r ∧ (∀ i, ((elimExprs ids ds s).1 i).expr.WF) ∧
    (∀ σ, Defs ds0 (elimExprs ids ds s).1 σ ↔ Defs ds0 s.1 σ) ∧
    (∀ i ∈ ids, ∀ w ∈ ((elimExprs ids ds s).1 i).expr.vars, w ∉ ds.map Prod.fst) ∧
    (∀ w, (∀ i ∈ ids, w ∉ (s.1 i).expr.vars) → ∀ i ∈ ids, w ∉ ((elimExprs ids ds s).1 i).expr.vars) ∧
    s.2 ≤ (elimExprs ids ds s).2 ∧
    ((elimExprs ids ds s).2 = s.2 ↔ ∀ d ∈ ds, ∀ i ∈ ids, d.1 ∉ (s.1 i).expr.vars) ∧
    ((elimExprs ids ds s).2 = s.2 → (elimExprs ids ds s).1 = s.1) := by
  induction ds with
  | nil => intro s _ hr hw; simp [elimExprs]; exact ⟨hr, hw⟩
  | cons d ds ih =>
    intro s hsub hr hw
    have hdm := hsub d (by simp)
    obtain ⟨a1, a2, a3, a4, a5, a6, a7, a8, a9⟩ := elimExprsOf_spec ds0 r d hdm ids s hr hw
    unfold elimExprs
    generalize elimExprsOf d ids s = s' at *
    obtain ⟨b1, b2, b3, b4, b5, b6, b7, b8⟩ := ih s' (fun d hd => hsub d (List.mem_cons_of_mem _ hd)) a1 a2
    refine ⟨b1, b2, fun σ => (b3 σ).trans (a3 σ), ?_, ?_, by omega, ⟨fun e => ?_, fun e => ?_⟩, fun e => ?_⟩
    · intro i hi w hmem
      rw [List.map_cons, List.mem_cons, not_or]
      refine ⟨fun e => b5 d.1 a5 i hi (e ▸ hmem), b4 i hi w hmem⟩
    · intro w hfree
      refine b5 w (fun i hi hmem => ?_)
      rcases a6 i w hmem with h | h
      · exact hfree i hi h
      · exact hfree d.2 (hids d hdm) h
    · have e1 : s'.2 = s.2 := by omega
      have e2 := b7.1 (by omega)
      rw [a9 e1] at e2
      intro d' hd'
      rcases List.mem_cons.1 hd' with rfl | hd'
      · exact a8.1 e1
      · exact e2 d' hd'
    · have e1 := a8.2 (e d (by simp))
      have e2 := b7.2 (by rw [a9 e1]; intro d' hd'; exact e d' (List.mem_cons_of_mem _ hd'))
      omega
    · have e1 : s'.2 = s.2 := by omega
      rw [b8 (by omega), a9 e1]

/-! A whole round and the loop -/

/-- What elimination needs: the definitions are acyclic, expressions are well formed, and the defining
expressions are among the expressions of the model. -/
structure ElimOK (m : MState) (r : ℕ → ℕ) : Prop where
  ranked : Ranked m.dependents m.uexpr r
  exprs : ∀ i, (m.uexpr i).expr.WF
  cons : ∀ c ∈ m.conIds, (m.con c).expr.WF
  obj : m.obj.WF
  ids : ∀ d ∈ m.dependents, d.2 ∈ m.uexprIds

/-- No definition mentions a dependent variable. -/
def FreeExprs (m : MState) : Prop := ∀ i ∈ m.uexprIds, ∀ w ∈ (m.uexpr i).expr.vars, ¬ IsDependent m w

/-- Neither the objective nor an enabled constraint mentions a dependent variable. -/
def FreeRest (m : MState) : Prop := (∀ w ∈ m.obj.vars, ¬ IsDependent m w) ∧
  ∀ c ∈ m.conIds, (m.con c).enabled = true → ∀ w ∈ (m.con c).expr.vars, ¬ IsDependent m w

theorem isDependent_iff (m : MState) (w : ℕ) : IsDependent m w ↔ w ∈ m.dependents.map Prod.fst := by
  unfold IsDependent; rw [List.mem_map]

theorem eliminate_spec (m : MState) (r : ℕ → ℕ) (h : ElimOK m r) (ds : List (ℕ × ℕ))
    (hds : ∀ d, d ∈ ds ↔ d ∈ m.dependents) :
    ElimOK (eliminate ds m).1 r ∧ (eliminate ds m).1.dependents = m.dependents ∧
    (∀ σ, FeasibleDep (eliminate ds m).1 σ ↔ FeasibleDep m σ) ∧
    (∀ σ, FeasibleDep m σ → exprValue (eliminate ds m).1.obj σ = exprValue m.obj σ) ∧
    (eliminate ds m).1.isMin = m.isMin ∧
    FreeExprs (eliminate ds m).1 ∧ (FreeExprs m → FreeRest (eliminate ds m).1) ∧
    ((eliminate ds m).2 = 0 ↔ FreeExprs m ∧ FreeRest m) ∧
    ((eliminate ds m).2 = 0 → (eliminate ds m).1 = m) := by
  have hsub : ∀ d ∈ ds, d ∈ m.dependents := fun d hd => (hds d).1 hd
  have hself : ∀ d ∈ m.dependents, d.1 ∉ (m.uexpr d.2).expr.vars := fun d hd => h.ranked.self hd
  have hmem : ∀ w, w ∈ ds.map Prod.fst ↔ IsDependent m w := by
    intro w
    rw [isDependent_iff, List.mem_map, List.mem_map]
    simp only [hds]
  obtain ⟨x1, x2, x3, x4, x5, x6, x7, x8⟩ :=
    elimExprs_spec m.dependents r m.uexprIds h.ids ds (m.uexpr, 0) hsub h.ranked h.exprs
  obtain ⟨c1, c2, c3, c4, c5⟩ := elimCons_spec m (relatedCons m) ds (m.con, 0)
  obtain ⟨o1, o2, o3⟩ := elimObj_count m ds (m.obj, 0)
  have cv := fun σ hd c hc => elimCons_value m (relatedCons m) m.dependents hself σ hd ds (m.con, 0) hsub c
    (fun _ => h.cons c hc)
  have ov := fun σ hd => elimObj_spec m m.dependents hself σ hd ds (m.obj, 0) hsub h.obj
  have ow := elimObj_wf m ds (m.obj, 0) h.obj
  have cvars := fun (hf : FreeExprs m) => elimCons_vars m (relatedCons m) (IsDependent m) ds
    (fun d hd w hw => hf d.2 (h.ids d (hsub d hd)) w hw) (m.con, 0)
  have ovars := fun (hf : FreeExprs m) => elimObj_vars m (IsDependent m) ds
    (fun d hd w hw => hf d.2 (h.ids d (hsub d hd)) w hw) (m.obj, 0)
  simp only [] at x3 x4 x5 x6 x7 x8 c1 c2 c3 c4 c5 o1 o2 o3 cv ov ow cvars ovars
  unfold eliminate
  simp only []
  refine ⟨⟨x1, x2, fun c hc => c3 c (h.cons c hc), ow, h.ids⟩, by trivial, fun σ => ?_, fun σ hf => ov σ hf.defs, by trivial,
    fun i hi w hw hdw => x4 i hi w hw ((hmem w).2 hdw), fun hf => ⟨fun w hw hdw => ?_, fun c hc he w hw hdw => ?_⟩,
    ?_, fun e => ?_⟩
  · constructor
    · intro hf
      have hd := (x3 σ).1 hf.defs
      refine ⟨hf.bounds, hd, fun c hc he => ?_⟩
      have := hf.cons c hc (by simp only []; rw [(c2 c).2]; exact he)
      unfold Holds at this ⊢
      simp only [] at this
      rw [(c2 c).1, cv σ hd c hc] at this
      exact this
    · intro hf
      refine ⟨hf.bounds, (x3 σ).2 hf.defs, fun c hc he => ?_⟩
      have := hf.cons c hc (by simp only [] at he; rw [(c2 c).2] at he; exact he)
      unfold Holds at this ⊢
      simp only []
      rw [(c2 c).1, cv σ hf.defs c hc]
      exact this
  · exact (ovars hf w hw hdw).2 ((hmem w).2 hdw)
  · simp only [] at he
    rw [(c2 c).2] at he
    obtain ⟨h1, h2⟩ := cvars hf c he w hw hdw
    exact h2 (List.mem_filter.2 ⟨hc, by simpa using h1⟩) ((hmem w).2 hdw)
  · constructor
    · intro e
      have e1 := o2.1 (by omega)
      have e2 := c4.1 (by omega)
      have e3 := x7.1 (by omega)
      refine ⟨fun i hi w hw hdw => ?_, fun w hw hdw => ?_, fun c hc he w hw hdw => ?_⟩
      · obtain ⟨d, hd, rfl⟩ := hdw; exact e3 d ((hds d).2 hd) i hi hw
      · obtain ⟨d, hd, rfl⟩ := hdw; exact e1 d ((hds d).2 hd) hw
      · obtain ⟨d, hd, rfl⟩ := hdw
        have := e2 d ((hds d).2 hd) c (List.mem_filter.2 ⟨hc, by simpa using hw⟩)
        rw [this] at he; exact absurd he (by simp)
    · rintro ⟨f1, f2, f3⟩
      have e1 := o2.2 (fun d hd hv => f2 d.1 hv ⟨d, hsub d hd, rfl⟩)
      have e2 := c4.2 (fun d hd c hc => by
        obtain ⟨g1, g2⟩ := List.mem_filter.1 hc
        by_contra hne
        exact f3 c g1 (by simpa using hne) d.1 (by simpa using g2) ⟨d, hsub d hd, rfl⟩)
      have e3 := x7.2 (fun d hd i hi hv => f1 i hi d.1 hv ⟨d, hsub d hd, rfl⟩)
      omega
  · rw [o3 (by omega), c5 (by omega), x8 (by omega)]

theorem eliminateLoop_spec (m : MState) (r : ℕ → ℕ) (h : ElimOK m r) (ds : List (ℕ × ℕ))
    (hds : ∀ d, d ∈ ds ↔ d ∈ m.dependents) (fuel : ℕ) (hfuel : 3 ≤ fuel) :
    ∃ m', eliminateLoop ds fuel m = some m' ∧ m'.dependents = m.dependents ∧ m'.isMin = m.isMin ∧
      (∀ σ, FeasibleDep m' σ ↔ FeasibleDep m σ) ∧
      (∀ σ, FeasibleDep m σ → exprValue m'.obj σ = exprValue m.obj σ) ∧
      FreeExprs m' ∧ FreeRest m' ∧ ElimOK m' r := by
  obtain ⟨n, rfl⟩ := Nat.exists_eq_add_of_le' hfuel
  obtain ⟨a1, a2, a3, a4, a5, a6, _, a8, a9⟩ := eliminate_spec m r h ds hds
  rw [show n + 3 = (n + 2) + 1 from rfl, eliminateLoop]
  split
  · rename_i h0
    have := a8.1 h0
    refine ⟨_, rfl, a2, a5, a3, a4, a6, ?_, a1⟩
    rw [a9 h0]; exact this.2
  generalize (eliminate ds m).1 = m1 at *
  obtain ⟨b1, b2, b3, b4, b5, b6, b7, b8, b9⟩ := eliminate_spec m1 r a1 ds (fun d => by rw [a2]; exact hds d)
  rw [show n + 2 = (n + 1) + 1 from rfl, eliminateLoop]
  have hobj : ∀ σ, FeasibleDep m σ → exprValue (eliminate ds m1).1.obj σ = exprValue m.obj σ := fun σ hf =>
    (b4 σ ((a3 σ).2 hf)).trans (a4 σ hf)
  split
  · exact ⟨_, rfl, b2.trans a2, b5.trans a5, fun σ => (b3 σ).trans (a3 σ), hobj, b6, b7 a6, b1⟩
  have b7' := b7 a6
  generalize (eliminate ds m1).1 = m2 at *
  obtain ⟨d1, d2, d3, d4, d5, d6, d7, d8, d9⟩ := eliminate_spec m2 r b1 ds
    (fun d => by rw [b2, a2]; exact hds d)
  rw [eliminateLoop]
  have h0 := d8.2 ⟨b6, b7'⟩
  rw [if_pos h0]
  refine ⟨_, rfl, ?_⟩
  rw [d9 h0]
  exact ⟨b2.trans a2, b5.trans a5, fun σ => (b3 σ).trans (a3 σ), hobj, b6, b7', b1⟩

/-! ### After extraction -/

theorem nodup_filter_count_one {α : Type} [DecidableEq α] (l : List α) :
    (l.filter (fun a => l.count a == 1)).Nodup := by
  rw [List.nodup_iff_count_le_one]
  intro a
  by_cases h : a ∈ l.filter (fun a => l.count a == 1)
  · have h1 : l.count a = 1 := by simpa using (List.mem_filter.1 h).2
    exact le_trans (List.Sublist.count_le a List.filter_sublist) (le_of_eq h1)
  · rw [List.count_eq_zero_of_not_mem h]; exact Nat.zero_le _

theorem chosen_keys_nodup (m : MState) (key : ℕ → ℕ) (cs : List ℕ) : ((chosen m key cs).map key).Nodup := by
  have h := nodup_filter_count_one ((surviving m key [] cs).map key)
  rw [List.filter_map] at h
  exact h

theorem extract_fields (senseOf : ℕ → VarSense) (key : ℕ → ℕ) (cs : List ℕ) (nextC nextE : ℕ) (m m' : MState)
    (hx : extract senseOf key cs nextC nextE m = some m') :
    m'.dependents = m.dependents ++ (List.range (chosen m key cs).length).map
      (fun k => (((chosen m key cs).map key).getD k 0, nextE + k)) ∧
    m'.uexprIds = m.uexprIds ++ (List.range (chosen m key cs).length).map (nextE + ·) ∧
    m'.obj = m.obj ∧ m'.isMin = m.isMin ∧
    (∀ k (hk : k < (chosen m key cs).length), (m'.uexpr (nextE + k)).expr = solved m key (chosen m key cs)[k]) ∧
    (∀ i, m'.uexpr i = m.uexpr i ∨ (m'.uexpr i).expr = ⟨[], 0, 0⟩ ∨
      ∃ c ∈ chosen m key cs, (m'.uexpr i).expr = solved m key c) ∧
    (∀ c, (m'.con c).expr = (m.con c).expr ∨ ∃ i ∈ chosen m key cs, ∃ b, (m'.con c).expr =
      (Expr.subValue (solved m key i) b) ∨ (m'.con c).expr = (m.con c).expr) := by
  unfold extract at hx
  simp only [] at hx
  split at hx
  · simp only [Option.some.injEq] at hx
    rw [← hx]
    refine ⟨rfl, rfl, rfl, rfl, fun k hk => ?_, fun i => ?_, fun c => ?_⟩
    · simp only []
      rw [if_pos ⟨Nat.le_add_right _ _, Nat.add_lt_add_left hk _⟩, Nat.add_sub_cancel_left,
        getD_of_lt _ _ (by rw [List.length_map]; exact hk), List.getElem_map]
    · simp only []
      by_cases hi : nextE ≤ i ∧ i < nextE + (chosen m key cs).length
      · rw [if_pos hi]
        right; right
        have hk : i - nextE < (chosen m key cs).length := by omega
        refine ⟨(chosen m key cs)[i - nextE], List.getElem_mem _, ?_⟩
        simp only []
        rw [getD_of_lt _ _ (by rw [List.length_map]; exact hk), List.getElem_map]
      · rw [if_neg hi]; exact Or.inl rfl
    · simp only []
      generalize hexd : (chosen m key cs).flatMap
        (fun c => extraConstraints senseOf m (key c) (solved m key c)) = extra
      by_cases hi : nextC ≤ c ∧ c < nextC + extra.length
      · rw [if_pos hi]
        right
        have hk : c - nextC < extra.length := Nat.sub_lt_left_of_lt_add hi.1 hi.2
        rw [getD_of_lt _ _ hk]
        have hmem : extra[c - nextC] ∈ extra := List.getElem_mem _
        generalize extra[c - nextC] = x at hmem
        rw [← hexd] at hmem
        obtain ⟨j, hj, hx⟩ := List.mem_flatMap.1 hmem
        refine ⟨j, hj, ?_⟩
        unfold extraConstraints at hx
        rcases List.mem_append.1 hx with hx | hx
        · split at hx
          · rw [List.mem_singleton] at hx; subst hx; exact ⟨_, Or.inl rfl⟩
          · simp at hx
        · split at hx
          · rw [List.mem_singleton] at hx; subst hx; exact ⟨_, Or.inl rfl⟩
          · simp at hx
      · rw [if_neg hi]
        left
        split <;> rfl
  · exact absurd hx (by simp)

theorem extract_elimOK (senseOf : ℕ → VarSense) (key : ℕ → ℕ) (cs : List ℕ) (nextC nextE : ℕ) (m m' : MState)
    (h : Candidates m key cs) (hw : ∀ c, (m.con c).expr.WF) (hu : ∀ i, (m.uexpr i).expr.WF) (ho : m.obj.WF)
    (hd0 : m.dependents = []) (ha : Acyclic m key (chosen m key cs))
    (hx : extract senseOf key cs nextC nextE m = some m') :
    (∃ r, ElimOK m' r) ∧ (m'.dependents.map Prod.fst).Nodup := by
  obtain ⟨f1, f2, f3, _, f5, f6, f7⟩ := extract_fields senseOf key cs nextC nextE m m' hx
  have hsub := chosen_sub m key cs
  have swf : ∀ c ∈ chosen m key cs, (solved m key c).WF := fun c hc =>
    solve_wf _ _ (hw c) _ (solved_spec h (fun c _ => hw c) c (hsub c hc).1)
  rw [hd0, List.nil_append] at f1
  have hdk : m'.dependents.map Prod.fst = (chosen m key cs).map key := by
    rw [f1, List.map_map]
    apply List.ext_getElem
    · simp
    · intro n h1 h2
      rw [List.getElem_map, List.getElem_range]
      show ((chosen m key cs).map key).getD n 0 = _
      rw [getD_of_lt _ _ h2]
  refine ⟨?_, by rw [hdk]; exact chosen_keys_nodup m key cs⟩
  obtain ⟨r, hr⟩ := ha
  refine ⟨r, ?_, fun i => ?_, fun c _ => ?_, by rw [f3]; exact ho, ?_⟩
  · intro d hd w hwv hwd
    rw [hdk] at hwd
    rw [f1] at hd
    obtain ⟨k, hk, rfl⟩ := List.mem_map.1 hd
    have hk' := List.mem_range.1 hk
    simp only [] at hwv ⊢
    rw [f5 k hk'] at hwv
    rw [getD_of_lt _ _ (by rw [List.length_map]; exact hk'), List.getElem_map]
    have hc : (chosen m key cs)[k] ∈ chosen m key cs := List.getElem_mem _
    obtain ⟨w1, w2⟩ := (solve_vars _ _ _ (solved_spec h (fun c _ => hw c) _ (hsub _ hc).1) w).1 hwv
    exact hr _ hc w w1 w2 hwd
  · rcases f6 i with e | e | ⟨c, hc, e⟩
    · rw [e]; exact hu i
    · rw [e]; exact List.nodup_nil
    · rw [e]; exact swf c hc
  · rcases f7 c with e | ⟨i, hi, b, e | e⟩
    · rw [e]; exact hw c
    · rw [e]; exact swf i hi
    · rw [e]; exact hw c
  · intro d hd
    rw [f1] at hd
    obtain ⟨k, hk, rfl⟩ := List.mem_map.1 hd
    rw [f2]
    exact List.mem_append_right _ (List.mem_map.2 ⟨k, hk, rfl⟩)

/-! ### Restoring the values -/

theorem foldl_dependents (u : ℕ → UserExpr) (ds : List (ℕ × ℕ)) (hn : (ds.map Prod.fst).Nodup) :
    ∀ var : ℕ → Var,
    (∀ d ∈ ds, (ds.foldl (fun var d => Function.update var d.1 ((var d.1).updateDependent (u d.2).expr.value)) var
      d.1).value = Expr.truncQ (u d.2).expr.value) ∧
    (∀ v, v ∉ ds.map Prod.fst →
      ds.foldl (fun var d => Function.update var d.1 ((var d.1).updateDependent (u d.2).expr.value)) var v = var v) := by
  induction ds with
  | nil => intro var; simp
  | cons d ds ih =>
    intro var
    rw [List.map_cons, List.nodup_cons] at hn
    obtain ⟨h1, h2⟩ := ih hn.2 (Function.update var d.1 ((var d.1).updateDependent (u d.2).expr.value))
    simp only [List.foldl_cons]
    constructor
    · intro d' hd'
      rcases List.mem_cons.1 hd' with rfl | hd'
      · rw [h2 _ hn.1, Function.update_self]; rfl
      · exact h1 d' hd'
    · intro v hv
      rw [List.map_cons, List.mem_cons, not_or] at hv
      rw [h2 v hv.2, Function.update_of_ne hv.1]

theorem truncQ_int (z : ℤ) : Expr.truncQ (z : ℚ) = z := by
  unfold Expr.truncQ
  split <;> simp

theorem exprValue_congr (e : Expr) (σ τ : ℕ → ℤ) (h : ∀ v ∈ e.vars, σ v = τ v) : exprValue e σ = exprValue e τ := by
  rw [exprValue_eq, exprValue_eq, evaluate_eq, evaluate_eq,
    lin_congr _ σ τ (fun t ht => h t.1 (List.mem_map.2 ⟨t, ht, rfl⟩))]

theorem update_vals (m : MState) : m.update.vals = m.updateExprs.updateDependents.vals := by
  unfold MState.update MState.updateFeasibility MState.updateObj MState.updateCons MState.vals
  split <;> rfl

theorem update_restores (m : MState) (hn : (m.dependents.map Prod.fst).Nodup) (hf : FreeExprs m)
    (hi : ∀ d ∈ m.dependents, d.2 ∈ m.uexprIds)
    (hz : ∀ d ∈ m.dependents, ∃ z : ℤ, exprValue (m.uexpr d.2).expr m.vals = z) :
    (∀ v, ¬ IsDependent m v → m.update.vals v = m.vals v) ∧
    ∀ d ∈ m.dependents, (m.update.vals d.1 : ℚ) = exprValue (m.uexpr d.2).expr m.update.vals := by
  rw [update_vals]
  obtain ⟨h1, h2⟩ := foldl_dependents m.updateExprs.uexpr m.dependents hn m.var
  have hkeep : ∀ v, ¬ IsDependent m v → m.updateExprs.updateDependents.vals v = m.vals v := by
    intro v hv
    rw [isDependent_iff] at hv
    show (m.updateExprs.updateDependents.var v).value = _
    have := h2 v hv
    show ((m.dependents.foldl _ m.var) v).value = _
    rw [this]; rfl
  refine ⟨hkeep, fun d hd => ?_⟩
  obtain ⟨z, hz'⟩ := hz d hd
  have hval : (m.updateExprs.uexpr d.2).expr.value = exprValue (m.uexpr d.2).expr m.vals := by
    show (if d.2 ∈ m.uexprIds then _ else _ : UserExpr).expr.value = _
    rw [if_pos (hi d hd), exprValue_eq]; rfl
  have e1 : m.updateExprs.updateDependents.vals d.1 = z := by
    have := h1 d hd
    rw [hval, hz', truncQ_int] at this
    exact this
  rw [e1, ← hz']
  exact exprValue_congr _ _ _ (fun w hw => (hkeep w (hf d.2 (hi d hd) w hw)).symm)

end Printemps.Dependent
