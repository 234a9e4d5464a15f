import Verif.Model.DualBound
import Verif.Lemmas.Presolve
import Verif.Lemmas.Example
import Verif.Props.C07
import Verif.Props.C40

/-! # C41 — Lagrangian values are dual bounds -/

namespace Printemps.C41
open Spec Lagrange

/-- What a set-up model provides: distinct keys, every occurring variable listed once and not dependent,
sensitivities of constraints and objective equal to the coefficients, and no stored objective value
without an objective. -/
structure Ready (m : MState) : Prop where
  wf : WellFormed m
  varIds : m.varIds.Nodup
  conVars : ∀ c ∈ m.conIds, ∀ t ∈ (m.con c).expr.terms, t.1 ∈ m.varIds ∧ t.1 ∉ m.dependents.map Prod.fst
  objVars : ∀ t ∈ m.obj.terms, t.1 ∈ m.varIds ∧ t.1 ∉ m.dependents.map Prod.fst
  sens : ∀ v, C07.SensOK m v
  objSens : (∀ t ∈ m.obj.terms, m.objSens t.1 = t.2) ∧ ∀ v, v ∉ m.obj.terms.map Prod.fst → m.objSens v = 0
  noObj : m.objDefined = false → m.obj.terms = [] ∧ m.obj.const = 0 ∧ m.objValue = 0

/-- An assignment within bounds and fixings that satisfies every constraint of the model, disabled ones
included (presolve disables only constraints that follow from the others). -/
def FeasibleAll (m : MState) (σ : ℕ → ℤ) : Prop := InBounds m.var σ ∧ ∀ c ∈ m.conIds, Holds (m.con c) σ

/-- Multipliers in the sign region of the code. -/
def SignRegion (m : MState) (dual : ℕ → ℚ) : Prop :=
  ∀ c ∈ m.conIds, ((m.con c).sense = .less → 0 ≤ dual c) ∧ ((m.con c).sense = .greater → dual c ≤ 0)

/-- The Lagrangian function of the minimisation problem. -/
def lagrangianFn (m : MState) (dual : ℕ → ℚ) (σ : ℕ → ℤ) : ℚ :=
  exprValue m.obj σ + (m.conIds.map (fun c => dual c * exprValue (m.con c).expr σ)).sum

/-! ### Multipliers -/

theorem boundDual_region (m : MState) (dual : ℕ → ℚ) : SignRegion m (boundDual m dual) := by
  intro c hc
  unfold boundDual boundDual1
  rw [if_pos hc]
  constructor
  · intro h; rw [h]; exact le_max_right _ _
  · intro h; rw [h]; exact min_le_right _ _

/-! ### The Lagrangian as a separable function -/

theorem lin_over (ts : List (ℕ × ℚ)) (hn : (ts.map Prod.fst).Nodup) (V : List ℕ) (hV : V.Nodup)
    (hsub : ∀ t ∈ ts, t.1 ∈ V) (σ : ℕ → ℤ) :
    Expr.lin ts σ = (V.map (fun v => Expr.lookup ts v * (σ v : ℚ))).sum := by
  have e : Expr.lin ts σ = ((ts.map Prod.fst).map (fun v => Expr.lookup ts v * (σ v : ℚ))).sum := by
    unfold Expr.lin
    rw [List.map_map]
    refine sum_map_congr _ _ _ fun t ht => ?_
    show _ = Expr.lookup ts t.1 * _
    rw [Expr.lookup_of_mem ts hn t.1 t.2 ht]
  rw [e]
  symm
  refine sum_subset V (ts.map Prod.fst) _ hV hn ?_ ?_
  · intro v hv
    obtain ⟨t, ht, rfl⟩ := List.mem_map.1 hv
    exact hsub t ht
  · intro v _ hv
    rw [Expr.lookup_of_not_mem ts v hv]; ring

theorem sum_swap (C V : List ℕ) (f : ℕ → ℕ → ℚ) :
    (C.map (fun c => (V.map (fun v => f c v)).sum)).sum = (V.map (fun v => (C.map (fun c => f c v)).sum)).sum := by
  induction C with
  | nil => simp
  | cons c C ih =>
    simp only [List.map_cons, List.sum_cons]
    rw [ih, ← sum_map_add]

theorem coefficient_eq (m : MState) (hr : Ready m) (hmin : m.isMin = true) (dual : ℕ → ℚ) (v : ℕ) :
    coefficient m dual v = Expr.lookup m.obj.terms v +
      (m.conIds.map (fun c => dual c * Expr.lookup (m.con c).expr.terms v)).sum := by
  have hf : ∀ (l : List (ℕ × ℚ)) (a : ℚ), l.foldl (fun acc it => acc + dual it.1 * it.2 * m.sign) a =
      a + (l.map (fun it => dual it.1 * it.2 * m.sign)).sum := by
    intro l
    induction l with
    | nil => intro a; simp
    | cons x l ih => intro a; rw [List.foldl_cons, ih, List.map_cons, List.sum_cons]; ring
  have hs : m.sign = 1 := by unfold MState.sign; rw [if_pos hmin]
  have ho : m.objSens v = Expr.lookup m.obj.terms v := by
    by_cases h : v ∈ m.obj.terms.map Prod.fst
    · obtain ⟨t, ht, rfl⟩ := List.mem_map.1 h
      rw [hr.objSens.1 t ht, Expr.lookup_of_mem _ hr.wf.obj t.1 t.2 ht]
    · rw [hr.objSens.2 v h, Expr.lookup_of_not_mem _ v h]
  unfold coefficient
  rw [hf, ho, C07.sens_sum m hr.wf v (hr.sens v)]
  congr 1
  refine sum_map_congr _ _ _ fun c _ => ?_
  rw [hs]
  split
  · ring
  · next h => rw [Expr.lookup_of_not_mem _ v h]; ring

/-- The Lagrangian is a constant plus, for every variable, its coefficient times its value. -/
theorem lagrangianFn_separable (m : MState) (hr : Ready m) (hmin : m.isMin = true) (dual : ℕ → ℚ) (σ : ℕ → ℤ) :
    lagrangianFn m dual σ = m.obj.const + (m.conIds.map (fun c => dual c * (m.con c).expr.const)).sum +
      (m.varIds.map (fun v => coefficient m dual v * (σ v : ℚ))).sum := by
  unfold lagrangianFn
  have ev : ∀ e : Expr, exprValue e σ = e.const + Expr.lin e.terms σ := fun e => rfl
  have h1 : (m.conIds.map (fun c => dual c * exprValue (m.con c).expr σ)).sum =
      (m.conIds.map (fun c => dual c * (m.con c).expr.const)).sum +
      (m.conIds.map (fun c => (m.varIds.map (fun v =>
        dual c * Expr.lookup (m.con c).expr.terms v * (σ v : ℚ))).sum)).sum := by
    rw [← sum_map_add]
    refine sum_map_congr _ _ _ fun c hc => ?_
    rw [ev, mul_add, lin_over _ (hr.wf.con c hc) m.varIds hr.varIds (fun t ht => (hr.conVars c hc t ht).1) σ]
    congr 1
    rw [mul_comm, ← sum_map_mul_right]
    exact sum_map_congr _ _ _ fun v _ => by ring
  rw [h1, sum_swap, ev, lin_over _ hr.wf.obj m.varIds hr.varIds (fun t ht => (hr.objVars t ht).1) σ]
  have h2 : (m.varIds.map (fun v => coefficient m dual v * (σ v : ℚ))).sum =
      (m.varIds.map (fun v => Expr.lookup m.obj.terms v * (σ v : ℚ))).sum +
      (m.varIds.map (fun v => (m.conIds.map (fun c =>
        dual c * Expr.lookup (m.con c).expr.terms v * (σ v : ℚ))).sum)).sum := by
    rw [← sum_map_add]
    refine sum_map_congr _ _ _ fun v _ => ?_
    rw [coefficient_eq m hr hmin, add_mul, sum_map_mul_right]
  rw [h2]
  ring

/-- Weak duality for multipliers in the sign region. -/
theorem lagrangianFn_le_objective (m : MState) (dual : ℕ → ℚ) (hd : SignRegion m dual) (σ : ℕ → ℤ)
    (hf : ∀ c ∈ m.conIds, Holds (m.con c) σ) : lagrangianFn m dual σ ≤ exprValue m.obj σ := by
  unfold lagrangianFn
  have : (m.conIds.map (fun c => dual c * exprValue (m.con c).expr σ)).sum ≤ 0 := by
    rw [show (0 : ℚ) = (m.conIds.map (fun _ => (0 : ℚ))).sum by simp]
    refine sum_map_le _ _ _ fun c hc => ?_
    obtain ⟨h1, h2⟩ := hd c hc
    have h := hf c hc
    unfold Holds at h
    cases hs : (m.con c).sense <;> rw [hs] at h
    · exact mul_nonpos_of_nonneg_of_nonpos (h1 hs) h
    · rw [show exprValue (m.con c).expr σ = 0 from h]; simp
    · exact mul_nonpos_of_nonpos_of_nonneg (h2 hs) h
  linarith

/-! ### One iteration -/

/-- What an iteration leaves alone. -/
structure Same (m n : MState) : Prop where
  shape : SameShape m n
  varIds : n.varIds = m.varIds
  dependents : n.dependents = m.dependents
  sens : n.sens = m.sens
  objSens : n.objSens = m.objSens
  lb : ∀ v, v ∉ m.dependents.map Prod.fst → (n.var v).lb = (m.var v).lb
  ub : ∀ v, v ∉ m.dependents.map Prod.fst → (n.var v).ub = (m.var v).ub
  fixedValue : ∀ v, v ∉ m.dependents.map Prod.fst → (m.var v).fixed = true → (n.var v).value = (m.var v).value
  objValue : m.objDefined = false → n.objValue = m.objValue

theorem Same.refl (m : MState) : Same m m :=
  ⟨SameShape.refl m, rfl, rfl, rfl, rfl, fun _ _ => rfl, fun _ _ => rfl, fun _ _ _ => rfl, fun _ => rfl⟩

theorem Same.trans {a b c : MState} (h : Same a b) (k : Same b c) : Same a c where
  shape := h.shape.trans k.shape
  varIds := k.varIds.trans h.varIds
  dependents := k.dependents.trans h.dependents
  sens := k.sens.trans h.sens
  objSens := k.objSens.trans h.objSens
  lb v hv := (k.lb v (by rw [h.dependents]; exact hv)).trans (h.lb v hv)
  ub v hv := (k.ub v (by rw [h.dependents]; exact hv)).trans (h.ub v hv)
  fixedValue v hv hf :=
    (k.fixedValue v (by rw [h.dependents]; exact hv) (by rw [h.shape.fixed]; exact hf)).trans (h.fixedValue v hv hf)
  objValue hd := (k.objValue (by rw [h.shape.objDefined]; exact hd)).trans (h.objValue hd)

theorem Same.ready {m n : MState} (h : Same m n) (hr : Ready m) : Ready n where
  wf := h.shape.wellFormed hr.wf
  varIds := by rw [h.varIds]; exact hr.varIds
  conVars c hc t ht := by
    rw [h.shape.conIds] at hc; rw [h.shape.conTerms] at ht
    rw [h.varIds, h.dependents]; exact hr.conVars c hc t ht
  objVars t ht := by
    rw [h.shape.objTerms] at ht
    rw [h.varIds, h.dependents]; exact hr.objVars t ht
  sens v := by
    have := hr.sens v
    unfold C07.SensOK at this ⊢
    rw [h.sens, h.shape.conIds]
    refine ⟨this.1, fun c q => ?_⟩
    rw [h.shape.conTerms]; exact this.2 c q
  objSens := by rw [h.shape.objTerms, h.objSens]; exact hr.objSens
  noObj hd := by
    rw [h.shape.objDefined] at hd
    rw [h.shape.objTerms, h.shape.objConst, h.objValue hd]
    exact hr.noObj hd

theorem Same.lagrangianFn {m n : MState} (h : Same m n) (dual : ℕ → ℚ) (σ : ℕ → ℤ) :
    lagrangianFn n dual σ = lagrangianFn m dual σ := by
  unfold C41.lagrangianFn
  rw [h.shape.conIds]
  congr 1
  · unfold exprValue; rw [h.shape.objTerms, h.shape.objConst]
  · exact sum_map_congr _ _ _ fun c _ => by rw [h.shape.conValue]

theorem Same.region {m n : MState} (h : Same m n) (dual : ℕ → ℚ) (hd : SignRegion n dual) : SignRegion m dual := by
  intro c hc
  have := hd c (by rw [h.shape.conIds]; exact hc)
  rwa [h.shape.conSense] at this

theorem moveToBounds_same (m : MState) (dual : ℕ → ℚ) : Same m (moveToBounds m dual) := by
  have hv : ∀ v, ((moveToBounds m dual).var v).fixed = (m.var v).fixed ∧
      ((moveToBounds m dual).var v).lb = (m.var v).lb ∧ ((moveToBounds m dual).var v).ub = (m.var v).ub ∧
      ((m.var v).fixed = true → ((moveToBounds m dual).var v).value = (m.var v).value) := by
    intro v
    show ((if v ∈ m.varIds then if (m.var v).fixed then m.var v
        else (m.var v).setLowerOrUpper _ else m.var v) : Var).fixed = _ ∧
      ((if v ∈ m.varIds then if (m.var v).fixed then m.var v
        else (m.var v).setLowerOrUpper _ else m.var v) : Var).lb = _ ∧
      ((if v ∈ m.varIds then if (m.var v).fixed then m.var v
        else (m.var v).setLowerOrUpper _ else m.var v) : Var).ub = _ ∧
      (_ → ((if v ∈ m.varIds then if (m.var v).fixed then m.var v
        else (m.var v).setLowerOrUpper _ else m.var v) : Var).value = _)
    split
    · split
      · exact ⟨rfl, rfl, rfl, fun _ => rfl⟩
      · next hf =>
        unfold Var.setLowerOrUpper Var.setValueIfMutable
        rw [if_neg hf]
        exact ⟨rfl, rfl, rfl, fun h => absurd h hf⟩
    · exact ⟨rfl, rfl, rfl, fun _ => rfl⟩
  refine ⟨?_, rfl, rfl, rfl, rfl, fun v _ => (hv v).2.1, fun v _ => (hv v).2.2.1, fun v _ => (hv v).2.2.2, fun _ => rfl⟩
  have := SameShape.refl m
  exact ⟨rfl, rfl, fun v => (hv v).1, fun _ => rfl, fun _ => rfl, fun _ => rfl, fun _ => rfl, fun _ => rfl,
    fun _ => rfl, rfl, rfl, rfl, rfl, rfl, fun _ => rfl, fun _ => rfl, fun _ => rfl, rfl⟩

theorem update_same (m : MState) : Same m m.update := by
  obtain ⟨o, ov, h, -, -, -⟩ := MState.update_desc m
  have hvar : m.update.var = m.pre.var := by rw [h]; rfl
  refine ⟨MState.update_shape m, by rw [h]; rfl, by rw [h]; rfl, by rw [h]; rfl, by rw [h]; rfl, ?_, ?_, ?_, ?_⟩
  · intro v hv; rw [hvar, MState.pre_value m v hv]
  · intro v hv; rw [hvar, MState.pre_value m v hv]
  · intro v hv _; rw [hvar, MState.pre_value m v hv]
  · intro hd
    unfold MState.update MState.updateFeasibility MState.updateObj
    dsimp only
    rw [if_neg]
    · rfl
    · show ¬ m.objDefined = true
      rw [hd]; simp

theorem update_conValue (m : MState) (c : ℕ) (hc : c ∈ m.conIds) :
    (m.update.con c).value = exprValue (m.con c).expr (assignment m.update) := by
  obtain ⟨o, ov, h, -, -, -⟩ := MState.update_desc m
  have hass : assignment m.update = m.pre.vals := by rw [h]; rfl
  have : m.update.con c = (m.con c).update m.pre.vals := by
    rw [h]
    show (if c ∈ m.conIds then _ else _) = _
    rw [if_pos hc]
  rw [hass, this, (Con.update_current (m.con c) m.pre.vals).value]
  rfl

theorem update_objValue (m : MState) (hr : Ready m) : m.update.objValue = exprValue m.obj (assignment m.update) := by
  obtain ⟨o, ov, h, _, _, h3⟩ := MState.update_desc m
  have hass : assignment m.update = m.pre.vals := by rw [h]; rfl
  by_cases hd : m.objDefined = true
  · have : m.update.objValue = ov := by rw [h]; rfl
    rw [this, (h3 hd).2, hass, Presolve.exprValue_eq]
  · rw [Bool.not_eq_true] at hd
    obtain ⟨k1, k2, k3⟩ := hr.noObj hd
    rw [(update_same m).objValue hd, k3]
    unfold exprValue
    rw [k1, k2]; simp

theorem computeLagrangian_eq (m : MState) (dual : ℕ → ℚ) : m.computeLagrangian dual =
    m.objValue + (m.conIds.map (fun c => dual c * (m.con c).value)).sum := by
  unfold MState.computeLagrangian
  generalize m.objValue = a
  induction m.conIds generalizing a with
  | nil => simp
  | cons c l ih => rw [List.foldl_cons, ih, List.map_cons, List.sum_cons]; ring

/-- The value computed after moving to the bounds is the minimum of the Lagrangian over the box. -/
theorem iteration_value (m : MState) (hr : Ready m) (hmin : m.isMin = true) (dual : ℕ → ℚ) (σ : ℕ → ℤ)
    (hb : ∀ v ∈ m.varIds, v ∉ m.dependents.map Prod.fst → Admits (m.var v) (σ v)) :
    (moveToBounds m dual).update.computeLagrangian dual ≤ lagrangianFn m dual σ := by
  have s1 := moveToBounds_same m dual
  have r1 := s1.ready hr
  set n := moveToBounds m dual with hn
  have e1 : n.update.computeLagrangian dual = lagrangianFn m dual (assignment n.update) := by
    rw [computeLagrangian_eq, update_objValue n r1, (MState.update_shape n).conIds, ← s1.lagrangianFn]
    unfold lagrangianFn
    congr 1
    exact sum_map_congr _ _ _ fun c hc => by rw [update_conValue n c hc]
  rw [e1, lagrangianFn_separable m hr hmin, lagrangianFn_separable m hr hmin]
  refine add_le_add le_rfl (sum_map_le _ _ _ fun v hv => ?_)
  -- a dependent variable has coefficient zero
  by_cases hdep : v ∈ m.dependents.map Prod.fst
  · have h0 : coefficient m dual v = 0 := by
      rw [coefficient_eq m hr hmin, Expr.lookup_of_not_mem, zero_add]
      · refine sum_map_zero _ _ fun c hc => ?_
        rw [Expr.lookup_of_not_mem, mul_zero]
        intro h
        obtain ⟨t, ht, rfl⟩ := List.mem_map.1 h
        exact (hr.conVars c hc t ht).2 hdep
      · intro h
        obtain ⟨t, ht, rfl⟩ := List.mem_map.1 h
        exact (hr.objVars t ht).2 hdep
    rw [h0]; simp
  have hval : assignment n.update v = (n.var v).value := by
    obtain ⟨o, ov, h, -, -, -⟩ := MState.update_desc n
    have : assignment n.update = n.pre.vals := by rw [h]; rfl
    rw [this]
    show (n.pre.var v).value = _
    rw [MState.pre_value n v hdep]
  have hnv : n.var v = if (m.var v).fixed then m.var v
      else (m.var v).setLowerOrUpper (decide (coefficient m dual v > 0) == m.isMin) := by
    rw [hn]
    show (if v ∈ m.varIds then _ else _) = _
    rw [if_pos hv]
  rw [hval, hnv]
  obtain ⟨a1, a2⟩ := hb v hv hdep
  by_cases hf : (m.var v).fixed = true
  · rw [if_pos hf, a1 hf]
  · rw [if_neg hf]
    have a2 := a2 (by simpa using hf)
    unfold Var.setLowerOrUpper Var.setValueIfMutable
    rw [if_neg hf, hmin]
    by_cases hc : coefficient m dual v > 0
    · simp only [hc, decide_true, beq_self_eq_true, if_true]
      exact mul_le_mul_of_nonneg_left (by exact_mod_cast a2.1) (le_of_lt hc)
    · simp only [hc, decide_false, if_neg (show ¬ (false == true) = true by decide)]
      exact mul_le_mul_of_nonpos_left (by exact_mod_cast a2.2) (not_lt.1 hc)

/-- A number is a dual bound of the minimisation model: no assignment that respects the bounds and
satisfies the constraints has a smaller objective. -/
def IsDualBound (m : MState) (l : ℚ) : Prop :=
  ∀ σ, FeasibleAll m σ → l ≤ exprValue m.obj σ

/-- Invariant of the loop. -/
structure Inv (m0 : MState) (p : MState × LState) : Prop where
  same : Same m0 p.1
  last : ∀ l, p.2.lagrangian = some l → IsDualBound m0 l
  best : ∀ l, p.2.lagrangianIncumbent = some l → IsDualBound m0 l

theorem updateStepSize_keeps (a b : ℚ) (s : LState) : (updateStepSize a b s).lagrangian = s.lagrangian ∧
    (updateStepSize a b s).lagrangianIncumbent = s.lagrangianIncumbent ∧ (updateStepSize a b s).dual = s.dual ∧
    (updateStepSize a b s).queue = s.queue := by
  unfold updateStepSize
  split
  · exact ⟨rfl, rfl, rfl, rfl⟩
  · exact ⟨rfl, rfl, rfl, rfl⟩

theorem step_inv (m0 : MState) (hr : Ready m0) (hmin : m0.isMin = true) (a b : ℚ) (p q : MState × LState)
    (hi : Inv m0 p) (h : step a b p = some q) : Inv m0 q := by
  unfold step at h
  simp only [updateLagrangian, Option.map_map, Option.map_eq_some_iff] at h
  obtain ⟨qq, hq, rfl⟩ := h
  set dual := (updateDual p.1 p.2).dual with hdual
  have rp := hi.same.ready hr
  have hminp : p.1.isMin = true := by rw [hi.same.shape.isMin]; exact hmin
  have sm : Same m0 (moveToBounds p.1 dual).update :=
    (hi.same.trans (moveToBounds_same _ _)).trans (update_same _)
  have hsign : (moveToBounds p.1 dual).update.sign = 1 := by
    unfold MState.sign; rw [sm.shape.isMin, if_pos hmin]
  have key : IsDualBound m0 ((moveToBounds p.1 dual).update.computeLagrangian dual *
      (moveToBounds p.1 dual).update.sign) := by
    intro σ hσ
    rw [hsign, mul_one]
    refine le_trans (iteration_value p.1 rp hminp dual σ ?_) ?_
    · intro v hv hd
      rw [hi.same.dependents] at hd
      obtain ⟨c1, c2⟩ := hσ.1 v
      refine ⟨fun hf => ?_, fun hf => ?_⟩
      · rw [hi.same.shape.fixed] at hf
        rw [hi.same.fixedValue v hd hf]; exact c1 hf
      · rw [hi.same.shape.fixed] at hf
        rw [hi.same.lb v hd, hi.same.ub v hd]; exact c2 hf
    · rw [hi.same.lagrangianFn]
      exact lagrangianFn_le_objective m0 dual (hi.same.region dual (boundDual_region _ _)) σ hσ.2
  refine ⟨sm, ?_, ?_⟩
  · intro l hl
    simp only [Function.comp, (updateStepSize_keeps _ _ _).1, Option.some.injEq] at hl
    rw [← hl]; exact key
  · intro l hl
    simp only [Function.comp, (updateStepSize_keeps _ _ _).2.1] at hl
    split at hl
    · rw [← Option.some.inj hl]; exact key
    · exact hi.best l hl

theorem run_inv (m0 : MState) (hr : Ready m0) (hmin : m0.isMin = true) (a b : ℚ) (n : ℕ) (p q : MState × LState)
    (hi : Inv m0 p) (h : run a b n p = some q) : Inv m0 q := by
  induction n generalizing p with
  | zero => rw [← Option.some.inj h]; exact hi
  | succ n ih =>
    obtain ⟨r, h1, h2⟩ := Option.bind_eq_some_iff.1 h
    exact ih r (step_inv m0 hr hmin a b p r hi h1) h2

/-- The best Lagrangian is really the best: it is at least the Lagrangian of every iteration so far, and it is
the Lagrangian of one of them. -/
theorem incumbent_lagrangian_is_best (m : MState) (extend reduce : ℚ) (queueSize : ℤ) (n : ℕ) (m' : MState) (s' : LState)
    (h : run extend reduce n (m, setup m queueSize) = some (m', s')) :
    (∀ k, k ≤ n → ∀ mk sk l, run extend reduce k (m, setup m queueSize) = some (mk, sk) → sk.lagrangian = some l →
      ∃ b, s'.lagrangianIncumbent = some b ∧ l ≤ b) ∧
    (∀ b, s'.lagrangianIncumbent = some b → ∃ k, k ≤ n ∧ ∃ mk sk,
      run extend reduce k (m, setup m queueSize) = some (mk, sk) ∧ sk.lagrangian = some b) := by
  have hstep : ∀ p q, step extend reduce p = some q → ∃ l, q.2.lagrangian = some l ∧
      q.2.lagrangianIncumbent = if above l p.2.lagrangianIncumbent then some l else p.2.lagrangianIncumbent := by
    intro p q hs
    unfold step at hs
    simp only [updateLagrangian, Option.map_map, Option.map_eq_some_iff] at hs
    obtain ⟨qq, _, rfl⟩ := hs
    obtain ⟨e1, e2, _⟩ := updateStepSize_keeps extend reduce
      { updateDual p.1 p.2 with
        lagrangian := some ((moveToBounds p.1 (updateDual p.1 p.2).dual).update.computeLagrangian (updateDual p.1 p.2).dual *
          (moveToBounds p.1 (updateDual p.1 p.2).dual).update.sign)
        lagrangianIncumbent := if above ((moveToBounds p.1 (updateDual p.1 p.2).dual).update.computeLagrangian
          (updateDual p.1 p.2).dual * (moveToBounds p.1 (updateDual p.1 p.2).dual).update.sign)
            (updateDual p.1 p.2).lagrangianIncumbent then some ((moveToBounds p.1 (updateDual p.1 p.2).dual).update.computeLagrangian
          (updateDual p.1 p.2).dual * (moveToBounds p.1 (updateDual p.1 p.2).dual).update.sign) else
            (updateDual p.1 p.2).lagrangianIncumbent
        queue := qq }
    exact ⟨_, e1, e2⟩
  have hsucc : ∀ n p, run extend reduce (n + 1) p = (run extend reduce n p).bind (step extend reduce) := by
    intro n
    induction n with
    | zero =>
      intro p
      show (step extend reduce p).bind (run extend reduce 0) = step extend reduce p
      cases step extend reduce p <;> rfl
    | succ n ih =>
      intro p
      show (step extend reduce p).bind (run extend reduce (n + 1)) = ((step extend reduce p).bind (run extend reduce n)).bind _
      rw [Option.bind_assoc]
      congr 1
      funext q
      exact ih q
  induction n generalizing m' s' with
  | zero =>
    have e := Option.some.inj h
    have e2 : s' = setup m queueSize := (congrArg Prod.snd e).symm
    subst e2
    refine ⟨fun k hk mk sk l hr hl => ?_, fun b hb => absurd hb (by simp [setup])⟩
    have : k = 0 := by omega
    subst this
    have e3 : sk = setup m queueSize := (congrArg Prod.snd (Option.some.inj hr)).symm
    subst e3
    exact absurd hl (by simp [setup])
  | succ n ih =>
    have h' := h
    rw [hsucc] at h
    obtain ⟨⟨m1, s1⟩, h1, h2⟩ := Option.bind_eq_some_iff.1 h
    obtain ⟨i1, i2⟩ := ih m1 s1 h1
    obtain ⟨l0, g1, g2⟩ := hstep _ _ h2
    simp only at g1 g2
    have hge : ∃ b, s'.lagrangianIncumbent = some b ∧ l0 ≤ b ∧ ∀ c, s1.lagrangianIncumbent = some c → c ≤ b := by
      cases hs : s1.lagrangianIncumbent with
      | none =>
        rw [hs] at g2
        exact ⟨l0, by rw [g2]; rfl, le_refl _, by simp⟩
      | some c =>
        rw [hs] at g2
        by_cases hc : c < l0
        · refine ⟨l0, by rw [g2]; simp [above, hc], le_refl _, fun d hd => ?_⟩
          rw [← Option.some.inj hd]; exact hc.le
        · refine ⟨c, by rw [g2]; simp [above, hc], not_lt.1 hc, fun d hd => ?_⟩
          rw [← Option.some.inj hd]
    constructor
    · intro k hk mk sk l hr hl
      obtain ⟨b, b1, b2, b3⟩ := hge
      by_cases hkn : k ≤ n
      · obtain ⟨c, c1, c2⟩ := i1 k hkn mk sk l hr hl
        exact ⟨b, b1, le_trans c2 (b3 c c1)⟩
      · have : k = n + 1 := by omega
        subst this
        rw [h'] at hr
        have e : s' = sk := congrArg Prod.snd (Option.some.inj hr)
        subst e
        rw [g1] at hl
        exact ⟨b, b1, by rw [← Option.some.inj hl]; exact b2⟩
    · intro b hb
      rw [g2] at hb
      split at hb
      · exact ⟨n + 1, le_refl _, m', s', h', by rw [g1]; exact hb⟩
      · obtain ⟨k, k1, k2⟩ := i2 b hb
        exact ⟨k, by omega, k2⟩

/-- For a minimisation model: after any number of iterations, with whatever step-size options, the
Lagrangian of the last iteration and the best Lagrangian so far are at most the objective value of every
assignment within bounds and fixings that satisfies all constraints. -/
theorem lagrangian_is_dual_bound (m : MState) (hr : Ready m) (hmin : m.isMin = true) (extend reduce : ℚ)
    (queueSize : ℤ) (n : ℕ) (m' : MState) (s' : LState)
    (h : run extend reduce n (m, setup m queueSize) = some (m', s')) (l : ℚ)
    (hl : s'.lagrangian = some l ∨ s'.lagrangianIncumbent = some l) (σ : ℕ → ℤ) (hσ : FeasibleAll m σ) :
    l ≤ exprValue m.obj σ := by
  have hi : Inv m (m, setup m queueSize) := ⟨Same.refl m, by intro l h; exact absurd h (by simp [setup]),
    by intro l h; exact absurd h (by simp [setup])⟩
  have := run_inv m hr hmin extend reduce n _ _ hi h
  rcases hl with hl | hl
  · exact this.last l hl σ hσ
  · exact this.best l hl σ hσ

/-- The multipliers are in the sign region after any number of iterations, minimisation or not. -/
theorem multipliers_in_region (m : MState) (extend reduce : ℚ)
    (queueSize : ℤ) (n : ℕ) (m' : MState) (s' : LState)
    (h : run extend reduce n (m, setup m queueSize) = some (m', s')) : SignRegion m s'.dual := by
  have main : ∀ n p q, Same m p.1 → SignRegion m p.2.dual → run extend reduce n p = some q → SignRegion m q.2.dual := by
    intro n
    induction n with
    | zero => intro p q _ h1 h; rw [← Option.some.inj h]; exact h1
    | succ n ih =>
      intro p q hs h1 h
      obtain ⟨r, k1, k2⟩ := Option.bind_eq_some_iff.1 h
      unfold step at k1
      simp only [updateLagrangian, Option.map_map, Option.map_eq_some_iff] at k1
      obtain ⟨qq, hq, rfl⟩ := k1
      refine ih _ q ((hs.trans (moveToBounds_same _ _)).trans (update_same _)) ?_ k2
      simp only [Function.comp, (updateStepSize_keeps _ _ _).2.2.1]
      exact hs.region _ (boundDual_region _ _)
  exact main n (m, setup m queueSize) (m', s') (Same.refl m) (boundDual_region _ _) h

/-- The loop itself never goes wrong when the queue of past values has room for at least one. -/
theorem run_defined (m : MState) (extend reduce : ℚ) (queueSize : ℤ) (hq : 1 ≤ queueSize) (n : ℕ) :
    ∃ r, run extend reduce n (m, setup m queueSize) = some r := by
  have main : ∀ n p, p.2.queue.maxSize = queueSize → ∃ r, run extend reduce n p = some r := by
    intro n
    induction n with
    | zero => intro p _; exact ⟨p, rfl⟩
    | succ n ih =>
      intro p hp
      have : ∃ q, step extend reduce p = some q ∧ q.2.queue.maxSize = queueSize := by
        unfold step updateLagrangian
        dsimp only
        have : ∀ x, ∃ q, p.2.queue.push x = some q ∧ q.maxSize = queueSize := by
          intro x
          unfold Queue.FQ.push
          split
          · next he =>
            split
            · next hnil => rw [hnil, hp] at he; simp at he; omega
            · exact ⟨_, rfl, hp⟩
          · exact ⟨_, rfl, hp⟩
        obtain ⟨q, h1, h2⟩ := this ((moveToBounds p.1 (updateDual p.1 p.2).dual).update.computeLagrangian
          (updateDual p.1 p.2).dual * (moveToBounds p.1 (updateDual p.1 p.2).dual).update.sign)
        rw [show (updateDual p.1 p.2).queue = p.2.queue from rfl, h1]
        refine ⟨_, rfl, ?_⟩
        dsimp only
        rw [(updateStepSize_keeps _ _ _).2.2.2]
        exact h2
      obtain ⟨q, h1, h2⟩ := this
      obtain ⟨r, h3⟩ := ih q h2
      exact ⟨r, by show (step extend reduce p).bind _ = _; rw [h1]; exact h3⟩
  exact main n _ rfl

/-- The dual bound the controller keeps (minimisation): starting from the naive bound, updated with the
Lagrangian of the last iteration, it is still a bound. -/
theorem controller_bound (m : MState) (hr : Ready m) (hmin : m.isMin = true) (extend reduce : ℚ)
    (queueSize : ℤ) (n : ℕ) (m' : MState) (s' : LState)
    (h : run extend reduce n (m, setup m queueSize) = some (m', s')) (σ : ℕ → ℤ) (hσ : FeasibleAll m σ) :
    updateDualBound m.isMin s'.lagrangian m.naiveDualBound ≤ exprValue m.obj σ := by
  have h0 := (C40.naive_bound_is_bound m σ hσ.1).1 hmin
  unfold updateDualBound
  split
  · exact h0
  · next l hl =>
    rw [if_pos hmin]
    split
    · exact lagrangian_is_dual_bound m hr hmin extend reduce queueSize n m' s' h l (Or.inl hl) σ hσ
    · exact h0

/-! ### The hypotheses are what `setup` establishes -/

/-- The setup of sensitivities followed by `update()` makes a model ready: keys distinct, variables listed,
stored sensitivities initially zero, no dependent variable mentioned. -/
theorem setup_ready (m : MState) (hw : WellFormed m) (hV : m.varIds.Nodup)
    (hc : ∀ c ∈ m.conIds, ∀ t ∈ (m.con c).expr.terms, t.1 ∈ m.varIds ∧ t.1 ∉ m.dependents.map Prod.fst)
    (ho : ∀ t ∈ m.obj.terms, t.1 ∈ m.varIds ∧ t.1 ∉ m.dependents.map Prod.fst)
    (h0 : ∀ v, m.objSens v = 0)
    (hn : m.objDefined = false → m.obj.terms = [] ∧ m.obj.const = 0 ∧ m.objValue = 0) :
    Ready m.setupSens.setupObjSens.update := by
  refine (update_same _).ready ⟨⟨hw.conIds, hw.con, hw.obj, hw.uexpr⟩, hV, hc, ho, ?_, ?_, hn⟩
  · intro v; exact C07.setupSens_ok m hw v
  · constructor
    · intro t ht
      show (if t.1 ∈ m.obj.vars then Expr.lookup m.obj.terms t.1 else _) = _
      rw [if_pos (show t.1 ∈ m.obj.vars from List.mem_map.2 ⟨t, ht, rfl⟩), Expr.lookup_of_mem _ hw.obj t.1 t.2 ht]
    · intro v hv
      show (if v ∈ m.obj.vars then Expr.lookup m.obj.terms v else m.objSens v) = _
      rw [if_neg (show v ∉ m.obj.vars from hv), h0]

/-! ### Non-vacuity -/

theorem example_ready : Ready Example.model := by
  refine setup_ready Example.raw ⟨by decide, ?_, by decide, ?_⟩ (by decide) ?_ (by decide) (fun _ => rfl)
    (fun h => absurd h (by decide))
  · intro c hc
    have hc : c = 0 ∨ c = 1 ∨ c = 2 := by simpa [Example.raw] using hc
    rcases hc with rfl | rfl | rfl <;> decide
  · intro i hi; simp [Example.raw] at hi
  · intro c hc
    have hc : c = 0 ∨ c = 1 ∨ c = 2 := by simpa [Example.raw] using hc
    rcases hc with rfl | rfl | rfl <;> decide

/-- Five iterations on the example give the bound -179/300, and `x0 = 1, x2 = 1` with objective 1 is
feasible. -/
example : Example.model.isMin = true ∧
    (run (11 / 10) (9 / 10) 5 (Example.model, setup Example.model 10)).map (fun p => p.2.lagrangian) =
      some (some (-179 / 300)) ∧
    ∃ σ, FeasibleAll Example.model σ ∧ exprValue Example.model.obj σ = 1 := by
  refine ⟨by decide +kernel, by decide +kernel, fun v => if v = 1 then 0 else 1, ⟨?_, ?_⟩, by decide +kernel⟩
  · intro v
    have hs := (update_same Example.raw.setupSens.setupObjSens)
    refine ⟨fun h => absurd h (by rw [Example.fixed_eq]; simp), fun _ => ?_⟩
    have hd : v ∉ Example.raw.setupSens.setupObjSens.dependents.map Prod.fst := by
      show v ∉ List.map Prod.fst []
      simp
    have h1 : (Example.model.var v).lb = (Example.raw.var v).lb := hs.lb v hd
    have h2 : (Example.model.var v).ub = (Example.raw.var v).ub := hs.ub v hd
    rw [h1, h2]
    show (if v = 2 then Example.int5 else Example.bin0).lb ≤ _ ∧ _ ≤ (if v = 2 then Example.int5 else Example.bin0).ub
    dsimp only
    split <;> split <;> decide
  · intro c hc
    have hc : c = 0 ∨ c = 1 ∨ c = 2 := by
      have : Example.model.conIds = [0, 1, 2] := (MState.update_shape _).conIds
      rw [this] at hc; simpa using hc
    rcases hc with rfl | rfl | rfl <;> decide +kernel

/-! ### Maximisation: the reported value is not a bound -/

/-- an integer variable in `[0,5]` at 5 -/
def at5 : Var := { Example.int5 with value := 5, hasLowerMargin := true, hasUpperMargin := false }

/-- maximise `x0 + x1` with `x0, x1` in `[0,5]`, `x0 + x1 <= 6`, starting at (5,5) -/
def maxRaw : MState :=
  { Example.raw with
    var := fun _ => at5
    varIds := [0, 1]
    con := fun _ => Con.setup ⟨[(0, 1), (1, 1)], -6, 0⟩ .less (fun _ => .integer)
    conIds := [0]
    obj := ⟨[(0, 1), (1, 1)], 0, 0⟩
    isMin := false }

/-- the model after `setup` and `update()` -/
def maxModel : MState := maxRaw.setupSens.setupObjSens.update

/-- For a maximisation model the value after one iteration is `12`, although it should be at most minus
the optimum `6`: the Lagrangian is evaluated with the multipliers of the minimisation problem but the
objective of the maximisation problem.  The controller then records `-12` as upper bound of an objective
that reaches `6`. -/
theorem maximisation_bound_wrong :
    (run (11 / 10) (9 / 10) 1 (maxModel, setup maxModel 10)).map (fun p => (p.2.lagrangian,
      updateDualBound maxModel.isMin p.2.lagrangian maxModel.naiveDualBound)) = some (some 12, -12) ∧
    ∃ σ, FeasibleAll maxModel σ ∧ exprValue maxModel.obj σ = 6 := by
  refine ⟨by decide +kernel, fun _ => 3, ⟨?_, ?_⟩, by decide +kernel⟩
  · intro v
    have : maxModel.var v = at5 := rfl
    rw [this]
    show Admits at5 3
    decide
  · intro c hc
    have hc : c = 0 := by
      have : maxModel.conIds = [0] := (MState.update_shape _).conIds
      rw [this] at hc; simpa using hc
    subst hc
    decide +kernel

/-! ### Disabled constraints take part -/

/-- minimise `-x` with `x` in `[0,5]` and `x <= 2`, the constraint disabled by the user -/
def disRaw : MState :=
  { Example.raw with
    var := fun _ => at5
    varIds := [0]
    con := fun _ => { Con.setup ⟨[(0, 1)], -2, 0⟩ .less (fun _ => .integer) with enabled := false }
    conIds := [0]
    obj := ⟨[(0, -1)], 0, 0⟩ }

/-- the model after `setup` and `update()` -/
def disModel : MState := disRaw.setupSens.setupObjSens.update

/-- After two iterations the value is `-2`, above the objective `-5` of the feasible `x = 5`: the disabled
constraint still contributes. -/
theorem disabled_constraint_breaks_bound :
    (run (11 / 10) (9 / 10) 2 (disModel, setup disModel 10)).map (fun p => p.2.lagrangian) = some (some (-2)) ∧
    ∃ σ, Feasible disModel σ ∧ exprValue disModel.obj σ = -5 := by
  refine ⟨by decide +kernel, fun _ => 5, ⟨?_, ?_⟩, by decide +kernel⟩
  · intro v
    have : disModel.var v = at5 := rfl
    rw [this]
    show Admits at5 5
    decide
  · intro c hc he
    have hc : c = 0 := by
      have : disModel.conIds = [0] := (MState.update_shape _).conIds
      rw [this] at hc; simpa using hc
    subst hc
    exact absurd he (by decide +kernel)

/-- When every disabled constraint follows from bounds and enabled constraints (what presolve leaves), the
bound holds over the feasible assignments. -/
theorem lagrangian_below_feasible_partial (m : MState) (hr : Ready m) (hmin : m.isMin = true) (hd : m.objDefined = true)
    (himp : ∀ σ, Feasible m σ → ∀ c ∈ m.conIds, (m.con c).enabled = false → Holds (m.con c) σ)
    (extend reduce : ℚ) (queueSize : ℤ) (n : ℕ) (m' : MState) (s' : LState)
    (h : run extend reduce n (m, setup m queueSize) = some (m', s')) (l : ℚ)
    (hl : s'.lagrangian = some l ∨ s'.lagrangianIncumbent = some l) (σ : ℕ → ℤ) (hσ : Feasible m σ) :
    l ≤ minObjective m σ := by
  have : minObjective m σ = exprValue m.obj σ := by unfold minObjective; rw [if_pos hd, if_pos hmin]
  rw [this]
  refine lagrangian_is_dual_bound m hr hmin extend reduce queueSize n m' s' h l hl σ ⟨hσ.1, fun c hc => ?_⟩
  cases he : (m.con c).enabled
  · exact himp σ hσ c hc he
  · exact hσ.2 c hc he

end Printemps.C41
