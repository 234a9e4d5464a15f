import Verif.Lemmas.DependentLoop

/-! Helper lemmas: the preprocessing with dependent variables, from the user's model on. -/

namespace Printemps.Setup
open Spec Expr Presolve Dependent

theorem presolveStage_shrunk {P} (hP : Closed P) (o : Options) (lt : ℕ → ℕ → Bool) (m m1 : MState)
    (h : presolveStage o lt m = some (.ok m1)) : Kept P m m1 := by
  unfold presolveStage at h
  split at h
  · exact (implicitStage_kept P o lt m).trans
      ((setConstraintStage_shrunk hP.fix o lt m _).toKept.trans (reduceProblemSize_shrunk hP _ _ h).toKept)
  · simp only [Option.some.injEq, Outcome.ok.injEq] at h
    subst h; exact Kept.refl P m

/-- After the first presolve the loop over dependent variables can start. -/
theorem start_between (o : Options) (lt : ℕ → ℕ → Bool) (O : MState) (hp : o.presolve = true)
    (p : Proper o.withoutDependents O) (hd : O.dependents = [])
    (hin : ∀ c ∈ O.conIds, ∀ v ∈ (O.con c).expr.vars, v ∈ O.varIds) (hu : ∀ i, (O.uexpr i).expr.WF)
    (hf : ∃ σ, Feasible O σ) :
    ∃ m1, presolveStage o lt (structured O) = some (.ok m1) ∧ KeepsOptimum O m1 ∧ (∃ σ, Feasible m1 σ) ∧
      Between (structured m1) ∧ m1.dependents = [] ∧ m1.varIds = O.varIds := by
  obtain ⟨mS, mP, m1, e1, k1, g, f1, r, _, _⟩ := presolveStage_facts o.withoutDependents lt O p hf hp
  have e1' : presolveStage o lt (structured O) = some (.ok m1) := e1
  have kept := presolveStage_shrunk small_closed o lt _ _ e1'
  have fr := kept.frame
  have q1 : m1.dependents = [] := by rw [fr]; exact hd
  have q2 : m1.uexpr = O.uexpr := by rw [fr]; rfl
  have q3 : m1.varIds = O.varIds := g.varIds
  have nodep : ∀ m : MState, m.dependents = [] → ∀ v, ¬ IsDependent m v := by
    rintro m h v ⟨d, hd, _⟩
    rw [h] at hd; simp at hd
  have hterm : ∀ c ∈ m1.conIds, ∃ i ∈ O.conIds, (m1.con c).expr.terms = (O.con i).expr.terms := g.terms
  refine ⟨m1, e1', (structured_keeps O).trans k1, f1, Between.structured ⟨?_, ?_, ?_, ?_⟩, q1, q3⟩
  · refine ⟨g.conIds, fun c hc => ?_, fun c hc => ?_, fun c hc v hv => ?_, fun i => ?_, ?_, ?_, ?_, ?_, ?_, ?_, ?_, ?_,
      fun v hv => ?_, kept.vars p.bounds⟩
    · obtain ⟨i, hi, e⟩ := hterm c hc
      unfold Expr.WF Expr.vars; rw [e]; exact p.terms i hi
    · obtain ⟨i, hi, e⟩ := hterm c hc
      intro t ht
      rw [e] at ht
      exact (p.integral i hi t ht).2
    · obtain ⟨i, hi, e⟩ := hterm c hc
      rw [q3]
      unfold Expr.vars at hv
      rw [e] at hv
      exact hin i hi v hv
    · rw [q2]; exact hu i
    · rw [g.obj]; exact p.objective
    all_goals try (rw [q1]; intro d hd; simp at hd)
    · rw [q1]; exact List.nodup_nil
    · by_cases hfx : (m1.var v).fixed = true
      · exact Or.inl hfx
      · right
        have hvS : v ∈ mS.varIds := by rw [← r.same.varIds, ← r.same'.varIds]; exact hv
        have h1 : (mP.var v).fixed ≠ true := fun h => hfx (r.fixed v h)
        have h2 := r.var v
        have hne : ¬ (v ∈ mS.varIds ∧ (mS.var v).fixed = false ∧ relatedCons mS v = []) := by
          intro h
          rw [if_pos h] at h2
          rw [h2] at h1
          exact h1 (by simp [Var.fixBy, Var.updateMargin])
        rw [if_neg hne] at h2
        rw [h2] at h1
        have hrel : relatedCons mS v ≠ [] := fun e => hne ⟨hvS, by simpa using h1, e⟩
        obtain ⟨c, hc⟩ := List.exists_mem_of_ne_nil _ hrel
        obtain ⟨hc1, hc2⟩ := List.mem_filter.1 hc
        refine ⟨c, by rw [r.same'.conIds, r.same.conIds]; exact hc1, ?_⟩
        rw [r.same'.expr, r.same.expr]
        simpa using hc2
  · intro i hi w hw; exact nodep m1 q1 w
  · exact ⟨fun w _ => nodep m1 q1 w, fun c _ _ w _ => nodep m1 q1 w⟩
  · intro v hv; exact absurd hv (nodep m1 q1 v)

/-- Dropping duplicates keeps the feasible assignments of a model with dependent variables. -/
theorem duplicateStage_between (o : Options) (lt : ℕ → ℕ → Bool) (m : MState) (h : Between m) :
    FreeExprs (duplicateStage o lt m m) ∧ FreeRest (duplicateStage o lt m m) ∧
      (∀ σ, FeasibleDep (duplicateStage o lt m m) σ ↔ FeasibleDep m σ) ∧
      (duplicateStage o lt m m).dependents = m.dependents ∧ (duplicateStage o lt m m).uexpr = m.uexpr ∧
      (duplicateStage o lt m m).uexprIds = m.uexprIds ∧ (duplicateStage o lt m m).obj = m.obj ∧
      (duplicateStage o lt m m).isMin = m.isMin ∧ (duplicateStage o lt m m).objDefined = m.objDefined := by
  have sh := duplicateStage_shrunk (fun i v => v = m.var i) o lt m m
  obtain ⟨k, sd, _⟩ := duplicateStage_facts o lt m m h.base.wfC h.base.conIds rfl
  have hvar : ∀ v, (duplicateStage o lt m m).var v = m.var v := sh.vars (fun _ => rfl)
  have hiff : ∀ τ, Feasible (duplicateStage o lt m m) τ ↔ Feasible m τ := by
    intro τ
    refine ⟨k.sound τ, fun hf => ?_⟩
    refine ⟨fun v => by rw [hvar]; exact hf.1 v, fun c hc he => ?_⟩
    rw [sd.conIds] at hc
    refine (sd.holds c τ).2 (hf.2 c hc ?_)
    rcases sh.off c with e | e
    · rw [e] at he; exact he
    · rw [e] at he; exact absurd he (by simp)
  have fr := sh.frame
  have g2 : (duplicateStage o lt m m).dependents = m.dependents := by rw [fr]
  have g3 : (duplicateStage o lt m m).uexpr = m.uexpr := by rw [fr]
  have g4 : (duplicateStage o lt m m).uexprIds = m.uexprIds := by rw [fr]
  have hoff : ∀ c, ((duplicateStage o lt m m).con c).enabled = true → (m.con c).enabled = true := by
    intro c hc
    rcases sh.off c with e | e
    · rw [e] at hc; exact hc
    · rw [e] at hc; exact absurd hc (by simp)
  generalize duplicateStage o lt m m = m' at *
  have hdep : ∀ v, IsDependent m' v ↔ IsDependent m v := fun v => by unfold IsDependent; rw [g2]
  have hfr' : FreeRest m' := by
    refine ⟨fun w hw => ?_, fun c hc he w hw => ?_⟩
    · rw [hdep]; rw [sd.obj] at hw; exact h.rest.1 w hw
    · rw [hdep]; rw [sd.expr] at hw; rw [sd.conIds] at hc; exact h.rest.2 c hc (hoff c he) w hw
  obtain ⟨x, hx⟩ : ∃ x : ℕ → ℤ, ∀ v, IsDependent m v → Admits (m.var v) (x v) := by
    classical
    refine ⟨fun v => if hv : IsDependent m v then (h.opened v hv).choose else 0, fun v hv => ?_⟩
    dsimp only
    rw [dif_pos hv]
    exact (h.opened v hv).choose_spec
  have hx' : ∀ v, IsDependent m' v → Admits (m'.var v) (x v) := fun v hv => by
    rw [hvar]; exact hx v ((hdep v).1 hv)
  refine ⟨fun i hi w hw => ?_, hfr', fun σ => ?_, g2, g3, g4, sd.obj, sd.isMin, sd.objDefined⟩
  · rw [hdep]; rw [g3] at hw; rw [g4] at hi; exact h.exprs i hi w hw
  · have hp1 := patch_feasible m x σ hx h.rest
    have hp2 := patch_feasible m' x σ hx' hfr'
    have hpe : patch m' x σ = patch m x σ := by
      funext v
      unfold patch
      by_cases hv : IsDependent m v
      · rw [if_pos hv, if_pos ((hdep v).2 hv)]
      · rw [if_neg hv, if_neg (fun k => hv ((hdep v).1 k))]
    rw [hpe] at hp2
    constructor
    · intro hf
      obtain ⟨k1, k2⟩ := hp1.1 ((hiff _).1 (hp2.2 ⟨hf.bounds, hf.cons⟩))
      refine ⟨k1, ?_, k2⟩
      have := hf.defs
      rwa [g2, g3] at this
    · intro hf
      obtain ⟨k1, k2⟩ := hp2.1 ((hiff _).2 (hp1.2 ⟨hf.bounds, hf.cons⟩))
      refine ⟨k1, ?_, k2⟩
      rw [g2, g3]; exact hf.defs

/-- The stage of the set variables does nothing if some constraint is of another type. -/
theorem setVariableStage_id (o : Options) (lt : ℕ → ℕ → Bool) (m : MState) (hn : m.conIds.Nodup)
    (h : o.setVariables = false ∨ NotAllSet lt m) : setVariableStage o lt m = m := by
  unfold setVariableStage
  rcases h with h | ⟨c, hc, hk⟩
  · rw [h, Bool.and_false, if_neg (by simp)]
  split
  · unfold removeRedundantSetVariables
    rw [if_neg (by intro e; rw [List.length_eq_zero_iff] at e; rw [e] at hc; simp at hc), if_pos]
    intro e
    have hnod : (ofType lt m .setPartitioning ++ ofType lt m .setCovering ++ ofType lt m .setPacking).Nodup := by
      rw [List.nodup_append, List.nodup_append]
      refine ⟨⟨ofType_nodup _ _ _ hn, ofType_nodup _ _ _ hn, ?_⟩, ofType_nodup _ _ _ hn, ?_⟩
      · rintro a ha b hb rfl
        rw [mem_ofType] at ha hb
        rw [ha.2] at hb; exact absurd hb.2 (by decide)
      · rintro a ha b hb rfl
        rw [List.mem_append, mem_ofType, mem_ofType] at ha
        rw [mem_ofType] at hb
        rcases ha with ha | ha <;> (rw [ha.2] at hb; exact absurd hb.2 (by decide))
    have hsub : (ofType lt m .setPartitioning ++ ofType lt m .setCovering ++ ofType lt m .setPacking) ⊆ m.conIds := by
      intro a ha
      rw [List.mem_append, List.mem_append, mem_ofType, mem_ofType, mem_ofType] at ha
      rcases ha with (ha | ha) | ha <;> exact ha.1
    have := (List.subperm_of_subset hnod hsub).perm_of_length_le (le_of_eq e)
    have hc' := this.mem_iff.2 hc
    rw [List.mem_append, List.mem_append, mem_ofType, mem_ofType, mem_ofType] at hc'
    rcases hc' with (k | k) | k <;> (rw [k.2] at hk; exact hk (by simp))
  · rfl

theorem dependentStage_facts (o : Options) (lt : ℕ → ℕ → Bool) (m : MState) (hb : Between m) (hd : m.dependents = [])
    (hf : ∃ σ, FeasibleDep m σ) (ha : o.dependent = true → AcyclicRounds o lt (m.varIds.length + 1) m) :
    ∃ r, dependentStage o lt m = some r ∧ r ≠ .thrown ∧ ∀ m', r = .ok m' →
      Between m' ∧ (∀ σ, FeasibleDep m' σ ↔ FeasibleDep m σ) ∧
      (∀ σ, FeasibleDep m σ → exprValue m'.obj σ = exprValue m.obj σ) ∧ m'.isMin = m.isMin ∧
      m'.objDefined = m.objDefined := by
  unfold dependentStage
  by_cases h : (o.presolve && o.dependent) = true
  · rw [if_pos h]
    have ho : o.dependent = true := by rw [Bool.and_eq_true] at h; exact h.2
    obtain ⟨r, h1, h2⟩ := dependentLoop_total o lt _ m hb hf (ha ho) (by rw [hd]; simp)
    refine ⟨r, h1, h2, fun m' e => ?_⟩
    subst e
    obtain ⟨k1, k2, k3, k4, k5, _⟩ := dependentLoop_exact o lt _ m m' hb hf (ha ho) h1
    exact ⟨k1, k2, k3, k4, k5⟩
  · rw [if_neg h]
    refine ⟨_, rfl, by simp, fun m' e => ?_⟩
    simp only [Outcome.ok.injEq] at e
    subst e
    exact ⟨hb, fun _ => Iff.rfl, fun _ _ => rfl, rfl, rfl⟩

/-- The definitions have integer values if there is a feasible assignment at all. -/
theorem definition_integral (e : Expr) (h : IntE e) (σ₀ : ℕ → ℤ) (z₀ : ℤ) (h0 : (z₀ : ℚ) = exprValue e σ₀) (σ : ℕ → ℤ) :
    ∃ z : ℤ, exprValue e σ = z := by
  have key : ∀ (ts : List (ℕ × ℚ)), (∀ t ∈ ts, ∃ k : ℤ, t.2 = k) → ∀ τ : ℕ → ℤ,
      ∃ z : ℤ, (ts.map (fun t => t.2 * (τ t.1 : ℚ))).sum = z := by
    intro ts
    induction ts with
    | nil => intro _ τ; exact ⟨0, by simp⟩
    | cons t ts ih =>
      intro ht τ
      obtain ⟨k, hk⟩ := ht t (by simp)
      obtain ⟨z, hz⟩ := ih (fun u hu => ht u (by simp [hu])) τ
      refine ⟨k * τ t.1 + z, ?_⟩
      rw [List.map_cons, List.sum_cons, hz, hk]
      push_cast; ring
  obtain ⟨a, ha⟩ := key e.terms h σ₀
  obtain ⟨b, hb⟩ := key e.terms h σ
  unfold exprValue at h0 ⊢
  rw [ha] at h0
  rw [hb]
  refine ⟨b + (z₀ - a), ?_⟩
  push_cast
  rw [h0]; ring

/-- The whole of `reduce` for a model of the user, dependent variables included. -/
theorem reduce_dependents (o : Options) (lt : ℕ → ℕ → Bool) (O : MState) (hp : o.presolve = true)
    (p : Proper o.withoutDependents O) (hd : O.dependents = [])
    (hin : ∀ c ∈ O.conIds, ∀ v ∈ (O.con c).expr.vars, v ∈ O.varIds) (hu : ∀ i, (O.uexpr i).expr.WF)
    (hf : ∃ σ, Feasible O σ)
    (ha : o.dependent = true → ∀ m1, presolveStage o lt (structured O) = some (.ok m1) →
      AcyclicRounds o lt (m1.varIds.length + 1) (structured m1))
    (hs : o.setVariables = false ∨ ∀ m1 m2, presolveStage o lt (structured O) = some (.ok m1) →
      dependentStage o lt (structured m1) = some (.ok m2) → NotAllSet lt m2) :
    ∃ r, reduce o lt O = some r ∧ r ≠ .thrown ∧ ∀ m', r = .ok m' →
      KeepsWithDependents O m' ∧ Eliminated m' ∧ (m'.dependents.map Prod.fst).Nodup ∧ FreeExprs m' ∧ 
      (∀ d ∈ m'.dependents, d.2 ∈ m'.uexprIds) ∧
      ∀ d ∈ m'.dependents, ∀ σ : ℕ → ℤ, ∃ z : ℤ, exprValue (m'.uexpr d.2).expr σ = z := by
  obtain ⟨m1, e1, k1, ⟨σ₁, f1⟩, b1, d1, v1⟩ := start_between o lt O hp p hd hin hu hf
  have f1' : FeasibleDep (structured m1) σ₁ := (structured_feasible m1 σ₁).2 ((feasibleDep_iff m1 d1 σ₁).2 f1)
  obtain ⟨r, e2, h2, h3⟩ := dependentStage_facts o lt (structured m1) b1 d1 ⟨σ₁, f1'⟩ (fun ho => ha ho m1 e1)
  have hred : reduce o lt O = andThen (some r) fun m2 =>
      some (.ok (structured (duplicateStage o lt m2 (setVariableStage o lt m2)))) := by
    unfold reduce
    rw [e1]
    show andThen (dependentStage o lt (structured m1)) _ = _
    rw [e2]
  cases r with
  | thrown => exact absurd rfl h2
  | undefined => exact ⟨.undefined, hred, by simp, by simp⟩
  | ok m2 =>
    obtain ⟨b2, q1, q2, q3, q4⟩ := h3 m2 rfl
    refine ⟨_, hred, by simp, fun m' e => ?_⟩
    rw [setVariableStage_id o lt m2 b2.base.conIds (by
      rcases hs with hs | hs
      · exact Or.inl hs
      · exact Or.inr (hs m1 m2 e1 e2))] at e
    simp only [Outcome.ok.injEq] at e
    obtain ⟨g1, g2, g3, g4, g5, g6, g7, g8, g9⟩ := duplicateStage_between o lt m2 b2
    generalize duplicateStage o lt m2 m2 = m3 at *
    subst e
    have hiff : ∀ σ, FeasibleDep (structured m3) σ ↔ Feasible m1 σ := fun σ =>
      (structured_feasible m3 σ).trans ((g3 σ).trans ((q1 σ).trans
        ((structured_feasible m1 σ).trans (feasibleDep_iff m1 d1 σ))))
    have hobj : ∀ σ, Feasible m1 σ → minObjective (structured m3) σ = minObjective m1 σ := by
      intro σ hσ
      have hσ' : FeasibleDep (structured m1) σ := (structured_feasible m1 σ).2 ((feasibleDep_iff m1 d1 σ).2 hσ)
      have h1 : exprValue m3.obj σ = exprValue m1.obj σ := by rw [g7]; exact q2 σ hσ'
      have h2 : m3.isMin = m1.isMin := g8.trans q3
      have h3 : m3.objDefined = m1.objDefined := g9.trans q4
      show minObjective m3 σ = _
      unfold minObjective
      rw [h1, h2, h3]
    refine ⟨⟨fun σ hσ => k1.sound σ ((hiff σ).1 hσ), fun σ hσ => ?_, fun σ hσ => ?_⟩, ⟨g2.1, g2.2, ?_⟩, ?_, g1, ?_, ?_⟩
    · obtain ⟨τ, t1, t2⟩ := k1.complete σ hσ
      exact ⟨τ, (hiff τ).2 t1, t2⟩
    · rw [hobj σ ((hiff σ).1 hσ)]; exact k1.objective σ
    · intro d hd
      have hd' : d ∈ m2.dependents := by rw [← g4]; exact hd
      exact g1 d.2 (by rw [g6]; exact b2.base.ids d hd')
    · show (m3.dependents.map Prod.fst).Nodup
      rw [g4]; exact b2.base.nodup
    · intro d hd
      have hd' : d ∈ m2.dependents := by rw [← g4]; exact hd
      show d.2 ∈ m3.uexprIds
      rw [g6]; exact b2.base.ids d hd'
    · intro d hd σ
      have hd' : d ∈ m2.dependents := by rw [← g4]; exact hd
      show ∃ z : ℤ, exprValue (m3.uexpr d.2).expr σ = z
      rw [g5]
      exact definition_integral _ (b2.base.intE d hd') σ₁ (σ₁ d.1) (((q1 σ₁).2 f1').defs d hd') σ

end Printemps.Setup
