import Verif.Lemmas.Setup

/-! Helper lemmas for the composition of the preprocessing stages, continued. -/

namespace Printemps.Presolve
open Spec Expr

/-- In a model of set constraints, two unfixed 0/1 variables of the same constraints: one of them can be 0. -/
theorem can_be_zero (m : MState) (i j : ℕ) (hij : i ≠ j) (hw : AllWF m) (ho : m.obj.WF)
    (hset : ∀ c ∈ m.conIds, (m.con c).enabled = true → SetForm (m.con c))
    (hnn : ∀ c ∈ m.conIds, NonnegVars (m.con c) m.var)
    (fi : (m.var i).fixed = false) (bi : (m.var i).lb = 0 ∧ (m.var i).ub = 1)
    (fj : (m.var j).fixed = false) (bj : (m.var j).lb = 0 ∧ (m.var j).ub = 1)
    (hr : relatedCons m i = relatedCons m j) (hf : ∃ σ, Feasible m σ) : ∃ τ, Feasible m τ ∧ τ j = 0 := by
  obtain ⟨σ, hσ⟩ := hf
  have hc : ∀ v, cost { m with objDefined := false } v = 0 := fun v => rfl
  have key := dominatedStep_keeps { m with objDefined := false } i j hij hw ho hset hnn fi bi fj bj hr
    (by rw [hc, hc]) (Or.inl (by rw [hc]))
  obtain ⟨τ, h1, _⟩ := key.complete σ hσ
  refine ⟨τ, key.sound τ h1, ?_⟩
  have := h1.1 j
  unfold fixZero at this
  simp only [List.mem_singleton, if_true, admits_fixBy] at this
  exact this

/-- A box with different bounds inside another one. -/
theorem box_inside (var var' : ℕ → Var) (hbox : ∀ τ, InBounds var' τ → InBounds var τ) (σ : ℕ → ℤ)
    (hσ : InBounds var' σ) (v : ℕ) (hf : (var v).fixed = false) (hf' : (var' v).fixed = false) :
    (var' v).lb ≤ (var' v).ub ∧ (var v).lb ≤ (var' v).lb ∧ (var' v).ub ≤ (var v).ub := by
  have h := (hσ v).2 hf'
  have mk : ∀ x, (var' v).lb ≤ x → x ≤ (var' v).ub → (var v).lb ≤ x ∧ x ≤ (var v).ub := by
    intro x h1 h2
    have hb := hbox (Function.update σ v x) (by
      intro u
      by_cases hu : u = v
      · subst hu
        rw [Function.update_self]
        exact ⟨fun e => by rw [hf'] at e; exact absurd e (by simp), fun _ => ⟨h1, h2⟩⟩
      · rw [Function.update_of_ne hu]; exact hσ u)
    have := (hb v).2 hf
    rwa [Function.update_self] at this
  exact ⟨le_trans h.1 h.2, (mk _ (le_refl _) (le_trans h.1 h.2)).1, (mk _ (le_trans h.1 h.2) (le_refl _)).2⟩

/-- A 0/1 variable that is not fixed at a nonzero value. -/
def ZeroBox (v : Var) : Prop :=
  (v.fixed = true → v.value = 0) ∧ (v.fixed = false → v.lb = 0 ∧ 0 ≤ v.ub ∧ v.ub ≤ 1)

/-- What is known of the model before and after the reduction. -/
structure Reduced (mS mP m2 : MState) : Prop where
  same : SameData mS mP
  con : mP.con = mS.con
  var : ∀ v, mP.var v = if v ∈ mS.varIds ∧ (mS.var v).fixed = false ∧ relatedCons mS v = [] then
    (mS.var v).fixBy (independentValue mS v) else mS.var v
  same' : SameData mP m2
  exact : ∀ τ, Feasible mP τ ↔ Feasible m2 τ
  box : ∀ τ, InBounds m2.var τ → InBounds mP.var τ
  fixed : ∀ v, (mP.var v).fixed = true → (m2.var v).fixed = true
  ne : ∀ v ∈ mS.varIds, (m2.var v).fixed = false → (m2.var v).lb ≠ (m2.var v).ub

theorem relatedCons_congr {m m' : MState} (h1 : m'.conIds = m.conIds)
    (h2 : ∀ c, (m'.con c).expr = (m.con c).expr) (v : ℕ) : relatedCons m' v = relatedCons m v := by
  unfold relatedCons; rw [h1]; simp only [h2]

/-- After the reduction the conditions for dropping dominated variables are met. -/
theorem setModel_of (mS mP m2 : MState) (h : Reduced mS mP m2) (hw : AllWF m2) (ho : m2.obj.WF)
    (hs : ∀ v, m2.objSens v = lookup m2.obj.terms v)
    (hset : ∀ c ∈ m2.conIds, SetForm (m2.con c))
    (hbin : ∀ c ∈ m2.conIds, ∀ v ∈ (m2.con c).expr.vars, ZeroBox (mS.var v))
    (hf : ∃ σ, Feasible m2 σ)
    (hd : ∀ v ∈ m2.varIds, (m2.var v).fixed = false → Droppable m2 v) : SetModel m2 := by
  obtain ⟨σ, hσ⟩ := hf
  have hids : m2.varIds = mS.varIds := h.same'.varIds.trans h.same.varIds
  have hcons : m2.conIds = mS.conIds := h.same'.conIds.trans h.same.conIds
  have hexpr : ∀ c, (m2.con c).expr = (mS.con c).expr := fun c => (h.same'.expr c).trans (h.same.expr c)
  have hrel : ∀ v, relatedCons m2 v = relatedCons mS v := relatedCons_congr hcons hexpr
  -- variables that occur are not touched by the first step
  have hocc : ∀ v, relatedCons mS v ≠ [] → mP.var v = mS.var v := by
    intro v hv; rw [h.var v, if_neg (fun e => hv e.2.2)]
  have hrelmem : ∀ v, relatedCons mS v ≠ [] → ZeroBox (mS.var v) := by
    intro v hv
    obtain ⟨c, hc⟩ := List.exists_mem_of_ne_nil _ hv
    unfold relatedCons at hc
    rw [List.mem_filter] at hc
    refine hbin c (by rw [hcons]; exact hc.1) v ?_
    rw [hexpr]; simpa using hc.2
  have hmemrel : ∀ c ∈ m2.conIds, ∀ v ∈ (m2.con c).expr.vars, relatedCons mS v ≠ [] := by
    intro c hc v hv e
    have : c ∈ relatedCons mS v := List.mem_filter.2 ⟨by rw [← hcons]; exact hc, by rw [← hexpr]; simpa using hv⟩
    rw [e] at this; exact absurd this (by simp)
  have hun : ∀ v, (m2.var v).fixed = false → (mP.var v).fixed = false := by
    intro v hv
    by_contra hc
    rw [h.fixed v (by simpa using hc)] at hv
    exact absurd hv (by simp)
  have hrelun : ∀ v ∈ m2.varIds, (m2.var v).fixed = false → relatedCons mS v ≠ [] := by
    intro v hv hfv hr
    have h1 := hun v hfv
    rw [h.var v] at h1
    split at h1
    · exact absurd h1 (by simp [Var.fixBy, Var.updateMargin])
    · rename_i hne
      exact hne ⟨by rw [← hids]; exact hv, h1, hr⟩
  have hb : ∀ v ∈ m2.varIds, (m2.var v).fixed = false → (m2.var v).lb = 0 ∧ (m2.var v).ub = 1 ∧
      (mS.var v).fixed = false ∧ (mS.var v).lb = 0 ∧ (mS.var v).ub = 1 := by
    intro v hv hfv
    have hr := hrelun v hv hfv
    have h1 := hun v hfv
    obtain ⟨b1, b2, b3⟩ := box_inside mP.var m2.var h.box σ hσ.1 v h1 hfv
    rw [hocc v hr] at h1 b2 b3
    have h2 := (hrelmem v hr).2 h1
    have h3 := h.ne v (by rw [← hids]; exact hv) hfv
    refine ⟨by omega, by omega, h1, by omega, by omega⟩
  have hnnP : ∀ c ∈ mP.conIds, NonnegVars (mP.con c) mP.var := by
    intro c hc v hv
    have hc2 : c ∈ m2.conIds := by rw [h.same'.conIds]; exact hc
    have hv2 : v ∈ (m2.con c).expr.vars := by rw [h.same'.expr]; exact hv
    rw [hocc v (hmemrel c hc2 v hv2)]
    obtain ⟨z1, z2⟩ := hbin c hc2 v hv2
    exact ⟨fun e => by rw [z1 e], fun e => by rw [(z2 e).1]⟩
  refine ⟨hw, ho, hs, fun c hc _ => hset c hc, ?_, ?_, fun v hv e => ⟨(hb v hv e).1, (hb v hv e).2.1⟩, hd⟩
  · intro c hc v hv
    have hcP : c ∈ mP.conIds := by rw [← h.same'.conIds]; exact hc
    have hvP : v ∈ (mP.con c).expr.vars := by rw [← h.same'.expr]; exact hv
    have hle := (hnnP c hcP).le (h.box σ hσ.1) hvP
    constructor
    · intro e; rw [← (hσ.1 v).1 e]; exact hle
    · intro e
      have h1 := hun v e
      have b := box_inside mP.var m2.var h.box σ hσ.1 v h1 e
      exact le_trans ((hnnP c hcP v hvP).2 h1) b.2.1
  · intro i hi fi j hj hr fj
    by_contra hne
    have hij : i ≠ j := by
      rintro rfl
      rw [fi] at fj; exact absurd fj (by simp)
    obtain ⟨_, _, fi', li, ui⟩ := hb i hi fi
    have hri := hrelun i hi fi
    have hrS : relatedCons mS i = relatedCons mS j := by rw [← hrel, ← hrel]; exact hr
    have hrj : relatedCons mS j ≠ [] := hrS ▸ hri
    have hzj := hrelmem j hrj
    have hσP : Feasible mP σ := (h.exact σ).2 hσ
    have hj' := hocc j hrj
    have hi' := hocc i hri
    have vj : σ j = (m2.var j).value := (hσ.1 j).1 fj
    have fjS : (mS.var j).fixed = false := by
      by_contra hc
      have hc : (mS.var j).fixed = true := by simpa using hc
      have k := (hσP.1 j).1 (by rw [hj']; exact hc)
      rw [hj', hzj.1 hc] at k
      exact hne (by rw [← vj]; exact k)
    have kj := (hσP.1 j).2 (by rw [hj']; exact fjS)
    rw [hj'] at kj
    have bj := hzj.2 fjS
    obtain ⟨τ, t1, t2⟩ := can_be_zero mP i j hij
      (fun c hc => by rw [h.same'.conIds.symm] at hc; rw [← h.same'.expr]; exact hw c hc)
      (by rw [← h.same'.obj]; exact ho)
      (fun c hc _ => by
        have := hset c (by rw [h.same'.conIds]; exact hc)
        unfold SetForm at this ⊢
        rw [← h.same'.expr]; exact this)
      hnnP (by rw [hi']; exact fi') (by rw [hi']; exact ⟨li, ui⟩) (by rw [hj']; exact fjS)
      (by rw [hj']; exact ⟨bj.1, by omega⟩)
      (by rw [relatedCons_congr h.same.conIds h.same.expr, relatedCons_congr h.same.conIds h.same.expr]; exact hrS)
      ⟨σ, hσP⟩
    have := (((h.exact τ).1 t1).1 j).1 fj
    rw [t2] at this
    exact hne this.symm

/-- The reduction, with all facts used later. -/
theorem reduceProblemSize_facts (m : MState) (hn : m.varIds.Nodup) (hg : GoodData m) (ho : m.obj.WF)
    (hs : ∀ v ∈ m.varIds, m.objSens v = lookup m.obj.terms v) (hb : Small m.var)
    (hok : ∀ v ∈ m.varIds, (m.var v).fixed = false → relatedCons m v = [] → IndependentOK m v)
    (hf : ∃ σ, Feasible m σ) :
    ∃ mP m', reduceProblemSize m = some (.ok m') ∧ KeepsOptimum m m' ∧ SameCon m m' ∧ SameData m m' ∧
      (∃ σ, Feasible m' σ) ∧ Reduced m mP m' := by
  have h1 := removeIndependent_keeps m.varIds m (fun c hc => (hg c hc).1) ho hs hok
  obtain ⟨sd, hcon⟩ := C27.removeIndependent_same m.varIds m
  obtain ⟨σ, hσ⟩ := hf
  obtain ⟨τ, hτ, _⟩ := h1.complete σ hσ
  have hvar := removeIndependent_var m.varIds m hn
  have hg' : GoodData (removeIndependent m.varIds m).1 := hg.of_same sd
  have hb' : Small (removeIndependent m.varIds m).1.var := by
    intro v hv
    rw [hvar v] at hv ⊢
    split at hv
    · exact absurd hv (by simp [Var.fixBy, Var.updateMargin])
    · rename_i hne
      rw [if_neg hne]; exact hb v hv
  unfold reduceProblemSize
  simp only []
  obtain ⟨r, hr⟩ := C21.reduction_terminates (removeIndependent m.varIds m).1
  obtain ⟨m', rfl, k2, k3⟩ := reduceLoop_exact _ _ r hg' hb' ⟨τ, hτ⟩ hr
  obtain ⟨b1, b2, b3⟩ := reduceLoop_box _ _ m' hg' hb' ⟨τ, hτ⟩ hr
  have sc := reduceLoop_sameCon _ _ m' hr
  refine ⟨(removeIndependent m.varIds m).1, m', hr,
    h1.trans ⟨fun ρ h => (k3 ρ).2 h, fun ρ h => ⟨ρ, (k3 ρ).1 h, le_refl _⟩, fun ρ => ?_⟩,
    (SameCon.of_eq hcon).trans sc, sd.trans k2, ⟨τ, (k3 τ).1 hτ⟩,
    ⟨sd, hcon, hvar, k2, k3, b1, b2, fun v hv => b3 v (by rw [sd.varIds]; exact hv)⟩⟩
  unfold minObjective
  rw [k2.obj, k2.isMin, k2.objDefined]

end Printemps.Presolve
