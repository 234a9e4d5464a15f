import Verif.Lemmas.SetupStages
import Verif.Spec.Setup

/-! The preprocessing as a whole: every stage keeps the optimum. -/

namespace Printemps.Setup
open Spec Expr Presolve

/-- What stays true of the model in all stages; `O` is the model at the beginning. -/
structure Good (O m : MState) : Prop where
  conIds : m.conIds.Nodup
  varIds : m.varIds = O.varIds
  terms : ∀ c ∈ m.conIds, ∃ i ∈ O.conIds, (m.con c).expr.terms = (O.con i).expr.terms
  coef : ∀ c ∈ m.conIds, (m.con c).onlyBinaryCoef = true → ∀ t ∈ (m.con c).expr.terms, t.2 = 1
  bin : ∀ c ∈ m.conIds, (m.con c).onlyBinaryVar = true → ∀ v ∈ (m.con c).expr.vars, (O.var v).sense = .binary
  orig : ∀ c ∈ O.conIds, c ∈ m.conIds ∧ (m.con c).expr = (O.con c).expr ∧ (m.con c).sense = (O.con c).sense
  obj : m.obj = O.obj
  isMin : m.isMin = O.isMin
  objDefined : m.objDefined = O.objDefined
  objSens : ∀ v, m.objSens v = lookup O.obj.terms v

theorem Good.of_same {O m m' : MState} (h : Good O m) (s : SameCon m m') (d : SameData m m') : Good O m' where
  conIds := by rw [d.conIds]; exact h.conIds
  varIds := d.varIds.trans h.varIds
  terms c hc := by rw [d.expr]; rw [d.conIds] at hc; exact h.terms c hc
  coef c hc := by
    obtain ⟨e, he⟩ := s c
    rw [he]; rw [d.conIds] at hc; exact h.coef c hc
  bin c hc := by
    obtain ⟨e, he⟩ := s c
    rw [he]; rw [d.conIds] at hc; exact h.bin c hc
  orig c hc := by
    rw [d.conIds, d.expr, d.sense]; exact h.orig c hc
  obj := d.obj.trans h.obj
  isMin := d.isMin.trans h.isMin
  objDefined := d.objDefined.trans h.objDefined
  objSens v := by rw [d.objSens]; exact h.objSens v

theorem Good.structured {O m : MState} (h : Good O m) : Good O (structured m) where
  conIds := h.conIds
  varIds := h.varIds
  terms := h.terms
  coef := h.coef
  bin := h.bin
  orig := h.orig
  obj := h.obj
  isMin := h.isMin
  objDefined := h.objDefined
  objSens v := by
    show (if v ∈ m.obj.vars then lookup m.obj.terms v else m.objSens v) = _
    rw [h.obj, h.objSens]; split <;> rfl

theorem structured_keeps (m : MState) : KeepsOptimum m (structured m) :=
  ⟨fun _ h => h, fun σ h => ⟨σ, h, le_refl _⟩, fun _ => rfl⟩

theorem keeps_of_iff {m m' : MState} (h : ∀ σ, Feasible m σ ↔ Feasible m' σ) (h1 : m'.obj = m.obj)
    (h2 : m'.isMin = m.isMin) (h3 : m'.objDefined = m.objDefined) : KeepsOptimum m m' :=
  ⟨fun σ => (h σ).2, fun σ k => ⟨σ, (h σ).1 k, le_refl _⟩, fun σ => by unfold minObjective; rw [h1, h2, h3]⟩

theorem good_start (o : Options) (m : MState) (h : Proper o m) : Good (structured m) (structured m) where
  conIds := h.conIds
  varIds := rfl
  terms c hc := ⟨c, hc, rfl⟩
  coef c hc := (h.flags c hc).1
  bin c hc := (h.flags c hc).2
  orig c hc := ⟨hc, rfl, rfl⟩
  obj := rfl
  isMin := rfl
  objDefined := rfl
  objSens v := by
    show (if v ∈ m.obj.vars then lookup m.obj.terms v else m.objSens v) = lookup m.obj.terms v
    split
    · rfl
    · rename_i hv; rw [h.sens, Expr.lookup_of_not_mem _ _ hv]

theorem lt_fresh (l : List ℕ) : ∀ c ∈ l, c < fresh l := by
  induction l with
  | nil => simp
  | cons a l ih =>
    intro c hc
    unfold fresh
    rw [List.foldr_cons]
    rcases List.mem_cons.1 hc with rfl | hc
    · exact lt_of_lt_of_le (Nat.lt_succ_self _) (le_max_left _ _)
    · exact lt_of_lt_of_le (ih c hc) (le_max_right _ _)

theorem mem_ofType {lt : ℕ → ℕ → Bool} {m : MState} {k : ConType} {c : ℕ} :
    c ∈ ofType lt m k ↔ c ∈ m.conIds ∧ (ConType.classify m.var lt (m.con c)).1 = k := by
  unfold ofType; rw [List.mem_filter]; simp

theorem mem_implicitCandidates {lt : ℕ → ℕ → Bool} {m : MState} {c : ℕ} (h : c ∈ implicitCandidates lt m) :
    c ∈ m.conIds ∧ (ConType.classify m.var lt (m.con c)).1 ≠ .exclusiveOr ∧
      (ConType.classify m.var lt (m.con c)).1 ≠ .setPartitioning := by
  unfold implicitCandidates at h
  simp only [List.mem_append, List.mem_filter, mem_ofType] at h
  have fin : ∀ k : ConType, (c ∈ m.conIds ∧ (ConType.classify m.var lt (m.con c)).1 = k) → k ≠ .exclusiveOr →
      k ≠ .setPartitioning → c ∈ m.conIds ∧ (ConType.classify m.var lt (m.con c)).1 ≠ .exclusiveOr ∧
      (ConType.classify m.var lt (m.con c)).1 ≠ .setPartitioning := by
    rintro k ⟨h1, h2⟩ h3 h4; exact ⟨h1, h2 ▸ h3, h2 ▸ h4⟩
  rcases h with (((((((((h | h) | h) | h) | h) | h) | h) | h) | h) | h) | h
  all_goals first
    | exact fin _ h (by decide) (by decide)
    | exact fin _ h.1 (by decide) (by decide)

/-- The terms of a model in the middle are well formed. -/
theorem Good.goodData {o : Options} {O m : MState} (h : Good (Setup.structured O) m) (p : Proper o O) : GoodData m := by
  intro c hc
  obtain ⟨i, hi, e⟩ := h.terms c hc
  unfold Expr.WF Expr.vars
  rw [e]
  exact ⟨p.terms i hi, p.integral i hi⟩

theorem Good.vars {O m : MState} (h : Good O m) {c : ℕ} (hc : c ∈ m.conIds) :
    ∃ i ∈ O.conIds, (m.con c).expr.vars = (O.con i).expr.vars := by
  obtain ⟨i, hi, e⟩ := h.terms c hc
  exact ⟨i, hi, by unfold Expr.vars; rw [e]⟩

/-- First stage. -/
theorem implicitStage_facts (o : Options) (lt : ℕ → ℕ → Bool) (O : MState) (p : Proper o O) :
    let m := structured O
    let m' := implicitStage o lt m
    KeepsOptimum m m' ∧ Good m m' ∧ m'.var = m.var ∧ (∀ σ, Feasible m σ ↔ Feasible m' σ) ∧
    (∀ c ∈ m.conIds, c ∉ implicitCandidates lt m → m'.con c = m.con c) ∧
    (o.implicitEqualities = false → m' = m) := by
  simp only []
  have g := good_start o O p
  have hw : AllWF (structured O) := fun c hc => p.terms c hc
  have hl : ∀ c ∈ implicitCandidates lt (structured O), c ∈ (structured O).conIds :=
    fun c hc => (mem_implicitCandidates hc).1
  have hnext := lt_fresh (structured O).conIds
  by_cases ho : o.implicitEqualities = true
  · have e : implicitStage o lt (structured O) = extractImplicitEqualities (fun v => ((structured O).var v).sense)
      (implicitCandidates lt (structured O)) (fresh (structured O).conIds) (structured O) := by
      unfold implicitStage; rw [if_pos ho]
    rw [e]
    have hiff := extractImplicitEqualities_spec (fun v => ((structured O).var v).sense)
      (implicitCandidates lt (structured O)) (fresh (structured O).conIds) (structured O) hw hl hnext
    obtain ⟨f1, f2, f3, f4, f5, f6, f7, f8, f9⟩ := extractImplicitEqualities_facts (fun v => ((structured O).var v).sense)
      (implicitCandidates lt (structured O)) (fresh (structured O).conIds) (structured O) hw hl hnext g.conIds
    generalize extractImplicitEqualities (fun v => ((structured O).var v).sense)
      (implicitCandidates lt (structured O)) (fresh (structured O).conIds) (structured O) = m' at *
    have hcase : ∀ c ∈ m'.conIds, (c ∈ (structured O).conIds ∧ ∃ e, m'.con c = { (structured O).con c with enabled := e }) ∨
        ∃ i ∈ (structured O).conIds, m'.con c = Con.setup (((structured O).con i).expr.subValue 0) .equal
          (fun v => ((structured O).var v).sense) := by
      intro c hc
      rcases f9 c hc with h | h
      · exact Or.inl ⟨h, (f8 c h).2.1⟩
      · exact Or.inr h
    refine ⟨keeps_of_iff hiff f3 f4 f5, ⟨f7, f2, fun c hc => ?_, fun c hc => ?_, fun c hc => ?_, fun c hc => ?_, f3, f4, f5,
      fun v => by rw [f6]; exact g.objSens v⟩, f1, hiff, fun c hc => (f8 c hc).2.2, fun h => by rw [ho] at h; exact absurd h (by simp)⟩
    · rcases hcase c hc with ⟨h, e, he⟩ | ⟨i, hi, he⟩
      · exact ⟨c, h, by rw [he]⟩
      · exact ⟨i, hi, by rw [he]; rfl⟩
    · rcases hcase c hc with ⟨h, e, he⟩ | ⟨i, hi, he⟩
      · rw [he]; exact g.coef c h
      · rw [he]
        intro hfl t ht
        unfold Con.setup at hfl ht
        simp only [List.all_eq_true, decide_eq_true_eq] at hfl
        exact hfl t ht
    · rcases hcase c hc with ⟨h, e, he⟩ | ⟨i, hi, he⟩
      · rw [he]; exact g.bin c h
      · rw [he]
        intro hfl v hv
        unfold Con.setup at hfl hv
        simp only [List.all_eq_true, Bool.or_eq_true, beq_iff_eq] at hfl
        unfold Expr.vars at hv
        obtain ⟨t, ht, rfl⟩ := List.mem_map.1 hv
        rcases hfl t ht with k | k
        · exact k
        · have : t.1 ∈ (O.con i).expr.vars := List.mem_map.2 ⟨t, ht, rfl⟩
          rcases p.senses i hi t.1 this with q | q
          · exact q
          · have k' : (O.var t.1).sense = .selection := k
            rw [q] at k'; exact absurd k' (by decide)
    · obtain ⟨h1, ⟨e, he⟩, _⟩ := f8 c hc
      exact ⟨h1, by rw [he], by rw [he]⟩
  · have e : implicitStage o lt (structured O) = structured O := by unfold implicitStage; rw [if_neg ho]
    rw [e]
    exact ⟨KeepsOptimum.refl _, g, rfl, fun _ => Iff.rfl, fun _ _ _ => rfl, fun _ => rfl⟩

theorem ofType_nodup (lt : ℕ → ℕ → Bool) (m : MState) (k : ConType) (h : m.conIds.Nodup) : (ofType lt m k).Nodup :=
  h.filter _

/-- Second stage. -/
theorem setConstraintStage_facts (o : Options) (lt : ℕ → ℕ → Bool) (O : MState) (p : Proper o O) :
    let m := structured O
    let mI := implicitStage o lt m
    let mS := setConstraintStage o lt m mI
    KeepsOptimum mI mS ∧ SameCon mI mS ∧ SameData mI mS ∧
    (∀ v, mS.var v = mI.var v ∨ (mS.var v).fixed = true ∧ (mS.var v).value = 0) := by
  simp only []
  obtain ⟨_, g, hv, _, hsame, _⟩ := implicitStage_facts o lt O p
  have gd := g.goodData p
  generalize hmI : implicitStage o lt (structured O) = mI at *
  unfold setConstraintStage
  by_cases ho : o.setConstraints = true
  · rw [if_pos ho]
    have hcls : ∀ c ∈ ofType lt (structured O) .exclusiveOr ++ ofType lt (structured O) .setPartitioning,
        c ∈ (structured O).conIds ∧ ((ConType.classify (structured O).var lt ((structured O).con c)).1 = .exclusiveOr ∨
          (ConType.classify (structured O).var lt ((structured O).con c)).1 = .setPartitioning) := by
      intro c hc
      rw [List.mem_append, mem_ofType, mem_ofType] at hc
      tauto
    have hcon : ∀ c ∈ ofType lt (structured O) .exclusiveOr ++ ofType lt (structured O) .setPartitioning,
        mI.con c = (structured O).con c := by
      intro c hc
      obtain ⟨h1, h2⟩ := hcls c hc
      refine hsame c h1 (fun h => ?_)
      have := (mem_implicitCandidates h).2
      rcases h2 with h2 | h2
      · exact this.1 h2
      · exact this.2 h2
    have hform : ∀ c ∈ ofType lt (structured O) .exclusiveOr ++ ofType lt (structured O) .setPartitioning,
        OneForm ((structured O).con c) ∧ ∀ v ∈ ((structured O).con c).expr.vars, (O.var v).sense = .binary := by
      intro c hc
      obtain ⟨h1, h2⟩ := hcls c hc
      have hs := classify_shape (structured O).var lt ((structured O).con c)
      rcases h2 with h2 | h2
      · rw [h2] at hs
        refine ⟨hs.1, fun v hv => ?_⟩
        have := hs.2 v hv
        rw [ConType.isBin_iff] at this
        rcases this with k | k
        · exact k
        · have k' : (O.var v).sense = .dependentBinary := k
          rcases p.senses c h1 v hv with q | q
          · exact q
          · rw [q] at k'; exact absurd k' (by decide)
      · rw [h2] at hs
        obtain ⟨s1, s2, s3, s4⟩ := hs
        exact ⟨⟨s4, Or.inl ⟨(p.flags c h1).1 s1, s3⟩⟩, (p.flags c h1).2 s2⟩
    have hn : (ofType lt (structured O) .exclusiveOr ++ ofType lt (structured O) .setPartitioning).Nodup := by
      rw [List.nodup_append]
      refine ⟨ofType_nodup _ _ _ p.conIds, ofType_nodup _ _ _ p.conIds, fun a ha b hb hab => ?_⟩
      subst hab
      rw [mem_ofType] at ha hb
      rw [ha.2] at hb
      exact absurd hb.2 (by decide)
    have hiff := C26.solutions_unchanged_partial
      (ofType lt (structured O) .exclusiveOr ++ ofType lt (structured O) .setPartitioning) mI
      (fun c hc => (gd c hc).1) hn (fun c hc => (g.orig c (hcls c hc).1).1)
      (fun c hc => by rw [hcon c hc]; exact p.enabled c (hcls c hc).1)
      (fun c hc => by rw [hcon c hc]; exact (hform c hc).1)
      (fun c hc v hvm => by
        rw [hcon c hc] at hvm
        rw [hv]
        have := p.binary (Or.inl ho) c (hcls c hc).1 v hvm ((hform c hc).2 v hvm)
        exact ⟨this.1, fun h => ⟨(this.2 h).1, (this.2 h).2.1⟩⟩)
    obtain ⟨d1, d2, d3⟩ := dropSupersets_facts ((ofType lt (structured O) .exclusiveOr ++
      ofType lt (structured O) .setPartitioning).mergeSort
        (fun a b => decide ((mI.con b).expr.terms.length ≤ (mI.con a).expr.terms.length))) mI
    exact ⟨keeps_of_iff hiff d1.obj d1.isMin d1.objDefined, d2, d1, d3⟩
  · rw [if_neg ho]
    exact ⟨KeepsOptimum.refl _, SameCon.refl _, SameData.refl _, fun _ => Or.inl rfl⟩

/-- The presolve block. -/
theorem presolveStage_facts (o : Options) (lt : ℕ → ℕ → Bool) (O : MState) (p : Proper o O)
    (hf : ∃ σ, Feasible O σ) (hp : o.presolve = true) :
    ∃ mS mP m1, presolveStage o lt (structured O) = some (.ok m1) ∧ KeepsOptimum (structured O) m1 ∧
      Good (structured O) m1 ∧ (∃ σ, Feasible m1 σ) ∧ Reduced mS mP m1 ∧
      (∀ v, mS.var v = O.var v ∨ (mS.var v).fixed = true ∧ (mS.var v).value = 0) ∧
      (o.implicitEqualities = false → m1.conIds = O.conIds) ∧
      mS = setConstraintStage o lt (structured O) (implicitStage o lt (structured O)) := by
  obtain ⟨k1, g, hv, _, _, hoff⟩ := implicitStage_facts o lt O p
  obtain ⟨k2, sc, sd, hvS⟩ := setConstraintStage_facts o lt O p
  unfold presolveStage
  rw [if_pos hp]
  generalize hmI : implicitStage o lt (structured O) = mI at *
  have gS := g.of_same sc sd
  generalize hmS : setConstraintStage o lt (structured O) mI = mS at *
  have hvar : ∀ v, mS.var v = O.var v ∨ (mS.var v).fixed = true ∧ (mS.var v).value = 0 := by
    intro v
    rcases hvS v with h | h
    · left; rw [h, hv]; rfl
    · exact Or.inr h
  have hunf : ∀ v, (mS.var v).fixed = false → mS.var v = O.var v := by
    intro v h
    rcases hvar v with k | k
    · exact k
    · rw [k.1] at h; exact absurd h (by simp)
  have kS := ((structured_keeps O).trans k1).trans k2
  obtain ⟨σ, hσ⟩ := hf
  obtain ⟨τ, hτ, _⟩ := kS.complete σ hσ
  obtain ⟨mP, m1, r1, r2, r3, r4, r5, r6⟩ := reduceProblemSize_facts mS (by rw [gS.varIds]; exact p.varIds)
    (gS.goodData p) (by rw [gS.obj]; exact p.objective) (fun v _ => by rw [gS.objSens, gS.obj])
    (fun v h => by have e := hunf v h; rw [e] at h ⊢; exact p.bounds v h)
    (fun v hvm h hr => by
      unfold IndependentOK
      rw [hunf v h, gS.obj]
      refine p.free v (by rw [gS.varIds] at hvm; exact hvm) (by rw [← hunf v h]; exact h) (fun c hc hvc => ?_)
      obtain ⟨q1, q2, _⟩ := gS.orig c hc
      have : c ∈ relatedCons mS v := List.mem_filter.2 ⟨q1, by rw [q2]; exact decide_eq_true hvc⟩
      rw [hr] at this; exact absurd this (by simp)) ⟨τ, hτ⟩
  refine ⟨mS, mP, m1, r1, (k1.trans k2).trans r2, gS.of_same r3 r4, r5, r6, hvar, fun h => ?_, rfl⟩
  rw [r4.conIds, sd.conIds, hoff h]; rfl

theorem dropDominatedBy_same (i : ℕ) (js : List ℕ) : ∀ m : MState, SameData m (dropDominatedBy i js m) := by
  induction js with
  | nil => intro m; exact SameData.refl m
  | cons j js ih =>
    intro m
    unfold dropDominatedBy
    rw [List.foldl_cons]
    split
    · exact ih m
    · split
      · exact (SameData.trans (b := fixZero [j] m) ⟨rfl, rfl, fun _ => rfl, fun _ => rfl, rfl, rfl, rfl, rfl⟩ (ih _))
      · exact ih m

theorem dropDominated_same (l : List ℕ) : ∀ m : MState, SameData m (dropDominated m l) ∧ (dropDominated m l).con = m.con := by
  induction l with
  | nil => intro m; exact ⟨SameData.refl m, rfl⟩
  | cons i rest ih =>
    intro m
    unfold dropDominated
    split
    · exact ih m
    · dsimp only
      split
      · exact ⟨dropDominatedBy_same _ _ _, (dropDominatedBy_con _ _ _).1⟩
      · exact ⟨(dropDominatedBy_same _ _ _).trans (ih _).1, (ih _).2.trans (dropDominatedBy_con _ _ _).1⟩

theorem removeRedundantSetVariables_same (cs : List ℕ) (m : MState) :
    SameData m (removeRedundantSetVariables cs m) ∧ SameCon m (removeRedundantSetVariables cs m) := by
  unfold removeRedundantSetVariables
  split
  · exact ⟨SameData.refl m, SameCon.refl m⟩
  · split
    · exact ⟨SameData.refl m, SameCon.refl m⟩
    · exact ⟨(dropDominated_same _ m).1, SameCon.of_eq (dropDominated_same _ m).2⟩

theorem Reduced.structured {o : Options} {O mS mP m1 : MState} (_p : Proper o O) (g : Good (Setup.structured O) m1)
    (h : Reduced mS mP m1) : Reduced mS mP (Setup.structured m1) where
  same := h.same
  con := h.con
  var := h.var
  same' := ⟨h.same'.conIds, h.same'.varIds, h.same'.expr, h.same'.sense, h.same'.obj, h.same'.isMin, h.same'.objDefined, by
    rw [← h.same'.objSens]
    funext v
    rw [g.structured.objSens, g.objSens]⟩
  exact := h.exact
  box := h.box
  fixed := h.fixed
  ne := h.ne

/-- The stage of the set variables. -/
theorem setVariableStage_facts (o : Options) (lt : ℕ → ℕ → Bool) (O mS mP m2 : MState) (p : Proper o O)
    (g : Good (structured O) m2) (k : KeepsOptimum (structured O) m2) (r : Reduced mS mP m2)
    (hf : ∃ σ, Feasible m2 σ)
    (hvar : ∀ v, mS.var v = O.var v ∨ (mS.var v).fixed = true ∧ (mS.var v).value = 0) :
    KeepsOptimum m2 (setVariableStage o lt m2) ∧ SameData m2 (setVariableStage o lt m2) ∧
      SameCon m2 (setVariableStage o lt m2) := by
  unfold setVariableStage
  by_cases ho : (o.presolve && o.setVariables) = true
  swap
  · rw [if_neg ho]; exact ⟨KeepsOptimum.refl _, SameData.refl _, SameCon.refl _⟩
  rw [if_pos ho]
  have hsv : o.setVariables = true := by simp only [Bool.and_eq_true] at ho; exact ho.2
  refine ⟨?_, (removeRedundantSetVariables_same _ _).1, (removeRedundantSetVariables_same _ _).2⟩
  by_cases hlen : m2.conIds.length = (ofType lt m2 .setPartitioning ++ ofType lt m2 .setCovering ++
      ofType lt m2 .setPacking).length
  swap
  · unfold removeRedundantSetVariables
    split
    · exact KeepsOptimum.refl _
    · exact KeepsOptimum.refl _
  have hnod : (ofType lt m2 .setPartitioning ++ ofType lt m2 .setCovering ++ ofType lt m2 .setPacking).Nodup := by
    rw [List.nodup_append, List.nodup_append]
    refine ⟨⟨ofType_nodup _ _ _ g.conIds, ofType_nodup _ _ _ g.conIds, ?_⟩, ofType_nodup _ _ _ g.conIds, ?_⟩
    · rintro a ha b hb rfl
      rw [mem_ofType] at ha hb
      rw [ha.2] at hb; exact absurd hb.2 (by decide)
    · rintro a ha b hb rfl
      rw [List.mem_append, mem_ofType, mem_ofType] at ha
      rw [mem_ofType] at hb
      rcases ha with ha | ha <;> (rw [ha.2] at hb; exact absurd hb.2 (by decide))
  have hsub : (ofType lt m2 .setPartitioning ++ ofType lt m2 .setCovering ++ ofType lt m2 .setPacking) ⊆ m2.conIds := by
    intro c hc
    simp only [List.mem_append, mem_ofType] at hc
    tauto
  have hperm := (hnod.subperm hsub).perm_of_length_le (le_of_eq hlen)
  have hcl : ∀ c ∈ m2.conIds, (m2.con c).onlyBinaryCoef = true ∧ (m2.con c).onlyBinaryVar = true ∧
      (m2.con c).expr.const = -1 := by
    intro c hc
    have hs := classify_shape m2.var lt (m2.con c)
    have := hperm.mem_iff.2 hc
    simp only [List.mem_append, mem_ofType] at this
    rcases this with (h | h) | h
    · rw [h.2] at hs; exact ⟨hs.1, hs.2.1, hs.2.2.1⟩
    · rw [h.2] at hs; exact hs
    · rw [h.2] at hs; exact hs
  have hset : ∀ c ∈ m2.conIds, SetForm (m2.con c) := fun c hc => ⟨g.coef c hc (hcl c hc).1, (hcl c hc).2.2⟩
  have hb : ∀ c ∈ m2.conIds, ∀ v ∈ (m2.con c).expr.vars, (O.var v).sense = .binary ∧
      ∃ i ∈ O.conIds, v ∈ (O.con i).expr.vars := by
    intro c hc v hv
    obtain ⟨i, hi, e⟩ := g.vars hc
    refine ⟨g.bin c hc (hcl c hc).2.1 v hv, i, hi, ?_⟩
    rw [e] at hv; exact hv
  have hz : ∀ c ∈ m2.conIds, ∀ v ∈ (m2.con c).expr.vars, ZeroBox (O.var v) := by
    intro c hc v hv
    obtain ⟨h1, i, hi, h2⟩ := hb c hc v hv
    exact p.binary (Or.inr hsv) i hi v h2 h1
  have hsens : ∀ v, m2.objSens v = lookup m2.obj.terms v := fun v => by rw [g.objSens, g.obj]
  refine removeRedundantSetVariables_keeps _ m2 (setModel_of mS mP m2 r (fun c hc => (g.goodData p c hc).1)
    (by rw [g.obj]; exact p.objective) hsens hset (fun c hc v hv => ?_) hf (fun v hv hfx => ?_))
    (by rw [g.varIds]; exact p.varIds)
  · rcases hvar v with h | h
    · rw [h]; exact hz c hc v hv
    · exact ⟨fun _ => h.2, fun h' => by rw [h.1] at h'; exact absurd h' (by simp)⟩
  · have hocc : ∃ c ∈ m2.conIds, v ∈ (m2.con c).expr.vars := by
      by_contra hno
      push Not at hno
      have hP : (mP.var v).fixed = true := by
        rw [r.var]
        split
        · rfl
        · rename_i hn
          by_contra hfS
          refine hn ⟨?_, by simpa using hfS, ?_⟩
          · rw [← r.same.varIds, ← r.same'.varIds]; exact hv
          · unfold relatedCons
            rw [List.filter_eq_nil_iff]
            intro c hc
            have e : (m2.con c).expr = (mS.con c).expr := (r.same'.expr c).trans (r.same.expr c)
            have := hno c (by rw [r.same'.conIds, r.same.conIds]; exact hc)
            rw [e] at this
            simpa using this
      have := r.fixed v hP
      rw [this] at hfx; exact absurd hfx (by simp)
    obtain ⟨c, hc, hvc⟩ := hocc
    obtain ⟨h1, i, hi, h2⟩ := hb c hc v hvc
    have hd := p.costs hsv i hi v h2 h1
    have hO : Droppable (structured O) v := by
      refine droppable_of_con (structured O) v (fun c hc => p.terms c hc) (fun c hc _ => ?_) (fun c hc u hu => ?_) ?_
      · obtain ⟨q1, q2, _⟩ := g.orig c hc
        have := hset c q1
        unfold SetForm at this ⊢
        rw [q2] at this; exact this
      · obtain ⟨q1, q2, _⟩ := g.orig c hc
        have := hz c q1 u (by rw [q2]; exact hu)
        exact ⟨fun h => le_of_eq (this.1 h).symm, fun h => le_of_eq (this.2 h).1.symm⟩
      · rcases hd with hd | ⟨d, hdm, hds, hdv⟩
        · exact Or.inl hd
        · exact Or.inr ⟨d, hdm, p.enabled d hdm, hds, hdv⟩
    rcases hO with hO | hO
    · left
      unfold cost at hO ⊢
      rw [g.obj, g.isMin, g.objDefined]; exact hO
    · right
      intro j hj hr σ hσ
      refine hO j hj ?_ σ (k.sound σ hσ)
      unfold relatedCons
      refine List.filter_congr (fun d hd => ?_)
      obtain ⟨q1, q2, _⟩ := g.orig d hd
      have := related_eq_mem hr d q1
      rw [q2] at this
      exact decide_eq_decide.2 this

/-- The stage of the duplicated constraints. -/
theorem duplicateStage_facts (o : Options) (lt : ℕ → ℕ → Bool) (m0 m : MState) (hw : AllWF m) (hn : m0.conIds.Nodup)
    (hc : m.conIds = m0.conIds) :
    KeepsOptimum m (duplicateStage o lt m0 m) ∧ SameData m (duplicateStage o lt m0 m) ∧
      SameCon m (duplicateStage o lt m0 m) := by
  unfold duplicateStage
  split
  · obtain ⟨h1, h2⟩ := removeDuplicated_spec (duplicateTypes.map (ofType lt m0)) m hw
      (fun g hg => by
        obtain ⟨k, _, rfl⟩ := List.mem_map.1 hg
        exact ofType_nodup _ _ _ hn)
      (fun g hg c hcg => by
        obtain ⟨k, _, rfl⟩ := List.mem_map.1 hg
        rw [hc]; exact (mem_ofType.1 hcg).1)
    exact ⟨keeps_of_iff h2 h1.obj h1.isMin h1.objDefined, h1, (removeDuplicated_sameCon _ m).1⟩
  · exact ⟨KeepsOptimum.refl _, SameData.refl _, SameCon.refl _⟩

theorem dependentCandidates_nil (o : Options) (lt : ℕ → ℕ → Bool) (m : MState)
    (h : ∀ c ∈ m.conIds, (m.con c).sense ≠ .equal) : dependentCandidates o lt m = [] := by
  have key : ∀ k : ConType, (∀ var c, Shape var c k → c.sense = .equal) → ofType lt m k = [] := by
    intro k hk
    unfold ofType
    rw [List.filter_eq_nil_iff]
    intro c hc he
    rw [decide_eq_true_eq] at he
    have := classify_shape m.var lt (m.con c)
    rw [he] at this
    exact h c hc (hk _ _ this)
  unfold dependentCandidates
  dsimp only
  rw [key .exclusiveOr (fun _ _ h => h.1.1), key .exclusiveNor (fun _ _ h => h), key .invertedIntegers (fun _ _ h => h),
    key .balancedIntegers (fun _ _ h => h), key .constantSum (fun _ _ h => h), key .constantDifference (fun _ _ h => h),
    key .constantRatio (fun _ _ h => h), key .intermediate (fun _ _ h => h)]
  simp

/-- Without candidates nothing is extracted. -/
theorem dependentStage_none (o : Options) (lt : ℕ → ℕ → Bool) (m : MState)
    (h : o.dependent = false ∨ ∀ c ∈ m.conIds, (m.con c).sense ≠ .equal) : dependentStage o lt m = some (.ok m) := by
  unfold dependentStage
  split
  · rename_i hp
    rcases h with h | h
    · rw [h] at hp; simp at hp
    · unfold dependentLoop
      rw [dependentCandidates_nil o lt m h]
      have hc : Dependent.chosen m (keyOf lt m) [] = [] := rfl
      unfold Dependent.extract
      dsimp only
      rw [hc]
      simp
  · rfl

/-- All stages before the extraction of selections. -/
theorem reduce_facts (o : Options) (lt : ℕ → ℕ → Bool) (m : MState) (p : Proper o m) (hf : ∃ σ, Feasible m σ) :
    ∃ m', reduce o lt m = some (.ok m') ∧ KeepsOptimum m m' ∧ Good (structured m) m' := by
  unfold reduce
  by_cases hp : o.presolve = true
  · obtain ⟨mS, mP, m1, e1, k1, g1, f1, r1, hvar, hoff, _⟩ := presolveStage_facts o lt m p hf hp
    have g2 := g1.structured
    have hdep : dependentStage o lt (structured m1) = some (.ok (structured m1)) := by
      refine dependentStage_none o lt _ ?_
      rcases p.independent with h | ⟨h1, h2⟩
      · exact Or.inl h
      · refine Or.inr (fun c hc => ?_)
        have hc' : c ∈ m.conIds := by rw [← hoff h1]; exact hc
        have : ((structured m1).con c).sense = (m.con c).sense := (g1.orig c hc').2.2
        rw [this]; exact h2 c hc'
    have k2 : KeepsOptimum (structured m) (structured m1) := k1.trans (structured_keeps m1)
    obtain ⟨k3, d3, c3⟩ := setVariableStage_facts o lt m mS mP (structured m1) p g2 k2
      (Reduced.structured p g1 r1) f1 hvar
    have g3 := g2.of_same c3 d3
    obtain ⟨k4, d4, c4⟩ := duplicateStage_facts o lt (structured m1) (setVariableStage o lt (structured m1))
      (fun c hc => (g3.goodData p c hc).1) g2.conIds d3.conIds
    rw [e1]
    simp only [andThen]
    rw [hdep]
    simp only []
    refine ⟨_, rfl, ?_, (g3.of_same c4 d4).structured⟩
    exact ((((structured_keeps m).trans k2).trans k3).trans k4).trans (structured_keeps _)
  · have hp' : o.presolve = false := by simpa using hp
    unfold presolveStage dependentStage setVariableStage duplicateStage
    simp only [hp', Bool.false_and, Bool.false_eq_true, if_false, andThen]
    exact ⟨_, rfl, ((structured_keeps _).trans (structured_keeps _)).trans (structured_keeps _),
      (good_start o m p).structured.structured⟩

end Printemps.Setup
