import Verif.Lemmas.SetupRun

/-! What the preprocessing does to single variables, and which parts of a model it leaves alone. -/

namespace Printemps.Setup
open Spec Expr Presolve

/-- A property of variables that stays true when the variable is fixed and when its bounds shrink. -/
structure Closed (P : ℕ → Var → Prop) : Prop where
  fix : ∀ i v x, P i v → P i (v.fixBy x)
  bound : ∀ i (v old w : Var) l u, P i v → P i old → old.fixed = v.fixed → old.lb ≤ l → u ≤ old.ub →
    v.setBound l u = some w → P i w

theorem setBound_fixed {v w : Var} {l u : ℤ} (h : v.setBound l u = some w) : w.fixed = v.fixed := by
  unfold Var.setBound at h
  split at h
  · exact absurd h (by simp)
  · simp only [Option.some.injEq] at h
    subst h
    unfold Var.setupSense Var.updateMargin
    split <;> rfl

theorem raiseLower_closed {P} (hP : Closed P) (i : ℕ) (v old w : Var) (b : ℤ) (hv : P i v) (ho : P i old)
    (hf : old.fixed = v.fixed) (h : raiseLower v old b = .ok w) : P i w ∧ w.fixed = v.fixed := by
  unfold raiseLower at h
  split at h
  · rename_i hc
    cases hs : v.setBound b old.ub with
    | none => rw [hs] at h; exact absurd h (by simp [Outcome.ofOption])
    | some x =>
      rw [hs] at h
      simp only [Outcome.ofOption, Outcome.ok.injEq] at h
      subst h
      exact ⟨hP.bound i v old x _ _ hv ho hf (le_of_lt hc.1) (le_refl _) hs, setBound_fixed hs⟩
  · simp only [Outcome.ok.injEq] at h
    subst h; exact ⟨hv, rfl⟩

theorem reduceUpper_closed {P} (hP : Closed P) (i : ℕ) (v old w : Var) (b : ℤ) (hv : P i v) (ho : P i old)
    (hf : old.fixed = v.fixed) (h : reduceUpper v old b = .ok w) : P i w ∧ w.fixed = v.fixed := by
  unfold reduceUpper at h
  split at h
  · rename_i hc
    cases hs : v.setBound old.lb b with
    | none => rw [hs] at h; exact absurd h (by simp [Outcome.ofOption])
    | some x =>
      rw [hs] at h
      simp only [Outcome.ofOption, Outcome.ok.injEq] at h
      subst h
      exact ⟨hP.bound i v old x _ _ hv ho hf (le_refl _) (le_of_lt hc.1) hs, setBound_fixed hs⟩
  · simp only [Outcome.ok.injEq] at h
    subst h; exact ⟨hv, rfl⟩

theorem bind_ok {α β : Type} {o : Outcome α} {f : α → Outcome β} {b : β} (h : o.bind f = .ok b) :
    ∃ a, o = .ok a ∧ f a = .ok b := by
  cases o with
  | ok a => exact ⟨a, rfl, h⟩
  | thrown => exact absurd h (by simp [Outcome.bind])
  | undefined => exact absurd h (by simp [Outcome.bind])

theorem tightenPositive_closed {P} (hP : Closed P) (i : ℕ) (c : Con) (lo hi a : ℚ) (v w : Var) (hv : P i v)
    (h : tightenPositive c lo hi a v = .ok w) : P i w := by
  unfold tightenPositive at h
  obtain ⟨x, h1, h2⟩ := bind_ok h
  have hx : P i x ∧ x.fixed = v.fixed := by
    split at h1
    · exact raiseLower_closed hP i v v x _ hv hv rfl h1
    · simp only [Outcome.ok.injEq] at h1; subst h1; exact ⟨hv, rfl⟩
  split at h2
  · exact (reduceUpper_closed hP i x v w _ hx.1 hv hx.2.symm h2).1
  · simp only [Outcome.ok.injEq] at h2; subst h2; exact hx.1

theorem tightenNegative_closed {P} (hP : Closed P) (i : ℕ) (c : Con) (lo hi a : ℚ) (v w : Var) (hv : P i v)
    (h : tightenNegative c lo hi a v = .ok w) : P i w := by
  unfold tightenNegative at h
  split at h
  · exact absurd h (by simp)
  obtain ⟨x, h1, h2⟩ := bind_ok h
  have hx : P i x ∧ x.fixed = v.fixed := by
    split at h1
    · exact reduceUpper_closed hP i v v x _ hv hv rfl h1
    · simp only [Outcome.ok.injEq] at h1; subst h1; exact ⟨hv, rfl⟩
  split at h2
  · exact (raiseLower_closed hP i x v w _ hx.1 hv hx.2.symm h2).1
  · simp only [Outcome.ok.injEq] at h2; subst h2; exact hx.1

theorem update_closed {P : ℕ → Var → Prop} (var : ℕ → Var) (i : ℕ) (w : Var) (hv : ∀ v, P v (var v)) (hw : P i w) :
    ∀ v, P v (Function.update var i w v) := by
  intro v
  by_cases h : v = i
  · subst h; rw [Function.update_self]; exact hw
  · rw [Function.update_of_ne h]; exact hv v

theorem tightenLoop_closed {P : ℕ → Var → Prop} (f : ℚ → Var → Outcome Var)
    (hf : ∀ i a v w, P i v → f a v = .ok w → P i w) (ts : List (ℕ × ℚ)) :
    ∀ var var', (∀ v, P v (var v)) → tightenLoop f ts var = .ok var' → ∀ v, P v (var' v) := by
  induction ts with
  | nil => intro var var' hv h; simp only [tightenLoop, Outcome.ok.injEq] at h; subst h; exact hv
  | cons t ts ih =>
    intro var var' hv h
    rw [tightenLoop] at h
    obtain ⟨w, h1, h2⟩ := bind_ok h
    exact ih _ _ (update_closed var t.1 w hv (hf t.1 t.2 _ _ (hv t.1) h1)) h2

theorem singleton_closed {P} (hP : Closed P) (c : Con) (var : ℕ → Var) (i : ℕ) (a : ℚ) (r : (ℕ → Var) × Bool)
    (hv : ∀ v, P v (var v)) (h : singleton c var i a = .ok r) : ∀ v, P v (r.1 v) := by
  have up : ∀ b, (reduceUpper (var i) (var i) b).bind (fun w => Outcome.ok (Function.update var i w, true)) = .ok r →
      ∀ v, P v (r.1 v) := by
    intro b h
    obtain ⟨w, h1, h2⟩ := bind_ok h
    simp only [Outcome.ok.injEq] at h2
    subst h2
    exact update_closed var i w hv (reduceUpper_closed hP i _ _ w _ (hv i) (hv i) rfl h1).1
  have lo : ∀ b, (raiseLower (var i) (var i) b).bind (fun w => Outcome.ok (Function.update var i w, true)) = .ok r →
      ∀ v, P v (r.1 v) := by
    intro b h
    obtain ⟨w, h1, h2⟩ := bind_ok h
    simp only [Outcome.ok.injEq] at h2
    subst h2
    exact update_closed var i w hv (raiseLower_closed hP i _ _ w _ (hv i) (hv i) rfl h1).1
  have id : (Outcome.ok (var, false) : Outcome ((ℕ → Var) × Bool)) = .ok r → ∀ v, P v (r.1 v) := by
    intro h
    simp only [Outcome.ok.injEq] at h
    subst h; exact hv
  unfold Presolve.singleton at h
  dsimp only at h
  split at h
  · split at h
    · exact absurd h (by simp)
    · simp only [Outcome.ok.injEq] at h
      subst h
      exact update_closed var i _ hv (hP.fix i _ _ (hv i))
  · split at h
    · exact up _ h
    · split at h
      · exact lo _ h
      · exact id h
  · split at h
    · exact up _ h
    · split at h
      · exact lo _ h
      · exact id h

theorem tightenConstraint_closed {P} (hP : Closed P) (c : Con) (var : ℕ → Var) (r : (ℕ → Var) × Bool)
    (hv : ∀ v, P v (var v)) (h : tightenConstraint c var = .ok r) : ∀ v, P v (r.1 v) := by
  unfold tightenConstraint at h
  split at h
  · simp only [Outcome.ok.injEq] at h; subst h; exact hv
  · split at h
    · exact singleton_closed hP c var _ _ r hv h
    · dsimp only at h
      obtain ⟨w, h1, h2⟩ := bind_ok h
      obtain ⟨x, h3, h4⟩ := bind_ok h2
      simp only [Outcome.ok.injEq] at h4
      subst h4
      exact tightenLoop_closed _ (fun i a v w => tightenNegative_closed hP i c _ _ a v w) _ w x
        (tightenLoop_closed _ (fun i a v w => tightenPositive_closed hP i c _ _ a v w) _ var w hv h1) h3

theorem fixImplicitAll_closed {P : ℕ → Var → Prop} (hP : ∀ i v x, P i v → P i (v.fixBy x)) (vs : List ℕ) :
    ∀ var, (∀ v, P v (var v)) → ∀ v, P v ((fixImplicitAll vs var).1 v) := by
  induction vs with
  | nil => intro var hv; exact hv
  | cons u vs ih =>
    intro var hv
    rw [fixImplicitAll]
    split
    · exact ih var hv
    · dsimp only
      refine ih _ (update_closed var u _ hv ?_)
      unfold fixImplicit
      split
      · exact hP u _ _ (hv u)
      · exact hv u

/-- The second model differs from the first at most in its variables, its constraints, the coefficients stored with the
variables and the selected variables; a property of variables is kept. -/
structure Kept (P : ℕ → Var → Prop) (m m' : MState) : Prop where
  frame : m' = { m with
    var := m'.var, con := m'.con, conIds := m'.conIds, sens := m'.sens, objSens := m'.objSens }
  vars : (∀ v, P v (m.var v)) → ∀ v, P v (m'.var v)

theorem Kept.refl (P) (m : MState) : Kept P m m := ⟨rfl, fun h => h⟩

theorem Kept.trans {P} {a b c : MState} (h : Kept P a b) (k : Kept P b c) : Kept P a c := by
  refine ⟨?_, fun hv => k.vars (h.vars hv)⟩
  rw [k.frame, h.frame]

/-- Besides, no constraint is added, and constraints are at most disabled. -/
structure Shrunk (P : ℕ → Var → Prop) (m m' : MState) : Prop extends Kept P m m' where
  conIds : m'.conIds = m.conIds
  off : ∀ c, m'.con c = m.con c ∨ m'.con c = { m.con c with enabled := false }

theorem Shrunk.of_var {P} {m m' : MState} (h : Kept P m m') (h1 : m'.conIds = m.conIds) (h2 : m'.con = m.con) :
    Shrunk P m m' := ⟨h, h1, fun c => Or.inl (by rw [h2])⟩

theorem Shrunk.refl (P) (m : MState) : Shrunk P m m := .of_var (Kept.refl P m) rfl rfl

theorem Shrunk.trans {P} {a b c : MState} (h : Shrunk P a b) (k : Shrunk P b c) : Shrunk P a c := by
  refine ⟨h.toKept.trans k.toKept, k.conIds.trans h.conIds, fun d => ?_⟩
  rcases h.off d with e | e <;> rcases k.off d with f | f
  · exact Or.inl (f.trans e)
  · exact Or.inr (by rw [f, e])
  · exact Or.inr (by rw [f, e])
  · exact Or.inr (by rw [f, e])

theorem Shrunk.structured (P) (m : MState) : Shrunk P m (structured m) := .of_var ⟨rfl, fun h => h⟩ rfl rfl

theorem Shrunk.disable (P) (m : MState) (c : ℕ) : Shrunk P m (disable m c) := by
  refine ⟨⟨rfl, fun h => h⟩, rfl, fun d => ?_⟩
  by_cases h : d = c
  · subst h; exact Or.inr (by simp [Presolve.disable])
  · exact Or.inl (by simp [Presolve.disable, h])

theorem tightenAll_shrunk {P} (hP : Closed P) (cs : List ℕ) : ∀ m m' n, tightenAll cs m = .ok (m', n) → Shrunk P m m' := by
  induction cs with
  | nil => intro m m' n h; simp only [tightenAll, Outcome.ok.injEq, Prod.mk.injEq] at h; rw [← h.1]; exact Shrunk.refl P m
  | cons c cs ih =>
    intro m m' n h
    rw [tightenAll] at h
    split at h
    · obtain ⟨r, h1, h2⟩ := bind_ok h
      obtain ⟨s, h3, h4⟩ := bind_ok h2
      simp only [Outcome.ok.injEq, Prod.mk.injEq] at h4
      rw [← h4.1]
      refine Shrunk.trans ?_ (ih _ s.1 s.2 h3)
      have k1 : Shrunk P m { m with var := r.1 } := .of_var ⟨rfl, fun hv => tightenConstraint_closed hP _ _ r hv h1⟩ rfl rfl
      split
      · exact k1.trans (Shrunk.disable P _ c)
      · exact k1
    · exact ih m m' n h

theorem reduceLoop_shrunk {P} (hP : Closed P) (fuel : ℕ) : ∀ m m', reduceLoop fuel m = some (.ok m') → Shrunk P m m' := by
  induction fuel with
  | zero => intro m m' h; exact absurd h (by simp [reduceLoop])
  | succ fuel ih =>
    intro m m' h
    unfold reduceLoop at h
    split at h
    · exact absurd h (by simp)
    · exact absurd h (by simp)
    · rename_i m1 d h1
      have k1 := tightenAll_shrunk hP _ _ _ _ h1
      have k2 : Shrunk P m1 { m1 with var := (fixImplicitAll m1.varIds m1.var).1 } :=
        .of_var ⟨rfl, fun hv => fixImplicitAll_closed hP.fix _ _ hv⟩ rfl rfl
      dsimp only at h
      split at h
      · simp only [Option.some.injEq, Outcome.ok.injEq] at h
        rw [← h]; exact k1.trans k2
      · exact (k1.trans k2).trans (ih _ _ h)

theorem removeIndependent_shrunk {P : ℕ → Var → Prop} (hP : ∀ i v x, P i v → P i (v.fixBy x)) (vs : List ℕ) :
    ∀ m, Shrunk P m (removeIndependent vs m).1 := by
  induction vs with
  | nil => intro m; exact Shrunk.refl P m
  | cons u vs ih =>
    intro m
    rw [removeIndependent]
    split
    · exact ih m
    · split
      · dsimp only
        have k : Shrunk P m { m with var := Function.update m.var u ((m.var u).fixBy (independentValue m u)) } :=
          .of_var ⟨rfl, fun hv => update_closed m.var u _ hv (hP u _ _ (hv u))⟩ rfl rfl
        exact k.trans (ih _)
      · exact ih m

theorem reduceProblemSize_shrunk {P} (hP : Closed P) (m m' : MState) (h : reduceProblemSize m = some (.ok m')) :
    Shrunk P m m' :=
  (removeIndependent_shrunk hP.fix m.varIds m).trans (reduceLoop_shrunk hP _ _ _ h)

theorem fixZero_shrunk {P : ℕ → Var → Prop} (hP : ∀ i v x, P i v → P i (v.fixBy x)) (vs : List ℕ) (m : MState) :
    Shrunk P m (fixZero vs m) := by
  refine .of_var ⟨rfl, fun hv v => ?_⟩ rfl rfl
  unfold fixZero
  dsimp only
  split
  · exact hP v _ _ (hv v)
  · exact hv v

theorem dropSupersets_shrunk {P : ℕ → Var → Prop} (hP : ∀ i v x, P i v → P i (v.fixBy x)) (l : List ℕ) :
    ∀ m, Shrunk P m (dropSupersets m l) := by
  induction l with
  | nil => intro m; exact Shrunk.refl P m
  | cons i rest ih =>
    intro m
    rw [dropSupersets]
    split
    · exact ((Shrunk.disable P m i).trans (fixZero_shrunk hP _ _)).trans (ih _)
    · exact ih m

theorem dropDominatedBy_shrunk {P : ℕ → Var → Prop} (hP : ∀ i v x, P i v → P i (v.fixBy x)) (i : ℕ) (js : List ℕ) :
    ∀ m, Shrunk P m (dropDominatedBy i js m) := by
  induction js with
  | nil => intro m; exact Shrunk.refl P m
  | cons j js ih =>
    intro m
    unfold dropDominatedBy
    rw [List.foldl_cons]
    split
    · exact ih m
    · split
      · exact (fixZero_shrunk hP [j] m).trans (ih _)
      · exact ih m

theorem dropDominated_shrunk {P : ℕ → Var → Prop} (hP : ∀ i v x, P i v → P i (v.fixBy x)) (l : List ℕ) :
    ∀ m, Shrunk P m (dropDominated m l) := by
  induction l with
  | nil => intro m; exact Shrunk.refl P m
  | cons i rest ih =>
    intro m
    unfold dropDominated
    split
    · exact ih m
    · dsimp only
      split
      · exact dropDominatedBy_shrunk hP _ _ _
      · exact (dropDominatedBy_shrunk hP _ _ _).trans (ih _)

theorem setVariableStage_shrunk {P : ℕ → Var → Prop} (hP : ∀ i v x, P i v → P i (v.fixBy x)) (o : Options)
    (lt : ℕ → ℕ → Bool) (m : MState) : Shrunk P m (setVariableStage o lt m) := by
  unfold setVariableStage
  split
  · unfold removeRedundantSetVariables
    split
    · exact Shrunk.refl P m
    · split
      · exact Shrunk.refl P m
      · exact dropDominated_shrunk hP _ m
  · exact Shrunk.refl P m

theorem setConstraintStage_shrunk {P : ℕ → Var → Prop} (hP : ∀ i v x, P i v → P i (v.fixBy x)) (o : Options)
    (lt : ℕ → ℕ → Bool) (m0 m : MState) : Shrunk P m (setConstraintStage o lt m0 m) := by
  unfold setConstraintStage
  split
  · exact dropSupersets_shrunk hP _ m
  · exact Shrunk.refl P m

theorem implicitEqualities_shrunk (P) (senseOf : ℕ → VarSense) (l : List ℕ) (m : MState) :
    Shrunk P m (implicitEqualities senseOf m l).1 := by
  induction hlen : l.length using Nat.strong_induction_on generalizing l m with
  | _ n ih =>
    cases l with
    | nil => rw [implicitEqualities]; exact Shrunk.refl P m
    | cons i rest =>
      rw [implicitEqualities]
      have hl1 : rest.length < n := by rw [← hlen]; simp
      split
      · dsimp only
        split
        · rename_i j _
          exact ((Shrunk.disable P m i).trans (Shrunk.disable P _ j)).trans (ih rest.length hl1 rest _ rfl)
        · exact ih _ (lt_of_le_of_lt (List.dropWhile_sublist _).length_le hl1) _ m rfl
      · exact ih rest.length hl1 rest m rfl

theorem implicitStage_kept (P) (o : Options) (lt : ℕ → ℕ → Bool) (m : MState) : Kept P m (implicitStage o lt m) := by
  unfold implicitStage
  split
  · unfold extractImplicitEqualities
    split
    · exact Kept.refl P m
    · exact (implicitEqualities_shrunk P _ _ m).toKept.trans ⟨rfl, fun h => h⟩
  · exact Kept.refl P m

theorem dropDuplicates_shrunk (P) (l : List ℕ) (m : MState) : Shrunk P m (dropDuplicates m l) := by
  have inner : ∀ (i : ℕ) (js : List ℕ) (m : MState), Shrunk P m (dropDuplicatesOf i js m) := by
    intro i js
    induction js with
    | nil => intro m; exact Shrunk.refl P m
    | cons j js ih =>
      intro m
      unfold dropDuplicatesOf
      rw [List.foldl_cons]
      split
      · exact (Shrunk.disable P m j).trans (ih _)
      · exact ih m
  induction hlen : l.length using Nat.strong_induction_on generalizing l m with
  | _ n ih =>
    cases l with
    | nil => rw [dropDuplicates]; exact Shrunk.refl P m
    | cons i rest =>
      rw [dropDuplicates]
      have hl1 : rest.length < n := by rw [← hlen]; simp
      split
      · dsimp only
        exact (inner i _ m).trans (ih _ (lt_of_le_of_lt (List.dropWhile_sublist _).length_le hl1) _ _ rfl)
      · exact ih rest.length hl1 rest m rfl

theorem duplicateStage_shrunk (P) (o : Options) (lt : ℕ → ℕ → Bool) (m0 m : MState) :
    Shrunk P m (duplicateStage o lt m0 m) := by
  unfold duplicateStage
  split
  · unfold removeDuplicated
    generalize duplicateTypes.map (ofType lt m0) = groups
    induction groups generalizing m with
    | nil => exact Shrunk.refl P m
    | cons g groups ih =>
      rw [List.foldl_cons]
      split
      · exact ih m
      · exact (dropDuplicates_shrunk P _ m).trans (ih _)
  · exact Shrunk.refl P m

/-- All stages before the selections, if no dependent variables are extracted. -/
theorem reduce_shrunk {P} (hP : Closed P) (o : Options) (lt : ℕ → ℕ → Bool) (O m' : MState) (p : Proper o O)
    (hf : ∃ σ, Feasible O σ) (hp : o.presolve = true) (h : reduce o lt O = some (.ok m')) :
    Kept P O (implicitStage o lt (structured O)) ∧ Shrunk P (implicitStage o lt (structured O)) m' ∧
      ∀ v ∈ O.varIds, (m'.var v).fixed = false → (m'.var v).lb ≠ (m'.var v).ub := by
  have k0 : Kept P O (implicitStage o lt (structured O)) :=
    (Shrunk.structured P O).toKept.trans (implicitStage_kept P o lt _)
  obtain ⟨mS, mP, m1, e1, _, g1, _, r1, _, hoff, _⟩ := presolveStage_facts o lt O p hf hp
  have hdep : dependentStage o lt (structured m1) = some (.ok (structured m1)) := by
    refine dependentStage_none o lt _ ?_
    rcases p.independent with h | ⟨h1, h2⟩
    · exact Or.inl h
    · refine Or.inr (fun c hc => ?_)
      have hc' : c ∈ O.conIds := by rw [← hoff h1]; exact hc
      have : ((structured m1).con c).sense = (O.con c).sense := (g1.orig c hc').2.2
      rw [this]; exact h2 c hc'
  unfold reduce at h
  rw [e1] at h
  simp only [andThen] at h
  rw [hdep] at h
  simp only [Option.some.injEq, Outcome.ok.injEq] at h
  subst h
  unfold presolveStage at e1
  rw [if_pos hp] at e1
  have tail : ∀ Q : ℕ → Var → Prop, (∀ i v x, Q i v → Q i (v.fixBy x)) →
      Shrunk Q m1 (structured (duplicateStage o lt (structured m1) (setVariableStage o lt (structured m1)))) := fun Q hQ =>
    (((Shrunk.structured Q m1).trans (setVariableStage_shrunk hQ o lt _)).trans (duplicateStage_shrunk Q o lt _ _)).trans
      (Shrunk.structured Q _)
  refine ⟨k0, ((setConstraintStage_shrunk hP.fix o lt _ _).trans (reduceProblemSize_shrunk hP _ _ e1)).trans (tail P hP.fix),
    fun v hv => ?_⟩
  have hids : O.varIds = mS.varIds := by
    have := g1.varIds
    rw [← r1.same.varIds, ← r1.same'.varIds, this]; rfl
  refine (tail (fun i v => i ∈ O.varIds → v.fixed = false → v.lb ≠ v.ub) (fun i v x _ _ hfx => ?_)).vars
    (fun u hu hfu => r1.ne u (by rw [← hids]; exact hu) hfu) v hv
  exact absurd hfx (by simp [Var.fixBy, Var.updateMargin])

end Printemps.Setup
