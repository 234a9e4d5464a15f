import Verif.Model.Setup
import Verif.Lemmas.PresolveOpt
import Verif.Lemmas.Dependent
import Verif.Lemmas.ConstraintType
import Verif.Props.C26
import Verif.Props.C27

/-! Helper lemmas for the composition of the preprocessing stages. -/

namespace Printemps.Presolve
open Spec Expr

/-- One step only shrinks the boxes of the variables. -/
theorem tightenConstraint_back (c : Con) (hc : GoodCon c) (var : ℕ → Var) (hi : FixedInt c var) (σ : ℕ → ℤ)
    (hb : InBounds var σ) (hh : Holds c σ) (hs : Small var) (var' : ℕ → Var) (d : Bool)
    (he : tightenConstraint c var = .ok (var', d)) (τ : ℕ → ℤ) (ht : InBounds var' τ) : InBounds var τ := by
  rcases tightenConstraint_cases c var with ⟨_, e⟩ | ⟨_, v, a, hm, e⟩ | ⟨_, _, e⟩
  · rw [e] at he; cases he; exact ht
  · obtain ⟨hmem, hf⟩ := mutable_singleton hm
    have hv := exprValue_singleton c.expr var σ hb hi v a hm
    have hh' := hh
    unfold Holds at hh'
    rw [hv] at hh'
    obtain ⟨w, h1, h2⟩ := singleton_keeps c var v a hf (hc.2 _ hmem) (σ v) (hb v) hh'
    have hok := singletonOK_of_witness c var v a hf (hc.2 _ hmem) hs (σ v) (hb v) hh'
    obtain ⟨_, k2, k3⟩ := singleton_exact c var _ v a true hf h1 (hc.2 _ hmem) hok
    rw [e, h1] at he
    cases he
    exact ((inBounds_update_iff var τ v _ k2 _ k3).1 ht).1
  · obtain ⟨var'', h1, h2⟩ := tightenGeneral_spec c hc.1 hc.2 var σ hb hh
    rw [e, h1] at he
    cases he
    exact h2.back τ ht

theorem tightenAll_back (cs : List ℕ) : ∀ (m : MState), GoodData m → (∀ c ∈ cs, c ∈ m.conIds) → Small m.var →
    (∃ σ, Feasible m σ) → ∀ m' n, tightenAll cs m = .ok (m', n) → ∀ τ, InBounds m'.var τ → InBounds m.var τ := by
  induction cs with
  | nil => intro m _ _ _ _ m' n h τ ht; cases h; exact ht
  | cons c cs ih =>
    intro m hg hcs hs ⟨σ, hf⟩ m' n h τ ht
    have hcm := hcs c (by simp)
    rw [tightenAll_cons] at h
    split at h
    · rename_i he
      obtain ⟨var', d, h1, h2, h3⟩ := tightenConstraint_exact (m.con c) (hg.good hcm) m.var
        (hg.fixedInt hcm _) σ hf.1 (hf.2 c hcm he) hs
      have sd := stepState_same m c (var', d)
      have key := stepState_feasible m c hcm he (var', d) h3
      rw [h1] at h
      simp only [Outcome.bind] at h
      obtain ⟨s, k1, k2⟩ := bind_ok h
      cases k2
      have := ih (stepState m c (var', d)) (hg.of_same sd)
        (fun k hk => by rw [sd.conIds]; exact hcs k (List.mem_cons_of_mem _ hk))
        (by rw [stepState_var]; exact h2) ⟨σ, (key σ).1 hf⟩ s.1 s.2 k1 τ ht
      rw [stepState_var] at this
      exact tightenConstraint_back (m.con c) (hg.good hcm) m.var (hg.fixedInt hcm _) σ hf.1 (hf.2 c hcm he) hs var' d h1 τ
        this
    · exact ih m hg (fun k hk => hcs k (List.mem_cons_of_mem _ hk)) hs ⟨σ, hf⟩ m' n h τ ht

theorem fixImplicitAll_stay (vs : List ℕ) : ∀ (var : ℕ → Var) (v : ℕ), (var v).fixed = true →
    (fixImplicitAll vs var).1 v = var v := by
  induction vs with
  | nil => intro var v _; rfl
  | cons u vs ih =>
    intro var v hv
    rw [fixImplicitAll]
    split
    · exact ih var v hv
    · rename_i hu
      have huv : v ≠ u := fun e => hu (e ▸ hv)
      simp only []
      rw [ih _ v (by rw [Function.update_of_ne huv]; exact hv), Function.update_of_ne huv]

/-- After the round every unfixed variable of the list has different bounds. -/
theorem fixImplicitAll_ne (vs : List ℕ) : ∀ (var : ℕ → Var), ∀ v ∈ vs, ((fixImplicitAll vs var).1 v).fixed = false →
    ((fixImplicitAll vs var).1 v).lb ≠ ((fixImplicitAll vs var).1 v).ub := by
  have stay := fixImplicitAll_stay
  have same : ∀ (vs : List ℕ) (var : ℕ → Var) (v : ℕ), (var v).lb ≠ (var v).ub → (fixImplicitAll vs var).1 v = var v := by
    intro vs
    induction vs with
    | nil => intro var v _; rfl
    | cons u vs ih =>
      intro var v hv
      rw [fixImplicitAll]
      split
      · exact ih var v hv
      · simp only []
        by_cases huv : v = u
        · subst huv
          have e : (fixImplicit (var v)).1 = var v := by unfold fixImplicit; rw [if_neg hv]
          rw [e, ih _ v (by rw [Function.update_self]; exact hv), Function.update_self]
        · rw [ih _ v (by rw [Function.update_of_ne huv]; exact hv), Function.update_of_ne huv]
  induction vs with
  | nil => intro var v hv; simp at hv
  | cons u vs ih =>
    intro var v hv
    rw [fixImplicitAll]
    split
    · rename_i hu
      intro hf
      rcases List.mem_cons.1 hv with rfl | hv
      · rw [stay vs var _ hu] at hf; rw [hu] at hf; exact absurd hf (by simp)
      · exact ih var v hv hf
    · rename_i hu
      simp only []
      intro hf
      rcases List.mem_cons.1 hv with rfl | hv
      · by_cases hne : (var v).lb = (var v).ub
        · have e : (fixImplicit (var v)).1 = (var v).fixBy (var v).lb := by unfold fixImplicit; rw [if_pos hne]
          rw [e] at hf
          rw [stay vs _ v (by rw [Function.update_self]; rfl), Function.update_self] at hf
          exact absurd hf (by simp [Var.fixBy, Var.updateMargin])
        · have e : (fixImplicit (var v)).1 = var v := by unfold fixImplicit; rw [if_neg hne]
          rw [e, same vs _ v (by rw [Function.update_self]; exact hne), Function.update_self]
          exact hne
      · exact ih _ v hv hf

/-- The reduction loop shrinks the boxes, leaves fixed variables fixed and no unfixed variable with equal bounds. -/
theorem reduceLoop_box (fuel : ℕ) : ∀ (m m' : MState), GoodData m → Small m.var →
    (∃ σ, Feasible m σ) → reduceLoop fuel m = some (.ok m') →
    (∀ τ, InBounds m'.var τ → InBounds m.var τ) ∧ (∀ v, (m.var v).fixed = true → (m'.var v).fixed = true) ∧
    ∀ v ∈ m.varIds, (m'.var v).fixed = false → (m'.var v).lb ≠ (m'.var v).ub := by
  induction fuel with
  | zero => intro m m' _ _ _ h; exact absurd h (by simp [reduceLoop])
  | succ fuel ih =>
    intro m m' hg hs hf h
    rw [reduceLoop_succ] at h
    obtain ⟨m1, n, k1, k2, k3, k4⟩ := tightenAll_exact m.conIds m hg (fun _ h => h) hs hf
    have b1 := tightenAll_back m.conIds m hg (fun _ h => h) hs hf m1 n k1
    have c1 := (tightenAll_count m.conIds m m1 n (fun _ h => h) k1).2.2
    rw [k1] at h
    simp only [] at h
    have k5 := fun τ => (k4 τ).trans (roundState_feasible m1 τ)
    have b2 : ∀ τ, InBounds (roundState m1).var τ → InBounds m.var τ :=
      fun τ ht => b1 τ ((fixImplicitAll_inBounds m1.varIds m1.var τ).2 ht)
    have f2 : ∀ v, (m.var v).fixed = true → ((roundState m1).var v).fixed = true := by
      intro v hv
      have := c1 v hv
      show ((fixImplicitAll m1.varIds m1.var).1 v).fixed = true
      rw [fixImplicitAll_stay m1.varIds m1.var v this]; exact this
    split at h
    · cases h
      refine ⟨b2, f2, fun v hv => ?_⟩
      exact fixImplicitAll_ne m1.varIds m1.var v (by rw [k2.varIds]; exact hv)
    · obtain ⟨σ, hσ⟩ := hf
      have sd := k2.trans (roundState_same m1)
      obtain ⟨e1, e2, e3⟩ := ih (roundState m1) m' (hg.of_same sd)
        (fixImplicitAll_small _ _ k3) ⟨σ, (k5 σ).1 hσ⟩ h
      exact ⟨fun τ ht => b2 τ (e1 τ ht), fun v hv => e2 v (f2 v hv), fun v hv => e3 v (by rw [sd.varIds]; exact hv)⟩

/-! ### Only the enabled flags of constraints change -/

/-- The constraints differ at most in their enabled flags. -/
def SameCon (m m' : MState) : Prop := ∀ c, ∃ e, m'.con c = { m.con c with enabled := e }

theorem SameCon.refl (m : MState) : SameCon m m := fun c => ⟨(m.con c).enabled, rfl⟩

theorem SameCon.trans {a b c : MState} (h : SameCon a b) (k : SameCon b c) : SameCon a c := by
  intro x
  obtain ⟨e, he⟩ := h x
  obtain ⟨f, hf⟩ := k x
  exact ⟨f, by rw [hf, he]⟩

theorem SameCon.of_eq {m m' : MState} (h : m'.con = m.con) : SameCon m m' := by
  intro c; exact ⟨(m.con c).enabled, by rw [h]⟩

theorem disable_sameCon (m : MState) (i : ℕ) : SameCon m (disable m i) := by
  intro c
  by_cases h : c = i
  · subst h; exact ⟨false, by simp [disable]⟩
  · exact ⟨(m.con c).enabled, by simp [disable, h]⟩

theorem stepState_sameCon (m : MState) (c : ℕ) (r : (ℕ → Var) × Bool) : SameCon m (stepState m c r) := by
  unfold stepState
  split
  · exact (SameCon.of_eq (m' := { m with var := r.1 }) rfl).trans (disable_sameCon _ c)
  · exact SameCon.of_eq rfl

theorem tightenAll_sameCon (cs : List ℕ) : ∀ (m m' : MState) (n : ℕ), tightenAll cs m = .ok (m', n) → SameCon m m' := by
  induction cs with
  | nil => intro m m' n h; cases h; exact SameCon.refl m
  | cons c cs ih =>
    intro m m' n h
    rw [tightenAll_cons] at h
    split at h
    · obtain ⟨r, h1, h2⟩ := bind_ok h
      obtain ⟨s, k1, k2⟩ := bind_ok h2
      cases k2
      exact (stepState_sameCon m c r).trans (ih _ s.1 s.2 k1)
    · exact ih m m' n h

theorem reduceLoop_sameCon (fuel : ℕ) : ∀ (m m' : MState), reduceLoop fuel m = some (.ok m') → SameCon m m' := by
  induction fuel with
  | zero => intro m m' h; exact absurd h (by simp [reduceLoop])
  | succ fuel ih =>
    intro m m' h
    rw [reduceLoop_succ] at h
    split at h
    · exact absurd h (by simp)
    · exact absurd h (by simp)
    · rename_i m1 n k1
      have s1 : SameCon m (roundState m1) := (tightenAll_sameCon _ m m1 n k1).trans (SameCon.of_eq rfl)
      split at h
      · cases h; exact s1
      · exact s1.trans (ih _ m' h)

theorem dropSupersets_facts (l : List ℕ) : ∀ (m : MState), SameData m (dropSupersets m l) ∧
    SameCon m (dropSupersets m l) ∧
    ∀ v, (dropSupersets m l).var v = m.var v ∨ ((dropSupersets m l).var v).fixed = true ∧
      ((dropSupersets m l).var v).value = 0 := by
  induction l with
  | nil => intro m; exact ⟨SameData.refl m, SameCon.refl m, fun v => Or.inl rfl⟩
  | cons i rest ih =>
    intro m
    rw [dropSupersets_cons]
    split
    · rename_i j _
      obtain ⟨h1, h2, h3⟩ := ih (supersetStep m i j)
      refine ⟨(supersetStep_same m i j).trans h1, ((disable_sameCon m i).trans (SameCon.of_eq rfl)).trans h2, fun v => ?_⟩
      rcases h3 v with h | h
      · rw [h]
        unfold supersetStep fixZero
        simp only []
        split
        · exact Or.inr ⟨rfl, rfl⟩
        · exact Or.inl rfl
      · exact Or.inr h
    · exact ih m

theorem dropDuplicatesOf_sameCon (i : ℕ) (js : List ℕ) : ∀ m, SameCon m (dropDuplicatesOf i js m) ∧
    (dropDuplicatesOf i js m).var = m.var := by
  induction js with
  | nil => intro m; exact ⟨SameCon.refl m, rfl⟩
  | cons j js ih =>
    intro m
    unfold dropDuplicatesOf
    rw [List.foldl_cons]
    split
    · obtain ⟨h1, h2⟩ := ih (disable m j)
      exact ⟨(disable_sameCon m j).trans h1, h2⟩
    · exact ih m

theorem dropDuplicates_sameCon (l : List ℕ) (m : MState) : SameCon m (dropDuplicates m l) ∧
    (dropDuplicates m l).var = m.var := by
  induction hlen : l.length using Nat.strong_induction_on generalizing l m with
  | _ n ih =>
    cases l with
    | nil => rw [dropDuplicates]; exact ⟨SameCon.refl m, rfl⟩
    | cons i rest =>
      rw [dropDuplicates]
      split
      · simp only []
        generalize (fun j => exprHash (m.con i).expr == exprHash (m.con j).expr) = same
        obtain ⟨k1, k2⟩ := dropDuplicatesOf_sameCon i (rest.takeWhile same) m
        obtain ⟨e1, e2⟩ := ih (rest.dropWhile same).length (by
            rw [← hlen, List.length_cons]; exact Nat.lt_succ_of_le (List.dropWhile_sublist _).length_le)
          (rest.dropWhile same) (dropDuplicatesOf i (rest.takeWhile same) m) rfl
        exact ⟨k1.trans e1, e2.trans k2⟩
      · exact ih rest.length (by rw [← hlen]; simp) rest m rfl

theorem removeDuplicated_sameCon (groups : List (List ℕ)) : ∀ m, SameCon m (removeDuplicated groups m) ∧
    (removeDuplicated groups m).var = m.var := by
  induction groups with
  | nil => intro m; exact ⟨SameCon.refl m, rfl⟩
  | cons g groups ih =>
    intro m
    unfold removeDuplicated
    rw [List.foldl_cons]
    split
    · exact ih m
    · obtain ⟨h1, h2⟩ := dropDuplicates_sameCon (sortByHash m g) m
      obtain ⟨k1, k2⟩ := ih (dropDuplicates m (sortByHash m g))
      exact ⟨h1.trans k1, k2.trans h2⟩

/-- What the search for implicit equalities does to the constraints. -/
theorem implicitEqualities_facts (senseOf : ℕ → VarSense) (l : List ℕ) (m : MState) :
    SameCon m (implicitEqualities senseOf m l).1 ∧ (implicitEqualities senseOf m l).1.var = m.var ∧
    (∀ c, c ∉ l → (implicitEqualities senseOf m l).1.con c = m.con c) ∧
    ∀ k ∈ (implicitEqualities senseOf m l).2, ∃ i ∈ l,
      k = Con.setup ((m.con i).expr.subValue 0) .equal senseOf := by
  induction hlen : l.length using Nat.strong_induction_on generalizing l m with
  | _ n ih =>
    cases l with
    | nil => rw [implicitEqualities]; exact ⟨SameCon.refl m, rfl, fun _ _ => rfl, by simp⟩
    | cons i rest =>
      rw [implicitEqualities]
      have hl1 : rest.length < n := by rw [← hlen]; simp
      split
      · simp only []
        generalize (fun j => exprHash (m.con i).expr == exprHash (m.con j).expr) = same
        have hsub := List.dropWhile_sublist (l := rest) same
        cases hfind : (rest.takeWhile same).find? (fun j => impliesEquality (m.con i) (m.con j)) with
        | none =>
          simp only []
          obtain ⟨h1, h2, h3, h4⟩ := ih (rest.dropWhile same).length (lt_of_le_of_lt hsub.length_le hl1)
            (rest.dropWhile same) m rfl
          refine ⟨h1, h2, fun c hc => h3 c (fun h => hc (List.mem_cons_of_mem _ (hsub.subset h))), fun k hk => ?_⟩
          obtain ⟨j, hj, e⟩ := h4 k hk
          exact ⟨j, List.mem_cons_of_mem _ (hsub.subset hj), e⟩
        | some j =>
          simp only []
          have hj : j ∈ rest := (List.takeWhile_sublist same).subset (List.mem_of_find?_eq_some hfind)
          obtain ⟨h1, h2, h3, h4⟩ := ih rest.length hl1 rest (disable (disable m i) j) rfl
          have sc := (disable_sameCon m i).trans (disable_sameCon (disable m i) j)
          refine ⟨sc.trans h1, h2, fun c hc => ?_, fun k hk => ?_⟩
          · simp only [List.mem_cons, not_or] at hc
            rw [h3 c hc.2]
            have hcj : c ≠ j := fun e => hc.2 (e ▸ hj)
            simp [disable, hc.1, hcj]
          · rcases List.mem_cons.1 hk with rfl | hk
            · exact ⟨i, by simp, rfl⟩
            · obtain ⟨q, hq, e⟩ := h4 k hk
              refine ⟨q, List.mem_cons_of_mem _ hq, ?_⟩
              obtain ⟨f, hf⟩ := sc q
              rw [e, hf]
      · obtain ⟨h1, h2, h3, h4⟩ := ih rest.length hl1 rest m rfl
        refine ⟨h1, h2, fun c hc => h3 c (fun h => hc (List.mem_cons_of_mem _ h)), fun k hk => ?_⟩
        obtain ⟨j, hj, e⟩ := h4 k hk
        exact ⟨j, List.mem_cons_of_mem _ hj, e⟩

/-- The constraints after the extraction of implicit equalities: the old ones, possibly disabled, and new ones with
the terms of an old one. -/
theorem extractImplicitEqualities_facts (senseOf : ℕ → VarSense) (cs : List ℕ) (next : ℕ) (m : MState)
    (hw : AllWF m) (hl : ∀ c ∈ cs, c ∈ m.conIds) (hnext : ∀ c ∈ m.conIds, c < next) (hn : m.conIds.Nodup) :
    let m' := extractImplicitEqualities senseOf cs next m
    m'.var = m.var ∧ m'.varIds = m.varIds ∧ m'.obj = m.obj ∧ m'.isMin = m.isMin ∧ m'.objDefined = m.objDefined ∧
    m'.objSens = m.objSens ∧ m'.conIds.Nodup ∧
    (∀ c ∈ m.conIds, c ∈ m'.conIds ∧ (∃ e, m'.con c = { m.con c with enabled := e }) ∧
      (c ∉ cs → m'.con c = m.con c)) ∧
    ∀ c ∈ m'.conIds, c ∈ m.conIds ∨ ∃ i ∈ m.conIds, m'.con c = Con.setup ((m.con i).expr.subValue 0) .equal senseOf := by
  simp only []
  unfold extractImplicitEqualities
  split
  · exact ⟨rfl, rfl, rfl, rfl, rfl, rfl, hn, fun c hc => ⟨hc, ⟨(m.con c).enabled, rfl⟩, fun _ => rfl⟩, fun c hc => Or.inl hc⟩
  · have hp := sortByHash_perm m cs
    obtain ⟨k1, _, _⟩ := implicitEqualities_spec senseOf (sortByHash m cs) m hw
      (fun c hc => hl c (hp.mem_iff.1 hc))
    obtain ⟨f1, f2, f3, f4⟩ := implicitEqualities_facts senseOf (sortByHash m cs) m
    simp only []
    generalize implicitEqualities senseOf m (sortByHash m cs) = r at k1 f1 f2 f3 f4
    have hold : ∀ c ∈ m.conIds, ¬ (next ≤ c ∧ c < next + r.2.length) :=
      fun c hc h => absurd h.1 (Nat.not_le.2 (hnext c hc))
    refine ⟨f2, k1.varIds, k1.obj, k1.isMin, k1.objDefined, k1.objSens, ?_, fun c hc => ⟨?_, ?_, ?_⟩, fun c hc => ?_⟩
    · rw [List.nodup_append]
      refine ⟨by rw [k1.conIds]; exact hn, ?_, ?_⟩
      · exact List.Nodup.map (fun a b h => by simpa using h) List.nodup_range
      · intro a ha b hb hab
        rw [k1.conIds] at ha
        obtain ⟨k, _, rfl⟩ := List.mem_map.1 hb
        have h1 : a < next := hnext a ha
        have h2 : a = next + k := hab
        exact absurd (h2 ▸ h1) (Nat.not_lt.2 (Nat.le_add_right _ _))
    · exact List.mem_append_left _ (by rw [k1.conIds]; exact hc)
    · rw [if_neg (hold c hc)]; exact f1 c
    · intro hcs
      rw [if_neg (hold c hc)]
      exact f3 c (fun h => hcs (hp.mem_iff.1 h))
    · rcases List.mem_append.1 hc with hc | hc
      · rw [k1.conIds] at hc; exact Or.inl hc
      · right
        obtain ⟨k, hk, rfl⟩ := List.mem_map.1 hc
        rw [List.mem_range] at hk
        rw [if_pos ⟨Nat.le_add_right _ _, Nat.add_lt_add_left hk _⟩, Nat.add_sub_cancel_left, getD_of_lt _ _ hk]
        obtain ⟨i, hi, e⟩ := f4 _ (List.getElem_mem hk)
        exact ⟨i, hl i (hp.mem_iff.1 hi), e⟩

/-! ### Classes -/

/-- What the classes used by the presolve tell about the constraint. -/
def Shape (var : ℕ → Var) (c : Con) : ConType → Prop
  | .setPartitioning => c.onlyBinaryCoef = true ∧ c.onlyBinaryVar = true ∧ c.expr.const = -1 ∧ c.sense = .equal
  | .setPacking => c.onlyBinaryCoef = true ∧ c.onlyBinaryVar = true ∧ c.expr.const = -1
  | .setCovering => c.onlyBinaryCoef = true ∧ c.onlyBinaryVar = true ∧ c.expr.const = -1
  | .exclusiveOr => OneForm c ∧ ∀ v ∈ c.expr.vars, ConType.isBin (var v) = true
  | .exclusiveNor => c.sense = .equal
  | .invertedIntegers => c.sense = .equal
  | .balancedIntegers => c.sense = .equal
  | .constantSum => c.sense = .equal
  | .constantDifference => c.sense = .equal
  | .constantRatio => c.sense = .equal
  | .intermediate => c.sense = .equal
  | _ => True

theorem setTypes_shape (var : ℕ → Var) (c : Con) (r : ConType.Result) (h : ConType.setTypes c = some r) :
    Shape var c r.1 := by
  unfold ConType.setTypes at h
  split at h
  · rename_i hf
    split at h
    · rename_i h1; cases h; exact ⟨hf.1, hf.2, h1.1, h1.2⟩
    · split at h
      · rename_i h1; cases h; exact ⟨hf.1, hf.2, h1.1⟩
      · split at h
        · rename_i h1; cases h; exact ⟨hf.1, hf.2, h1.1⟩
        · split at h
          · cases h; trivial
          · split at h
            · cases h; trivial
            · split at h
              · cases h; trivial
              · exact absurd h (by simp)
  · exact absurd h (by simp)

theorem flowTypes_shape (var : ℕ → Var) (c : Con) (r : ConType.Result) (h : ConType.flowTypes var c = some r) :
    Shape var c r.1 := by
  unfold ConType.flowTypes at h
  dsimp only at h
  repeat' split at h
  all_goals first
    | (cases h; done)
    | (cases h; trivial)

theorem boundTypes_shape (var : ℕ → Var) (c : Con) (r : ConType.Result) (h : ConType.boundTypes var c = some r) :
    Shape var c r.1 := by
  unfold ConType.boundTypes at h
  dsimp only at h
  repeat' split at h
  all_goals first
    | (cases h; done)
    | (cases h; trivial)
    | (cases h; simp_all [Shape])

theorem knapsackTypes_shape (var : ℕ → Var) (c : Con) (r : ConType.Result) (h : ConType.knapsackTypes var c = some r) :
    Shape var c r.1 := by
  unfold ConType.knapsackTypes at h
  dsimp only at h
  repeat' split at h
  all_goals first
    | (cases h; done)
    | (cases h; trivial)

theorem gf2Type_shape (var : ℕ → Var) (c : Con) (r : ConType.Result) (h : ConType.gf2Type var c = some r) :
    Shape var c r.1 := by
  unfold ConType.gf2Type at h
  dsimp only at h
  repeat' split at h
  all_goals first
    | (cases h; done)
    | (cases h; trivial)

theorem general_shape (var : ℕ → Var) (c : Con) : Shape var c (ConType.general var c).1 := by
  unfold ConType.general
  cases h1 : ConType.setTypes c with
  | some r => exact setTypes_shape var c r h1
  | none =>
    cases h2 : ConType.flowTypes var c with
    | some r => exact flowTypes_shape var c r h2
    | none =>
      cases h3 : ConType.boundTypes var c with
      | some r => exact boundTypes_shape var c r h3
      | none =>
        cases h4 : ConType.knapsackTypes var c with
        | some r => exact knapsackTypes_shape var c r h4
        | none =>
          cases h5 : ConType.gf2Type var c with
          | some r => exact gf2Type_shape var c r h5
          | none => trivial

theorem pairBinary_shape (var : ℕ → Var) (lt : ℕ → ℕ → Bool) (c : Con) (hs : c.sense = .equal) (t u : ℕ × ℚ)
    (ht : c.expr.terms = [t, u]) (r : ConType.Result)
    (h : ConType.pairBinary var lt c.expr.const t.1 t.2 u.1 u.2 = some r) : Shape var c r.1 := by
  unfold ConType.pairBinary at h
  split at h
  · rename_i hb
    have hv : ∀ v ∈ c.expr.vars, ConType.isBin (var v) = true := by
      intro v hv
      unfold Expr.vars at hv
      rw [ht] at hv
      simp only [List.map_cons, List.map_nil, List.mem_cons, List.not_mem_nil, or_false] at hv
      rcases hv with rfl | rfl
      · exact hb.1
      · exact hb.2
    split at h
    · rename_i h1; cases h
      refine ⟨⟨hs, Or.inl ⟨?_, h1.2.2⟩⟩, hv⟩
      rw [ht]; simp [h1.1, h1.2.1]
    · split at h
      · rename_i h1; cases h
        refine ⟨⟨hs, Or.inr ⟨?_, h1.2.2⟩⟩, hv⟩
        rw [ht]; simp [h1.1, h1.2.1]
      · split at h
        · cases h; exact hs
        · split at h
          · cases h; exact hs
          · exact absurd h (by simp)
  · exact absurd h (by simp)

theorem pairEqual_shape (var : ℕ → Var) (lt : ℕ → ℕ → Bool) (c : Con) (hs : c.sense = .equal) (t u : ℕ × ℚ)
    (ht : c.expr.terms = [t, u]) : Shape var c (ConType.pairEqual var lt c t.1 t.2 u.1 u.2).1 := by
  unfold ConType.pairEqual
  split
  · rename_i r h; exact pairBinary_shape var lt c hs t u ht r h
  · split
    · split
      · rename_i r h
        unfold ConType.pairUnit at h
        repeat' split at h
        all_goals first
          | (cases h; done)
          | (cases h; exact hs)
      · split
        · rename_i r h
          unfold ConType.pairHalf at h
          repeat' split at h
          all_goals first
            | (cases h; done)
            | (cases h; exact hs)
        · trivial
    · trivial

theorem classify_shape (var : ℕ → Var) (lt : ℕ → ℕ → Bool) (c : Con) :
    Shape var c (ConType.classify var lt c).1 := by
  have hg := general_shape var c
  unfold ConType.classify
  split
  · trivial
  · rename_i t u ht
    split
    · split
      · rename_i hs; exact pairEqual_shape var lt c hs t u ht
      · unfold ConType.pairInequality; split <;> trivial
    · exact hg
  · rename_i t u w ht
    split
    · cases h1 : ConType.trinomial var [t, u, w] with
      | some r =>
        unfold ConType.trinomial at h1
        dsimp only at h1
        repeat' split at h1
        all_goals first
          | (cases h1; done)
          | (cases h1; trivial)
      | none => exact hg
    · exact hg
  · exact hg

end Printemps.Presolve
