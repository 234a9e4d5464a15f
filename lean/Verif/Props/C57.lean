import Verif.Lemmas.Improvability
import Verif.Lemmas.Example

/-! # C57 — improvability screening hides no improving move

`Tidy m` collects what a search state satisfies (stored numbers, margin flags and objective sensitivities are
current, values are inside the bounds); `tidy_example` shows such a state, and `updateMove` and the flag
functions keep it. -/

namespace Printemps.C57
open Spec MState Screen

/-! ## Objective flags -/

/-- The flag says what it should: some admissible value of the variable alone improves the objective. -/
def FlagRight (m : MState) (v : ℕ) : Prop :=
  (m.var v).objImprovable = true ↔ ∃ x, (m.var v).lb ≤ x ∧ x ≤ (m.var v).ub ∧
    minObjective m (Function.update (assignment m) v x) < minObjective m (assignment m)

theorem obj_update (m : MState) (ht : Tidy m) (v : ℕ) (x : ℤ) :
    exprValue m.obj (Function.update (assignment m) v x) =
      exprValue m.obj (assignment m) + m.objSens v * ((x - (m.var v).value : ℤ) : ℚ) := by
  have h := exprValue_single m.obj ht.wf.obj (assignment m) v x
  have : Expr.lookup m.obj.terms v = m.objSens v := by
    by_cases hv : v ∈ m.obj.terms.map Prod.fst
    · obtain ⟨t, hm, rfl⟩ := List.mem_map.1 hv
      rw [ht.sens t hm]
      exact Expr.lookup_of_mem _ ht.wf.obj _ _ hm
    · rw [ht.sensZero v hv]
      exact Expr.lookup_of_not_mem _ _ hv
  rw [this] at h
  exact h

/-- The computed flag is exact. -/
theorem computed_flag_exact (m : MState) (ht : Tidy m) (v : ℕ) (hf : (m.var v).fixed = false) (hd : m.objDefined = true) :
    m.objFlag v = true ↔ ∃ x, (m.var v).lb ≤ x ∧ x ≤ (m.var v).ub ∧
      minObjective m (Function.update (assignment m) v x) < minObjective m (assignment m) := by
  constructor
  · intro h
    obtain ⟨hi1, hi2⟩ := ht.inside v hf
    unfold objFlag at h
    simp only [Bool.or_eq_true, Bool.and_eq_true, decide_eq_true_eq] at h
    have hobj : ∀ x : ℤ, minObjective m (Function.update (assignment m) v x) =
        minObjective m (assignment m) + m.objSens v * m.sign * ((x - (m.var v).value : ℤ) : ℚ) := by
      intro x
      unfold minObjective sign
      rw [if_pos hd, if_pos hd, obj_update m ht]
      split <;> ring
    rcases h with ⟨hc, hl⟩ | ⟨hc, hu⟩
    · have := (ht.lower v hf).1 hl
      refine ⟨(m.var v).value - 1, by omega, by omega, ?_⟩
      rw [hobj]
      push_cast
      nlinarith
    · have := (ht.upper v hf).1 hu
      refine ⟨(m.var v).value + 1, by omega, by omega, ?_⟩
      rw [hobj]
      push_cast
      nlinarith
  · rintro ⟨x, h1, h2, h3⟩
    by_contra hn
    have hn : m.objFlag v = false := by simpa using hn
    refine absurd h3 (not_lt.2 (objective_not_improved m ht _ fun w hw => ?_))
    by_cases hwv : w = v
    · subst hwv
      rw [Function.update_self]
      exact ⟨hf, h1, h2, hn⟩
    · rw [Function.update_of_ne hwv] at hw
      exact absurd rfl hw

/-! ## Flags during a whole search -/

theorem objectiveStep_flags (k mv) (m : MState) : FlagsOnly m (objectiveStep k mv m) := by
  unfold objectiveStep; split <;> exact updateObjFlags_flags _ _

theorem feasibilityStep_flags (mode k prev mv) (m : MState) : FlagsOnly m (feasibilityStep mode k prev mv m) := by
  unfold feasibilityStep
  cases mode
  · exact FlagsOnly.refl _
  · exact (resetFeasFlags_flags m).trans (updateFeasFlags_flags _ _)
  · dsimp only; split
    · exact (resetFeasFlags_flags m).trans (updateFeasFlags_flags _ _)
    · exact (resetFeasFlagsOf_flags m _).trans (updateFeasFlags_flags _ _)
  · dsimp only; split
    · exact (resetFeasFlags_flags m).trans (updateFeasFlags_flags _ _)
    · exact (resetFeasFlagsOf_flags m _).trans (updateFeasFlags_flags _ _)

theorem feasibilityStep_obj (mode k prev mv) (m : MState) (v) :
    ((feasibilityStep mode k prev mv m).var v).objImprovable = (m.var v).objImprovable := by
  have h1 : ∀ (n : MState) cs, ((n.updateFeasFlags cs).var v).objImprovable = (n.var v).objImprovable := fun n cs => by
    rw [(updateFeasFlags_more n cs v).1]
  have h2 : (m.resetFeasFlags.var v).objImprovable = (m.var v).objImprovable := by
    unfold resetFeasFlags; dsimp only; split <;> rfl
  have h3 : ∀ cs, ((m.resetFeasFlagsOf cs).var v).objImprovable = (m.var v).objImprovable := fun cs => by
    unfold resetFeasFlagsOf; dsimp only; split <;> rfl
  unfold feasibilityStep
  cases mode
  · rfl
  · dsimp only; rw [h1, h2]
  · dsimp only; split
    · rw [h1, h2]
    · rw [h1, h3]
  · dsimp only; split
    · rw [h1, h2]
    · rw [h1, h3]

theorem tabuFlags_eq (mode k prev mv) (m : MState) (hm : mode ≠ .off) : tabuFlags mode k prev mv m =
    if (objectiveStep k mv m).feasible then objectiveStep k mv m
    else feasibilityStep mode k prev mv (objectiveStep k mv m) := by
  unfold tabuFlags
  cases mode
  · exact absurd rfl hm
  all_goals rfl

theorem tabuFlags_flags (mode k prev mv) (m : MState) : FlagsOnly m (tabuFlags mode k prev mv m) := by
  by_cases hm : mode = .off
  · subst hm; exact FlagsOnly.refl _
  · rw [tabuFlags_eq _ _ _ _ _ hm]
    split
    · exact objectiveStep_flags _ _ _
    · exact (objectiveStep_flags _ _ _).trans (feasibilityStep_flags _ _ _ _ _)

theorem tabuFlags_obj (mode k prev mv) (m : MState) (hm : mode ≠ .off) (v) :
    ((tabuFlags mode k prev mv m).var v).objImprovable = ((objectiveStep k mv m).var v).objImprovable := by
  rw [tabuFlags_eq _ _ _ _ _ hm]
  split
  · rfl
  · exact feasibilityStep_obj _ _ _ _ _ _

theorem inside_of_flags {m n : MState} (h : FlagsOnly m n) (mv : Move) (hi : Inside m mv) : Inside n mv where
  good := ⟨hi.good.distinct, fun a ha => by rw [h.fixed]; exact hi.good.mutable a ha⟩
  covers := by
    rw [h.userDefined]
    refine hi.covers.imp id fun c => ⟨by simpa only [h.con] using c.nodup, fun x hx => by rw [h.conIds]; exact c.mem x hx, fun x hx he hex => ?_⟩
    rw [h.con] at he hex
    rw [h.conIds] at hx
    exact c.covers x hx he hex
  bounds a ha := by rw [h.lb, h.ub]; exact hi.bounds a ha

theorem inside_of_move (m : MState) (mv' mv : Move) (hn : (mv'.alterations.map Prod.fst).Nodup) (hi : Inside m mv) :
    Inside (m.updateMove mv') mv where
  good := (updateMove_shape m mv').goodMove hi.good
  covers := by
    rw [(updateMove_shape m mv').userDefined]
    exact hi.covers.imp id fun c => (updateMove_shape m mv').covers c
  bounds a ha := by
    obtain ⟨h1, h2⟩ := updateMove_bounds m mv' hn a.1
    rw [h1, h2]; exact hi.bounds a ha

/-- The stored flags of the mutable variables are the computed ones, except perhaps for `vs`. -/
def FlagsKept (m : MState) (vs : List ℕ) : Prop :=
  ∀ v ∈ m.mutableIds, v ∉ vs → (m.var v).objImprovable = m.objFlag v

theorem objectiveStep_right (k : ℕ) (mv : Move) (m : MState) (h : k = 0 ∨ FlagsKept m (mv.alterations.map Prod.fst)) :
    FlagsKept (objectiveStep k mv m) [] := by
  intro v hv _
  have hfl := objectiveStep_flags k mv m
  rw [hfl.mutableIds] at hv
  rw [hfl.objFlag]
  unfold objectiveStep updateObjFlags
  by_cases hk : k = 0
  · rw [if_pos hk]
    dsimp only
    rw [if_pos hv]
  · rw [if_neg hk]
    dsimp only
    split
    · rfl
    · next hn => exact (h.resolve_left hk) v hv hn

theorem tabuFlags_right (mode k prev) (mv : Move) (m : MState) (hm : mode ≠ .off)
    (h : k = 0 ∨ FlagsKept m (mv.alterations.map Prod.fst)) : FlagsKept (tabuFlags mode k prev mv m) [] := by
  intro v hv hn
  rw [tabuFlags_obj _ _ _ _ _ hm, (tabuFlags_flags mode k prev mv m).objFlag]
  have h1 := objectiveStep_right k mv m h v
  rw [(objectiveStep_flags k mv m).mutableIds, (objectiveStep_flags k mv m).objFlag] at h1
  rw [(tabuFlags_flags mode k prev mv m).mutableIds] at hv
  exact h1 hv hn

theorem updateMove_kept (m : MState) (mv : Move) (hn : (mv.alterations.map Prod.fst).Nodup) (h : FlagsKept m []) :
    FlagsKept (m.updateMove mv) (mv.alterations.map Prod.fst) := by
  intro v hv hna
  have hvar : (m.updateMove mv).var v = m.var v := by
    rw [updateMove_var]
    exact (fold_var mv.alterations hn m.var).1 v hna
  have hsh := updateMove_shape m mv
  have hst := updateMove_static m mv
  have hv' : v ∈ m.mutableIds := by
    unfold mutableIds at hv ⊢
    rw [hst.1] at hv
    rw [List.mem_filter] at hv ⊢
    exact ⟨hv.1, by rw [← hvar]; exact hv.2⟩
  have : (m.updateMove mv).objFlag v = m.objFlag v := by
    unfold objFlag sign
    rw [hst.2, hsh.isMin, hvar]
  rw [this, hvar]
  exact h v hv' (by simp)

/-- Throughout a search with any of the screening modes the stored objective flags are exact: after any number
of moves, the flag of a mutable variable is on exactly when some value of it alone improves the objective. -/
theorem objective_flags_exact (mode : Mode) (hm : mode ≠ .off) (m : MState) (ht : Tidy m) (hd : m.objDefined = true)
    (last : Move) (prev : Bool) (mvs : List Move) (hin : ∀ mv ∈ mvs, Inside m mv) :
    Tidy (trace mode 0 prev last m mvs) ∧ ∀ v ∈ (trace mode 0 prev last m mvs).mutableIds,
      FlagRight (trace mode 0 prev last m mvs) v := by
  have main : ∀ (mvs : List Move) (k : ℕ) (prev : Bool) (last : Move) (m : MState), Tidy m → m.objDefined = true →
      (k = 0 ∨ FlagsKept m (last.alterations.map Prod.fst)) → (∀ mv ∈ mvs, Inside m mv) →
      Tidy (trace mode k prev last m mvs) ∧ (trace mode k prev last m mvs).objDefined = true ∧
        FlagsKept (trace mode k prev last m mvs) [] := by
    intro mvs
    induction mvs with
    | nil =>
      intro k prev last m ht hd hk _
      exact ⟨Tidy.of_flags (tabuFlags_flags _ _ _ _ _) ht, by
        unfold trace; rw [(tabuFlags_flags mode k prev last m).objDefined]; exact hd, tabuFlags_right _ _ _ _ _ hm hk⟩
    | cons mv mvs ih =>
      intro k prev last m ht hd hk hin
      have hfl := tabuFlags_flags mode k prev last m
      have hi := inside_of_flags hfl mv (hin mv (by simp))
      unfold trace
      refine ih (k + 1) _ mv _ ((Tidy.of_flags hfl ht).updateMove mv hi) ?_ ?_ ?_
      · rw [(updateMove_shape _ mv).objDefined, hfl.objDefined]; exact hd
      · exact Or.inr (updateMove_kept _ mv hi.good.distinct (tabuFlags_right _ _ _ _ _ hm hk))
      · intro mv' hmv'
        exact inside_of_move _ mv mv' hi.good.distinct (inside_of_flags hfl mv' (hin mv' (by simp [hmv'])))
  obtain ⟨h1, h2, h3⟩ := main mvs 0 prev last m ht hd (Or.inl rfl) hin
  refine ⟨h1, fun v hv => ?_⟩
  unfold FlagRight
  rw [h3 v hv (by simp)]
  have hf : ((trace mode 0 prev last m mvs).var v).fixed = false := by
    have := (List.mem_filter.1 hv).2
    simpa using this
  exact computed_flag_exact _ h1 v hf h2

theorem trace_objDefined (mode : Mode) (k : ℕ) (prev : Bool) (last : Move) (m : MState) (mvs : List Move) :
    (trace mode k prev last m mvs).objDefined = m.objDefined := by
  induction mvs generalizing k prev last m with
  | nil => exact (tabuFlags_flags mode k prev last m).objDefined
  | cons mv mvs ih =>
    unfold trace
    dsimp only
    rw [ih, (updateMove_shape _ mv).objDefined, (tabuFlags_flags mode k prev last m).objDefined]

theorem localFlags_flags (k mv) (m : MState) : FlagsOnly m (localFlags k mv m) := by
  unfold localFlags
  dsimp only
  split
  · exact objectiveStep_flags _ _ _
  · exact (objectiveStep_flags _ _ _).trans ((resetFeasFlags_flags _).trans (updateFeasFlags_flags _ _))

theorem localFlags_right (k) (mv : Move) (m : MState) (h : k = 0 ∨ FlagsKept m (mv.alterations.map Prod.fst)) :
    FlagsKept (localFlags k mv m) [] := by
  intro v hv hn
  have hobj : ((localFlags k mv m).var v).objImprovable = ((objectiveStep k mv m).var v).objImprovable := by
    unfold localFlags
    dsimp only
    split
    · rfl
    · rw [(updateFeasFlags_more _ _ v).1]
      unfold resetFeasFlags; dsimp only; split <;> rfl
  rw [hobj, (localFlags_flags k mv m).objFlag]
  have h1 := objectiveStep_right k mv m h v
  rw [(objectiveStep_flags k mv m).mutableIds, (objectiveStep_flags k mv m).objFlag] at h1
  rw [(localFlags_flags k mv m).mutableIds] at hv
  exact h1 hv hn

/-- The same for local search, whatever moves it makes. -/
theorem local_objective_flags_exact (m : MState) (ht : Tidy m) (hd : m.objDefined = true)
    (last : Move) (mvs : List Move) (hin : ∀ mv ∈ mvs, Inside m mv) :
    Tidy (localTrace 0 last m mvs) ∧ (localTrace 0 last m mvs).objDefined = true ∧
      ∀ v ∈ (localTrace 0 last m mvs).mutableIds, FlagRight (localTrace 0 last m mvs) v := by
  have main : ∀ (mvs : List Move) (k : ℕ) (last : Move) (m : MState), Tidy m → m.objDefined = true →
      (k = 0 ∨ FlagsKept m (last.alterations.map Prod.fst)) → (∀ mv ∈ mvs, Inside m mv) →
      Tidy (localTrace k last m mvs) ∧ (localTrace k last m mvs).objDefined = true ∧
        FlagsKept (localTrace k last m mvs) [] := by
    intro mvs
    induction mvs with
    | nil =>
      intro k last m ht hd hk _
      exact ⟨Tidy.of_flags (localFlags_flags _ _ _) ht, by
        unfold localTrace; rw [(localFlags_flags k last m).objDefined]; exact hd, localFlags_right _ _ _ hk⟩
    | cons mv mvs ih =>
      intro k last m ht hd hk hin
      have hfl := localFlags_flags k last m
      have hi := inside_of_flags hfl mv (hin mv (by simp))
      unfold localTrace
      refine ih (k + 1) mv _ ((Tidy.of_flags hfl ht).updateMove mv hi) ?_ ?_ ?_
      · rw [(updateMove_shape _ mv).objDefined, hfl.objDefined]; exact hd
      · exact Or.inr (updateMove_kept _ mv hi.good.distinct (localFlags_right _ _ _ hk))
      · intro mv' hmv'
        exact inside_of_move _ mv mv' hi.good.distinct (inside_of_flags hfl mv' (hin mv' (by simp [hmv'])))
  obtain ⟨h1, h2, h3⟩ := main mvs 0 last m ht hd (Or.inl rfl) hin
  refine ⟨h1, h2, fun v hv => ?_⟩
  unfold FlagRight
  rw [h3 v hv (by simp)]
  have hf : ((localTrace 0 last m mvs).var v).fixed = false := by
    have := (List.mem_filter.1 hv).2
    simpa using this
  exact computed_flag_exact _ h1 v hf h2

/-- Objective screening: when all stored flags are right, no assignment that changes only variables without
the flag, inside their bounds, improves the objective (in particular no discarded move with one or more
variables). -/
theorem objective_screening_hides_nothing (m : MState) (ht : Tidy m) (hd : m.objDefined = true)
    (hr : ∀ v ∈ m.mutableIds, FlagRight m v) (τ : ℕ → ℤ)
    (hτ : ∀ v, τ v ≠ (m.var v).value → v ∈ m.mutableIds ∧ (m.var v).lb ≤ τ v ∧ τ v ≤ (m.var v).ub ∧
      (m.var v).objImprovable = false) :
    minObjective m (assignment m) ≤ minObjective m τ := by
  refine objective_not_improved m ht τ fun v hv => ?_
  obtain ⟨h1, h2, h3, h4⟩ := hτ v hv
  have hf : (m.var v).fixed = false := by
    have := (List.mem_filter.1 h1).2
    simpa using this
  refine ⟨hf, h2, h3, ?_⟩
  have := hr v h1
  unfold FlagRight at this
  rw [← computed_flag_exact m ht v hf hd] at this
  rw [h4] at this
  simpa using this

theorem applyMove_ne (σ : ℕ → ℤ) (alts : List (ℕ × ℤ)) (hn : (alts.map Prod.fst).Nodup) (v : ℕ)
    (h : applyMove σ alts v ≠ σ v) : ∃ a ∈ alts, a.1 = v ∧ applyMove σ alts v = a.2 := by
  induction alts generalizing σ with
  | nil => exact absurd rfl h
  | cons b l ih =>
    obtain ⟨i, x⟩ := b
    simp only [List.map_cons, List.nodup_cons] at hn
    have hkeep : ∀ (σ : ℕ → ℤ) (l : List (ℕ × ℤ)) (w : ℕ), w ∉ l.map Prod.fst → applyMove σ l w = σ w := by
      intro σ l
      induction l generalizing σ with
      | nil => intro w _; rfl
      | cons c l ih =>
        intro w hw
        obtain ⟨j, y⟩ := c
        simp only [applyMove]
        rw [ih _ w (fun hc => hw (by simp only [List.map_cons, List.mem_cons]; exact Or.inr hc)),
          Function.update_of_ne (fun hc => hw (by simp [hc]))]
    by_cases hv : v = i
    · subst hv
      refine ⟨(v, x), by simp, rfl, ?_⟩
      simp only [applyMove]
      rw [hkeep _ _ _ hn.1, Function.update_self]
    · simp only [applyMove] at h ⊢
      obtain ⟨a, ha, h1, h2⟩ := ih (Function.update σ i x) hn.2 (by rwa [Function.update_of_ne hv])
      exact ⟨a, by simp [ha], h1, h2⟩

/-- The same for moves: a move inside the bounds that is discarded because none of its variables carries the
objective flag does not improve the objective, whatever the number of its variables. -/
theorem discarded_move_does_not_improve (m : MState) (ht : Tidy m) (hd : m.objDefined = true)
    (hr : ∀ v ∈ m.mutableIds, FlagRight m v) (mv : Move) (hi : Inside m mv) (hl : ∀ a ∈ mv.alterations, a.1 ∈ m.varIds)
    (hscr : Moves.screened ⟨false, true, false⟩ m.var mv.alterations = false) :
    minObjective m (assignment m) ≤ minObjective m (applyMove (assignment m) mv.alterations) := by
  refine objective_screening_hides_nothing m ht hd hr _ fun v hv => ?_
  obtain ⟨a, ha, rfl, h2⟩ := applyMove_ne (assignment m) mv.alterations hi.good.distinct v hv
  rw [h2]
  obtain ⟨b1, b2⟩ := hi.bounds a ha
  refine ⟨List.mem_filter.2 ⟨hl a ha, by simp [hi.good.mutable a ha]⟩, b1, b2, ?_⟩
  unfold Moves.screened Moves.hasObjImprovable at hscr
  simp only [Bool.false_or, Bool.true_and, Bool.false_and, Bool.or_false, List.any_eq_false] at hscr
  simpa using hscr a ha

/-! ## Feasibility flags -/

/-- Feasibility screening hides nothing: an assignment that changes only variables without the flag, inside
their bounds, reduces the violation of no violated constraint. -/
def HidesNothing (m : MState) : Prop :=
  ∀ τ : ℕ → ℤ, (∀ v, τ v ≠ (m.var v).value → (m.var v).fixed = false ∧ (m.var v).lb ≤ τ v ∧ τ v ≤ (m.var v).ub ∧
      (m.var v).feasImprovable = false) →
    ∀ c ∈ m.conIds, (m.con c).enabled = true → EPSILON ≤ violation (m.con c) (assignment m) →
      violation (m.con c) (assignment m) ≤ violation (m.con c) τ

theorem hidesNothing_of_marks (m : MState) (ht : Tidy m) (n : MState) (hfl : FlagsOnly m n)
    (hmark : ∀ c ∈ m.conIds, (m.con c).enabled = true → (m.con c).isFeasible = false → ∀ t ∈ (m.con c).expr.terms,
      feasFlagOf (m.con c).value t.2 (m.var t.1) = true → (n.var t.1).feasImprovable = true) : HidesNothing n := by
  intro τ hτ c hc he hv
  rw [hfl.con] at he hv ⊢
  rw [hfl.conIds] at hc
  rw [hfl.assignment] at hv ⊢
  have hf : (m.con c).isFeasible = false := by
    unfold Con.isFeasible
    rw [(ht.current.con c hc he).violation]
    simpa using hv
  refine violation_not_reduced m ht c hc he hf τ fun t htm hne => ?_
  obtain ⟨h1, h2, h3, h4⟩ := hτ t.1 (by rw [hfl.value]; exact hne)
  rw [hfl.fixed] at h1
  rw [hfl.lb] at h2
  rw [hfl.ub] at h3
  refine ⟨h1, h2, h3, ?_⟩
  by_contra hx
  have := hmark c hc he hf t htm (by simpa using hx)
  rw [h4] at this
  exact absurd this (by simp)

theorem hidesNothing_of_update (m : MState) (ht : Tidy m) (cs : List ConId)
    (hcs : ∀ c ∈ m.conIds, (m.con c).enabled = true → (m.con c).isFeasible = false → c ∈ cs) :
    HidesNothing (m.updateFeasFlags cs) :=
  hidesNothing_of_marks m ht _ (updateFeasFlags_flags m cs) fun c hc he hf t htm hfl =>
    updateFeasFlags_marks m cs c (hcs c hc he hf) hf he t htm hfl

theorem mem_violative (m : MState) (ht : Tidy m) (c) (hc : c ∈ m.conIds) (he : (m.con c).enabled = true)
    (hf : (m.con c).isFeasible = false) : c ∈ m.violative := by
  rw [ht.violative, List.mem_filter]
  exact ⟨List.mem_filter.2 ⟨hc, he⟩, by simp [hf]⟩

/-- In the modes Soft and Aggressive, whatever happened before, the feasibility flags of an infeasible state
hide nothing. -/
theorem soft_and_aggressive_hide_nothing (mode : Mode) (hm : mode = .soft ∨ mode = .aggressive) (k : ℕ) (prev : Bool)
    (mv : Move) (m : MState) (ht : Tidy m) (hinf : m.feasible = false) : HidesNothing (tabuFlags mode k prev mv m) := by
  have hne : mode ≠ .off := by rcases hm with rfl | rfl <;> decide
  rw [tabuFlags_eq _ _ _ _ _ hne, if_neg (by rw [(objectiveStep_flags k mv m).feasible]; simp [hinf])]
  have ht1 := Tidy.of_flags (objectiveStep_flags k mv m) ht
  generalize objectiveStep k mv m = m1 at ht1
  have hR := Tidy.of_flags (resetFeasFlags_flags m1) ht1
  have hRo := Tidy.of_flags (resetFeasFlagsOf_flags m1 mv.related) ht1
  have h1 : HidesNothing (m1.resetFeasFlags.updateFeasFlags m1.violative) :=
    hidesNothing_of_update _ hR _ fun c hc he hf => mem_violative _ hR c hc he hf
  have h2 : HidesNothing ((m1.resetFeasFlagsOf mv.related).updateFeasFlags m1.violative) :=
    hidesNothing_of_update _ hRo _ fun c hc he hf => mem_violative _ hRo c hc he hf
  unfold feasibilityStep
  rcases hm with rfl | rfl
  · exact h1
  · dsimp only
    split
    · exact h1
    · exact h2

/-- Local search recomputes all flags: they hide nothing. -/
theorem local_search_hides_nothing (k : ℕ) (mv : Move) (m : MState) (ht : Tidy m) (hinf : m.feasible = false) :
    HidesNothing (localFlags k mv m) := by
  unfold localFlags
  dsimp only
  rw [if_neg (by rw [(objectiveStep_flags k mv m).feasible]; simp [hinf])]
  have ht1 := Tidy.of_flags (objectiveStep_flags k mv m) ht
  generalize objectiveStep k mv m = m1 at ht1
  have hR := Tidy.of_flags (resetFeasFlags_flags m1) ht1
  exact hidesNothing_of_update _ hR _ fun c hc he _ => List.mem_filter.2 ⟨hc, he⟩

/-- Total violation: when the flags hide nothing, a discarded change reduces the total violation at most by the
tolerance for each constraint. -/
theorem total_violation_not_reduced (m : MState) (h : HidesNothing m) (τ : ℕ → ℤ)
    (hτ : ∀ v, τ v ≠ (m.var v).value → (m.var v).fixed = false ∧ (m.var v).lb ≤ τ v ∧ τ v ≤ (m.var v).ub ∧
      (m.var v).feasImprovable = false) :
    totalViolation m (assignment m) ≤ totalViolation m τ + (enabledCons m).length * EPSILON := by
  have key : ∀ c ∈ enabledCons m, violation c (assignment m) ≤ violation c τ + EPSILON := by
    intro c hc
    obtain ⟨h1, he⟩ := List.mem_filter.1 hc
    obtain ⟨i, hi, rfl⟩ := List.mem_map.1 h1
    have heps : (0 : ℚ) < EPSILON := by decide +kernel
    by_cases hv : EPSILON ≤ violation (m.con i) (assignment m)
    · have := h τ hτ i hi he hv
      linarith
    · have h0 : 0 ≤ violation (m.con i) τ := by
        unfold violation
        cases (cmpOf (m.con i).sense)
        · exact le_max_right _ _
        · exact abs_nonneg _
        · exact le_max_right _ _
      linarith
  unfold totalViolation
  generalize enabledCons m = l at key
  induction l with
  | nil => simp
  | cons c l ih =>
    have h1 := key c (by simp)
    have h2 := ih (fun d hd => key d (by simp [hd]))
    simp only [List.map_cons, List.sum_cons, List.length_cons]
    push_cast
    linarith

/-- Mode Intensive, partial: if the flags were complete before a move, they remain complete for the violated
constraints that are related to the move or share no variable with an enabled related constraint.  Missing: the
violated unrelated constraints whose variables occur in a related one, see `intensive_hides_improving_moves`. -/
theorem intensive_partial (k : ℕ) (prev : Bool) (mv : Move) (m : MState) (ht : Tidy m) (hi : Inside m mv)
    (hu : m.userDefinedMoves = false)
    (hmark : ∀ c ∈ m.conIds, (m.con c).enabled = true → (m.con c).isFeasible = false → ∀ t ∈ (m.con c).expr.terms,
      feasFlagOf (m.con c).value t.2 (m.var t.1) = true → (m.var t.1).feasImprovable = true)
    (c) (hc : c ∈ m.conIds) (he : (m.con c).enabled = true)
    (hfar : c ∈ mv.related ∨ ∀ d ∈ mv.related, (m.con d).enabled = true → ∀ t ∈ (m.con c).expr.terms,
      t.1 ∉ (m.con d).expr.vars) (n : MState) (hn : n = feasibilityStep .intensive (k + 1) prev mv (m.updateMove mv))
    (hv : EPSILON ≤ violation (n.con c) (assignment n)) (τ : ℕ → ℤ)
    (hτ : ∀ v, τ v ≠ (n.var v).value → (n.var v).fixed = false ∧ (n.var v).lb ≤ τ v ∧ τ v ≤ (n.var v).ub ∧
      (n.var v).feasImprovable = false) : violation (n.con c) (assignment n) ≤ violation (n.con c) τ := by
  subst hn
  have ht' := ht.updateMove mv hi
  have hsh := updateMove_shape m mv
  have hfl := feasibilityStep_flags .intensive (k + 1) prev mv (m.updateMove mv)
  have hcov := hi.covers.resolve_left (by simp [hu])
  have hc' : c ∈ (m.updateMove mv).conIds := by rw [hsh.conIds]; exact hc
  have he' : ((m.updateMove mv).con c).enabled = true := by rw [hsh.conEnabled]; exact he
  rw [hfl.con, hfl.assignment] at hv ⊢
  have hf : ((m.updateMove mv).con c).isFeasible = false := by
    unfold Con.isFeasible
    rw [(ht'.current.con c hc' he').violation]
    simpa using hv
  refine violation_not_reduced _ ht' c hc' he' hf τ fun t htm hne => ?_
  obtain ⟨h1, h2, h3, h4⟩ := hτ t.1 (by rw [hfl.value]; exact hne)
  rw [hfl.fixed] at h1
  rw [hfl.lb] at h2
  rw [hfl.ub] at h3
  refine ⟨h1, h2, h3, ?_⟩
  by_contra hx
  have hx : feasFlagOf ((m.updateMove mv).con c).value t.2 ((m.updateMove mv).var t.1) = true := by simpa using hx
  have : ((feasibilityStep .intensive (k + 1) prev mv (m.updateMove mv)).var t.1).feasImprovable = true := by
    unfold feasibilityStep
    dsimp only
    rw [if_neg (by omega)]
    by_cases hrel : c ∈ mv.related
    · refine updateFeasFlags_marks ((m.updateMove mv).resetFeasFlagsOf mv.related) mv.related c hrel ?_ ?_ t ?_ ?_
      · rw [(resetFeasFlagsOf_flags _ _).con]; exact hf
      · rw [(resetFeasFlagsOf_flags _ _).con]; exact he'
      · rw [(resetFeasFlagsOf_flags _ _).con]; exact htm
      · rw [(resetFeasFlagsOf_flags _ _).con]
        have hr := (resetFeasFlagsOf_flags (m.updateMove mv) mv.related).var t.1
        rw [hr]; exact hx
    · have hfar := hfar.resolve_left hrel
      refine (updateFeasFlags_more ((m.updateMove mv).resetFeasFlagsOf mv.related) mv.related t.1).2 ?_
      rw [hsh.conTerms] at htm
      have hna : t.1 ∉ mv.alterations.map Prod.fst := by
        intro hmem
        obtain ⟨a, ha, hat⟩ := List.mem_map.1 hmem
        exact hrel (hcov.covers c hc he ⟨a, ha, by rw [hat]; exact List.mem_map_of_mem (f := Prod.fst) htm⟩)
      have hvar : (m.updateMove mv).var t.1 = m.var t.1 := by
        rw [updateMove_var]
        exact (fold_var mv.alterations hi.good.distinct m.var).1 t.1 hna
      have hcon : (m.updateMove mv).con c = m.con c := by
        obtain ⟨o, ov, s, h, -⟩ := updateMove_desc m mv
        rw [h]
        show (if m.userDefinedMoves = true then m.enabledIds else mv.related).foldl
          (fun con c => Function.update con c ((con c).updateMove m.vals mv.alterations)) m.con c = m.con c
        rw [hu, if_neg (by simp), fold_con_of _ _ hcov.nodup m.con (fun k => k.updateMove m.vals mv.alterations) c he, if_neg hrel]
      rw [hcon] at hx hf
      rw [hvar] at hx
      have hold := hmark c hc he hf t htm hx
      unfold resetFeasFlagsOf
      dsimp only
      rw [if_neg, hvar]
      · exact hold
      · rw [List.any_eq_true]
        rintro ⟨d, hd, hcond⟩
        simp only [Bool.and_eq_true, decide_eq_true_eq] at hcond
        rw [hsh.conEnabled] at hcond
        refine hfar d hd hcond.1 t htm ?_
        have := hcond.2
        unfold Expr.vars at this ⊢
        rw [hsh.conTerms] at this
        exact this
  rw [h4] at this
  exact absurd this (by simp)

/-! ## Which moves the searches keep -/

/-- **No improving move is left out.**  Whatever the mode of the tabu search, and for local search: from a feasible state with
right flags every move that improves the objective is kept, and from an infeasible state whose flags hide nothing every move
that reduces the violation of a violated constraint is kept. -/
theorem improving_moves_kept (acc : Bool → Moves.Accept) (hacc : (∃ mode, acc = tabuAccept mode) ∨ acc = localAccept)
    (m : MState) (ht : Tidy m) (mv : Move) (hi : Inside m mv) (hl : ∀ a ∈ mv.alterations, a.1 ∈ m.varIds) :
    (m.feasible = true → m.objDefined = true → (∀ v ∈ m.mutableIds, FlagRight m v) →
      minObjective m (applyMove (assignment m) mv.alterations) < minObjective m (assignment m) →
      Moves.screened (acc m.feasible) m.var mv.alterations = true) ∧
    (m.feasible = false → HidesNothing m → ∀ c ∈ m.conIds, (m.con c).enabled = true →
      EPSILON ≤ violation (m.con c) (assignment m) →
      violation (m.con c) (applyMove (assignment m) mv.alterations) < violation (m.con c) (assignment m) →
      Moves.screened (acc m.feasible) m.var mv.alterations = true) := by
  constructor
  · intro hf hd hr hlt
    by_contra hs
    have hs : Moves.screened (acc m.feasible) m.var mv.alterations = false := by simpa using hs
    refine absurd hlt (not_lt.2 (discarded_move_does_not_improve m ht hd hr mv hi hl ?_))
    rw [hf] at hs
    rcases hacc with ⟨mode, rfl⟩ | rfl
    · cases mode
      · simp [tabuAccept, Moves.screened] at hs
      all_goals exact hs
    · exact hs
  · intro hf hh c hc he hv hlt
    by_contra hs
    have hs : Moves.screened (acc m.feasible) m.var mv.alterations = false := by simpa using hs
    refine absurd hlt (not_lt.2 (hh _ (fun v hne => ?_) c hc he hv))
    obtain ⟨a, ha, rfl, h2⟩ := applyMove_ne (assignment m) mv.alterations hi.good.distinct v hne
    rw [h2]
    obtain ⟨b1, b2⟩ := hi.bounds a ha
    refine ⟨hi.good.mutable a ha, b1, b2, ?_⟩
    have hany : Moves.hasFeasImprovable m.var mv.alterations = false := by
      rw [hf] at hs
      rcases hacc with ⟨mode, rfl⟩ | rfl
      · cases mode <;> simp [tabuAccept, Moves.screened] at hs
        all_goals first | exact hs | exact hs.2
      · simpa [localAccept, Moves.screened] using hs
    unfold Moves.hasFeasImprovable at hany
    simp only [List.any_eq_false] at hany
    simpa using hany a ha

/-! ## A witness against mode Intensive -/

/-- `c0: x0 + x1 >= 1`, `c1: x1 >= 1`, `x0, x1` binary at 0. -/
private def two : MState :=
  { Example.raw with
    var := fun _ => Example.bin0
    varIds := [0, 1]
    con := fun c => if c = 0 then Con.setup ⟨[(0, 1), (1, 1)], -1, 0⟩ .greater (fun _ => .binary)
      else Con.setup ⟨[(1, 1)], -1, 0⟩ .greater (fun _ => .binary)
    conIds := [0, 1]
    obj := ⟨[], 0, 0⟩ }

/-- The flip of `x0`, related to `c0` only. -/
private def flip0 : Move := { alterations := [(0, 1)], related := [0], isUnivariable := true }
private def noMove : Move := { alterations := [], related := [] }
private def after : MState := trace .intensive 0 false noMove (reset two.update) [flip0]

theorem two_wf : WellFormed two where
  conIds := by decide
  con c hc := by
    have : c = 0 ∨ c = 1 := by simpa [two] using hc
    rcases this with rfl | rfl <;> decide
  obj := by decide
  uexpr i hi := by simp [two, Example.raw] at hi

theorem two_tidy : Tidy (reset two.update) := by
  have hfl : FlagsOnly two.update (reset two.update) := (resetObjFlags_flags _).trans (resetFeasFlags_flags _)
  refine Tidy.of_flags hfl ?_
  have hvar : ∀ v, two.update.var v = Example.bin0 := fun _ => rfl
  refine ⟨(update_shape two).wellFormed two_wf, update_current two (by intro i hi; simp [two, Example.raw] at hi),
    ?_, ?_, ?_, ?_, ?_, ?_, ?_, rfl⟩
  · intro v _; rw [hvar]; decide
  · intro v _; rw [hvar]; decide
  · intro v _; rw [hvar]; decide
  · intro t htm; rw [(update_shape two).objTerms] at htm; simp [two] at htm
  · intro v _; rfl
  · intro t htm; rw [(update_shape two).objTerms] at htm; simp [two] at htm
  · intro c hc t htm
    rw [(update_shape two).conIds] at hc
    rw [(update_shape two).conTerms] at htm
    have : c = 0 ∨ c = 1 := by simpa [two] using hc
    have hids : two.update.varIds = [0, 1] := rfl
    rw [hids]
    rcases this with rfl | rfl
    · have : t = (0, 1) ∨ t = (1, 1) := by simpa [two, Con.setup] using htm
      rcases this with rfl | rfl <;> simp
    · have : t = (1, 1) := by simpa [two, Con.setup] using htm
      rw [this]; simp

/-- Mode Intensive (the default) hides improving moves: from all zero, after the flip of `x0` the constraint
`x1 >= 1` is still violated and setting `x1` to 1 would make the state feasible, but the flag of `x1` is off
(as are all others), so the neighborhood is empty. -/
theorem intensive_hides_improving_moves :
    (after.var 0).feasImprovable = false ∧ (after.var 1).feasImprovable = false ∧ after.feasible = false ∧
    violation (after.con 1) (assignment after) = 1 ∧ violation (after.con 1) (Function.update (assignment after) 1 1) = 0 ∧
    Moves.binaryMoves (fun _ => []) (tabuAccept .intensive after.feasible) after.var [0, 1] = [] ∧
    tabuVerdict 0 after none none = some .noMove := by
  decide +kernel

/-! Non-vacuity: the witness model is `Tidy`, infeasible, and its moves are `Inside`; after the flip of `x0` in
mode Soft the flag of `x1` is on. -/
example : (reset two.update).feasible = false ∧
    ((trace .soft 0 false noMove (reset two.update) [flip0]).var 1).feasImprovable = true := by decide +kernel
example : Inside (reset two.update) flip0 where
  good := ⟨by decide, by decide⟩
  covers := Or.inr ⟨by decide, by decide, by decide⟩
  bounds := by decide

/-- Setting `x1` to 1. -/
private def flip1 : Move := { alterations := [(1, 1)], related := [0, 1], isUnivariable := true }

/-- A case of `improving_moves_kept`: in mode Soft the move that repairs both constraints is kept. -/
example : Moves.screened (tabuAccept .soft false) (tabuFlags .soft 0 false noMove (reset two.update)).var flip1.alterations = true := by
  have hfl := tabuFlags_flags .soft 0 false noMove (reset two.update)
  have ht := Tidy.of_flags hfl two_tidy
  have hinf : (reset two.update).feasible = false := by decide +kernel
  have hi : Inside (reset two.update) flip1 :=
    { good := ⟨by decide, by decide⟩, covers := Or.inr ⟨by decide, by decide, by decide⟩, bounds := by decide }
  have h := (improving_moves_kept (tabuAccept .soft) (Or.inl ⟨_, rfl⟩) _ ht flip1 (inside_of_flags hfl flip1 hi)
    (by decide +kernel)).2 (by rw [hfl.feasible]; exact hinf)
    (soft_and_aggressive_hide_nothing .soft (Or.inl rfl) 0 false noMove _ two_tidy hinf) 1 (by decide +kernel) (by decide +kernel)
    (by decide +kernel) (by decide +kernel)
  rwa [hfl.feasible, hinf] at h

end Printemps.C57
