import Verif.Lemmas.BoundedLaps

/-! Lemmas about searches between which the bounds of variables shrink: penalties are exact, and the incumbents are no worse than their values. -/

namespace Printemps.Ctl
open Spec Sol Search Presolve

variable {cfg : Cfg} {m0 B : MState}

/-! ### Exact penalties -/

/-- On a grid the penalty carried along is exact. -/
theorem accepted_penalty (cfg : Cfg) (m : MState) (mv : Move) (ren : Bool) (cur : Score) (hgrid : ∃ g : ℚ, 1e-10 < g ∧ OnGrid m g)
    (h : Usable cfg m mv) (h1 : cur.totalViolation = totalViolation m (assignment m))
    (h2 : cur.localPenalty = localPenalty m (assignment m)) :
    (acceptedScore cfg m mv ren cur).localPenalty = localPenalty m (applyMove (assignment m) mv.alterations) ∧
    (acceptedScore cfg m mv ren cur).localAug = (acceptedScore cfg m mv ren cur).objective + (acceptedScore cfg m mv ren cur).localPenalty := by
  have hfull := C06.full_score_describes_moved_assignment m mv h.wf h.live.current h.distinct
  dsimp only at hfull
  refine ⟨?_, ?_⟩
  swap
  · obtain ⟨tv, lp, b, hs⟩ := accepted_finish cfg m mv ren cur
    rw [hs]; rfl
  rw [← hfull.2.2.1]
  have hex : ∀ c ∈ m.conIds, (m.con c).enabled = true →
      let d := exprValue (m.con c).expr (applyMove (assignment m) mv.alterations) - exprValue (m.con c).expr (assignment m)
      d = 0 ∨ 1e-10 ≤ |d| := by
    intro c hc hen
    obtain ⟨g, hg, hgrid⟩ := hgrid
    obtain ⟨a, ha⟩ := grid_value hgrid c hc hen (applyMove (assignment m) mv.alterations)
    obtain ⟨b, hb⟩ := grid_value hgrid c hc hen (assignment m)
    dsimp only
    rw [ha, hb]
    exact grid_gap hg a b
  have hmulti : (m.evaluateMulti mv cur).localPenalty = (m.evaluateFull mv).localPenalty := by
    have := C08.multi_score_eq_full m mv cur h.wf h.live.current h.distinct h.covers h1 h2
      (fun c hc hen => hex c (h.covers.mem c hc) hen)
    simpa using congrArg Score.localPenalty this
  unfold acceptedScore
  split
  · exact hmulti
  unfold trialScore
  split
  · split
    · next hu =>
      obtain ⟨v, x, hmv⟩ := h.single hu
      have hstep : C07.skipped m v ≠ [] → |x - assignment m v| ≤ 1 := by
        intro hne
        obtain ⟨c, hcm⟩ := List.exists_mem_of_ne_nil _ hne
        simp only [C07.skipped, List.mem_filter, Bool.and_eq_true, decide_eq_true_eq] at hcm
        exact h.bin c hcm.1 (h.live.flagBin c hcm.1 hcm.2.1.2) (v, x) (by rw [hmv]; simp) hcm.2.2
      obtain ⟨g, hg, hgrid⟩ := hgrid
      have := C07.single_score_eq_full m mv v x hmv cur h.wf h.live.current (h.sens v)
        ⟨h.maxLe, grid_flag hg hgrid h.live h.maxEq, h.live.flagBin⟩ h1 h2 hstep h.pen
      simpa using congrArg Score.localPenalty this
    · split
      · next hu hsel =>
        obtain ⟨v, w, x, y, hmv, hrel⟩ := h.selection (by simpa using hu) hsel
        have hvw : v ≠ w := by have := h.distinct; rw [hmv] at this; simpa using this
        have hmatch : cfg.relOf mv.alterations = cfg.selRel v := by rw [hmv]; rfl
        rw [hmatch]
        have := C09.selection_score_eq_full m _ mv cur v w x y hmv hvw h.wf h.live.current (h.sens v)
          (h.sens w) hrel h1 h2 (fun c hc hen => by
            have := hex c (hrel.mem c hc) hen
            rw [hmv] at this; exact this)
        simpa using congrArg Score.localPenalty this
      · exact hmulti
  · rfl

theorem sum_nonneg' {α : Type} (l : List α) (f : α → ℚ) (h : ∀ a ∈ l, 0 ≤ f a) : 0 ≤ (l.map f).sum :=
  List.sum_nonneg fun x hx => by obtain ⟨a, ha, rfl⟩ := List.mem_map.1 hx; exact h a ha

theorem localPenalty_nonneg (m : MState) (h : ∀ c ∈ m.conIds, 0 ≤ (m.con c).penLess ∧ 0 ≤ (m.con c).penGreater) (σ : ℕ → ℤ) :
    0 ≤ localPenalty m σ := by
  rw [MState.localPenalty_eq]
  refine sum_nonneg' _ _ fun c hc => ?_
  obtain ⟨h1, h2⟩ := h c hc
  split
  · unfold penalty
    split
    · positivity
    · positivity
    · positivity
  · exact le_refl _

theorem totalViolation_int (m : MState) (h : OnGrid m 1) (σ : ℕ → ℤ) : ∃ k : ℤ, totalViolation m σ = k := by
  rw [MState.totalViolation_eq]
  have key : ∀ l : List ℕ, (∀ c ∈ l, c ∈ m.conIds) →
      ∃ k : ℤ, (l.map (fun c => if (m.con c).enabled then violation (m.con c) σ else 0)).sum = k := by
    intro l
    induction l with
    | nil => intro _; exact ⟨0, by simp⟩
    | cons c l ih =>
      intro hl
      obtain ⟨k, hk⟩ := ih fun c hc => hl c (by simp [hc])
      rw [List.map_cons, List.sum_cons, hk]
      split
      · next he =>
        obtain ⟨a, ha⟩ := grid_value h c (hl c (by simp)) he σ
        rw [mul_one] at ha
        unfold violation
        rw [ha]
        cases (cmpOf (m.con c).sense)
        · refine ⟨max a 0 + k, ?_⟩
          simp [Cmp.gap]
        · refine ⟨|a| + k, ?_⟩
          simp [Cmp.gap]
        · refine ⟨max (-a) 0 + k, ?_⟩
          simp [Cmp.gap]
      · exact ⟨k, by simp⟩
  exact key _ fun c hc => hc

/-! ### What the incumbents keep -/

/-- A stored solution is in the range of the model, and its objective is right. -/
structure Fit (m0 : MState) (d : Dense) : Prop where
  range : InRange m0 d.values
  objective : m0.objDefined = true → d.objective = minObjective m0 d.values

/-- The stored solutions are no worse than the numbers stored with them, and the global one is as good as the feasible one. -/
structure Tidy (m0 : MState) (h : Holder Dense) : Prop where
  loc : ∀ l, h.localObj = some l → ∃ d sc, h.localSol = some d ∧ h.localScore = some sc ∧ Fit m0 d ∧ minObjective m0 d.values ≤ l
  glo : ∀ l, h.globalObj = some l → ∃ d, h.globalSol = some d ∧ Fit m0 d ∧ minObjective m0 d.values ≤ l
  feas : ∀ z, h.feasObj = some z → (∃ l, h.globalObj = some l ∧ l ≤ z + 1e-5) ∧
    ∃ d, h.feasSol = some d ∧ Fit m0 d ∧ minObjective m0 d.values = z
  found : h.found = true → h.feasObj.isSome = true

theorem Tidy.init (m0 : MState) : Tidy m0 Holder.init :=
  ⟨fun _ h => by simp [Holder.init] at h, fun _ h => by simp [Holder.init] at h, fun _ h => by simp [Holder.init] at h,
    fun h => by simp [Holder.init] at h⟩

theorem Tidy.resetLocal {h : Holder Dense} (t : Tidy m0 h) : Tidy m0 h.resetLocal :=
  ⟨fun _ hl => by simp [Holder.resetLocal] at hl, t.glo, t.feas, t.found⟩

theorem beats_false {x y : ℚ} (h : ¬ beats x (some y) = true) : y ≤ x + 1e-5 := by
  simp only [beats, decide_eq_true_eq, not_lt] at h
  rw [← C11.eps_eq] at h; exact h

theorem Tidy.offer {h : Holder Dense} (t : Tidy m0 h) (d : Dense) (sc : Score) (f : Fit m0 d)
    (ho : sc.objective = minObjective m0 d.values) (hl : sc.objective ≤ sc.localAug) (hg : sc.objective ≤ sc.globalAug)
    (hf : sc.isFeasible = true → sc.globalAug = sc.objective) :
    Tidy m0 (h.tryUpdate d sc).1 ∧ (h.tryUpdate d sc).1.localObj.isSome = true ∧ (h.tryUpdate d sc).1.globalObj.isSome = true := by
  have some' : ∀ (x : ℚ) (o : Option ℚ), (if beats x o = true then some x else o).isSome = true := by
    intro x o
    cases o with
    | none => simp [beats]
    | some y => split <;> rfl
  have newGlobal : ∀ z, (h.feasObj = some z ∨ sc.globalAug = z) →
      ∃ l, (if beats sc.globalAug h.globalObj = true then some sc.globalAug else h.globalObj) = some l ∧ l ≤ z + 1e-5 := by
    intro z hz
    by_cases hb : beats sc.globalAug h.globalObj = true
    · rw [if_pos hb]
      refine ⟨_, rfl, ?_⟩
      rcases hz with hz | hz
      · obtain ⟨⟨l, e1, e2⟩, -⟩ := t.feas z hz
        rw [e1] at hb
        simp only [beats, decide_eq_true_eq] at hb
        rw [← C11.eps_eq] at hb
        linarith
      · rw [hz]; linarith
    · rw [if_neg hb]
      rcases hz with hz | hz
      · exact (t.feas z hz).1
      · cases hgo : h.globalObj with
        | none => rw [hgo] at hb; exact absurd rfl hb
        | some l => rw [hgo] at hb; exact ⟨l, rfl, by rw [← hz]; exact beats_false hb⟩
  refine ⟨⟨?_, ?_, ?_, ?_⟩, some' _ _, some' _ _⟩
  · intro l hl'
    have hl' : (if beats sc.localAug h.localObj = true then some sc.localAug else h.localObj) = some l := hl'
    show ∃ d' sc', (if beats sc.localAug h.localObj = true then some d else h.localSol) = some d' ∧
      (if beats sc.localAug h.localObj = true then some sc else h.localScore) = some sc' ∧ _
    split at hl'
    · next hb =>
      obtain rfl := Option.some.inj hl'
      rw [if_pos hb, if_pos hb]
      exact ⟨d, sc, rfl, rfl, f, by rw [← ho]; exact hl⟩
    · next hb =>
      rw [if_neg hb, if_neg hb]; exact t.loc l hl'
  · intro l hl'
    have hl' : (if beats sc.globalAug h.globalObj = true then some sc.globalAug else h.globalObj) = some l := hl'
    show ∃ d', (if beats sc.globalAug h.globalObj = true then some d else h.globalSol) = some d' ∧ _
    split at hl'
    · next hb =>
      obtain rfl := Option.some.inj hl'
      rw [if_pos hb]
      exact ⟨d, rfl, f, by rw [← ho]; exact hg⟩
    · next hb => rw [if_neg hb]; exact t.glo l hl'
  · intro z hz
    have hz : (if (sc.isFeasible && beats sc.objective h.feasObj) = true then some sc.objective else h.feasObj) = some z := hz
    refine ⟨?_, ?_⟩
    · show ∃ l, (if beats sc.globalAug h.globalObj = true then some sc.globalAug else h.globalObj) = some l ∧ _
      refine newGlobal z ?_
      split at hz
      · next hb =>
        rw [Bool.and_eq_true] at hb
        obtain rfl := Option.some.inj hz
        exact Or.inr (hf hb.1)
      · exact Or.inl hz
    · show ∃ d', (if (sc.isFeasible && beats sc.objective h.feasObj) = true then some d else h.feasSol) = some d' ∧ _
      split at hz
      · next hb =>
        obtain rfl := Option.some.inj hz
        rw [if_pos hb]; exact ⟨d, rfl, f, ho.symm⟩
      · next hb => rw [if_neg hb]; exact (t.feas z hz).2
  · intro hfo
    have hfo : (h.found || sc.isFeasible) = true := hfo
    show (if (sc.isFeasible && beats sc.objective h.feasObj) = true then some sc.objective else h.feasObj).isSome = true
    split
    · rfl
    · next hb =>
      cases hfe : h.feasObj with
      | some z => rfl
      | none =>
        exfalso
        rw [hfe] at hb
        cases hs : sc.isFeasible
        · rw [hs, Bool.or_false] at hfo
          have := t.found hfo
          rw [hfe] at this; exact absurd this (by decide)
        · rw [hs] at hb; exact hb rfl

end Printemps.Ctl
