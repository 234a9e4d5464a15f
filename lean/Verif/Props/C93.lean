import Verif.Lemmas.Status
import Verif.Spec.Status

/-! # C93 — the status of a call describes the problem before and after the presolve -/

namespace Printemps.C93
open Spec Setup Whole Search Sol Nbhd Ctl Status

variable {ν μ : Type} [LinearOrder ν] [LinearOrder μ]

/-! ## Numbers of variables and constraints -/

/-- The half "original": every number counts what its name says in the model of the first setup; fixed and mutable
variables, enabled and disabled constraints, the five senses and the thirty types each add up to all. -/
theorem original_counts (lt : ℕ → ℕ → Bool) (first last m : MState) :
    let h := (info lt first last m).original
    h.all = first.varIds.length ∧ h.fixed = first.varIds.countP (fun v => (first.var v).fixed) ∧
    h.mutable = (freeVars first).length ∧ h.fixed + h.mutable = h.all ∧
    (∀ s, h.sense s = first.varIds.countP (fun v => decide ((first.var v).sense = s))) ∧ (senses.map h.sense).sum = h.all ∧
    h.allCons = first.conIds.length ∧ h.enabled = (usedCons first).length ∧ h.enabled + h.disabled = h.allCons ∧
    (∀ k, h.type k = first.conIds.countP (fun c => decide ((ConType.classify first.var lt (first.con c)).1 = k))) ∧
    (types.map h.type).sum = h.allCons := by
  have e1 : ∀ (l : List ℕ) (p : ℕ → Bool), (l.filter p).length = l.countP p := fun l p => (List.countP_eq_length_filter).symm
  refine ⟨rfl, e1 _ _, rfl, filter_add first.varIds _, fun s => e1 _ _, ?_, rfl, rfl, filter_add first.conIds _,
    fun k => e1 _ _, ?_⟩
  · have := sum_kinds senses senses_nodup (fun v => (first.var v).sense) (fun v => senses_all _) (fun _ => true) first.varIds
    simp only [List.countP_true] at this
    exact this
  · have := sum_kinds types types_nodup (fun c => (ConType.classify first.var lt (first.con c)).1) (fun v => types_all _)
      (fun _ => true) first.conIds
    simp only [List.countP_true] at this
    exact this

/-- The half "presolved": the same, where the senses count the variables that are not fixed and add up to them, and the
types count the constraints that are enabled and add up to them.  The model `m` at the end is that of the last setup but
for values. -/
theorem presolved_counts (lt : ℕ → ℕ → Bool) (first last m : MState) (hs : SameOutline last m) :
    let s := info lt first last m
    let h := s.presolved
    s.numberOfVariables = last.varIds.length ∧ s.numberOfConstraints = last.conIds.length ∧
    h.all = last.varIds.length ∧ h.fixed = last.varIds.countP (fun v => (last.var v).fixed) ∧
    h.mutable = (freeVars last).length ∧ h.fixed + h.mutable = h.all ∧
    (∀ s, h.sense s = last.varIds.countP (fun v => decide ((last.var v).sense = s) && !(last.var v).fixed)) ∧
    (senses.map h.sense).sum = h.mutable ∧
    h.allCons = last.conIds.length ∧ h.enabled = (usedCons last).length ∧ h.enabled + h.disabled = h.allCons ∧
    (∀ k, h.type k =
      last.conIds.countP (fun c => decide ((ConType.classify last.var lt (last.con c)).1 = k) && (last.con c).enabled)) ∧
    (types.map h.type).sum = h.enabled := by
  have hv : (fun v => !(m.var v).fixed) = (fun v => !(last.var v).fixed) := by funext v; rw [hs.fixed]
  have hc : (fun c => (m.con c).enabled) = (fun c => (last.con c).enabled) := by funext c; rw [hs.enabled]
  have e1 : ∀ (l : List ℕ) (p : ℕ → Bool), (l.filter p).length = l.countP p := fun l p => (List.countP_eq_length_filter).symm
  have e2 : ∀ (l : List ℕ) (p q : ℕ → Bool), (l.filter p).countP q = l.countP (fun a => p a && q a) := fun l p q => by
    rw [List.countP_filter]
    exact List.countP_congr (fun a _ => by simp [and_comm])
  refine ⟨rfl, rfl, rfl, e1 _ _, rfl, filter_add last.varIds _, fun s => ?_, ?_, rfl, rfl, filter_add last.conIds _,
    fun k => ?_, ?_⟩
  · show ((last.varIds.filter _).countP (fun v => !(m.var v).fixed)) = _
    rw [hv, e2]
  · show (senses.map fun s => (last.varIds.filter _).countP (fun v => !(m.var v).fixed)).sum = (last.varIds.filter _).length
    rw [hv, e1]
    exact sum_kinds senses senses_nodup (fun v => (last.var v).sense) (fun v => senses_all _) _ last.varIds
  · show ((last.conIds.filter _).countP (fun c => (m.con c).enabled)) = _
    rw [hc, e2]
  · show (types.map fun k => (last.conIds.filter _).countP (fun c => (m.con c).enabled)).sum = (last.conIds.filter _).length
    rw [hc, e1]
    exact sum_kinds types types_nodup (fun c => (ConType.classify last.var lt (last.con c)).1) (fun v => types_all _) _ last.conIds

/-! ## Numbers of occurrences -/

theorem terms_same {a m : MState} (hs : SameOutline a m) (c : ℕ) : termsOf m c = ((a.con c).expr.terms.length : ℤ) := by
  unfold termsOf; rw [hs.terms]

theorem related_same {a m : MState} (hs : SameOutline a m) (v : ℕ) : m.relatedOf v = a.relatedOf v := by
  unfold MState.relatedOf
  rw [hs.conIds]
  apply List.filter_congr
  intro c _
  unfold Expr.vars
  rw [hs.terms]

theorem flatMap_length (l : List ℕ) (f : ℕ → List (ℕ × ℕ)) (g : ℕ → ℤ) (h : ∀ c ∈ l, ((f c).length : ℤ) = g c) :
    ((l.flatMap f).length : ℤ) = (l.map g).sum := by
  induction l with
  | nil => simp
  | cons c l ih =>
    rw [List.flatMap_cons, List.length_append, List.map_cons, List.sum_cons, ← h c (by simp), ← ih (fun d hd => h d (by simp [hd]))]
    push_cast; ring

theorem mem_used {m : MState} {c : ℕ} (h : c ∈ usedCons m) : c ∈ m.conIds := (List.mem_filter.1 h).1

/-- `nonzero` is the number of pairs of an enabled constraint and a variable occurring in it; density and means are this
number divided by the numbers of mutable variables and enabled constraints; the least and greatest number of variables of
an enabled constraint are attained, and the mean is between them. -/
theorem occurrences_counted (lt : ℕ → ℕ → Bool) (a m : MState) (hs : SameOutline a m) (hl : Listed a) :
    let d := nonzeroDetail (lists lt a) m
    d.nonzero = (occurrences a).length ∧
    (0 < (usedCons a).length → 0 < (freeVars a).length →
      d.density * ((freeVars a).length * (usedCons a).length) = (occurrences a).length) ∧
    (0 < (freeVars a).length → d.variableMean * (freeVars a).length = (occurrences a).length) ∧
    (0 < (usedCons a).length → d.constraintMean * (usedCons a).length = (occurrences a).length ∧
      (∃ c ∈ usedCons a, d.constraintRange.min = ((a.con c).expr.terms.length : ℤ)) ∧
      (∃ c ∈ usedCons a, d.constraintRange.max = ((a.con c).expr.terms.length : ℤ)) ∧
      (∀ c ∈ usedCons a, d.constraintRange.min ≤ ((a.con c).expr.terms.length : ℤ) ∧
        ((a.con c).expr.terms.length : ℤ) ≤ d.constraintRange.max) ∧
      (d.constraintRange.min : ℚ) ≤ d.constraintMean ∧ d.constraintMean ≤ d.constraintRange.max) ∧
    (0 < (freeVars a).length →
      (∃ v ∈ freeVars a, d.variableRange.min = ((a.relatedOf v).length : ℤ)) ∧
      (∃ v ∈ freeVars a, d.variableRange.max = ((a.relatedOf v).length : ℤ)) ∧
      ∀ v ∈ freeVars a, d.variableRange.min ≤ ((a.relatedOf v).length : ℤ) ∧
        ((a.relatedOf v).length : ℤ) ≤ d.variableRange.max) := by
  intro d
  have hT : (fun c => termsOf m c) = fun c => ((a.con c).expr.terms.length : ℤ) := by funext c; exact terms_same hs c
  have hR : consOf m = fun v => ((a.relatedOf v).length : ℤ) := by funext v; unfold consOf; rw [related_same hs]
  have hlen : ∀ c ∈ a.conIds, (a.varIds.filter fun v => decide (v ∈ (a.con c).expr.vars)).length = (a.con c).expr.terms.length := by
    intro c hc
    rw [← List.countP_eq_length_filter]
    have := count_vars a.varIds hl.varIds (a.con c).expr.vars (hl.terms c hc) (hl.known c hc)
    rw [this]; unfold Expr.vars; simp
  have hsum : d.nonzero = ((usedCons a).map fun c => ((a.con c).expr.terms.length : ℤ)).sum := by
    show (usedCons a).foldl (fun x c => x + termsOf m c) 0 = _
    rw [foldl_sum, zero_add]
    congr 1
    exact List.map_congr_left (fun c _ => congrFun hT c)
  have hn : d.nonzero = (occurrences a).length := by
    rw [hsum]
    symm
    apply flatMap_length
    intro c hc
    rw [List.length_map, hlen c (mem_used hc)]
  have hnq : (d.nonzero : ℚ) = ((occurrences a).length : ℚ) := by rw [hn]; simp
  refine ⟨hn, fun h1 h2 => ?_, fun h1 => ?_, fun h1 => ?_, fun h1 => ?_⟩
  · have e : d.density = (d.nonzero : ℚ) / (((freeVars a).length : ℚ) * ((usedCons a).length : ℚ)) := if_pos ⟨h2, h1⟩
    have p1 : (0 : ℚ) < (usedCons a).length := by exact_mod_cast h1
    have p2 : (0 : ℚ) < (freeVars a).length := by exact_mod_cast h2
    rw [e, ← hnq]; field_simp
  · have e : d.variableMean = (d.nonzero : ℚ) / ((freeVars a).length : ℚ) := if_pos h1
    have p2 : (0 : ℚ) < (freeVars a).length := by exact_mod_cast h1
    rw [e, ← hnq]; field_simp
  · have e : d.constraintMean = (d.nonzero : ℚ) / ((usedCons a).length : ℚ) := if_pos h1
    have p1 : (0 : ℚ) < (usedCons a).length := by exact_mod_cast h1
    have hr : d.constraintRange = rangeOf ((usedCons a).map fun c => ((a.con c).expr.terms.length : ℤ)) := by
      show rangeOf ((usedCons a).map (termsOf m)) = _
      rw [show termsOf m = fun c => ((a.con c).expr.terms.length : ℤ) from hT]
    obtain ⟨r1, r2, r3⟩ := rangeOf_spec ((usedCons a).map fun c => ((a.con c).expr.terms.length : ℤ))
      (by intro h; rw [List.map_eq_nil_iff] at h; rw [h] at h1; exact absurd h1 (by simp))
      (fun x hx => by
        obtain ⟨c, hc, rfl⟩ := List.mem_map.1 hx
        rw [← hlen c (mem_used hc)]
        have := List.length_filter_le (fun v => decide (v ∈ (a.con c).expr.vars)) a.varIds
        have := hl.small.1
        omega)
    rw [← hr] at r1 r2 r3
    obtain ⟨c1, k1, k1'⟩ := List.mem_map.1 r1
    obtain ⟨c2, k2, k2'⟩ := List.mem_map.1 r2
    have hb := sum_between _ _ _ r3
    rw [← hsum, List.length_map] at hb
    refine ⟨by rw [e, ← hnq]; field_simp, ⟨c1, k1, k1'.symm⟩, ⟨c2, k2, k2'.symm⟩,
      fun c hc => r3 _ (List.mem_map.2 ⟨c, hc, rfl⟩), ?_, ?_⟩
    · rw [e, le_div_iff₀ p1]; exact_mod_cast hb.1
    · rw [e, div_le_iff₀ p1]; exact_mod_cast hb.2
  · have hr : d.variableRange = rangeOf ((freeVars a).map fun v => ((a.relatedOf v).length : ℤ)) := by
      show rangeOf ((freeVars a).map (consOf m)) = _
      rw [hR]
    obtain ⟨r1, r2, r3⟩ := rangeOf_spec ((freeVars a).map fun v => ((a.relatedOf v).length : ℤ))
      (by intro h; rw [List.map_eq_nil_iff] at h; rw [h] at h1; exact absurd h1 (by simp))
      (fun x hx => by
        obtain ⟨v, hv, rfl⟩ := List.mem_map.1 hx
        have := List.length_filter_le (fun c => decide (v ∈ (a.con c).expr.vars)) a.conIds
        have := hl.small.2
        unfold MState.relatedOf
        omega)
    rw [← hr] at r1 r2 r3
    obtain ⟨c1, k1, k1'⟩ := List.mem_map.1 r1
    obtain ⟨c2, k2, k2'⟩ := List.mem_map.1 r2
    exact ⟨⟨c1, k1, k1'.symm⟩, ⟨c2, k2, k2'.symm⟩, fun v hv => r3 _ (List.mem_map.2 ⟨v, hv, rfl⟩)⟩

/-- If no variable that occurs in a constraint is fixed and every constraint is enabled, the figures of the variables fit as
well: the mean is between the least and the greatest number of constraints of a variable, and the density is at most one. -/
theorem occurrences_fit_partial (lt : ℕ → ℕ → Bool) (a m : MState) (hs : SameOutline a m) (hl : Listed a)
    (hfix : ∀ c ∈ a.conIds, ∀ v ∈ (a.con c).expr.vars, (a.var v).fixed = false) (hen : ∀ c ∈ a.conIds, (a.con c).enabled = true)
    (hpos : 0 < (freeVars a).length) :
    let d := nonzeroDetail (lists lt a) m
    (d.variableRange.min : ℚ) ≤ d.variableMean ∧ d.variableMean ≤ d.variableRange.max ∧ 0 ≤ d.density ∧ d.density ≤ 1 := by
  intro d
  have hused : usedCons a = a.conIds := List.filter_eq_self.2 (fun c hc => hen c hc)
  have hT : (fun c => termsOf m c) = fun c => ((a.con c).expr.terms.length : ℤ) := by funext c; exact terms_same hs c
  have hR : consOf m = fun v => ((a.relatedOf v).length : ℤ) := by funext v; unfold consOf; rw [related_same hs]
  have hsum : d.nonzero = (a.conIds.map fun c => ((a.con c).expr.terms.length : ℤ)).sum := by
    show (usedCons a).foldl (fun x c => x + termsOf m c) 0 = _
    rw [foldl_sum, zero_add, hused]
    congr 1
    exact List.map_congr_left (fun c _ => congrFun hT c)
  have hdc := double_count (freeVars a) a.conIds (hl.varIds.filter _) (fun c => (a.con c).expr.vars) (fun c hc => hl.terms c hc)
    (fun c hc x hx => List.mem_filter.2 ⟨hl.known c hc x hx, by rw [hfix c hc x hx]; rfl⟩)
  have hvl : ∀ c, (a.con c).expr.vars.length = (a.con c).expr.terms.length := fun c => by unfold Expr.vars; simp
  have hn : d.nonzero = ((freeVars a).map fun v => ((a.relatedOf v).length : ℤ)).sum := by
    rw [hsum]
    have : (fun c => (((a.con c).expr.vars.length : ℕ) : ℤ)) = fun c => ((a.con c).expr.terms.length : ℤ) := by
      funext c; rw [hvl]
    rw [this] at hdc
    exact hdc.symm
  have p : (0 : ℚ) < (freeVars a).length := by exact_mod_cast hpos
  have e : d.variableMean = (d.nonzero : ℚ) / ((freeVars a).length : ℚ) := if_pos hpos
  obtain ⟨-, -, -, -, o5⟩ := occurrences_counted lt a m hs hl
  obtain ⟨-, -, o5⟩ := o5 hpos
  have hb := sum_between ((freeVars a).map fun v => ((a.relatedOf v).length : ℤ)) d.variableRange.min d.variableRange.max
    (fun x hx => by obtain ⟨v, hv, rfl⟩ := List.mem_map.1 hx; exact o5 v hv)
  rw [← hn, List.length_map] at hb
  have hup := sum_between ((freeVars a).map fun v => ((a.relatedOf v).length : ℤ)) 0 (a.conIds.length : ℤ)
    (fun x hx => by
      obtain ⟨v, hv, rfl⟩ := List.mem_map.1 hx
      refine ⟨by positivity, ?_⟩
      have := List.length_filter_le (fun c => decide (v ∈ (a.con c).expr.vars)) a.conIds
      unfold MState.relatedOf
      omega)
  rw [← hn, List.length_map] at hup
  refine ⟨by rw [e, le_div_iff₀ p]; exact_mod_cast hb.1, by rw [e, div_le_iff₀ p]; exact_mod_cast hb.2, ?_⟩
  by_cases hc : 0 < (usedCons a).length
  · have e2 : d.density = (d.nonzero : ℚ) / (((freeVars a).length : ℚ) * ((usedCons a).length : ℚ)) := if_pos ⟨hpos, hc⟩
    have p1 : (0 : ℚ) < (usedCons a).length := by exact_mod_cast hc
    have q1 : (0 : ℚ) ≤ d.nonzero := by
      have := hup.1; rw [zero_mul] at this; exact_mod_cast this
    have q2 : (d.nonzero : ℚ) ≤ (a.conIds.length : ℚ) * (freeVars a).length := by exact_mod_cast hup.2
    rw [e2]
    refine ⟨by positivity, ?_⟩
    rw [div_le_one (by positivity), mul_comm]
    rw [hused] at *
    exact q2
  · have e2 : d.density = 0 := if_neg (fun h => hc h.2)
    rw [e2]; constructor <;> norm_num

/-! ## Before and after the presolve -/

/-- What the setup does to the counts: the variables stay the same, none that is fixed is freed, and the number of
enabled constraints does not grow (though constraints are added for implied equations). -/
theorem setup_shrinks (o : Options) (lt : ℕ → ℕ → Bool) (user : ℕ → Bool) (O m1 m : MState) (p : Ordinary o O)
    (hf : ∃ σ, Feasible O σ) (h : prepare o lt user O = some (.ok m1)) :
    let s := info lt (structured O) m1 m
    s.presolved.all = s.original.all ∧ s.presolved.mutable ≤ s.original.mutable ∧ s.original.fixed ≤ s.presolved.fixed ∧
      s.presolved.enabled ≤ s.original.enabled ∧ s.numberOfVariables = O.varIds.length := by
  have pr := prepared o lt user O m1 p hf h
  have hv : m1.varIds = O.varIds := pr.varIds
  have e1 : ∀ (l : List ℕ) (p : ℕ → Bool), (l.filter p).length = l.countP p := fun l p => (List.countP_eq_length_filter).symm
  have hm : (m1.varIds.filter (fun v => !(m1.var v).fixed)).length ≤ (O.varIds.filter (fun v => !(O.var v).fixed)).length := by
    rw [e1, e1, hv]
    apply List.countP_mono_left
    intro v _ hv
    have := (pr.narrow v (by simpa using hv)).1
    rw [this]; rfl
  have hx : (O.varIds.filter (fun v => (O.var v).fixed)).length ≤ (m1.varIds.filter (fun v => (m1.var v).fixed)).length := by
    rw [e1, e1, hv]
    apply List.countP_mono_left
    intro v _ hv
    by_contra hc
    have := (pr.narrow v (by simpa using hc)).1
    rw [this] at hv; exact absurd hv (by simp)
  refine ⟨congrArg List.length hv, hm, hx, ?_, congrArg List.length hv⟩
  -- the constraints
  obtain ⟨m2, h1, -, g⟩ := reduce_facts o lt O p.toProper hf
  obtain ⟨-, k1, -⟩ := reduce_shrunk (tame_closed O) o lt O m2 p.toProper hf p.presolve h1
  have a1 : (implicitStage o lt (structured O)).conIds.countP (fun c => ((implicitStage o lt (structured O)).con c).enabled) ≤
      O.conIds.countP (fun c => (O.con c).enabled) := by
    unfold implicitStage
    split
    · exact extractImplicit_count _ (implicitCandidates lt (structured O)) (fresh (structured O).conIds) (structured O)
        (fun c hc => (mem_implicitCandidates hc).1) (lt_fresh _)
    · exact le_refl _
  have a2 : m2.conIds.countP (fun c => (m2.con c).enabled) ≤
      (implicitStage o lt (structured O)).conIds.countP (fun c => ((implicitStage o lt (structured O)).con c).enabled) := by
    rw [k1.conIds]
    apply List.countP_mono_left
    intro c _ hc
    rcases k1.off c with e | e
    · rw [e] at hc; exact hc
    · rw [e] at hc; exact absurd hc (by simp)
  have a3 : m1.conIds.countP (fun c => (m1.con c).enabled) ≤ m2.conIds.countP (fun c => (m2.con c).enabled) := by
    unfold prepare at h
    rw [h1] at h
    simp only [andThen, Option.some.injEq, Outcome.ok.injEq] at h
    by_cases hsel : o.selection ≠ .off ∧ m2.varIds.length > m2.conIds.length
    · rw [if_pos hsel] at h
      obtain ⟨e1, -, -⟩ := C30.extraction_effect lt user o.selection m2 g.conIds
      have i1 : m1.conIds = m2.conIds := by rw [← h]; rfl
      have i2 : m1.con = (SelectionExtract.extract lt user o.selection m2).con := by rw [← h]; rfl
      rw [i1, i2]
      apply List.countP_mono_left
      intro c _ hc
      rw [e1] at hc
      split at hc
      · exact absurd hc (by simp)
      · exact hc
    · rw [if_neg hsel] at h
      have i1 : m1.conIds = m2.conIds := by rw [← h]; rfl
      have i2 : m1.con = m2.con := by rw [← h]; rfl
      rw [i1, i2]
  show (m1.conIds.filter (fun c => (m1.con c).enabled)).length ≤ (O.conIds.filter (fun c => (O.con c).enabled)).length
  rw [e1, e1]
  exact (a3.trans a2).trans a1

/-- The setup lists the user's constraints first and appends one constraint for each implied equation that it finds. -/
theorem setup_adds (o : Options) (lt : ℕ → ℕ → Bool) (user : ℕ → Bool) (O m1 : MState) (p : Ordinary o O)
    (hf : ∃ σ, Feasible O σ) (h : prepare o lt user O = some (.ok m1)) :
    m1.conIds = (implicitStage o lt (structured O)).conIds ∧ O.conIds <+: m1.conIds := by
  obtain ⟨m2, h1, -, g⟩ := reduce_facts o lt O p.toProper hf
  obtain ⟨-, k1, -⟩ := reduce_shrunk (tame_closed O) o lt O m2 p.toProper hf p.presolve h1
  have e : m1.conIds = (implicitStage o lt (structured O)).conIds := by
    rw [← k1.conIds]
    unfold prepare at h
    rw [h1] at h
    simp only [andThen, Option.some.injEq, Outcome.ok.injEq] at h
    split at h <;> rw [← h] <;> rfl
  refine ⟨e, ?_⟩
  rw [e]
  unfold implicitStage
  split
  · unfold Presolve.extractImplicitEqualities
    split
    · exact List.prefix_rfl
    · dsimp only
      rw [(implicitEqualities_shrunk (fun _ _ => True) _ _ _).conIds]
      exact List.prefix_append _ _
  · exact List.prefix_rfl

/-! ## The status of a whole call -/

/-- A search keeps the outline of the model, and so does the import of the reported solution. -/
theorem call_keeps_outline {C : Nbhd.Config ν μ} {cfg : Cfg} {m0 : MState} {name : ℕ → String} (b : Base C cfg m0 name) (x : Sofar)
    (k : Ok C cfg m0 x) (r : Named) (m : MState) (h : postprocess cfg.sels x.st.holder x.st.model = some (r, m)) :
    SameOutline m0 m := by
  have he : Err m0 (m0.conIds.length * (1e-10 : ℚ)) := Or.inl rfl
  obtain ⟨⟨q, i⟩, -⟩ := C66.run_inv b.setting he x.done _ x.st _ (C66.begin_inv b.setting).1 (k.legal b) k.ran
  obtain ⟨l, g, -, st⟩ := i.stat
  unfold postprocess at h
  obtain ⟨d, -, h⟩ := Option.bind_eq_some_iff.1 h
  obtain ⟨m1, hi, h⟩ := Option.map_eq_some_iff.1 h
  obtain ⟨st1, -⟩ := C66.import_facts b.setting st d hi q.1 i.agree i.range
  have sh := st1.shape.trans (MState.update_shape m1)
  have em : m = m1.update := by injection h with _ e; exact e.symm
  rw [em]
  refine ⟨?_, sh.conIds, sh.fixed, sh.conEnabled, sh.conTerms⟩
  obtain ⟨o, ov, e, -⟩ := MState.update_desc m1
  have e1 : m1.update.varIds = m1.pre.varIds := by rw [e]; rfl
  rw [e1, ← st1.varIds]
  rfl

/-- The whole: a call as in C78 (setup, Lagrange dual, local search, any number of tabu searches, postprocess) leaves a
status that says that a feasible solution was found exactly if the reported values solve the user's problem, whose
counts are those of the problem as given and after the presolve and fit together, with no more free variables and enabled
constraints after the presolve than before.

Missing: the bounding of variables during the search, and what is missing in C78; the option, the penalty coefficients and
the times in the status.  Besides, the figures of the variables need not fit (see `density_above_one`), and
`number_of_constraints` may exceed the user's (see `constraints_added`). -/
theorem status_of_call_partial (i : Input) (O m1 m0 : MState) (fast : Bool) (selRel : ℕ → List ℕ)
    (name : ℕ → String) (o : Opt) (C : Nbhd.Config ν μ) (p : Ordinary i.options O) (hu : C76.Unselected O)
    (hm : ∀ v, (O.var v).updateMargin = O.var v) (hname : C48.Distinct name O)
    (hf : ∃ σ, Feasible O σ) (hpen : 0 ≤ i.pen)
    (hprep : prepare i.options i.lt i.user O = some (.ok m1)) (hgf : ofType i.lt m1 .gf2 = [])
    (h0 : started i O = some m0) (hC : C76.SetUp C selRel m1) (hcon : C74.Constrained m0)
    (ho : o.bounding = false) (pl : Plan) (hob : Obeys C name (Whole.cfg i fast selRel O) o m0 pl) :
    ∃ r m, call i fast selRel name o O pl = some (r, m) ∧
      let s := ofCall i O m1 m
      (s.foundFeasible = true ↔ Solves O r.values) ∧
      s.numberOfVariables = O.varIds.length ∧
      s.original.all = O.varIds.length ∧ s.original.allCons = O.conIds.length ∧
      s.original.fixed + s.original.mutable = s.original.all ∧ s.original.enabled + s.original.disabled = s.original.allCons ∧
      s.presolved.all = s.original.all ∧ s.presolved.fixed + s.presolved.mutable = s.presolved.all ∧
      s.presolved.enabled + s.presolved.disabled = s.presolved.allCons ∧
      s.presolved.mutable ≤ s.original.mutable ∧ s.presolved.enabled ≤ s.original.enabled ∧
      (senses.map s.original.sense).sum = s.original.all ∧ (senses.map s.presolved.sense).sum = s.presolved.mutable ∧
      (types.map s.original.type).sum = s.original.allCons ∧ (types.map s.presolved.type).sum = s.presolved.enabled ∧
      O.conIds.length ≤ s.numberOfConstraints ∧
      (Listed m1 → s.presolved.nonzero.nonzero = (occurrences m1).length) := by
  obtain ⟨b, ft, gd, hdep⟩ := C78.base i O m1 m0 fast selRel name C p hu hm hname hf hpen hprep hgf h0 hC hcon
  obtain ⟨x, r, m, hx, hcall, -, hfeas, -⟩ := C78.call_ends_with_right_report_partial i O m1 m0 fast selRel name o C p hu hm hname
    hf hpen hprep hgf h0 hC hcon ho pl hob
  obtain ⟨x', hx', k⟩ := searches_ok b o ho (C78.no_selections ft gd) pl hob
  obtain rfl : x' = x := by rw [hx] at hx'; exact (Option.some.inj hx').symm
  have hpost : postprocess (Whole.cfg i fast selRel O).sels x'.st.holder x'.st.model = some (r, m) := by
    unfold call at hcall
    rw [h0, Option.bind_some] at hcall
    unfold Ctl.solve at hcall
    rw [hx, Option.bind_some] at hcall
    exact hcall
  have hrm : r.feasible = m.feasible := by
    unfold postprocess at hpost
    obtain ⟨d, -, h⟩ := Option.bind_eq_some_iff.1 hpost
    obtain ⟨m2, -, h⟩ := Option.map_eq_some_iff.1 h
    injection h with e1 e2
    rw [← e1, ← e2]; rfl
  have s0 := call_keeps_outline b x' k r m hpost
  have pr := prepared i.options i.lt i.user O m1 p hf hprep
  have hl : launch i (selections i.options i.lt i.user O) m1 = some m0 := by
    unfold started at h0; rw [hprep] at h0; exact h0
  obtain ⟨l, -, -, -⟩ := C68.launched p pr i hgf hl
  have s1 : SameOutline m1 m0 := by
    obtain ⟨var, sel, e⟩ := l.frame
    refine ⟨by rw [e]; rfl, by rw [e]; rfl, fun v => (l.bounds v).2.2.2, fun c => by rw [e]; rfl, fun c => by rw [e]; rfl⟩
  have s2 : SameOutline m1 m := ⟨s0.varIds.trans s1.varIds, s0.conIds.trans s1.conIds, fun v => (s0.fixed v).trans (s1.fixed v),
    fun c => (s0.enabled c).trans (s1.enabled c), fun c => (s0.terms c).trans (s1.terms c)⟩
  obtain ⟨a1, a2, a3, a4, a5, a6, a7, a8, a9, a10, a11⟩ := original_counts i.lt (structured O) m1 m
  obtain ⟨b1, b2, b3, b4, b5, b6, b7, b8, b9, b10, b11, b12, b13⟩ := presolved_counts i.lt (structured O) m1 m s2
  obtain ⟨c1, c2, c3, c4, c5⟩ := setup_shrinks i.options i.lt i.user O m1 m p hf hprep
  refine ⟨r, m, hcall, ?_, c5, a1, a7, a4, a9, c1, b6, b11, c2, c4, a6, b8, a11, b13,
    (setup_adds i.options i.lt i.user O m1 p hf hprep).2.length_le, fun hL => ?_⟩
  · show m.feasible = true ↔ _
    rw [← hrm]; exact hfeas
  · exact (occurrences_counted i.lt m1 m s2 hL).1

/-! ### A call meeting the conditions: the one of C78 -/

section Sample
open C76.Sample C78.Sample

example : ∃ r m, call inp true selRel name opt ex plan = some (r, m) ∧
    ((ofCall inp ex m1 m).foundFeasible = true ↔ Solves ex r.values) := by
  obtain ⟨r, m, h, k, -⟩ := status_of_call_partial inp ex m1 m0 true selRel name opt conf ordinary unselected
    (fun v => by rcases C67.ex_var v with h | h <;> rw [show ex.var v = C67.ex.var v from rfl, h] <;> rfl)
    (by unfold C48.Distinct; decide +kernel) feasible (by decide +kernel) prep (by decide +kernel) start setUp
    (by unfold C74.Constrained; decide +kernel) rfl plan obeys
  exact ⟨r, m, h, k⟩

/-- Its status: five variables, of which the last one is fixed by the presolve; the selection constraint is disabled. -/
example : (call inp true selRel name opt ex plan).map (fun p => let s := ofCall inp ex m1 p.2
      (s.foundFeasible, [[s.numberOfVariables, s.numberOfConstraints],
        [s.original.all, s.original.fixed, s.original.mutable, s.original.allCons, s.original.enabled, s.original.disabled],
        [s.presolved.all, s.presolved.fixed, s.presolved.mutable, s.presolved.allCons, s.presolved.enabled, s.presolved.disabled],
        senses.map s.original.sense, senses.map s.presolved.sense])) =
    some (true, [[5, 2], [5, 0, 5, 2, 2, 0], [5, 1, 4, 2, 1, 1], [4, 1, 0, 0, 0], [0, 1, 3, 0, 0]]) := by
  decide +kernel

example : (call inp true selRel name opt ex plan).map (fun p => (ofCall inp ex m1 p.2).original.nonzero) =
      some ⟨7, 7 / 10, 7 / 5, ⟨0, 2⟩, 7 / 2, ⟨3, 4⟩⟩ ∧
    (call inp true selRel name opt ex plan).map (fun p => (ofCall inp ex m1 p.2).presolved.nonzero) =
      some ⟨4, 1, 1, ⟨1, 2⟩, 4, ⟨4, 4⟩⟩ := by
  decide +kernel

/-- The model of C78 before the presolve meets the conditions of `occurrences_fit_partial`. -/
example : Listed ex ∧ (∀ c ∈ ex.conIds, ∀ v ∈ (ex.con c).expr.vars, (ex.var v).fixed = false) ∧
    (∀ c ∈ ex.conIds, (ex.con c).enabled = true) ∧ 0 < (freeVars ex).length :=
  ⟨⟨by decide +kernel, by decide +kernel, by decide +kernel, by decide +kernel⟩, by decide +kernel, by decide +kernel, by decide +kernel⟩

end Sample

/-! ## Findings -/

open C76.Sample in
/-- Minimise `-2 x0 + x1` under `2 x0 + 3 x1 + x2 + x3 + x4 ≤ 11`, where the user has fixed `x2`, `x3`, `x4`. -/
def fixedEx : MState := { Example.raw with
  var := fun v => if v < 2 then Example.int5 else Example.int5.fixBy 1
  varIds := [0, 1, 2, 3, 4]
  con := fun _ => Con.setup ⟨[(0, 2), (1, 3), (2, 1), (3, 1), (4, 1)], -11, 0⟩ .less C67.kinds
  conIds := [0]
  obj := ⟨[(0, -2), (1, 1)], 0, 0⟩ }

def fixedEnd : MState := (C76.Sample.ok (prepare {} C67.lt' (fun _ => false) fixedEx)).getD fixedEx

/-- The terms of fixed variables are counted, the fixed variables are not: the density is reported as 2.5, and the mean
number of constraints of a variable as 2.5 although no variable is in more than one constraint. -/
theorem density_above_one : prepare {} C67.lt' (fun _ => false) fixedEx = some (.ok fixedEnd) ∧
    let s := info C67.lt' (structured fixedEx) fixedEnd fixedEnd
    s.original.nonzero.density = 5 / 2 ∧ s.presolved.nonzero.density = 5 / 2 ∧
    s.presolved.nonzero.variableMean = 5 / 2 ∧ s.presolved.nonzero.variableRange.max = 1 :=
  ⟨C76.Sample.of_ok (by decide +kernel) fixedEx, by decide +kernel⟩

/-- Two opposite inequalities `2 x0 + 3 x1 ≤ 11`, `2 x0 + 3 x1 ≥ 11`. -/
def pairEx : MState := { Example.raw with
  var := fun _ => Example.int5
  varIds := [0, 1]
  con := fun c => Con.setup ⟨[(0, 2), (1, 3)], -11, 0⟩ (if c = 0 then .less else .greater) (fun _ => .integer)
  conIds := [0, 1]
  obj := ⟨[(0, -2), (1, 1)], 0, 0⟩ }

/-- The equation that the two inequalities imply is added, and they are disabled. -/
def pairAdded : MState :=
  let m := Presolve.disable (Presolve.disable (structured pairEx) 0) 1
  let l := [Con.setup (((structured pairEx).con 0).expr.subValue 0) .equal (fun v => ((structured pairEx).var v).sense)]
  { m with
    con := fun c => if 2 ≤ c ∧ c < 2 + 1 then l.getD (c - 2) (m.con c) else m.con c
    conIds := [0, 1, 2] }

theorem pair_added : implicitStage C67.opts C67.lt' (structured pairEx) = pairAdded := by
  have h1 : implicitCandidates C67.lt' (structured pairEx) = [0, 1] := by decide +kernel
  have h2 : Presolve.sortByHash (structured pairEx) [0, 1] = [0, 1] :=
    List.mergeSort_of_pairwise (by decide +kernel)
  have h3 : fresh (structured pairEx).conIds = 2 := by decide +kernel
  have h4 : Presolve.implicitEqualities (fun v => ((structured pairEx).var v).sense) (structured pairEx) [0, 1] =
      (Presolve.disable (Presolve.disable (structured pairEx) 0) 1,
        [Con.setup (((structured pairEx).con 0).expr.subValue 0) .equal (fun v => ((structured pairEx).var v).sense)]) := by
    rw [Presolve.implicitEqualities, if_pos (by decide +kernel)]
    have h5 : (([1] : List ℕ).takeWhile (fun j => Presolve.exprHash ((structured pairEx).con 0).expr ==
        Presolve.exprHash ((structured pairEx).con j).expr)).find?
        (fun j => Presolve.impliesEquality ((structured pairEx).con 0) ((structured pairEx).con j)) = some 1 := by decide +kernel
    simp only [h5]
    rw [Presolve.implicitEqualities, if_neg (by decide +kernel), Presolve.implicitEqualities]
  unfold implicitStage
  rw [if_pos (by decide), h1, h3]
  unfold Presolve.extractImplicitEqualities
  rw [if_neg (by decide), h2, h4]
  rfl

theorem pair_ordinary : Ordinary C67.opts pairEx := by
  have key : ∀ c ∈ pairEx.conIds, ∀ t ∈ (pairEx.con c).expr.terms, t.2 = 2 ∨ t.2 = 3 := by decide +kernel
  have key2 : ∀ c ∈ pairEx.conIds, (pairEx.con c).expr.const = -11 := by decide +kernel
  refine ⟨⟨by decide, by decide, by decide, by decide, fun v => rfl, by decide +kernel, by decide +kernel, by decide +kernel,
    ?_, fun v _ => ?_, by decide +kernel, by decide +kernel, fun _ => by decide +kernel, fun _ => by decide +kernel,
    Or.inl (by decide)⟩, by decide, ?_, by decide +kernel, by decide +kernel, by decide +kernel, by decide +kernel,
    by decide +kernel, rfl⟩
  · intro c hc t ht
    rcases key c hc t ht with h | h
    · exact ⟨by rw [h]; norm_num, 2, by rw [h]; rfl⟩
    · exact ⟨by rw [h]; norm_num, 3, by rw [h]; rfl⟩
  · rw [show pairEx.var v = Example.int5 from rfl]; decide
  · intro c hc
    exact ⟨-11, by rw [key2 c hc]; rfl⟩

theorem pair_feasible : ∃ σ, Feasible pairEx σ := by
  refine ⟨fun v => if v = 0 then 4 else 1, fun v => ?_, by decide +kernel⟩
  dsimp only
  rw [show pairEx.var v = Example.int5 from rfl]
  split <;> decide

/-- `number_of_constraints` counts constraints added by the presolve: 3 for a problem with 2. -/
theorem constraints_added : ∃ m1, prepare C67.opts C67.lt' (fun _ => false) pairEx = some (.ok m1) ∧
    pairEx.conIds.length = 2 ∧ ∀ m, (info C67.lt' (structured pairEx) m1 m).numberOfConstraints = 3 ∧
      (info C67.lt' (structured pairEx) m1 m).original.allCons = 2 := by
  obtain ⟨m1, h, -⟩ := C67.preparation_keeps_optimum_partial C67.opts C67.lt' (fun _ => false) pairEx pair_ordinary.toProper
    pair_feasible
  refine ⟨m1, h, rfl, fun m => ⟨?_, rfl⟩⟩
  have := (setup_adds C67.opts C67.lt' (fun _ => false) pairEx m1 pair_ordinary pair_feasible h).1
  show m1.conIds.length = 3
  rw [this, pair_added]
  rfl

/-- `x0 + x1 = 1` and `2 x0 + x1 + 3 x2 + 5 x3 ≤ 6` over 0/1 variables. -/
def dependentEx : MState := { Example.raw with
  var := fun _ => Example.bin0
  varIds := [0, 1, 2, 3]
  con := fun c => if c = 0 then Con.setup ⟨[(0, 1), (1, 1)], -1, 0⟩ .equal C67.kinds
    else Con.setup ⟨[(0, 2), (1, 1), (2, 3), (3, 5)], -6, 0⟩ .less C67.kinds
  conIds := [0, 1]
  obj := ⟨[(0, -2), (2, 1)], 0, 0⟩ }

def dependentEnd : MState := (C76.Sample.ok (prepare {} C67.lt' (fun _ => false) dependentEx)).getD dependentEx

/-- The half "original" of `nonzero_detail` is read from the constraints after the presolve: 5 nonzeros are reported for a
problem with 6, because a dependent variable was eliminated. -/
theorem original_not_original : prepare {} C67.lt' (fun _ => false) dependentEx = some (.ok dependentEnd) ∧
    (occurrences dependentEx).length = 6 ∧
    (info C67.lt' (structured dependentEx) dependentEnd dependentEnd).original.nonzero.nonzero = 5 :=
  ⟨C76.Sample.of_ok (by decide +kernel) dependentEx, by decide +kernel⟩

/-- Without an enabled constraint, the least number of variables of a constraint is reported as 2147483647 and the greatest
as -2147483648; likewise for the variables if none is free. -/
theorem empty_ranges (lt : ℕ → ℕ → Bool) (a m : MState) :
    (usedCons a = [] → (nonzeroDetail (lists lt a) m).constraintRange = ⟨2147483647, -2147483648⟩) ∧
    (freeVars a = [] → (nonzeroDetail (lists lt a) m).variableRange = ⟨2147483647, -2147483648⟩) := by
  refine ⟨fun h => ?_, fun h => ?_⟩
  · show rangeOf ((usedCons a).map (termsOf m)) = _
    rw [h]; rfl
  · show rangeOf ((freeVars a).map (consOf m)) = _
    rw [h]; rfl

example : usedCons { Example.raw with conIds := [] } = [] := by decide

end Printemps.C93
