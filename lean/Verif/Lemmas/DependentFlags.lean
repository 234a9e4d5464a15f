import Verif.Lemmas.DependentPairs
import Verif.Lemmas.Whole

/-! Helper lemmas: the flags stored in constraints stay right if no 0/1 variable becomes dependent. -/

namespace Printemps.Setup
open Spec Expr Presolve Dependent
open ConType (Result pairBinary pairUnit pairHalf pairEqual pairInequality trinomial setTypes flowTypes boundTypes
  knapsackTypes gf2Type general classify smaller isInt)

/-! ### The key variables are integer variables -/

/-- What the classification guarantees about key variables of constraints other than exclusive or/nor. -/
def IntKey (var : ℕ → Var) (r : Result) : Prop :=
  defining r.1 = true → r.1 ≠ .exclusiveOr → r.1 ≠ .exclusiveNor → ∀ v, r.2 = some v → isInt (var v) = true

theorem pairEqual_int (var : ℕ → Var) (lt : ℕ → ℕ → Bool) (c : Con) (x y : ℕ) (a b : ℚ) :
    IntKey var (pairEqual var lt c x a y b) := by
  unfold pairEqual
  split
  · rename_i r h
    unfold pairBinary at h
    repeat' split at h
    all_goals first
      | (cases h; done)
      | (rw [Option.some.injEq] at h; subst h; intro _ h1 h2; first | exact absurd rfl h1 | exact absurd rfl h2)
  · split
    · rename_i hi
      have hs : isInt (var (smaller lt x y)) = true := by
        unfold smaller; split
        · exact hi.1
        · exact hi.2
      split
      · rename_i r h
        unfold pairUnit at h
        repeat' split at h
        all_goals first
          | (cases h; done)
          | (rw [Option.some.injEq] at h; subst h; intro _ _ _ v hv; rw [Option.some.injEq] at hv; subst hv; exact hs)
      · split
        · rename_i r h
          unfold pairHalf at h
          repeat' split at h
          all_goals first
            | (cases h; done)
            | (rw [Option.some.injEq] at h; subst h; intro _ _ _ v hv; rw [Option.some.injEq] at hv; subst hv
               first | exact hi.1 | exact hi.2)
        · intro h; exact absurd h (by simp [defining])
    · intro h; exact absurd h (by simp [defining])

theorem general_int (var : ℕ → Var) (c : Con) : IntKey var (general var c) := by
  have k1 : ∀ r, setTypes c = some r → IntKey var r := by
    intro r hr
    unfold setTypes at hr
    repeat' split at hr
    all_goals first
      | (rw [Option.some.injEq] at hr; subst hr; intro h; exact absurd h (by simp [defining]))
      | exact absurd hr (by simp)
  have k2 : ∀ r, flowTypes var c = some r → IntKey var r := by
    intro r hr
    unfold flowTypes at hr
    simp only [] at hr
    repeat' split at hr
    all_goals first
      | (rw [Option.some.injEq] at hr; subst hr; intro h; exact absurd h (by simp [defining]))
      | exact absurd hr (by simp)
  have kb : ∀ r, boundTypes var c = some r → IntKey var r := by
    have key : ∀ (x : ℚ) (t : ConType),
        IntKey var (t, (((c.expr.terms.filter (fun t => isInt (var t.1) && !(var t.1).fixed)).filter
          (fun t => t.2 = x)).head?).map Prod.fst) := by
      intro x t _ _ _ v hv
      rw [Option.map_eq_some_iff] at hv
      obtain ⟨u, hu, rfl⟩ := hv
      have h1 := (List.mem_filter.1 (List.mem_of_mem_head? hu)).1
      have h2 := (List.mem_filter.1 h1).2
      rw [Bool.and_eq_true] at h2
      exact h2.1
    intro r hr
    unfold boundTypes at hr
    simp only [] at hr
    repeat' split at hr
    all_goals first
      | (cases hr; done)
      | (rw [Option.some.injEq] at hr; subst hr; exact key _ _)
  have k3 : ∀ r, knapsackTypes var c = some r → IntKey var r := by
    intro r hr
    unfold knapsackTypes at hr
    simp only [] at hr
    repeat' split at hr
    all_goals first
      | (rw [Option.some.injEq] at hr; subst hr; intro h; exact absurd h (by simp [defining]))
      | exact absurd hr (by simp)
  have k4 : ∀ r, gf2Type var c = some r → IntKey var r := by
    intro r hr
    unfold gf2Type at hr
    simp only [] at hr
    split at hr
    · split at hr
      · obtain ⟨_, hr⟩ := ConType.ite_none_some hr
        subst hr; intro h; exact absurd h (by simp [defining])
      · exact absurd hr (by simp)
    · exact absurd hr (by simp)
  unfold general
  cases h1 : setTypes c with
  | some r => exact k1 r h1
  | none =>
    cases h2 : flowTypes var c with
    | some r => exact k2 r h2
    | none =>
      cases h3 : boundTypes var c with
      | some r => exact kb r h3
      | none =>
        cases h4 : knapsackTypes var c with
        | some r => exact k3 r h4
        | none =>
          cases h5 : gf2Type var c with
          | some r => exact k4 r h5
          | none => intro h; exact absurd h (by simp [defining])

theorem classify_int (var : ℕ → Var) (lt : ℕ → ℕ → Bool) (c : Con) : IntKey var (classify var lt c) := by
  have hg := general_int var c
  unfold classify
  split
  · intro h; exact absurd h (by simp [defining])
  · rename_i t u ht
    split
    · split
      · exact pairEqual_int var lt c _ _ _ _
      · unfold pairInequality; split <;> (intro h; exact absurd h (by simp [defining]))
    · exact hg
  · rename_i t u w ht
    split
    · cases h1 : trinomial var [t, u, w] with
      | some r =>
        unfold trinomial at h1
        dsimp only at h1
        repeat' split at h1
        all_goals first
          | (cases h1; done)
          | (rw [Option.some.injEq] at h1; subst h1; intro h; exact absurd h (by simp [defining]))
      | none => exact hg
    · exact hg
  · exact hg

/-- Without exclusive or/nor the key variable of a candidate is not a 0/1 variable. -/
theorem candidate_int (o : Options) (h1 : o.exclusiveOr = false) (h2 : o.exclusiveNor = false) (lt : ℕ → ℕ → Bool)
    (m : MState) (c : ℕ) (h : c ∈ dependentCandidates o lt m) : (m.var (keyOf lt m c)).sense ≠ .binary := by
  have key : ∀ k, defining k = true → k ≠ .exclusiveOr → k ≠ .exclusiveNor → c ∈ ofType lt m k →
      (m.var (keyOf lt m c)).sense ≠ .binary := by
    intro k hk n1 n2 hc
    obtain ⟨_, e⟩ := List.mem_filter.1 hc
    simp only [decide_eq_true_eq] at e
    obtain ⟨_, v, a, e2, _⟩ := classify_unit m.var lt (m.con c) (by rw [e]; exact hk)
    have := classify_int m.var lt (m.con c) (by rw [e]; exact hk) (by rw [e]; exact n1) (by rw [e]; exact n2) v e2
    have hkv : keyOf lt m c = v := by unfold keyOf; rw [e2]; rfl
    rw [hkv]
    intro hb
    unfold isInt at this
    rw [hb] at this
    exact absurd this (by decide)
  unfold dependentCandidates at h
  rw [h1, h2] at h
  simp only [List.mem_append] at h
  rcases h with ((((((h | h) | h) | h) | h) | h) | h) | h
  all_goals split at h
  all_goals first
    | exact key _ rfl (by decide) (by decide) h
    | exact absurd h List.not_mem_nil
    | (rename_i hb; exact absurd hb (by simp))

/-! ### The invariant -/

/-- The flags of the constraint are true of it. -/
def FlagsRight (var : ℕ → Var) (c : Con) : Prop :=
  c.onlyBinaryVar = true → (∀ v ∈ c.expr.vars, (var v).sense = .binary) ∧ (∀ t ∈ c.expr.terms, |t.2| ≤ c.maxAbs) ∧
    (c.onlyBinaryCoef = true → ∀ t ∈ c.expr.terms, t.2 = 1) ∧
    (c.maxAbs = 0 ∨ ∃ t ∈ c.expr.terms, c.maxAbs = |t.2|)

/-- What stays true of flags and 0/1 variables. -/
structure Flags (m : MState) : Prop where
  flags : ∀ c ∈ m.conIds, FlagsRight m.var (m.con c)
  box : ∀ v, (m.var v).sense = .binary → 0 ≤ (m.var v).lb ∧ (m.var v).ub ≤ 1
  nosel : ∀ v, (m.var v).sense ≠ .selection

theorem foldl_max_le (ts : List (ℕ × ℚ)) : ∀ a : ℚ, a ≤ ts.foldl (fun m t => max m |t.2|) a ∧
    ∀ t ∈ ts, |t.2| ≤ ts.foldl (fun m t => max m |t.2|) a := by
  induction ts with
  | nil => intro a; simp
  | cons t ts ih =>
    intro a
    obtain ⟨h1, h2⟩ := ih (max a |t.2|)
    refine ⟨le_trans (le_max_left _ _) h1, fun u hu => ?_⟩
    rcases List.mem_cons.1 hu with rfl | hu
    · exact le_trans (le_max_right _ _) h1
    · exact h2 u hu

theorem setup_flags (var : ℕ → Var) (hn : ∀ v, (var v).sense ≠ .selection) (e : Expr) (s : Sense) :
    FlagsRight var (Con.setup e s (fun v => (var v).sense)) := by
  intro h
  refine ⟨fun v hv => ?_, fun t ht => (foldl_max_le e.terms 0).2 t ht, fun h t ht => ?_,
    Whole.foldl_max_eq e.terms 0⟩
  · obtain ⟨t, ht, rfl⟩ := List.mem_map.1 hv
    have := List.all_eq_true.1 h t ht
    simp only [Bool.or_eq_true, beq_iff_eq] at this
    exact this.resolve_right (hn t.1)
  · have := List.all_eq_true.1 h t ht
    simpa using this

theorem flagsRight_mono {var var' : ℕ → Var} {c : Con} (h : FlagsRight var c)
    (hv : ∀ v, (var v).sense = .binary → (var' v).sense = .binary) : FlagsRight var' c :=
  fun hc => ⟨fun v hm => hv v ((h hc).1 v hm), (h hc).2⟩

/-- Property of variables kept by the reductions; `A` are variables known to be 0/1. -/
def BinKeep (A : ℕ → Prop) (i : ℕ) (v : Var) : Prop :=
  (v.sense = .binary → 0 ≤ v.lb ∧ v.ub ≤ 1) ∧ (A i → v.sense = .binary) ∧ v.sense ≠ .selection

theorem binKeep_closed (A : ℕ → Prop) : Closed (BinKeep A) where
  fix i v x h := h
  bound i v old w l u hv ho hf hl hu h := by
    unfold Var.setBound at h
    split at h
    · exact absurd h (by simp)
    rename_i hlu
    simp only [Option.some.injEq] at h
    subst h
    unfold Var.setupSense Var.updateMargin
    have hlu : l ≤ u := not_lt.1 hlu
    split
    · rename_i e
      replace e : (l = 0 ∧ u = 1) ∨ (l = 0 ∧ u = 0) ∨ (l = 1 ∧ u = 1) := e
      refine ⟨fun _ => ?_, fun _ => rfl, by simp⟩
      show 0 ≤ l ∧ u ≤ 1
      omega
    · rename_i e
      replace e : ¬ ((l = 0 ∧ u = 1) ∨ (l = 0 ∧ u = 0) ∨ (l = 1 ∧ u = 1)) := e
      refine ⟨fun k => absurd k (by simp), fun hA => ?_, by simp⟩
      exfalso
      obtain ⟨b1, b2⟩ := ho.1 (ho.2.1 hA)
      apply e
      omega

theorem Flags.of_shrunk {m m' : MState} (h : Flags m)
    (s : Shrunk (BinKeep (fun v => (m.var v).sense = .binary)) m m') : Flags m' := by
  have hv := s.vars (fun v => ⟨h.box v, fun k => k, h.nosel v⟩)
  refine ⟨fun c hc => ?_, fun v => (hv v).1, fun v => (hv v).2.2⟩
  rw [s.conIds] at hc
  have k := flagsRight_mono (var' := m'.var) (h.flags c hc) (fun v e => (hv v).2.1 e)
  rcases s.off c with e | e
  · rw [e]; exact k
  · rw [e]; exact k

theorem Flags.structured {m : MState} (h : Flags m) : Flags (Setup.structured m) := ⟨h.flags, h.box, h.nosel⟩

/-! ### Extraction and elimination -/

theorem extract_extra (senseOf : ℕ → VarSense) (key : ℕ → ℕ) (cs : List ℕ) (nextC nextE : ℕ) (m m' : MState)
    (hx : extract senseOf key cs nextC nextE m = some m') (c : ℕ) (hc : c ∈ m'.conIds) :
    (c ∈ m.conIds ∧ c < nextC) ∨ nextC ≤ c ∧ ∃ e s, m'.con c = Con.setup e s senseOf ∨ c ∈ m.conIds := by
  unfold extract at hx
  simp only [] at hx
  split at hx
  · simp only [Option.some.injEq] at hx
    subst hx
    dsimp only at hc ⊢
    rcases List.mem_append.1 hc with hc | hc
    · by_cases h : c < nextC
      · exact Or.inl ⟨hc, h⟩
      · exact Or.inr ⟨not_lt.1 h, ⟨[], 0, 0⟩, .less, Or.inr hc⟩
    · right
      obtain ⟨k, hk, rfl⟩ := List.mem_map.1 hc
      have hk := List.mem_range.1 hk
      refine ⟨Nat.le_add_right _ _, ?_⟩
      rw [if_pos ⟨Nat.le_add_right _ _, Nat.add_lt_add_left hk _⟩, Nat.add_sub_cancel_left, getD_of_lt _ _ hk]
      obtain ⟨j, hj, hx⟩ := List.mem_flatMap.1 (List.getElem_mem hk)
      generalize (List.flatMap (fun c => extraConstraints senseOf m (key c) (solved m key c)) (chosen m key cs))[k] = y
        at hx ⊢
      unfold extraConstraints at hx
      rcases List.mem_append.1 hx with hx | hx
      · split at hx
        · rw [List.mem_singleton] at hx; exact ⟨_, _, Or.inl hx⟩
        · simp at hx
      · split at hx
        · rw [List.mem_singleton] at hx; exact ⟨_, _, Or.inl hx⟩
        · simp at hx
  · exact absurd hx (by simp)

theorem extract_flags (o : Options) (h1 : o.exclusiveOr = false) (h2 : o.exclusiveNor = false) (lt : ℕ → ℕ → Bool)
    (m m' : MState) (h : Flags m)
    (hx : extract (fun v => (m.var v).sense) (keyOf lt m) (dependentCandidates o lt m) (fresh m.conIds)
      (fresh m.uexprIds) m = some m') : Flags m' := by
  obtain ⟨p1, _, p3, p4, _, _⟩ := extract_parts _ _ _ _ _ m m' hx
  have hbin : ∀ v, (m.var v).sense = .binary → m'.var v = m.var v := by
    intro v hv
    rw [p3, if_neg]
    intro hk
    obtain ⟨c, hc, rfl⟩ := List.mem_map.1 hk
    exact candidate_int o h1 h2 lt m c (chosen_sub m _ _ c hc).1 hv
  have hnew : ∀ v, m'.var v = m.var v ∨ (m'.var v).sense = .dependentBinary ∨ (m'.var v).sense = .dependentInteger := by
    intro v
    rw [p3]
    split
    · right
      unfold markDependent
      dsimp only
      split
      · exact Or.inl rfl
      · exact Or.inr rfl
    · exact Or.inl rfl
  refine ⟨fun c hc => ?_, fun v hv => ?_, fun v hv => ?_⟩
  · have hmono : ∀ v, (m.var v).sense = .binary → (m'.var v).sense = .binary := fun v hv => by rw [hbin v hv]; exact hv
    rcases extract_extra _ _ _ _ _ m m' hx c hc with ⟨k1, k2⟩ | ⟨k1, e, s, k2 | k2⟩
    · rw [p4 c k2]
      have := flagsRight_mono (var' := m'.var) (h.flags c k1) hmono
      split
      · exact this
      · exact this
    · rw [k2]
      exact flagsRight_mono (setup_flags m.var h.nosel e s) hmono
    · exact absurd (lt_fresh m.conIds c k2) (not_lt.2 k1)
  · rcases hnew v with e | e | e
    · rw [e] at hv ⊢; exact h.box v hv
    · rw [e] at hv; exact absurd hv (by decide)
    · rw [e] at hv; exact absurd hv (by decide)
  · rcases hnew v with e | e | e
    · rw [e] at hv; exact h.nosel v hv
    · rw [e] at hv; exact absurd hv (by decide)
    · rw [e] at hv; exact absurd hv (by decide)

theorem elimConsOf_frame (v : ℕ) (f : Expr) (cs : List ℕ) : ∀ (s : (ℕ → Con) × ℕ) (c : ℕ),
    (∃ e, (elimConsOf v f cs s).1 c = { s.1 c with expr := e }) ∧
    (c ∉ cs → (elimConsOf v f cs s).1 c = s.1 c) := by
  induction cs with
  | nil => intro s c; exact ⟨⟨_, rfl⟩, fun _ => rfl⟩
  | cons i cs ih =>
    intro s c
    unfold elimConsOf
    obtain ⟨⟨e, k1⟩, k2⟩ := ih (if (s.1 i).enabled = true then
        (Function.update s.1 i { s.1 i with expr := (s.1 i).expr.substitute v f }, s.2 + 1) else s) c
    constructor
    · refine ⟨e, ?_⟩
      rw [k1]
      split
      · dsimp only
        by_cases hc : c = i
        · subst hc; rw [Function.update_self]
        · rw [Function.update_of_ne hc]
      · rfl
    · intro hc
      rw [k2 (fun h => hc (List.mem_cons_of_mem _ h))]
      split
      · dsimp only
        exact Function.update_of_ne (fun e => hc (by rw [e]; exact List.mem_cons_self)) _ _
      · rfl

theorem elimCons_frame (m : MState) (rel : ℕ → List ℕ) (ds : List (ℕ × ℕ)) : ∀ (s : (ℕ → Con) × ℕ) (c : ℕ),
    (∃ e, (elimCons m rel ds s).1 c = { s.1 c with expr := e }) ∧
    ((∀ d ∈ ds, c ∉ rel d.1) → (elimCons m rel ds s).1 c = s.1 c) := by
  induction ds with
  | nil => intro s c; exact ⟨⟨_, rfl⟩, fun _ => rfl⟩
  | cons d ds ih =>
    intro s c
    unfold elimCons
    obtain ⟨⟨e, k1⟩, k2⟩ := ih (elimConsOf d.1 (m.uexpr d.2).expr (rel d.1) s) c
    obtain ⟨⟨e', j1⟩, j2⟩ := elimConsOf_frame d.1 (m.uexpr d.2).expr (rel d.1) s c
    constructor
    · exact ⟨e, by rw [k1, j1]⟩
    · intro h
      rw [k2 (fun d' hd' => h d' (List.mem_cons_of_mem _ hd')), j2 (h d List.mem_cons_self)]

theorem eliminate_flags (ds : List (ℕ × ℕ)) (m : MState) (h : Flags m)
    (hd : ∀ d ∈ ds, (m.var d.1).sense ≠ .binary) : Flags (eliminate ds m).1 := by
  refine ⟨fun c hc => ?_, h.box, h.nosel⟩
  have hc' : c ∈ m.conIds := hc
  obtain ⟨⟨e, k1⟩, k2⟩ := elimCons_frame m (relatedCons m) ds (m.con, 0) c
  have hcon : (eliminate ds m).1.con c = (elimCons m (relatedCons m) ds (m.con, 0)).1 c := rfl
  have hvar : (eliminate ds m).1.var = m.var := rfl
  rw [hcon, hvar]
  by_cases hb : (m.con c).onlyBinaryVar = true
  · rw [k2]
    · exact h.flags c hc'
    · intro d hdm hr
      have := (List.mem_filter.1 hr).2
      simp only [decide_eq_true_eq] at this
      exact hd d hdm ((h.flags c hc' hb).1 d.1 this)
  · intro hb'
    rw [k1] at hb'
    exact absurd hb' hb

theorem eliminateLoop_flags (ds : List (ℕ × ℕ)) (fuel : ℕ) : ∀ m m' : MState, Flags m →
    (∀ d ∈ ds, (m.var d.1).sense ≠ .binary) → eliminateLoop ds fuel m = some m' → Flags m' := by
  induction fuel with
  | zero => intro m m' _ _ h; exact absurd h (by simp [eliminateLoop])
  | succ fuel ih =>
    intro m m' hf hd h
    rw [eliminateLoop] at h
    have f1 := eliminate_flags ds m hf hd
    split at h
    · simp only [Option.some.injEq] at h
      subst h; exact f1
    · exact ih (eliminate ds m).1 m' f1 hd h

/-! ### The loop -/

theorem dependentLoop_flags (o : Options) (h1 : o.exclusiveOr = false) (h2 : o.exclusiveNor = false) (lt : ℕ → ℕ → Bool)
    (fuel : ℕ) : ∀ m m' : MState, Flags m → dependentLoop o lt fuel m = some (.ok m') → Flags m' := by
  induction fuel with
  | zero => intro m m' _ h; exact absurd h (by simp [dependentLoop])
  | succ fuel ih =>
    intro m m' hf h
    rw [dependentLoop] at h
    cases hx : extract (fun v => (m.var v).sense) (keyOf lt m) (dependentCandidates o lt m) (fresh m.conIds)
        (fresh m.uexprIds) m with
    | none => rw [hx] at h; exact absurd h (by simp)
    | some m1 =>
      rw [hx] at h
      dsimp only at h
      split at h
      · simp only [Option.some.injEq, Outcome.ok.injEq] at h
        subst h; exact hf
      · have f1 := extract_flags o h1 h2 lt m m1 hf hx
        have hdep : ∀ d ∈ eliminationOrder m1, (m1.var d.1).sense ≠ .binary := by
          intro d hd e
          unfold eliminationOrder at hd
          rw [List.mem_append, List.mem_filter, List.mem_filter, e] at hd
          rcases hd with k | k <;> exact absurd k.2 (by decide)
        cases he : eliminateLoop (eliminationOrder m1) 4 m1 with
        | none => rw [he] at h; exact absurd h (by simp)
        | some m2 =>
          rw [he] at h
          dsimp only at h
          have f2 := eliminateLoop_flags _ _ m1 m2 f1 hdep he
          cases hr : reduceProblemSize (Setup.structured m2) with
          | none => rw [hr] at h; exact absurd h (by simp [andThen])
          | some q =>
            cases q with
            | thrown => rw [hr] at h; exact absurd h (by simp [andThen])
            | undefined => rw [hr] at h; exact absurd h (by simp [andThen])
            | ok m3 =>
              rw [hr] at h
              exact ih (Setup.structured m3) m'
                (f2.structured.of_shrunk (reduceProblemSize_shrunk (binKeep_closed _) _ _ hr)).structured h

theorem implicitStage_flags (o : Options) (lt : ℕ → ℕ → Bool) (m : MState) (h : Flags m) (hw : AllWF m)
    (hn : m.conIds.Nodup) : Flags (implicitStage o lt m) := by
  unfold implicitStage
  split
  · obtain ⟨f1, _, _, _, _, _, _, f8, f9⟩ := extractImplicitEqualities_facts (fun v => (m.var v).sense)
      (implicitCandidates lt m) (fresh m.conIds) m hw (fun c hc => (mem_implicitCandidates hc).1) (lt_fresh m.conIds) hn
    generalize extractImplicitEqualities (fun v => (m.var v).sense) (implicitCandidates lt m) (fresh m.conIds) m = m'
      at *
    refine ⟨fun c hc => ?_, by rw [f1]; exact h.box, by rw [f1]; exact h.nosel⟩
    rw [f1]
    rcases f9 c hc with k | ⟨i, _, e⟩
    · obtain ⟨_, ⟨e, he⟩, _⟩ := f8 c k
      rw [he]; exact h.flags c k
    · rw [e]; exact setup_flags m.var h.nosel _ _
  · exact h

theorem presolveStage_flags (o : Options) (lt : ℕ → ℕ → Bool) (m m1 : MState) (h : Flags m) (hw : AllWF m)
    (hn : m.conIds.Nodup) (e : presolveStage o lt m = some (.ok m1)) : Flags m1 := by
  unfold presolveStage at e
  split at e
  · have f1 := implicitStage_flags o lt m h hw hn
    have f2 := f1.of_shrunk (setConstraintStage_shrunk (binKeep_closed _).fix o lt m _)
    exact f2.of_shrunk (reduceProblemSize_shrunk (binKeep_closed _) _ _ e)
  · simp only [Option.some.injEq, Outcome.ok.injEq] at e
    subst e; exact h

theorem setVariableStage_flags (o : Options) (lt : ℕ → ℕ → Bool) (m : MState) (h : Flags m) :
    Flags (setVariableStage o lt m) :=
  h.of_shrunk (setVariableStage_shrunk (binKeep_closed _).fix o lt m)

theorem andThen_ok {r : Option (Outcome MState)} {f : MState → Option (Outcome MState)} {m' : MState}
    (h : andThen r f = some (.ok m')) : ∃ m, r = some (.ok m) ∧ f m = some (.ok m') := by
  unfold andThen at h
  split at h
  · exact ⟨_, rfl, h⟩
  · rename_i hne
    exact absurd h (hne m')

theorem reduce_flags (o : Options) (h1 : o.exclusiveOr = false) (h2 : o.exclusiveNor = false) (lt : ℕ → ℕ → Bool)
    (m m' : MState) (h : Flags m) (hw : AllWF m) (hn : m.conIds.Nodup) (e : reduce o lt m = some (.ok m')) :
    Flags m' := by
  unfold reduce at e
  obtain ⟨m1, e1, e⟩ := andThen_ok e
  obtain ⟨m2, e2, e⟩ := andThen_ok e
  simp only [Option.some.injEq, Outcome.ok.injEq] at e
  subst e
  have f1 := presolveStage_flags o lt (Setup.structured m) m1 h.structured hw hn e1
  have f2 : Flags m2 := by
    unfold dependentStage at e2
    split at e2
    · exact dependentLoop_flags o h1 h2 lt _ _ _ f1.structured e2
    · simp only [Option.some.injEq, Outcome.ok.injEq] at e2
      subst e2; exact f1.structured
  exact ((setVariableStage_flags o lt m2 f2).of_shrunk (duplicateStage_shrunk _ o lt _ _)).structured

end Printemps.Setup
