import Verif.Model.Statistics
import Verif.Props.C38
import Verif.Props.C66

/-! # C98: the statistics exported after a call

The update count of a variable is the number of moves that altered it, the violation count of a constraint the number of moves
after which it was violated, the exported penalty coefficient the larger one of those in force; each is found under the name
of its array. -/

namespace Printemps.C98
open Spec Search Sol Statistics Memory
open C66 (Setting LegalEvent visitOf Inv next added)

/-! ## Specification -/

/-- The accepted moves of a history, each with the assignment it led to. -/
def moves (m : MState) : (ℕ → ℤ) → List Event → List (List (ℕ × ℤ) × (ℕ → ℤ))
  | _, [] => []
  | σ, ev :: es =>
    let τ := visit m σ (visitOf ev)
    match ev with
    | .move mv _ => (mv.alterations, τ) :: moves m τ es
    | _ => moves m τ es

/-- The number of accepted moves that alter the variable. -/
def timesAltered (m : MState) (es : List Event) (v : ℕ) : ℕ :=
  (moves m (assignment m) es).countP (fun p => v ∈ p.1.map Prod.fst)

/-- The number of accepted moves after which the constraint is violated by at least `1e-5`. -/
def timesViolated (m : MState) (es : List Event) (c : ℕ) : ℕ :=
  (moves m (assignment m) es).countP (fun p => 1e-5 ≤ violation (m.con c) p.2)

/-- The penalty coefficients (for exceeding and for falling short) that are in force after a history. -/
def inForce (m : MState) (es : List Event) : (ℕ → ℚ) × (ℕ → ℚ) :=
  es.foldl (fun p ev => match ev with | .penalties l g => (l, g) | _ => p)
    (fun c => (m.con c).penLess, fun c => (m.con c).penGreater)

/-! ## The memory -/

/-- What the counters should say, from the moves of the past. -/
structure Counted (m0 : MState) (past : List (List (ℕ × ℤ) × (ℕ → ℤ))) (mem : Mem) : Prop where
  updates : ∀ v, mem.updateCount v = past.countP (fun p => v ∈ p.1.map Prod.fst)
  total : mem.total = (past.map fun p => p.1.length).sum
  violations : ∀ c ∈ m0.conIds, (m0.con c).enabled = true →
    mem.violationCount c = past.countP (fun p => 1e-5 ≤ violation (m0.con c) p.2)
  others : ∀ c, (c ∉ m0.conIds ∨ (m0.con c).enabled = false) → mem.violationCount c = 0

theorem recordAlterations_counts (it : ℤ) (alts : List (ℕ × ℤ)) (s : Mem) (v : ℕ) :
    (recordAlterations it alts s).updateCount v = s.updateCount v + (alts.map Prod.fst).count v ∧
    (recordAlterations it alts s).total = s.total + alts.length ∧
    (recordAlterations it alts s).violationCount = s.violationCount := by
  induction alts generalizing s with
  | nil => simp [recordAlterations]
  | cons a l ih =>
    obtain ⟨w, r⟩ := a
    rw [recordAlterations]
    obtain ⟨h1, h2, h3⟩ := ih { s with
        localLast := Function.update s.localLast w (it + r)
        globalLast := Function.update s.globalLast w s.total
        primalNum := s.primalNum + (2 * s.updateCount w + 1)
        updateCount := Function.update s.updateCount w (s.updateCount w + 1)
        total := s.total + 1 }
    refine ⟨?_, ?_, h3⟩
    · rw [h1]
      by_cases hv : v = w
      · subst hv; simp; omega
      · simp [Function.update_of_ne hv, Ne.symm hv]
    · rw [h2]; simp; omega

theorem recordViolations_counts (cs : List ℕ) (s : Mem) (c : ℕ) :
    (recordViolations cs s).violationCount c = s.violationCount c + cs.count c ∧
    (recordViolations cs s).updateCount = s.updateCount ∧ (recordViolations cs s).total = s.total := by
  induction cs generalizing s with
  | nil => simp [recordViolations]
  | cons d l ih =>
    rw [recordViolations]
    obtain ⟨h1, h2, h3⟩ := ih { s with
        dualNum := s.dualNum + (2 * s.violationCount d + 1)
        violationCount := Function.update s.violationCount d (s.violationCount d + 1)
        totalViolation := s.totalViolation + 1 }
    refine ⟨?_, h2, h3⟩
    rw [h1]
    by_cases hc : c = d
    · subst hc; simp; omega
    · simp [Function.update_of_ne hc, Ne.symm hc]

theorem violation_agree (m : MState) (hd : NoDep m) (c : ℕ) (hc : c ∈ m.conIds) (he : (m.con c).enabled = true) (σ τ : ℕ → ℤ)
    (h : Agree m σ τ) : violation (m.con c) σ = violation (m.con c) τ := by
  unfold violation
  rw [exprValue_agree m (m.con c).expr σ τ h (hd.con c hc he)]

/-- The constraints that the model lists after an accepted move are those that the new assignment violates. -/
theorem listed_violations {m0 : MState} {cfg : Cfg} {e : ℚ} (hs : Setting cfg m0) (he : Err m0 e) (s : St) (q : (ℕ → ℤ) × ℕ)
    (hi : Inv m0 e s q) (mv : Move) (ren : Bool) (hm : C66.Legal cfg m0 mv) (c : ℕ) :
    ((afterMove s.model mv).violative.count c =
      if c ∈ m0.conIds ∧ (m0.con c).enabled = true ∧ (1e-5 : ℚ) ≤ violation (m0.con c) (applyMove q.1 mv.alterations) then 1 else 0) := by
  obtain ⟨i1, -, -⟩ := C66.move_inv hs he s q hi mv ren hm s.holder
  obtain ⟨⟨l, g, hn, st⟩, hl, hag, -, -, -⟩ := i1
  dsimp only at st hl hag
  obtain ⟨sel, hsel⟩ := afterMove_eq s.model mv
  have hv : (afterMove s.model mv).violative =
      (afterMove s.model mv).enabledIds.filter (fun c => !((afterMove s.model mv).con c).isFeasible) := by
    rw [hsel]; rfl
  have hids : (afterMove s.model mv).conIds = m0.conIds := st.shape.conIds
  have hen : ∀ c, ((afterMove s.model mv).con c).enabled = (m0.con c).enabled := st.shape.conEnabled
  have hnod : ((afterMove s.model mv).violative).Nodup := by
    rw [hv]
    refine List.Nodup.filter _ (List.Nodup.filter _ ?_)
    rw [hids]; exact hs.wf.conIds
  have hmem : c ∈ (afterMove s.model mv).violative ↔
      c ∈ m0.conIds ∧ (m0.con c).enabled = true ∧ (1e-5 : ℚ) ≤ violation (m0.con c) (applyMove q.1 mv.alterations) := by
    rw [hv, List.mem_filter]
    unfold MState.enabledIds
    rw [List.mem_filter, hids, hen]
    constructor
    · rintro ⟨⟨h1, h2⟩, h3⟩
      refine ⟨h1, h2, ?_⟩
      have hcur := (hl.current.con c (by rw [hids]; exact h1) (by rw [hen]; exact h2)).violation
      rw [st.shape.violation] at hcur
      have hag' : violation (setPenalties m0 l g |>.con c) (assignment (afterMove s.model mv)) =
          violation (m0.con c) (applyMove q.1 mv.alterations) := by
        show violation (m0.con c) _ = _
        exact violation_agree m0 hs.noDep c h1 h2 _ _ hag
      rw [hag'] at hcur
      simp only [Con.isFeasible, hcur, Bool.not_eq_true', decide_eq_false_iff_not, not_lt] at h3
      rw [C11.eps_eq]; exact h3
    · rintro ⟨h1, h2, h3⟩
      refine ⟨⟨h1, h2⟩, ?_⟩
      have hcur := (hl.current.con c (by rw [hids]; exact h1) (by rw [hen]; exact h2)).violation
      rw [st.shape.violation] at hcur
      have hag' : violation (setPenalties m0 l g |>.con c) (assignment (afterMove s.model mv)) =
          violation (m0.con c) (applyMove q.1 mv.alterations) := by
        show violation (m0.con c) _ = _
        exact violation_agree m0 hs.noDep c h1 h2 _ _ hag
      rw [hag'] at hcur
      simp only [Con.isFeasible, hcur, Bool.not_eq_true', decide_eq_false_iff_not, not_lt]
      rw [C11.eps_eq] at h3; exact h3
  rw [List.Nodup.count hnod]
  simp only [hmem]

theorem remember_move {m0 : MState} {cfg : Cfg} {e : ℚ} (hs : Setting cfg m0) (he : Err m0 e) (reset : ℤ) (s : St)
    (q : (ℕ → ℤ) × ℕ) (hi : Inv m0 e s q) (t : Tick) (mv : Move) (ren : Bool) (hev : t.event = .move mv ren)
    (hm : C66.Legal cfg m0 mv) (past) (mem : Mem) (hc : Counted m0 past mem) :
    Counted m0 (past ++ [(mv.alterations, applyMove q.1 mv.alterations)]) (remember reset s t mem) := by
  have hmem : remember reset s t mem = Memory.update t.iteration (mv.alterations.map fun a => (a.1, t.random a.1))
      (afterMove s.model mv).violative mem := by unfold remember; rw [hev]
  have hfst : ((mv.alterations.map fun a => (a.1, t.random a.1)).map Prod.fst) = mv.alterations.map Prod.fst := by
    rw [List.map_map]; rfl
  have hnod : ((mv.alterations.map fun a => (a.1, t.random a.1)).map Prod.fst).Nodup := by rw [hfst]; exact hm.distinct
  have ha := recordAlterations_counts t.iteration (mv.alterations.map fun a => (a.1, t.random a.1)) mem
  have hv := fun c => recordViolations_counts (afterMove s.model mv).violative
    (recordAlterations t.iteration (mv.alterations.map fun a => (a.1, t.random a.1)) mem) c
  rw [hmem]
  refine ⟨fun v => ?_, ?_, fun c h1 h2 => ?_, fun c h1 => ?_⟩
  · show (recordViolations _ _).updateCount v = _
    rw [(hv 0).2.1, (ha v).1, List.countP_append, hc.updates v, hfst, List.Nodup.count hm.distinct]
    simp only [List.countP_cons, List.countP_nil, zero_add, decide_eq_true_eq]
  · show (recordViolations _ _).total = _
    rw [(hv 0).2.2, (ha 0).2.1, hc.total]; simp
  · show (recordViolations _ _).violationCount c = _
    rw [(hv c).1, (ha 0).2.2, hc.violations c h1 h2, listed_violations hs he s q hi mv ren hm c, List.countP_append]
    simp only [h1, h2, true_and, List.countP_cons, List.countP_nil, zero_add, decide_eq_true_eq]
  · show (recordViolations _ _).violationCount c = _
    rw [(hv c).1, (ha 0).2.2, hc.others c h1, listed_violations hs he s q hi mv ren hm c, if_neg]
    rintro ⟨h3, h4, -⟩
    rcases h1 with h1 | h1
    · exact h1 h3
    · rw [h4] at h1; exact absurd h1 (by decide)

/-- The penalty coefficients after an event. -/
def force (p : (ℕ → ℚ) × (ℕ → ℚ)) (ev : Event) : (ℕ → ℚ) × (ℕ → ℚ) :=
  match ev with
  | .penalties l g => (l, g)
  | _ => p

theorem offer_stat {m0 m : MState} {l g} (h : Holder Dense) (sc : Score) (st : Stat m0 l g m) :
    Stat m0 l g (offer h m sc).model := by
  obtain ⟨-, -, e3⟩ := C11.model_overload_agrees refresh exportDense h m sc
  have : (offer h m sc).model = m ∨ (offer h m sc).model = refresh m := by
    show (h.tryUpdateModel refresh exportDense m sc).2.1 = _ ∨ (h.tryUpdateModel refresh exportDense m sc).2.1 = _
    rw [e3]; split <;> simp
  rcases this with h1 | h1 <;> rw [h1]
  · exact st
  · exact st.refresh

theorem step_stat {m0 : MState} {cfg : Cfg} {e : ℚ} (hs : Setting cfg m0) (s s' : St) (q : (ℕ → ℤ) × ℕ) (hi : Inv m0 e s q)
    (p : (ℕ → ℚ) × (ℕ → ℚ)) (st : Stat m0 p.1 p.2 s.model) (ev : Event) (h : step cfg s ev = some s') :
    Stat m0 (force p ev).1 (force p ev).2 s'.model := by
  cases ev with
  | start d =>
    obtain ⟨m1, h1, h2⟩ := Option.map_eq_some_iff.1 h
    obtain ⟨st1, -, -, -⟩ := C66.import_facts hs st d h1 q.1 hi.agree hi.range
    rw [← h2]; exact offer_stat _ _ st1.update
  | move mv ren =>
    obtain rfl := Option.some.inj h
    obtain ⟨sel, hsel⟩ := afterMove_eq s.model mv
    refine offer_stat _ _ ?_
    rw [hsel]
    exact (st.updateMove mv).withVars _ sel (fun _ => rfl) (fun _ => rfl) (fun _ => rfl) (fun _ => rfl)
  | relax low =>
    obtain rfl := Option.some.inj h
    obtain ⟨st1, -, -⟩ := C66.relax_facts hs st low q.1 hi.agree hi.range
    exact offer_stat _ _ st1.update
  | penalties l' g' =>
    obtain rfl := Option.some.inj h
    exact st.setPenalties l' g'

theorem run_counts {m0 : MState} {cfg : Cfg} {e : ℚ} (hs : Setting cfg m0) (he : Err m0 e) (reset : ℤ) (ts : List Tick) (s s' : St)
    (mem mem' : Mem) (q : (ℕ → ℤ) × ℕ) (past) (p : (ℕ → ℚ) × (ℕ → ℚ)) (hi : Inv m0 e s q) (st : Stat m0 p.1 p.2 s.model)
    (hc : Counted m0 past mem) (hle : ∀ t ∈ ts, LegalEvent cfg m0 t.event) (h : runWith reset cfg ts s mem = some (s', mem')) :
    Counted m0 (past ++ moves m0 q.1 (ts.map Tick.event)) mem' ∧
      Stat m0 ((ts.map Tick.event).foldl force p).1 ((ts.map Tick.event).foldl force p).2 s'.model := by
  induction ts generalizing s mem q past p with
  | nil =>
    simp only [runWith, Option.some.injEq, Prod.mk.injEq] at h
    obtain ⟨rfl, rfl⟩ := h
    simpa [moves] using And.intro hc st
  | cons t ts ih =>
    obtain ⟨s1, h1, h2⟩ := Option.bind_eq_some_iff.1 h
    have hl := hle t (by simp)
    obtain ⟨i1, -⟩ := C66.step_inv hs he s s1 q hi t.event hl h1
    have st1 := step_stat hs s s1 q hi p st t.event h1
    have hle' : ∀ t' ∈ ts, LegalEvent cfg m0 t'.event := fun t' ht => hle t' (by simp [ht])
    cases hev : t.event with
    | move mv ren =>
      rw [hev] at hl i1 st1
      obtain ⟨k1, k2⟩ := ih s1 _ _ _ _ i1 st1 (remember_move hs he reset s q hi t mv ren hev hl past mem hc) hle' h2
      simp only [List.map_cons, hev, List.foldl_cons]
      refine ⟨?_, k2⟩
      rw [List.append_assoc] at k1
      exact k1
    | start d =>
      rw [hev] at i1 st1
      have hm : Counted m0 past (remember reset s t mem) := by
        unfold remember; rw [hev]; exact ⟨hc.updates, hc.total, hc.violations, hc.others⟩
      obtain ⟨k1, k2⟩ := ih s1 _ _ _ _ i1 st1 hm hle' h2
      simp only [List.map_cons, hev, List.foldl_cons]
      exact ⟨k1, k2⟩
    | relax low =>
      rw [hev] at i1 st1
      have hm : Counted m0 past (remember reset s t mem) := by unfold remember; rw [hev]; exact hc
      obtain ⟨k1, k2⟩ := ih s1 _ _ _ _ i1 st1 hm hle' h2
      simp only [List.map_cons, hev, List.foldl_cons]
      exact ⟨k1, k2⟩
    | penalties l' g' =>
      rw [hev] at i1 st1
      have hm : Counted m0 past (remember reset s t mem) := by unfold remember; rw [hev]; exact hc
      obtain ⟨k1, k2⟩ := ih s1 _ _ _ _ i1 st1 hm hle' h2
      simp only [List.map_cons, hev, List.foldl_cons]
      exact ⟨k1, k2⟩

theorem inForce_eq (m : MState) (es : List Event) :
    inForce m es = es.foldl force (fun c => (m.con c).penLess, fun c => (m.con c).penGreater) := by
  unfold inForce
  congr 1

/-! ## The properties -/

/-- After every call: a variable's update count is the number of accepted moves that altered it; the violation count of an
enabled constraint is the number of accepted moves after which it was violated; a disabled constraint is never counted; the total is
the number of all alterations. -/
theorem counts_are_right {m0 : MState} {cfg : Cfg} (hs : Setting cfg m0) (reset : ℤ) (gl : ℕ → ℤ) (ts : List Tick)
    (hle : ∀ t ∈ ts, LegalEvent cfg m0 t.event) (s : St) (mem : Mem) (h : call reset gl cfg m0 ts = some (s, mem)) :
    (∀ v, mem.updateCount v = timesAltered m0 (ts.map Tick.event) v) ∧
    (∀ c ∈ m0.conIds, (m0.con c).enabled = true → mem.violationCount c = timesViolated m0 (ts.map Tick.event) c) ∧
    (∀ c, (c ∉ m0.conIds ∨ (m0.con c).enabled = false) → mem.violationCount c = 0) ∧
    mem.total = ((moves m0 (assignment m0) (ts.map Tick.event)).map fun p => p.1.length).sum := by
  have he : Err m0 (m0.conIds.length * (1e-10 : ℚ)) := Or.inl rfl
  obtain ⟨i1, -⟩ := C66.begin_inv (e := m0.conIds.length * (1e-10 : ℚ)) hs
  have h0 : Counted m0 [] (Memory.setup reset gl) :=
    ⟨fun _ => rfl, rfl, fun _ _ _ => rfl, fun _ _ => rfl⟩
  obtain ⟨k1, -⟩ := run_counts hs he reset ts _ s _ mem _ [] (fun c => (m0.con c).penLess, fun c => (m0.con c).penGreater) i1
    (C66.stat_refl m0).update h0 hle h
  exact ⟨k1.updates, k1.violations, k1.others, k1.total⟩

theorem get_put {β : Type} (m : Assoc String β) (k k' : String) (x : β) :
    (m.put k x).get k' = if k = k' then some x else m.get k' := by
  induction m with
  | nil => simp [Assoc.put, Assoc.get]
  | cons e m ih =>
    unfold Assoc.put
    by_cases h : e.1 = k
    · rw [if_pos h]
      unfold Assoc.get
      dsimp only
      rw [h]
      by_cases hk : k = k' <;> simp [hk]
    · rw [if_neg h]
      simp only [Assoc.get, ih]
      by_cases hk : e.1 = k'
      · simp only [hk, if_true]
        rw [if_neg (fun hh => h (hk.trans hh.symm))]
      · simp only [hk, if_false]

theorem byName_get {β : Type} (es : List (String × β)) (hn : (es.map Prod.fst).Nodup) (m : Assoc String β) (k : String) :
    (∀ x, (k, x) ∈ es → (byName es m).get k = some x) ∧ (k ∉ es.map Prod.fst → (byName es m).get k = m.get k) := by
  induction es generalizing m with
  | nil => exact ⟨fun x hx => absurd hx (by simp), fun _ => rfl⟩
  | cons e es ih =>
    simp only [List.map_cons, List.nodup_cons] at hn
    obtain ⟨i1, i2⟩ := ih hn.2 (m.put e.1 e.2)
    unfold byName
    refine ⟨fun x hx => ?_, fun hk => ?_⟩
    · rcases List.mem_cons.1 hx with rfl | hx
      · rw [i2 hn.1, get_put, if_pos rfl]
      · exact i1 x hx
    · simp only [List.map_cons, List.mem_cons, not_or] at hk
      rw [i2 hk.2, get_put, if_neg (fun hh => hk.1 hh.symm)]

/-- Under the name of every array (the names being different) the exports give, element by element, the number of accepted
moves that altered the variable. -/
theorem update_counts_by_name {m0 : MState} {cfg : Cfg} (hs : Setting cfg m0) (reset : ℤ) (gl : ℕ → ℤ) (ts : List Tick)
    (hle : ∀ t ∈ ts, LegalEvent cfg m0 t.event) (s : St) (mem : Mem) (h : call reset gl cfg m0 ts = some (s, mem))
    (arrays : List (String × List ℕ)) (hn : (arrays.map Prod.fst).Nodup) (name : String) (vs : List ℕ)
    (ha : (name, vs) ∈ arrays) :
    (namedUpdateCounts arrays mem).get name = some (vs.map (timesAltered m0 (ts.map Tick.event))) := by
  obtain ⟨h1, -, -, -⟩ := counts_are_right hs reset gl ts hle s mem h
  have := (byName_get (arrays.map fun a => (a.1, a.2.map mem.updateCount)) (by rw [List.map_map]; exact hn) [] name).1
    (vs.map mem.updateCount) (List.mem_map.2 ⟨_, ha, rfl⟩)
  refine Eq.trans this ?_
  congr 1
  exact List.map_congr_left fun v _ => h1 v

/-- The same for constraints: the number of accepted moves after which the constraint was violated; 0 for the disabled ones. -/
theorem violation_counts_by_name {m0 : MState} {cfg : Cfg} (hs : Setting cfg m0) (reset : ℤ) (gl : ℕ → ℤ) (ts : List Tick)
    (hle : ∀ t ∈ ts, LegalEvent cfg m0 t.event) (s : St) (mem : Mem) (h : call reset gl cfg m0 ts = some (s, mem))
    (arrays : List (String × List ℕ)) (hn : (arrays.map Prod.fst).Nodup) (name : String) (cs : List ℕ)
    (ha : (name, cs) ∈ arrays) (hcs : ∀ c ∈ cs, c ∈ m0.conIds) :
    (namedViolationCounts arrays mem).get name =
      some (cs.map fun c => if (m0.con c).enabled then timesViolated m0 (ts.map Tick.event) c else 0) := by
  obtain ⟨-, h2, h3, -⟩ := counts_are_right hs reset gl ts hle s mem h
  have := (byName_get (arrays.map fun a => (a.1, a.2.map mem.violationCount)) (by rw [List.map_map]; exact hn) [] name).1
    (cs.map mem.violationCount) (List.mem_map.2 ⟨_, ha, rfl⟩)
  refine Eq.trans this ?_
  congr 1
  refine List.map_congr_left fun c hc => ?_
  cases hen : (m0.con c).enabled
  · rw [h3 c (Or.inr hen)]; simp
  · rw [h2 c (hcs c hc) hen]; simp

/-- The penalty coefficients exported under the name of an array are the larger one of the two in force at the end of the
call, for every element. -/
theorem penalties_by_name {m0 : MState} {cfg : Cfg} (hs : Setting cfg m0) (reset : ℤ) (gl : ℕ → ℤ) (ts : List Tick)
    (hle : ∀ t ∈ ts, LegalEvent cfg m0 t.event) (s : St) (mem : Mem) (h : call reset gl cfg m0 ts = some (s, mem))
    (arrays : List (String × List ℕ)) (hn : (arrays.map Prod.fst).Nodup) (name : String) (cs : List ℕ)
    (ha : (name, cs) ∈ arrays) :
    (namedPenalties arrays s.model).get name =
      some (cs.map fun c => max ((inForce m0 (ts.map Tick.event)).1 c) ((inForce m0 (ts.map Tick.event)).2 c)) := by
  have he : Err m0 (m0.conIds.length * (1e-10 : ℚ)) := Or.inl rfl
  obtain ⟨i1, -⟩ := C66.begin_inv (e := m0.conIds.length * (1e-10 : ℚ)) hs
  have h0 : Counted m0 [] (Memory.setup reset gl) :=
    ⟨fun _ => rfl, rfl, fun _ _ _ => rfl, fun _ _ => rfl⟩
  obtain ⟨-, k2⟩ := run_counts hs he reset ts _ s _ mem _ [] (fun c => (m0.con c).penLess, fun c => (m0.con c).penGreater) i1
    (C66.stat_refl m0).update h0 hle h
  rw [← inForce_eq] at k2
  have := (byName_get (arrays.map fun a => (a.1, a.2.map fun c => max (s.model.con c).penLess (s.model.con c).penGreater))
    (by rw [List.map_map]; exact hn) [] name).1
    (cs.map fun c => max (s.model.con c).penLess (s.model.con c).penGreater) (List.mem_map.2 ⟨_, ha, rfl⟩)
  refine Eq.trans this ?_
  congr 1
  refine List.map_congr_left fun c _ => ?_
  rw [k2.shape.penLess, k2.shape.penGreater]; rfl

/-- Finding: of two arrays with the same name only the last one is exported. -/
theorem equal_names_hide_counts (mem : Mem) (name : String) (vs ws : List ℕ) :
    (namedUpdateCounts [(name, vs), (name, ws)] mem).get name = some (ws.map mem.updateCount) := by
  show (byName [(name, vs.map mem.updateCount), (name, ws.map mem.updateCount)] []).get name = _
  unfold byName byName byName
  rw [get_put, if_pos rfl]

/-! ## An example -/

private def m0 : MState := MState.setupSens { Example.raw with
  var := fun _ => { Example.int5 with value := 3 }.updateMargin
  varIds := [0]
  conIds := [0]
  con := fun _ => { Con.setup ⟨[(0, 1)], -1, 0⟩ .less (fun _ => .integer) with penLess := 10000000, penGreater := 10000000 }
  uexprIds := []
  dependents := []
  globalPen := 10000000
  isMin := true
  objDefined := true
  obj := ⟨[(0, -20000000)], 0, 0⟩ }
private def cfg : Cfg := { fast := true, sels := [], selRel := fun _ => [] }
private def goTo (x : ℤ) : Move := { alterations := [(0, x)], related := [0], isUnivariable := true }
private def ts : List Tick := [
  ⟨.start ⟨fun _ => 3, 0, 0, 0, false⟩, 0, fun _ => 0⟩,
  ⟨.move (goTo 2) false, 0, fun _ => 0⟩,
  ⟨.move (goTo 1) false, 1, fun _ => 0⟩,
  ⟨.penalties (fun _ => 3) (fun _ => 4), 1, fun _ => 0⟩,
  ⟨.move (goTo 5) false, 0, fun _ => 0⟩]

private theorem m0_wf : WellFormed m0 where
  conIds := by decide
  con c hc := show ((([(0, (1 : ℚ))] : List (ℕ × ℚ)).map Prod.fst).Nodup) by decide
  obj := by decide
  uexpr i hi := absurd hi (by simp [m0, MState.setupSens])

private theorem setting : Setting cfg m0 where
  wf := m0_wf
  ready := ⟨by decide, by decide, by decide, by decide, by decide, by decide, by decide⟩
  unit := by decide
  kinds := by decide
  start := by decide
  sens v := C07.setupSens_ok _ ⟨m0_wf.conIds, m0_wf.con, m0_wf.obj, m0_wf.uexpr⟩ v
  maxLe := by decide +kernel
  maxEq := by decide +kernel
  onlyBin := by decide +kernel
  noDep := ⟨by decide, by decide +kernel, by decide +kernel⟩
  pen c := show (0 : ℚ) ≤ 10000000 ∧ (0 : ℚ) ≤ 10000000 by norm_num

private theorem legal : ∀ t ∈ ts, LegalEvent cfg m0 t.event := by
  have cov : ∀ alts, Covers m0 alts [0] := fun alts =>
    ⟨List.Nodup.filter _ (by decide), by decide, fun c hc _ _ => by
      have : c ∈ [0] := hc
      exact this⟩
  have key : ∀ x : ℤ, 0 ≤ x → x ≤ 5 → C66.Legal cfg m0 (goTo x) := fun x h1 h2 =>
    ⟨by simp [goTo], fun a ha => by
      obtain rfl : a = (0, x) := by simpa [goTo] using ha
      have hx : (0 : ℕ) ∈ m0.varIds ∧ (0 : ℕ) ∉ m0.dependents.map Prod.fst ∧ (m0.var 0).fixed = false := by decide
      exact ⟨hx.1, hx.2.1, hx.2.2, ⟨h1, h2⟩⟩,
      cov _, fun _ => ⟨0, x, rfl⟩, fun h => absurd h (by simp [goTo])⟩
  intro t ht
  simp only [ts, List.mem_cons, List.not_mem_nil, or_false] at ht
  rcases ht with rfl | rfl | rfl | rfl | rfl
  · trivial
  · exact key 2 (by decide) (by decide)
  · exact key 1 (by decide) (by decide)
  · intro c; norm_num
  · exact key 5 (by decide) (by decide)

/-- The hypotheses of the theorems above are met; the call makes three moves, two of them to a violation of the constraint `x ≤ 1`. -/
example : Setting cfg m0 ∧ (∀ t ∈ ts, LegalEvent cfg m0 t.event) ∧
    timesAltered m0 (ts.map Tick.event) 0 = 3 ∧ timesViolated m0 (ts.map Tick.event) 0 = 2 ∧
    (inForce m0 (ts.map Tick.event)).2 0 = 4 ∧
    ((call (-10) (fun _ => 0) cfg m0 ts).map fun r =>
      ((namedUpdateCounts [("x", [0])] r.2).get "x", (namedViolationCounts [("g", [0])] r.2).get "g",
        (namedPenalties [("g", [0])] r.1.model).get "g")) = some (some [3], some [2], some [4]) :=
  ⟨setting, legal, by decide +kernel, by decide +kernel, by decide +kernel, by decide +kernel⟩

end Printemps.C98
