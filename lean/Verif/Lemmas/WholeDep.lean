import Verif.Lemmas.DependentFlags
import Verif.Lemmas.SetupDependents
import Verif.Spec.WholeDep

/-! Helper lemmas: further facts kept by the rounds of dependent variables, needed for a whole call. -/

namespace Printemps.Setup
open Spec Expr Presolve Dependent Whole

/-- All numbers of the expression are integers. -/
def IntAll (e : Expr) : Prop := IntE e ∧ IsInt e.const

theorem intAll_substitute (e f : Expr) (v : ℕ) (he : IntAll e) (hf : IntAll f) : IntAll (e.substitute v f) :=
  ⟨intE_substitute e f v he.1 hf.1, isInt_add he.2 (isInt_mul hf.2 (isInt_lookup _ he.1 v))⟩

theorem intAll_solve (e f : Expr) (v : ℕ) (he : IntAll e) (hs : e.solve v = some f)
    (ha : lookup e.terms v = 1 ∨ lookup e.terms v = -1) : IntAll f := by
  refine ⟨intE_solve e f v he.1 hs ha, ?_⟩
  unfold Expr.solve at hs
  split at hs
  · simp only [Option.some.injEq] at hs
    rw [← hs]
    refine isInt_mul he.2 ?_
    rcases ha with h | h
    · exact ⟨-1, by rw [h]; norm_num⟩
    · exact ⟨1, by rw [h]; norm_num⟩
  · exact absurd hs (by simp)

/-- What stays true in all rounds besides `Base`. -/
structure Extra (m : MState) : Prop where
  con : ∀ c ∈ m.conIds, IntAll (m.con c).expr
  def' : ∀ d ∈ m.dependents, IntAll (m.uexpr d.2).expr
  varOK : ∀ v ∈ m.varIds, ¬ IsDependent m v → VarOK (m.var v)
  ne : ∀ v ∈ m.varIds, ¬ IsDependent m v → (m.var v).fixed = false → (m.var v).lb ≠ (m.var v).ub

theorem Extra.structured {m : MState} (h : Extra m) : Extra (Setup.structured m) := ⟨h.con, h.def', h.varOK, h.ne⟩

/-- The variables of `m'` that are not dependent have at most the values they had in `m`; variables that have become
dependent were not fixed. -/
structure Narrow (m m' : MState) : Prop where
  admits : ∀ v, ¬ IsDependent m' v → ∀ x, Admits (m'.var v) x → Admits (m.var v) x
  more : ∀ v, IsDependent m v → IsDependent m' v
  unfixed : ∀ v, IsDependent m' v → IsDependent m v ∨ (m.var v).fixed = false
  fixed : ∀ v, (m.var v).fixed = true → (m'.var v).fixed = true

theorem Narrow.refl (m : MState) : Narrow m m := ⟨fun _ _ _ h => h, fun _ h => h, fun _ h => Or.inl h, fun _ h => h⟩

/-! ### Extraction -/

theorem extract_int (senseOf : ℕ → VarSense) (key : ℕ → ℕ) (cs : List ℕ) (nextC nextE : ℕ) (m m' : MState)
    (hb : Base m) (he : Extra m) (h : Candidates m key cs)
    (hu : ∀ c ∈ cs, lookup (m.con c).expr.terms (key c) = 1 ∨ lookup (m.con c).expr.terms (key c) = -1)
    (hC : ∀ c ∈ m.conIds, c < nextC) (hE : ∀ i ∈ m.uexprIds, i < nextE)
    (hx : extract senseOf key cs nextC nextE m = some m') :
    (∀ c ∈ m'.conIds, IntAll (m'.con c).expr) ∧ ∀ d ∈ m'.dependents, IntAll (m'.uexpr d.2).expr := by
  obtain ⟨f1, f2, f3, _, f5, f6, _⟩ := extract_fields senseOf key cs nextC nextE m m' hx
  obtain ⟨p1, p2, p3, p4, ⟨n, p5', p5n⟩, p6⟩ := extract_parts senseOf key cs nextC nextE m m' hx
  have hsub := chosen_sub m key cs
  have hmem : ∀ c ∈ chosen m key cs, c ∈ m.conIds := fun c hc => h.mem c (hsub c hc).1
  have sint : ∀ c ∈ chosen m key cs, IntAll (solved m key c) := fun c hc =>
    intAll_solve _ _ _ (he.con c (hmem c hc)) (solved_spec h hb.wfC c (hsub c hc).1) (hu c (hsub c hc).1)
  constructor
  · intro c hc
    rw [p5'] at hc
    rcases List.mem_append.1 hc with hc | hc
    · rw [p4 c (hC c hc)]
      split
      · exact he.con c hc
      · exact he.con c hc
    · obtain ⟨k, hk, rfl⟩ := List.mem_map.1 hc
      obtain ⟨i, hi, b, e⟩ := p5n k (List.mem_range.1 hk)
      rw [e]
      refine ⟨(sint i hi).1, ?_⟩
      obtain ⟨a, ha⟩ := (sint i hi).2
      refine ⟨a - b, ?_⟩
      show (solved m key i).const - (b : ℚ) = _
      rw [ha]; push_cast; ring
  · intro d hd
    rw [f1] at hd
    rcases List.mem_append.1 hd with hd | hd
    · rw [p6 _ (hE _ (hb.ids d hd))]; exact he.def' d hd
    · obtain ⟨k, hk, rfl⟩ := List.mem_map.1 hd
      have hk := List.mem_range.1 hk
      dsimp only
      rw [f5 k hk]
      exact sint _ (List.getElem_mem hk)

/-! ### Elimination -/

theorem eliminate_int (m : MState) (ds : List (ℕ × ℕ)) (hds : ∀ d ∈ ds, d ∈ m.dependents)
    (h1 : ∀ c ∈ m.conIds, IntAll (m.con c).expr) (h2 : ∀ d ∈ m.dependents, IntAll (m.uexpr d.2).expr) :
    (∀ c ∈ m.conIds, IntAll ((eliminate ds m).1.con c).expr) ∧
      ∀ d ∈ m.dependents, IntAll ((eliminate ds m).1.uexpr d.2).expr := by
  have hS : ∀ d ∈ ds, (fun i => ∃ d ∈ m.dependents, d.2 = i) d.2 := fun d hd => ⟨d, hds d hd, rfl⟩
  constructor
  · intro c hc
    exact elimCons_pred IntAll m _ ds (fun d hd e he => intAll_substitute _ _ _ he (h2 d (hds d hd))) (m.con, 0) c (h1 c hc)
  · intro d hd
    refine elimExprs_pred IntAll (fun e f v => intAll_substitute e f v) (fun i => ∃ d ∈ m.dependents, d.2 = i) m.uexprIds
      ds (m.uexpr, 0) hS ?_ d.2 ⟨d, hd, rfl⟩
    rintro i ⟨d', hd', rfl⟩
    exact h2 d' hd'

theorem eliminateLoop_int (ds : List (ℕ × ℕ)) (fuel : ℕ) : ∀ m m' : MState, (∀ d ∈ ds, d ∈ m.dependents) →
    (∀ c ∈ m.conIds, IntAll (m.con c).expr) → (∀ d ∈ m.dependents, IntAll (m.uexpr d.2).expr) →
    eliminateLoop ds fuel m = some m' →
    (∀ c ∈ m'.conIds, IntAll (m'.con c).expr) ∧ (∀ d ∈ m'.dependents, IntAll (m'.uexpr d.2).expr) ∧
      m'.dependents = m.dependents ∧ m'.var = m.var ∧ m'.varIds = m.varIds := by
  induction fuel with
  | zero => intro m m' _ _ _ h; exact absurd h (by simp [eliminateLoop])
  | succ fuel ih =>
    intro m m' hds h1 h2 h
    rw [eliminateLoop] at h
    obtain ⟨k1, k2⟩ := eliminate_int m ds hds h1 h2
    split at h
    · simp only [Option.some.injEq] at h
      subst h
      exact ⟨k1, k2, rfl, rfl, rfl⟩
    · exact ih (eliminate ds m).1 m' hds k1 k2 h

/-! ### Reduction -/

theorem varOK_closed (A : ℕ → Prop) : Closed (fun i v => A i → VarOK v) where
  fix _ _ _ h := fun hA => h hA
  bound _ _ _ _ _ _ _ _ _ _ _ h := fun _ => (setBound_varOK h).1

theorem reduce_extra (m m' : MState) (hb : Base m) (hfr : FreeRest m) (ho : Open m) (σ₀ : ℕ → ℤ)
    (h0 : FeasibleDep m σ₀) (hcon : ∀ c ∈ m.conIds, IntAll (m.con c).expr)
    (hdef : ∀ d ∈ m.dependents, IntAll (m.uexpr d.2).expr)
    (hv : ∀ v ∈ m.varIds, ¬ IsDependent m v → VarOK (m.var v))
    (h : reduceProblemSize m = some (.ok m')) : Extra m' ∧ Narrow m m' := by
  unfold reduceProblemSize at h
  rw [removeIndependent_id m m.varIds hb.used] at h
  dsimp only at h
  obtain ⟨x, hx⟩ : ∃ x : ℕ → ℤ, ∀ v, IsDependent m v → Admits (m.var v) (x v) := by
    classical
    refine ⟨fun v => if hv : IsDependent m v then (ho v hv).choose else 0, fun v hv => ?_⟩
    dsimp only
    rw [dif_pos hv]
    exact (ho v hv).choose_spec
  have hp := (patch_feasible m x σ₀ hx hfr).2 ⟨h0.bounds, h0.cons⟩
  have hid : IntData m := fun c hc => ⟨hb.wfC c hc, hb.intC c hc⟩
  have sh := reduceLoop_shrunk (varOK_closed fun v => v ∈ m.varIds ∧ ¬ IsDependent m v) _ m m' h
  obtain ⟨e1, e2, e3, e4, e5⟩ := reduceLoop_exact_zero _ m m' hid hb.small ⟨_, hp⟩ h
  have fr := sh.frame
  have g1 : m'.varIds = m.varIds := by rw [fr]
  have g2 : m'.dependents = m.dependents := by rw [fr]
  have g3 : m'.uexpr = m.uexpr := by rw [fr]
  have hdep : ∀ v, IsDependent m' v ↔ IsDependent m v := fun v => by unfold IsDependent; rw [g2]
  refine ⟨⟨fun c hc => ?_, ?_, fun v hvm hvd => ?_, fun v hvm hvd => ?_⟩, fun v _ y hy => ?_, fun v hd => (hdep v).2 hd,
    fun v hd => Or.inl ((hdep v).1 hd), e4⟩
  · obtain ⟨e, he⟩ := e1 c
    rw [he]
    exact hcon c (by rw [← sh.conIds]; exact hc)
  · rw [g2, g3]; exact hdef
  · exact sh.vars (fun v hA => hv v hA.1 hA.2) v ⟨by rw [← g1]; exact hvm, fun k => hvd ((hdep v).2 k)⟩
  · exact e5 v (by rw [← g1]; exact hvm)
  · have := e3 (Function.update (patch m x σ₀) v y) (fun w => by
      by_cases hw : w = v
      · subst hw; rw [Function.update_self]; exact hy
      · rw [Function.update_of_ne hw]; exact ((e2 _).1 hp).1 w) v
    rw [Function.update_self] at this
    exact this

/-! ### The loop -/

theorem dependentLoop_extra (o : Options) (lt : ℕ → ℕ → Bool) (fuel : ℕ) : ∀ m m' : MState, Between m →
    (∃ σ, FeasibleDep m σ) → AcyclicRounds o lt fuel m → Extra m → dependentLoop o lt fuel m = some (.ok m') →
    Extra m' ∧ Narrow m m' := by
  induction fuel with
  | zero => intro m m' _ _ _ _ h; exact absurd h (by simp [dependentLoop])
  | succ fuel ih =>
    intro m m' hb hf ha hex h
    rw [AcyclicRounds] at ha
    obtain ⟨ha1, ha2⟩ := ha
    rcases dependentLoop_succ o lt fuel m hb ha1 with ⟨_, e⟩ | ⟨m1, m2, hx, hn, h2, e⟩
    · rw [e] at h
      simp only [Option.some.injEq, Outcome.ok.injEq] at h
      subst h
      exact ⟨hex, Narrow.refl _⟩
    · obtain ⟨m1', m2', hx', h2', r1, r2, r3, r4, r5, r6, r7, r8, _⟩ := round_spec o lt m hb ha1
      rw [hx] at hx'
      simp only [Option.some.injEq] at hx'
      subst hx'
      rw [h2] at h2'
      simp only [Option.some.injEq] at h2'
      subst h2'
      rw [e] at h
      obtain ⟨m3, h3, h⟩ := andThen_ok h
      obtain ⟨σ₀, hσ₀⟩ := hf
      have hop := (r5 σ₀ hσ₀).2
      have h0 : FeasibleDep (Setup.structured m2) σ₀ := (structured_feasible m2 σ₀).2 ((r4 σ₀).2 hσ₀)
      obtain ⟨s1, s2, s3, s4, s5, s6, s7, s8, s9, s10⟩ := reduce_base (Setup.structured m2) m3 r1.structured r2 r3
        hop σ₀ h0 h3
      have hbet : Between (Setup.structured m3) := Between.structured ⟨s1, s2, s3, s4⟩
      have hall : ∀ σ, FeasibleDep (Setup.structured m3) σ ↔ FeasibleDep m σ := fun σ =>
        (structured_feasible m3 σ).trans ((s5 σ).trans ((structured_feasible m2 σ).trans (r4 σ)))
      -- the round
      have hcand := candidates_of o lt m hb
      obtain ⟨i1, i2⟩ := extract_int _ _ _ _ _ m m1 hb.base hex hcand
        (fun c hc => (candidate_key o lt m hb.base.wfC c hc).2.2.1) (lt_fresh m.conIds) (lt_fresh m.uexprIds) hx
      obtain ⟨f1, _⟩ := extract_fields _ _ _ _ _ m m1 hx
      obtain ⟨p1, _, p3, _⟩ := extract_parts _ _ _ _ _ m m1 hx
      have hds : ∀ d ∈ eliminationOrder m1, d ∈ m1.dependents := by
        intro d hd
        unfold eliminationOrder at hd
        rw [List.mem_append, List.mem_filter, List.mem_filter] at hd
        rcases hd with k | k <;> exact k.1
      obtain ⟨j1, j2, j3, j4, j5⟩ := eliminateLoop_int _ 4 m1 m2 hds i1 i2 h2
      have hkeys : ∀ v, v ∈ (chosen m (keyOf lt m) (dependentCandidates o lt m)).map (keyOf lt m) → IsDependent m2 v := by
        intro v hv
        obtain ⟨c, hc, rfl⟩ := List.mem_map.1 hv
        obtain ⟨k, hk, e⟩ := List.getElem_of_mem hc
        refine ⟨(keyOf lt m c, fresh m.uexprIds + k), ?_, rfl⟩
        rw [j3, f1]
        refine List.mem_append_right _ (List.mem_map.2 ⟨k, List.mem_range.2 hk, ?_⟩)
        rw [chosen_keys m _ _ k hk, e]
      have hold : ∀ v, IsDependent m v → IsDependent m2 v := by
        rintro v ⟨d, hd, e⟩
        exact ⟨d, by rw [j3, f1]; exact List.mem_append_left _ hd, e⟩
      have hnew : ∀ v, IsDependent m2 v → IsDependent m v ∨
          ∃ c ∈ chosen m (keyOf lt m) (dependentCandidates o lt m), keyOf lt m c = v := by
        rintro v ⟨d, hd, e⟩
        rw [j3, f1] at hd
        rcases List.mem_append.1 hd with hd | hd
        · exact Or.inl ⟨d, hd, e⟩
        · obtain ⟨k, hk, rfl⟩ := List.mem_map.1 hd
          have hk := List.mem_range.1 hk
          dsimp only at e
          rw [chosen_keys m _ _ k hk] at e
          exact Or.inr ⟨_, List.getElem_mem hk, e⟩
      have hvar : ∀ v, ¬ IsDependent m2 v → m2.var v = m.var v := by
        intro v hv
        rw [j4, p3, if_neg (fun k => hv (hkeys v k))]
      obtain ⟨x1, x2⟩ := reduce_extra (Setup.structured m2) m3 r1.structured r3 hop σ₀ h0 j1 j2
        (fun v hvm hvd => by
          have hvd : ¬ IsDependent m2 v := hvd
          show VarOK (m2.var v)
          rw [hvar v hvd]
          exact hex.varOK v (by rw [← r8]; exact hvm) (fun k => hvd (hold v k))) h3
      obtain ⟨t1, t2⟩ := ih (Setup.structured m3) m' hbet ⟨σ₀, (hall σ₀).2 hσ₀⟩ (ha2 m1 m2 m3 hx hn h2 h3) x1.structured h
      have d23 : ∀ v, IsDependent (Setup.structured m3) v ↔ IsDependent m2 v := fun v => by
        show (∃ d ∈ m3.dependents, _) ↔ _
        rw [s8]; exact Iff.rfl
      have hfirst : ∀ v, ¬ IsDependent m2 v → ∀ x, Admits (m3.var v) x → Admits (m.var v) x := by
        intro v hv x hx
        have := x2.admits v (fun k => hv ((d23 v).1 k)) x hx
        have this : Admits (m2.var v) x := this
        rw [hvar v hv] at this
        exact this
      have hfix2 : ∀ v, (m2.var v).fixed = (m.var v).fixed := fun v => by
        rw [j4, p3]
        split <;> rfl
      have hfix : ∀ v, (m.var v).fixed = true → (m3.var v).fixed = true := fun v hv =>
        x2.fixed v (by show (m2.var v).fixed = true; rw [hfix2]; exact hv)
      refine ⟨t1, fun v hv x hx => ?_, fun v hv => ?_, fun v hv => ?_, fun v hv => t2.fixed v (hfix v hv)⟩
      · exact hfirst v (fun k => hv (t2.more v ((d23 v).2 k))) x (t2.admits v hv x hx)
      · exact t2.more v ((d23 v).2 (hold v hv))
      · rcases t2.unfixed v hv with k | k
        · rcases hnew v ((d23 v).1 k) with k | ⟨c, hc, rfl⟩
          · exact Or.inl k
          · exact Or.inr (hcand.unfixed c (chosen_sub m _ _ c hc).1)
        · right
          by_contra hfx
          have := hfix v (by simpa using hfx)
          have k : (m3.var v).fixed = false := k
          rw [this] at k
          exact absurd k (by simp)

/-! ### Variables of the objective -/

theorem elimObj_pred (P : Expr → Prop) (m : MState) (ds : List (ℕ × ℕ))
    (hP : ∀ d ∈ ds, ∀ e, P e → P (e.substitute d.1 (m.uexpr d.2).expr)) : ∀ s : Expr × ℕ, P s.1 → P (elimObj m ds s).1 := by
  induction ds with
  | nil => intro s h; exact h
  | cons d ds ih =>
    intro s h
    unfold elimObj
    refine ih (fun d' hd' => hP d' (List.mem_cons_of_mem _ hd')) _ ?_
    split
    · exact hP d (by simp) _ h
    · exact h

theorem eliminateLoop_obj (V : ℕ → Prop) (ds : List (ℕ × ℕ)) (fuel : ℕ) : ∀ m m' : MState, (∀ d ∈ ds, d ∈ m.dependents) →
    (∀ v ∈ m.obj.vars, V v) → (∀ d ∈ m.dependents, ∀ v ∈ (m.uexpr d.2).expr.vars, V v) →
    eliminateLoop ds fuel m = some m' → ∀ v ∈ m'.obj.vars, V v := by
  have hsub : ∀ (e f : Expr) (v : ℕ), (∀ w ∈ e.vars, V w) → (∀ w ∈ f.vars, V w) → ∀ w ∈ (e.substitute v f).vars, V w := by
    intro e f v h1 h2 w hw
    rcases ((substitute_vars _ _ _ _).1 hw).2 with k | k
    · exact h1 w k
    · exact h2 w k
  induction fuel with
  | zero => intro m m' _ _ _ h; exact absurd h (by simp [eliminateLoop])
  | succ fuel ih =>
    intro m m' hds h1 h2 h
    rw [eliminateLoop] at h
    have k1 : ∀ v ∈ (eliminate ds m).1.obj.vars, V v :=
      elimObj_pred (fun e => ∀ v ∈ e.vars, V v) m ds (fun d hd e he => hsub _ _ _ he (h2 d (hds d hd))) (m.obj, 0) h1
    have k2 : ∀ d ∈ m.dependents, ∀ v ∈ ((eliminate ds m).1.uexpr d.2).expr.vars, V v := by
      intro d hd
      refine elimExprs_pred (fun e => ∀ v ∈ e.vars, V v) (fun e f v => hsub e f v) (fun i => ∃ d ∈ m.dependents, d.2 = i)
        m.uexprIds ds (m.uexpr, 0) (fun d hd => ⟨d, hds d hd, rfl⟩) ?_ d.2 ⟨d, hd, rfl⟩
      rintro i ⟨d', hd', rfl⟩
      exact h2 d' hd'
    split at h
    · simp only [Option.some.injEq] at h
      subst h
      exact k1
    · exact ih (eliminate ds m).1 m' hds k1 k2 h

theorem dependentLoop_obj (o : Options) (lt : ℕ → ℕ → Bool) (fuel : ℕ) : ∀ m m' : MState, Between m →
    (∃ σ, FeasibleDep m σ) → AcyclicRounds o lt fuel m → (∀ v ∈ m.obj.vars, v ∈ m.varIds) →
    dependentLoop o lt fuel m = some (.ok m') → ∀ v ∈ m'.obj.vars, v ∈ m'.varIds := by
  induction fuel with
  | zero => intro m m' _ _ _ _ h; exact absurd h (by simp [dependentLoop])
  | succ fuel ih =>
    intro m m' hb hf ha hex h
    rw [AcyclicRounds] at ha
    obtain ⟨ha1, ha2⟩ := ha
    rcases dependentLoop_succ o lt fuel m hb ha1 with ⟨_, e⟩ | ⟨m1, m2, hx, hn, h2, e⟩
    · rw [e] at h
      simp only [Option.some.injEq, Outcome.ok.injEq] at h
      subst h
      exact hex
    · obtain ⟨m1', m2', hx', h2', r1, r2, r3, r4, r5, r6, r7, r8, _⟩ := round_spec o lt m hb ha1
      rw [hx] at hx'
      simp only [Option.some.injEq] at hx'
      subst hx'
      rw [h2] at h2'
      simp only [Option.some.injEq] at h2'
      subst h2'
      rw [e] at h
      obtain ⟨m3, h3, h⟩ := andThen_ok h
      obtain ⟨σ₀, hσ₀⟩ := hf
      have hop := (r5 σ₀ hσ₀).2
      have h0 : FeasibleDep (Setup.structured m2) σ₀ := (structured_feasible m2 σ₀).2 ((r4 σ₀).2 hσ₀)
      obtain ⟨s1, s2, s3, s4, s5, s6, s7, s8, s9, s10⟩ := reduce_base (Setup.structured m2) m3 r1.structured r2 r3
        hop σ₀ h0 h3
      have hbet : Between (Setup.structured m3) := Between.structured ⟨s1, s2, s3, s4⟩
      have hall : ∀ σ, FeasibleDep (Setup.structured m3) σ ↔ FeasibleDep m σ := fun σ =>
        (structured_feasible m3 σ).trans ((s5 σ).trans ((structured_feasible m2 σ).trans (r4 σ)))
      have hcand := candidates_of o lt m hb
      obtain ⟨b1, _⟩ := extract_base _ _ _ _ _ m m1 hb.base hb.exprs hcand
        (fun c hc => (candidate_key o lt m hb.base.wfC c hc).2.2.1) (lt_fresh m.conIds) (lt_fresh m.uexprIds) ha1 hx
      obtain ⟨_, _, f3, _⟩ := extract_fields _ _ _ _ _ m m1 hx
      obtain ⟨p1, _⟩ := extract_parts _ _ _ _ _ m m1 hx
      have hds : ∀ d ∈ eliminationOrder m1, d ∈ m1.dependents := by
        intro d hd
        unfold eliminationOrder at hd
        rw [List.mem_append, List.mem_filter, List.mem_filter] at hd
        rcases hd with k | k <;> exact k.1
      have hm2 := eliminateLoop_obj (fun v => v ∈ m.varIds) _ 4 m1 m2 hds (by rw [f3]; exact hex)
        (fun d hd v hv => by rw [← p1]; exact b1.inE d hd v hv) h2
      refine ih (Setup.structured m3) m' hbet ⟨σ₀, (hall σ₀).2 hσ₀⟩ (ha2 m1 m2 m3 hx hn h2 h3) (fun v hv => ?_) h
      have hv : v ∈ m3.obj.vars := hv
      show v ∈ m3.varIds
      rw [s6] at hv
      rw [s9]
      show v ∈ m2.varIds
      rw [r8]
      exact hm2 v hv

/-! ### Before and after the loop -/

theorem presolve_extra (o : Options) (lt : ℕ → ℕ → Bool) (O m1 : MState) (hp : o.presolve = true)
    (p : Proper o.withoutDependents O) (hd : O.dependents = []) (hf : ∃ σ, Feasible O σ)
    (hr : ∀ v, VarOK (O.var v)) (hc : ∀ c ∈ O.conIds, Plain (O.con c))
    (h : presolveStage o lt (Setup.structured O) = some (.ok m1)) :
    Extra m1 ∧ ∀ (D : ℕ → Prop) (σ : ℕ → ℤ), (∀ w, D w → (m1.var w).fixed = false) →
      (∀ w, ¬ D w → Admits (m1.var w) (σ w)) → Feasible O σ → Feasible m1 σ := by
  obtain ⟨mS, mP, m1', e1, k1, g, ⟨τ, f1⟩, r, hvar, _, hS⟩ := presolveStage_facts o.withoutDependents lt O p hf hp
  have e1' : presolveStage o lt (Setup.structured O) = some (.ok m1') := e1
  rw [h] at e1'
  simp only [Option.some.injEq, Outcome.ok.injEq] at e1'
  subst e1'
  have kept := presolveStage_shrunk (varOK_closed fun _ => True) o lt _ _ h
  have q1 : m1.dependents = [] := by rw [kept.frame]; exact hd
  have hI := implicitStage_facts o.withoutDependents lt O p
  have hpl := implicit_plain o.withoutDependents lt O p hc
  have sh : Shrunk (fun i v => True → VarOK v) (implicitStage o.withoutDependents lt (Setup.structured O)) m1 := by
    have h' : presolveStage o.withoutDependents lt (Setup.structured O) = some (.ok m1) := h
    unfold presolveStage at h'
    rw [if_pos (show o.withoutDependents.presolve = true from hp)] at h'
    exact (setConstraintStage_shrunk (varOK_closed fun _ => True).fix _ lt _ _).trans
      (reduceProblemSize_shrunk (varOK_closed fun _ => True) _ _ h')
  refine ⟨⟨fun c hcm => ⟨fun t ht => ?_, ?_⟩, ?_, fun v _ _ => kept.vars (fun v _ => hr v) v trivial, fun v hv _ => ?_⟩,
    fun D σ h1 h2 h3 => ?_⟩
  · obtain ⟨i, hi, e⟩ := g.terms c hcm
    rw [e] at ht
    exact (p.integral i hi t ht).2
  · have := (hpl c (by rw [← sh.conIds]; exact hcm)).2.2
    rcases sh.off c with e | e
    · rw [e]; exact this
    · rw [e]; exact this
  · rw [q1]; simp
  · exact r.ne v (by rw [← r.same.varIds, ← r.same'.varIds]; exact hv)
  · refine (r.exact σ).1 ⟨fun w => ?_, fun c hcm he => ?_⟩
    · by_cases hw : D w
      · have f1 := h1 w hw
        have f2 : (mP.var w).fixed = false := by
          by_contra k
          rw [r.fixed w (by simpa using k)] at f1
          exact absurd f1 (by simp)
        have f3 := r.var w
        split at f3
        · rw [f3] at f2
          exact absurd f2 (by simp [Var.fixBy, Var.updateMargin])
        · rw [f3]
          rcases hvar w with k | k
          · rw [k]; exact h3.1 w
          · rw [f3, k.1] at f2; exact absurd f2 (by simp)
      · have := r.box (Function.update τ w (σ w)) (fun u => by
          by_cases hu : u = w
          · subst hu; rw [Function.update_self]; exact h2 u hw
          · rw [Function.update_of_ne hu]; exact f1.1 u) w
        rw [Function.update_self] at this
        exact this
    · rw [r.con] at he ⊢
      have hsS := setConstraintStage_shrunk (P := fun _ _ => True) (fun _ _ _ _ => trivial) o.withoutDependents lt
        (Setup.structured O) (implicitStage o.withoutDependents lt (Setup.structured O))
      rw [← hS] at hsS
      have hF := (hI.2.2.2.1 σ).1 h3
      rcases hsS.off c with e | e
      · rw [e] at he ⊢
        exact hF.2 c (by rw [← hsS.conIds, ← r.same.conIds]; exact hcm) he
      · rw [e] at he; exact absurd he (by simp)

theorem Base.of_shrunk {m m' : MState} (h : Base m) (sh : Shrunk (fun i v => v = m.var i) m m') : Base m' := by
  have hvar : m'.var = m.var := funext (sh.vars (fun _ => rfl))
  have fr := sh.frame
  have g1 : m'.varIds = m.varIds := by rw [fr]
  have g2 : m'.dependents = m.dependents := by rw [fr]
  have g3 : m'.uexpr = m.uexpr := by rw [fr]
  have g4 : m'.uexprIds = m.uexprIds := by rw [fr]
  have g5 : m'.obj = m.obj := by rw [fr]
  have hexpr : ∀ c, (m'.con c).expr = (m.con c).expr := fun c => by
    rcases sh.off c with e | e <;> rw [e]
  refine ⟨?_, fun c hc => ?_, fun c hc => ?_, fun c hc => ?_, ?_, ?_, ?_, ?_, ?_, ?_, ?_, ?_, fun d hd => ?_, fun v hv => ?_,
    ?_⟩
  · rw [sh.conIds]; exact h.conIds
  · rw [sh.conIds] at hc; rw [hexpr]; exact h.wfC c hc
  · rw [sh.conIds] at hc; rw [hexpr]; exact h.intC c hc
  · rw [sh.conIds] at hc; rw [hexpr, g1]; exact h.inC c hc
  · rw [g3]; exact h.wfE
  · rw [g5]; exact h.wfO
  · rw [g2, g3]; exact h.intE
  · rw [g2, g3, g1]; exact h.inE
  · rw [g2, g4]; exact h.ids
  · rw [g2, g1]; exact h.depIds
  · rw [g2]; exact h.nodup
  · rw [g2, hvar]; exact h.sense
  · rw [g2] at hd
    obtain ⟨c, h1, h2, h3⟩ := h.home d hd
    refine ⟨c, by rw [sh.conIds]; exact h1, ?_, by rw [hexpr]; exact h3⟩
    rcases sh.off c with e | e
    · rw [e]; exact h2
    · rw [e]
  · rw [g1] at hv
    rw [hvar, sh.conIds]
    rcases h.used v hv with k | ⟨c, h1, h2⟩
    · exact Or.inl k
    · exact Or.inr ⟨c, h1, by rw [hexpr]; exact h2⟩
  · rw [hvar]; exact h.small

theorem Extra.of_shrunk {m m' : MState} (h : Extra m) (sh : Shrunk (fun i v => v = m.var i) m m') : Extra m' := by
  have hvar : m'.var = m.var := funext (sh.vars (fun _ => rfl))
  have fr := sh.frame
  have g1 : m'.varIds = m.varIds := by rw [fr]
  have g2 : m'.dependents = m.dependents := by rw [fr]
  have g3 : m'.uexpr = m.uexpr := by rw [fr]
  have hdep : ∀ v, IsDependent m' v ↔ IsDependent m v := fun v => by unfold IsDependent; rw [g2]
  refine ⟨fun c hc => ?_, ?_, fun v hv hd => ?_, fun v hv hd => ?_⟩
  · rw [sh.conIds] at hc
    rcases sh.off c with e | e <;> rw [e] <;> exact h.con c hc
  · rw [g2, g3]; exact h.def'
  · rw [g1] at hv; rw [hdep] at hd; rw [hvar]; exact h.varOK v hv hd
  · rw [g1] at hv; rw [hdep] at hd; rw [hvar]; exact h.ne v hv hd

/-- What is known of the model left by `reduce`. -/
structure ReducedDep (O m : MState) : Prop where
  base : Base m
  exprs : FreeExprs m
  rest : FreeRest m
  extra : Extra m
  flags : Flags m
  varIds : m.varIds = O.varIds
  objIn : ∀ v ∈ m.obj.vars, v ∈ O.varIds
  isMin : m.isMin = O.isMin
  objDefined : m.objDefined = O.objDefined
  sound : ∀ σ, FeasibleDep m σ → Feasible O σ
  complete : ∀ σ, Feasible O σ → ∃ τ, FeasibleDep m τ ∧ minObjective O τ ≤ minObjective O σ
  objective : ∀ σ, FeasibleDep m σ → exprValue m.obj σ = exprValue O.obj σ
  back : ∀ σ, Feasible O σ → (∀ v, ¬ IsDependent m v → Admits (m.var v) (σ v)) → FeasibleDep m σ

theorem start_flags {o : Options} {lt : ℕ → ℕ → Bool} {O : MState} (h : OrdinaryDep o lt O) : Flags O where
  flags c hc hb := ⟨(h.proper.flags c hc).2 hb, h.maxLe c hc, (h.proper.flags c hc).1, h.maxEq c hc⟩
  box v hv := by
    rcases (h.ranges v).2 with k | k
    · rw [hv] at k; exact absurd k (by decide)
    · exact k.2
  nosel v hv := by
    rcases (h.ranges v).2 with k | k
    · rw [hv] at k; exact absurd k (by decide)
    · rw [hv] at k; exact absurd k.1 (by decide)

theorem reduce_whole (o : Options) (lt : ℕ → ℕ → Bool) (O m' : MState) (h : OrdinaryDep o lt O)
    (e : reduce o lt O = some (.ok m')) : ReducedDep O m' := by
  have hfl := reduce_flags o h.exclusiveOr h.exclusiveNor lt O m' (start_flags h) h.proper.terms h.proper.conIds e
  obtain ⟨m1, e1, k1, ⟨σ₁, f1⟩, b1, d1, v1⟩ := start_between o lt O h.presolve h.proper h.none h.listed h.exprs h.feasible
  obtain ⟨x1, x2⟩ := presolve_extra o lt O m1 h.presolve h.proper h.none h.feasible h.ranges
    (fun c hc => ⟨h.maxLe c hc, h.maxEq c hc, h.const c hc⟩) e1
  have f1' : FeasibleDep (Setup.structured m1) σ₁ := (structured_feasible m1 σ₁).2 ((feasibleDep_iff m1 d1 σ₁).2 f1)
  have fr1 := (presolveStage_shrunk (small_closed) o lt _ _ e1).frame
  have nodep : ∀ v, ¬ IsDependent (Setup.structured m1) v := by
    rintro v ⟨d, hd, _⟩
    have hd : d ∈ m1.dependents := hd
    rw [d1] at hd; simp at hd
  unfold reduce at e
  obtain ⟨m1', e1', e⟩ := andThen_ok e
  rw [e1] at e1'
  simp only [Option.some.injEq, Outcome.ok.injEq] at e1'
  subst e1'
  obtain ⟨m2, e2, e⟩ := andThen_ok e
  simp only [Option.some.injEq, Outcome.ok.injEq] at e
  have hobj1 : m1.obj = O.obj := by rw [fr1]; rfl
  have in1 : ∀ v ∈ m1.obj.vars, v ∈ m1.varIds := by rw [hobj1, v1]; exact h.objIn
  -- the loop
  have loop : Between m2 ∧ (∀ σ, FeasibleDep m2 σ ↔ FeasibleDep (Setup.structured m1) σ) ∧
      (∀ σ, FeasibleDep (Setup.structured m1) σ → exprValue m2.obj σ = exprValue m1.obj σ) ∧ m2.isMin = m1.isMin ∧
      m2.objDefined = m1.objDefined ∧ m2.varIds = m1.varIds ∧ Extra m2 ∧ Narrow (Setup.structured m1) m2 ∧
      ∀ v ∈ m2.obj.vars, v ∈ m2.varIds := by
    have e2' := e2
    unfold dependentStage at e2'
    split at e2'
    · rename_i ho
      have ha := h.acyclic (by rw [Bool.and_eq_true] at ho; exact ho.2) m1 e1
      obtain ⟨t1, t2, t3, t4, t5, t6⟩ := dependentLoop_exact o lt _ _ m2 b1 ⟨σ₁, f1'⟩ ha e2'
      obtain ⟨t7, t8⟩ := dependentLoop_extra o lt _ _ m2 b1 ⟨σ₁, f1'⟩ ha x1.structured e2'
      exact ⟨t1, t2, t3, t4, t5, t6, t7, t8, dependentLoop_obj o lt _ _ m2 b1 ⟨σ₁, f1'⟩ ha in1 e2'⟩
    · simp only [Option.some.injEq, Outcome.ok.injEq] at e2'
      subst e2'
      exact ⟨b1, fun _ => Iff.rfl, fun _ _ => rfl, rfl, rfl, rfl, x1.structured, Narrow.refl _, in1⟩
  obtain ⟨b2, q1, q2, q3, q4, q5, q6, q7, q8⟩ := loop
  rw [setVariableStage_id o lt m2 b2.base.conIds (by
    rcases h.sets with hs | hs
    · exact Or.inl hs
    · exact Or.inr (hs m1 m2 e1 e2))] at e
  obtain ⟨g1, g2, g3, g4, g5, g6, g7, g8, g9⟩ := duplicateStage_between o lt m2 b2
  have sh := duplicateStage_shrunk (fun i v => v = m2.var i) o lt m2 m2
  have hvar : (duplicateStage o lt m2 m2).var = m2.var := funext (sh.vars (fun _ => rfl))
  have b3 := b2.base.of_shrunk sh
  have x3 := q6.of_shrunk sh
  have hvids : (duplicateStage o lt m2 m2).varIds = m2.varIds := by rw [sh.frame]
  generalize duplicateStage o lt m2 m2 = m3 at *
  subst e
  have hiff : ∀ σ, FeasibleDep (Setup.structured m3) σ ↔ Feasible m1 σ := fun σ =>
    (structured_feasible m3 σ).trans ((g3 σ).trans ((q1 σ).trans
      ((structured_feasible m1 σ).trans (feasibleDep_iff m1 d1 σ))))
  have hdep3 : ∀ v, IsDependent (Setup.structured m3) v ↔ IsDependent m2 v := fun v => by
    show (∃ d ∈ m3.dependents, _) ↔ _
    rw [g4]; exact Iff.rfl
  refine
    { base := b3.structured, exprs := g1, rest := g2, extra := x3.structured, flags := hfl
      varIds := hvids.trans (q5.trans v1)
      objIn := fun v hv => by
        have hv : v ∈ m3.obj.vars := hv
        rw [g7] at hv
        rw [← v1, ← q5]; exact q8 v hv
      isMin := (g8.trans q3).trans (by rw [fr1]; rfl)
      objDefined := (g9.trans q4).trans (by rw [fr1]; rfl)
      sound := fun σ hσ => k1.sound σ ((hiff σ).1 hσ)
      complete := fun σ hσ => ?_
      objective := fun σ hσ => ?_
      back := fun σ hσ hv => ?_ }
  · obtain ⟨τ, t1, t2⟩ := k1.complete σ hσ
    exact ⟨τ, (hiff τ).2 t1, t2⟩
  · have hσ' : FeasibleDep (Setup.structured m1) σ :=
      (structured_feasible m1 σ).2 ((feasibleDep_iff m1 d1 σ).2 ((hiff σ).1 hσ))
    show exprValue m3.obj σ = _
    rw [g7, q2 σ hσ', hobj1]
  · refine (hiff σ).2 (x2 (fun w => IsDependent m2 w) σ (fun w hw => ?_) (fun w hw => ?_) hσ)
    · exact (q7.unfixed w hw).resolve_left (nodep w)
    · refine q7.admits w hw (σ w) ?_
      rw [← hvar]
      exact hv w (fun k => hw ((hdep3 w).1 k))

end Printemps.Setup
