import Verif.Lemmas.Laps
import Verif.Lemmas.Online
import Verif.Lemmas.SetupVars

/-! Lemmas about searches between which the bounds of variables shrink. -/

namespace Printemps.Ctl
open Spec Sol Search Presolve

/-! ### Which variables the bounding touches -/

theorem tightenLoop_frame (f : ℚ → Var → Outcome Var) (ts : List (ℕ × ℚ)) : ∀ var var', tightenLoop f ts var = .ok var' →
    ∀ v, v ∉ ts.map Prod.fst → var' v = var v := by
  induction ts with
  | nil =>
    intro var var' h v _
    simp only [tightenLoop, Outcome.ok.injEq] at h
    subst h; rfl
  | cons t ts ih =>
    intro var var' h v hv
    rw [tightenLoop] at h
    obtain ⟨w, -, h2⟩ := Setup.bind_ok h
    simp only [List.map_cons, List.mem_cons, not_or] at hv
    rw [ih _ _ h2 v hv.2, Function.update_of_ne hv.1]

theorem singleton_frame (c : Con) (var : ℕ → Var) (i : ℕ) (a : ℚ) (r : (ℕ → Var) × Bool)
    (h : Presolve.singleton c var i a = .ok r) : ∀ v, v ≠ i → r.1 v = var v := by
  intro v hv
  have up : ∀ (o : Outcome Var), o.bind (fun w => Outcome.ok (Function.update var i w, true)) = .ok r → r.1 v = var v := by
    intro o h
    obtain ⟨w, -, h2⟩ := Setup.bind_ok h
    simp only [Outcome.ok.injEq] at h2
    subst h2
    exact Function.update_of_ne hv _ _
  have id : (Outcome.ok (var, false) : Outcome ((ℕ → Var) × Bool)) = .ok r → r.1 v = var v := by
    intro h
    simp only [Outcome.ok.injEq] at h
    subst h; rfl
  unfold Presolve.singleton at h
  dsimp only at h
  split at h
  · split at h
    · exact absurd h (by simp)
    · simp only [Outcome.ok.injEq] at h
      subst h
      exact Function.update_of_ne hv _ _
  · split at h
    · exact up _ h
    · split at h
      · exact up _ h
      · exact id h
  · split at h
    · exact up _ h
    · split at h
      · exact up _ h
      · exact id h

theorem tightenConstraint_frame (c : Con) (var : ℕ → Var) (r : (ℕ → Var) × Bool) (h : tightenConstraint c var = .ok r) :
    ∀ v, v ∉ c.expr.terms.map Prod.fst → r.1 v = var v := by
  intro v hv
  have sub : ∀ t ∈ mutableTerms c.expr var, t ∈ c.expr.terms := fun t ht => (List.mem_filter.1 ht).1
  unfold tightenConstraint at h
  split at h
  · simp only [Outcome.ok.injEq] at h; subst h; rfl
  · split at h
    · rename_i i a e
      refine singleton_frame c var i a r h v fun hvi => hv ?_
      subst hvi
      exact List.mem_map.2 ⟨(v, a), sub _ (by rw [e]; simp), rfl⟩
    · dsimp only at h
      obtain ⟨w, h1, h2⟩ := Setup.bind_ok h
      obtain ⟨x, h3, h4⟩ := Setup.bind_ok h2
      simp only [Outcome.ok.injEq] at h4
      subst h4
      have no : ∀ f : ℕ × ℚ → Bool, v ∉ ((mutableTerms c.expr var).filter f).map Prod.fst := by
        intro f hm
        obtain ⟨t, ht, e⟩ := List.mem_map.1 hm
        exact hv (List.mem_map.2 ⟨t, sub t (List.mem_filter.1 ht).1, e⟩)
      show x v = var v
      rw [tightenLoop_frame _ _ _ _ h3 v (no _), tightenLoop_frame _ _ _ _ h1 v (no _)]

theorem fixImplicitAll_frame (vs : List ℕ) : ∀ var v, v ∉ vs → (fixImplicitAll vs var).1 v = var v := by
  induction vs with
  | nil => intro var v _; rfl
  | cons u vs ih =>
    intro var v hv
    simp only [List.mem_cons, not_or] at hv
    rw [fixImplicitAll]
    split
    · exact ih var v hv.2
    · dsimp only
      rw [ih _ v hv.2, Function.update_of_ne hv.1]

theorem fixImplicit_done (x : Var) : (fixImplicit x).1.fixed = false → (fixImplicit x).1.lb ≠ (fixImplicit x).1.ub := by
  unfold fixImplicit
  split
  · intro h; exact absurd (show true = false from h) (by decide)
  · rename_i h; exact fun _ => h

theorem fixImplicitAll_done (vs : List ℕ) (v : ℕ) : ∀ var, ((var v).fixed = false → (var v).lb ≠ (var v).ub ∨ v ∈ vs) →
    ((fixImplicitAll vs var).1 v).fixed = false → ((fixImplicitAll vs var).1 v).lb ≠ ((fixImplicitAll vs var).1 v).ub := by
  induction vs with
  | nil => intro var h hf; exact (h hf).resolve_right (by simp)
  | cons u vs ih =>
    intro var h
    rw [fixImplicitAll]
    split
    · rename_i hu
      refine ih var fun hf => ?_
      rcases h hf with k | k
      · exact Or.inl k
      · rcases List.mem_cons.1 k with rfl | k
        · rw [hu] at hf; exact absurd hf (by decide)
        · exact Or.inr k
    · dsimp only
      refine ih _ fun hf => ?_
      by_cases e : v = u
      · subst e
        rw [Function.update_self] at hf ⊢
        exact Or.inl (fixImplicit_done _ hf)
      · rw [Function.update_of_ne e] at hf ⊢
        rcases h hf with k | k
        · exact Or.inl k
        · rcases List.mem_cons.1 k with k | k
          · exact absurd k e
          · exact Or.inr k

/-- Variables fixed before are left alone. -/
theorem tightenConstraint_held (c : Con) (var : ℕ → Var) (r : (ℕ → Var) × Bool) (h : tightenConstraint c var = .ok r) :
    ∀ v, (var v).fixed = true → r.1 v = var v := by
  intro v hv
  have sub : ∀ t ∈ mutableTerms c.expr var, v ≠ t.1 := fun t ht e => by
    have := (List.mem_filter.1 ht).2
    rw [← e, hv] at this
    exact absurd this (by decide)
  unfold tightenConstraint at h
  split at h
  · simp only [Outcome.ok.injEq] at h; subst h; rfl
  · split at h
    · rename_i i a e
      exact singleton_frame c var i a r h v (sub (i, a) (by rw [e]; simp))
    · dsimp only at h
      obtain ⟨w, h1, h2⟩ := Setup.bind_ok h
      obtain ⟨x, h3, h4⟩ := Setup.bind_ok h2
      simp only [Outcome.ok.injEq] at h4
      subst h4
      have no : ∀ f : ℕ × ℚ → Bool, v ∉ ((mutableTerms c.expr var).filter f).map Prod.fst := by
        intro f hm
        obtain ⟨t, ht, e⟩ := List.mem_map.1 hm
        exact sub t (List.mem_filter.1 ht).1 e.symm
      show x v = var v
      rw [tightenLoop_frame _ _ _ _ h3 v (no _), tightenLoop_frame _ _ _ _ h1 v (no _)]

theorem raiseLower_flag {v old w : Var} {b : ℤ} (h : raiseLower v old b = .ok w) : w.fixed = v.fixed := by
  unfold raiseLower at h
  split at h
  · cases hs : v.setBound b old.ub with
    | none => rw [hs] at h; exact absurd h (by simp [Outcome.ofOption])
    | some x =>
      rw [hs] at h
      simp only [Outcome.ofOption, Outcome.ok.injEq] at h
      subst h
      exact Setup.setBound_fixed hs
  · simp only [Outcome.ok.injEq] at h
    subst h; rfl

theorem reduceUpper_flag {v old w : Var} {b : ℤ} (h : reduceUpper v old b = .ok w) : w.fixed = v.fixed := by
  unfold reduceUpper at h
  split at h
  · cases hs : v.setBound old.lb b with
    | none => rw [hs] at h; exact absurd h (by simp [Outcome.ofOption])
    | some x =>
      rw [hs] at h
      simp only [Outcome.ofOption, Outcome.ok.injEq] at h
      subst h
      exact Setup.setBound_fixed hs
  · simp only [Outcome.ok.injEq] at h
    subst h; rfl

theorem tightenPositive_flag {c : Con} {lo hi a : ℚ} {v w : Var} (h : tightenPositive c lo hi a v = .ok w) : w.fixed = v.fixed := by
  unfold tightenPositive at h
  obtain ⟨x, h1, h2⟩ := Setup.bind_ok h
  have hx : x.fixed = v.fixed := by
    split at h1
    · exact raiseLower_flag h1
    · simp only [Outcome.ok.injEq] at h1; subst h1; rfl
  split at h2
  · exact (reduceUpper_flag h2).trans hx
  · simp only [Outcome.ok.injEq] at h2; subst h2; exact hx

theorem tightenNegative_flag {c : Con} {lo hi a : ℚ} {v w : Var} (h : tightenNegative c lo hi a v = .ok w) : w.fixed = v.fixed := by
  unfold tightenNegative at h
  split at h
  · exact absurd h (by simp)
  obtain ⟨x, h1, h2⟩ := Setup.bind_ok h
  have hx : x.fixed = v.fixed := by
    split at h1
    · exact reduceUpper_flag h1
    · simp only [Outcome.ok.injEq] at h1; subst h1; rfl
  split at h2
  · exact (raiseLower_flag h2).trans hx
  · simp only [Outcome.ok.injEq] at h2; subst h2; exact hx

/-- An inequality fixes no variable. -/
theorem tightenConstraint_flag (c : Con) (hc : c.sense = .less) (var : ℕ → Var) (r : (ℕ → Var) × Bool)
    (h : tightenConstraint c var = .ok r) : ∀ v, (r.1 v).fixed = (var v).fixed := by
  have up : ∀ (i : ℕ) (w : Var), w.fixed = (var i).fixed → ∀ v, (Function.update var i w v).fixed = (var v).fixed := by
    intro i w hw v
    by_cases e : v = i
    · subst e; rw [Function.update_self]; exact hw
    · rw [Function.update_of_ne e]
  unfold tightenConstraint at h
  split at h
  · simp only [Outcome.ok.injEq] at h; subst h; exact fun _ => rfl
  · split at h
    · rename_i i a e
      unfold Presolve.singleton at h
      simp only [hc] at h
      split at h
      · obtain ⟨w, h1, h2⟩ := Setup.bind_ok h
        simp only [Outcome.ok.injEq] at h2
        subst h2
        exact up i w (reduceUpper_flag h1)
      · split at h
        · obtain ⟨w, h1, h2⟩ := Setup.bind_ok h
          simp only [Outcome.ok.injEq] at h2
          subst h2
          exact up i w (raiseLower_flag h1)
        · simp only [Outcome.ok.injEq] at h; subst h; exact fun _ => rfl
    · dsimp only at h
      obtain ⟨w, h1, h2⟩ := Setup.bind_ok h
      obtain ⟨x, h3, h4⟩ := Setup.bind_ok h2
      simp only [Outcome.ok.injEq] at h4
      subst h4
      exact Setup.tightenLoop_closed (P := fun i x => x.fixed = (var i).fixed) _
        (fun i a v w hv hw => (tightenNegative_flag hw).trans hv) _ w x
        (Setup.tightenLoop_closed (P := fun i x => x.fixed = (var i).fixed) _
          (fun i a v w hv hw => (tightenPositive_flag hw).trans hv) _ var w (fun _ => rfl) h1) h3

theorem fixImplicitAll_held (vs : List ℕ) : ∀ var v, (var v).fixed = true → (fixImplicitAll vs var).1 v = var v := by
  induction vs with
  | nil => intro var v _; rfl
  | cons u vs ih =>
    intro var v hv
    rw [fixImplicitAll]
    split
    · exact ih var v hv
    · rename_i hu
      dsimp only
      have e : v ≠ u := fun e => hu (by rw [← e]; exact hv)
      rw [ih _ v (by rw [Function.update_of_ne e]; exact hv), Function.update_of_ne e]

/-- A variable that is fixed now but was not before has met bounds. -/
theorem fixImplicitAll_newly (vs : List ℕ) : ∀ var v, (var v).fixed = false → ((fixImplicitAll vs var).1 v).fixed = true →
    ((fixImplicitAll vs var).1 v).lb = ((fixImplicitAll vs var).1 v).value ∧
    ((fixImplicitAll vs var).1 v).ub = ((fixImplicitAll vs var).1 v).value := by
  induction vs with
  | nil => intro var v h1 h2; exact absurd (h1.symm.trans h2) (by decide)
  | cons u vs ih =>
    intro var v h1
    rw [fixImplicitAll]
    split
    · exact ih var v h1
    · dsimp only
      by_cases e : v = u
      · subst e
        by_cases hb : (var v).lb = (var v).ub
        · have hx : fixImplicit (var v) = ((var v).fixBy (var v).lb, true) := if_pos hb
          rw [hx, fixImplicitAll_held vs _ v (by rw [Function.update_self]; rfl), Function.update_self]
          exact fun _ => ⟨rfl, hb.symm⟩
        · have hx : fixImplicit (var v) = (var v, false) := if_neg hb
          rw [hx, Function.update_eq_self]
          exact ih var v h1
      · exact ih _ v (by rw [Function.update_of_ne e]; exact h1)

/-! ### Models with the constraints of `m0` and smaller ranges -/

/-- A 0/1 variable or an integer variable. -/
def Typed (x : Var) : Prop :=
  x.lb ≤ x.ub ∧ ((x.sense = .binary ∧ 0 ≤ x.lb ∧ x.ub ≤ 1) ∨ x.sense = .integer)

/-- The value passes the check of an import. -/
def Passes (x : Var) : Prop :=
  (x.sense = .binary → x.value = 0 ∨ x.value = 1) ∧ (x.sense = .integer → x.lb ≤ x.value ∧ x.value ≤ x.ub)

theorem Typed.passes {x : Var} (h : Typed x) (h1 : x.lb ≤ x.value) (h2 : x.value ≤ x.ub) : Passes x := by
  refine ⟨fun hb => ?_, fun _ => ⟨h1, h2⟩⟩
  rcases h.2 with k | k
  · omega
  · rw [hb] at k; exact absurd k (by decide)

/-- What is assumed about the model with which the searches begin. -/
structure Ground (cfg : Cfg) (m0 : MState) : Prop where
  setting : C66.Setting cfg m0
  sels : cfg.sels = []
  deps : m0.dependents = []
  ne : ∀ v ∈ m0.varIds, (m0.var v).fixed = false → (m0.var v).lb ≠ (m0.var v).ub
  isMin : m0.isMin = true
  objDefined : m0.objDefined = false → m0.obj.terms = [] ∧ m0.obj.const = 0
  objNodup : (m0.obj.terms.map Prod.fst).Nodup
  objNonzero : ∀ t ∈ m0.obj.terms, t.2 ≠ 0
  objIntegral : ∀ t ∈ m0.obj.terms, ∃ k : ℤ, t.2 = k
  objListed : ∀ t ∈ m0.obj.terms, t.1 ∈ m0.varIds
  point : ∃ ρ, InBounds m0.var ρ
  passes : ∀ v ∈ m0.varIds, Passes (m0.var v)

/-- The model `B` has the constraints and the objective of `m0`, and variables with smaller ranges. -/
structure Narrow (m0 B : MState) : Prop where
  frame : B = { m0 with var := B.var }
  box : ∀ v, (m0.var v).lb ≤ (B.var v).lb ∧ (B.var v).ub ≤ (m0.var v).ub
  fixed : ∀ v, (m0.var v).fixed = true → (B.var v).fixed = true ∧ (B.var v).value = (m0.var v).value
  other : ∀ v, v ∉ m0.varIds → B.var v = m0.var v
  sort : ∀ v ∈ m0.varIds, Typed (B.var v)
  ne : ∀ v ∈ m0.varIds, (B.var v).fixed = false → (B.var v).lb ≠ (B.var v).ub
  start : ∀ v ∈ m0.varIds, (B.var v).fixed = false → (B.var v).lb ≤ (B.var v).value ∧ (B.var v).value ≤ (B.var v).ub
  newly : ∀ v ∈ m0.varIds, (B.var v).fixed = true → (m0.var v).fixed = false →
    (m0.var v).lb ≤ (B.var v).value ∧ (B.var v).value ≤ (m0.var v).ub
  passes : ∀ v ∈ m0.varIds, (B.var v).fixed = true → Passes (B.var v)

variable {cfg : Cfg} {m0 B : MState}

theorem Ground.sort (g : Ground cfg m0) : ∀ v ∈ m0.varIds, Typed (m0.var v) := by
  intro v hv
  rcases g.setting.kinds v hv (by rw [g.deps]; simp) with k | k | ⟨-, s, hs, -⟩
  · obtain ⟨h1, h2, h3⟩ := g.setting.ready.binary v hv k
    exact ⟨h2, Or.inl ⟨k, h1, h3⟩⟩
  · exact ⟨g.setting.ready.integer v hv k, Or.inr k⟩
  · rw [g.sels] at hs; exact absurd hs (by simp)

theorem Narrow.refl (g : Ground cfg m0) : Narrow m0 m0 where
  frame := rfl
  box := fun _ => ⟨le_refl _, le_refl _⟩
  fixed := fun _ h => ⟨h, rfl⟩
  other := fun _ _ => rfl
  sort := g.sort
  ne := g.ne
  start := fun v hv hf => g.setting.start v hv (by rw [g.deps]; simp) hf
  newly := fun v _ h1 h2 => by rw [h1] at h2; exact absurd h2 (by decide)
  passes := fun v hv _ => g.passes v hv

/-- A narrowed model meets the conditions of the search. -/
theorem Narrow.setting (g : Ground cfg m0) (n : Narrow m0 B) : C66.Setting cfg B := by
  have s := g.setting
  have free : ∀ v, (B.var v).fixed = false → (m0.var v).fixed = false := fun v hf => by
    cases h : (m0.var v).fixed
    · rfl
    · rw [(n.fixed v h).1] at hf; exact absurd hf (by decide)
  have key : ∀ w : ℕ → Var, w = B.var → C66.Setting cfg { m0 with var := w } := by
    rintro w rfl
    exact
      { wf := ⟨s.wf.conIds, s.wf.con, s.wf.obj, s.wf.uexpr⟩
        ready :=
          { nodup := s.ready.nodup
            varNodup := s.ready.varNodup
            once := s.ready.once
            apart := s.ready.apart
            sense := fun a ha => by rw [g.sels] at ha; exact absurd ha (by simp)
            binary := fun v hv hb => by
              rcases (n.sort v hv).2 with k | k
              · exact ⟨k.2.1, (n.sort v hv).1, k.2.2⟩
              · rw [show (B.var v).sense = .binary from hb] at k; exact absurd k (by decide)
            integer := fun v hv _ => (n.sort v hv).1 }
        unit := fun v hv hf hk => by
          have h1 := n.ne v hv hf
          have h2 := (n.sort v hv).1
          show (B.var v).lb = 0 ∧ (B.var v).ub = 1
          rcases (n.sort v hv).2 with k | k
          · omega
          · rcases hk with hk | hk <;> rw [show (B.var v).sense = _ from hk] at k <;> exact absurd k (by decide)
        kinds := fun v hv _ => by
          rcases (n.sort v hv).2 with k | k
          · exact Or.inl k.1
          · exact Or.inr (Or.inl k)
        start := fun v hv _ hf => n.start v hv hf
        sens := s.sens
        maxLe := s.maxLe
        maxEq := s.maxEq
        onlyBin := fun c hc hb v hv hf => by
          obtain ⟨h1, h2⟩ := s.onlyBin c hc hb v hv (free v hf)
          obtain ⟨b1, b2⟩ := n.box v
          exact ⟨h1.trans b1, b2.trans h2⟩
        noDep := ⟨s.noDep.uexpr, s.noDep.con, s.noDep.obj⟩
        pen := s.pen }
  rw [n.frame]; exact key _ rfl

theorem Narrow.inRange (g : Ground cfg m0) (n : Narrow m0 B) {σ : ℕ → ℤ} (h : InRange B σ) : InRange m0 σ := by
  have hd : B.dependents = [] := by rw [n.frame]; exact g.deps
  have hv : B.varIds = m0.varIds := by rw [n.frame]
  have hno : ∀ v, v ∉ B.dependents.map Prod.fst := fun v => by rw [hd]; simp
  refine ⟨fun v _ hf => ?_, fun v hm _ hf => ?_⟩
  · rcases hf with hf | hf
    · rw [h.fixed v (hno v) (Or.inl (by rw [hv]; exact hf)), n.other v hf]
    · rw [h.fixed v (hno v) (Or.inr (n.fixed v hf).1), (n.fixed v hf).2]
  · cases hB : (B.var v).fixed
    · obtain ⟨h1, h2⟩ := h.range v (by rw [hv]; exact hm) (hno v) hB
      exact ⟨(n.box v).1.trans h1, h2.trans (n.box v).2⟩
    · rw [h.fixed v (hno v) (Or.inr hB)]
      exact n.newly v hm hB hf

theorem Narrow.describes (g : Ground cfg m0) (n : Narrow m0 B) {e : ℚ} {p : Dense × Score} {q : (ℕ → ℤ) × ℕ}
    (h : C66.Describes B e p q) : C66.Describes m0 e p q := by
  have key : ∀ w : ℕ → Var, C66.Describes { m0 with var := w } e p q → InRange m0 q.1 → C66.Describes m0 e p q :=
    fun w h hr => ⟨h.values, hr, h.objective, h.violation, h.feasible, h.augmented⟩
  exact key B.var (by rw [← n.frame]; exact h) (n.inRange g h.range)

/-- Values in the range, and the given point elsewhere. -/
theorem Narrow.inBounds (g : Ground cfg m0) (n : Narrow m0 B) {σ ρ : ℕ → ℤ} (h : InRange B σ) (hρ : InBounds m0.var ρ) :
    InBounds B.var (fun v => if v ∈ m0.varIds then σ v else ρ v) := by
  have hd : B.dependents = [] := by rw [n.frame]; exact g.deps
  have hv : B.varIds = m0.varIds := by rw [n.frame]
  have hno : ∀ v, v ∉ B.dependents.map Prod.fst := fun v => by rw [hd]; simp
  intro v
  dsimp only
  split
  · rename_i hm
    exact ⟨fun hf => h.fixed v (hno v) (Or.inr hf), fun hf => h.range v (by rw [hv]; exact hm) (hno v) hf⟩
  · rename_i hm
    rw [n.other v hm]; exact hρ v

/-! ### One bounding -/

/-- Unlisted and fixed variables have the values of `B`. -/
def Fixes (B m : MState) : Prop := ∀ v, (v ∉ B.varIds ∨ (B.var v).fixed = true) → (m.var v).value = (B.var v).value

theorem setBound_bounds {x w : Var} {l u : ℤ} (h : x.setBound l u = some w) :
    l ≤ u ∧ w.lb = l ∧ w.ub = u ∧ ((w.sense = .binary ∧ 0 ≤ l ∧ u ≤ 1) ∨ w.sense = .integer) := by
  unfold Var.setBound at h
  split at h
  · exact absurd h (by simp)
  · rename_i hlu
    simp only [Option.some.injEq] at h
    subst h
    unfold Var.setupSense Var.updateMargin
    dsimp only
    split
    · rename_i hc
      refine ⟨by omega, rfl, rfl, Or.inl ⟨rfl, ?_⟩⟩
      rcases hc with hc | hc | hc <;> omega
    · exact ⟨by omega, rfl, rfl, Or.inr rfl⟩

/-- What stays true of the variables. -/
def Inner (m0 m : MState) (v : ℕ) (x : Var) : Prop :=
  (m0.var v).lb ≤ x.lb ∧ x.ub ≤ (m0.var v).ub ∧ ((m.var v).fixed = true → x.fixed = true) ∧ (v ∈ m0.varIds → Typed x)

theorem inner_closed (m0 m : MState) : Setup.Closed (Inner m0 m) where
  fix := fun i v x h => ⟨h.1, h.2.1, fun _ => rfl, h.2.2.2⟩
  bound := fun i v old w l u hv ho _ h1 h2 h => by
    obtain ⟨b1, b2, b3, b4⟩ := setBound_bounds h
    refine ⟨by rw [b2]; exact ho.1.trans h1, by rw [b3]; exact h2.trans ho.2.1, fun hf => ?_, fun hm => ?_⟩
    · rw [Setup.setBound_fixed h]; exact hv.2.2.1 hf
    · refine ⟨by rw [b2, b3]; exact b1, ?_⟩
      rw [b2, b3]; exact b4

theorem bounding {m : MState} {l gg : ℕ → ℚ} (g : Ground cfg m0) (n : Narrow m0 B) (st : Stat B l gg m) (fx : Fixes B m)
    (σ0 : ℕ → ℤ) (h0 : InRange B σ0) (z : ℚ) (hz : minObjective m0 σ0 ≤ z) :
    ∃ m' B', Online.updateBounds z true m = .ok m' ∧ Narrow m0 B' ∧ Stat B' l gg m' ∧ Fixes B' m' ∧ ∀ σ, InRange B σ → minObjective m0 σ ≤ z → InRange B' σ := by
  obtain ⟨ρ, hρ⟩ := g.point
  have r0 : InRange m0 σ0 := n.inRange g h0
  have hin : ∀ σ, InRange B σ → InBounds B.var (fun v => if v ∈ m0.varIds then σ v else ρ v) := fun σ hσ => n.inBounds g hσ hρ
  obtain ⟨w, hw⟩ : ∃ w, B = { m0 with var := w } := ⟨_, n.frame⟩
  subst hw
  have hvi : m.varIds = m0.varIds := st.varIds
  have hfix : ∀ v, (m.var v).fixed = (w v).fixed := C66.stat_fixed st
  have eqv : ∀ τ, InBounds w τ ↔ InBounds m.var τ := by
    intro τ
    constructor
    · intro hb v
      refine ⟨fun hf => ?_, fun hf => ?_⟩
      · rw [hfix] at hf
        rw [fx v (Or.inr hf)]; exact (hb v).1 hf
      · rw [hfix] at hf
        rw [st.lb, st.ub]; exact (hb v).2 hf
    · intro hb v
      refine ⟨fun hf => ?_, fun hf => ?_⟩
      · rw [← show (m.var v).value = (w v).value from fx v (Or.inr hf)]; exact (hb v).1 (by rw [hfix]; exact hf)
      · have := (hb v).2 (by rw [hfix]; exact hf)
        rw [st.lb, st.ub] at this; exact this
  have hobj : ∀ σ, minObjective m (fun v => if v ∈ m0.varIds then σ v else ρ v) = minObjective m0 σ := by
    intro σ
    rw [C66.stat_obj st]
    show minObjective m0 _ = _
    unfold minObjective
    have : exprValue m0.obj (fun v => if v ∈ m0.varIds then σ v else ρ v) = exprValue m0.obj σ := by
      unfold exprValue
      congr 1
      refine sum_map_congr _ _ _ fun t ht => ?_
      dsimp only
      rw [if_pos (g.objListed t ht)]
    rw [this]
  have hterms : m.obj.terms = m0.obj.terms := st.shape.objTerms
  obtain ⟨var', e1, k1, k2⟩ := Online.updateBounds_spec m z (Or.inl (by rw [st.shape.isMin]; exact g.isMin))
    (fun hd => by
      rw [hterms, st.shape.objConst]
      exact g.objDefined (by rw [← show m.objDefined = m0.objDefined from st.shape.objDefined]; exact hd))
    (by rw [hterms]; exact g.objNodup) (by rw [hterms]; exact g.objNonzero)
    (fun t ht _ => by
      rw [hterms] at ht
      obtain ⟨k, hk⟩ := g.objIntegral t ht
      exact ⟨k * (m.var t.1).value, by rw [hk]; push_cast; rfl⟩)
    (fun v => if v ∈ m0.varIds then σ0 v else ρ v) ((eqv _).1 (hin σ0 h0)) (by rw [hobj]; exact hz)
  have a0 := k1 _ ((eqv _).1 (hin σ0 h0)) (by rw [hobj]; exact hz)
  have a1 := (eqv _).1 (hin σ0 h0)
  have h := e1
  -- how the variables were found
  have inner : (∀ v, Inner m0 m v (var' v)) ∧ (∀ v, v ∉ m0.varIds → var' v = m.var v) ∧
      (∀ v ∈ m0.varIds, (var' v).fixed = false → (var' v).lb ≠ (var' v).ub) ∧
      ∀ v ∈ m0.varIds, (var' v).fixed = true → Passes (var' v) := by
    unfold Online.updateBounds at h
    obtain ⟨r, h1, h2⟩ := Setup.bind_ok h
    have i0 : ∀ v, Inner m0 m v (m.var v) := by
      intro v
      refine ⟨by rw [st.lb]; exact (n.box v).1, by rw [st.ub]; exact (n.box v).2, fun hf => hf, fun hm => ?_⟩
      have := n.sort v hm
      unfold Typed at this ⊢
      rw [st.lb, st.ub, st.sense]; exact this
    have i1 := Setup.tightenConstraint_closed (inner_closed m0 m) _ _ r i0 h1
    have hct : (Online.objectiveCon m z true).expr.terms = m0.obj.terms := hterms
    have f1 := tightenConstraint_frame _ _ _ h1
    rw [hct] at f1
    have f2 := tightenConstraint_held _ _ _ h1
    have f3 := tightenConstraint_flag _ (by
      show (if m.isMin && true then Sense.less else Sense.greater) = _
      rw [show m.isMin = true from st.shape.isMin.trans g.isMin]; rfl) _ _ h1
    have old : ∀ v ∈ m0.varIds, (m.var v).fixed = true → Passes (m.var v) := fun v hv hf => by
      rw [hfix] at hf
      have := n.passes v hv hf
      unfold Passes at this ⊢
      rw [st.lb, st.ub, st.sense, fx v (Or.inr hf)]; exact this
    have hlist : ∀ v, v ∉ m0.varIds → v ∉ m0.obj.terms.map Prod.fst := fun v hv hm => by
      obtain ⟨t, ht, rfl⟩ := List.mem_map.1 hm
      exact hv (g.objListed t ht)
    by_cases hc : Online.boundsChanged (Online.objectiveCon m z true) m.var r.1 = true
    · rw [if_pos hc] at h2
      simp only [Outcome.ok.injEq] at h2
      have hv' : (fixImplicitAll m.varIds r.1).1 = var' := congrArg MState.var h2
      subst hv'
      have i2 := fun v => Setup.fixImplicitAll_closed (inner_closed m0 m).fix m.varIds _ i1 v
      refine ⟨i2, fun v hv => ?_, fun v hv => ?_, fun v hv hf => ?_⟩
      · rw [fixImplicitAll_frame _ _ v (by rw [hvi]; exact hv), f1 v (hlist v hv)]
      · exact fixImplicitAll_done _ v _ fun _ => Or.inr (by rw [hvi]; exact hv)
      · cases hq : (m.var v).fixed
        · obtain ⟨n1, n2⟩ := fixImplicitAll_newly _ _ v ((f3 v).trans hq) hf
          exact ((i2 v).2.2.2 hv).passes n1.le n2.ge
        · rw [fixImplicitAll_held _ _ v ((f3 v).trans hq), f2 v hq]; exact old v hv hq
    · rw [if_neg hc] at h2
      simp only [Outcome.ok.injEq] at h2
      have hv' : r.1 = var' := congrArg MState.var h2
      subst hv'
      refine ⟨i1, fun v hv => f1 v (hlist v hv), fun v hv hf => ?_, fun v hv hf => ?_⟩
      swap
      · rw [f3] at hf
        rw [f2 v hf]; exact old v hv hf
      have hfm : (m.var v).fixed = false := by
        cases hq : (m.var v).fixed
        · rfl
        · rw [(i1 v).2.2.1 hq] at hf; exact absurd hf (by decide)
      have hne := n.ne v hv (by rw [hfix] at hfm; exact hfm)
      by_cases hm : v ∈ m0.obj.terms.map Prod.fst
      · obtain ⟨t, ht, rfl⟩ := List.mem_map.1 hm
        have : ¬ ((m.var t.1).lb ≠ (r.1 t.1).lb ∨ (m.var t.1).ub ≠ (r.1 t.1).ub) := by
          intro hh
          refine hc (List.any_eq_true.2 ⟨t, by rw [hct]; exact ht, ?_⟩)
          simpa using hh
        push Not at this
        rw [← this.1, ← this.2, st.lb, st.ub]; exact hne
      · rw [f1 v hm, st.lb, st.ub]; exact hne
  obtain ⟨i1, i2, i3, i4⟩ := inner
  let W : ℕ → Var := fun v => if v ∈ m0.varIds then (if (var' v).fixed = false then { var' v with value := σ0 v } else var' v)
    else m0.var v
  have w1 : ∀ v ∈ m0.varIds, (var' v).fixed = false → W v = { var' v with value := σ0 v } := fun v hv hf => by
    show (if _ then _ else _) = _
    rw [if_pos hv, if_pos hf]
  have w2 : ∀ v ∈ m0.varIds, (var' v).fixed = true → W v = var' v := fun v hv hf => by
    show (if _ then _ else _) = _
    rw [if_pos hv, if_neg (by rw [hf]; decide)]
  have w3 : ∀ v, v ∉ m0.varIds → W v = m0.var v := fun v hv => if_neg hv
  have wf : ∀ v, (var' v).fixed = (W v).fixed ∧ (var' v).lb = (W v).lb ∧ (var' v).ub = (W v).ub ∧ (var' v).sense = (W v).sense := by
    intro v
    by_cases hv : v ∈ m0.varIds
    · cases hf : (var' v).fixed
      · rw [w1 v hv hf]; exact ⟨hf.symm, rfl, rfl, rfl⟩
      · rw [w2 v hv hf]; exact ⟨hf.symm, rfl, rfl, rfl⟩
    · rw [w3 v hv, i2 v hv, hfix, st.lb, st.ub, st.sense]
      have := n.other v hv
      dsimp only at this ⊢
      rw [this]; exact ⟨rfl, rfl, rfl, rfl⟩
  have val : ∀ v ∈ m0.varIds, (var' v).fixed = true → (var' v).value = σ0 v := fun v hv hf => by
    have := (a0 v).1 hf
    dsimp only at this
    rw [if_pos hv] at this; exact this.symm
  refine ⟨_, { m0 with var := W }, e1, ?_, ?_, ?_, ?_⟩
  · exact
      { frame := rfl
        box := fun v => by
          show _ ≤ (W v).lb ∧ (W v).ub ≤ _
          rw [← (wf v).2.1, ← (wf v).2.2.1]; exact ⟨(i1 v).1, (i1 v).2.1⟩
        fixed := fun v hf => by
          show (W v).fixed = true ∧ (W v).value = _
          have hB := n.fixed v hf
          have hf' : (var' v).fixed = true := (i1 v).2.2.1 (by rw [hfix]; exact hB.1)
          refine ⟨by rw [← (wf v).1]; exact hf', ?_⟩
          by_cases hv : v ∈ m0.varIds
          · rw [w2 v hv hf', val v hv hf']
            exact r0.fixed v (by rw [g.deps]; simp) (Or.inr hf)
          · rw [w3 v hv]
        other := w3
        sort := fun v hv => by
          have := (i1 v).2.2.2 hv
          unfold Typed at this ⊢
          show (W v).lb ≤ (W v).ub ∧ (((W v).sense = .binary ∧ 0 ≤ (W v).lb ∧ (W v).ub ≤ 1) ∨ (W v).sense = .integer)
          rw [← (wf v).2.1, ← (wf v).2.2.1, ← (wf v).2.2.2]; exact this
        ne := fun v hv hf => by
          show (W v).lb ≠ (W v).ub
          have hf' : (W v).fixed = false := hf
          rw [← (wf v).1] at hf'
          rw [← (wf v).2.1, ← (wf v).2.2.1]; exact i3 v hv hf'
        start := fun v hv hf => by
          have hf' : (W v).fixed = false := hf
          rw [← (wf v).1] at hf'
          show (W v).lb ≤ (W v).value ∧ (W v).value ≤ (W v).ub
          have := (a0 v).2 hf'
          dsimp only at this
          rw [if_pos hv] at this
          rw [w1 v hv hf']; exact this
        newly := fun v hv hf hf0 => by
          have hf' : (W v).fixed = true := hf
          rw [← (wf v).1] at hf'
          show _ ≤ (W v).value ∧ (W v).value ≤ _
          rw [w2 v hv hf', val v hv hf']
          exact r0.range v hv (by rw [g.deps]; simp) hf0
        passes := fun v hv hf => by
          have hf' : (W v).fixed = true := hf
          rw [← (wf v).1] at hf'
          show Passes (W v)
          rw [w2 v hv hf']; exact i4 v hv hf' }
  · obtain ⟨sh, s1, s2, s3, s4, s5, -, -, -⟩ := st
    refine ⟨⟨sh.conIds, sh.uexprIds, fun v => (wf v).1, sh.conTerms, sh.conConst, sh.conSense, sh.conEnabled, sh.penLess,
      sh.penGreater, sh.objTerms, sh.objConst, sh.objDefined, sh.isMin, sh.globalPen, sh.uTerms, sh.uConst, sh.uEnabled,
      sh.userDefined⟩, s1, s2, s3, s4, s5, fun v => (wf v).2.1, fun v => (wf v).2.2.1, fun v => (wf v).2.2.2⟩
  · intro v hv
    show (var' v).value = (W v).value
    rcases hv with hv | hv
    · have hv' : v ∉ m0.varIds := hv
      rw [w3 v hv', i2 v hv', fx v (Or.inl hv')]
      have := n.other v hv'
      dsimp only at this ⊢
      rw [this]
    · have hf' : (W v).fixed = true := hv
      rw [← (wf v).1] at hf'
      by_cases hm : v ∈ m0.varIds
      · rw [w2 v hm hf']
      · rw [w3 v hm, i2 v hm, fx v (Or.inl hm)]
        have := n.other v hm
        dsimp only at this ⊢
        rw [this]
  · intro σ hσ hle
    have a := k1 _ ((eqv _).1 (hin σ hσ)) (by rw [hobj]; exact hle)
    refine ⟨fun v _ hf => ?_, fun v hv _ hf => ?_⟩
    · show σ v = (W v).value
      by_cases hm : v ∈ m0.varIds
      · have hf' : (W v).fixed = true := hf.resolve_left (fun hh => hh hm)
        rw [← (wf v).1] at hf'
        rw [w2 v hm hf']
        have := (a v).1 hf'
        dsimp only at this
        rw [if_pos hm] at this; exact this
      · rw [w3 v hm]
        exact (n.inRange g hσ).fixed v (by rw [g.deps]; simp) (Or.inl hm)
    · have hf' : (W v).fixed = false := hf
      rw [← (wf v).1] at hf'
      show (W v).lb ≤ σ v ∧ σ v ≤ (W v).ub
      rw [← (wf v).2.1, ← (wf v).2.2.1]
      have := (a v).2 hf'
      dsimp only at this
      rw [if_pos (show v ∈ m0.varIds from hv)] at this; exact this

end Printemps.Ctl
