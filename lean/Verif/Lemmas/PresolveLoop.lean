import Verif.Lemmas.Presolve

/-! Helper lemmas about the loops of the problem size reducer. -/

namespace Printemps.Presolve
open Spec Expr

/-- The data of a constraint that the tightening step needs: distinct variables and no zero coefficient. -/
def GoodCon (c : Con) : Prop := c.expr.WF ∧ ∀ t ∈ c.expr.terms, t.2 ≠ 0

/-- The fixed part of a constraint is integral, so the `int` accumulator of `fixed_term_value()` is exact. -/
def FixedInt (c : Con) (var : ℕ → Var) : Prop :=
  ∀ t ∈ c.expr.terms, (var t.1).fixed = true → IsInt (t.2 * ((var t.1).value : ℚ))

theorem mutable_singleton {c : Con} {var : ℕ → Var} {v : ℕ} {a : ℚ}
    (hm : mutableTerms c.expr var = [(v, a)]) : (v, a) ∈ c.expr.terms ∧ (var v).fixed = false := by
  have : (v, a) ∈ mutableTerms c.expr var := by rw [hm]; simp
  exact mem_mutableTerms.1 this

theorem tightenConstraint_keeps (c : Con) (hc : GoodCon c) (var : ℕ → Var) (hi : FixedInt c var) (σ : ℕ → ℤ)
    (hb : InBounds var σ) (hh : Holds c σ) :
    ∃ var' d, tightenConstraint c var = .ok (var', d) ∧ InBounds var' σ := by
  rcases tightenConstraint_cases c var with ⟨_, e⟩ | ⟨_, v, a, hm, e⟩ | ⟨_, _, e⟩
  · exact ⟨var, true, e, hb⟩
  · obtain ⟨hmem, hf⟩ := mutable_singleton hm
    unfold Holds at hh
    rw [exprValue_singleton c.expr var σ hb hi v a hm] at hh
    obtain ⟨w, h1, h2⟩ := singleton_keeps c var v a hf (hc.2 _ hmem) (σ v) (hb v) hh
    exact ⟨_, true, e.trans h1, inBounds_update var σ v w hb h2⟩
  · obtain ⟨var', h1, h2⟩ := tightenGeneral_spec c hc.1 hc.2 var σ hb hh
    exact ⟨var', false, e.trans h1, h2.inBounds hb⟩

theorem inBounds_update_iff (var : ℕ → Var) (τ : ℕ → ℤ) (v : ℕ) (var' : ℕ → Var)
    (h : ∀ u, u ≠ v → var' u = var u) (P : ℤ → Prop)
    (hx : ∀ x, Admits (var' v) x ↔ Admits (var v) x ∧ P x) :
    InBounds var' τ ↔ InBounds var τ ∧ P (τ v) := by
  constructor
  · intro hb
    refine ⟨fun u => ?_, ((hx _).1 (hb v)).2⟩
    by_cases hu : u = v
    · subst hu; exact ((hx _).1 (hb u)).1
    · rw [← h u hu]; exact hb u
  · rintro ⟨hb, hp⟩ u
    by_cases hu : u = v
    · subst hu; exact (hx _).2 ⟨hb u, hp⟩
    · rw [h u hu]; exact hb u

theorem tightenConstraint_exact (c : Con) (hc : GoodCon c) (var : ℕ → Var) (hi : FixedInt c var) (σ : ℕ → ℤ)
    (hb : InBounds var σ) (hh : Holds c σ) (hs : Small var) :
    ∃ var' d, tightenConstraint c var = .ok (var', d) ∧ Small var' ∧
      ∀ τ, (InBounds var τ ∧ Holds c τ) ↔ (InBounds var' τ ∧ (d = false → Holds c τ)) := by
  rcases tightenConstraint_cases c var with ⟨hr, e⟩ | ⟨_, v, a, hm, e⟩ | ⟨_, _, e⟩
  · refine ⟨var, true, e, hs, fun τ => ⟨fun h => ⟨h.1, by simp⟩, fun h => ⟨h.1, isRedundant_holds c var hr τ h.1⟩⟩⟩
  · obtain ⟨hmem, hf⟩ := mutable_singleton hm
    have hv := exprValue_singleton c.expr var σ hb hi v a hm
    have hh' := hh
    unfold Holds at hh'
    rw [hv] at hh'
    obtain ⟨w, h1, h2⟩ := singleton_keeps c var v a hf (hc.2 _ hmem) (σ v) (hb v) hh'
    have hok := singletonOK_of_witness c var v a hf (hc.2 _ hmem) hs (σ v) (hb v) hh'
    obtain ⟨_, k2, k3⟩ := singleton_exact c var _ v a true hf h1 (hc.2 _ hmem) hok
    refine ⟨_, true, e.trans h1, ?_, fun τ => ?_⟩
    · intro u hu
      by_cases huv : u = v
      · subst huv
        rw [Function.update_self] at hu k3 ⊢
        obtain ⟨sl, su⟩ := hs u hf
        have hx := h2.2 hu
        -- the new bounds are themselves admitted values
        have e1 := ((k3 w.lb).1 ⟨fun hh => by rw [hu] at hh; exact absurd hh (by simp),
          fun _ => ⟨le_rfl, le_trans hx.1 hx.2⟩⟩).1.2 hf
        have e2 := ((k3 w.ub).1 ⟨fun hh => by rw [hu] at hh; exact absurd hh (by simp),
          fun _ => ⟨le_trans hx.1 hx.2, le_rfl⟩⟩).1.2 hf
        exact ⟨lt_of_lt_of_le sl e1.1, lt_of_le_of_lt e2.2 su⟩
      · rw [k2 u huv] at hu ⊢; exact hs u hu
    · have key := inBounds_update_iff var τ v _ k2 _ k3
      constructor
      · rintro ⟨t1, t2⟩
        unfold Holds at t2
        rw [exprValue_singleton c.expr var τ t1 hi v a hm] at t2
        exact ⟨key.2 ⟨t1, t2⟩, by simp⟩
      · rintro ⟨t1, _⟩
        obtain ⟨t2, t3⟩ := key.1 t1
        refine ⟨t2, ?_⟩
        unfold Holds
        rw [exprValue_singleton c.expr var τ t2 hi v a hm]
        exact t3
  · obtain ⟨var', h1, h2⟩ := tightenGeneral_spec c hc.1 hc.2 var σ hb hh
    refine ⟨var', false, e.trans h1, ?_, fun τ => ⟨fun ⟨t1, t2⟩ => ?_, fun ⟨t1, t2⟩ => ⟨h2.back τ t1, t2 rfl⟩⟩⟩
    · intro v hv
      rcases h2 v with e' | ⟨hf, t⟩
      · rw [e'] at hv ⊢; exact hs v hv
      · obtain ⟨sl, su⟩ := hs v hf
        exact ⟨lt_of_lt_of_le sl t.2.1, lt_of_le_of_lt t.2.2.1 su⟩
    · obtain ⟨var'', k1, k2⟩ := tightenGeneral_spec c hc.1 hc.2 var τ t1 t2
      rw [h1] at k1
      cases k1
      exact ⟨k2.inBounds t1, fun _ => t2⟩

/-! ### Fixed variables stay fixed -/

theorem setBound_fixed {v w : Var} {l u : ℤ} (h : Outcome.ofOption (v.setBound l u) = .ok w) :
    w.fixed = v.fixed := by
  cases hs : v.setBound l u with
  | none => rw [hs] at h; exact absurd h (by simp [Outcome.ofOption])
  | some w' => rw [hs] at h; cases h; exact (setBound_some _ _ _ _ hs).2.2.2

theorem raiseLower_fixed {v old w : Var} {k : ℤ} (h : raiseLower v old k = .ok w) : w.fixed = v.fixed := by
  unfold raiseLower at h
  split at h
  · exact setBound_fixed h
  · cases h; rfl

theorem reduceUpper_fixed {v old w : Var} {k : ℤ} (h : reduceUpper v old k = .ok w) : w.fixed = v.fixed := by
  unfold reduceUpper at h
  split at h
  · exact setBound_fixed h
  · cases h; rfl

theorem tightenPositive_fixed {c : Con} {lo hi a : ℚ} {v w : Var} (h : tightenPositive c lo hi a v = .ok w) :
    w.fixed = v.fixed := by
  unfold tightenPositive at h
  obtain ⟨u, h1, h2⟩ := bind_ok h
  have e1 : u.fixed = v.fixed := by
    split at h1
    · exact raiseLower_fixed h1
    · cases h1; rfl
  split at h2
  · exact (reduceUpper_fixed h2).trans e1
  · cases h2; exact e1

theorem tightenNegative_fixed {c : Con} {lo hi a : ℚ} {v w : Var} (h : tightenNegative c lo hi a v = .ok w) :
    w.fixed = v.fixed := by
  unfold tightenNegative at h
  split at h
  · exact absurd h (by simp)
  obtain ⟨u, h1, h2⟩ := bind_ok h
  have e1 : u.fixed = v.fixed := by
    split at h1
    · exact reduceUpper_fixed h1
    · cases h1; rfl
  split at h2
  · exact (raiseLower_fixed h2).trans e1
  · cases h2; exact e1

theorem tightenLoop_fixed {f : ℚ → Var → Outcome Var}
    (hf : ∀ a v w, f a v = .ok w → w.fixed = v.fixed) :
    ∀ (ts : List (ℕ × ℚ)) (var var' : ℕ → Var), tightenLoop f ts var = .ok var' →
      ∀ v, (var' v).fixed = (var v).fixed := by
  intro ts
  induction ts with
  | nil => intro var var' h v; cases h; rfl
  | cons t ts ih =>
    intro var var' h v
    rw [tightenLoop] at h
    obtain ⟨w, h1, h2⟩ := bind_ok h
    rw [ih _ _ h2 v]
    by_cases hv : v = t.1
    · subst hv; rw [Function.update_self]; exact hf _ _ _ h1
    · rw [Function.update_of_ne hv]

theorem singleton_fixed {c : Con} {var var' : ℕ → Var} {v : ℕ} {a : ℚ} {d : Bool}
    (h : singleton c var v a = .ok (var', d)) (u : ℕ) (hu : (var u).fixed = true) : (var' u).fixed = true := by
  have upd : ∀ w : Var, ((var v).fixed = true → w.fixed = true) → (Function.update var v w u).fixed = true := by
    intro w hw
    by_cases e : u = v
    · subst e; rw [Function.update_self]; exact hw hu
    · rw [Function.update_of_ne e]; exact hu
  unfold singleton at h
  cases hs : c.sense <;> rw [hs] at h <;> simp only [] at h
  · split at h
    · obtain ⟨w, h1, h2⟩ := bind_ok h
      cases h2
      exact upd w (fun e => (reduceUpper_fixed h1).trans e)
    · split at h
      · obtain ⟨w, h1, h2⟩ := bind_ok h
        cases h2
        exact upd w (fun e => (raiseLower_fixed h1).trans e)
      · cases h; exact hu
  · split at h
    · exact absurd h (by simp)
    · cases h
      exact upd _ (fun _ => rfl)
  · split at h
    · obtain ⟨w, h1, h2⟩ := bind_ok h
      cases h2
      exact upd w (fun e => (reduceUpper_fixed h1).trans e)
    · split at h
      · obtain ⟨w, h1, h2⟩ := bind_ok h
        cases h2
        exact upd w (fun e => (raiseLower_fixed h1).trans e)
      · cases h; exact hu

theorem tightenConstraint_fixed {c : Con} {var var' : ℕ → Var} {d : Bool}
    (h : tightenConstraint c var = .ok (var', d)) (u : ℕ) (hu : (var u).fixed = true) :
    (var' u).fixed = true := by
  rcases tightenConstraint_cases c var with ⟨_, e⟩ | ⟨_, v, a, hm, e⟩ | ⟨_, _, e⟩
  · rw [e] at h; cases h; exact hu
  · rw [e] at h; exact singleton_fixed h u hu
  · rw [e] at h
    unfold tightenGeneral at h
    obtain ⟨var1, h1, h2⟩ := bind_ok h
    obtain ⟨var2, h3, h4⟩ := bind_ok h2
    cases h4
    rw [tightenLoop_fixed (fun _ _ _ => tightenNegative_fixed) _ _ _ h3,
      tightenLoop_fixed (fun _ _ _ => tightenPositive_fixed) _ _ _ h1]
    exact hu

/-! ### Counting -/

theorem filter_length_le {α} (l : List α) (p q : α → Bool) (h : ∀ x, q x = true → p x = true) :
    (l.filter q).length ≤ (l.filter p).length := by
  induction l with
  | nil => simp
  | cons a l ih =>
    rw [List.filter_cons, List.filter_cons]
    by_cases hq : q a = true
    · rw [if_pos hq, if_pos (h a hq)]; simpa using ih
    · rw [if_neg hq]
      split
      · simp only [List.length_cons]; omega
      · exact ih

theorem filter_length_lt {α} (l : List α) (p q : α → Bool) (h : ∀ x, q x = true → p x = true) (a : α)
    (ha : a ∈ l) (hp : p a = true) (hq : q a = false) : (l.filter q).length + 1 ≤ (l.filter p).length := by
  induction l with
  | nil => simp at ha
  | cons b l ih =>
    rw [List.filter_cons, List.filter_cons]
    rcases List.mem_cons.1 ha with rfl | ha
    · rw [if_pos hp, if_neg (by simp [hq])]
      have := filter_length_le l p q h
      simp only [List.length_cons]; omega
    · have ih := ih ha
      by_cases hqb : q b = true
      · rw [if_pos hqb, if_pos (h b hqb)]
        simp only [List.length_cons]; omega
      · rw [if_neg hqb]
        split
        · simp only [List.length_cons]; omega
        · exact ih

/-- Number of enabled constraints. -/
def numEnabled (m : MState) : ℕ := (m.conIds.filter (fun c => (m.con c).enabled)).length

/-- Number of unfixed variables. -/
def numUnfixed (m : MState) : ℕ := (m.varIds.filter (fun v => !(m.var v).fixed)).length

/-- The fields that the reduction never touches. -/
structure SameData (m m' : MState) : Prop where
  conIds : m'.conIds = m.conIds
  varIds : m'.varIds = m.varIds
  expr : ∀ c, (m'.con c).expr = (m.con c).expr
  sense : ∀ c, (m'.con c).sense = (m.con c).sense
  obj : m'.obj = m.obj
  isMin : m'.isMin = m.isMin
  objDefined : m'.objDefined = m.objDefined
  objSens : m'.objSens = m.objSens

theorem SameData.refl (m : MState) : SameData m m := ⟨rfl, rfl, fun _ => rfl, fun _ => rfl, rfl, rfl, rfl, rfl⟩

theorem SameData.trans {a b c : MState} (h : SameData a b) (k : SameData b c) : SameData a c :=
  ⟨k.conIds.trans h.conIds, k.varIds.trans h.varIds, fun x => (k.expr x).trans (h.expr x),
   fun x => (k.sense x).trans (h.sense x), k.obj.trans h.obj, k.isMin.trans h.isMin,
   k.objDefined.trans h.objDefined, k.objSens.trans h.objSens⟩

theorem SameData.holds {m m' : MState} (h : SameData m m') (c : ℕ) (σ : ℕ → ℤ) :
    Holds (m'.con c) σ ↔ Holds (m.con c) σ := by
  unfold Holds; rw [h.expr, h.sense]

theorem disable_con (m : MState) (c k : ℕ) :
    ((disable m c).con k).enabled = (if k = c then false else (m.con k).enabled) := by
  unfold disable
  by_cases h : k = c
  · subst h; simp
  · simp [h]

theorem disable_same (m : MState) (c : ℕ) : SameData m (disable m c) := by
  refine ⟨rfl, rfl, fun k => ?_, fun k => ?_, rfl, rfl, rfl, rfl⟩ <;>
  · unfold disable
    by_cases h : k = c
    · subst h; simp
    · simp [h]

theorem feasible_iff_of (m m' : MState) (hd : SameData m m') (σ : ℕ → ℤ) :
    Feasible m' σ ↔ InBounds m'.var σ ∧
      ∀ c ∈ m.conIds, (m'.con c).enabled = true → Holds (m.con c) σ := by
  unfold Feasible
  rw [hd.conIds]
  exact and_congr Iff.rfl (forall_congr' fun c => imp_congr Iff.rfl (imp_congr Iff.rfl (hd.holds c σ)))

theorem feasible_var (m : MState) (var' : ℕ → Var) (σ : ℕ → ℤ) :
    Feasible { m with var := var' } σ ↔
      InBounds var' σ ∧ ∀ c ∈ m.conIds, (m.con c).enabled = true → Holds (m.con c) σ := Iff.rfl

/-- One step of `tightenAll`. -/
def stepState (m : MState) (c : ℕ) (r : (ℕ → Var) × Bool) : MState :=
  if r.2 then disable { m with var := r.1 } c else { m with var := r.1 }

theorem stepState_same (m : MState) (c : ℕ) (r : (ℕ → Var) × Bool) : SameData m (stepState m c r) := by
  unfold stepState
  have h0 : SameData m { m with var := r.1 } := ⟨rfl, rfl, fun _ => rfl, fun _ => rfl, rfl, rfl, rfl, rfl⟩
  split
  · exact h0.trans (disable_same _ c)
  · exact h0

theorem stepState_var (m : MState) (c : ℕ) (r : (ℕ → Var) × Bool) : (stepState m c r).var = r.1 := by
  unfold stepState; split <;> rfl

theorem stepState_enabled (m : MState) (c k : ℕ) (r : (ℕ → Var) × Bool) :
    ((stepState m c r).con k).enabled = (if r.2 = true ∧ k = c then false else (m.con k).enabled) := by
  unfold stepState
  by_cases h : r.2 = true
  · rw [if_pos h, disable_con]; simp [h]
  · rw [if_neg h]; simp [h]

theorem tightenAll_cons (c : ℕ) (cs : List ℕ) (m : MState) :
    tightenAll (c :: cs) m = if (m.con c).enabled then
      (tightenConstraint (m.con c) m.var).bind fun r =>
        (tightenAll cs (stepState m c r)).bind fun s => .ok (s.1, s.2 + if r.2 then 1 else 0)
      else tightenAll cs m := rfl

theorem stepState_feasible (m : MState) (c : ℕ) (hcm : c ∈ m.conIds) (he : (m.con c).enabled = true)
    (r : (ℕ → Var) × Bool)
    (h : ∀ τ, (InBounds m.var τ ∧ Holds (m.con c) τ) ↔ (InBounds r.1 τ ∧ (r.2 = false → Holds (m.con c) τ)))
    (τ : ℕ → ℤ) : Feasible m τ ↔ Feasible (stepState m c r) τ := by
  rw [feasible_iff_of m _ (stepState_same m c r), stepState_var]
  constructor
  · rintro ⟨h1, h2⟩
    obtain ⟨k1, _⟩ := (h τ).1 ⟨h1, h2 c hcm he⟩
    refine ⟨k1, fun k hk hke => h2 k hk ?_⟩
    rw [stepState_enabled] at hke
    split at hke
    · exact absurd hke (by simp)
    · exact hke
  · rintro ⟨h1, h2⟩
    have hc : r.2 = false → Holds (m.con c) τ := fun hr => h2 c hcm (by
      rw [stepState_enabled, hr]; simp [he])
    obtain ⟨k1, k2⟩ := (h τ).2 ⟨h1, hc⟩
    refine ⟨k1, fun k hk hke => ?_⟩
    by_cases hkc : k = c
    · subst hkc; exact k2
    · exact h2 k hk (by rw [stepState_enabled]; simp [hkc, hke])

/-- Feasible assignments survive, for one direction only the surviving one is needed. -/
theorem stepState_keeps (m : MState) (c : ℕ) (r : (ℕ → Var) × Bool) (τ : ℕ → ℤ) (hf : Feasible m τ)
    (hb : InBounds r.1 τ) : Feasible (stepState m c r) τ := by
  rw [feasible_iff_of m _ (stepState_same m c r), stepState_var]
  refine ⟨hb, fun k hk hke => hf.2 k hk ?_⟩
  rw [stepState_enabled] at hke
  split at hke
  · exact absurd hke (by simp)
  · exact hke

theorem isInt_mul_int {q : ℚ} (h : IsInt q) (k : ℤ) : IsInt (q * k) := by
  obtain ⟨n, rfl⟩ := h
  exact ⟨n * k, by push_cast; ring⟩

/-- Well-formed linear data: distinct variables, nonzero integral coefficients. -/
def GoodData (m : MState) : Prop :=
  ∀ c ∈ m.conIds, (m.con c).expr.WF ∧ ∀ t ∈ (m.con c).expr.terms, t.2 ≠ 0 ∧ IsInt t.2

theorem GoodData.of_same {m m' : MState} (h : GoodData m) (s : SameData m m') : GoodData m' := by
  intro c hc
  rw [s.conIds] at hc
  rw [s.expr]
  exact h c hc

theorem GoodData.good {m : MState} (h : GoodData m) {c : ℕ} (hc : c ∈ m.conIds) : GoodCon (m.con c) :=
  ⟨(h c hc).1, fun t ht => ((h c hc).2 t ht).1⟩

theorem GoodData.fixedInt {m : MState} (h : GoodData m) {c : ℕ} (hc : c ∈ m.conIds) (var : ℕ → Var) :
    FixedInt (m.con c) var := fun t ht _ => isInt_mul_int ((h c hc).2 t ht).2 _

theorem tightenAll_keeps (cs : List ℕ) : ∀ (m : MState), GoodData m → (∀ c ∈ cs, c ∈ m.conIds) →
    ∀ σ, Feasible m σ → ∃ m' n, tightenAll cs m = .ok (m', n) ∧ SameData m m' ∧ Feasible m' σ := by
  induction cs with
  | nil => intro m _ _ σ h; exact ⟨m, 0, rfl, SameData.refl m, h⟩
  | cons c cs ih =>
    intro m hg hcs σ hf
    have hcm := hcs c (by simp)
    rw [tightenAll_cons]
    split
    · rename_i he
      obtain ⟨var', d, h1, h2⟩ := tightenConstraint_keeps (m.con c) (hg.good hcm) m.var
        (hg.fixedInt hcm _) σ hf.1 (hf.2 c hcm he)
      have sd := stepState_same m c (var', d)
      obtain ⟨m', n, k1, k2, k3⟩ := ih (stepState m c (var', d)) (hg.of_same sd)
        (fun k hk => by rw [sd.conIds]; exact hcs k (List.mem_cons_of_mem _ hk)) σ
        (stepState_keeps m c (var', d) σ hf h2)
      refine ⟨m', n + (if d then 1 else 0), ?_, sd.trans k2, k3⟩
      simp only [h1, Outcome.bind, k1]
    · exact ih m hg (fun k hk => hcs k (List.mem_cons_of_mem _ hk)) σ hf

theorem tightenAll_exact (cs : List ℕ) : ∀ (m : MState), GoodData m → (∀ c ∈ cs, c ∈ m.conIds) →
    Small m.var → (∃ σ, Feasible m σ) → ∃ m' n, tightenAll cs m = .ok (m', n) ∧ SameData m m' ∧ Small m'.var ∧
      ∀ τ, Feasible m τ ↔ Feasible m' τ := by
  induction cs with
  | nil => intro m _ _ hs _; exact ⟨m, 0, rfl, SameData.refl m, hs, fun _ => Iff.rfl⟩
  | cons c cs ih =>
    intro m hg hcs hs ⟨σ, hf⟩
    have hcm := hcs c (by simp)
    rw [tightenAll_cons]
    split
    · rename_i he
      obtain ⟨var', d, h1, h2, h3⟩ := tightenConstraint_exact (m.con c) (hg.good hcm) m.var
        (hg.fixedInt hcm _) σ hf.1 (hf.2 c hcm he) hs
      have sd := stepState_same m c (var', d)
      have key := stepState_feasible m c hcm he (var', d) h3
      obtain ⟨m', n, k1, k2, k3, k4⟩ := ih (stepState m c (var', d)) (hg.of_same sd)
        (fun k hk => by rw [sd.conIds]; exact hcs k (List.mem_cons_of_mem _ hk))
        (by rw [stepState_var]; exact h2) ⟨σ, (key σ).1 hf⟩
      refine ⟨m', n + (if d then 1 else 0), ?_, sd.trans k2, k3, fun τ => (key τ).trans (k4 τ)⟩
      simp only [h1, Outcome.bind, k1]
    · exact ih m hg (fun k hk => hcs k (List.mem_cons_of_mem _ hk)) hs ⟨σ, hf⟩

/-- Every pass that disables something lowers the number of enabled constraints accordingly and never
unfixes a variable. -/
theorem tightenAll_count (cs : List ℕ) : ∀ (m m' : MState) (n : ℕ), (∀ c ∈ cs, c ∈ m.conIds) →
    tightenAll cs m = .ok (m', n) →
    numEnabled m' + n ≤ numEnabled m ∧ SameData m m' ∧ ∀ v, (m.var v).fixed = true → (m'.var v).fixed = true := by
  induction cs with
  | nil => intro m m' n _ h; cases h; exact ⟨le_rfl, SameData.refl m, fun _ h => h⟩
  | cons c cs ih =>
    intro m m' n hcs h
    rw [tightenAll_cons] at h
    split at h
    · rename_i he
      obtain ⟨r, h1, h2⟩ := bind_ok h
      obtain ⟨s, h3, h4⟩ := bind_ok h2
      cases h4
      have sd := stepState_same m c r
      obtain ⟨k1, k2, k3⟩ := ih (stepState m c r) s.1 s.2
        (fun k hk => by rw [sd.conIds]; exact hcs k (List.mem_cons_of_mem _ hk)) h3
      refine ⟨?_, sd.trans k2, fun v hv => k3 v ?_⟩
      · have : numEnabled (stepState m c r) + (if r.2 then 1 else 0) ≤ numEnabled m := by
          unfold numEnabled
          rw [sd.conIds]
          by_cases hr : r.2 = true
          · rw [if_pos hr]
            refine filter_length_lt _ _ _ (fun x hx => ?_) c (hcs c (by simp)) he ?_
            · rw [stepState_enabled] at hx
              split at hx
              · exact absurd hx (by simp)
              · exact hx
            · rw [stepState_enabled]; simp [hr]
          · rw [if_neg hr, Nat.add_zero]
            refine filter_length_le _ _ _ (fun x hx => ?_)
            rw [stepState_enabled] at hx
            split at hx
            · exact absurd hx (by simp)
            · exact hx
        omega
      · rw [stepState_var]
        exact tightenConstraint_fixed (var' := r.1) (d := r.2) h1 v hv
    · exact ih m m' n (fun k hk => hcs k (List.mem_cons_of_mem _ hk)) h

/-! ### Implicitly fixed variables -/

theorem fixImplicitAll_inBounds (vs : List ℕ) : ∀ (var : ℕ → Var) (τ : ℕ → ℤ),
    InBounds var τ ↔ InBounds (fixImplicitAll vs var).1 τ := by
  induction vs with
  | nil => intro var τ; exact Iff.rfl
  | cons v vs ih =>
    intro var τ
    rw [fixImplicitAll]
    split
    · exact ih var τ
    · rename_i hf
      have hf : (var v).fixed = false := by simpa using hf
      refine Iff.trans ?_ (ih _ τ)
      have := inBounds_update_iff var τ v (Function.update var v (fixImplicit (var v)).1)
        (fun u hu => Function.update_of_ne hu _ _) (fun _ => True) (by
          intro x
          rw [Function.update_self, and_true]
          unfold fixImplicit
          split
          · rename_i e
            simp [Admits, Var.fixBy, Var.updateMargin, hf, ← e]
            omega
          · exact Iff.rfl)
      rw [this, and_true]

theorem fixImplicitAll_count (vs us : List ℕ) : ∀ (var : ℕ → Var), (∀ v ∈ vs, v ∈ us) →
    (us.filter (fun v => !((fixImplicitAll vs var).1 v).fixed)).length + (fixImplicitAll vs var).2 ≤
      (us.filter (fun v => !(var v).fixed)).length := by
  induction vs with
  | nil => intro var _; exact le_rfl
  | cons v vs ih =>
    intro var hm
    have hm' : ∀ w ∈ vs, w ∈ us := fun w hw => hm w (List.mem_cons_of_mem _ hw)
    rw [fixImplicitAll]
    split
    · exact ih var hm'
    · rename_i hf
      have hf : (var v).fixed = false := by simpa using hf
      have h1 := ih (Function.update var v (fixImplicit (var v)).1) hm'
      simp only []
      have h2 : (us.filter (fun w => !(Function.update var v (fixImplicit (var v)).1 w).fixed)).length +
          (if (fixImplicit (var v)).2 then 1 else 0) ≤ (us.filter (fun w => !(var w).fixed)).length := by
        unfold fixImplicit
        split
        · rw [if_pos rfl]
          refine filter_length_lt _ _ _ (fun x hx => ?_) v (hm v (by simp)) (by simp [hf]) ?_
          · by_cases hx' : x = v
            · subst hx'; simp [hf]
            · rw [Function.update_of_ne hx'] at hx; exact hx
          · rw [Function.update_self]; simp [Var.fixBy, Var.updateMargin]
        · simp
      omega

theorem fixImplicitAll_small (vs : List ℕ) : ∀ (var : ℕ → Var), Small var → Small (fixImplicitAll vs var).1 := by
  induction vs with
  | nil => intro var h; exact h
  | cons v vs ih =>
    intro var h
    rw [fixImplicitAll]
    split
    · exact ih var h
    · refine ih _ (fun u hu => ?_)
      by_cases hx : u = v
      · subst hx
        rw [Function.update_self] at hu ⊢
        unfold fixImplicit at hu ⊢
        split at hu
        · exact absurd hu (by simp [Var.fixBy, Var.updateMargin])
        · rename_i hne
          simp only [if_neg hne]; exact h u hu
      · rw [Function.update_of_ne hx] at hu ⊢; exact h u hu

/-! ### The loop -/

theorem numUnfixed_le {m m' : MState} (hv : m'.varIds = m.varIds)
    (h : ∀ v, (m.var v).fixed = true → (m'.var v).fixed = true) : numUnfixed m' ≤ numUnfixed m := by
  unfold numUnfixed
  rw [hv]
  refine filter_length_le _ _ _ (fun x hx => ?_)
  by_contra hc
  have : (m.var x).fixed = true := by simpa using hc
  simp [h x this] at hx

/-- One round of the reduction: its state afterwards. -/
def roundState (m1 : MState) : MState := { m1 with var := (fixImplicitAll m1.varIds m1.var).1 }

theorem roundState_same (m : MState) : SameData m (roundState m) :=
  ⟨rfl, rfl, fun _ => rfl, fun _ => rfl, rfl, rfl, rfl, rfl⟩

theorem roundState_feasible (m : MState) (τ : ℕ → ℤ) : Feasible m τ ↔ Feasible (roundState m) τ := by
  unfold Feasible
  exact and_congr (fixImplicitAll_inBounds m.varIds m.var τ) Iff.rfl

theorem reduceLoop_succ (fuel : ℕ) (m : MState) :
    reduceLoop (fuel + 1) m = match tightenAll m.conIds m with
    | .thrown => some .thrown
    | .undefined => some .undefined
    | .ok (m1, disabled) =>
      if disabled = 0 ∧ (fixImplicitAll m1.varIds m1.var).2 = 0 then some (.ok (roundState m1))
      else reduceLoop fuel (roundState m1) := rfl

theorem reduceLoop_terminates (fuel : ℕ) : ∀ (m : MState), numEnabled m + numUnfixed m < fuel →
    ∃ r, reduceLoop fuel m = some r := by
  induction fuel with
  | zero => intro m h; omega
  | succ fuel ih =>
    intro m h
    rw [reduceLoop_succ]
    cases ht : tightenAll m.conIds m with
    | thrown => exact ⟨_, rfl⟩
    | undefined => exact ⟨_, rfl⟩
    | ok p =>
      obtain ⟨m1, n⟩ := p
      simp only []
      split
      · exact ⟨_, rfl⟩
      · rename_i hne
        obtain ⟨k1, k2, k3⟩ := tightenAll_count m.conIds m m1 n (fun _ h => h) ht
        refine ih _ ?_
        have c1 := fixImplicitAll_count m1.varIds m1.varIds m1.var (fun _ h => h)
        have c2 := numUnfixed_le k2.varIds k3
        have e1 : numEnabled (roundState m1) = numEnabled m1 := rfl
        have e2 : numUnfixed (roundState m1) + (fixImplicitAll m1.varIds m1.var).2 ≤ numUnfixed m1 := c1
        omega

theorem reduceLoop_keeps (fuel : ℕ) : ∀ (m : MState) (r : Outcome MState), GoodData m →
    reduceLoop fuel m = some r → ∀ σ, Feasible m σ → ∃ m', r = .ok m' ∧ SameData m m' ∧ Feasible m' σ := by
  induction fuel with
  | zero => intro m r _ h; exact absurd h (by simp [reduceLoop])
  | succ fuel ih =>
    intro m r hg h σ hf
    rw [reduceLoop_succ] at h
    obtain ⟨m1, n, k1, k2, k3⟩ := tightenAll_keeps m.conIds m hg (fun _ h => h) σ hf
    rw [k1] at h
    simp only [] at h
    have k4 := (roundState_feasible m1 σ).1 k3
    split at h
    · cases h; exact ⟨_, rfl, k2.trans (roundState_same m1), k4⟩
    · obtain ⟨m', e1, e2, e3⟩ := ih _ r (hg.of_same (k2.trans (roundState_same m1))) h σ k4
      exact ⟨m', e1, (k2.trans (roundState_same m1)).trans e2, e3⟩

theorem reduceLoop_exact (fuel : ℕ) : ∀ (m : MState) (r : Outcome MState), GoodData m → Small m.var →
    (∃ σ, Feasible m σ) → reduceLoop fuel m = some r →
    ∃ m', r = .ok m' ∧ SameData m m' ∧ ∀ τ, Feasible m τ ↔ Feasible m' τ := by
  induction fuel with
  | zero => intro m r _ _ _ h; exact absurd h (by simp [reduceLoop])
  | succ fuel ih =>
    intro m r hg hs hf h
    rw [reduceLoop_succ] at h
    obtain ⟨m1, n, k1, k2, k3, k4⟩ := tightenAll_exact m.conIds m hg (fun _ h => h) hs hf
    rw [k1] at h
    simp only [] at h
    have k5 := fun τ => (k4 τ).trans (roundState_feasible m1 τ)
    split at h
    · cases h; exact ⟨_, rfl, k2.trans (roundState_same m1), k5⟩
    · obtain ⟨σ, hσ⟩ := hf
      obtain ⟨m', e1, e2, e3⟩ := ih _ r (hg.of_same (k2.trans (roundState_same m1)))
        (fixImplicitAll_small _ _ k3) ⟨σ, (k5 σ).1 hσ⟩ h
      exact ⟨m', e1, (k2.trans (roundState_same m1)).trans e2, fun τ => (k5 τ).trans (e3 τ)⟩

end Printemps.Presolve
