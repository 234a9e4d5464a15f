import Verif.Lemmas.Setup

/-! Helper lemmas: the problem size reducer on constraints with zero coefficients (they come from substitutions).
When the reduction ends without undefined behaviour it does what it does without the zero terms. -/

namespace Printemps.Presolve
open Spec Expr

/-- The expression without its zero terms. -/
def dz (e : Expr) : Expr := { e with terms := e.terms.filter (fun t => decide (t.2 ≠ 0)) }

/-- The constraint without its zero terms. -/
def dzc (c : Con) : Con := { c with expr := dz c.expr }

/-- The model without zero terms in its constraints. -/
def dzm (m : MState) : MState := { m with con := fun c => dzc (m.con c) }

theorem foldl_dz {α : Type} (f : α → ℕ × ℚ → α) (h : ∀ a t, t.2 = 0 → f a t = a) (ts : List (ℕ × ℚ)) (a : α) :
    (ts.filter (fun t => decide (t.2 ≠ 0))).foldl f a = ts.foldl f a := by
  induction ts generalizing a with
  | nil => rfl
  | cons t ts ih =>
    by_cases ht : t.2 = 0
    · rw [List.filter_cons_of_neg (by simp [ht]), List.foldl_cons, h a t ht, ih]
    · rw [List.filter_cons_of_pos (by simp [ht]), List.foldl_cons, List.foldl_cons, ih]

theorem dz_value (e : Expr) (σ : ℕ → ℤ) : exprValue (dz e) σ = exprValue e σ := by
  rw [exprValue_eq, exprValue_eq]
  exact foldl_dz _ (fun a t ht => by simp [ht]) _ _

theorem dz_lower (e : Expr) (b : ℕ → Box) : (dz e).lowerBound b = e.lowerBound b :=
  foldl_dz _ (fun a t ht => by simp [ht]) _ _

theorem dz_upper (e : Expr) (b : ℕ → Box) : (dz e).upperBound b = e.upperBound b :=
  foldl_dz _ (fun a t ht => by simp [ht]) _ _

theorem dz_fixed (e : Expr) (b : ℕ → Box) : (dz e).fixedTermValue b = e.fixedTermValue b := by
  unfold fixedTermValue
  congr 1
  exact foldl_dz _ (fun a t ht => by rw [ht, zero_mul, add_zero, truncQ_int]; simp) _ _

theorem dz_mutable (e : Expr) (var : ℕ → Var) :
    mutableTerms (dz e) var = (mutableTerms e var).filter (fun t => decide (t.2 ≠ 0)) := by
  unfold mutableTerms dz
  simp only []
  rw [List.filter_filter, List.filter_filter]
  congr 1
  funext t
  exact Bool.and_comm _ _

theorem dz_wf (e : Expr) (h : e.WF) : (dz e).WF := by
  unfold Expr.WF Expr.vars
  exact h.sublist (List.filter_sublist.map Prod.fst)

theorem dzc_redundant (c : Con) (var : ℕ → Var) : isRedundant (dzc c) var = isRedundant c var := by
  unfold isRedundant dzc
  simp only [dz_lower, dz_upper]

theorem dzc_holds (c : Con) (σ : ℕ → ℤ) : Holds (dzc c) σ ↔ Holds c σ := by
  unfold Holds
  show (cmpOf c.sense).holds (exprValue (dz c.expr) σ) 0 ↔ _
  rw [dz_value]

theorem tightenNegative_nonzero (c : Con) (lo hi : ℚ) (ts : List (ℕ × ℚ)) : ∀ (var var' : ℕ → Var),
    tightenLoop (tightenNegative c lo hi) ts var = .ok var' → ∀ t ∈ ts, t.2 ≠ 0 := by
  induction ts with
  | nil => intro _ _ _ t ht; simp at ht
  | cons s ts ih =>
    intro var var' h t ht
    unfold tightenLoop at h
    have h0 : s.2 ≠ 0 := by
      intro h0
      rw [tightenNegative, if_pos h0] at h
      exact absurd h (by simp [Outcome.bind])
    rcases List.mem_cons.1 ht with rfl | ht
    · exact h0
    · cases hw : tightenNegative c lo hi s.2 (var s.1) with
      | thrown => rw [hw] at h; exact absurd h (by simp [Outcome.bind])
      | undefined => rw [hw] at h; exact absurd h (by simp [Outcome.bind])
      | ok w => rw [hw] at h; exact ih _ _ h t ht

/-- The general branch of the tightening step. -/
theorem tightenGeneral_nonzero (c : Con) (lo hi : ℚ) (ts : List (ℕ × ℚ)) (var : ℕ → Var) (r : (ℕ → Var) × Bool)
    (h : ((tightenLoop (tightenPositive c lo hi) (ts.filter (fun t => decide (t.2 > 0))) var).bind fun var1 =>
      (tightenLoop (tightenNegative c lo hi) (ts.filter (fun t => !decide (t.2 > 0))) var1).bind fun var2 =>
        .ok (var2, false)) = .ok r) : ∀ t ∈ ts, t.2 ≠ 0 := by
  intro t ht h0
  cases h1 : tightenLoop (tightenPositive c lo hi) (ts.filter (fun t => decide (t.2 > 0))) var with
  | thrown => rw [h1] at h; exact absurd h (by simp [Outcome.bind])
  | undefined => rw [h1] at h; exact absurd h (by simp [Outcome.bind])
  | ok var1 =>
    rw [h1] at h
    simp only [Outcome.bind] at h
    cases h2 : tightenLoop (tightenNegative c lo hi) (ts.filter (fun t => !decide (t.2 > 0))) var1 with
    | thrown => rw [h2] at h; exact absurd h (by simp)
    | undefined => rw [h2] at h; exact absurd h (by simp)
    | ok var2 =>
      exact tightenNegative_nonzero c lo hi _ _ _ h2 t (List.mem_filter.2 ⟨ht, by simp [h0]⟩) h0

theorem filter_nonzero (ts : List (ℕ × ℚ)) (h : ∀ t ∈ ts, t.2 ≠ 0) :
    ts.filter (fun t => decide (t.2 ≠ 0)) = ts := by
  rw [List.filter_eq_self]
  intro t ht
  simpa using h t ht

/-- When a tightening step ends normally, it does the same without the zero terms. -/
theorem tightenConstraint_dz (c : Con) (var : ℕ → Var) (r : (ℕ → Var) × Bool)
    (h : tightenConstraint c var = .ok r) : tightenConstraint (dzc c) var = .ok r := by
  rcases tightenConstraint_cases c var with ⟨hr, e⟩ | ⟨hr, v, a, hm, e⟩ | ⟨hr, hm, e⟩
  · rw [e] at h
    unfold tightenConstraint
    rw [dzc_redundant, if_pos hr]; exact h
  · rw [e] at h
    have hmd : mutableTerms (dzc c).expr var = if a = 0 then [] else [(v, a)] := by
      show mutableTerms (dz c.expr) var = _
      rw [dz_mutable, hm]
      by_cases ha : a = 0 <;> simp [ha]
    unfold tightenConstraint
    rw [dzc_redundant, hr, hmd]
    by_cases ha : a = 0
    · rw [if_pos ha]
      subst ha
      unfold Presolve.singleton at h
      simp only [lt_irrefl, if_false] at h
      cases hs : c.sense with
      | equal => rw [hs] at h; exact absurd h (by simp)
      | less => rw [hs] at h; exact h
      | greater => rw [hs] at h; exact h
    · rw [if_neg ha]
      show Presolve.singleton (dzc c) var v a = .ok r
      rw [← h]
      simp only [Presolve.singleton, dzc, dz_fixed]
      rfl
  · rw [e] at h
    have hne := tightenGeneral_nonzero c _ _ _ var r h
    have hmd : mutableTerms (dzc c).expr var = mutableTerms c.expr var := by
      show mutableTerms (dz c.expr) var = _
      rw [dz_mutable, filter_nonzero _ hne]
    have hg : tightenGeneral (dzc c) var = tightenGeneral c var := by
      unfold tightenGeneral
      rw [hmd]
      simp only [dzc, dz_lower, dz_upper]
      rfl
    rcases tightenConstraint_cases (dzc c) var with ⟨k, _⟩ | ⟨_, v, a, k, _⟩ | ⟨_, _, k⟩
    · rw [dzc_redundant, hr] at k; exact absurd k (by simp)
    · rw [hmd] at k; rw [k] at hm; exact absurd rfl hm
    · rw [k, hg]; exact h

theorem dzm_disable (m : MState) (c : ℕ) : dzm (disable m c) = disable (dzm m) c := by
  unfold dzm disable
  simp only []
  congr 1
  funext k
  by_cases hk : k = c
  · subst hk; simp [dzc]
  · simp [hk]

theorem dzm_step (m : MState) (c : ℕ) (r : (ℕ → Var) × Bool) :
    dzm (stepState m c r) = stepState (dzm m) c r := by
  unfold stepState
  split
  · rw [dzm_disable]; rfl
  · rfl

theorem tightenAll_dz (cs : List ℕ) : ∀ (m m' : MState) (n : ℕ), tightenAll cs m = .ok (m', n) →
    tightenAll cs (dzm m) = .ok (dzm m', n) := by
  induction cs with
  | nil => intro m m' n h; cases h; rfl
  | cons c cs ih =>
    intro m m' n h
    rw [tightenAll_cons] at h ⊢
    show (if (m.con c).enabled = true then _ else _) = _
    split at h
    · rename_i he
      rw [if_pos he]
      cases h1 : tightenConstraint (m.con c) m.var with
      | thrown => rw [h1] at h; exact absurd h (by simp [Outcome.bind])
      | undefined => rw [h1] at h; exact absurd h (by simp [Outcome.bind])
      | ok r =>
        rw [h1] at h
        have h2 : tightenConstraint ((dzm m).con c) (dzm m).var = .ok r := tightenConstraint_dz _ _ _ h1
        rw [h2]
        simp only [Outcome.bind] at h ⊢
        cases h3 : tightenAll cs (stepState m c r) with
        | thrown => rw [h3] at h; exact absurd h (by simp)
        | undefined => rw [h3] at h; exact absurd h (by simp)
        | ok s =>
          obtain ⟨s1, s2⟩ := s
          rw [h3] at h
          simp only [Outcome.ok.injEq, Prod.mk.injEq] at h
          have h4 := ih _ _ _ h3
          rw [dzm_step] at h4
          rw [h4]
          simp only [Outcome.ok.injEq, Prod.mk.injEq]
          exact ⟨by rw [← h.1], h.2⟩
    · rename_i he
      rw [if_neg he]
      exact ih _ _ _ h

theorem dzm_round (m : MState) : dzm (roundState m) = roundState (dzm m) := rfl

theorem reduceLoop_dz (fuel : ℕ) : ∀ m m' : MState, reduceLoop fuel m = some (.ok m') →
    reduceLoop fuel (dzm m) = some (.ok (dzm m')) := by
  induction fuel with
  | zero => intro m m' h; exact absurd h (by simp [reduceLoop])
  | succ fuel ih =>
    intro m m' h
    rw [reduceLoop_succ] at h ⊢
    cases h1 : tightenAll m.conIds m with
    | thrown => rw [h1] at h; exact absurd h (by simp)
    | undefined => rw [h1] at h; exact absurd h (by simp)
    | ok p =>
      obtain ⟨m1, n⟩ := p
      rw [h1] at h
      have h2 : tightenAll (dzm m).conIds (dzm m) = .ok (dzm m1, n) := tightenAll_dz _ _ _ _ h1
      rw [h2]
      simp only [] at h ⊢
      show (if n = 0 ∧ (fixImplicitAll m1.varIds m1.var).2 = 0 then _ else _) = _
      split at h
      · rename_i he
        rw [if_pos he]
        simp only [Option.some.injEq, Outcome.ok.injEq] at h
        rw [← h]; rfl
      · rename_i he
        rw [if_neg he]
        exact ih _ _ h

theorem dzm_feasible (m : MState) (σ : ℕ → ℤ) : Feasible (dzm m) σ ↔ Feasible m σ := by
  unfold Feasible
  exact and_congr Iff.rfl (forall_congr' fun c => imp_congr Iff.rfl (imp_congr Iff.rfl (dzc_holds _ _)))

/-- Linear data with integral coefficients, zero coefficients allowed. -/
def IntData (m : MState) : Prop :=
  ∀ c ∈ m.conIds, (m.con c).expr.WF ∧ ∀ t ∈ (m.con c).expr.terms, IsInt t.2

theorem IntData.dz {m : MState} (h : IntData m) : GoodData (dzm m) := by
  intro c hc
  obtain ⟨h1, h2⟩ := h c hc
  refine ⟨dz_wf _ h1, fun t ht => ?_⟩
  obtain ⟨t1, t2⟩ := List.mem_filter.1 ht
  exact ⟨by simpa using t2, h2 t t1⟩

/-- The reduction on a model with zero coefficients: when it ends normally, it is exact. -/
theorem reduceLoop_exact_zero (fuel : ℕ) (m m' : MState) (hi : IntData m) (hs : Small m.var)
    (hf : ∃ σ, Feasible m σ) (h : reduceLoop fuel m = some (.ok m')) :
    SameCon m m' ∧ (∀ τ, Feasible m τ ↔ Feasible m' τ) ∧ (∀ τ, InBounds m'.var τ → InBounds m.var τ) ∧
      (∀ v, (m.var v).fixed = true → (m'.var v).fixed = true) ∧
      ∀ v ∈ m.varIds, (m'.var v).fixed = false → (m'.var v).lb ≠ (m'.var v).ub := by
  have hd := reduceLoop_dz fuel m m' h
  have hf' : ∃ σ, Feasible (dzm m) σ := hf.imp fun σ hσ => (dzm_feasible m σ).2 hσ
  obtain ⟨m2, e, _, k⟩ := reduceLoop_exact fuel (dzm m) _ hi.dz hs hf' hd
  simp only [Outcome.ok.injEq] at e
  subst e
  obtain ⟨b1, b2, b3⟩ := reduceLoop_box fuel (dzm m) (dzm m') hi.dz hs hf' hd
  refine ⟨reduceLoop_sameCon fuel m m' h, fun τ => ?_, b1, b2, b3⟩
  have := k τ
  rw [dzm_feasible, dzm_feasible] at this
  exact this

/-! ### No exception on a feasible model -/

theorem tightenLoop_not_thrown (f : ℚ → Var → Outcome Var) : ∀ (ts : List (ℕ × ℚ)) (var : ℕ → Var),
    (ts.map Prod.fst).Nodup → (∀ t ∈ ts, f t.2 (var t.1) ≠ .thrown) → tightenLoop f ts var ≠ .thrown := by
  intro ts
  induction ts with
  | nil => intro var _ _ h; exact absurd h (by simp [tightenLoop])
  | cons t ts ih =>
    intro var hn hf
    rw [List.map_cons, List.nodup_cons] at hn
    unfold tightenLoop
    cases hw : f t.2 (var t.1) with
    | thrown => exact absurd hw (hf t (by simp))
    | undefined => simp [Outcome.bind]
    | ok w =>
      refine ih _ hn.2 (fun u hu => ?_)
      have : u.1 ≠ t.1 := fun e => hn.1 (e ▸ List.mem_map_of_mem (f := Prod.fst) hu)
      rw [Function.update_of_ne this]
      exact hf u (List.mem_cons_of_mem _ hu)

theorem tightenGeneral_not_thrown (c : Con) (hw : c.expr.WF) (var : ℕ → Var) (σ : ℕ → ℤ) (hb : InBounds var σ)
    (hh : Holds c σ) : tightenGeneral c var ≠ .thrown := by
  have hn : ((mutableTerms c.expr var).map Prod.fst).Nodup :=
    List.Nodup.sublist ((List.filter_sublist).map _) hw
  have hsub : ∀ p : ℕ × ℚ → Bool, (((mutableTerms c.expr var).filter p).map Prod.fst).Nodup := fun p =>
    List.Nodup.sublist ((List.filter_sublist).map _) hn
  obtain ⟨var1, a1, a2, a3⟩ := tightenLoop_spec
    (tightenPositive c (c.expr.lowerBound (boxes var)) (c.expr.upperBound (boxes var))) σ
    ((mutableTerms c.expr var).filter (fun t => decide (t.2 > 0))) var (hsub _) (by
      intro t ht
      rw [List.mem_filter, mem_mutableTerms] at ht
      exact tightenPositive_spec c hw var σ hb hh t.1 t.2 ht.1.1 ht.1.2 (by simpa using ht.2))
  have hdisj : ∀ t ∈ (mutableTerms c.expr var).filter (fun t => !decide (t.2 > 0)),
      t.1 ∉ ((mutableTerms c.expr var).filter (fun t => decide (t.2 > 0))).map Prod.fst := by
    intro t ht hc
    obtain ⟨u, hu, e⟩ := List.mem_map.1 hc
    rw [List.mem_filter] at ht hu
    have : u = t := by
      have h1 := lookup_of_mem _ hn u.1 u.2 hu.1
      have h2 := lookup_of_mem _ hn t.1 t.2 ht.1
      rw [e, h2] at h1
      exact Prod.ext e h1.symm
    subst this
    have h1 := hu.2
    have h2 := ht.2
    simp only [h1] at h2
    simp at h2
  have b := tightenLoop_not_thrown
    (tightenNegative c (c.expr.lowerBound (boxes var)) (c.expr.upperBound (boxes var)))
    ((mutableTerms c.expr var).filter (fun t => !decide (t.2 > 0))) var1 (hsub _) (by
      intro t ht
      rw [a2 _ (hdisj t ht)]
      by_cases h0 : t.2 = 0
      · rw [tightenNegative, if_pos h0]; simp
      · rw [List.mem_filter, mem_mutableTerms] at ht
        have h1 : ¬ t.2 > 0 := by simpa using ht.2
        obtain ⟨w, hw', _⟩ := tightenNegative_spec c hw var σ hb hh t.1 t.2 ht.1.1 ht.1.2
          (lt_of_le_of_ne (not_lt.1 h1) h0)
        rw [hw']; simp)
  simp only [tightenGeneral, a1, Outcome.bind]
  cases h2 : tightenLoop (tightenNegative c (c.expr.lowerBound (boxes var)) (c.expr.upperBound (boxes var)))
    ((mutableTerms c.expr var).filter (fun t => !decide (t.2 > 0))) var1 with
  | thrown => exact absurd h2 b
  | undefined => simp
  | ok v => simp

theorem fixedInt_of (c : Con) (hi : ∀ t ∈ c.expr.terms, IsInt t.2) (var : ℕ → Var) : FixedInt c var :=
  fun t ht _ => isInt_mul_int (hi t ht) _

theorem tightenConstraint_not_thrown (c : Con) (hw : c.expr.WF) (hi : ∀ t ∈ c.expr.terms, IsInt t.2) (var : ℕ → Var)
    (σ : ℕ → ℤ) (hb : InBounds var σ) (hh : Holds c σ) : tightenConstraint c var ≠ .thrown := by
  rcases tightenConstraint_cases c var with ⟨_, e⟩ | ⟨_, v, a, hm, e⟩ | ⟨_, _, e⟩
  · rw [e]; simp
  · rw [e]
    by_cases ha : a = 0
    · subst ha
      unfold Presolve.singleton
      simp only [lt_irrefl, if_false]
      cases c.sense <;> simp
    · obtain ⟨hmem, hf⟩ := mutable_singleton hm
      have hh' := hh
      unfold Holds at hh'
      rw [exprValue_singleton c.expr var σ hb (fixedInt_of c hi var) v a hm] at hh'
      obtain ⟨w, k, _⟩ := singleton_keeps c var v a hf ha (σ v) (hb v) hh'
      rw [k]; simp
  · rw [e]; exact tightenGeneral_not_thrown c hw var σ hb hh

theorem goodCon_dz (c : Con) (hw : c.expr.WF) : GoodCon (dzc c) :=
  ⟨dz_wf _ hw, fun t ht => by simpa using (List.mem_filter.1 ht).2⟩

theorem IntData.of_same {m m' : MState} (h : IntData m) (s : SameData m m') : IntData m' := by
  intro c hc
  rw [s.conIds] at hc
  rw [s.expr]
  exact h c hc

theorem tightenAll_not_thrown (cs : List ℕ) : ∀ m : MState, IntData m → (∀ c ∈ cs, c ∈ m.conIds) →
    ∀ σ, Feasible m σ → tightenAll cs m ≠ .thrown := by
  induction cs with
  | nil => intro m _ _ σ _ h; exact absurd h (by simp [tightenAll])
  | cons c cs ih =>
    intro m hg hcs σ hf
    rw [tightenAll_cons]
    by_cases he : (m.con c).enabled = true
    · rw [if_pos he]
      have hcm := hcs c (by simp)
      have hh := hf.2 c hcm he
      cases h1 : tightenConstraint (m.con c) m.var with
      | thrown => exact absurd h1 (tightenConstraint_not_thrown _ (hg c hcm).1 (hg c hcm).2 _ σ hf.1 hh)
      | undefined => simp [Outcome.bind]
      | ok r =>
        have h2 := tightenConstraint_dz _ _ _ h1
        obtain ⟨var', d, k1, k2⟩ := tightenConstraint_keeps (dzc (m.con c)) (goodCon_dz _ (hg c hcm).1) m.var
          (fixedInt_of _ (fun t ht => (hg c hcm).2 t (List.mem_filter.1 ht).1) _) σ hf.1 ((dzc_holds _ σ).2 hh)
        rw [h2] at k1
        simp only [Outcome.ok.injEq] at k1
        subst k1
        have s := stepState_same m c (var', d)
        have := ih (stepState m c (var', d)) (hg.of_same s)
          (fun k hk => by rw [s.conIds]; exact hcs k (List.mem_cons_of_mem _ hk)) σ (stepState_keeps m c (var', d) σ hf k2)
        simp only [Outcome.bind]
        cases h3 : tightenAll cs (stepState m c (var', d)) with
        | thrown => exact absurd h3 this
        | undefined => simp
        | ok s => simp
    · rw [if_neg he]
      exact ih m hg (fun k hk => hcs k (List.mem_cons_of_mem _ hk)) σ hf

theorem reduceLoop_not_thrown (fuel : ℕ) : ∀ m : MState, IntData m → ∀ σ, Feasible m σ →
    reduceLoop fuel m ≠ some .thrown := by
  induction fuel with
  | zero => intro m _ σ _ h; exact absurd h (by simp [reduceLoop])
  | succ fuel ih =>
    intro m hg σ hf
    rw [reduceLoop_succ]
    cases h1 : tightenAll m.conIds m with
    | thrown => exact absurd h1 (tightenAll_not_thrown _ m hg (fun _ h => h) σ hf)
    | undefined => simp
    | ok p =>
      obtain ⟨m1, n⟩ := p
      simp only []
      split
      · simp
      · have h2 : tightenAll (dzm m).conIds (dzm m) = .ok (dzm m1, n) := tightenAll_dz _ _ _ _ h1
        obtain ⟨m', n', k1, k2, k3⟩ := tightenAll_keeps (dzm m).conIds (dzm m) hg.dz (fun _ h => h) σ
          ((dzm_feasible m σ).2 hf)
        rw [h2] at k1
        simp only [Outcome.ok.injEq, Prod.mk.injEq] at k1
        obtain ⟨rfl, -⟩ := k1
        have k4 := (roundState_feasible m1 σ).1 ((dzm_feasible m1 σ).1 k3)
        refine ih _ ?_ σ k4
        have sc := tightenAll_sameCon m.conIds m m1 n h1
        have hids : m1.conIds = m.conIds := k2.conIds
        intro c hc
        obtain ⟨e, he⟩ := sc c
        show (m1.con c).expr.WF ∧ ∀ t ∈ (m1.con c).expr.terms, IsInt t.2
        rw [he]
        exact hg c (by rw [← hids]; exact hc)

end Printemps.Presolve
