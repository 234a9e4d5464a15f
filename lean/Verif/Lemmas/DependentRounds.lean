import Verif.Lemmas.ZeroCoef
import Verif.Lemmas.SetupVars
import Verif.Lemmas.DependentKey
import Verif.Lemmas.Dependent

/-! Helper lemmas: the rounds of extraction, elimination and reduction of `Model::setup`. -/

namespace Printemps.Setup
open Spec Expr Presolve

/-! ### Variables the reduction does not touch -/

theorem tightenLoop_other (f : ℚ → Var → Outcome Var) (v : ℕ) (ts : List (ℕ × ℚ)) : ∀ var var',
    v ∉ ts.map Prod.fst → tightenLoop f ts var = .ok var' → var' v = var v := by
  induction ts with
  | nil => intro var var' _ h; simp only [tightenLoop, Outcome.ok.injEq] at h; rw [h]
  | cons t ts ih =>
    intro var var' hv h
    rw [tightenLoop] at h
    obtain ⟨w, h1, h2⟩ := bind_ok h
    rw [List.map_cons, List.mem_cons, not_or] at hv
    rw [ih _ _ hv.2 h2, Function.update_of_ne hv.1]

theorem singleton_other (c : Con) (var : ℕ → Var) (i : ℕ) (a : ℚ) (r : (ℕ → Var) × Bool) (v : ℕ) (hv : v ≠ i)
    (h : Presolve.singleton c var i a = .ok r) : r.1 v = var v := by
  have key : ∀ o : Outcome Var, o.bind (fun w => Outcome.ok (Function.update var i w, true)) = .ok r →
      r.1 v = var v := by
    intro o h
    obtain ⟨w, _, h2⟩ := bind_ok h
    simp only [Outcome.ok.injEq] at h2
    rw [← h2]; exact Function.update_of_ne hv _ _
  unfold Presolve.singleton at h
  dsimp only at h
  cases hs : c.sense with
  | equal =>
    rw [hs] at h
    dsimp only at h
    split at h
    · exact absurd h (by simp)
    · simp only [Outcome.ok.injEq] at h
      rw [← h]; exact Function.update_of_ne hv _ _
  | less =>
    rw [hs] at h
    dsimp only at h
    split at h
    · exact key _ h
    · split at h
      · exact key _ h
      · simp only [Outcome.ok.injEq] at h; rw [← h]
  | greater =>
    rw [hs] at h
    dsimp only at h
    split at h
    · exact key _ h
    · split at h
      · exact key _ h
      · simp only [Outcome.ok.injEq] at h; rw [← h]

theorem tightenConstraint_other (c : Con) (var : ℕ → Var) (r : (ℕ → Var) × Bool) (v : ℕ) (hv : v ∉ c.expr.vars)
    (h : tightenConstraint c var = .ok r) : r.1 v = var v := by
  have hm : ∀ t ∈ mutableTerms c.expr var, t.1 ≠ v := by
    intro t ht e
    exact hv (List.mem_map.2 ⟨t, (List.mem_filter.1 ht).1, e⟩)
  unfold tightenConstraint at h
  split at h
  · simp only [Outcome.ok.injEq] at h; rw [← h]
  · split at h
    · rename_i i a e
      exact singleton_other c var i a r v (fun e' => hm (i, a) (by rw [e]; simp) e'.symm) h
    · dsimp only at h
      obtain ⟨w, h1, h2⟩ := bind_ok h
      obtain ⟨x, h3, h4⟩ := bind_ok h2
      simp only [Outcome.ok.injEq] at h4
      subst h4
      have hf : ∀ p : ℕ × ℚ → Bool, v ∉ ((mutableTerms c.expr var).filter p).map Prod.fst := by
        intro p hp
        obtain ⟨t, ht, e⟩ := List.mem_map.1 hp
        exact hm t (List.mem_filter.1 ht).1 e
      show x v = var v
      rw [tightenLoop_other _ v _ _ _ (hf _) h3, tightenLoop_other _ v _ _ _ (hf _) h1]

theorem tightenAll_other (v : ℕ) (cs : List ℕ) : ∀ (m m' : MState) (n : ℕ),
    (∀ c ∈ cs, (m.con c).enabled = true → v ∉ (m.con c).expr.vars) → tightenAll cs m = .ok (m', n) →
    m'.var v = m.var v := by
  induction cs with
  | nil => intro m m' n _ h; simp only [tightenAll, Outcome.ok.injEq, Prod.mk.injEq] at h; rw [h.1]
  | cons c cs ih =>
    intro m m' n hv h
    rw [tightenAll_cons] at h
    split at h
    · rename_i he
      obtain ⟨r, h1, h2⟩ := bind_ok h
      obtain ⟨s, h3, h4⟩ := bind_ok h2
      simp only [Outcome.ok.injEq, Prod.mk.injEq] at h4
      rw [← h4.1, ih (stepState m c r) s.1 s.2 (fun k hk hke => ?_) h3, stepState_var]
      · exact tightenConstraint_other _ _ r v (hv c (by simp) he) h1
      · rw [(stepState_same m c r).expr]
        refine hv k (List.mem_cons_of_mem _ hk) ?_
        rw [stepState_enabled] at hke
        revert hke
        simp
    · exact ih m m' n (fun k hk => hv k (List.mem_cons_of_mem _ hk)) h

theorem reduceLoop_sense (v : ℕ) (fuel : ℕ) : ∀ m m' : MState,
    (∀ c ∈ m.conIds, (m.con c).enabled = true → v ∉ (m.con c).expr.vars) → reduceLoop fuel m = some (.ok m') →
    (m'.var v).sense = (m.var v).sense := by
  induction fuel with
  | zero => intro m m' _ h; exact absurd h (by simp [reduceLoop])
  | succ fuel ih =>
    intro m m' hv h
    rw [reduceLoop_succ] at h
    cases h1 : tightenAll m.conIds m with
    | thrown => rw [h1] at h; exact absurd h (by simp)
    | undefined => rw [h1] at h; exact absurd h (by simp)
    | ok p =>
      obtain ⟨m1, n⟩ := p
      rw [h1] at h
      simp only [] at h
      have k1 := tightenAll_other v _ m m1 n hv h1
      have k2 : ((roundState m1).var v).sense = (m.var v).sense := by
        rw [← k1]
        exact fixImplicitAll_closed (P := fun i w => i = v → w.sense = (m1.var v).sense)
          (fun i w x hw e => hw e) m1.varIds m1.var (fun i e => by rw [e]) v rfl
      split at h
      · simp only [Option.some.injEq, Outcome.ok.injEq] at h
        rw [← h]; exact k2
      · rw [ih _ m' (fun c hc he => ?_) h, k2]
        have hs := (tightenAll_count m.conIds m m1 n (fun _ h => h) h1).2.1
        have hoff := (tightenAll_shrunk (P := fun _ _ => True) ⟨fun _ _ _ _ => trivial, fun _ _ _ _ _ _ _ _ _ _ _ _ => trivial⟩
          m.conIds m m1 n h1).off c
        show v ∉ (m1.con c).expr.vars
        rw [hs.expr]
        refine hv c (by rw [← hs.conIds]; exact hc) ?_
        have he : (m1.con c).enabled = true := he
        rcases hoff with e | e
        · rw [← e]; exact he
        · rw [e] at he; exact absurd he (by simp)

/-! ### Integral coefficients -/

/-- All coefficients are integers. -/
def IntE (e : Expr) : Prop := ∀ t ∈ e.terms, IsInt t.2

theorem isInt_add {a b : ℚ} (ha : IsInt a) (hb : IsInt b) : IsInt (a + b) := by
  obtain ⟨x, rfl⟩ := ha
  obtain ⟨y, rfl⟩ := hb
  exact ⟨x + y, by push_cast; ring⟩

theorem isInt_mul {a b : ℚ} (ha : IsInt a) (hb : IsInt b) : IsInt (a * b) := by
  obtain ⟨x, rfl⟩ := ha
  obtain ⟨y, rfl⟩ := hb
  exact ⟨x * y, by push_cast; ring⟩

theorem isInt_lookup (ts : List (ℕ × ℚ)) (h : ∀ t ∈ ts, IsInt t.2) (v : ℕ) : IsInt (lookup ts v) := by
  induction ts with
  | nil => exact ⟨0, by simp [lookup]⟩
  | cons t ts ih =>
    obtain ⟨w, d⟩ := t
    unfold lookup
    split
    · exact h (w, d) (by simp)
    · exact ih (fun t ht => h t (List.mem_cons_of_mem _ ht))

theorem isInt_upsert (ts : List (ℕ × ℚ)) (h : ∀ t ∈ ts, IsInt t.2) (v : ℕ) (c : ℚ) (hc : IsInt c) :
    ∀ t ∈ upsert ts v c, IsInt t.2 := by
  induction ts with
  | nil => intro t ht; simp only [upsert, List.mem_singleton] at ht; subst ht; exact hc
  | cons s ts ih =>
    obtain ⟨w, d⟩ := s
    have h' := fun t ht => h t (List.mem_cons_of_mem (w, d) ht)
    unfold upsert
    split
    · intro t ht
      rcases List.mem_cons.1 ht with rfl | ht
      · exact isInt_add (h (w, d) (by simp)) hc
      · exact h' t ht
    · intro t ht
      rcases List.mem_cons.1 ht with rfl | ht
      · exact h (w, d) (by simp)
      · exact ih h' t ht

theorem isInt_foldl (us : List (ℕ × ℚ)) : ∀ ts : List (ℕ × ℚ), (∀ t ∈ us, IsInt t.2) → (∀ t ∈ ts, IsInt t.2) →
    ∀ t ∈ us.foldl (fun ts u => upsert ts u.1 u.2) ts, IsInt t.2 := by
  induction us with
  | nil => intro ts _ h; exact h
  | cons u us ih =>
    intro ts hu h
    exact ih _ (fun t ht => hu t (List.mem_cons_of_mem _ ht)) (isInt_upsert ts h u.1 u.2 (hu u (by simp)))

theorem intE_substitute (e f : Expr) (v : ℕ) (he : IntE e) (hf : IntE f) : IntE (e.substitute v f) := by
  intro t ht
  have ht' := (List.mem_filter.1 ht).1
  refine isInt_foldl _ _ (fun u hu => ?_) he t ht'
  obtain ⟨w, hw, rfl⟩ := List.mem_map.1 hu
  exact isInt_mul (hf w hw) (isInt_lookup _ he v)

theorem intE_solve (e f : Expr) (v : ℕ) (he : IntE e) (hs : e.solve v = some f)
    (ha : lookup e.terms v = 1 ∨ lookup e.terms v = -1) : IntE f := by
  unfold Expr.solve at hs
  split at hs
  · simp only [Option.some.injEq] at hs
    rw [← hs]
    intro t ht
    obtain ⟨w, hw, rfl⟩ := List.mem_map.1 ht
    have hw' : w ∈ e.terms := (List.mem_filter.1 hw).1
    refine isInt_mul (he w hw') ?_
    rcases ha with h | h
    · exact ⟨-1, by rw [h]; norm_num⟩
    · exact ⟨1, by rw [h]; norm_num⟩
  · exact absurd hs (by simp)

/-! ### What the elimination does to single expressions -/

open Dependent in
/-- A property of expressions kept by every substitution of a list is kept by the elimination. -/
theorem elimConsOf_pred (P : Expr → Prop) (v : ℕ) (f : Expr) (hP : ∀ e, P e → P (e.substitute v f)) (cs : List ℕ) :
    ∀ (s : (ℕ → Con) × ℕ) (c : ℕ), P (s.1 c).expr → P ((elimConsOf v f cs s).1 c).expr := by
  induction cs with
  | nil => intro s c h; exact h
  | cons i cs ih =>
    intro s c h
    unfold elimConsOf
    refine ih _ c ?_
    split
    · dsimp only
      by_cases hc : c = i
      · subst hc; rw [Function.update_self]; exact hP _ h
      · rw [Function.update_of_ne hc]; exact h
    · exact h

open Dependent in
theorem elimCons_pred (P : Expr → Prop) (m : MState) (rel : ℕ → List ℕ) (ds : List (ℕ × ℕ))
    (hP : ∀ d ∈ ds, ∀ e, P e → P (e.substitute d.1 (m.uexpr d.2).expr)) :
    ∀ (s : (ℕ → Con) × ℕ) (c : ℕ), P (s.1 c).expr → P ((elimCons m rel ds s).1 c).expr := by
  induction ds with
  | nil => intro s c h; exact h
  | cons d ds ih =>
    intro s c h
    unfold elimCons
    exact ih (fun d' hd' => hP d' (List.mem_cons_of_mem _ hd')) _ c
      (elimConsOf_pred P d.1 _ (hP d (by simp)) _ s c h)

open Dependent in
theorem elimConsOf_disabled (v : ℕ) (f : Expr) (cs : List ℕ) :
    ∀ (s : (ℕ → Con) × ℕ) (c : ℕ), (s.1 c).enabled = false → (elimConsOf v f cs s).1 c = s.1 c := by
  induction cs with
  | nil => intro s c h; rfl
  | cons i cs ih =>
    intro s c h
    unfold elimConsOf
    split
    · rename_i he
      have hc : c ≠ i := by rintro rfl; rw [h] at he; exact absurd he (by simp)
      rw [ih _ c (by dsimp only; rw [Function.update_of_ne hc]; exact h)]
      exact Function.update_of_ne hc _ _
    · exact ih s c h

open Dependent in
theorem elimCons_disabled (m : MState) (rel : ℕ → List ℕ) (ds : List (ℕ × ℕ)) :
    ∀ (s : (ℕ → Con) × ℕ) (c : ℕ), (s.1 c).enabled = false → (elimCons m rel ds s).1 c = s.1 c := by
  induction ds with
  | nil => intro s c h; rfl
  | cons d ds ih =>
    intro s c h
    unfold elimCons
    have k := elimConsOf_disabled d.1 (m.uexpr d.2).expr (rel d.1) s c h
    rw [ih _ c (by rw [k]; exact h), k]

open Dependent in
theorem elimExprsOf_pred (P : Expr → Prop) (hP : ∀ e f v, P e → P f → P (e.substitute v f)) (S : ℕ → Prop)
    (d : ℕ × ℕ) (hd : S d.2) (is : List ℕ) : ∀ s : (ℕ → UserExpr) × ℕ,
    (∀ i, S i → P (s.1 i).expr) → ∀ i, S i → P ((elimExprsOf d is s).1 i).expr := by
  induction is with
  | nil => intro s h; exact h
  | cons j is ih =>
    intro s h
    unfold elimExprsOf
    refine ih _ ?_
    split
    · intro i hi
      dsimp only
      by_cases hj : i = j
      · subst hj; rw [Function.update_self]; exact hP _ _ _ (h i hi) (h d.2 hd)
      · rw [Function.update_of_ne hj]; exact h i hi
    · exact h

open Dependent in
theorem elimExprs_pred (P : Expr → Prop) (hP : ∀ e f v, P e → P f → P (e.substitute v f)) (S : ℕ → Prop)
    (ids : List ℕ) (ds : List (ℕ × ℕ)) : ∀ s : (ℕ → UserExpr) × ℕ, (∀ d ∈ ds, S d.2) →
    (∀ i, S i → P (s.1 i).expr) → ∀ i, S i → P ((elimExprs ids ds s).1 i).expr := by
  induction ds with
  | nil => intro s _ h; exact h
  | cons d ds ih =>
    intro s hd h
    unfold elimExprs
    exact ih _ (fun d' hd' => hd d' (List.mem_cons_of_mem _ hd')) (elimExprsOf_pred P hP S d (hd d (by simp)) ids s h)

end Printemps.Setup
