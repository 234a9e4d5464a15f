import Verif.Lemmas.PresolveLoop

/-! Helper lemmas about duplicates, implicit equalities and set constraints. -/

namespace Printemps.Presolve
open Spec Expr

theorem exprEqual_value {e f : Expr} (he : e.WF) (h : exprEqual e f = true) (σ : ℕ → ℤ) :
    exprValue e σ = exprValue f σ := by
  unfold exprEqual mapEq at h
  simp only [Bool.and_eq_true, beq_iff_eq, decide_eq_true_eq, List.all_eq_true] at h
  obtain ⟨⟨⟨_, _⟩, hc⟩, hl, hs⟩ := h
  have hn : e.terms.Nodup := List.Nodup.of_map _ he
  have hp : e.terms.Perm f.terms :=
    (List.subperm_of_subset hn hs).perm_of_length_le (le_of_eq hl.symm)
  unfold exprValue
  rw [hc, (hp.map _).sum_eq]

theorem exprValue_neg (e : Expr) (σ : ℕ → ℤ) : exprValue e.neg σ = - exprValue e σ := by
  rw [exprValue_eq, exprValue_eq, evaluate_neg]

theorem exprValue_subValue_zero (e : Expr) (σ : ℕ → ℤ) : exprValue (e.subValue 0) σ = exprValue e σ := by
  rw [exprValue_eq, exprValue_eq, evaluate_subValue, sub_zero]

/-- Disabling a constraint that another enabled constraint implies. -/
theorem feasible_disable (m : MState) (j : ℕ) (σ : ℕ → ℤ)
    (h : Feasible (disable m j) σ → j ∈ m.conIds → (m.con j).enabled = true → Holds (m.con j) σ) :
    Feasible m σ ↔ Feasible (disable m j) σ := by
  have hd := disable_same m j
  constructor
  · intro hf
    rw [feasible_iff_of m _ hd]
    refine ⟨hf.1, fun c hc he => hf.2 c hc ?_⟩
    rw [disable_con] at he
    split at he
    · exact absurd he (by simp)
    · exact he
  · intro hf
    have hf' := (feasible_iff_of m _ hd σ).1 hf
    refine ⟨hf'.1, fun c hc he => ?_⟩
    by_cases hcj : c = j
    · subst hcj; exact h hf hc he
    · exact hf'.2 c hc (by rw [disable_con, if_neg hcj]; exact he)

/-- Distinct variables in all constraints of the model. -/
def AllWF (m : MState) : Prop := ∀ c ∈ m.conIds, (m.con c).expr.WF

theorem AllWF.of_same {m m' : MState} (h : AllWF m) (s : SameData m m') : AllWF m' := by
  intro c hc
  rw [s.conIds] at hc
  rw [s.expr]; exact h c hc

theorem dropDuplicatesOf_spec (i : ℕ) (js : List ℕ) : ∀ (m : MState), i ∈ m.conIds → (m.con i).enabled = true →
    AllWF m → i ∉ js → SameData m (dropDuplicatesOf i js m) ∧
      (dropDuplicatesOf i js m).var = m.var ∧ ((dropDuplicatesOf i js m).con i).enabled = true ∧
      ∀ σ, Feasible m σ ↔ Feasible (dropDuplicatesOf i js m) σ := by
  induction js with
  | nil => intro m _ he _ _; exact ⟨SameData.refl m, rfl, he, fun _ => Iff.rfl⟩
  | cons j js ih =>
    intro m hi he hw hn
    rw [List.mem_cons, not_or] at hn
    have hstep : ∀ m1, (m1 = m ∨ m1 = disable m j) → SameData m m1 ∧ m1.var = m.var ∧
        (m1.con i).enabled = true := by
      rintro m1 (rfl | rfl)
      · exact ⟨SameData.refl _, rfl, he⟩
      · exact ⟨disable_same m j, rfl, by rw [disable_con, if_neg hn.1]; exact he⟩
    unfold dropDuplicatesOf
    rw [List.foldl_cons]
    split
    · rename_i hc
      obtain ⟨s1, s2, s3⟩ := hstep (disable m j) (Or.inr rfl)
      obtain ⟨k1, k2, k3, k4⟩ := ih (disable m j) (by rw [s1.conIds]; exact hi) s3 (hw.of_same s1) hn.2
      refine ⟨s1.trans k1, k2.trans s2, k3, fun σ => Iff.trans ?_ (k4 σ)⟩
      refine feasible_disable m j σ (fun hf _ _ => ?_)
      have h1 : Holds (m.con i) σ := ((feasible_iff_of m _ s1 σ).1 hf).2 i hi s3
      unfold Holds at h1 ⊢
      rw [← hc.2.1, ← exprEqual_value (hw i hi) hc.2.2]
      exact h1
    · obtain ⟨k1, k2, k3, k4⟩ := ih m hi he hw hn.2
      exact ⟨k1, k2, k3, k4⟩

theorem dropDuplicates_spec (l : List ℕ) (m : MState) (hw : AllWF m) (hn : l.Nodup)
    (hl : ∀ c ∈ l, c ∈ m.conIds) :
    SameData m (dropDuplicates m l) ∧ ∀ σ, Feasible m σ ↔ Feasible (dropDuplicates m l) σ := by
  induction hlen : l.length using Nat.strong_induction_on generalizing l m with
  | _ n ih =>
    cases l with
    | nil => rw [dropDuplicates]; exact ⟨SameData.refl m, fun _ => Iff.rfl⟩
    | cons i rest =>
      rw [List.nodup_cons] at hn
      rw [dropDuplicates]
      split
      · rename_i he
        simp only []
        generalize hs : (fun j => exprHash (m.con i).expr == exprHash (m.con j).expr) = same
        obtain ⟨k1, k2, k3, k4⟩ := dropDuplicatesOf_spec i (rest.takeWhile same) m (hl i (by simp)) he hw
          (fun h => hn.1 ((List.takeWhile_sublist same).subset h))
        have hsub := List.dropWhile_sublist (l := rest) same
        obtain ⟨e1, e2⟩ := ih (rest.dropWhile same).length (by
            rw [← hlen, List.length_cons]; exact Nat.lt_succ_of_le hsub.length_le)
          (rest.dropWhile same) (dropDuplicatesOf i (rest.takeWhile same) m) (hw.of_same k1)
          (hn.2.sublist hsub)
          (fun c hc => by rw [k1.conIds]; exact hl c (List.mem_cons_of_mem _ (hsub.subset hc))) rfl
        exact ⟨k1.trans e1, fun σ => (k4 σ).trans (e2 σ)⟩
      · exact ih rest.length (by rw [← hlen]; simp) rest m hw hn.2
          (fun c hc => hl c (List.mem_cons_of_mem _ hc)) rfl

theorem sortByHash_perm (m : MState) (cs : List ℕ) : (sortByHash m cs).Perm cs := List.mergeSort_perm _ _

theorem removeDuplicated_spec (groups : List (List ℕ)) : ∀ (m : MState), AllWF m → (∀ g ∈ groups, g.Nodup) →
    (∀ g ∈ groups, ∀ c ∈ g, c ∈ m.conIds) →
    SameData m (removeDuplicated groups m) ∧ ∀ σ, Feasible m σ ↔ Feasible (removeDuplicated groups m) σ := by
  induction groups with
  | nil => intro m _ _ _; exact ⟨SameData.refl m, fun _ => Iff.rfl⟩
  | cons g groups ih =>
    intro m hw hn hm
    unfold removeDuplicated
    rw [List.foldl_cons]
    have hstep : SameData m (if g.length ≤ 1 then m else dropDuplicates m (sortByHash m g)) ∧
        ∀ σ, Feasible m σ ↔ Feasible (if g.length ≤ 1 then m else dropDuplicates m (sortByHash m g)) σ := by
      split
      · exact ⟨SameData.refl m, fun _ => Iff.rfl⟩
      · have hp := sortByHash_perm m g
        exact dropDuplicates_spec _ m hw (hp.nodup_iff.2 (hn g (by simp)))
          (fun c hc => hm g (by simp) c (hp.mem_iff.1 hc))
    obtain ⟨s1, s2⟩ := hstep
    obtain ⟨k1, k2⟩ := ih _ (hw.of_same s1) (fun g' h => hn g' (List.mem_cons_of_mem _ h))
      (fun g' h c hc => by rw [s1.conIds]; exact hm g' (List.mem_cons_of_mem _ h) c hc)
    exact ⟨s1.trans k1, fun σ => (s2 σ).trans (k2 σ)⟩

/-! ### Implicit equalities -/

theorem impliesEquality_holds (ci cj : Con) (hi : ci.expr.WF) (hs : ci.sense ≠ .equal)
    (h : impliesEquality ci cj = true) (senseOf : ℕ → VarSense) (σ : ℕ → ℤ) :
    (Holds ci σ ∧ Holds cj σ) ↔ Holds (Con.setup (ci.expr.subValue 0) .equal senseOf) σ := by
  unfold impliesEquality at h
  simp only [Bool.and_eq_true, Bool.or_eq_true, bne_iff_ne, beq_iff_eq] at h
  have hr : Holds (Con.setup (ci.expr.subValue 0) .equal senseOf) σ ↔ exprValue ci.expr σ = 0 := by
    unfold Holds Con.setup
    simp only [cmpOf, Cmp.holds, exprValue_subValue_zero]
  rw [hr]
  unfold Holds
  rcases h.2 with ⟨hne, he⟩ | ⟨heq, he⟩
  · have hv := exprEqual_value hi he σ
    rw [← hv]
    cases h1 : ci.sense <;> cases h2 : cj.sense <;> rw [h1] at hs hne <;> rw [h2] at hne <;>
      simp [cmpOf, Cmp.holds] at hs hne ⊢
    · exact fun h => h ▸ le_rfl
    · exact ⟨fun h => le_antisymm h.1 h.2, fun h => ⟨h ▸ le_rfl, h ▸ le_rfl⟩⟩
    · exact ⟨fun h => le_antisymm h.2 h.1, fun h => ⟨h ▸ le_rfl, h ▸ le_rfl⟩⟩
    · exact fun h => h ▸ le_rfl
  · have hv := exprEqual_value hi he σ
    rw [exprValue_neg] at hv
    have hv' : exprValue cj.expr σ = - exprValue ci.expr σ := by linarith
    rw [← heq, hv']
    cases h1 : ci.sense <;> rw [h1] at hs <;> simp [cmpOf, Cmp.holds] at hs ⊢
    · exact ⟨fun h => le_antisymm h.1 h.2, fun h => ⟨h ▸ le_rfl, h ▸ le_rfl⟩⟩
    · exact ⟨fun h => le_antisymm h.2 h.1, fun h => ⟨h ▸ le_rfl, h ▸ le_rfl⟩⟩

theorem implicitEqualities_spec (senseOf : ℕ → VarSense) (l : List ℕ) (m : MState) (hw : AllWF m)
    (hl : ∀ c ∈ l, c ∈ m.conIds) :
    SameData m (implicitEqualities senseOf m l).1 ∧
    (∀ c ∈ (implicitEqualities senseOf m l).2, c.enabled = true) ∧
    ∀ σ, Feasible m σ ↔ Feasible (implicitEqualities senseOf m l).1 σ ∧
      ∀ c ∈ (implicitEqualities senseOf m l).2, Holds c σ := by
  induction hlen : l.length using Nat.strong_induction_on generalizing l m with
  | _ n ih =>
    cases l with
    | nil => rw [implicitEqualities]; exact ⟨SameData.refl m, by simp, fun σ => by simp⟩
    | cons i rest =>
      have hi := hl i (by simp)
      have hrest : ∀ c ∈ rest, c ∈ m.conIds := fun c hc => hl c (List.mem_cons_of_mem _ hc)
      rw [implicitEqualities]
      split
      · rename_i he
        simp only []
        generalize hs : (fun j => exprHash (m.con i).expr == exprHash (m.con j).expr) = same
        cases hfind : (rest.takeWhile same).find? (fun j => impliesEquality (m.con i) (m.con j)) with
        | none =>
          simp only []
          have hsub := List.dropWhile_sublist (l := rest) same
          exact ih (rest.dropWhile same).length (by
            rw [← hlen, List.length_cons]; exact Nat.lt_succ_of_le hsub.length_le)
            (rest.dropWhile same) m hw (fun c hc => hrest c (hsub.subset hc)) rfl
        | some j =>
          simp only []
          have hp := List.find?_some hfind
          have hj : j ∈ m.conIds := hrest j
            ((List.takeWhile_sublist same).subset (List.mem_of_find?_eq_some hfind))
          have hje : (m.con j).enabled = true := by
            unfold impliesEquality at hp
            simp only [Bool.and_eq_true] at hp
            exact hp.1
          have sd := (disable_same m i).trans (disable_same (disable m i) j)
          obtain ⟨k1, k2, k3⟩ := ih rest.length (by rw [← hlen]; simp) rest (disable (disable m i) j)
            (hw.of_same sd) (fun c hc => by rw [sd.conIds]; exact hrest c hc) rfl
          refine ⟨sd.trans k1, ?_, fun σ => ?_⟩
          · intro c hc
            rcases List.mem_cons.1 hc with rfl | hc
            · rfl
            · exact k2 c hc
          · have key := impliesEquality_holds (m.con i) (m.con j) (hw i hi) he.2 hp senseOf σ
            have e1 : Feasible m σ ↔ Feasible (disable (disable m i) j) σ ∧
                Holds (Con.setup ((m.con i).expr.subValue 0) .equal senseOf) σ := by
              rw [feasible_iff_of m _ sd, ← key]
              have hen : ∀ c, ((disable (disable m i) j).con c).enabled = true ↔
                  (c ≠ j ∧ c ≠ i ∧ (m.con c).enabled = true) := by
                intro c
                rw [disable_con, disable_con]
                by_cases h1 : c = j
                · simp [h1]
                · by_cases h2 : c = i
                  · simp [h2]
                  · simp [h1, h2]
              constructor
              · intro hf
                exact ⟨⟨hf.1, fun c hc hce => hf.2 c hc ((hen c).1 hce).2.2⟩, hf.2 i hi he.1, hf.2 j hj hje⟩
              · rintro ⟨⟨h1, h2⟩, h3, h4⟩
                refine ⟨h1, fun c hc hce => ?_⟩
                by_cases c1 : c = j
                · subst c1; exact h4
                · by_cases c2 : c = i
                  · subst c2; exact h3
                  · exact h2 c hc ((hen c).2 ⟨c1, c2, hce⟩)
            rw [e1, k3 σ]
            simp only [List.forall_mem_cons]
            tauto
      · exact ih rest.length (by rw [← hlen]; simp) rest m hw hrest rfl

theorem getD_of_lt {α} (l : List α) (d : α) {n : ℕ} (h : n < l.length) : l.getD n d = l[n] := by
  simp [List.getD, h]

theorem extractImplicitEqualities_spec (senseOf : ℕ → VarSense) (cs : List ℕ) (next : ℕ) (m : MState)
    (hw : AllWF m) (hl : ∀ c ∈ cs, c ∈ m.conIds) (hnext : ∀ c ∈ m.conIds, c < next) (σ : ℕ → ℤ) :
    Feasible m σ ↔ Feasible (extractImplicitEqualities senseOf cs next m) σ := by
  unfold extractImplicitEqualities
  split
  · exact Iff.rfl
  · have hp := sortByHash_perm m cs
    obtain ⟨k1, k2, k3⟩ := implicitEqualities_spec senseOf (sortByHash m cs) m hw
      (fun c hc => hl c (hp.mem_iff.1 hc))
    simp only []
    generalize implicitEqualities senseOf m (sortByHash m cs) = r at k1 k2 k3
    rw [k3 σ]
    have hold : ∀ c ∈ r.1.conIds, ¬ (next ≤ c ∧ c < next + r.2.length) := by
      intro c hc h
      rw [k1.conIds] at hc
      exact absurd h.1 (Nat.not_le.2 (hnext c hc))
    unfold Feasible
    simp only [List.forall_mem_append]
    constructor
    · rintro ⟨⟨h1, h2⟩, h3⟩
      refine ⟨h1, fun c hc => ?_, ?_⟩
      · rw [if_neg (hold c hc)]; exact h2 c hc
      · intro c hc he
        obtain ⟨k, hk, rfl⟩ := List.mem_map.1 hc
        rw [List.mem_range] at hk
        rw [if_pos ⟨Nat.le_add_right _ _, Nat.add_lt_add_left hk _⟩] at he ⊢
        rw [Nat.add_sub_cancel_left, getD_of_lt _ _ hk]
        exact h3 _ (List.getElem_mem hk)
    · rintro ⟨h1, h2, h3⟩
      refine ⟨⟨h1, fun c hc he => ?_⟩, fun c hc => ?_⟩
      · have := h2 c hc
        rw [if_neg (hold c hc)] at this
        exact this he
      · obtain ⟨k, hk, rfl⟩ := List.getElem_of_mem hc
        have := h3 (next + k) (List.mem_map.2 ⟨k, List.mem_range.2 hk, rfl⟩)
        rw [if_pos ⟨Nat.le_add_right _ _, Nat.add_lt_add_left hk _⟩, Nat.add_sub_cancel_left, getD_of_lt _ _ hk] at this
        exact this (k2 _ (List.getElem_mem hk))

/-! ### Set partitioning -/

/-- The form of set partitioning and exclusive-or constraints: `Σ x = 1`, possibly multiplied by `-1`. -/
def OneForm (c : Con) : Prop :=
  c.sense = .equal ∧ (((∀ t ∈ c.expr.terms, t.2 = 1) ∧ c.expr.const = -1) ∨
    ((∀ t ∈ c.expr.terms, t.2 = -1) ∧ c.expr.const = 1))

theorem sum_terms_const (ts : List (ℕ × ℚ)) (k : ℚ) (h : ∀ t ∈ ts, t.2 = k) (σ : ℕ → ℤ) :
    (ts.map (fun t => t.2 * (σ t.1 : ℚ))).sum = k * (((ts.map Prod.fst).map σ).sum : ℤ) := by
  induction ts with
  | nil => simp
  | cons t ts ih =>
    rw [List.map_cons, List.sum_cons, ih (fun u hu => h u (List.mem_cons_of_mem _ hu)), h t (by simp),
      List.map_cons, List.map_cons, List.sum_cons]
    push_cast; ring

theorem OneForm.holds {c : Con} (h : OneForm c) (σ : ℕ → ℤ) :
    Holds c σ ↔ (c.expr.vars.map σ).sum = 1 := by
  unfold Holds exprValue Expr.vars
  rw [h.1]
  show _ = (0 : ℚ) ↔ _
  rcases h.2 with ⟨h1, h2⟩ | ⟨h1, h2⟩
  · rw [sum_terms_const _ _ h1, h2]
    constructor
    · intro h; have : (((c.expr.terms.map Prod.fst).map σ).sum : ℚ) = 1 := by linarith
      exact_mod_cast this
    · intro h; rw [h]; norm_num
  · rw [sum_terms_const _ _ h1, h2]
    constructor
    · intro h; have : (((c.expr.terms.map Prod.fst).map σ).sum : ℚ) = 1 := by linarith
      exact_mod_cast this
    · intro h; rw [h]; norm_num

theorem sum_subset_split (a b : List ℕ) (ha : a.Nodup) (hb : b.Nodup) (h : ∀ v ∈ b, v ∈ a) (σ : ℕ → ℤ) :
    (a.map σ).sum = (b.map σ).sum + ((a.filter (fun v => decide (v ∉ b))).map σ).sum := by
  have h1 : (a.filter (fun v => decide (v ∈ b)) ++ a.filter (fun v => !decide (v ∈ b))).Perm a :=
    List.filter_append_perm _ _
  have h2 : (a.filter (fun v => decide (v ∈ b))).Perm b := by
    rw [List.perm_ext_iff_of_nodup (ha.filter _) hb]
    intro v
    simp only [List.mem_filter, decide_eq_true_eq]
    exact ⟨fun h => h.2, fun hv => ⟨h v hv, hv⟩⟩
  rw [← (h1.map σ).sum_eq, List.map_append, List.sum_append, (h2.map σ).sum_eq]
  congr 2
  congr 1
  apply List.filter_congr
  intro v _
  simp

theorem all_zero_of_sum_zero (l : List ℕ) (σ : ℕ → ℤ) (h0 : ∀ v ∈ l, 0 ≤ σ v) (hs : (l.map σ).sum = 0) :
    ∀ v ∈ l, σ v = 0 := by
  induction l with
  | nil => simp
  | cons a l ih =>
    rw [List.map_cons, List.sum_cons] at hs
    have h1 : 0 ≤ (l.map σ).sum := List.sum_nonneg (by
      intro x hx
      obtain ⟨v, hv, rfl⟩ := List.mem_map.1 hx
      exact h0 v (List.mem_cons_of_mem _ hv))
    have h2 := h0 a (by simp)
    intro v hv
    rcases List.mem_cons.1 hv with rfl | hv
    · omega
    · exact ih (fun w hw => h0 w (List.mem_cons_of_mem _ hw)) (by omega) v hv

theorem fixZero_same (vs : List ℕ) (m : MState) : SameData m (fixZero vs m) :=
  ⟨rfl, rfl, fun _ => rfl, fun _ => rfl, rfl, rfl, rfl, rfl⟩

theorem admits_fixBy (v : Var) (x y : ℤ) : Admits (v.fixBy x) y ↔ y = x := by
  simp [Admits, Var.fixBy, Var.updateMargin]

theorem fixZero_inBounds (vs : List ℕ) (m : MState) (σ : ℕ → ℤ) (h : ∀ v ∈ vs, Admits (m.var v) 0) :
    InBounds (fixZero vs m).var σ ↔ InBounds m.var σ ∧ ∀ v ∈ vs, σ v = 0 := by
  constructor
  · intro hb
    have hz : ∀ v ∈ vs, σ v = 0 := by
      intro v hv
      have := hb v
      unfold fixZero at this
      simp only [hv, if_true, admits_fixBy] at this
      exact this
    refine ⟨fun v => ?_, hz⟩
    by_cases hv : v ∈ vs
    · rw [hz v hv]; exact h v hv
    · have := hb v
      unfold fixZero at this
      simp only [hv, if_false] at this
      exact this
  · rintro ⟨hb, hz⟩ v
    unfold fixZero
    by_cases hv : v ∈ vs
    · simp only [hv, if_true, admits_fixBy]; exact hz v hv
    · simp only [hv, if_false]; exact hb v

theorem fixZero_inBounds_keeps (vs : List ℕ) (m : MState) (σ : ℕ → ℤ) (hb : InBounds m.var σ)
    (hz : ∀ v ∈ vs, σ v = 0) : InBounds (fixZero vs m).var σ := by
  intro v
  unfold fixZero
  by_cases hv : v ∈ vs
  · simp only [hv, if_true, admits_fixBy]; exact hz v hv
  · simp only [hv, if_false]; exact hb v

/-- One removal step of `remove_redundant_set_constraints`. -/
def supersetStep (m : MState) (i j : ℕ) : MState :=
  fixZero ((m.con i).expr.vars.filter (fun v => decide (v ∉ (m.con j).expr.vars))) (disable m i)

theorem supersetStep_same (m : MState) (i j : ℕ) : SameData m (supersetStep m i j) :=
  (disable_same m i).trans (fixZero_same _ _)

/-- Variables of the constraint are nonnegative in every assignment within bounds and fixings. -/
def NonnegVars (c : Con) (var : ℕ → Var) : Prop :=
  ∀ v ∈ c.expr.vars, ((var v).fixed = true → 0 ≤ (var v).value) ∧ ((var v).fixed = false → 0 ≤ (var v).lb)

theorem NonnegVars.le {c : Con} {var : ℕ → Var} (h : NonnegVars c var) {σ : ℕ → ℤ} (hb : InBounds var σ)
    {v : ℕ} (hv : v ∈ c.expr.vars) : 0 ≤ σ v := by
  cases hf : (var v).fixed
  · exact le_trans ((h v hv).2 hf) ((hb v).2 hf).1
  · rw [(hb v).1 hf]; exact (h v hv).1 hf

theorem supersetStep_extras (m : MState) (i j : ℕ) (hw : AllWF m) (hi : i ∈ m.conIds) (hj : j ∈ m.conIds)
    (hei : (m.con i).enabled = true) (hej : (m.con j).enabled = true)
    (oi : OneForm (m.con i)) (oj : OneForm (m.con j)) (hn : NonnegVars (m.con i) m.var)
    (hsub : ∀ v ∈ (m.con j).expr.vars, v ∈ (m.con i).expr.vars) (σ : ℕ → ℤ) (hf : Feasible m σ) :
    ∀ v ∈ (m.con i).expr.vars.filter (fun v => decide (v ∉ (m.con j).expr.vars)), σ v = 0 := by
  have h1 := (oi.holds σ).1 (hf.2 i hi hei)
  have h2 := (oj.holds σ).1 (hf.2 j hj hej)
  rw [sum_subset_split _ _ (hw i hi) (hw j hj) hsub σ, h2] at h1
  exact all_zero_of_sum_zero _ σ (fun v hv => hn.le hf.1 (List.mem_filter.1 hv).1) (by linarith)

theorem supersetStep_enabled (m : MState) (i j k : ℕ) :
    ((supersetStep m i j).con k).enabled = (if k = i then false else (m.con k).enabled) := disable_con m i k

theorem supersetStep_feasible (m : MState) (i j : ℕ) (hij : i ≠ j) (hw : AllWF m) (hi : i ∈ m.conIds)
    (hj : j ∈ m.conIds) (hej : (m.con j).enabled = true)
    (oi : OneForm (m.con i)) (oj : OneForm (m.con j))
    (hz : ∀ v ∈ (m.con i).expr.vars, Admits (m.var v) 0)
    (hsub : ∀ v ∈ (m.con j).expr.vars, v ∈ (m.con i).expr.vars) (σ : ℕ → ℤ)
    (hf : Feasible (supersetStep m i j) σ) : Feasible m σ := by
  have sd := supersetStep_same m i j
  have hf' := (feasible_iff_of m _ sd σ).1 hf
  have hb := (fixZero_inBounds _ (disable m i) σ (by
    intro v hv
    exact hz v (List.mem_filter.1 hv).1)).1 hf'.1
  refine ⟨hb.1, fun c hc he => ?_⟩
  by_cases hci : c = i
  · subst hci
    have h2 := (oj.holds σ).1 (hf'.2 j hj (by rw [supersetStep_enabled, if_neg (Ne.symm hij)]; exact hej))
    rw [oi.holds σ, sum_subset_split _ _ (hw c hi) (hw j hj) hsub σ, h2]
    have : ((m.con c).expr.vars.filter (fun v => decide (v ∉ (m.con j).expr.vars))).map σ
        = ((m.con c).expr.vars.filter (fun v => decide (v ∉ (m.con j).expr.vars))).map (fun _ => 0) :=
      List.map_congr_left hb.2
    rw [this]; simp
  · exact hf'.2 c hc (by rw [supersetStep_enabled, if_neg hci]; exact he)

theorem supersetStep_keeps (m : MState) (i j : ℕ) (hw : AllWF m) (hi : i ∈ m.conIds) (hj : j ∈ m.conIds)
    (hei : (m.con i).enabled = true) (hej : (m.con j).enabled = true)
    (oi : OneForm (m.con i)) (oj : OneForm (m.con j)) (hn : NonnegVars (m.con i) m.var)
    (hsub : ∀ v ∈ (m.con j).expr.vars, v ∈ (m.con i).expr.vars) (σ : ℕ → ℤ) (hf : Feasible m σ) :
    Feasible (supersetStep m i j) σ := by
  rw [feasible_iff_of m _ (supersetStep_same m i j)]
  refine ⟨fixZero_inBounds_keeps _ (disable m i) σ hf.1
    (supersetStep_extras m i j hw hi hj hei hej oi oj hn hsub σ hf), fun c hc he => hf.2 c hc ?_⟩
  rw [supersetStep_enabled] at he
  split at he
  · exact absurd he (by simp)
  · exact he

theorem supersetStep_nonneg (m : MState) (i j : ℕ) (c : Con) (h : NonnegVars c m.var) :
    NonnegVars c (supersetStep m i j).var := by
  intro v hv
  unfold supersetStep fixZero
  simp only []
  split
  · simp [Var.fixBy, Var.updateMargin]
  · exact h v hv

theorem supersetStep_zero (m : MState) (i j : ℕ) (v : ℕ) (h : Admits (m.var v) 0) :
    Admits ((supersetStep m i j).var v) 0 := by
  unfold supersetStep fixZero
  simp only []
  split
  · rw [admits_fixBy]
  · exact h

theorem dropSupersets_cons (m : MState) (i : ℕ) (rest : List ℕ) :
    dropSupersets m (i :: rest) =
    match rest.find? (fun j => (m.con j).expr.vars.all (fun v => decide (v ∈ (m.con i).expr.vars))) with
    | some j => dropSupersets (supersetStep m i j) rest
    | none => dropSupersets m rest := rfl

theorem dropSupersets_keeps (l : List ℕ) : ∀ (m : MState), AllWF m → l.Nodup → (∀ c ∈ l, c ∈ m.conIds) →
    (∀ c ∈ l, (m.con c).enabled = true) → (∀ c ∈ l, OneForm (m.con c)) →
    (∀ c ∈ l, NonnegVars (m.con c) m.var) →
    ∀ σ, Feasible m σ → Feasible (dropSupersets m l) σ := by
  induction l with
  | nil => intro m _ _ _ _ _ _ σ h; exact h
  | cons i rest ih =>
    intro m hw hn hl he ho hnn σ hf
    rw [List.nodup_cons] at hn
    have tl : ∀ {P : ℕ → Prop}, (∀ c ∈ i :: rest, P c) → ∀ c ∈ rest, P c :=
      fun h c hc => h c (List.mem_cons_of_mem _ hc)
    rw [dropSupersets_cons]
    split
    · rename_i j hfind
      have hjr : j ∈ rest := List.mem_of_find?_eq_some hfind
      have hsub : ∀ v ∈ (m.con j).expr.vars, v ∈ (m.con i).expr.vars := by
        have := List.find?_some hfind
        simpa using this
      have sd := supersetStep_same m i j
      refine ih (supersetStep m i j) (hw.of_same sd) hn.2 (fun c hc => by rw [sd.conIds]; exact tl hl c hc)
        (fun c hc => ?_) (fun c hc => ?_) (fun c hc => ?_) σ ?_
      · rw [supersetStep_enabled, if_neg (show ¬ c = i from fun e => hn.1 (e ▸ hc))]; exact tl he c hc
      · have := tl ho c hc
        unfold OneForm at this ⊢
        rw [sd.expr, sd.sense]; exact this
      · have h3 := supersetStep_nonneg m i j (m.con c) (tl hnn c hc)
        unfold NonnegVars at h3 ⊢
        rw [sd.expr]; exact h3
      · exact supersetStep_keeps m i j hw (hl i (by simp)) (tl hl j hjr) (he i (by simp)) (tl he j hjr)
          (ho i (by simp)) (tl ho j hjr) (hnn i (by simp)) hsub σ hf
    · exact ih m hw hn.2 (tl hl) (tl he) (tl ho) (tl hnn) σ hf

theorem dropSupersets_back (l : List ℕ) : ∀ (m : MState), AllWF m → l.Nodup → (∀ c ∈ l, c ∈ m.conIds) →
    (∀ c ∈ l, (m.con c).enabled = true) → (∀ c ∈ l, OneForm (m.con c)) →
    (∀ c ∈ l, ∀ v ∈ (m.con c).expr.vars, Admits (m.var v) 0) →
    ∀ σ, Feasible (dropSupersets m l) σ → Feasible m σ := by
  induction l with
  | nil => intro m _ _ _ _ _ _ σ h; exact h
  | cons i rest ih =>
    intro m hw hn hl he ho hz σ hf
    rw [List.nodup_cons] at hn
    have tl : ∀ {P : ℕ → Prop}, (∀ c ∈ i :: rest, P c) → ∀ c ∈ rest, P c :=
      fun h c hc => h c (List.mem_cons_of_mem _ hc)
    rw [dropSupersets_cons] at hf
    split at hf
    · rename_i j hfind
      have hjr : j ∈ rest := List.mem_of_find?_eq_some hfind
      have hsub : ∀ v ∈ (m.con j).expr.vars, v ∈ (m.con i).expr.vars := by
        have := List.find?_some hfind
        simpa using this
      have sd := supersetStep_same m i j
      have := ih (supersetStep m i j) (hw.of_same sd) hn.2 (fun c hc => by rw [sd.conIds]; exact tl hl c hc)
        (fun c hc => by rw [supersetStep_enabled, if_neg (show ¬ c = i from fun e => hn.1 (e ▸ hc))]; exact tl he c hc)
        (fun c hc => by
          have := tl ho c hc
          unfold OneForm at this ⊢
          rw [sd.expr, sd.sense]; exact this)
        (fun c hc v hv => by
          rw [sd.expr] at hv
          exact supersetStep_zero m i j v (tl hz c hc v hv)) σ hf
      exact supersetStep_feasible m i j (fun e => hn.1 (e ▸ hjr)) hw (hl i (by simp)) (tl hl j hjr)
        (tl he j hjr) (ho i (by simp)) (tl ho j hjr) (hz i (by simp)) hsub σ this
    · exact ih m hw hn.2 (tl hl) (tl he) (tl ho) (tl hz) σ hf

end Printemps.Presolve
