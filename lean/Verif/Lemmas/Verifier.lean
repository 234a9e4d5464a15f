import Verif.Lemmas.SelectionExtract

/-! Helper lemmas about the correction of initial values. -/

namespace Printemps.Verifier
open Spec

/-- `b` is `a` except possibly for the value, and equal to `a` if `a` is fixed. -/
structure Keeps (a b : Var) : Prop where
  lb : b.lb = a.lb
  ub : b.ub = a.ub
  sense : b.sense = a.sense
  selection : b.selection = a.selection
  fixed : b.fixed = a.fixed
  same : a.fixed = true → b = a

theorem Keeps.refl (a : Var) : Keeps a a := ⟨rfl, rfl, rfl, rfl, rfl, fun _ => rfl⟩

theorem Keeps.trans {a b c : Var} (h : Keeps a b) (g : Keeps b c) : Keeps a c :=
  ⟨g.lb.trans h.lb, g.ub.trans h.ub, g.sense.trans h.sense, g.selection.trans h.selection, g.fixed.trans h.fixed,
    fun f => (g.same (by rw [h.fixed]; exact f)).trans (h.same f)⟩

theorem keeps_mutable (a : Var) (x : ℤ) : Keeps a (a.setValueIfMutable x) := by
  unfold Var.setValueIfMutable
  split
  · exact Keeps.refl a
  · rename_i h
    exact ⟨rfl, rfl, rfl, rfl, rfl, fun f => absurd f h⟩

theorem mutable_value (a : Var) (x : ℤ) (h : a.fixed = false) : (a.setValueIfMutable x).value = x := by
  unfold Var.setValueIfMutable; rw [h]; rfl

theorem mutable_fixed (a : Var) (x : ℤ) (h : a.fixed = true) : a.setValueIfMutable x = a := by
  unfold Var.setValueIfMutable; rw [h]; rfl

theorem mutable_twice (a : Var) (x : ℤ) : (a.setValueIfMutable x).setValueIfMutable x = a.setValueIfMutable x := by
  unfold Var.setValueIfMutable
  cases h : a.fixed <;> simp [h, Var.updateMargin]

/-- The part of the state the corrections do not touch. -/
structure SameRest (m m' : MState) : Prop where
  con : m'.con = m.con
  conIds : m'.conIds = m.conIds
  varIds : m'.varIds = m.varIds
  sens : m'.sens = m.sens
  keeps : ∀ v, Keeps (m.var v) (m'.var v)

theorem SameRest.refl (m : MState) : SameRest m m := ⟨rfl, rfl, rfl, rfl, fun _ => Keeps.refl _⟩

theorem SameRest.trans {a b c : MState} (h : SameRest a b) (g : SameRest b c) : SameRest a c :=
  ⟨g.con.trans h.con, g.conIds.trans h.conIds, g.varIds.trans h.varIds, g.sens.trans h.sens,
    fun v => (h.keeps v).trans (g.keeps v)⟩

theorem SameRest.members {m m' : MState} (h : SameRest m m') (s : ℕ) :
    SelectionExtract.members m' s = SelectionExtract.members m s := by
  unfold SelectionExtract.members; rw [h.con]

theorem setVar_var (m : MState) (v : ℕ) (x : ℤ) (w : ℕ) :
    (setVar m v x).var w = if w = v then (m.var w).setValueIfMutable x else m.var w := by
  unfold setVar
  by_cases h : w = v
  · subst h; simp
  · simp [h]

theorem setVar_rest (m : MState) (v : ℕ) (x : ℤ) : SameRest m (setVar m v x) := by
  refine ⟨rfl, rfl, rfl, rfl, fun w => ?_⟩
  rw [setVar_var]; split
  · exact keeps_mutable _ _
  · exact Keeps.refl _

theorem setAll_spec (vs : List ℕ) (x : ℤ) : ∀ m : MState, SameRest m (setAll m vs x) ∧
    (setAll m vs x).selected = m.selected ∧
    ∀ w, (setAll m vs x).var w = if w ∈ vs then (m.var w).setValueIfMutable x else m.var w := by
  induction vs with
  | nil => intro m; exact ⟨SameRest.refl m, rfl, fun w => by simp [setAll]⟩
  | cons v vs ih =>
    intro m
    obtain ⟨h1, h2, h3⟩ := ih (setVar m v x)
    refine ⟨(setVar_rest m v x).trans h1, h2, fun w => ?_⟩
    show (setAll (setVar m v x) vs x).var w = _
    rw [h3, setVar_var]
    by_cases h : w = v
    · subst h
      by_cases hw : w ∈ vs
      · simp [hw, mutable_twice]
      · simp [hw]
    · simp [h]

theorem best_mem (score : ℕ → ℤ) (vs : List ℕ) (x : ℕ) (h : best score vs = some x) : x ∈ vs := by
  have key : ∀ (l : List ℕ) (acc : ℤ × Option ℕ),
      (l.foldl (fun (acc : ℤ × Option ℕ) v => if score v < acc.1 then (score v, some v) else acc) acc).2 = some x →
      acc.2 = some x ∨ x ∈ l := by
    intro l
    induction l with
    | nil => intro acc h; exact Or.inl h
    | cons v l ih =>
      intro acc h
      rw [List.foldl_cons] at h
      rcases ih _ h with h | h
      · split at h
        · right; simp only [Option.some.injEq] at h; rw [h]; simp
        · exact Or.inl h
      · exact Or.inr (List.mem_cons_of_mem _ h)
  rcases key vs _ h with h | h
  · exact absurd h (by simp)
  · exact h

/-- Exactly one of the variables is 1 and the others are 0. -/
def OneHot (m : MState) (vs : List ℕ) : Prop :=
  ∃ x ∈ vs, (m.var x).value = 1 ∧ ∀ v ∈ vs, v ≠ x → (m.var v).value = 0

theorem oneHot_iff (m : MState) (vs : List ℕ) (hn : vs.Nodup) : OneHot m vs ↔
    (∀ v ∈ vs, (m.var v).value = 0 ∨ (m.var v).value = 1) ∧
      (vs.filter (fun v => (m.var v).value = 1)).length = 1 := by
  constructor
  · rintro ⟨x, hx, h1, h2⟩
    refine ⟨fun v hv => ?_, ?_⟩
    · by_cases e : v = x
      · right; rw [e]; exact h1
      · left; exact h2 v hv e
    · have : vs.filter (fun v => (m.var v).value = 1) = vs.filter (fun v => v = x) := by
        apply List.filter_congr
        intro v hv
        by_cases e : v = x
        · simp [e, h1]
        · simp [e, h2 v hv e]
      rw [this]
      have hp : vs.Perm (x :: vs.erase x) := List.perm_cons_erase hx
      rw [(hp.filter _).length_eq, List.filter_cons_of_pos (by simp), List.length_cons, Nat.add_eq_right,
        List.length_eq_zero_iff, List.filter_eq_nil_iff]
      intro v hv e
      have e : v = x := by simpa using e
      rw [e] at hv
      exact (List.Nodup.not_mem_erase hn) hv
  · rintro ⟨h1, h2⟩
    obtain ⟨x, hx⟩ := List.length_eq_one_iff.1 h2
    have hm : ∀ v, v ∈ vs ∧ (m.var v).value = 1 ↔ v = x := by
      intro v
      have : v ∈ vs.filter (fun v => (m.var v).value = 1) ↔ v = x := by rw [hx]; simp
      rw [← this, List.mem_filter]; simp
    refine ⟨x, ((hm x).2 rfl).1, ((hm x).2 rfl).2, fun v hv hne => ?_⟩
    rcases h1 v hv with h | h
    · exact h
    · exact absurd ((hm v).1 ⟨hv, h⟩) hne

theorem settle_spec (correct : Bool) (m : MState) (rel : ℕ → ℚ) (s : ℕ) (vs ones fixedOnes : List ℕ)
    (h01 : ∀ v ∈ vs, (m.var v).value = 0 ∨ (m.var v).value = 1)
    (ho : ones = vs.filter (fun v => (m.var v).value = 1)) (hf : fixedOnes = ones.filter (fun v => (m.var v).fixed))
    (hle : fixedOnes.length ≤ 1) (r : MState × (ℕ → ℚ)) (hr : settle correct m rel s vs ones fixedOnes = some r) :
    SameRest m r.1 ∧ OneHot r.1 vs ∧ (∀ v, v ∉ vs → r.1.var v = m.var v) ∧
    (∀ q, q ≠ s → r.1.selected q = m.selected q) ∧
    (correct = false → r.1.var = m.var) ∧
    (∀ x, ones = [x] → fixedOnes = [] → r.1.selected s = some x) ∧
    (fixedOnes ≠ [] → r.1.selected s = m.selected s) := by
  have mo : ∀ v, v ∈ ones ↔ v ∈ vs ∧ (m.var v).value = 1 := by
    intro v; rw [ho, List.mem_filter]; simp
  have mf : ∀ v, v ∈ fixedOnes ↔ v ∈ ones ∧ (m.var v).fixed = true := by
    intro v; rw [hf, List.mem_filter]
  -- the common end of the first two cases
  have common : ∀ x ∈ ones, (∀ v ∈ ones, v ≠ x → (m.var v).fixed = false) →
      ∀ k, k = setVar (setAll m (ones.filter (fun v => v ≠ x)) 0) x 1 →
      SameRest m k ∧ OneHot k vs ∧ (∀ v, v ∉ vs → k.var v = m.var v) ∧ k.selected = m.selected ∧
      (ones = [x] → (m.var x).fixed = true → k.var = m.var) := by
    intro x hx hfx k hk
    obtain ⟨s1, s2, s3⟩ := setAll_spec (ones.filter (fun v => v ≠ x)) 0 m
    have hv : ∀ v, k.var v = if v = x then (m.var v).setValueIfMutable 1 else
        if v ∈ ones then (m.var v).setValueIfMutable 0 else m.var v := by
      intro v
      rw [hk, setVar_var, s3]
      by_cases e : v = x
      · simp [e]
      · simp [e]
    refine ⟨hk ▸ s1.trans (setVar_rest _ _ _), ⟨x, ((mo x).1 hx).1, ?_, fun v hvs hne => ?_⟩, fun v hv' => ?_, ?_, ?_⟩
    · rw [hv, if_pos rfl]
      cases hfix : (m.var x).fixed
      · exact mutable_value _ _ hfix
      · rw [mutable_fixed _ _ hfix]; exact ((mo x).1 hx).2
    · rw [hv, if_neg hne]
      by_cases hm : v ∈ ones
      · rw [if_pos hm]; exact mutable_value _ _ (hfx v hm hne)
      · rw [if_neg hm]
        exact (h01 v hvs).resolve_right (fun h => hm ((mo v).2 ⟨hvs, h⟩))
    · rw [hv, if_neg (fun e => hv' (by rw [e]; exact ((mo x).1 hx).1)), if_neg (fun h => hv' ((mo v).1 h).1)]
    · rw [hk]; exact s2
    · intro ho' hfix
      funext v
      rw [hv]
      by_cases e : v = x
      · rw [if_pos e, e, mutable_fixed _ _ hfix]
      · rw [if_neg e, if_neg (fun h => e (by rw [ho'] at h; simpa using h))]
  unfold settle at hr
  split at hr
  · rename_i h1
    split at hr
    · rename_i x tl
      have htl : tl = [] := by
        rw [List.length_cons] at h1
        exact List.length_eq_zero_iff.1 (by omega)
      subst htl
      split at hr
      · exact absurd hr (by simp)
      rename_i hc
      simp only [Option.some.injEq] at hr
      subst hr
      obtain ⟨c1, c2, c3, c4, c5⟩ := common x ((mf x).1 (by simp)).1 (fun v hv hne => by
        cases e : (m.var v).fixed
        · rfl
        · have : v ∈ [x] := (mf v).2 ⟨hv, e⟩
          exact absurd (by simpa using this) hne) _ rfl
      refine ⟨c1, c2, c3, fun q _ => by rw [c4], fun hcf => ?_, fun y hy hy' => by simp at hy', fun _ => by rw [c4]⟩
      apply c5
      · have hx : x ∈ ones := ((mf x).1 (by simp)).1
        rw [hcf] at hc
        simp only [Bool.not_false, Bool.true_and, decide_eq_true_eq, not_le] at hc
        have hlen : ones.length = 1 := by
          have := List.length_pos_of_mem hx; omega
        obtain ⟨y, hy⟩ := List.length_eq_one_iff.1 hlen
        rw [hy] at hx ⊢
        rw [List.mem_singleton.1 hx]
      · exact ((mf x).1 (by simp)).2
    · exact absurd hr (by simp)
  · rename_i h1
    have hf0 : fixedOnes = [] := List.length_eq_zero_iff.1 (by omega)
    have hun : ∀ v ∈ ones, (m.var v).fixed = false := by
      intro v hv
      cases e : (m.var v).fixed
      · rfl
      · have : v ∈ fixedOnes := (mf v).2 ⟨hv, e⟩
        rw [hf0] at this; exact absurd this (by simp)
    split at hr
    · rename_i h2
      split at hr
      · exact absurd hr (by simp)
      rename_i hc
      split at hr
      · exact absurd hr (by simp)
      rename_i x hb
      simp only [Option.some.injEq] at hr
      subst hr
      obtain ⟨c1, c2, c3, c4, _⟩ := common x (best_mem _ _ _ hb) (fun v hv _ => hun v hv) _ rfl
      refine ⟨c1, c2, c3, fun q _ => by rw [c4], fun hcf => absurd hc (by simp [hcf]), fun y hy => ?_,
        fun h => absurd hf0 h⟩
      rw [hy] at h2; simp at h2
    · split at hr
      · rename_i h2 h3
        split at hr
        · exact absurd hr (by simp)
        rename_i hc
        split at hr
        · exact absurd hr (by simp)
        rename_i x hb
        simp only [Option.some.injEq] at hr
        subst hr
        have ho0 : ones = [] := List.length_eq_zero_iff.1 h3
        have hx := List.mem_filter.1 (best_mem _ _ _ hb)
        have hxf : (m.var x).fixed = false := by simpa using hx.2
        refine ⟨setVar_rest _ _ _, ⟨x, hx.1, ?_, fun v hv hne => ?_⟩, fun v hv => ?_, fun q _ => rfl,
          fun hcf => absurd hc (by simp [hcf]), fun y hy => ?_, fun h => absurd hf0 h⟩
        · rw [setVar_var, if_pos rfl]; exact mutable_value _ _ hxf
        · rw [setVar_var, if_neg hne]
          refine (h01 v hv).resolve_right (fun h => ?_)
          have := (mo v).2 ⟨hv, h⟩
          rw [ho0] at this; exact absurd this (by simp)
        · rw [setVar_var, if_neg (fun e => hv (by rw [e]; exact hx.1))]
        · rw [hy] at ho0; exact absurd ho0 (by simp)
      · rename_i h2 h3
        simp only [Option.some.injEq] at hr
        subst hr
        obtain ⟨x, hx⟩ := List.length_eq_one_iff.1 (show ones.length = 1 by omega)
        refine ⟨⟨rfl, rfl, rfl, rfl, fun _ => Keeps.refl _⟩, ⟨x, ?_, ?_, fun v hv hne => ?_⟩, fun _ _ => rfl,
          fun q hq => ?_, fun _ => rfl, fun y hy _ => ?_, fun h => absurd hf0 h⟩
        · exact ((mo x).1 (by rw [hx]; simp)).1
        · exact ((mo x).1 (by rw [hx]; simp)).2
        · refine (h01 v hv).resolve_right (fun h => hne ?_)
          have := (mo v).2 ⟨hv, h⟩
          rw [hx] at this; simpa using this
        · show Function.update m.selected s _ q = _
          rw [Function.update_of_ne hq]
        · show Function.update m.selected s _ s = _
          rw [Function.update_self, hy]; rfl

theorem selectionStep_spec (correct : Bool) (m : MState) (rel : ℕ → ℚ) (s : ℕ) (r : MState × (ℕ → ℚ))
    (hr : selectionStep correct m rel s = some r) :
    SameRest m r.1 ∧ OneHot r.1 (SelectionExtract.members m s) ∧
    (∀ v, v ∉ SelectionExtract.members m s → r.1.var v = m.var v) ∧
    (∀ q, q ≠ s → r.1.selected q = m.selected q) ∧
    (correct = false → r.1.var = m.var) ∧
    (correct = false → ∀ x ∈ SelectionExtract.members m s, (m.var x).value = 1 →
      r.1.selected s = if (m.var x).fixed then m.selected s else some x) := by
  unfold selectionStep at hr
  simp only [] at hr
  generalize SelectionExtract.members m s = vs at *
  generalize ho : vs.filter (fun v => (m.var v).value = 1) = ones at *
  generalize hfo : ones.filter (fun v => (m.var v).fixed) = fixedOnes at *
  generalize hin : vs.filter (fun v => decide ((m.var v).value ≠ 0 ∧ (m.var v).value ≠ 1)) = invalid at *
  split at hr
  · exact absurd hr (by simp)
  rename_i hinf
  split at hr
  · exact absurd hr (by simp)
  rename_i hle
  split at hr
  · exact absurd hr (by simp)
  rename_i hcorr
  have mi : ∀ v, v ∈ invalid ↔ v ∈ vs ∧ (m.var v).value ≠ 0 ∧ (m.var v).value ≠ 1 := by
    intro v; rw [← hin, List.mem_filter]; simp
  have hif : ∀ v ∈ invalid, (m.var v).fixed = false := by
    intro v hv
    cases e : (m.var v).fixed
    · rfl
    · exact absurd (List.any_eq_true.2 ⟨v, hv, e⟩) hinf
  obtain ⟨s1, s2, s3⟩ := setAll_spec invalid 0 m
  have h1v : ∀ v ∈ vs, ((setAll m invalid 0).var v).value = 1 ↔ (m.var v).value = 1 := by
    intro v hv
    rw [s3]
    by_cases h : v ∈ invalid
    · rw [if_pos h, mutable_value _ _ (hif v h)]
      exact ⟨fun h => absurd h (by simp), fun e => absurd e ((mi v).1 h).2.2⟩
    · rw [if_neg h]
  obtain ⟨t1, t2, t3, t4, t5, t6, t7⟩ := settle_spec correct (setAll m invalid 0) rel s vs ones fixedOnes (by
      intro v hv
      rw [s3]
      by_cases h : v ∈ invalid
      · left; rw [if_pos h]; exact mutable_value _ _ (hif v h)
      · rw [if_neg h]
        by_contra hc
        rw [not_or] at hc
        exact h ((mi v).2 ⟨hv, hc⟩)) (by
      rw [← ho]
      apply List.filter_congr
      intro v hv
      simp only [h1v v hv]) (by
      rw [← hfo]
      apply List.filter_congr
      intro v _
      rw [(s1.keeps v).fixed]) (by omega) r hr
  have hi0 : correct = false → invalid = [] := by
    intro hc
    rw [hc] at hcorr
    simpa using hcorr
  refine ⟨s1.trans t1, t2, fun v hv => ?_, fun q hq => ?_, fun hc => ?_, fun hc x hx hx1 => ?_⟩
  · rw [t3 v hv, s3, if_neg (fun h => hv ((mi v).1 h).1)]
  · rw [t4 q hq, s2]
  · rw [t5 hc, hi0 hc]; rfl
  · have hxo : x ∈ ones := by rw [← ho, List.mem_filter]; exact ⟨hx, by simpa using hx1⟩
    cases hfx : (m.var x).fixed
    · rw [if_neg (by simp)]
      -- only `x` is one
      have hvar : r.1.var = m.var := by rw [t5 hc, hi0 hc]; rfl
      obtain ⟨y, hy, hy1, hyo⟩ := t2
      rw [hvar] at hy1 hyo
      have hall : ∀ v ∈ ones, v = y := by
        intro v hv
        rw [← ho, List.mem_filter] at hv
        by_contra hne
        have := hyo v hv.1 hne
        have h2 := hv.2
        simp [this] at h2
      have hxy := hall x hxo
      subst hxy
      have hfix : fixedOnes = [] := by
        rw [← hfo, List.filter_eq_nil_iff]
        intro v hv
        rw [hall v hv, hfx]; simp
      by_cases hlen : ones.length = 1
      · obtain ⟨z, hz⟩ := List.length_eq_one_iff.1 hlen
        have := hall z (by rw [hz]; simp)
        subst this
        exact t6 z hz hfix
      · -- two ones would have been rejected
        exfalso
        have hpos := List.length_pos_of_mem hxo
        unfold settle at hr
        rw [if_neg (by rw [hfix]; simp), if_pos (by omega), hc, if_pos (by simp)] at hr
        exact absurd hr (by simp)
    · rw [if_pos rfl, t7 (by
        intro h
        have : x ∈ fixedOnes := by rw [← hfo, List.mem_filter]; exact ⟨hxo, hfx⟩
        rw [h] at this; exact absurd this (by simp)), s2]

theorem selections_spec (correct : Bool) (ss : List ℕ) : ∀ (rel : ℕ → ℚ) (m m' : MState),
    ss.Nodup → ss.Pairwise (SelectionExtract.Apart m) → selections correct ss rel m = some m' →
    SameRest m m' ∧ (∀ s ∈ ss, OneHot m' (SelectionExtract.members m s)) ∧
    (∀ v, (∀ s ∈ ss, v ∉ SelectionExtract.members m s) → m'.var v = m.var v) ∧
    (∀ q, q ∉ ss → m'.selected q = m.selected q) ∧
    (correct = false → m'.var = m.var) ∧
    (correct = false → ∀ s ∈ ss, ∀ x ∈ SelectionExtract.members m s, (m.var x).value = 1 →
      m'.selected s = if (m.var x).fixed then m.selected s else some x) := by
  induction ss with
  | nil =>
    intro rel m m' _ _ h
    simp only [selections, Option.some.injEq] at h
    subst h
    exact ⟨SameRest.refl m, by simp, fun _ _ => rfl, fun _ _ => rfl, fun _ => rfl, fun _ s hs => absurd hs (by simp)⟩
  | cons s ss ih =>
    intro rel m m' hn hp h
    unfold selections at h
    cases h1 : selectionStep correct m rel s with
    | none => rw [h1] at h; exact absurd h (by simp)
    | some r =>
      rw [h1] at h
      simp only [Option.bind_eq_bind, Option.bind_some] at h
      obtain ⟨a1, a2, a3, a4, a5, a6⟩ := selectionStep_spec correct m rel s r h1
      obtain ⟨p1, p2⟩ := List.pairwise_cons.1 hp
      obtain ⟨n1, n2⟩ := List.nodup_cons.1 hn
      have hmem : ∀ q, SelectionExtract.members r.1 q = SelectionExtract.members m q := a1.members
      obtain ⟨b1, b2, b3, b4, b5, b6⟩ := ih r.2 r.1 m' n2 (p2.imp (by
        intro x y hxy v h1 h2; rw [hmem] at h1 h2; exact hxy v h1 h2)) h
      have later : ∀ v ∈ SelectionExtract.members m s, m'.var v = r.1.var v :=
        fun v hv => b3 v (fun q hq h2 => p1 q hq v hv (by rw [hmem] at h2; exact h2))
      refine ⟨a1.trans b1, fun q hq => ?_, fun v hv => ?_, fun q hq => ?_, fun hc => ?_, fun hc q hq x hx hx1 => ?_⟩
      · rcases List.mem_cons.1 hq with rfl | hq
        · obtain ⟨x, hx, h1, h2⟩ := a2
          exact ⟨x, hx, by rw [later x hx]; exact h1, fun v hv hne => by rw [later v hv]; exact h2 v hv hne⟩
        · have := b2 q hq; rwa [hmem] at this
      · rw [b3 v (fun q hq => by rw [hmem]; exact hv q (List.mem_cons_of_mem _ hq)), a3 v (hv s (by simp))]
      · rw [List.mem_cons, not_or] at hq
        rw [b4 q hq.2, a4 q hq.1]
      · rw [b5 hc, a5 hc]
      · rcases List.mem_cons.1 hq with rfl | hq
        · rw [b4 q n1]; exact a6 hc x hx hx1
        · have hqs : q ≠ s := fun e => n1 (e ▸ hq)
          have := b6 hc q hq x (by rw [hmem]; exact hx) (by rw [a5 hc]; exact hx1)
          rw [this, a5 hc, a4 q hqs]

theorem step_keeps (correct : Bool) (x y : Var) (h : binaryStep correct x = some y ∨ integerStep correct x = some y) :
    Keeps x y ∧ (correct = false → y = x) := by
  rcases h with h | h
  · unfold binaryStep at h
    split at h
    · simp only [Option.some.injEq] at h; subst h; exact ⟨Keeps.refl _, fun _ => rfl⟩
    split at h
    · exact absurd h (by simp)
    split at h
    · exact absurd h (by simp)
    rename_i hc
    simp only [Option.some.injEq] at h; subst h
    exact ⟨keeps_mutable _ _, fun e => absurd hc (by simp [e])⟩
  · unfold integerStep at h
    split at h
    · simp only [Option.some.injEq] at h; subst h; exact ⟨Keeps.refl _, fun _ => rfl⟩
    split at h
    · exact absurd h (by simp)
    split at h
    · exact absurd h (by simp)
    rename_i hc
    simp only [Option.some.injEq] at h; subst h
    exact ⟨keeps_mutable _ _, fun e => absurd hc (by simp [e])⟩

theorem binaryStep_value (correct : Bool) (x y : Var) (h : binaryStep correct x = some y)
    (hb : 0 ≤ x.lb ∧ x.lb ≤ x.ub ∧ x.ub ≤ 1) : y.value = 0 ∨ y.value = 1 := by
  unfold binaryStep at h
  split at h
  · simp only [Option.some.injEq] at h; subst h; assumption
  split at h
  · exact absurd h (by simp)
  rename_i h1 h2
  split at h
  · exact absurd h (by simp)
  simp only [Option.some.injEq] at h; subst h
  rw [mutable_value _ _ (by simpa using h2)]
  rw [not_or] at h1
  split
  · omega
  · split
    · omega
    · omega

theorem integerStep_value (correct : Bool) (x y : Var) (h : integerStep correct x = some y) (hb : x.lb ≤ x.ub) :
    x.lb ≤ y.value ∧ y.value ≤ x.ub := by
  unfold integerStep at h
  split at h
  · simp only [Option.some.injEq] at h; subst h; rename_i h; exact ⟨h.1, h.2⟩
  split at h
  · exact absurd h (by simp)
  rename_i h1 h2
  split at h
  · exact absurd h (by simp)
  simp only [Option.some.injEq] at h; subst h
  rw [mutable_value _ _ (by simpa using h2)]
  split
  · omega
  · split
    · omega
    · omega

theorem overVars_spec (p : Var → Bool) (f : Var → Option Var) (correct : Bool)
    (hf : ∀ x y, f x = some y → Keeps x y ∧ (correct = false → y = x))
    (vs : List ℕ) : ∀ m m' : MState, vs.Nodup → overVars p f vs m = some m' →
    SameRest m m' ∧ m'.selected = m.selected ∧ (correct = false → m'.var = m.var) ∧
    (∀ v, ¬ (v ∈ vs ∧ p (m.var v) = true) → m'.var v = m.var v) ∧
    (∀ v ∈ vs, p (m.var v) = true → f (m.var v) = some (m'.var v)) := by
  induction vs with
  | nil =>
    intro m m' _ h
    simp only [overVars, Option.some.injEq] at h
    subst h
    exact ⟨SameRest.refl m, rfl, fun _ => rfl, fun _ _ => rfl, fun v hv => absurd hv (by simp)⟩
  | cons w vs ih =>
    intro m m' hn h
    obtain ⟨n1, n2⟩ := List.nodup_cons.1 hn
    unfold overVars at h
    split at h
    · rename_i hpw
      cases hx : f (m.var w) with
      | none => rw [hx] at h; exact absurd h (by simp)
      | some x =>
        rw [hx, Option.bind_some] at h
        obtain ⟨k1, k2⟩ := hf _ _ hx
        obtain ⟨b1, b2, b3, b4, b5⟩ := ih _ m' n2 h
        have hw : m'.var w = x := by
          rw [b4 w (fun hh => n1 hh.1)]; simp
        have hmid : SameRest m { m with var := Function.update m.var w x } := by
          refine ⟨rfl, rfl, rfl, rfl, fun v => ?_⟩
          by_cases e : v = w
          · subst e; simpa using k1
          · simp only [Function.update_of_ne e]; exact Keeps.refl _
        refine ⟨hmid.trans b1, b2, fun hc => ?_, fun v hv => ?_, fun v hv hpv => ?_⟩
        · rw [b3 hc]
          funext v
          by_cases e : v = w
          · subst e; simp [k2 hc]
          · simp [e]
        · have e : v ≠ w := fun e => hv ⟨by simp [e], by rw [e]; exact hpw⟩
          rw [b4 v (fun hh => hv ⟨List.mem_cons_of_mem _ hh.1, by
            have := hh.2; simp only [Function.update_of_ne e] at this; exact this⟩)]
          simp [e]
        · rcases List.mem_cons.1 hv with rfl | hv
          · rw [hw, hx]
          · have e : v ≠ w := fun e => n1 (e ▸ hv)
            have := b5 v hv (by simp only [Function.update_of_ne e]; exact hpv)
            simpa only [Function.update_of_ne e] using this
    · rename_i hpw
      obtain ⟨b1, b2, b3, b4, b5⟩ := ih m m' n2 h
      refine ⟨b1, b2, b3, fun v hv => b4 v (fun hh => hv ⟨List.mem_cons_of_mem _ hh.1, hh.2⟩), fun v hv hpv => ?_⟩
      rcases List.mem_cons.1 hv with rfl | hv
      · exact absurd hpv hpw
      · exact b5 v hv hpv

end Printemps.Verifier

namespace Printemps.Verifier
open Spec

/-- A selection that is in order is accepted without changing a value. -/
theorem selectionStep_accepts (correct : Bool) (m : MState) (rel : ℕ → ℚ) (s : ℕ)
    (hn : (SelectionExtract.members m s).Nodup) (ho : OneHot m (SelectionExtract.members m s)) :
    ∃ r, selectionStep correct m rel s = some r ∧ r.1.var = m.var ∧ SameRest m r.1 := by
  unfold selectionStep
  simp only []
  generalize SelectionExtract.members m s = vs at *
  have hinv : vs.filter (fun v => decide ((m.var v).value ≠ 0 ∧ (m.var v).value ≠ 1)) = [] := by
    rw [List.filter_eq_nil_iff]
    intro v hv
    rcases ((oneHot_iff m vs hn).1 ho).1 v hv with h | h <;> simp [h]
  obtain ⟨x, hx⟩ := List.length_eq_one_iff.1 ((oneHot_iff m vs hn).1 ho).2
  rw [hinv, hx]
  simp only [List.any_nil, Bool.false_eq_true, if_false, List.isEmpty_nil, Bool.not_true, Bool.false_and]
  have hset : setAll m [] 0 = m := rfl
  rw [hset]
  cases hf : (m.var x).fixed
  · have : [x].filter (fun v => (m.var v).fixed) = [] := by simp [hf]
    rw [this]
    simp only [List.length_nil, gt_iff_lt, not_lt_zero, if_false]
    unfold settle
    rw [if_neg (by simp), if_neg (by simp), if_neg (by simp)]
    exact ⟨_, rfl, rfl, ⟨rfl, rfl, rfl, rfl, fun _ => Keeps.refl _⟩⟩
  · have : [x].filter (fun v => (m.var v).fixed) = [x] := by simp [hf]
    rw [this]
    simp only [List.length_singleton, gt_iff_lt, lt_self_iff_false, if_false]
    unfold settle
    rw [if_pos (by simp)]
    simp only []
    rw [if_neg (by simp)]
    refine ⟨_, rfl, ?_, ?_⟩
    · show (setVar (setAll m ([x].filter (fun v => decide (v ≠ x))) 0) x 1).var = m.var
      have : [x].filter (fun v => decide (v ≠ x)) = [] := by simp
      rw [this]
      funext v
      rw [setVar_var]
      split
      · rename_i e; rw [e]; exact mutable_fixed _ _ hf
      · rfl
    · have : [x].filter (fun v => decide (v ≠ x)) = [] := by simp
      show SameRest m (setVar (setAll m ([x].filter (fun v => decide (v ≠ x))) 0) x 1)
      rw [this]
      exact setVar_rest m x 1

theorem selections_accepts (correct : Bool) (ss : List ℕ) : ∀ (rel : ℕ → ℚ) (m : MState),
    (∀ s ∈ ss, (SelectionExtract.members m s).Nodup ∧ OneHot m (SelectionExtract.members m s)) →
    ∃ m', selections correct ss rel m = some m' ∧ m'.var = m.var ∧ SameRest m m' := by
  induction ss with
  | nil => intro rel m _; exact ⟨m, rfl, rfl, SameRest.refl m⟩
  | cons s ss ih =>
    intro rel m h
    obtain ⟨r, h1, h2, h3⟩ := selectionStep_accepts correct m rel s (h s (by simp)).1 (h s (by simp)).2
    obtain ⟨m', g1, g2, g3⟩ := ih r.2 r.1 (fun q hq => by
      rw [h3.members q]
      obtain ⟨a, b⟩ := h q (List.mem_cons_of_mem _ hq)
      refine ⟨a, ?_⟩
      unfold OneHot
      rw [h2]; exact b)
    refine ⟨m', ?_, g2.trans h2, h3.trans g3⟩
    unfold selections
    rw [h1]
    exact g1

theorem overVars_accepts (p : Var → Bool) (f : Var → Option Var) (vs : List ℕ) : ∀ m : MState,
    (∀ v ∈ vs, p (m.var v) = true → f (m.var v) = some (m.var v)) → overVars p f vs m = some m := by
  induction vs with
  | nil => intro m _; rfl
  | cons w vs ih =>
    intro m h
    unfold overVars
    split
    · rename_i hp
      rw [h w (by simp) hp, Option.bind_some, Function.update_eq_self]
      exact ih m (fun v hv => h v (List.mem_cons_of_mem _ hv))
    · exact ih m (fun v hv => h v (List.mem_cons_of_mem _ hv))

end Printemps.Verifier
