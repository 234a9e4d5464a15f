import Verif.Model.Penalty

/-! # C60 — local penalty coefficients stay within range -/

namespace Printemps.C60
open Penalty

/-- Options as documented: rates and balance between 0 and 1, a non-negative tightening rate and initial
coefficient. -/
structure OptOK (opt : Opt) : Prop where
  initial : 0 ≤ opt.initial
  tightening : 0 ≤ opt.tighteningRate
  balance : 0 ≤ opt.balance ∧ opt.balance ≤ 1
  relaxing : 0 ≤ opt.relaxingRate ∧ opt.relaxingRate ≤ 1
  relaxingMin : opt.relaxingRateMin ≤ 1
  relaxingMax : 0 ≤ opt.relaxingRateMax ∧ opt.relaxingRateMax ≤ 1
  increase : 0 ≤ opt.increaseRate ∧ opt.increaseRate ≤ 1
  decrease : 0 ≤ opt.decreaseRate ∧ opt.decreaseRate ≤ 1

/-- What is used of `log(n + 1)`: zero at `n = 0`, positive afterwards. -/
def LogLike (logf : ℕ → ℚ) : Prop := logf 0 = 0 ∧ ∀ n, 0 < n → 0 < logf n

/-- What is used of the square root: it keeps the unit interval. -/
def SqrtLike (sqrtf : ℚ → ℚ) : Prop := ∀ x, 0 ≤ x → x ≤ 1 → 0 ≤ sqrtf x ∧ sqrtf x ≤ 1

/-- A coefficient is a number between `0` and `b`, or not a number. -/
def InRange (b : ℚ) (x : Option ℚ) : Prop := ∀ q, x = some q → 0 ≤ q ∧ q ≤ b

/-- Both coefficients of a constraint are in range. -/
def PenIn (b : ℚ) (p : Pen) : Prop := InRange b p.less ∧ InRange b p.greater

/-- Both coefficients of a constraint are numbers. -/
def IsNumber (p : Pen) : Prop := p.less ≠ none ∧ p.greater ≠ none

/-! ### Lemmas -/

theorem LogLike.nonneg {logf : ℕ → ℚ} (h : LogLike logf) (n : ℕ) : 0 ≤ logf n := by
  rcases Nat.eq_zero_or_pos n with rfl | hn
  · rw [h.1]
  · exact le_of_lt (h.2 n hn)

theorem viol_nonneg (s : Sense) (x : ℚ) : 0 ≤ viol s x := by
  cases s <;> simp only [viol]
  · exact le_max_right _ _
  · have := le_max_right x 0; have := min_le_right x 0; linarith
  · have := min_le_right x 0; linarith

theorem foldl_sum (l : List ℕ) (f : ℕ → ℚ) (a : ℚ) : l.foldl (fun acc c => acc + f c) a = a + (l.map f).sum := by
  induction l generalizing a with
  | nil => simp
  | cons c l ih => rw [List.foldl_cons, ih, List.map_cons, List.sum_cons]; ring

theorem totalViolation_nonneg (s : PState) (o : Seen) : 0 ≤ totalViolation s o := by
  unfold totalViolation
  rw [foldl_sum, zero_add]
  refine List.sum_nonneg ?_
  intro x hx
  obtain ⟨c, _, rfl⟩ := List.mem_map.1 hx
  exact mul_nonneg (viol_nonneg _ _) (by positivity)

theorem totalSquared_nonneg {logf : ℕ → ℚ} (hl : LogLike logf) (s : PState) (o : Seen) : 0 ≤ totalSquared logf s o := by
  unfold totalSquared
  rw [foldl_sum, zero_add]
  refine List.sum_nonneg ?_
  intro x hx
  obtain ⟨c, _, rfl⟩ := List.mem_map.1 hx
  exact mul_nonneg (mul_nonneg (viol_nonneg _ _) (viol_nonneg _ _)) (hl.nonneg _)

theorem delta_nonneg {logf : ℕ → ℚ} (hl : LogLike logf) {opt : Opt} (ho : OptOK opt) (s : PState) (o : Seen) (c : ℕ)
    (d : ℚ) (h : delta logf opt s o c = some d) : 0 ≤ d := by
  unfold delta at h
  split at h
  · exact absurd h (by simp)
  · rw [← Option.some.inj h]
    have h1 := totalViolation_nonneg s o
    have h2 := totalSquared_nonneg hl s o
    have h3 : (0 : ℚ) ≤ max 0 o.gap := le_max_left _ _
    have h4 := ho.balance
    refine add_nonneg (mul_nonneg h4.1 (div_nonneg h3 h1)) (mul_nonneg (by linarith) ?_)
    exact mul_nonneg (mul_nonneg (div_nonneg h3 h2) (hl.nonneg _)) (viol_nonneg _ _)

/-- Only the lower end matters before bounding. -/
def NonNeg (x : Option ℚ) : Prop := ∀ q, x = some q → 0 ≤ q

theorem addN_nonneg {a b : Option ℚ} (ha : NonNeg a) (hb : NonNeg b) : NonNeg (addN a b) := by
  intro q h
  cases a <;> cases b <;> simp only [addN, Option.some.injEq, reduceCtorEq] at h
  next x y => rw [← h]; exact add_nonneg (ha x rfl) (hb y rfl)

theorem bump_nonneg {logf : ℕ → ℚ} (hl : LogLike logf) {opt : Opt} (ho : OptOK opt) (s : PState) (o : Seen) (c : ℕ)
    (p : Pen) (h1 : NonNeg p.less) (h2 : NonNeg p.greater) :
    NonNeg (bump logf opt s o c p).less ∧ NonNeg (bump logf opt s o c p).greater := by
  have hd : NonNeg ((delta logf opt s o c).map (opt.tighteningRate * ·)) := by
    intro q h
    obtain ⟨d, h3, rfl⟩ := Option.map_eq_some_iff.1 h
    exact mul_nonneg ho.tightening (delta_nonneg hl ho s o c d h3)
  unfold bump
  dsimp only
  split
  · exact ⟨addN_nonneg h1 hd, h2⟩
  · split
    · exact ⟨h1, addN_nonneg h2 hd⟩
    · exact ⟨h1, h2⟩

theorem maxN_nonneg {a b : Option ℚ} (ha : NonNeg a) : NonNeg (maxN a b) := by
  intro q h
  cases a with
  | none => simp [maxN] at h
  | some x =>
    cases b with
    | none => simp only [maxN, Option.some.injEq] at h; rw [← h]; exact ha x rfl
    | some y =>
      simp only [maxN] at h
      split at h <;> rw [← Option.some.inj h]
      · next hlt => exact le_of_lt (lt_of_le_of_lt (ha x rfl) hlt)
      · exact ha x rfl

theorem groupMax_nonneg (l : List ℕ) (pen : ℕ → Pen) : NonNeg (groupMax l pen) := by
  have : ∀ (l : List ℕ) (a : Option ℚ), NonNeg a →
      NonNeg (l.foldl (fun acc c => maxN (maxN acc (pen c).less) (pen c).greater) a) := by
    intro l
    induction l with
    | nil => intro a ha; exact ha
    | cons c l ih => intro a ha; exact ih _ (maxN_nonneg (maxN_nonneg ha))
  exact this l _ (by intro q h; rw [← Option.some.inj h])

theorem clamp_inRange {b : ℚ} {x : Option ℚ} (hb : 0 ≤ b) (hx : NonNeg x) : InRange b (clamp b x) := by
  intro q h
  cases x with
  | none => simp [clamp] at h
  | some a =>
    simp only [clamp] at h
    split at h <;> rw [← Option.some.inj h]
    · exact ⟨hb, le_rfl⟩
    · next hn => exact ⟨hx a rfl, not_lt.1 hn⟩

theorem tightenProxy_in {logf : ℕ → ℚ} (hl : LogLike logf) {opt : Opt} (ho : OptOK opt) (s : PState) (o : Seen)
    (pen : ℕ → Pen) (l : List ℕ) (h : ∀ c, PenIn opt.initial (pen c)) :
    ∀ c, PenIn opt.initial (tightenProxy logf opt s o pen l c) := by
  intro c
  have nn : ∀ c, NonNeg (pen c).less ∧ NonNeg (pen c).greater :=
    fun c => ⟨fun q hq => ((h c).1 q hq).1, fun q hq => ((h c).2 q hq).1⟩
  unfold tightenProxy
  dsimp only
  by_cases hc : c ∈ l
  · rw [if_pos hc]
    cases opt.group
    · rw [if_neg (by simp), if_pos hc]
      have := bump_nonneg hl ho s o c (pen c) (nn c).1 (nn c).2
      exact ⟨clamp_inRange ho.initial this.1, clamp_inRange ho.initial this.2⟩
    · rw [if_pos rfl, if_pos hc]
      exact ⟨clamp_inRange ho.initial (groupMax_nonneg _ _), clamp_inRange ho.initial (groupMax_nonneg _ _)⟩
  · rw [if_neg hc]
    cases opt.group
    · rw [if_neg (by simp), if_neg hc]; exact h c
    · rw [if_pos rfl, if_neg hc, if_neg hc]; exact h c

theorem tighten_in {logf : ℕ → ℚ} (hl : LogLike logf) {opt : Opt} (ho : OptOK opt) (s : PState) (o : Seen)
    (h : ∀ c, PenIn opt.initial (s.pen c)) : ∀ c, PenIn opt.initial ((tighten logf opt s o).pen c) := by
  unfold tighten
  dsimp only
  have : ∀ (ps : List (List ℕ)) (pen : ℕ → Pen), (∀ c, PenIn opt.initial (pen c)) →
      ∀ c, PenIn opt.initial (ps.foldl (tightenProxy logf opt s o) pen c) := by
    intro ps
    induction ps with
    | nil => intro pen h; exact h
    | cons l ps ih => intro pen h; exact ih _ (tightenProxy_in hl ho s o pen l h)
  exact this _ _ h

theorem correctedRate_unit (s : PState) (o : Seen) (h : 0 ≤ s.rate ∧ s.rate ≤ 1) :
    0 ≤ correctedRate s o ∧ correctedRate s o ≤ 1 := by
  unfold correctedRate
  split
  · next hc =>
    have : (0 : ℚ) < EPSILON := by norm_num [EPSILON]
    exact ⟨le_min h.1 (by linarith [hc.1]), le_trans (min_le_left _ _) h.2⟩
  · exact h

theorem mulN_inRange {b r : ℚ} {x : Option ℚ} (hx : InRange b x) (hr : 0 ≤ r ∧ r ≤ 1) : InRange b (mulN x r) := by
  intro q h
  obtain ⟨a, rfl, rfl⟩ := Option.map_eq_some_iff.1 h
  have ha := hx a rfl
  exact ⟨mul_nonneg ha.1 hr.1, le_trans (mul_le_of_le_one_right ha.1 hr.2) ha.2⟩

theorem relax_in {opt : Opt} (s : PState) (o : Seen) (hr : 0 ≤ s.rate ∧ s.rate ≤ 1)
    (h : ∀ c, PenIn opt.initial (s.pen c)) : ∀ c, PenIn opt.initial ((relax s o).pen c) := by
  intro c
  unfold relax
  dsimp only
  have hc := correctedRate_unit s o hr
  split
  · refine ⟨?_, ?_⟩
    · dsimp only; split
      · exact mulN_inRange (h c).1 hc
      · exact (h c).1
    · dsimp only; split
      · exact mulN_inRange (h c).2 hc
      · exact (h c).2
  · exact h c

theorem updateRate_unit {sqrtf : ℚ → ℚ} (hs : SqrtLike sqrtf) {opt : Opt} (ho : OptOK opt) (s : PState) (o : Seen)
    (hr : 0 ≤ s.rate ∧ s.rate ≤ 1) : 0 ≤ (updateRate sqrtf opt s o).rate ∧ (updateRate sqrtf opt s o).rate ≤ 1 := by
  unfold updateRate
  dsimp only
  have h1 := ho.relaxing
  have h2 := ho.increase
  have h3 := ho.decrease
  have h4 := ho.relaxingMax
  split
  · refine ⟨le_max_of_le_right (mul_nonneg hr.1 h3.1), max_le ho.relaxingMin ?_⟩
    exact le_trans (mul_le_of_le_one_right hr.1 h3.2) hr.2
  · split
    · exact h1
    · split
      · have := hs s.rate hr.1 hr.2
        exact ⟨le_min h4.1 this.1, le_trans (min_le_left _ _) h4.2⟩
      · constructor <;> nlinarith

/-- Invariant of the controller. -/
structure Inv (opt : Opt) (s : PState) : Prop where
  pen : ∀ c, PenIn opt.initial (s.pen c)
  global : ∀ c, 0 ≤ s.global c ∧ s.global c ≤ opt.initial
  rate : 0 ≤ s.rate ∧ s.rate ≤ 1

theorem reset_in {opt : Opt} (s : PState) (h : Inv opt s) : Inv opt (reset s) := by
  refine ⟨fun c => ?_, h.global, h.rate⟩
  unfold reset
  dsimp only
  split
  · exact ⟨fun q hq => by rw [← Option.some.inj hq]; exact h.global c,
      fun q hq => by rw [← Option.some.inj hq]; exact h.global c⟩
  · exact h.pen c

theorem step_inv {logf : ℕ → ℚ} (hl : LogLike logf) {sqrtf : ℚ → ℚ} (hs : SqrtLike sqrtf) {opt : Opt} (ho : OptOK opt)
    (s : PState) (o : Seen) (h : Inv opt s) : Inv opt (step logf sqrtf opt s o) := by
  unfold step
  dsimp only
  have h1 : Inv opt (if (o.updateRate && o.relaxing) = true then updateRate sqrtf opt s o else s) := by
    split
    · exact ⟨h.pen, h.global, updateRate_unit hs ho s o h.rate⟩
    · exact h
  generalize (if (o.updateRate && o.relaxing) = true then updateRate sqrtf opt s o else s) = t at h1
  split
  · exact reset_in t h1
  · split
    · exact ⟨tighten_in hl ho t o h1.pen, h1.global, h1.rate⟩
    · split
      · exact ⟨relax_in t o h1.rate h1.pen, h1.global, h1.rate⟩
      · exact h1

theorem start_inv {opt : Opt} (ho : OptOK opt) (proxies : List (List ℕ)) (sense : ℕ → Sense) (global : ℕ → ℚ)
    (hg : ∀ c, 0 ≤ global c ∧ global c ≤ opt.initial) : Inv opt (start opt proxies sense global) := by
  refine reset_in _ ⟨fun c => ?_, hg, ho.relaxing⟩
  exact ⟨fun q hq => by rw [← Option.some.inj hq]; exact ⟨le_rfl, ho.initial⟩,
    fun q hq => by rw [← Option.some.inj hq]; exact ⟨le_rfl, ho.initial⟩⟩

/-- After every history of resets, tightenings, relaxations and rate changes, every local coefficient that
is a number lies between zero and the initial penalty coefficient of the options; the global coefficients
(which setup takes between zero and the initial one) are unchanged.  Partial: the bound is the initial
coefficient and not the possibly shrunken global one (`local_can_exceed_shrunken_global`), and coefficients
can become NaN (`coefficient_can_become_nan`). -/
theorem coefficients_in_range_partial (logf : ℕ → ℚ) (hl : LogLike logf) (sqrtf : ℚ → ℚ) (hs : SqrtLike sqrtf) (opt : Opt)
    (ho : OptOK opt) (proxies : List (List ℕ)) (sense : ℕ → Sense) (global : ℕ → ℚ)
    (hg : ∀ c, 0 ≤ global c ∧ global c ≤ opt.initial) (os : List Seen) (c : ℕ) :
    let s := history logf sqrtf opt (start opt proxies sense global) os
    (∀ q, (s.pen c).less = some q ∨ (s.pen c).greater = some q → 0 ≤ q ∧ q ≤ opt.initial) ∧
    0 ≤ s.rate ∧ s.rate ≤ 1 := by
  have : ∀ (os : List Seen) (s : PState), Inv opt s → Inv opt (history logf sqrtf opt s os) := by
    intro os
    induction os with
    | nil => intro s h; exact h
    | cons o os ih => intro s h; exact ih _ (step_inv hl hs ho s o h)
  have hI := this os _ (start_inv ho proxies sense global hg)
  refine ⟨fun q hq => ?_, hI.rate⟩
  rcases hq with hq | hq
  · exact (hI.pen c).1 q hq
  · exact (hI.pen c).2 q hq

/-! ### When the coefficients stay numbers -/

/-- Every violated constraint has been counted as violated at least once. -/
def Counted (s : PState) (o : Seen) : Prop :=
  ∀ c ∈ s.proxies.flatten, 0 < viol (s.sense c) (o.value c) → 0 < o.count c

theorem sum_pos (l : List ℕ) (f : ℕ → ℚ) (h0 : ∀ c ∈ l, 0 ≤ f c) (c : ℕ) (hc : c ∈ l) (hp : 0 < f c) :
    0 < (l.map f).sum := by
  refine lt_of_lt_of_le hp (List.single_le_sum ?_ _ (List.mem_map.2 ⟨c, hc, rfl⟩))
  intro x hx
  obtain ⟨d, hd, rfl⟩ := List.mem_map.1 hx
  exact h0 d hd

theorem delta_number {logf : ℕ → ℚ} (hl : LogLike logf) (opt : Opt) (s : PState) (o : Seen) (hc : Counted s o) (c : ℕ)
    (hm : c ∈ s.proxies.flatten) (hv : 0 < viol (s.sense c) (o.value c)) (d : ℕ) : delta logf opt s o d ≠ none := by
  have h1 : 0 < totalViolation s o := by
    unfold totalViolation
    rw [foldl_sum, zero_add]
    exact sum_pos _ _ (fun c _ => mul_nonneg (viol_nonneg _ _) (by positivity)) c hm (mul_pos hv (by positivity))
  have h2 : 0 < totalSquared logf s o := by
    unfold totalSquared
    rw [foldl_sum, zero_add]
    exact sum_pos _ _ (fun c _ => mul_nonneg (mul_nonneg (viol_nonneg _ _) (viol_nonneg _ _)) (hl.nonneg _)) c hm
      (mul_pos (mul_pos hv hv) (hl.2 _ (hc c hm hv)))
  unfold delta
  rw [if_neg (by push Not; exact ⟨ne_of_gt h1, ne_of_gt h2⟩)]
  simp

theorem bump_number {logf : ℕ → ℚ} (hl : LogLike logf) (opt : Opt) (s : PState) (o : Seen) (hc : Counted s o) (c : ℕ)
    (hm : c ∈ s.proxies.flatten) (p : Pen) (hp : IsNumber p) : IsNumber (bump logf opt s o c p) := by
  have eps : (0 : ℚ) < EPSILON := by norm_num [EPSILON]
  have add : ∀ a b : Option ℚ, a ≠ none → b ≠ none → addN a b ≠ none := by
    intro a b ha hb
    cases a <;> cases b <;> simp_all [addN]
  unfold bump
  dsimp only
  split
  · next h =>
    simp only [Bool.and_eq_true, decide_eq_true_eq] at h
    have hv : 0 < viol (s.sense c) (o.value c) := by
      have h2 : 0 < max (o.value c) 0 := lt_trans eps h.2
      have h3 := min_le_right (o.value c) 0
      cases hs : s.sense c <;> simp only [viol]
      · exact h2
      · linarith
      · rw [hs] at h; exact absurd h.1 (by decide)
    refine ⟨add _ _ hp.1 ?_, hp.2⟩
    intro hn
    exact delta_number hl opt s o hc c hm hv c (Option.map_eq_none_iff.1 hn)
  · split
    · next h =>
      simp only [Bool.and_eq_true, decide_eq_true_eq] at h
      have hv : 0 < viol (s.sense c) (o.value c) := by
        have h2 : 0 < max (-(o.value c)) 0 := lt_trans eps h.2
        have e : - min (o.value c) 0 = max (-(o.value c)) 0 := by
          rcases le_total (o.value c) 0 with h | h
          · rw [min_eq_left h, max_eq_left (by linarith)]
          · rw [min_eq_right h, max_eq_right (by linarith)]; simp
        have h3 := le_max_right (o.value c) 0
        cases hs : s.sense c <;> simp only [viol]
        · rw [hs] at h; exact absurd h.1 (by decide)
        · rw [e]; linarith
        · rw [e]; exact h2
      refine ⟨hp.1, add _ _ hp.2 ?_⟩
      intro hn
      exact delta_number hl opt s o hc c hm hv c (Option.map_eq_none_iff.1 hn)
    · exact hp

theorem maxN_number (a b : Option ℚ) (h : a ≠ none) : maxN a b ≠ none := by
  cases a with
  | none => exact absurd rfl h
  | some x =>
    cases b with
    | none => simp [maxN]
    | some y => simp only [maxN]; split <;> simp

theorem groupMax_number (l : List ℕ) (pen : ℕ → Pen) : groupMax l pen ≠ none := by
  have : ∀ (l : List ℕ) (a : Option ℚ), a ≠ none →
      (l.foldl (fun acc c => maxN (maxN acc (pen c).less) (pen c).greater) a) ≠ none := by
    intro l
    induction l with
    | nil => intro a ha; exact ha
    | cons c l ih => intro a ha; exact ih _ (maxN_number _ _ (maxN_number _ _ ha))
  exact this l _ (by simp)

theorem clamp_number (b : ℚ) (x : Option ℚ) (h : x ≠ none) : clamp b x ≠ none := by
  cases x with
  | none => exact absurd rfl h
  | some a => simp only [clamp]; split <;> simp

theorem tighten_number {logf : ℕ → ℚ} (hl : LogLike logf) (opt : Opt) (s : PState) (o : Seen) (hc : Counted s o)
    (h : ∀ c, IsNumber (s.pen c)) : ∀ c, IsNumber ((tighten logf opt s o).pen c) := by
  have hp : ∀ (pen : ℕ → Pen) (l : List ℕ), (∀ c ∈ l, c ∈ s.proxies.flatten) → (∀ c, IsNumber (pen c)) →
      ∀ c, IsNumber (tightenProxy logf opt s o pen l c) := by
    intro pen l hsub hn c
    unfold tightenProxy
    dsimp only
    by_cases hc' : c ∈ l
    · rw [if_pos hc']
      cases opt.group
      · rw [if_neg (by simp), if_pos hc']
        have := bump_number hl opt s o hc c (hsub c hc') (pen c) (hn c)
        exact ⟨clamp_number _ _ this.1, clamp_number _ _ this.2⟩
      · rw [if_pos rfl, if_pos hc']
        exact ⟨clamp_number _ _ (groupMax_number _ _), clamp_number _ _ (groupMax_number _ _)⟩
    · rw [if_neg hc']
      cases opt.group
      · rw [if_neg (by simp), if_neg hc']; exact hn c
      · rw [if_pos rfl, if_neg hc', if_neg hc']; exact hn c
  unfold tighten
  dsimp only
  have : ∀ (ps : List (List ℕ)) (pen : ℕ → Pen), (∀ l ∈ ps, ∀ c ∈ l, c ∈ s.proxies.flatten) → (∀ c, IsNumber (pen c)) →
      ∀ c, IsNumber (ps.foldl (tightenProxy logf opt s o) pen c) := by
    intro ps
    induction ps with
    | nil => intro pen _ h; exact h
    | cons l ps ih =>
      intro pen hsub h
      exact ih _ (fun l' hl' => hsub l' (List.mem_cons_of_mem _ hl')) (hp pen l (hsub l List.mem_cons_self) h)
  exact this _ _ (fun l hl' c hc' => List.mem_flatten.2 ⟨l, hl', hc'⟩) h

/-- The groups, senses and global coefficients never change. -/
theorem step_static (logf : ℕ → ℚ) (sqrtf : ℚ → ℚ) (opt : Opt) (s : PState) (o : Seen) :
    (step logf sqrtf opt s o).proxies = s.proxies ∧ (step logf sqrtf opt s o).sense = s.sense ∧
    (step logf sqrtf opt s o).global = s.global := by
  unfold step
  dsimp only
  have h1 : ∀ t : PState, (if (o.updateRate && o.relaxing) = true then updateRate sqrtf opt s o else s) = t →
      t.proxies = s.proxies ∧ t.sense = s.sense ∧ t.global = s.global := by
    intro t ht
    rw [← ht]
    split
    · exact ⟨rfl, rfl, rfl⟩
    · exact ⟨rfl, rfl, rfl⟩
  generalize hg : (if (o.updateRate && o.relaxing) = true then updateRate sqrtf opt s o else s) = t
  have := h1 t hg
  split
  · exact this
  · split
    · exact this
    · split
      · exact this
      · exact this

/-- If at every tightening each violated constraint has been counted at least once, all coefficients are
numbers after every history. -/
theorem coefficients_are_numbers (logf : ℕ → ℚ) (hl : LogLike logf) (sqrtf : ℚ → ℚ) (opt : Opt)
    (proxies : List (List ℕ)) (sense : ℕ → Sense) (global : ℕ → ℚ) (os : List Seen)
    (hc : ∀ o ∈ os, o.tightening = true → ∀ c ∈ proxies.flatten, 0 < viol (sense c) (o.value c) → 0 < o.count c)
    (c : ℕ) :
    let p := (history logf sqrtf opt (start opt proxies sense global) os).pen c
    p.less ≠ none ∧ p.greater ≠ none := by
  have main : ∀ (os : List Seen) (s : PState), s.proxies = proxies → s.sense = sense → (∀ c, IsNumber (s.pen c)) →
      (∀ o ∈ os, o.tightening = true → ∀ c ∈ proxies.flatten, 0 < viol (sense c) (o.value c) → 0 < o.count c) →
      ∀ c, IsNumber ((history logf sqrtf opt s os).pen c) := by
    intro os
    induction os with
    | nil => intro s _ _ h _; exact h
    | cons o os ih =>
      intro s hp hs h hc
      have hst := step_static logf sqrtf opt s o
      refine ih (step logf sqrtf opt s o) (hst.1.trans hp) (hst.2.1.trans hs) ?_
        (fun o' ho' => hc o' (List.mem_cons_of_mem _ ho'))
      unfold step
      dsimp only
      have h1 : ∀ t : PState, (if (o.updateRate && o.relaxing) = true then updateRate sqrtf opt s o else s) = t →
          t.proxies = proxies ∧ t.sense = sense ∧ ∀ c, IsNumber (t.pen c) := by
        intro t ht
        rw [← ht]
        split
        · exact ⟨hp, hs, h⟩
        · exact ⟨hp, hs, h⟩
      generalize hg : (if (o.updateRate && o.relaxing) = true then updateRate sqrtf opt s o else s) = t
      obtain ⟨t1, t2, t3⟩ := h1 t hg
      intro c
      split
      · unfold reset
        dsimp only
        split
        · exact ⟨by simp, by simp⟩
        · exact t3 c
      · split
        · next ht =>
          refine tighten_number hl opt t o ?_ t3 c
          intro c hcm hv
          rw [t1] at hcm; rw [t2] at hv
          exact hc o List.mem_cons_self ht c hcm hv
        · split
          · unfold relax
            dsimp only
            have hm : ∀ (x : Option ℚ) r, x ≠ none → mulN x r ≠ none := by
              intro x r hx hn; exact hx (Option.map_eq_none_iff.1 hn)
            split
            · refine ⟨?_, ?_⟩
              · dsimp only; split
                · exact hm _ _ (t3 c).1
                · exact (t3 c).1
              · dsimp only; split
                · exact hm _ _ (t3 c).2
                · exact (t3 c).2
            · exact t3 c
          · exact t3 c
  refine main os _ rfl rfl ?_ hc c
  intro c
  unfold start reset
  dsimp only
  split
  · exact ⟨by simp, by simp⟩
  · exact ⟨by simp, by simp⟩

/-! ### The limiting method of the constraint class -/

/-- `limit_local_penalty_coefficient` leaves non-negative coefficients non-negative and at most the global
coefficient; `reset_local_penalty_coefficient` sets both to the global coefficient. -/
theorem limit_and_reset (k : Con) (hg : 0 ≤ k.penGlobal) (h1 : 0 ≤ k.penLess) (h2 : 0 ≤ k.penGreater) :
    (0 ≤ k.limitPenalty.penLess ∧ k.limitPenalty.penLess ≤ k.penGlobal) ∧
    (0 ≤ k.limitPenalty.penGreater ∧ k.limitPenalty.penGreater ≤ k.penGlobal) ∧
    (k.penLess ≤ k.penGlobal → k.limitPenalty.penLess = k.penLess) ∧
    (k.penGreater ≤ k.penGlobal → k.limitPenalty.penGreater = k.penGreater) ∧
    k.resetPenalty.penLess = k.penGlobal ∧ k.resetPenalty.penGreater = k.penGlobal :=
  ⟨⟨le_min h1 hg, min_le_right _ _⟩, ⟨le_min h2 hg, min_le_right _ _⟩, fun h => min_eq_left h,
    fun h => min_eq_left h, rfl, rfl⟩

/-! ### Non-vacuity and counterexamples -/

/-- the default options (penalty_option.h:12-32) with initial coefficient 100 -/
def opt0 : Opt :=
  { initial := 100, tighteningRate := 1, balance := 0, relaxingRate := 9 / 10, relaxingRateMin := 3 / 10
    relaxingRateMax := 9999 / 10000, increaseRate := 1 / 10, decreaseRate := 9 / 10, group := false }

theorem opt0_ok : OptOK opt0 := by
  constructor <;> norm_num [opt0]

/-- a stand-in for `log(n + 1)` -/
def log0 : ℕ → ℚ := fun n => n

theorem log0_like : LogLike log0 := by
  refine ⟨by norm_num [log0], fun n h => ?_⟩
  show (0 : ℚ) < (n : ℚ)
  exact_mod_cast h

/-- a stand-in for `sqrt` -/
def sqrt0 : ℚ → ℚ := fun x => (x + 1) / 2

theorem sqrt0_like : SqrtLike sqrt0 := by
  intro x h1 h2
  unfold sqrt0
  constructor <;> linarith

/-- one tightening with constraint 0 (`≤`) violated by 2 and counted `n` times -/
def seen (n : ℕ) (gap : ℚ) : Seen :=
  { value := fun c => if c = 0 then 2 else -1, count := fun _ => n, gap := gap, objectiveConstraintRate := 0
    localFeasible := false, resetFlag := false, tightening := true, relaxing := false, updateRate := false
    rateDecrease := false, rateRevert := false, rateIncrease := false }

/-- one relaxation -/
def seenRelax : Seen := { seen 1 0 with tightening := false, relaxing := true, updateRate := true }

/-- two `≤` constraints in one group -/
def start0 (g : ℚ) : PState := start opt0 [[0, 1]] (fun _ => .less) (fun _ => g)

example : OptOK opt0 ∧ LogLike log0 ∧ SqrtLike sqrt0 ∧ (∀ _c : ℕ, (0 : ℚ) ≤ 6 ∧ (6 : ℚ) ≤ opt0.initial) ∧
    ((history log0 sqrt0 opt0 (start0 6) [seenRelax, seen 1 8, seenRelax]).pen 0).less = some 10 ∧
    ((history log0 sqrt0 opt0 (start0 6) [seenRelax, seen 1 8, seenRelax]).pen 1).less = some (243 / 50) :=
  ⟨opt0_ok, log0_like, sqrt0_like, fun _ => by norm_num [opt0], by decide +kernel, by decide +kernel⟩

/-- After shrinking the global coefficient to 6, one tightening with gap 8 lifts the local coefficient to
10: the bounding step uses the initial coefficient of the options, not the global one. -/
theorem local_can_exceed_shrunken_global :
    ((history log0 sqrt0 opt0 (start0 6) [seen 1 8]).pen 0).less = some 10 ∧
    (history log0 sqrt0 opt0 (start0 6) [seen 1 8]).global 0 = 6 := by
  decide +kernel

/-- If the violated constraint has never been counted as violated, the tightening divides by zero: the
coefficient becomes NaN, whatever the gap, and stays NaN under further tightening and relaxing. -/
theorem coefficient_can_become_nan :
    ((history log0 sqrt0 opt0 (start0 6) [seen 0 8]).pen 0).less = none ∧
    ((history log0 sqrt0 opt0 (start0 6) [seen 0 8, seen 1 8, seenRelax]).pen 0).less = none := by
  decide +kernel

end Printemps.C60
