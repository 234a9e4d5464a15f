import Verif.Model.TabuSearch
import Verif.Props.C38

/-! # C52 — tabu rule and tenure -/

namespace Printemps.C52
open Tabu C38

/-! ## The rule -/

/-- When a variable is still tabu at iteration `t` with tenure `T`, read off the history of recorded moves
(most recent last): the last recorded move that altered it was made at an iteration `i`, the number drawn for
it was `r`, and fewer than `T + r` iterations have passed since. -/
def StillTabu (h : List Record) (t T : ℤ) (v : ℕ) : Prop :=
  ∃ before rec after r, h = before ++ rec :: after ∧ (v, r) ∈ rec.alterations ∧
    (∀ q ∈ after, v ∉ q.alterations.map Prod.fst) ∧ t - rec.iteration < T + r

/-- The recorded history gives each altered variable one random number per move. -/
def OneDraw (h : List Record) : Prop := ∀ q ∈ h, (q.alterations.map Prod.fst).Nodup

theorem after_snoc (reset : ℤ) (gl : ℕ → ℤ) (h : List Record) (r : Record) :
    C38.after reset gl (h ++ [r]) = Memory.update r.iteration r.alterations r.violated (C38.after reset gl h) := by
  simp [C38.after]

theorem draw_unique {alts : List (ℕ × ℤ)} (hn : (alts.map Prod.fst).Nodup) {v : ℕ} {r s : ℤ} (hr : (v, r) ∈ alts)
    (hs : (v, s) ∈ alts) : r = s := by
  have := List.inj_on_of_nodup_map hn hr hs rfl
  exact congrArg Prod.snd this

/-- Reading the stamp of a variable: it exceeds `t - T` exactly when the variable is still tabu. -/
theorem stamp_iff (reset : ℤ) (gl : ℕ → ℤ) (h : List Record) (hd : OneDraw h) (t T : ℤ) (v : ℕ)
    (hreset : reset ≤ t - T) : t - T < (C38.after reset gl h).localLast v ↔ StillTabu h t T v := by
  induction h using List.reverseRecOn with
  | nil =>
    constructor
    · intro hlt
      have : (C38.after reset gl []).localLast v = reset := rfl
      omega
    · rintro ⟨b, rec, a, r, he, -⟩
      simp at he
  | append_singleton h q ih =>
    have hq : (q.alterations.map Prod.fst).Nodup := hd q (by simp)
    have ih := ih (fun x hx => hd x (by simp [hx]))
    rw [after_snoc]
    obtain ⟨s1, s2⟩ := last_update_stamps (C38.after reset gl h) q.iteration q.alterations q.violated v
    by_cases hv : v ∈ q.alterations.map Prod.fst
    · obtain ⟨⟨r, hr, e⟩, -⟩ := s2 hv
      rw [e]
      constructor
      · intro hlt
        exact ⟨h, q, [], r, rfl, hr, by simp, by omega⟩
      · rintro ⟨b, rec, a, r', he, hr', ha, hlt⟩
        have : a = [] ∧ rec = q := by
          rcases List.eq_nil_or_concat a with rfl | ⟨a', x, rfl⟩
          · have := List.append_inj' he (by simp)
            exact ⟨rfl, by simpa using this.2.symm⟩
          · exfalso
            have he' : h ++ [q] = (b ++ rec :: a') ++ [x] := by rw [he]; simp
            have := List.append_inj' he' (by simp)
            have hx : x = q := by simpa using this.2.symm
            exact ha x (by simp) (hx ▸ hv)
        obtain ⟨rfl, rfl⟩ := this
        have := draw_unique hq hr hr'
        omega
    · rw [(s1 hv).1, ih]
      constructor
      · rintro ⟨b, rec, a, r, he, hr, ha, hlt⟩
        refine ⟨b, rec, a ++ [q], r, by rw [he]; simp, hr, fun x hx => ?_, hlt⟩
        rcases List.mem_append.1 hx with hx | hx
        · exact ha x hx
        · have : x = q := by simpa using hx
          exact this ▸ hv
      · rintro ⟨b, rec, a, r, he, hr, ha, hlt⟩
        rcases List.eq_nil_or_concat a with rfl | ⟨a', x, rfl⟩
        · exfalso
          have := List.append_inj' he (by simp)
          have hx : rec = q := by simpa using this.2.symm
          exact hv (hx ▸ List.mem_map_of_mem (f := Prod.fst) hr)
        · have he' : h ++ [q] = (b ++ rec :: a') ++ [x] := by rw [he]; simp
          have := List.append_inj' he' (by simp)
          exact ⟨b, rec, a', r, this.1, hr, fun y hy => ha y (by simp [hy]), hlt⟩

/-- The "Any" rule (also used for selection moves under the "All" rule): a move is permissible exactly when
none of its variables is still tabu.  Partial: for tenures that do not reach back before the initial stamp
(`-1000` in the code), see `fresh_variables_are_tabu_under_long_tenures`. -/
theorem any_rule_partial (reset : ℤ) (gl : ℕ → ℤ) (h : List Record) (hd : OneDraw h) (t T : ℤ) (hreset : reset ≤ t - T)
    (mode : Mode) (sense : MoveSense) (hm : mode = .any ∨ sense = .selection) (alts : List (ℕ × ℤ)) :
    permissible mode sense (C38.after reset gl h).localLast alts (duration t T) = true ↔
      ∀ a ∈ alts, ¬ StillTabu h t T a.1 := by
  unfold permissible duration
  rw [if_neg (by rcases hm with rfl | rfl <;> simp)]
  rw [List.all_eq_true]
  refine forall_congr' fun a => forall_congr' fun _ => ?_
  rw [← stamp_iff reset gl h hd t T a.1 hreset]
  simp

/-- The "All" rule: a move is permissible exactly when not all of its variables are still tabu.  Partial in the
same way. -/
theorem all_rule_partial (reset : ℤ) (gl : ℕ → ℤ) (h : List Record) (hd : OneDraw h) (t T : ℤ) (hreset : reset ≤ t - T)
    (sense : MoveSense) (hs : sense ≠ .selection) (alts : List (ℕ × ℤ)) :
    permissible .all sense (C38.after reset gl h).localLast alts (duration t T) = true ↔
      ¬ ∀ a ∈ alts, StillTabu h t T a.1 := by
  unfold permissible duration
  rw [if_pos ⟨rfl, hs⟩, List.any_eq_true]
  push Not
  refine exists_congr fun a => and_congr_right fun _ => ?_
  rw [← stamp_iff reset gl h hd t T a.1 hreset]
  simp

/-- The stamps after the moves of a search that began with stamps `reset`, on top of any earlier searches. -/
theorem stamps_of_search (reset : ℤ) (gl : ℕ → ℤ) (s : Memory.Mem) (h : List Record) :
    (h.foldl (fun s r => Memory.update r.iteration r.alterations r.violated s) (Memory.resetLocalLast reset s)).localLast =
      (C38.after reset gl h).localLast := by
  unfold C38.after
  suffices hs : ∀ s s' : Memory.Mem, s.localLast = s'.localLast →
      (h.foldl (fun s r => Memory.update r.iteration r.alterations r.violated s) s).localLast =
        (h.foldl (fun s r => Memory.update r.iteration r.alterations r.violated s) s').localLast from hs _ _ rfl
  intro s s' e
  induction h generalizing s s' with
  | nil => exact e
  | cons r h ih =>
    apply ih
    have alt : ∀ (l : List (ℕ × ℤ)) (s s' : Memory.Mem), s.localLast = s'.localLast →
        (Memory.recordAlterations r.iteration l s).localLast = (Memory.recordAlterations r.iteration l s').localLast := by
      intro l
      induction l with
      | nil => exact fun _ _ e => e
      | cons a l ih => exact fun s s' e => ih _ _ (by simp only [e])
    have vio : ∀ (l : List ℕ) (s : Memory.Mem), (Memory.recordViolations l s).localLast = s.localLast := by
      intro l
      induction l with
      | nil => exact fun _ => rfl
      | cons a l ih => exact fun s => ih _
    show (Memory.recordViolations _ _).localLast = (Memory.recordViolations _ _).localLast
    rw [vio, vio]
    exact alt _ _ _ e

/-- What the searches before recorded is forgotten: whatever the memory `s` at the beginning of a search, both rules speak
about the moves `h` of this search only.  Partial in the same way. -/
theorem rules_of_this_search_partial (reset : ℤ) (s : Memory.Mem) (h : List Record) (hd : OneDraw h) (t T : ℤ)
    (hreset : reset ≤ t - T) (mode : Mode) (sense : MoveSense) (alts : List (ℕ × ℤ)) :
    let mem := h.foldl (fun s r => Memory.update r.iteration r.alterations r.violated s) (Memory.resetLocalLast reset s)
    (mode = .any ∨ sense = .selection →
      (permissible mode sense mem.localLast alts (duration t T) = true ↔ ∀ a ∈ alts, ¬ StillTabu h t T a.1)) ∧
    (mode = .all → sense ≠ .selection →
      (permissible mode sense mem.localLast alts (duration t T) = true ↔ ¬ ∀ a ∈ alts, StillTabu h t T a.1)) := by
  dsimp only
  rw [stamps_of_search reset (fun _ => 0)]
  refine ⟨fun hm => any_rule_partial reset _ h hd t T hreset mode sense hm alts, fun hm hs => ?_⟩
  subst hm
  exact all_rule_partial reset _ h hd t T hreset sense hs alts

/-- Without random numbers and with iterations recorded in order, "still tabu" means: altered by some recorded
move less than `T` iterations ago. -/
theorem still_tabu_without_randomness (h : List Record) (t T : ℤ) (v : ℕ)
    (hz : ∀ q ∈ h, ∀ a ∈ q.alterations, a.2 = 0) (ho : h.Pairwise (fun p q => p.iteration ≤ q.iteration)) :
    StillTabu h t T v ↔ ∃ q ∈ h, v ∈ q.alterations.map Prod.fst ∧ t - q.iteration < T := by
  constructor
  · rintro ⟨b, rec, a, r, rfl, hr, -, hlt⟩
    have : r = 0 := hz rec (by simp) _ hr
    exact ⟨rec, by simp, List.mem_map_of_mem (f := Prod.fst) hr, by omega⟩
  · rintro ⟨q, hq, hv, hlt⟩
    induction h using List.reverseRecOn with
    | nil => simp at hq
    | append_singleton h x ih =>
      by_cases hx : v ∈ x.alterations.map Prod.fst
      · obtain ⟨⟨v', r⟩, hr, rfl⟩ := List.mem_map.1 hx
        have hr0 : r = 0 := hz x (by simp) _ hr
        refine ⟨h, x, [], r, rfl, hr, by simp, ?_⟩
        have : q.iteration ≤ x.iteration := by
          rcases List.mem_append.1 hq with hq | hq
          · exact (List.pairwise_append.1 ho).2.2 q hq x (by simp)
          · have : q = x := by simpa using hq
            rw [this]
        omega
      · have hq' : q ∈ h := by
          rcases List.mem_append.1 hq with hq | hq
          · exact hq
          · have : q = x := by simpa using hq
            exact absurd (this ▸ hv) hx
        obtain ⟨b, rec, a, r, he, hr, ha, hlt'⟩ := ih (fun p hp => hz p (by simp [hp]))
          (List.pairwise_append.1 ho).1 hq'
        refine ⟨b, rec, a ++ [x], r, by rw [he]; simp, hr, fun y hy => ?_, hlt'⟩
        rcases List.mem_append.1 hy with hy | hy
        · exact ha y hy
        · have : y = x := by simpa using hy
          exact this ▸ hx

/-- The stamp of a variable that was never altered is `-1000`, not minus infinity: with a tenure above
`t + 1000` every move counts as tabu, although nothing was ever altered. -/
theorem fresh_variables_are_tabu_under_long_tenures (gl : ℕ → ℤ) (t T : ℤ) (hT : t + 1000 < T) (mode : Mode)
    (sense : MoveSense) (alts : List (ℕ × ℤ)) (hne : alts ≠ []) :
    permissible mode sense (C38.after INITIAL_LAST_UPDATE gl []).localLast alts (duration t T) = false ∧
    ∀ v, ¬ StillTabu [] t T v := by
  have hl : ∀ v, (C38.after INITIAL_LAST_UPDATE gl []).localLast v = -1000 := fun _ => rfl
  refine ⟨?_, fun v ⟨b, rec, a, r, he, _⟩ => by simp at he⟩
  unfold permissible duration
  split
  · rw [List.any_eq_false]
    intro a _
    rw [hl]
    simp; omega
  · rw [List.all_eq_false]
    obtain ⟨a, ha⟩ := List.exists_mem_of_ne_nil alts hne
    refine ⟨a, ha, ?_⟩
    rw [hl]
    simp; omega

/-! Non-vacuity: variable 3 altered at iteration 5 with drawn number 1; at iteration 8 with tenure 3 it is
still tabu, at iteration 9 it is not; a move of variables 3 and 4 is permissible under "All" only. -/
private def hist : List Record := [⟨5, [(3, 1)], []⟩, ⟨6, [(7, 0)], [2]⟩]
example : permissible .any .general (C38.after INITIAL_LAST_UPDATE (fun _ => 0) hist).localLast [(3, 0), (4, 0)] (duration 8 3) = false ∧
    permissible .all .general (C38.after INITIAL_LAST_UPDATE (fun _ => 0) hist).localLast [(3, 0), (4, 0)] (duration 8 3) = true ∧
    permissible .any .general (C38.after INITIAL_LAST_UPDATE (fun _ => 0) hist).localLast [(3, 0)] (duration 9 3) = true ∧
    INITIAL_LAST_UPDATE ≤ duration 8 3 := by decide
example : OneDraw hist := by
  intro q hq
  have : q = ⟨5, [(3, 1)], []⟩ ∨ q = ⟨6, [(7, 0)], [2]⟩ := by simpa [hist] using hq
  rcases this with rfl | rfl <;> simp

/-! ## The tenure -/

/-- What happens at one call of the tenure update: iteration counter, whether the global incumbent was updated,
the primal intensity. -/
structure Call where
  iteration : ℤ
  updated : Bool
  intensity : ℚ

/-- The tenure after a history of calls. -/
def tenureAfter (o : TenureOption) (mutableVars : ℕ) (s : Tenure) (cs : List Call) : Option Tenure :=
  cs.foldlM (fun s c => updateTenure o mutableVars c.iteration c.updated c.intensity s) s

/-- The range of the tenure: at least one, or its initial value if that is smaller; at most the number of
mutable variables. -/
def InRange (initial : ℤ) (mutableVars : ℕ) (T : ℤ) : Prop := min 1 (min initial mutableVars) ≤ T ∧ T ≤ mutableVars

theorem updateTenure_range (o : TenureOption) (n : ℕ) (hn : 1 ≤ n) (initial : ℤ) (h0 : 0 ≤ initial) (c : Call) (s : Tenure)
    (ho : s.original = min initial n) (hs : InRange initial n s.current) :
    ∃ s', updateTenure o n c.iteration c.updated c.intensity s = some s' ∧ s'.original = min initial n ∧
      InRange initial n s'.current := by
  obtain ⟨h1, h2⟩ := hs
  have hn' : (1 : ℤ) ≤ n := by exact_mod_cast hn
  have hcur : 0 ≤ s.current := by omega
  unfold updateTenure
  split
  · exact ⟨_, rfl, ho, by unfold InRange; simp only [ho]; omega⟩
  · rw [if_neg (by omega)]
    split
    · split
      · refine ⟨_, rfl, ?_, ?_⟩
        · unfold increaseTenure; split <;> exact ho
        · unfold increaseTenure InRange; split
          · simp only; omega
          · exact ⟨h1, h2⟩
      · refine ⟨_, rfl, ?_, ?_⟩
        · unfold decreaseTenure; split <;> exact ho
        · unfold decreaseTenure InRange; split
          · have : s.original.tdiv 2 ≤ n := by
              rw [Int.tdiv_eq_ediv_of_nonneg (by omega)]; omega
            simp only; omega
          · exact ⟨h1, h2⟩
    · exact ⟨s, rfl, ho, h1, h2⟩

/-- For every history of updates the tenure is well defined and stays in range, for every non-negative
configured initial tenure and every model with a mutable variable. -/
theorem tenure_stays_in_range (o : TenureOption) (mutableVars : ℕ) (hn : 1 ≤ mutableVars) (initial : ℤ) (h0 : 0 ≤ initial)
    (intensity : ℚ) (cs : List Call) :
    ∃ s, tenureAfter o mutableVars (setupTenure initial mutableVars intensity) cs = some s ∧
      min 1 (min initial mutableVars) ≤ s.current ∧ s.current ≤ mutableVars := by
  have main : ∀ cs s, s.original = min initial mutableVars → InRange initial mutableVars s.current →
      ∃ s', tenureAfter o mutableVars s cs = some s' ∧ InRange initial mutableVars s'.current := by
    intro cs
    induction cs with
    | nil => intro s _ hs; exact ⟨s, rfl, hs⟩
    | cons c cs ih =>
      intro s ho hs
      obtain ⟨s1, e1, o1, r1⟩ := updateTenure_range o mutableVars hn initial h0 c s ho hs
      obtain ⟨s2, e2, r2⟩ := ih s1 o1 r1
      refine ⟨s2, ?_, r2⟩
      show (updateTenure o mutableVars c.iteration c.updated c.intensity s).bind (fun s => tenureAfter o mutableVars s cs) = some s2
      rw [e1]; exact e2
  exact main cs _ rfl (by unfold InRange setupTenure; simp only; omega)

/-- The tenure moves by at most one per update, except that an update of the global incumbent resets an
increased tenure, and that a decrease never goes below half of the initial tenure. -/
theorem tenure_step (o : TenureOption) (n : ℕ) (c : Call) (s s' : Tenure) (hs : s.current ≤ n)
    (h : updateTenure o n c.iteration c.updated c.intensity s = some s') :
    (c.updated = true ∧ s.current > s.original ∧ s'.current = s.original) ∨
    (s'.current = s.current) ∨ (s'.current = s.current + 1 ∧ c.intensity > s.intensity) ∨
    (s'.current = max (s.current - 1) (max 1 (s.original.tdiv 2)) ∧ c.intensity ≤ s.intensity) := by
  unfold updateTenure at h
  split at h
  · rename_i hc
    have := Option.some.inj h
    subst this
    exact Or.inl ⟨hc.1, hc.2, rfl⟩
  · split at h
    · exact absurd h (by simp)
    · split at h
      · split at h
        · rename_i hi
          have := Option.some.inj h
          subst this
          unfold increaseTenure
          split
          · by_cases he : s.current = n
            · right; left; simp only; omega
            · right; right; left; exact ⟨by simp only; omega, hi⟩
          · right; left; rfl
        · rename_i hi
          have := Option.some.inj h
          subst this
          unfold decreaseTenure
          split
          · right; right; right; exact ⟨rfl, not_lt.1 hi⟩
          · right; left; rfl
      · have := Option.some.inj h
        subst this
        right; left; rfl

/-- A configured initial tenure of `-1` is not rejected and makes the first update divide by zero. -/
theorem negative_tenure_divides_by_zero (o : TenureOption) (mutableVars : ℕ) (it : ℤ) (updated : Bool) (x y : ℚ) :
    updateTenure o mutableVars it updated y (setupTenure (-1) mutableVars x) = none := by
  unfold updateTenure setupTenure
  simp

/-- The initial tenure that the controller chooses for the next tabu search stays between the configured one
and the number of mutable variables. -/
theorem next_initial_tenure_in_range (option : ℤ) (mutableVars : ℕ) (hist : List (Bool × Bool × Bool × ℤ)) (cur : ℤ)
    (h1 : min option mutableVars ≤ cur) (h2 : cur ≤ mutableVars) :
    min option mutableVars ≤ hist.foldl (fun c x => nextInitialTenure option mutableVars x.1 x.2.1 x.2.2.1 x.2.2.2 c) cur ∧
    hist.foldl (fun c x => nextInitialTenure option mutableVars x.1 x.2.1 x.2.2.1 x.2.2.2 c) cur ≤ mutableVars := by
  induction hist generalizing cur with
  | nil => exact ⟨h1, h2⟩
  | cons x xs ih =>
    refine ih _ ?_ ?_
    · unfold nextInitialTenure; dsimp only; split
      · omega
      · split
        · omega
        · split
          · omega
          · split
            · omega
            · omega
    · unfold nextInitialTenure; dsimp only; split
      · omega
      · split
        · omega
        · split
          · omega
          · split
            · omega
            · omega

/-! Non-vacuity: four calls that increase the tenure from 3 to 4, keep it, and reset it. -/
example : ∃ s, tenureAfter ⟨0, 2⟩ 5 (setupTenure 3 5 0) [⟨0, false, 1⟩, ⟨1, false, 2⟩, ⟨5, true, 1⟩] = some s ∧ s.current = 3 :=
  ⟨_, rfl, by decide +kernel⟩
example : ∃ s, tenureAfter ⟨0, 2⟩ 5 (setupTenure 3 5 0) [⟨0, false, 1⟩, ⟨1, false, 2⟩] = some s ∧ s.current = 4 :=
  ⟨_, rfl, by decide +kernel⟩

/-- A variable altered in the search before is no longer tabu. -/
example : permissible .any .general (Memory.resetLocalLast INITIAL_LAST_UPDATE
    (C38.after INITIAL_LAST_UPDATE (fun _ => 0) hist)).localLast [(3, 0)] (duration 8 3) = true :=
  ((rules_of_this_search_partial INITIAL_LAST_UPDATE (C38.after INITIAL_LAST_UPDATE (fun _ => 0) hist) [] (by intro q hq; cases hq)
    8 3 (by decide) .any .general [(3, 0)]).1 (Or.inl rfl)).2 (fun a _ ⟨_, _, _, _, he, _⟩ => by simp at he)

end Printemps.C52
