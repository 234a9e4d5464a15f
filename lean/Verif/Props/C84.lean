import Verif.Spec.SearchReport
import Mathlib.Tactic.Linarith
import Mathlib.Tactic.NormNum
import Mathlib.Tactic.Ring
import Mathlib.Tactic.Positivity
import Mathlib.Tactic.FieldSimp

/-! # C84: what a search reports about itself is what happened

The controller decides about the next search from the report of the last one: whether incumbents were improved and when,
whether feasible solutions were found, whether moves were scarce, the ranges of objective and penalty.  The specification is in
Spec/SearchReport.lean; what the search visits is arbitrary. -/

namespace Printemps.C84
open Report Spec

section
variable {α : Type}

/-! ## One kind of incumbent -/

/-- What is kept about one kind of incumbent. -/
structure Slot (α : Type) where
  obj : Option ℚ
  sol : Option α
  last : ℤ
  updated : Bool

/-- One visit. -/
def Slot.step (key : Score → Option ℚ) (s : Slot α) (v : ℤ × Visit α) : Slot α :=
  match key v.2.score with
  | none => s
  | some x => if beats x s.obj then ⟨some x, some v.2.sol, v.1, true⟩ else s

theorem beats_iff (x : ℚ) (o : Option ℚ) : beats x o = true ↔ Better x o := by
  cases o with
  | none => simp [beats, Better]
  | some b => simp [beats, Better]

theorem slot_truth (key : Score → Option ℚ) (s0 : Slot α) (h0 : s0.last = -1) (hu : s0.updated = false)
    (l : List (ℤ × Visit α)) :
    TellsTruth key l s0.obj s0.sol (l.foldl (Slot.step key) s0).updated (l.foldl (Slot.step key) s0).last
      (l.foldl (Slot.step key) s0).obj (l.foldl (Slot.step key) s0).sol ∧
    (∀ x, beats x (l.foldl (Slot.step key) s0).obj = true → beats x s0.obj = true) := by
  induction l using List.reverseRecOn with
  | nil =>
    refine ⟨⟨?_, fun _ => ⟨h0, rfl, rfl⟩, ?_⟩, fun x h => h⟩
    · simp [hu]
    · intro h
      rw [List.foldl_nil, hu] at h
      exact absurd h (by decide)
  | append_singleton l v ih =>
    obtain ⟨t, hb⟩ := ih
    rw [List.foldl_append, List.foldl_cons, List.foldl_nil]
    generalize l.foldl (Slot.step key) s0 = s at t hb
    have keep : ∀ (hn : ∀ x, key v.2.score = some x → ¬ beats x s.obj = true), Slot.step key s v = s := by
      intro hn
      unfold Slot.step
      cases hk : key v.2.score with
      | none => rfl
      | some x => simp only [if_neg (hn x hk)]
    by_cases hx : ∃ x, key v.2.score = some x ∧ beats x s.obj = true
    · obtain ⟨x, hk, hbx⟩ := hx
      have e : Slot.step key s v = ⟨some x, some v.2.sol, v.1, true⟩ := by
        unfold Slot.step
        simp only [hk, if_pos hbx]
      rw [e]
      refine ⟨⟨⟨fun _ => ⟨v, by simp, x, hk, (beats_iff _ _).1 (hb x hbx)⟩, fun _ => rfl⟩, fun h => absurd h (by simp), fun _ =>
        ⟨l, v, [], x, rfl, hk, rfl, rfl, rfl, by simp⟩⟩, fun y hy => hb y ?_⟩
      rw [beats_iff] at hy ⊢ hbx
      intro b hbb
      have h1 := hbx b hbb
      have h2 := hy x rfl
      have : (0 : ℚ) ≤ EPSILON := by norm_num [EPSILON]
      linarith
    · have hn : ∀ x, key v.2.score = some x → ¬ beats x s.obj = true := fun x hk hbx => hx ⟨x, hk, hbx⟩
      rw [keep hn]
      refine ⟨⟨⟨fun h => ?_, fun h => ?_⟩, t.unchanged, fun h => ?_⟩, hb⟩
      · obtain ⟨w, hw, x, h1, h2⟩ := t.updated_iff.1 h
        exact ⟨w, by simp [hw], x, h1, h2⟩
      · obtain ⟨w, hw, x, h1, h2⟩ := h
        rcases List.mem_append.1 hw with hw | hw
        · exact t.updated_iff.2 ⟨w, hw, x, h1, h2⟩
        · have : w = v := by simpa using hw
          subst this
          by_contra hc
          obtain ⟨-, ho, -⟩ := t.unchanged (by simpa using hc)
          exact hn x h1 (by rw [ho, beats_iff]; exact h2)
      · obtain ⟨pre, w, post, x, h1, h2, h3, h4, h5, h6⟩ := t.changed h
        refine ⟨pre, w, post ++ [v], x, by simp [h1], h2, h3, h4, h5, fun p hp y hy => ?_⟩
        rcases List.mem_append.1 hp with hp | hp
        · exact h6 p hp y hy
        · have : p = v := by simpa using hp
          subst this
          have := hn y hy
          rw [h4, beats_iff] at this
          by_contra hc
          apply this
          intro b hb'
          obtain rfl := Option.some.inj hb'
          linarith

/-! ## The state as a fold over all visits -/

/-- One visit in its iteration. -/
def stepAt (log : ℤ) (t : Tally α) (v : ℤ × Visit α) : Tally α := visit log v.2 { t with iteration := v.1 }

/-- The state without the counters that do not depend on the visits alone. -/
def core (t : Tally α) : Tally α := { t with iteration := 0, evaluated := 0 }

theorem core_visit (log : ℤ) (v : Visit α) (t : Tally α) : core (visit log v t) = core (stepAt log (core t) (t.iteration, v)) := rfl

theorem core_step (log : ℤ) (v : ℤ × Visit α) (t : Tally α) : core (stepAt log t v) = core (stepAt log (core t) v) := rfl

theorem core_round (log : ℤ) (b : Bool) (v : Visit α) (t : Tally α) :
    core (Report.round log b v t) = core (stepAt log (core t) (t.iteration, v)) := by
  cases b <;> rfl

theorem fold_core (log : ℤ) (l : List (ℤ × Visit α)) (t : Tally α) :
    core (l.foldl (stepAt log) t) = core (l.foldl (stepAt log) (core t)) := by
  induction l generalizing t with
  | nil => rfl
  | cons v l ih =>
    rw [List.foldl_cons, List.foldl_cons, ih (stepAt log t v), ih (stepAt log (core t) v), core_step]

theorem rounds_core (log : ℤ) (b : Bool) (l : List (Visit α)) (k : ℕ) (t : Tally α) (hk : t.iteration = k) :
    core (rounds log b l t) = core ((l.zipIdx k).foldl (fun t x => stepAt log t ((x.2 : ℤ), x.1)) t) := by
  induction l generalizing k t with
  | nil => rfl
  | cons v l ih =>
    cases l with
    | nil =>
      show core (Report.round log b v t) = core (stepAt log t ((k : ℤ), v))
      rw [core_round, hk, ← core_step]
    | cons w l =>
      have e : rounds log b (v :: w :: l) t = rounds log b (w :: l) (Report.round log false v t) := rfl
      have hk' : (Report.round log false v t).iteration = ((k + 1 : ℕ) : ℤ) := by
        show t.iteration + 1 = _
        rw [hk]; push_cast; rfl
      rw [e, ih (k + 1) _ hk', show (v :: w :: l).zipIdx k = (v, k) :: (w :: l).zipIdx (k + 1) from rfl, List.foldl_cons]
      have f := fun (s : Tally α) => fold_core log (((w :: l).zipIdx (k + 1)).map (fun x => ((x.2 : ℤ), x.1))) s
      simp only [List.foldl_map] at f
      rw [f (Report.round log false v t), f (stepAt log t ((k : ℤ), v)), core_round, hk, ← core_step]

theorem mods_core (log : ℤ) (l : List (Visit α)) (t : Tally α) (ht : t.iteration = 0) :
    core (l.foldl (fun t v => visit log v t) t) = core (l.foldl (fun t v => stepAt log t (0, v)) t) ∧
      (l.foldl (fun t v => visit log v t) t).iteration = 0 := by
  induction l generalizing t with
  | nil => exact ⟨rfl, ht⟩
  | cons v l ih =>
    rw [List.foldl_cons, List.foldl_cons]
    have e : visit log v t = stepAt log t (0, v) := by
      unfold stepAt
      rw [show ({ t with iteration := (0, v).1 } : Tally α) = t by cases t; cases ht; rfl]
    rw [← e]
    exact ih (visit log v t) ht

/-- The state at the end of a search. -/
theorem tally_core (log : ℤ) (h : Holder α) (s : Search α) :
    core (tally log h s) = core ((visits s).foldl (stepAt log) (begin_ h s.start s.startScore)) := by
  unfold tally
  dsimp only
  rw [rounds_core log s.broken s.iterations 0 _ rfl]
  have m := (mods_core log s.modifications (begin_ h s.start s.startScore) rfl).1
  unfold visits
  rw [List.foldl_append, List.foldl_map, List.foldl_map]
  have f := fun (a : Tally α) => fold_core log ((s.iterations.zipIdx).map (fun x => ((x.2 : ℤ), x.1))) a
  simp only [List.foldl_map] at f
  rw [f, f (List.foldl _ _ _)]
  rw [show core ({ s.modifications.foldl (fun t v => visit log v t) (begin_ h s.start s.startScore) with iteration := 0 } : Tally α) =
    core (s.modifications.foldl (fun t v => visit log v t) (begin_ h s.start s.startScore)) from rfl, m]

theorem bit_or (b x y : ℕ) : bit b (x ||| y) = (bit b x || bit b y) := by
  unfold bit
  rw [Nat.and_or_distrib_right]
  by_cases h1 : x &&& b = 0 <;> by_cases h2 : y &&& b = 0 <;> simp [h1, h2]

/-- the bits of the status of an offer -/
theorem status_bits (h : Holder α) (sol : α) (sc : Score) :
    bit 1 (h.tryUpdate sol sc).2 = beats sc.localAug h.localObj ∧ bit 2 (h.tryUpdate sol sc).2 = beats sc.globalAug h.globalObj ∧
      bit 4 (h.tryUpdate sol sc).2 = (sc.isFeasible && beats sc.objective h.feasObj) := by
  unfold Holder.tryUpdate
  dsimp only
  generalize beats sc.localAug h.localObj = a
  generalize beats sc.globalAug h.globalObj = b
  generalize (sc.isFeasible && beats sc.objective h.feasObj) = c
  revert a b c
  decide

/-- The values that count for the three kinds of incumbents. -/
def localKey (s : Score) : Option ℚ := some s.localAug
/-- the same for the global one -/
def globalKey (s : Score) : Option ℚ := some s.globalAug
/-- the same for the feasible one -/
def feasibleKey (s : Score) : Option ℚ := if s.isFeasible then some s.objective else none

/-- what the state keeps about the local incumbent -/
def localSlot (t : Tally α) : Slot α := ⟨t.holder.localObj, t.holder.localSol, t.lastLocal, bit 1 t.total⟩
/-- about the global one -/
def globalSlot (t : Tally α) : Slot α := ⟨t.holder.globalObj, t.holder.globalSol, t.lastGlobal, bit 2 t.total⟩
/-- about the feasible one -/
def feasibleSlot (t : Tally α) : Slot α := ⟨t.holder.feasObj, t.holder.feasSol, t.lastFeasible, bit 4 t.total⟩

theorem localSlot_step (log : ℤ) (t : Tally α) (v : ℤ × Visit α) :
    localSlot (stepAt log t v) = (localSlot t).step localKey v := by
  obtain ⟨h1, -, -⟩ := status_bits t.holder v.2.sol v.2.score
  unfold localSlot stepAt visit Slot.step localKey
  dsimp only
  rw [bit_or, h1]
  by_cases hb : beats v.2.score.localAug t.holder.localObj = true
  · simp [hb, Holder.tryUpdate]
  · have hb' : beats v.2.score.localAug t.holder.localObj = false := by simpa using hb
    simp [hb', Holder.tryUpdate]

theorem globalSlot_step (log : ℤ) (t : Tally α) (v : ℤ × Visit α) :
    globalSlot (stepAt log t v) = (globalSlot t).step globalKey v := by
  obtain ⟨-, h1, -⟩ := status_bits t.holder v.2.sol v.2.score
  unfold globalSlot stepAt visit Slot.step globalKey
  dsimp only
  rw [bit_or, h1]
  by_cases hb : beats v.2.score.globalAug t.holder.globalObj = true
  · simp [hb, Holder.tryUpdate]
  · have hb' : beats v.2.score.globalAug t.holder.globalObj = false := by simpa using hb
    simp [hb', Holder.tryUpdate]

theorem feasibleSlot_step (log : ℤ) (t : Tally α) (v : ℤ × Visit α) :
    feasibleSlot (stepAt log t v) = (feasibleSlot t).step feasibleKey v := by
  obtain ⟨-, -, h1⟩ := status_bits t.holder v.2.sol v.2.score
  unfold feasibleSlot stepAt visit Slot.step feasibleKey
  dsimp only
  rw [bit_or, h1]
  by_cases hf : v.2.score.isFeasible = true
  · by_cases hb : beats v.2.score.objective t.holder.feasObj = true
    · simp [hb, hf, Holder.tryUpdate]
    · have hb' : beats v.2.score.objective t.holder.feasObj = false := by simpa using hb
      simp [hb', hf, Holder.tryUpdate]
  · have hf' : v.2.score.isFeasible = false := by simpa using hf
    simp [hf', Holder.tryUpdate]

theorem fold_slot (log : ℤ) (slot : Tally α → Slot α) (key : Score → Option ℚ)
    (hs : ∀ t v, slot (stepAt log t v) = (slot t).step key v) (l : List (ℤ × Visit α)) (t : Tally α) :
    slot (l.foldl (stepAt log) t) = l.foldl (Slot.step key) (slot t) := by
  induction l generalizing t with
  | nil => rfl
  | cons v l ih => rw [List.foldl_cons, List.foldl_cons, ih, hs]

/-- What a search reports about the global, the feasible and the local incumbent is true.  For the global and the feasible one
"before" is what was known when the search had offered its start; the local one is the start itself. -/
theorem updates_are_reported_truly (log : ℤ) (h : Holder α) (s : Search α) :
    let h1 := (h.resetLocal.tryUpdate s.start s.startScore).1
    let t := tally log h s
    TellsTruth globalKey (visits s) h1.globalObj h1.globalSol (bit 2 t.total) t.lastGlobal t.holder.globalObj t.holder.globalSol ∧
    TellsTruth feasibleKey (visits s) h1.feasObj h1.feasSol (bit 4 t.total) t.lastFeasible t.holder.feasObj t.holder.feasSol ∧
    TellsTruth localKey (visits s) (some s.startScore.localAug) (some s.start) (bit 1 t.total) t.lastLocal t.holder.localObj
      t.holder.localSol := by
  intro h1 t
  have e := tally_core log h s
  have g : globalSlot t = globalSlot ((visits s).foldl (stepAt log) (begin_ h s.start s.startScore)) := by
    show globalSlot (core t) = globalSlot (core _)
    rw [e]
  have f : feasibleSlot t = feasibleSlot ((visits s).foldl (stepAt log) (begin_ h s.start s.startScore)) := by
    show feasibleSlot (core t) = feasibleSlot (core _)
    rw [e]
  have l : localSlot t = localSlot ((visits s).foldl (stepAt log) (begin_ h s.start s.startScore)) := by
    show localSlot (core t) = localSlot (core _)
    rw [e]
  rw [fold_slot log globalSlot globalKey (globalSlot_step log)] at g
  rw [fold_slot log feasibleSlot feasibleKey (feasibleSlot_step log)] at f
  rw [fold_slot log localSlot localKey (localSlot_step log)] at l
  have tg := (slot_truth globalKey (globalSlot (begin_ h s.start s.startScore)) rfl (by simp [globalSlot, begin_, bit]) (visits s)).1
  have tf := (slot_truth feasibleKey (feasibleSlot (begin_ h s.start s.startScore)) rfl (by simp [feasibleSlot, begin_, bit]) (visits s)).1
  have tl := (slot_truth localKey (localSlot (begin_ h s.start s.startScore)) rfl (by simp [localSlot, begin_, bit]) (visits s)).1
  rw [← g] at tg
  rw [← f] at tf
  rw [← l] at tl
  refine ⟨tg, tf, ?_⟩
  have hl : (localSlot (begin_ h s.start s.startScore)).obj = some s.startScore.localAug := by
    simp [localSlot, begin_, Holder.tryUpdate, Holder.resetLocal, beats]
  have hs : (localSlot (begin_ h s.start s.startScore)).sol = some s.start := by
    simp [localSlot, begin_, Holder.tryUpdate, Holder.resetLocal, beats]
  rw [hl, hs] at tl
  exact tl

/-- A search reports that nothing was updated exactly if no visit was better than what was known, in any of the three ways. -/
theorem no_update_reported_iff (log : ℤ) (h : Holder α) (s : Search α) :
    let h1 := (h.resetLocal.tryUpdate s.start s.startScore).1
    (tally log h s).total = 0 ↔ ∀ v ∈ visits s, ¬ Better v.2.score.globalAug h1.globalObj ∧
      ¬ (v.2.score.isFeasible = true ∧ Better v.2.score.objective h1.feasObj) ∧
      ¬ Better v.2.score.localAug (some s.startScore.localAug) := by
  intro h1
  obtain ⟨tg, tf, tl⟩ := updates_are_reported_truly log h s
  have hlt : (tally log h s).total < 8 := by
    have e : (tally log h s).total = ((visits s).foldl (stepAt log) (begin_ h s.start s.startScore)).total := by
      show (core (tally log h s)).total = (core _).total
      rw [tally_core]
    rw [e]
    have key : ∀ (l : List (ℤ × Visit α)) (t : Tally α), t.total < 8 → (l.foldl (stepAt log) t).total < 8 := by
      intro l
      induction l with
      | nil => exact fun t ht => ht
      | cons v l ih =>
        intro t ht
        rw [List.foldl_cons]
        apply ih
        show (t.holder.tryUpdate v.2.sol v.2.score).2 ||| t.total < 8
        apply Nat.or_lt_two_pow (n := 3)
        · unfold Holder.tryUpdate
          dsimp only
          split <;> split <;> split <;> omega
        · exact ht
    exact key _ _ (by show 0 < 8; omega)
  have hz : (tally log h s).total = 0 ↔ (bit 2 (tally log h s).total = false ∧ bit 4 (tally log h s).total = false ∧
      bit 1 (tally log h s).total = false) := by
    generalize (tally log h s).total = n at hlt
    revert n
    decide
  rw [hz]
  constructor
  · rintro ⟨h2, h4, h1'⟩ v hv
    refine ⟨fun hb => ?_, fun ⟨hf, hb⟩ => ?_, fun hb => ?_⟩
    · have := tg.updated_iff.2 ⟨v, hv, _, rfl, hb⟩
      rw [h2] at this; exact absurd this (by decide)
    · have := tf.updated_iff.2 ⟨v, hv, v.2.score.objective, by simp [feasibleKey, hf], hb⟩
      rw [h4] at this; exact absurd this (by decide)
    · have := tl.updated_iff.2 ⟨v, hv, _, rfl, hb⟩
      rw [h1'] at this; exact absurd this (by decide)
  · intro hall
    refine ⟨?_, ?_, ?_⟩
    · by_contra hc
      obtain ⟨v, hv, x, hx, hb⟩ := tg.updated_iff.1 (by simpa using hc)
      exact (hall v hv).1 (by rw [← Option.some.inj hx] at hb; exact hb)
    · by_contra hc
      obtain ⟨v, hv, x, hx, hb⟩ := tf.updated_iff.1 (by simpa using hc)
      unfold feasibleKey at hx
      by_cases hf : v.2.score.isFeasible = true
      · rw [if_pos hf] at hx
        exact (hall v hv).2.1 ⟨hf, by rw [← Option.some.inj hx] at hb; exact hb⟩
      · rw [if_neg hf] at hx; exact absurd hx (by simp)
    · by_contra hc
      obtain ⟨v, hv, x, hx, hb⟩ := tl.updated_iff.1 (by simpa using hc)
      exact (hall v hv).2.2 (by rw [← Option.some.inj hx] at hb; exact hb)

/-! ## Ranges, flags and counters -/

theorem range_update {r : Report.Range} {l : List ℚ} (h : IsRange r.lo r.hi l) (x : ℚ) :
    IsRange (r.update x).lo (r.update x).hi (l ++ [x]) := by
  refine ⟨fun y hy => ?_, ?_, ?_⟩
  · rcases List.mem_append.1 hy with hy | hy
    · exact ⟨le_trans (min_le_left _ _) (h.bounds y hy).1, le_trans (h.bounds y hy).2 (le_max_left _ _)⟩
    · have : y = x := by simpa using hy
      subst this
      exact ⟨min_le_right _ _, le_max_right _ _⟩
  · show min r.lo x ∈ _
    rcases le_total r.lo x with hx | hx
    · rw [min_eq_left hx]; exact List.mem_append_left _ h.lo_mem
    · rw [min_eq_right hx]; simp
  · show max r.hi x ∈ _
    rcases le_total r.hi x with hx | hx
    · rw [max_eq_right hx]; simp
    · rw [max_eq_left hx]; exact List.mem_append_left _ h.hi_mem

/-- What is known after the visits `l`. -/
structure Facts (t0 : Tally α) (start : Score) (l : List (ℤ × Visit α)) (t : Tally α) : Prop where
  objective : IsRange t.objective.lo t.objective.hi ((start :: l.map (fun x => x.2.score)).map Score.objective)
  localAug : IsRange t.localAug.lo t.localAug.hi ((start :: l.map (fun x => x.2.score)).map Score.localAug)
  globalAug : IsRange t.globalAug.lo t.globalAug.hi ((start :: l.map (fun x => x.2.score)).map Score.globalAug)
  feasibleOnly : t.penaltyMin = none → ∀ s ∈ start :: l.map (fun x => x.2.score), s.isFeasible = true
  penalty : ∀ p, t.penaltyMin = some p → (∃ s ∈ start :: l.map (fun x => x.2.score), s.isFeasible = false ∧ s.localPenalty = p) ∧
    ∀ s ∈ start :: l.map (fun x => x.2.score), s.isFeasible = false → p ≤ s.localPenalty
  found : t.found = true ↔ ∃ v ∈ l, v.2.score.isFeasible = true
  few : t.few = true ↔ ∃ v ∈ l, ∀ b ∈ v.2.permissible, b = false
  effective : t.effective ≤ l.length
  ineffective : ∃ pre post, l = pre ++ post ∧ t.ineffective ≤ post.length ∧
    (t.holder.globalObj = t0.holder.globalObj ∨ ∃ v ∈ pre, t.holder.globalObj = some v.2.score.globalAug) ∧
    ∀ v ∈ post, ¬ Better v.2.score.globalAug t.holder.globalObj

theorem nextFew_iff (log i : ℤ) (status : ℕ) (l : List Bool) (few : Bool) :
    nextFew log i status l few = true ↔ few = true ∨ ∀ b ∈ l, b = false := by
  have hc : l.countP id = 0 ↔ ∀ b ∈ l, b = false := by
    rw [List.countP_eq_zero]
    simp
  have ha : (!l.any id) = true ↔ ∀ b ∈ l, b = false := by
    simp
  unfold nextFew
  split
  · split
    · rename_i h
      exact ⟨fun _ => Or.inr (hc.1 h), fun _ => rfl⟩
    · rename_i h
      exact ⟨Or.inl, fun h' => h'.elim id (fun h' => absurd (hc.2 h') h)⟩
  · split
    · rename_i h
      exact ⟨fun _ => Or.inr (ha.1 h), fun _ => rfl⟩
    · rename_i h
      exact ⟨Or.inl, fun h' => h'.elim id (fun h' => absurd (ha.2 h') h)⟩

theorem facts (log : ℤ) (h : Holder α) (start : α) (sc : Score) (l : List (ℤ × Visit α)) :
    Facts (begin_ h start sc) sc l (l.foldl (stepAt log) (begin_ h start sc)) := by
  induction l using List.reverseRecOn with
  | nil =>
    refine
      { objective := ⟨by simp [begin_], by simp [begin_], by simp [begin_]⟩
        localAug := ⟨by simp [begin_], by simp [begin_], by simp [begin_]⟩
        globalAug := ⟨by simp [begin_], by simp [begin_], by simp [begin_]⟩
        feasibleOnly := ?_
        penalty := ?_
        found := by simp [begin_]
        few := by simp [begin_]
        effective := le_refl _
        ineffective := ⟨[], [], rfl, le_refl _, Or.inl rfl, fun _ h => absurd h (by simp)⟩ }
    · intro hp s hs
      have : s = sc := by simpa using hs
      subst this
      by_contra hc
      simp [begin_, hc] at hp
    · intro p hp
      by_cases hf : sc.isFeasible = true
      · simp [begin_, hf] at hp
      · have hf' : sc.isFeasible = false := by simpa using hf
        simp [begin_, hf'] at hp
        exact ⟨⟨sc, by simp, hf', hp⟩, fun s hs _ => by
          have : s = sc := by simpa using hs
          subst this
          exact le_of_eq hp.symm⟩
  | append_singleton l v ih =>
    rw [List.foldl_append, List.foldl_cons, List.foldl_nil]
    have hfold : (l ++ [v]).foldl (stepAt log) (begin_ h start sc) = stepAt log (l.foldl (stepAt log) (begin_ h start sc)) v := by
      rw [List.foldl_append]; rfl
    generalize ht : l.foldl (stepAt log) (begin_ h start sc) = t at ih hfold
    have hl : sc :: (l ++ [v]).map (fun x => x.2.score) = (sc :: l.map (fun x => x.2.score)) ++ [v.2.score] := by simp
    refine
      { objective := ?_
        localAug := ?_
        globalAug := ?_
        feasibleOnly := ?_
        penalty := ?_
        found := ?_
        few := ?_
        effective := ?_
        ineffective := ?_ }
    · rw [hl, List.map_append]; exact range_update ih.objective _
    · rw [hl, List.map_append]; exact range_update ih.localAug _
    · rw [hl, List.map_append]; exact range_update ih.globalAug _
    · intro hp s hs
      rw [hl] at hs
      replace hp : (if v.2.score.isFeasible then t.penaltyMin else minWith t.penaltyMin v.2.score.localPenalty) = none := hp
      by_cases hf : v.2.score.isFeasible = true
      · rw [if_pos hf] at hp
        rcases List.mem_append.1 hs with hs | hs
        · exact ih.feasibleOnly hp s hs
        · rw [show s = v.2.score by simpa using hs]; exact hf
      · rw [if_neg hf] at hp
        exact absurd hp (by simp [minWith])
    · intro p hp
      rw [hl]
      replace hp : (if v.2.score.isFeasible then t.penaltyMin else minWith t.penaltyMin v.2.score.localPenalty) = some p := hp
      by_cases hf : v.2.score.isFeasible = true
      · rw [if_pos hf] at hp
        obtain ⟨⟨s, hs, h1, h2⟩, h3⟩ := ih.penalty p hp
        refine ⟨⟨s, List.mem_append_left _ hs, h1, h2⟩, fun s hs hsf => ?_⟩
        rcases List.mem_append.1 hs with hs | hs
        · exact h3 s hs hsf
        · rw [show s = v.2.score by simpa using hs] at hsf
          rw [hf] at hsf; exact absurd hsf (by decide)
      · rw [if_neg hf] at hp
        have hf' : v.2.score.isFeasible = false := by simpa using hf
        cases hq : t.penaltyMin with
        | none =>
          rw [hq] at hp
          have hp' : v.2.score.localPenalty = p := Option.some.inj hp
          refine ⟨⟨v.2.score, by simp, hf', hp'⟩, fun s hs hsf => ?_⟩
          rcases List.mem_append.1 hs with hs | hs
          · have := ih.feasibleOnly hq s hs
            rw [hsf] at this; exact absurd this (by decide)
          · rw [show s = v.2.score by simpa using hs, hp']
        | some q =>
          rw [hq] at hp
          have hp' : min q v.2.score.localPenalty = p := Option.some.inj hp
          obtain ⟨⟨s, hs, h1, h2⟩, h3⟩ := ih.penalty q hq
          subst hp'
          constructor
          · rcases le_total q v.2.score.localPenalty with hle | hle
            · exact ⟨s, List.mem_append_left _ hs, h1, by rw [min_eq_left hle]; exact h2⟩
            · exact ⟨v.2.score, by simp, hf', by rw [min_eq_right hle]⟩
          · intro s hs hsf
            rcases List.mem_append.1 hs with hs | hs
            · exact le_trans (min_le_left _ _) (h3 s hs hsf)
            · rw [show s = v.2.score by simpa using hs]; exact min_le_right _ _
    · show (if v.2.score.isFeasible then true else t.found) = true ↔ _
      by_cases hf : v.2.score.isFeasible = true
      · rw [if_pos hf]
        exact ⟨fun _ => ⟨v, by simp, hf⟩, fun _ => rfl⟩
      · rw [if_neg hf, ih.found]
        constructor
        · rintro ⟨w, hw, h1⟩; exact ⟨w, by simp [hw], h1⟩
        · rintro ⟨w, hw, h1⟩
          rcases List.mem_append.1 hw with hw | hw
          · exact ⟨w, hw, h1⟩
          · rw [show w = v by simpa using hw] at h1
            exact absurd h1 hf
    · show nextFew log v.1 _ v.2.permissible t.few = true ↔ _
      rw [nextFew_iff, ih.few]
      constructor
      · rintro (⟨w, hw, h1⟩ | h1)
        · exact ⟨w, by simp [hw], h1⟩
        · exact ⟨v, by simp, h1⟩
      · rintro ⟨w, hw, h1⟩
        rcases List.mem_append.1 hw with hw | hw
        · exact Or.inl ⟨w, hw, h1⟩
        · rw [show w = v by simpa using hw] at h1
          exact Or.inr h1
    · show nextEffective _ _ _ t.effective ≤ _
      have := ih.effective
      rw [List.length_append, List.length_singleton]
      unfold nextEffective
      split <;> omega
    · obtain ⟨pre, post, h1, h2, h3, h4⟩ := ih.ineffective
      have hg := globalSlot_step log t v
      have ho : (stepAt log t v).holder.globalObj = ((globalSlot t).step globalKey v).obj := by rw [← hg]; rfl
      obtain ⟨-, hb, -⟩ := status_bits t.holder v.2.sol v.2.score
      by_cases hbeat : beats v.2.score.globalAug t.holder.globalObj = true
      · refine ⟨l ++ [v], [], by simp, ?_, Or.inr ⟨v, by simp, ?_⟩, fun _ h => absurd h (by simp)⟩
        swap
        · rw [ho]
          unfold Slot.step globalKey
          dsimp only
          rw [if_pos (show beats v.2.score.globalAug (globalSlot t).obj = true from hbeat)]
        show nextIneffective _ _ _ t.ineffective ≤ 0
        rw [hbeat] at hb
        unfold nextIneffective
        rw [if_neg, if_pos hb]
        intro hc
        simp only [Bool.and_eq_true, decide_eq_true_eq] at hc
        rw [hc.1] at hb
        exact absurd hb (by decide)
      · have hsame : (stepAt log t v).holder.globalObj = t.holder.globalObj := by
          rw [ho]
          unfold Slot.step globalKey
          dsimp only
          rw [if_neg (show ¬ beats v.2.score.globalAug (globalSlot t).obj = true from hbeat)]
          rfl
        refine ⟨pre, post ++ [v], by rw [h1, List.append_assoc], ?_, by rw [hsame]; exact h3, ?_⟩
        · show nextIneffective _ _ _ t.ineffective ≤ _
          rw [List.length_append, List.length_singleton]
          unfold nextIneffective
          split
          · omega
          · split <;> omega
        · intro w hw
          rw [hsame]
          rcases List.mem_append.1 hw with hw | hw
          · exact h4 w hw
          · rw [show w = v by simpa using hw, ← beats_iff]
            exact hbeat

theorem tally_facts (log : ℤ) (h : Holder α) (s : Search α) :
    Facts (begin_ h s.start s.startScore) s.startScore (visits s) (tally log h s) := by
  have f := facts log h s.start s.startScore (visits s)
  have e := tally_core log h s
  generalize tally log h s = t at e
  generalize (visits s).foldl (stepAt log) (begin_ h s.start s.startScore) = u at e f
  have e1 : t.objective = u.objective := by
    show (core t).objective = (core u).objective
    rw [e]
  have e2 : t.localAug = u.localAug := by
    show (core t).localAug = (core u).localAug
    rw [e]
  have e3 : t.globalAug = u.globalAug := by
    show (core t).globalAug = (core u).globalAug
    rw [e]
  have e4 : t.penaltyMin = u.penaltyMin := by
    show (core t).penaltyMin = (core u).penaltyMin
    rw [e]
  have e5 : t.found = u.found := by
    show (core t).found = (core u).found
    rw [e]
  have e6 : t.few = u.few := by
    show (core t).few = (core u).few
    rw [e]
  have e7 : t.effective = u.effective := by
    show (core t).effective = (core u).effective
    rw [e]
  have e8 : t.ineffective = u.ineffective := by
    show (core t).ineffective = (core u).ineffective
    rw [e]
  have e9 : t.holder = u.holder := by
    show (core t).holder = (core u).holder
    rw [e]
  exact
    { objective := by rw [e1]; exact f.objective
      localAug := by rw [e2]; exact f.localAug
      globalAug := by rw [e3]; exact f.globalAug
      feasibleOnly := by rw [e4]; exact f.feasibleOnly
      penalty := by rw [e4]; exact f.penalty
      found := by rw [e5]; exact f.found
      few := by rw [e6]; exact f.few
      effective := by rw [e7]; exact f.effective
      ineffective := by rw [e8, e9]; exact f.ineffective }

/-- The ranges kept are those of all solutions of the search, the start included; in particular the reported range of the
global augmented objective is the difference of its largest and smallest values. -/
theorem ranges_are_right (log : ℤ) (h : Holder α) (s : Search α) :
    let t := tally log h s
    IsRange t.objective.lo t.objective.hi ((scores s).map Score.objective) ∧
      IsRange t.localAug.lo t.localAug.hi ((scores s).map Score.localAug) ∧
      IsRange t.globalAug.lo t.globalAug.hi ((scores s).map Score.globalAug) ∧ t.globalAug.range = t.globalAug.hi - t.globalAug.lo :=
  ⟨(tally_facts log h s).objective, (tally_facts log h s).localAug, (tally_facts log h s).globalAug, rfl⟩

/-- The reported rate of objective to penalty: 0 if all solutions were feasible; otherwise the largest absolute objective or
the spread of the objective (at least 1), divided by the smallest penalty of an infeasible solution (at least 1). -/
theorem rate_is_right (log : ℤ) (h : Holder α) (s : Search α) :
    ((∀ x ∈ scores s, x.isFeasible = true) → rate (tally log h s) = 0) ∧
    ((∃ x ∈ scores s, x.isFeasible = false) → ∃ a lo hi p : ℚ,
      IsRange lo hi ((scores s).map Score.objective) ∧ (∀ x ∈ scores s, |x.objective| ≤ a) ∧ (∃ x ∈ scores s, |x.objective| = a) ∧
      (∃ x ∈ scores s, x.isFeasible = false ∧ x.localPenalty = p) ∧ (∀ x ∈ scores s, x.isFeasible = false → p ≤ x.localPenalty) ∧
      rate (tally log h s) = max 1 (max a (hi - lo)) / max 1 p ∧ 0 < rate (tally log h s)) := by
  have f := tally_facts log h s
  constructor
  · intro hall
    unfold rate
    cases hp : (tally log h s).penaltyMin with
    | none => rfl
    | some p =>
      obtain ⟨⟨x, hx, h1, -⟩, -⟩ := f.penalty p hp
      rw [hall x hx] at h1
      exact absurd h1 (by decide)
  · rintro ⟨x, hx, hxf⟩
    cases hp : (tally log h s).penaltyMin with
    | none =>
      have := f.feasibleOnly hp x hx
      rw [hxf] at this
      exact absurd this (by decide)
    | some p =>
      obtain ⟨h1, h2⟩ := f.penalty p hp
      have e : rate (tally log h s) = max 1 (max (tally log h s).objective.maxAbs (tally log h s).objective.range) / max 1 p := by
        simp only [rate, hp]
      refine ⟨(tally log h s).objective.maxAbs, _, _, p, f.objective, fun y hy => ?_, ?_, h1, h2, e, ?_⟩
      · have := f.objective.bounds y.objective (List.mem_map_of_mem hy)
        unfold Range.maxAbs
        rw [abs_le]
        constructor
        · have h3 : -(tally log h s).objective.lo ≤ |(tally log h s).objective.lo| := neg_le_abs _
          have h4 := le_max_right |(tally log h s).objective.hi| |(tally log h s).objective.lo|
          linarith [this.1]
        · have h3 := le_abs_self (tally log h s).objective.hi
          have h4 := le_max_left |(tally log h s).objective.hi| |(tally log h s).objective.lo|
          linarith [this.2]
      · unfold Range.maxAbs
        rcases le_total |(tally log h s).objective.hi| |(tally log h s).objective.lo| with hle | hle
        · rw [max_eq_right hle]
          obtain ⟨y, hy, he⟩ := List.mem_map.1 f.objective.lo_mem
          exact ⟨y, hy, by rw [he]⟩
        · rw [max_eq_left hle]
          obtain ⟨y, hy, he⟩ := List.mem_map.1 f.objective.hi_mem
          exact ⟨y, hy, by rw [he]⟩
      · rw [e]
        exact div_pos (lt_of_lt_of_le one_pos (le_max_left _ _)) (lt_of_lt_of_le one_pos (le_max_left _ _))

/-- Feasible solutions are reported exactly if one was visited after the start; scarcity of moves exactly if in some iteration
no trial move was permissible. -/
theorem flags_are_right (log : ℤ) (h : Holder α) (s : Search α) :
    ((tally log h s).found = true ↔ ∃ v ∈ visits s, v.2.score.isFeasible = true) ∧
      ((tally log h s).few = true ↔ ∃ v ∈ visits s, ∀ b ∈ v.2.permissible, b = false) :=
  ⟨(tally_facts log h s).found, (tally_facts log h s).few⟩

theorem rounds_counts (log : ℤ) (b : Bool) (l : List (Visit α)) (t : Tally α) :
    (rounds log b l t).iteration = t.iteration + l.length - (if b = true ∧ l ≠ [] then 1 else 0) ∧
      (rounds log b l t).evaluated = t.evaluated + (l.map (fun v => v.trials.length)).sum := by
  induction l generalizing t with
  | nil => simp [rounds]
  | cons v l ih =>
    cases l with
    | nil =>
      cases b
      · refine ⟨?_, ?_⟩
        · show t.iteration + 1 = _
          simp
        · show t.evaluated + v.trials.length = _
          simp
      · refine ⟨?_, ?_⟩
        · show t.iteration = _
          simp
        · show t.evaluated + v.trials.length = _
          simp
    | cons w l =>
      have e : rounds log b (v :: w :: l) t = rounds log b (w :: l) (Report.round log false v t) := rfl
      obtain ⟨h1, h2⟩ := ih (Report.round log false v t)
      rw [e, h1, h2]
      refine ⟨?_, ?_⟩
      · show t.iteration + 1 + ((w :: l).length : ℤ) - _ = _
        simp only [List.length_cons, ne_eq, reduceCtorEq, not_false_eq_true, and_true]
        push_cast
        ring
      · show t.evaluated + v.trials.length + _ = _
        simp only [List.map_cons, List.sum_cons]
        omega

/-- The number of iterations reported is the number of rounds of the loop, one less if the loop was left for too large
penalties; the number of evaluated moves is that of all trial moves of the rounds. -/
theorem counts_are_right (log : ℤ) (h : Holder α) (s : Search α) :
    (tally log h s).iteration = (s.iterations.length : ℤ) - (if s.broken = true ∧ s.iterations ≠ [] then 1 else 0) ∧
      (tally log h s).evaluated = (s.iterations.map (fun v => v.trials.length)).sum := by
  unfold tally
  dsimp only
  obtain ⟨h1, h2⟩ := rounds_counts log s.broken s.iterations
    ({ s.modifications.foldl (fun t v => visit log v t) (begin_ h s.start s.startScore) with iteration := 0 } : Tally α)
  have he : ∀ (l : List (Visit α)) (t : Tally α), (l.foldl (fun t v => visit log v t) t).evaluated = t.evaluated := by
    intro l
    induction l with
    | nil => exact fun _ => rfl
    | cons v l ih =>
      intro t
      rw [List.foldl_cons, ih]
      rfl
  refine ⟨?_, ?_⟩
  · rw [h1]
    show (0 : ℤ) + _ - _ = _
    rw [zero_add]
  · rw [h2]
    show (s.modifications.foldl (fun t v => visit log v t) (begin_ h s.start s.startScore)).evaluated + _ = _
    rw [he]
    show 0 + _ = _
    rw [zero_add]

/-- Without an initial modification and unless the loop was left for too large penalties, the reported performance is a share:
between 0 and 1, and it exists if there was a round.  Partial: otherwise see `performance_exceeds_one`. -/
theorem performance_is_a_share_partial (log : ℤ) (h : Holder α) (s : Search α) (hm : s.modifications = []) (hb : s.broken = false)
    (hi : s.iterations ≠ []) : ∃ p, performance (tally log h s) = some p ∧ 0 ≤ p ∧ p ≤ 1 := by
  obtain ⟨c, -⟩ := counts_are_right log h s
  have f := (tally_facts log h s).effective
  have hlen : (visits s).length = s.iterations.length := by simp [visits, hm]
  rw [hlen] at f
  rw [hb] at c
  simp only [Bool.false_eq_true, false_and, if_false, sub_zero] at c
  have hpos : 0 < s.iterations.length := List.length_pos_iff.2 hi
  unfold performance
  rw [c, if_neg (by exact_mod_cast hpos.ne')]
  have hq : (0 : ℚ) < ((s.iterations.length : ℤ) : ℚ) := by exact_mod_cast hpos
  refine ⟨_, rfl, div_nonneg (by positivity) hq.le, ?_⟩
  rw [div_le_one hq]
  exact_mod_cast f

/-- A search is stopped early only after more visits in a row than the threshold allows, none of which improved the global
incumbent. -/
theorem early_stop_is_justified (log : ℤ) (h : Holder α) (s : Search α) (threshold : ℚ) (iterationMax : ℤ)
    (he : earlyStop threshold iterationMax (tally log h s) = true) :
    let before := (h.resetLocal.tryUpdate s.start s.startScore).1.globalObj
    let after := (tally log h s).holder.globalObj
    ∃ pre post, visits s = pre ++ post ∧ threshold * iterationMax < post.length ∧
      (after = before ∨ ∃ v ∈ pre, after = some v.2.score.globalAug) ∧ ∀ v ∈ post, ¬ Better v.2.score.globalAug after := by
  obtain ⟨pre, post, h1, h2, h3, h4⟩ := (tally_facts log h s).ineffective
  refine ⟨pre, post, h1, ?_, h3, h4⟩
  unfold earlyStop at he
  have he' : threshold * (iterationMax : ℚ) < ((tally log h s).ineffective : ℚ) := by simpa using he
  exact lt_of_lt_of_le he' (by exact_mod_cast h2)

/-! ## Too large penalties -/

theorem minInfeasible_spec (l : List Score) :
    (minInfeasible l = none ↔ ∀ s ∈ l, s.isFeasible = true) ∧
    ∀ p, minInfeasible l = some p → ∀ c, (c < p ↔ ∀ s ∈ l, s.isFeasible = false → c < s.localPenalty) := by
  induction l with
  | nil => simp [minInfeasible]
  | cons s l ih =>
    obtain ⟨h1, h2⟩ := ih
    by_cases hf : s.isFeasible = true
    · simp only [minInfeasible, if_pos hf]
      refine ⟨by rw [h1]; simp [hf], fun p hp c => ?_⟩
      rw [h2 p hp c]
      simp [hf]
    · have hf' : s.isFeasible = false := by simpa using hf
      simp only [minInfeasible, if_neg hf]
      refine ⟨by simp [hf'], fun p hp c => ?_⟩
      cases hm : minInfeasible l with
      | none =>
        rw [hm] at hp
        have hp' : s.localPenalty = p := Option.some.inj hp
        subst hp'
        have hall := h1.1 hm
        constructor
        · intro hc x hx hxf
          rcases List.mem_cons.1 hx with rfl | hx
          · exact hc
          · rw [hall x hx] at hxf; exact absurd hxf (by decide)
        · intro hx; exact hx s List.mem_cons_self hf'
      | some q =>
        rw [hm] at hp
        have hp' : min s.localPenalty q = p := Option.some.inj hp
        subst hp'
        rw [lt_min_iff, h2 q hm c]
        constructor
        · rintro ⟨hc, hr⟩ x hx hxf
          rcases List.mem_cons.1 hx with rfl | hx
          · exact hc
          · exact hr x hx hxf
        · intro hx
          exact ⟨hx s List.mem_cons_self hf', fun y hy => hx y (List.mem_cons_of_mem _ hy)⟩

theorem sensitivity_spec (l : List Score) (hl : l ≠ []) :
    ∃ lo hi, sensitivity l = some (lo, hi) ∧ IsRange lo hi (l.map Score.objectiveImprovement) := by
  induction l with
  | nil => exact absurd rfl hl
  | cons s l ih =>
    by_cases hn : l = []
    · subst hn
      exact ⟨_, _, rfl, by simp, by simp, by simp⟩
    · obtain ⟨lo, hi, h1, h2⟩ := ih hn
      refine ⟨min s.objectiveImprovement lo, max s.objectiveImprovement hi, by simp [sensitivity, h1], ?_, ?_, ?_⟩
      · intro x hx
        rcases List.mem_cons.1 hx with rfl | hx
        · exact ⟨min_le_left _ _, le_max_left _ _⟩
        · have := h2.bounds x hx
          exact ⟨le_trans (min_le_right _ _) this.1, le_trans this.2 (le_max_right _ _)⟩
      · rw [List.map_cons]
        rcases le_total s.objectiveImprovement lo with hle | hle
        · rw [min_eq_left hle]; exact List.mem_cons_self
        · rw [min_eq_right hle]; exact List.mem_cons_of_mem _ h2.lo_mem
      · rw [List.map_cons]
        rcases le_total s.objectiveImprovement hi with hle | hle
        · rw [max_eq_right hle]; exact List.mem_cons_of_mem _ h2.hi_mem
        · rw [max_eq_left hle]; exact List.mem_cons_self

/-- A search is left for too large penalties exactly if more than 10 iterations were made, the current solution is feasible,
there are infeasible trial solutions, and the penalty of each of them exceeds a hundred times every change of the objective
among the trial solutions. -/
theorem penalties_too_large_iff (trials : List Score) (t : Tally α) :
    tooLarge trials t = true ↔ 10 < t.iteration ∧ t.current.isFeasible = true ∧ (∃ s ∈ trials, s.isFeasible = false) ∧
      ∀ s ∈ trials, s.isFeasible = false → ∀ r ∈ trials, 100 * |r.objectiveImprovement| < s.localPenalty := by
  unfold tooLarge
  by_cases hi : t.iteration ≤ 10
  · rw [if_pos hi]
    exact ⟨fun h => absurd h (by decide), fun h => absurd h.1 (by omega)⟩
  rw [if_neg hi]
  by_cases hf : t.current.isFeasible = true
  swap
  · rw [if_pos (by simpa using hf)]
    exact ⟨fun h => absurd h (by decide), fun h => absurd h.2.1 hf⟩
  rw [if_neg (by simpa using hf)]
  obtain ⟨m1, m2⟩ := minInfeasible_spec trials
  cases hm : minInfeasible trials with
  | none =>
    have hall := m1.1 hm
    refine ⟨fun h => absurd h (by simp), fun h => ?_⟩
    obtain ⟨s, hs, h1⟩ := h.2.2.1
    rw [hall s hs] at h1
    exact absurd h1 (by decide)
  | some p =>
    have hex : ∃ s ∈ trials, s.isFeasible = false := by
      by_contra hc
      push Not at hc
      have := m1.2 (fun s hs => by simpa using hc s hs)
      rw [hm] at this
      exact absurd this (by simp)
    obtain ⟨s0, hs0, -⟩ := hex
    have hne : trials ≠ [] := List.ne_nil_of_mem hs0
    obtain ⟨lo, hi', hsens, hr⟩ := sensitivity_spec trials hne
    rw [hsens]
    simp only [decide_eq_true_eq]
    rw [m2 p hm]
    constructor
    · intro h
      refine ⟨by omega, hf, ?_, fun s hs hsf r hrm => ?_⟩
      · by_contra hc
        push Not at hc
        have := m1.2 (fun s hs => by simpa using hc s hs)
        rw [hm] at this
        exact absurd this (by simp)
      · have hb := hr.bounds r.objectiveImprovement (List.mem_map_of_mem hrm)
        have h1 := h s hs hsf
        have habs : |r.objectiveImprovement| ≤ max hi' (-lo) := by
          rw [abs_le]
          exact ⟨by linarith [le_max_right hi' (-lo), hb.1], le_trans hb.2 (le_max_left _ _)⟩
        linarith
    · rintro ⟨-, -, -, h⟩ s hs hsf
      obtain ⟨r1, hr1, e1⟩ := List.mem_map.1 hr.lo_mem
      obtain ⟨r2, hr2, e2⟩ := List.mem_map.1 hr.hi_mem
      have a1 := h s hs hsf r1 hr1
      have a2 := h s hs hsf r2 hr2
      rw [e1] at a1
      rw [e2] at a2
      rcases le_total hi' (-lo) with hle | hle
      · rw [max_eq_right hle]
        linarith [neg_le_abs lo]
      · rw [max_eq_left hle]
        linarith [le_abs_self hi']

/-! ## Stored solutions -/

/-- The feasible solutions a search stores are those it visits in its loop; it stores the incumbent if and only if it was
improved. -/
theorem stored_solutions (log : ℤ) (h : Holder α) (s : Search α) :
    (∀ x, x ∈ feasibleSolutions s ↔ ∃ v ∈ s.iterations, v.score.isFeasible = true ∧ v.sol = x) ∧
      (∀ x, x ∈ incumbentSolutions (tally log h s) ↔
        (∃ v ∈ visits s, Better v.2.score.globalAug (h.resetLocal.tryUpdate s.start s.startScore).1.globalObj) ∧
          (tally log h s).holder.globalSol = some x) := by
  constructor
  · intro x
    unfold feasibleSolutions
    simp only [List.mem_map, List.mem_filter]
    constructor
    · rintro ⟨v, ⟨h1, h2⟩, h3⟩; exact ⟨v, h1, h2, h3⟩
    · rintro ⟨v, h1, h2, h3⟩; exact ⟨v, ⟨h1, h2⟩, h3⟩
  · intro x
    obtain ⟨tg, -, -⟩ := updates_are_reported_truly log h s
    have hiff : bit 2 (tally log h s).total = true ↔
        ∃ v ∈ visits s, Better v.2.score.globalAug (h.resetLocal.tryUpdate s.start s.startScore).1.globalObj := by
      rw [tg.updated_iff]
      constructor
      · rintro ⟨v, hv, y, hy, hb⟩
        exact ⟨v, hv, by rw [← Option.some.inj hy] at hb; exact hb⟩
      · rintro ⟨v, hv, hb⟩
        exact ⟨v, hv, _, rfl, hb⟩
    unfold incumbentSolutions
    by_cases hb : bit 2 (tally log h s).total = true
    · rw [if_pos hb]
      simp only [Option.mem_toList]
      exact ⟨fun hx => ⟨hiff.1 hb, hx⟩, fun hx => hx.2⟩
    · rw [if_neg hb]
      exact ⟨fun hx => absurd hx (by simp), fun hx => absurd (hiff.2 hx.1) hb⟩

/-- If a search without initial modification improves the feasible incumbent, the new one is among the feasible solutions it
stores.  Partial: see `best_solution_is_not_stored`. -/
theorem improved_feasible_incumbent_is_stored_partial (log : ℤ) (h : Holder α) (s : Search α) (hm : s.modifications = [])
    (hu : bit 4 (tally log h s).total = true) : ∃ x ∈ feasibleSolutions s, (tally log h s).holder.feasSol = some x := by
  obtain ⟨-, tf, -⟩ := updates_are_reported_truly log h s
  obtain ⟨pre, v, post, x, h1, h2, -, -, h5, -⟩ := tf.changed hu
  refine ⟨v.2.sol, ?_, h5⟩
  rw [(stored_solutions log h s).1]
  have hv : v ∈ visits s := by rw [h1]; simp
  have hv' : v.2 ∈ s.iterations := by
    unfold visits at hv
    rw [hm] at hv
    simp only [List.map_nil, List.nil_append, List.mem_map] at hv
    obtain ⟨y, hy, rfl⟩ := hv
    obtain ⟨-, -, h⟩ := List.mem_zipIdx hy
    rw [h]
    exact List.getElem_mem _
  refine ⟨v.2, hv', ?_, rfl⟩
  unfold feasibleKey at h2
  by_contra hc
  rw [if_neg hc] at h2
  exact absurd h2 (by simp)

end

/-! ## Concrete searches -/

namespace Sample

/-- A score: objective, violation; penalty 3 per unit of violation locally, 1000 globally. -/
def score (o v : ℚ) : Score :=
  { objective := o, totalViolation := v, localPenalty := 3 * v, globalPenalty := 1000 * v, localAug := o + 3 * v,
    globalAug := o + 1000 * v, isFeasible := decide (v = 0) }

/-- A visit with one trial move that is permissible. -/
def at_ (n : ℕ) (o v : ℚ) : Visit ℕ := ⟨n, score o v, [true], [score o v]⟩

/-- A search: from an infeasible start over a worse solution to better ones. -/
def search : Search ℕ where
  start := 0
  startScore := score 10 2
  modifications := [at_ 1 12 3]
  iterations := [at_ 2 9 1, at_ 3 4 2, ⟨4, score 6 0, [false, false], [score 6 0, score 8 1]⟩, at_ 5 7 0]
  broken := false

/-- A search with a feasible start that is the best solution. -/
def lucky : Search ℕ := ⟨0, score 1 0, [at_ 1 0 0], [at_ 2 5 0], false⟩

end Sample

open Sample

/-- What the first search reports. -/
example :
    let t := tally 10 Holder.init Sample.search
    (t.total, t.lastLocal, t.lastGlobal, t.lastFeasible) = (7, 2, 2, 2) ∧ (t.found, t.few) = (true, true) ∧
      (t.iteration, t.evaluated, t.effective, t.ineffective) = (4, 5, 2, 0) ∧ t.objective = ⟨4, 12⟩ ∧ t.holder.feasSol = some 4 ∧
      rate t = 4 ∧ performance t = some (1 / 2) ∧ feasibleSolutions Sample.search = [4, 5] ∧
      incumbentSolutions t = [4] := by decide +kernel

/-- the hypothesis of `early_stop_is_justified`: with two visits in a row that are better locally and worse globally -/
example : earlyStop (1 / 10) 10 (tally 10 Holder.init
    (⟨0, score 10 0, [], [at_ 1 6 1, at_ 2 2 2], false⟩ : Search ℕ)) = true := by decide +kernel

/-- the hypotheses of `performance_is_a_share_partial` and `improved_feasible_incumbent_is_stored_partial` -/
example : let s := { Sample.search with modifications := [] }
    s.iterations ≠ [] ∧ bit 4 (tally 10 Holder.init s).total = true := by
  refine ⟨by simp [Sample.search], by decide +kernel⟩

/-- too large penalties -/
example : tooLarge [{ score 5 50 with objectiveImprovement := 1 }, { score 7 0 with objectiveImprovement := -1 }]
    { tally 10 Holder.init Sample.search with iteration := 11 } = true ∧
    tooLarge [{ score 5 50 with objectiveImprovement := 1 }, { score 7 0 with objectiveImprovement := -2 }]
    { tally 10 Holder.init Sample.search with iteration := 11 } = false := by decide +kernel

/-- The reported performance may exceed 1: effective visits of the initial modification are counted, its steps are not. -/
theorem performance_exceeds_one :
    performance (tally 10 Holder.init (⟨0, score 10 2, [at_ 1 9 2, at_ 2 8 2, at_ 3 7 2], [at_ 4 6 2], false⟩ : Search ℕ)) =
      some 4 := by decide +kernel

/-- A search that makes no round reports no performance (0 / 0). -/
theorem performance_undefined :
    performance (tally 10 Holder.init (⟨0, score 10 2, [], [], false⟩ : Search ℕ)) = none := by decide +kernel

/-- The best feasible solution of a search, which is the incumbent afterwards, need not be among the feasible solutions stored:
those visited at the start and in the initial modification are left out. -/
theorem best_solution_is_not_stored :
    (tally 10 Holder.init Sample.lucky).holder.feasSol = some 1 ∧ feasibleSolutions Sample.lucky = [2] := by decide +kernel

end Printemps.C84
