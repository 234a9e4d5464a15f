import Verif.Model.Summary
import Verif.Props.C98

/-! # C99: the summaries printed between the searches

The lists of the variables altered most and least often, of the constraints violated most and least often, and of the
constraints that the current solution violates. -/

namespace Printemps.C99
open Spec Search Sol Statistics Memory Summary
open C66 (Setting LegalEvent visitOf Inv next added)
open C98 (moves timesAltered timesViolated)

/-! ## Specification -/

/-- A list of the first six, in the order of `f`, of those among `vs` that are worth showing. -/
structure Listing {α : Type} (vs : List α) (worthy : α → Prop) [DecidablePred worthy] (f : α → ℤ) (shown : List α) : Prop where
  length : shown.length = min 6 (vs.countP (fun v => worthy v))
  mem : ∀ v ∈ shown, v ∈ vs ∧ worthy v
  first : ∀ v ∈ shown, ∀ w ∈ vs, worthy w → w ∉ shown → f v ≤ f w
  sorted : shown.Pairwise (fun v w => f v ≤ f w)
  nodup : vs.Nodup → shown.Nodup

/-- The number of all alterations of variables by the accepted moves. -/
def alterations (m : MState) (es : List Event) : ℕ := ((moves m (assignment m) es).map fun p => p.1.length).sum

/-- The number of accepted moves after which the constraint is satisfied (up to `1e-5`). -/
def timesSatisfied (m : MState) (es : List Event) (c : ℕ) : ℕ :=
  (moves m (assignment m) es).countP (fun p => violation (m.con c) p.2 < 1e-5)

/-! ## Lists -/

theorem items_eq {α : Type} (stop : α → Bool) (l : List α) (n : ℕ) (hn : n ≤ 6) :
    items stop n l = (l.takeWhile (fun x => !stop x)).take (6 - n) := by
  induction l generalizing n with
  | nil => simp [items]
  | cons x l ih =>
    rw [items]
    by_cases h : stop x = true
    · simp [h]
    · have hs : (!stop x) = true := by simpa using h
      rw [if_neg h, List.takeWhile_cons, if_pos hs]
      by_cases h5 : n > 5
      · rw [if_pos h5, show 6 - n = 0 by omega]; rfl
      · rw [if_neg h5, ih (n + 1) (by omega), show 6 - n = (6 - (n + 1)) + 1 by omega]; rfl

theorem listing_of {α : Type} (vs l : List α) (hperm : l.Perm vs) (f : α → ℤ) (worthy : α → Prop) [DecidablePred worthy]
    (stop : α → Bool) (hst : ∀ v ∈ vs, stop v = false ↔ worthy v)
    (hp : ∀ a ∈ vs, ∀ b ∈ vs, f a ≤ f b → worthy b → worthy a)
    (hl : l.Pairwise (fun a b => f a ≤ f b)) : Listing vs worthy f (items stop 0 l) := by
  have key : items stop 0 l = (l.filter (fun v => decide (worthy v))).take 6 := by
    rw [items_eq stop l 0 (by decide)]
    congr 1
    have : ∀ l' : List α, (∀ v ∈ l', v ∈ vs) → l'.Pairwise (fun a b => f a ≤ f b) →
        l'.takeWhile (fun x => !stop x) = l'.filter (fun v => decide (worthy v)) := by
      intro l' hm hs
      induction l' with
      | nil => rfl
      | cons x l' ih =>
        obtain ⟨h1, h2⟩ := List.pairwise_cons.1 hs
        have hx := hm x (by simp)
        by_cases h : worthy x
        · rw [List.takeWhile_cons_of_pos (by simp [(hst x hx).2 h]), List.filter_cons_of_pos (by simpa using h),
            ih (fun v hv => hm v (by simp [hv])) h2]
        · have hs' : stop x = true := by
            cases hh : stop x
            · exact absurd ((hst x hx).1 hh) h
            · rfl
          rw [List.takeWhile_cons_of_neg (by simp [hs']), List.filter_cons_of_neg (by simpa using h), eq_comm,
            List.filter_eq_nil_iff]
          intro a ha hpa
          exact h (hp x hx a (hm a (by simp [ha])) (h1 a ha) (by simpa using hpa))
    exact this l (fun v hv => hperm.mem_iff.1 hv) hl
  rw [key]
  have hfs : (l.filter (fun v => decide (worthy v))).Pairwise (fun a b => f a ≤ f b) := hl.filter _
  refine ⟨?_, fun v hv => ?_, fun v hv w hw hww hn => ?_, hfs.take, fun hnd => ?_⟩
  · rw [List.length_take, ← List.countP_eq_length_filter, hperm.countP_eq]
  · obtain ⟨h1, h2⟩ := List.mem_filter.1 (List.mem_of_mem_take hv)
    exact ⟨hperm.mem_iff.1 h1, by simpa using h2⟩
  · have hw' : w ∈ l.filter (fun v => decide (worthy v)) := List.mem_filter.2 ⟨hperm.mem_iff.2 hw, by simpa using hww⟩
    rw [← List.take_append_drop 6 (l.filter (fun v => decide (worthy v)))] at hw' hfs
    rcases List.mem_append.1 hw' with h | h
    · exact absurd h hn
    · exact (List.pairwise_append.1 hfs).2.2 v hv w h
  · exact ((hperm.nodup_iff.2 hnd).filter _).sublist (List.take_sublist _ _)

theorem sorted_by {α : Type} (f : α → ℕ) (l : List α) :
    (l.insertionSort (fun a b => f a ≤ f b)).Pairwise (fun a b => f a ≤ f b) := by
  have : Std.Total (fun a b : α => f a ≤ f b) := ⟨fun a b => Nat.le_total _ _⟩
  have : IsTrans α (fun a b : α => f a ≤ f b) := ⟨fun a b c => Nat.le_trans⟩
  exact List.pairwise_insertionSort _ _

theorem sorted_down {α : Type} (f : α → ℕ) (l : List α) :
    (l.insertionSort (fun a b => f b ≤ f a)).Pairwise (fun a b => f b ≤ f a) := by
  have : Std.Total (fun a b : α => f b ≤ f a) := ⟨fun a b => Nat.le_total _ _⟩
  have : IsTrans α (fun a b : α => f b ≤ f a) := ⟨fun a b c h1 h2 => Nat.le_trans h2 h1⟩
  exact List.pairwise_insertionSort _ _

theorem countP_le_sum {α : Type} (l : List α) (p : α → Bool) (f : α → ℕ) (h : ∀ x ∈ l, p x = true → 1 ≤ f x) :
    l.countP p ≤ (l.map f).sum := by
  induction l with
  | nil => simp
  | cons x l ih =>
    have := ih (fun y hy => h y (by simp [hy]))
    rw [List.countP_cons, List.map_cons, List.sum_cons]
    by_cases hx : p x = true
    · rw [if_pos hx]; have := h x (by simp) hx; omega
    · rw [if_neg hx]; omega

theorem altered_le (m : MState) (es : List Event) (v : ℕ) : timesAltered m es v ≤ alterations m es := by
  refine countP_le_sum _ _ _ fun x _ hx => ?_
  simp only [decide_eq_true_eq] at hx
  obtain ⟨a, ha, -⟩ := List.mem_map.1 hx
  exact List.length_pos_of_mem ha

theorem violated_le (m : MState) (es : List Event) (c : ℕ) (hne : ∀ p ∈ moves m (assignment m) es, p.1 ≠ []) :
    timesViolated m es c ≤ alterations m es :=
  countP_le_sum _ _ _ fun x hx _ => List.length_pos_iff.2 (hne x hx)

theorem eps10 : EPSILON_10 = (1e-10 : ℚ) := by norm_num [EPSILON_10]

theorem total_pos (n : ℕ) : (0 : ℚ) < max 1 (n : ℚ) := lt_of_lt_of_le one_pos (le_max_left _ _)

theorem rate_eq (k n : ℕ) (h : k ≤ n) : max 0 (min 1 ((k : ℚ) / max 1 (n : ℚ))) = k / max 1 (n : ℚ) := by
  have h1 : (k : ℚ) ≤ max 1 (n : ℚ) := le_trans (by exact_mod_cast h) (le_max_right _ _)
  have h2 : (k : ℚ) / max 1 (n : ℚ) ≤ 1 := (div_le_one (total_pos n)).2 h1
  have h3 : (0 : ℚ) ≤ (k : ℚ) / max 1 (n : ℚ) := div_nonneg (by positivity) (total_pos n).le
  rw [min_eq_right h2, max_eq_right h3]

theorem rate_eq' (k n : ℕ) (h : k ≤ n) : max 0 (min 1 (1 - (k : ℚ) / max 1 (n : ℚ))) = 1 - k / max 1 (n : ℚ) := by
  have h1 : (k : ℚ) ≤ max 1 (n : ℚ) := le_trans (by exact_mod_cast h) (le_max_right _ _)
  have h2 : (k : ℚ) / max 1 (n : ℚ) ≤ 1 := (div_le_one (total_pos n)).2 h1
  have h3 : (0 : ℚ) ≤ (k : ℚ) / max 1 (n : ℚ) := div_nonneg (by positivity) (total_pos n).le
  rw [min_eq_right (by linarith), max_eq_right (by linarith)]

theorem small_iff (k n : ℕ) (h : k ≤ n) (hn : n ≤ 10 ^ 10) : (k : ℚ) / max 1 (n : ℚ) < 1e-10 ↔ ¬ 0 < k := by
  constructor
  · intro hlt hk
    have h1 : (1 : ℚ) ≤ n := by exact_mod_cast (show 1 ≤ n by omega)
    rw [max_eq_right h1, div_lt_iff₀ (by linarith)] at hlt
    have h2 : (n : ℚ) ≤ 10 ^ 10 := by exact_mod_cast hn
    have h3 : (1 : ℚ) ≤ k := by exact_mod_cast hk
    nlinarith
  · intro hk
    obtain rfl : k = 0 := by omega
    norm_num

theorem satisfied_add_violated (m0 : MState) (ts : List Tick) (c : ℕ) : timesSatisfied m0 (ts.map Tick.event) c + timesViolated m0 (ts.map Tick.event) c =
    (moves m0 (assignment m0) (ts.map Tick.event)).length := by
  unfold timesSatisfied timesViolated
  rw [List.length_eq_countP_add_countP (fun p : List (ℕ × ℤ) × (ℕ → ℤ) => decide (violation (m0.con c) p.2 < 1e-5))]
  congr 2
  funext p
  by_cases hp : violation (m0.con c) p.2 < 1e-5
  · simp [hp, not_le.2 hp]
  · simp [hp, not_lt.1 hp]

/-! ## The properties -/

section
variable {m0 : MState} {cfg : Cfg} (hs : Setting cfg m0) (reset : ℤ) (gl : ℕ → ℤ) (ts : List Tick)
  (hle : ∀ t ∈ ts, LegalEvent cfg m0 t.event) (s : St) (mem : Mem) (h : call reset gl cfg m0 ts = some (s, mem))
include hs hle h

/-- "Low-frequent updated variables": up to six variables altered least often, least often first, each with its share of all
alterations. -/
theorem seldom_updated (vs : List ℕ) :
    Listing vs (fun _ => True) (fun v => timesAltered m0 (ts.map Tick.event) v) ((seldomUpdated vs mem).map Prod.fst) ∧
    ∀ p ∈ seldomUpdated vs mem, p.2 = timesAltered m0 (ts.map Tick.event) p.1 / max 1 (alterations m0 (ts.map Tick.event) : ℚ) := by
  obtain ⟨h1, -, -, h4⟩ := C98.counts_are_right hs reset gl ts hle s mem h
  have hsrt := sorted_by mem.updateCount vs
  constructor
  · have : (seldomUpdated vs mem).map Prod.fst = items (fun _ => false) 0 (byUpdates mem vs) := by
      unfold seldomUpdated; rw [List.map_map]; exact List.map_id _
    rw [this]
    refine listing_of vs _ (List.perm_insertionSort _ _) _ _ _ (fun _ _ => by simp) (fun _ _ _ _ _ _ => trivial) ?_
    refine hsrt.imp fun {a b} hab => ?_
    rw [← h1, ← h1]; exact_mod_cast hab
  · intro p hp
    obtain ⟨v, -, rfl⟩ := List.mem_map.1 hp
    show updateRate mem v = _
    unfold updateRate total
    rw [h1, h4]
    exact rate_eq _ _ (altered_le _ _ _)

/-- "High-frequent updated variables": up to six variables altered most often, most often first, each with its share. -/
theorem often_updated (hN : alterations m0 (ts.map Tick.event) ≤ 10 ^ 10) (vs : List ℕ) :
    Listing vs (fun v => 0 < timesAltered m0 (ts.map Tick.event) v) (fun v => -(timesAltered m0 (ts.map Tick.event) v : ℤ))
      ((oftenUpdated vs mem).map Prod.fst) ∧
    ∀ p ∈ oftenUpdated vs mem, p.2 = timesAltered m0 (ts.map Tick.event) p.1 / max 1 (alterations m0 (ts.map Tick.event) : ℚ) := by
  obtain ⟨h1, -, -, h4⟩ := C98.counts_are_right hs reset gl ts hle s mem h
  have hsrt := sorted_by mem.updateCount vs
  have hrate : ∀ v, updateRate mem v = timesAltered m0 (ts.map Tick.event) v / max 1 (alterations m0 (ts.map Tick.event) : ℚ) := by
    intro v
    unfold updateRate total
    rw [h1, h4]
    exact rate_eq _ _ (altered_le _ _ _)
  constructor
  · have : (oftenUpdated vs mem).map Prod.fst =
        items (fun v => decide (updateRate mem v < EPSILON_10)) 0 (byUpdates mem vs).reverse := by
      unfold oftenUpdated; rw [List.map_map]; exact List.map_id _
    rw [this]
    refine listing_of vs _ ((List.reverse_perm _).trans (List.perm_insertionSort _ _)) _ _ _ (fun v _ => ?_)
      (fun a _ b _ hab hb => by omega) ?_
    · rw [decide_eq_false_iff_not, hrate, eps10, small_iff _ _ (altered_le _ _ _) hN, not_not]
    · rw [List.pairwise_reverse]
      refine hsrt.imp fun {a b} hab => ?_
      rw [← h1, ← h1]
      have : (mem.updateCount a : ℤ) ≤ mem.updateCount b := by exact_mod_cast hab
      omega
  · intro p hp
    obtain ⟨v, -, rfl⟩ := List.mem_map.1 hp
    exact hrate v

theorem satisfaction (hne : ∀ p ∈ moves m0 (assignment m0) (ts.map Tick.event), p.1 ≠ []) (c : ℕ) (hc : c ∈ m0.conIds)
    (he : (m0.con c).enabled = true) :
    satisfactionRate mem c = 1 - timesViolated m0 (ts.map Tick.event) c / max 1 (alterations m0 (ts.map Tick.event) : ℚ) := by
  obtain ⟨-, h2, -, h4⟩ := C98.counts_are_right hs reset gl ts hle s mem h
  unfold satisfactionRate total
  rw [h2 c hc he, h4]
  exact rate_eq' _ _ (violated_le _ _ _ hne)

/-- "Low-frequent satisfied constraints": up to six constraints violated most often, most often first.  "High-frequent satisfied
constraints": up to six violated least often, least often first. -/
theorem constraints_listed (hN : alterations m0 (ts.map Tick.event) ≤ 10 ^ 10)
    (hne : ∀ p ∈ moves m0 (assignment m0) (ts.map Tick.event), p.1 ≠ []) (cs : List ℕ)
    (hcs : ∀ c ∈ cs, c ∈ m0.conIds ∧ (m0.con c).enabled = true) :
    Listing cs (fun c => 0 < timesViolated m0 (ts.map Tick.event) c) (fun c => -(timesViolated m0 (ts.map Tick.event) c : ℤ))
      ((seldomSatisfied cs mem).map Prod.fst) ∧
    Listing cs (fun c => timesViolated m0 (ts.map Tick.event) c < max 1 (alterations m0 (ts.map Tick.event)))
      (fun c => timesViolated m0 (ts.map Tick.event) c) ((oftenSatisfied cs mem).map Prod.fst) := by
  obtain ⟨-, h2, -, -⟩ := C98.counts_are_right hs reset gl ts hle s mem h
  have hsrt := sorted_down mem.violationCount cs
  have hmem : ∀ c, c ∈ byViolations mem cs → c ∈ cs := fun c hc => (List.perm_insertionSort _ _).mem_iff.1 hc
  have hv : ∀ c ∈ cs, mem.violationCount c = timesViolated m0 (ts.map Tick.event) c := fun c hc => h2 c (hcs c hc).1 (hcs c hc).2
  constructor
  · have : (seldomSatisfied cs mem).map Prod.fst =
        items (fun c => decide (|1 - satisfactionRate mem c| < EPSILON_10)) 0 (byViolations mem cs) := by
      unfold seldomSatisfied; rw [List.map_map]; exact List.map_id _
    rw [this]
    refine listing_of cs _ (List.perm_insertionSort _ _) _ _ _ (fun c hc => ?_) (fun a _ b _ hab hb => by omega) ?_
    · have hpos : (0 : ℚ) ≤ timesViolated m0 (ts.map Tick.event) c / max 1 (alterations m0 (ts.map Tick.event) : ℚ) :=
        div_nonneg (by positivity) (total_pos _).le
      rw [decide_eq_false_iff_not, satisfaction hs reset gl ts hle s mem h hne c (hcs c hc).1 (hcs c hc).2, sub_sub_cancel,
        abs_of_nonneg hpos, eps10, small_iff _ _ (violated_le _ _ _ hne) hN, not_not]
    · refine List.Pairwise.imp_of_mem (fun {a b} ha hb hab => ?_) hsrt
      rw [hv a (hmem a ha), hv b (hmem b hb)] at hab
      omega
  · have : (oftenSatisfied cs mem).map Prod.fst =
        items (fun c => decide (satisfactionRate mem c < EPSILON_10)) 0 (byViolations mem cs).reverse := by
      unfold oftenSatisfied; rw [List.map_map]; exact List.map_id _
    rw [this]
    refine listing_of cs _ ((List.reverse_perm _).trans (List.perm_insertionSort _ _)) _ _ _ (fun c hc => ?_)
      (fun a _ b _ hab hb => by omega) ?_
    · rw [decide_eq_false_iff_not, satisfaction hs reset gl ts hle s mem h hne c (hcs c hc).1 (hcs c hc).2, eps10]
      have hle' := violated_le m0 (ts.map Tick.event) c hne
      generalize timesViolated m0 (ts.map Tick.event) c = k at hle' ⊢
      generalize alterations m0 (ts.map Tick.event) = n at hle' hN ⊢
      have hmax : ((max 1 n : ℕ) : ℚ) = max 1 (n : ℚ) := by push_cast; rfl
      constructor
      · intro hh
        by_contra hk
        have hkn : k = max 1 n := le_antisymm (le_trans hle' (le_max_right _ _)) (not_lt.1 hk)
        apply hh
        rw [← hmax, ← hkn, div_self (by rw [hkn, hmax]; exact (total_pos n).ne')]
        norm_num
      · intro hk hh
        have h1 : (k : ℚ) + 1 ≤ max 1 (n : ℚ) := by rw [← hmax]; exact_mod_cast hk
        have h2 : max 1 (n : ℚ) ≤ 10 ^ 10 := max_le (by norm_num) (by exact_mod_cast hN)
        have h3 := total_pos n
        generalize max 1 (n : ℚ) = N at *
        have h4 : (k : ℚ) / N ≤ 1 - 1 / N := by rw [div_le_iff₀ h3, sub_mul, div_mul_cancel₀ _ h3.ne']; linarith
        have h5 : (1e-10 : ℚ) ≤ 1 / N := by rw [le_div_iff₀ h3]; nlinarith
        linarith
    · rw [List.pairwise_reverse]
      refine List.Pairwise.imp_of_mem (fun {a b} ha hb hab => ?_) hsrt
      rw [hv a (hmem a ha), hv b (hmem b hb)] at hab
      exact_mod_cast hab

/-- If every move alters one variable, the frequency shown for a constraint is the share of the moves after which it was
satisfied.  Partial: moves that alter several variables are counted several times (`frequency_is_overstated`). -/
theorem frequency_is_right_partial (hone : ∀ p ∈ moves m0 (assignment m0) (ts.map Tick.event), p.1.length = 1)
    (hn : moves m0 (assignment m0) (ts.map Tick.event) ≠ []) (cs : List ℕ)
    (hcs : ∀ c ∈ cs, c ∈ m0.conIds ∧ (m0.con c).enabled = true) :
    ∀ p ∈ seldomSatisfied cs mem ++ oftenSatisfied cs mem,
      p.2 = timesSatisfied m0 (ts.map Tick.event) p.1 / (moves m0 (assignment m0) (ts.map Tick.event)).length := by
  have hne : ∀ p ∈ moves m0 (assignment m0) (ts.map Tick.event), p.1 ≠ [] := fun p hp hh => by
    have := hone p hp; rw [hh] at this; exact absurd this (by decide)
  have hal : alterations m0 (ts.map Tick.event) = (moves m0 (assignment m0) (ts.map Tick.event)).length := by
    unfold alterations
    rw [List.map_congr_left hone]; simp
  have key : ∀ c ∈ cs, satisfactionRate mem c =
      timesSatisfied m0 (ts.map Tick.event) c / (moves m0 (assignment m0) (ts.map Tick.event)).length := by
    intro c hc
    rw [satisfaction hs reset gl ts hle s mem h hne c (hcs c hc).1 (hcs c hc).2, hal]
    have hsum := satisfied_add_violated m0 ts c
    have hpos : 1 ≤ (moves m0 (assignment m0) (ts.map Tick.event)).length := List.length_pos_iff.2 hn
    rw [max_eq_right (by exact_mod_cast hpos), eq_div_iff (by positivity), sub_mul, div_mul_cancel₀ _ (by positivity), ← hsum]
    push_cast; ring
  have hmem : ∀ c, c ∈ byViolations mem cs → c ∈ cs := fun c hc => (List.perm_insertionSort _ _).mem_iff.1 hc
  have hsub : ∀ (stop : ℕ → Bool) (l : List ℕ) (c), c ∈ items stop 0 l → c ∈ l := fun stop l c hc => by
    rw [items_eq stop l 0 (by decide)] at hc
    exact (List.takeWhile_sublist _).mem (List.mem_of_mem_take hc)
  intro p hp
  rcases List.mem_append.1 hp with hp | hp
  · obtain ⟨c, hc, rfl⟩ := List.mem_map.1 hp
    exact key c (hmem c (hsub _ _ c hc))
  · obtain ⟨c, hc, rfl⟩ := List.mem_map.1 hp
    exact key c (hmem c (List.mem_reverse.1 (hsub _ _ c hc)))

/-- The frequency shown is never lower than the share of the moves after which the constraint was satisfied. -/
theorem frequency_is_not_understated (hne : ∀ p ∈ moves m0 (assignment m0) (ts.map Tick.event), p.1 ≠ [])
    (hn : moves m0 (assignment m0) (ts.map Tick.event) ≠ []) (c : ℕ) (hc : c ∈ m0.conIds) (he : (m0.con c).enabled = true) :
    (timesSatisfied m0 (ts.map Tick.event) c : ℚ) / (moves m0 (assignment m0) (ts.map Tick.event)).length ≤
      satisfactionRate mem c := by
  rw [satisfaction hs reset gl ts hle s mem h hne c hc he]
  have hsum := satisfied_add_violated m0 ts c
  have hpos : 1 ≤ (moves m0 (assignment m0) (ts.map Tick.event)).length := List.length_pos_iff.2 hn
  have hall : (moves m0 (assignment m0) (ts.map Tick.event)).length ≤ alterations m0 (ts.map Tick.event) := by
    have := countP_le_sum (moves m0 (assignment m0) (ts.map Tick.event)) (fun _ => true) (fun p => p.1.length)
      (fun p hp _ => List.length_pos_iff.2 (hne p hp))
    rwa [List.countP_true] at this
  have h1 : (1 : ℚ) ≤ (moves m0 (assignment m0) (ts.map Tick.event)).length := by exact_mod_cast hpos
  have h2 : ((moves m0 (assignment m0) (ts.map Tick.event)).length : ℚ) ≤ alterations m0 (ts.map Tick.event) := by
    exact_mod_cast hall
  rw [max_eq_right (h1.trans h2)]
  have h3 : (timesSatisfied m0 (ts.map Tick.event) c : ℚ) + timesViolated m0 (ts.map Tick.event) c =
      (moves m0 (assignment m0) (ts.map Tick.event)).length := by exact_mod_cast hsum
  rw [eq_sub_of_add_eq h3, sub_div, div_self (by positivity)]
  have : (timesViolated m0 (ts.map Tick.event) c : ℚ) / alterations m0 (ts.map Tick.event) ≤
      timesViolated m0 (ts.map Tick.event) c / (moves m0 (assignment m0) (ts.map Tick.event)).length :=
    div_le_div_of_nonneg_left (by positivity) (by positivity) h2
  linarith

end

/-! ## The constraints violated by the current solution -/

theorem collect_eq (viol : ℕ → ℚ) (cs : List ℕ) (n : ℕ) (ls : List (ℕ × ℚ)) :
    collect viol cs n ls = (n + cs.countP (fun c => 0 < viol c),
      ls ++ ((cs.filter (fun c => 0 < viol c)).take (10 - n)).map fun c => (c, viol c)) := by
  induction cs generalizing n ls with
  | nil => simp [collect]
  | cons c cs ih =>
    rw [collect]
    by_cases h : viol c > 0
    · rw [if_pos h, ih, List.countP_cons_of_pos (by simpa using h), List.filter_cons_of_pos (by simpa using h)]
      by_cases hn : n + 1 ≤ 10
      · rw [if_pos hn, show 10 - n = (10 - (n + 1)) + 1 by omega, List.take_succ_cons, List.map_cons, List.append_assoc]
        exact Prod.ext (by simp only []; omega) rfl
      · rw [if_neg hn, show 10 - n = 0 by omega, show 10 - (n + 1) = 0 by omega]
        exact Prod.ext (by simp only []; omega) rfl
    · rw [if_neg h, ih, List.countP_cons_of_neg (by simpa using h), List.filter_cons_of_neg (by simpa using h)]

/-- The stored feasibility is that of the enabled constraints. -/
def Flagged (m : MState) : Prop :=
  m.feasible = true ↔ ∀ c ∈ m.conIds, (m.con c).enabled = true → (m.con c).isFeasible = true

theorem flag_lists (m : MState) : Flagged m.updateFeasibility := by
  show decide ((m.enabledIds.filter (fun c => !(m.con c).isFeasible)).length = 0) = true ↔
    ∀ c ∈ m.conIds, (m.con c).enabled = true → (m.con c).isFeasible = true
  rw [decide_eq_true_iff, List.length_eq_zero_iff, List.filter_eq_nil_iff]
  simp only [MState.enabledIds, List.mem_filter]
  constructor
  · intro h c hc he
    simpa using h c ⟨hc, he⟩
  · intro h c hc
    simpa using h c hc.1 hc.2

/-- What an exported model says about its constraints is right: the violations it stores, for disabled constraints too, are
those of the values exported, and its flag says whether all enabled constraints are satisfied. -/
structure Truthful (m0 m : MState) : Prop where
  ids : m.conIds = m0.conIds
  violations : ∀ c ∈ m0.conIds, exportViolations m c = violation (m0.con c) (exportDense m).values
  flag : (exportDense m).feasible = true ↔
    ∀ c ∈ m0.conIds, (m0.con c).enabled = true → violation (m0.con c) (exportDense m).values < 1e-5

theorem Truthful.of {m0 m : MState} {l g} (st : Stat m0 l g m) (hf : Flagged m)
    (hv : ∀ c ∈ m.conIds, (m.con c).violation = violation (m.con c) (assignment m)) : Truthful m0 m := by
  have hids : m.conIds = m0.conIds := st.shape.conIds
  have hv' : ∀ c ∈ m0.conIds, (m.con c).violation = violation (m0.con c) (assignment m) := fun c hc => by
    rw [hv c (by rw [hids]; exact hc), st.shape.violation]; rfl
  refine ⟨hids, hv', ?_⟩
  show m.feasible = true ↔ _
  refine Iff.trans hf ?_
  rw [hids]
  refine forall_congr' fun c => forall_congr' fun hc => ?_
  rw [st.shape.conEnabled]
  refine forall_congr' fun he => ?_
  rw [Con.isFeasible, decide_eq_true_eq, hv' c hc, ← C11.eps_eq]
  rfl

theorem refresh_truthful {m0 m : MState} {l g} (hd : NoDep m0) (st : Stat m0 l g m) (hl : Live m) (hf : Flagged m) :
    Truthful m0 (refresh m) := by
  have hl' := refresh_live m (hd.of_stat st) hl
  have hen : ∀ c, ((refresh m).con c).enabled = (m.con c).enabled := by
    intro c
    show Con.enabled (if _ then _ else _) = _
    split <;> rfl
  have hcon : ∀ c, (m.con c).enabled = true → (refresh m).con c = m.con c := by
    intro c he
    refine if_neg (c := c ∈ m.conIds ∧ (m.con c).enabled = false) ?_
    rintro ⟨-, h⟩
    rw [he] at h; exact absurd h (by decide)
  refine Truthful.of st.refresh ?_ fun c hc => ?_
  · show m.feasible = true ↔ ∀ c ∈ m.conIds, ((refresh m).con c).enabled = true → ((refresh m).con c).isFeasible = true
    refine Iff.trans hf ?_
    refine forall_congr' fun c => forall_congr' fun hc => ?_
    rw [hen]
    refine forall_congr' fun he => ?_
    rw [hcon c he]
  · have hc' : c ∈ m.conIds := hc
    by_cases he : (m.con c).enabled = true
    · exact (hl'.current.con c hc (by rw [hen]; exact he)).violation
    · have : (refresh m).con c = (m.con c).update m.pre.vals :=
        if_pos (c := c ∈ m.conIds ∧ (m.con c).enabled = false) ⟨hc', by simpa using he⟩
      rw [this]
      exact (Con.update_current (m.con c) m.pre.vals).violation

theorem begin_truthful (m0 : MState) : Truthful m0 m0.update := by
  obtain ⟨o, ov, e, -⟩ := MState.update_desc m0
  have hids : m0.update.conIds = m0.conIds := (MState.update_shape m0).conIds
  refine Truthful.of (C66.stat_refl m0).update (flag_lists _) fun c hc => ?_
  rw [hids] at hc
  have hcon : m0.update.con c = (m0.con c).update m0.pre.vals := by
    rw [e]; show (if c ∈ m0.conIds then _ else _) = _; rw [if_pos hc]
  have hass : assignment m0.update = m0.pre.vals := by
    funext v; rw [e]; rfl
  rw [hcon, hass]
  exact (Con.update_current (m0.con c) m0.pre.vals).violation

/-- The current solution is an export of a truthful model that agrees with an assignment met. -/
def Kept (m0 : MState) (past : List ((ℕ → ℤ) × ℕ)) (h : Holder Dense) : Prop :=
  ∀ d, h.localSol = some d → ∃ m, d = exportDense m ∧ Truthful m0 m ∧ ∃ p ∈ past, Agree m0 d.values p.1

theorem Kept.mono {m0 : MState} {past past'} {h : Holder Dense} (k : Kept m0 past h) (hsub : ∀ p ∈ past, p ∈ past') :
    Kept m0 past' h := fun d hd => by
  obtain ⟨m, h1, h2, p, h3, h4⟩ := k d hd
  exact ⟨m, h1, h2, p, hsub p h3, h4⟩

theorem offered {m0 m : MState} {e : ℚ} (hd : NoDep m0) (h : Holder Dense) (sc : Score) (q : (ℕ → ℤ) × ℕ)
    (hi : Inv m0 e ⟨m, sc, h⟩ q) (hf : Flagged m) (past) (hk : Kept m0 past h) :
    Kept m0 (past ++ [q]) (offer h m sc).holder := by
  obtain ⟨⟨l, g, hn, st⟩, hl, hag, -, -, -⟩ := hi
  dsimp only at st hl hag
  obtain ⟨e1, -, -⟩ := C11.model_overload_agrees refresh exportDense h m sc
  have e1' : (offer h m sc).holder = (h.tryUpdate (exportDense (refresh m)) sc).1 := e1
  intro d hdd
  rw [e1'] at hdd
  have hloc : (h.tryUpdate (exportDense (refresh m)) sc).1.localSol =
      if beats sc.localAug h.localObj then some (exportDense (refresh m)) else h.localSol := rfl
  rw [hloc] at hdd
  by_cases hb : beats sc.localAug h.localObj = true
  · rw [if_pos hb] at hdd
    obtain rfl := Option.some.inj hdd
    exact ⟨refresh m, rfl, refresh_truthful hd st hl hf, q, by simp, Agree.trans (refresh_agree st) hag⟩
  · rw [if_neg hb] at hdd
    exact hk.mono (fun p hp => by simp [hp]) d hdd

theorem step_kept {m0 : MState} {e : ℚ} {cfg : Cfg} (hs : Setting cfg m0) (he : Err m0 e) (s s' : St) (q : (ℕ → ℤ) × ℕ)
    (hi : Inv m0 e s q) (ev : Event) (hle : LegalEvent cfg m0 ev) (h : step cfg s ev = some s') (past)
    (hk : Kept m0 past s.holder) : Kept m0 (past ++ added m0 q (visitOf ev)) s'.holder := by
  cases ev with
  | start d =>
    obtain ⟨m1, h1, h2⟩ := Option.map_eq_some_iff.1 h
    obtain ⟨⟨l, g, hn, st⟩, hl, hag, hr, ho, hv⟩ := hi
    obtain ⟨st1, ag1, r1, -⟩ := C66.import_facts hs st d h1 q.1 hag hr
    obtain ⟨i1, i2, i3⟩ := C66.full_inv (e := e) hs.wf hs.noDep s.holder.resetLocal hn st1.update
      (update_live m1 (hs.noDep.of_stat st1).uexpr) _ (Agree.trans (update_agree st1) ag1) r1
    rw [← h2]
    exact offered hs.noDep _ _ _ i1 (flag_lists _) past hk
  | move mv ren =>
    obtain rfl := Option.some.inj h
    obtain ⟨i1, i2, i3⟩ := C66.move_inv hs he s q hi mv ren hle s.holder
    refine offered hs.noDep _ _ _ i1 ?_ past hk
    obtain ⟨sel, hsel⟩ := afterMove_eq s.model mv
    rw [hsel]
    exact flag_lists (((((s.model.updateObjMove mv.alterations).updateConsMove mv).updateExprsMove mv.alterations).updateVarsMove
      mv.alterations).updateSelected mv)
  | relax low =>
    obtain rfl := Option.some.inj h
    obtain ⟨⟨l, g, hn, st⟩, hl, hag, hr, ho, hv⟩ := hi
    obtain ⟨st1, ag1, r1⟩ := C66.relax_facts hs st low q.1 hag hr
    obtain ⟨i1, i2, i3⟩ := C66.full_inv (e := e) hs.wf hs.noDep s.holder hn st1.update
      (update_live _ (hs.noDep.of_stat st1).uexpr) _ (Agree.trans (update_agree st1) ag1) r1
    exact offered hs.noDep _ _ _ i1 (flag_lists _) past hk
  | penalties l' g' =>
    obtain rfl := Option.some.inj h
    show Kept m0 (past ++ []) s.holder
    rw [List.append_nil]; exact hk

theorem run_kept {m0 : MState} {e : ℚ} {cfg : Cfg} (hs : Setting cfg m0) (he : Err m0 e) (es : List Event) (s s' : St)
    (q : (ℕ → ℤ) × ℕ) (hi : Inv m0 e s q) (hle : ∀ ev ∈ es, LegalEvent cfg m0 ev) (h : run cfg es s = some s') (past)
    (hk : Kept m0 past s.holder) : Kept m0 (past ++ visited m0 q (es.map visitOf)) s'.holder := by
  induction es generalizing s q past with
  | nil =>
    obtain rfl := Option.some.inj h
    show Kept m0 (past ++ []) s.holder
    rw [List.append_nil]; exact hk
  | cons ev es ih =>
    obtain ⟨s1, h1, h2⟩ := Option.bind_eq_some_iff.1 h
    obtain ⟨i1, -⟩ := C66.step_inv hs he s s1 q hi ev (hle ev (by simp)) h1
    have k1 := step_kept hs he s s1 q hi ev (hle ev (by simp)) h1 past hk
    have k2 := ih s1 _ i1 (fun ev' hev => hle ev' (by simp [hev])) h2 _ k1
    rwa [List.map_cons, C66.visited_cons, ← List.append_assoc]

/-- The current solution of a call, at every time: its values were met, and it is the export of a model `m` whose stored
violations are those of these values. -/
theorem current_solution {m0 : MState} {cfg : Cfg} (hs : Setting cfg m0) (es : List Event) (s : St)
    (hle : ∀ ev ∈ es, LegalEvent cfg m0 ev) (h : run cfg es (begin m0) = some s) (d : Dense) (hd : s.holder.localSol = some d) :
    ∃ m, d = exportDense m ∧ Truthful m0 m ∧ ∃ p ∈ C66.all m0 es, Agree m0 d.values p.1 := by
  have he : Err m0 (m0.conIds.length * (1e-10 : ℚ)) := Or.inl rfl
  obtain ⟨i1, -⟩ := C66.begin_inv (e := m0.conIds.length * (1e-10 : ℚ)) hs
  have k0 : Kept m0 [(assignment m0, 0)] (begin m0).holder := by
    intro d' hd'
    have : (begin m0).holder.localSol = some (exportDense m0.update) := rfl
    rw [this] at hd'
    obtain rfl := Option.some.inj hd'
    exact ⟨m0.update, rfl, begin_truthful m0, (assignment m0, 0), by simp, update_agree (C66.stat_refl m0)⟩
  exact run_kept hs he es _ s _ i1 hle h _ k0 d hd

/-- The list of violated constraints: nothing is printed if and only if the current solution satisfies every enabled constraint (up
to `1e-5`); otherwise the number printed is that of all constraints it violates, of which there is one at least, the lines are
the first ten of them with their violations, and more is announced if and only if there are more. -/
theorem violated_are_listed {m0 : MState} {cfg : Cfg} (hs : Setting cfg m0) (es : List Event) (s : St)
    (hle : ∀ ev ∈ es, LegalEvent cfg m0 ev) (h : run cfg es (begin m0) = some s) (d : Dense) (hd : s.holder.localSol = some d) :
    ∃ m, d = exportDense m ∧
      (violated m.conIds (exportViolations m) d.feasible = none ↔
        ∀ c ∈ m0.conIds, (m0.con c).enabled = true → violation (m0.con c) d.values < 1e-5) ∧
      ∀ r, violated m.conIds (exportViolations m) d.feasible = some r →
        r.number = m0.conIds.countP (fun c => 0 < violation (m0.con c) d.values) ∧ 0 < r.number ∧
        r.lines = ((m0.conIds.filter (fun c => 0 < violation (m0.con c) d.values)).take 10).map
          (fun c => (c, violation (m0.con c) d.values)) ∧
        (r.more = true ↔ 10 < r.number) := by
  obtain ⟨m, rfl, ht, -⟩ := current_solution hs es s hle h d hd
  refine ⟨m, rfl, ?_, ?_⟩
  · rw [← ht.flag]
    unfold violated
    cases (exportDense m).feasible <;> simp
  · intro r hr
    have hnf : (exportDense m).feasible = false := by
      cases hh : (exportDense m).feasible
      · rfl
      · rw [hh] at hr; exact absurd hr (by simp [violated])
    rw [hnf] at hr
    have hr' := Option.some.inj hr
    rw [collect_eq, ht.ids] at hr'
    have hcount : m0.conIds.countP (fun c => decide (0 < exportViolations m c)) =
        m0.conIds.countP (fun c => decide (0 < violation (m0.con c) (exportDense m).values)) :=
      List.countP_congr fun c hc => by rw [ht.violations c hc]
    have hfilter : m0.conIds.filter (fun c => decide (0 < exportViolations m c)) =
        m0.conIds.filter (fun c => decide (0 < violation (m0.con c) (exportDense m).values)) :=
      List.filter_congr fun c hc => by rw [ht.violations c hc]
    rw [hcount, hfilter] at hr'
    subst hr'
    dsimp only
    refine ⟨by simp, ?_, ?_, by simp⟩
    · rw [Nat.zero_add, List.countP_pos_iff]
      have hnot : ¬ ∀ c ∈ m0.conIds, (m0.con c).enabled = true → violation (m0.con c) (exportDense m).values < 1e-5 := by
        rw [← ht.flag, hnf]; decide
      push Not at hnot
      obtain ⟨c, hc, -, hv⟩ := hnot
      exact ⟨c, hc, by simpa using lt_of_lt_of_le (by norm_num) hv⟩
    · rw [List.nil_append]
      refine List.map_congr_left fun c hc => ?_
      rw [ht.violations c (List.mem_filter.1 (List.mem_of_mem_take hc)).1]

/-! ## An example -/

private def m0 : MState := MState.setupSens { Example.raw with
  var := fun _ => { Example.int5 with value := 3 }.updateMargin
  varIds := [0, 1]
  conIds := [0]
  con := fun _ => { Con.setup ⟨[(0, 1)], -1, 0⟩ .less (fun _ => .integer) with penLess := 10000000, penGreater := 10000000 }
  uexprIds := []
  dependents := []
  globalPen := 10000000
  isMin := true
  objDefined := true
  obj := ⟨[(0, 1)], 0, 0⟩ }
private def cfg : Cfg := { fast := true, sels := [], selRel := fun _ => [] }
private def both (x y : ℤ) : Move := { alterations := [(0, x), (1, y)], related := [0] }
private def single (v : ℕ) (x : ℤ) : Move := { alterations := [(v, x)], related := [0], isUnivariable := true }
private def twice : List Tick := [
  ⟨.start ⟨fun _ => 3, 0, 0, 0, false⟩, 0, fun _ => 0⟩,
  ⟨.move (both 2 2) false, 0, fun _ => 0⟩,
  ⟨.move (both 4 1) false, 1, fun _ => 0⟩]
private def once : List Tick := [
  ⟨.start ⟨fun _ => 3, 0, 0, 0, false⟩, 0, fun _ => 0⟩,
  ⟨.move (single 0 2) false, 0, fun _ => 0⟩,
  ⟨.move (single 1 1) false, 1, fun _ => 0⟩,
  ⟨.move (single 0 1) false, 2, fun _ => 0⟩]

private theorem m0_wf : WellFormed m0 where
  conIds := by decide
  con c hc := show ((([(0, (1 : ℚ))] : List (ℕ × ℚ)).map Prod.fst).Nodup) by decide
  obj := by decide
  uexpr i hi := absurd hi (by simp [m0, MState.setupSens])

private theorem setting : Setting cfg m0 where
  wf := m0_wf
  ready := ⟨by decide, by decide, by decide, by decide, by decide, by decide, by decide⟩
  unit := by decide
  kinds := by decide
  start := by decide
  sens v := C07.setupSens_ok _ ⟨m0_wf.conIds, m0_wf.con, m0_wf.obj, m0_wf.uexpr⟩ v
  maxLe := by decide +kernel
  maxEq := by decide +kernel
  onlyBin := by decide +kernel
  noDep := ⟨by decide, by decide +kernel, by decide +kernel⟩
  pen c := show (0 : ℚ) ≤ 10000000 ∧ (0 : ℚ) ≤ 10000000 by norm_num

private theorem cov (alts) : Covers m0 alts [0] :=
  ⟨List.Nodup.filter _ (by decide), by decide, fun c hc _ _ => by
    have : c ∈ [0] := hc
    exact this⟩

private theorem ok (v : ℕ) (hv : v < 2) (x : ℤ) (h1 : 0 ≤ x) (h2 : x ≤ 5) : v ∈ m0.varIds ∧ v ∉ m0.dependents.map Prod.fst ∧
    (m0.var v).fixed = false ∧ (m0.var v).lb ≤ x ∧ x ≤ (m0.var v).ub := by
  have : v = 0 ∨ v = 1 := by omega
  rcases this with rfl | rfl
  · exact ⟨by decide, by decide, by decide, h1, h2⟩
  · exact ⟨by decide, by decide, by decide, h1, h2⟩

private theorem legal_both (x y : ℤ) (h1 : 0 ≤ x) (h2 : x ≤ 5) (h3 : 0 ≤ y) (h4 : y ≤ 5) : C66.Legal cfg m0 (both x y) :=
  ⟨by simp [both], fun a ha => by
    have ha' : a = (0, x) ∨ a = (1, y) := by simpa [both] using ha
    rcases ha' with rfl | rfl
    · exact ok 0 (by decide) x h1 h2
    · exact ok 1 (by decide) y h3 h4,
    cov _, fun h => absurd h (by simp [both]), fun _ h => absurd h (by simp [both])⟩

private theorem legal_single (v : ℕ) (hv : v < 2) (x : ℤ) (h1 : 0 ≤ x) (h2 : x ≤ 5) : C66.Legal cfg m0 (single v x) :=
  ⟨by simp [single], fun a ha => by
    obtain rfl : a = (v, x) := by simpa [single] using ha
    exact ok v hv x h1 h2,
    cov _, fun _ => ⟨v, x, rfl⟩, fun h => absurd h (by simp [single])⟩

private theorem legal_twice : ∀ t ∈ twice, LegalEvent cfg m0 t.event := by
  intro t ht
  simp only [twice, List.mem_cons, List.not_mem_nil, or_false] at ht
  rcases ht with rfl | rfl | rfl
  · trivial
  · exact legal_both 2 2 (by decide) (by decide) (by decide) (by decide)
  · exact legal_both 4 1 (by decide) (by decide) (by decide) (by decide)

private theorem legal_once : ∀ t ∈ once, LegalEvent cfg m0 t.event := by
  intro t ht
  simp only [once, List.mem_cons, List.not_mem_nil, or_false] at ht
  rcases ht with rfl | rfl | rfl | rfl
  · trivial
  · exact legal_single 0 (by decide) 2 (by decide) (by decide)
  · exact legal_single 1 (by decide) 1 (by decide) (by decide)
  · exact legal_single 0 (by decide) 1 (by decide) (by decide)

/-- The hypotheses of the theorems on frequencies are met by a call with three moves of one variable each; the constraint `x0 ≤ 1`
is satisfied after the last one only. -/
example : Setting cfg m0 ∧ (∀ t ∈ once, LegalEvent cfg m0 t.event) ∧ alterations m0 (once.map Tick.event) = 3 ∧
    (∀ p ∈ moves m0 (assignment m0) (once.map Tick.event), p.1.length = 1) ∧
    timesSatisfied m0 (once.map Tick.event) 0 = 1 ∧
    ((call (-10) (fun _ => 0) cfg m0 once).map fun r => seldomUpdated [0, 1] r.2) = some [(1, 1/3), (0, 2/3)] ∧
    ((call (-10) (fun _ => 0) cfg m0 once).map fun r => oftenUpdated [0, 1] r.2) = some [(0, 2/3), (1, 1/3)] ∧
    ((call (-10) (fun _ => 0) cfg m0 once).map fun r => seldomSatisfied [0] r.2) = some [(0, 1/3)] ∧
    ((call (-10) (fun _ => 0) cfg m0 once).map fun r => oftenSatisfied [0] r.2) = some [(0, 1/3)] :=
  ⟨setting, legal_once, by decide +kernel, by decide +kernel, by decide +kernel, by decide +kernel, by decide +kernel,
    by decide +kernel, by decide +kernel⟩

/-- After the first move of this call the current solution violates the constraint, and the list says so. -/
example : ((run cfg ((once.take 2).map Tick.event) (begin m0)).bind fun s => s.holder.localSol).map
      (fun d => (d.values 0, violated m0.conIds (fun c => violation (m0.con c) d.values) d.feasible)) =
    some (2, some { lines := [(0, 1)], more := false, number := 1 }) := by decide +kernel

/-- Finding: the frequency divides by the number of alterations, not of moves: a constraint that was violated after every move is
said to be satisfied half of the time if every move alters two variables. -/
theorem frequency_is_overstated : ∃ (m0 : MState) (cfg : Cfg) (ts : List Tick), Setting cfg m0 ∧
    (∀ t ∈ ts, LegalEvent cfg m0 t.event) ∧ moves m0 (assignment m0) (ts.map Tick.event) ≠ [] ∧
    timesSatisfied m0 (ts.map Tick.event) 0 = 0 ∧
    ((call (-10) (fun _ => 0) cfg m0 ts).map fun r => oftenSatisfied [0] r.2) = some [(0, 1/2)] :=
  ⟨m0, cfg, twice, setting, legal_twice, by simp [twice, moves], by decide +kernel, by decide +kernel⟩

/-- Finding: the lists are meant to have five lines (`MAX_NUMBER_OF_PRINT_ITEMS = 5`) but have six. -/
theorem six_lines_instead_of_five (vs : List ℕ) (mem : Mem) (h : 6 ≤ vs.length) : (seldomUpdated vs mem).length = 6 := by
  unfold seldomUpdated
  rw [List.length_map, items_eq _ _ 0 (by decide)]
  have : (byUpdates mem vs).takeWhile (fun _ => !false) = byUpdates mem vs :=
    by induction byUpdates mem vs with
      | nil => rfl
      | cons a l ih => rw [List.takeWhile_cons_of_pos (by rfl), ih]
  rw [this, List.length_take, byUpdates, List.length_insertionSort]
  omega

end Printemps.C99
