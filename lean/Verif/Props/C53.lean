import Verif.Model.TabuSearch
import Verif.Props.C38
import Mathlib.Tactic.Linarith

/-! # C53 — the best admissible trial move is taken

`fl` is the rounding of `double` in the two additions of large constants; all theorems hold for the exact
additions (`fl = id`) and for every monotone rounding that keeps the large constants above the scores. -/

namespace Printemps.C53
open Tabu

/-! ## The first smallest element -/

theorem argminFrom_spec (xs : List ℚ) (best : ℚ) (idx i : ℕ) (l : List ℚ)
    (hl : ∀ j, l[i + j]? = xs[j]?) (hi : idx < i) (hb : l[idx]? = some best)
    (hm : ∀ j y, j < i → l[j]? = some y → best ≤ y ∧ (j < idx → best < y)) :
    ∃ x, l[argminFrom best idx i xs]? = some x ∧
      ∀ j y, l[j]? = some y → x ≤ y ∧ (j < argminFrom best idx i xs → x < y) := by
  induction xs generalizing best idx i with
  | nil =>
    refine ⟨best, hb, fun j y hy => ?_⟩
    by_cases hj : j < i
    · exact hm j y hj hy
    · exfalso
      have := hl (j - i)
      rw [show i + (j - i) = j from by omega] at this
      rw [this] at hy
      simp at hy
  | cons x xs ih =>
    have hx : l[i]? = some x := by simpa using hl 0
    have hl' : ∀ j, l[i + 1 + j]? = xs[j]? := fun j => by
      have := hl (j + 1)
      rw [show i + (j + 1) = i + 1 + j from by omega] at this
      simpa using this
    unfold argminFrom
    split
    · next hlt =>
      refine ih x i (i + 1) hl' (by omega) hx fun j y hj hy => ?_
      by_cases hji : j = i
      · subst hji
        rw [hx] at hy
        have := Option.some.inj hy
        exact ⟨this.le, fun h => absurd h (lt_irrefl _)⟩
      · have := (hm j y (by omega) hy).1
        exact ⟨by linarith, fun _ => by linarith⟩
    · next hge =>
      refine ih best idx (i + 1) hl' (by omega) hb fun j y hj hy => ?_
      by_cases hji : j = i
      · subst hji
        rw [hx] at hy
        have := Option.some.inj hy
        exact ⟨by linarith, fun h => by omega⟩
      · exact hm j y (by omega) hy

/-- The index is that of the first smallest element. -/
theorem argmin_spec (l : List ℚ) (i : ℕ) (h : argmin l = some i) :
    ∃ x, l[i]? = some x ∧ ∀ j y, l[j]? = some y → x ≤ y ∧ (j < i → x < y) := by
  cases l with
  | nil => simp [argmin] at h
  | cons a l =>
    have := Option.some.inj h
    subst this
    refine argminFrom_spec l a 0 1 (a :: l) (fun j => ?_) (by omega) rfl (fun j y hj hy => ?_)
    · rw [Nat.add_comm]; simp
    · have : j = 0 := by omega
      subst this
      have : a = y := by simpa using hy
      exact ⟨this.le, fun h => by omega⟩

theorem argmin_some (l : List ℚ) (h : l ≠ []) : ∃ i, argmin l = some i := by
  cases l with
  | nil => exact absurd rfl h
  | cons a l => exact ⟨_, rfl⟩

/-! ## The selected move -/

/-- A trial improves the incumbent beyond the tolerance. -/
def Improves (incumbent : Option ℚ) (t : Trial) : Prop :=
  match incumbent with
  | none => True
  | some o => t.globalAug + EPSILON < o

theorem beats_iff (inc : Option ℚ) (t : Trial) : beats t.globalAug inc = true ↔ Improves inc t := by
  unfold beats Improves
  cases inc <;> simp

/-- A move is always selected among at least one trial. -/
theorem selection_exists (fl : ℚ → ℚ) (asp : Bool) (inc : Option ℚ) (ts : List Trial) (h : ts ≠ []) :
    ∃ i b, selectMove fl asp inc ts = some (i, b) ∧ i < ts.length := by
  obtain ⟨i, hi⟩ := argmin_some (ts.map (Trial.total fl)) (by simpa using h)
  obtain ⟨j, hj⟩ := argmin_some (ts.map Trial.globalAug) (by simpa using h)
  obtain ⟨x, hx, -⟩ := argmin_spec _ _ hi
  obtain ⟨y, hy, -⟩ := argmin_spec _ _ hj
  rw [List.getElem?_map] at hx hy
  obtain ⟨t, ht, -⟩ := Option.map_eq_some_iff.1 hx
  obtain ⟨u, hu, -⟩ := Option.map_eq_some_iff.1 hy
  have hil : i < ts.length := (List.getElem?_eq_some_iff.1 ht).1
  have hjl : j < ts.length := (List.getElem?_eq_some_iff.1 hu).1
  unfold selectMove
  rw [hi, hj, Option.bind_some, Option.bind_some, hu, Option.map_some]
  split
  · exact ⟨i, false, rfl, hil⟩
  · split
    · exact ⟨j, _, rfl, hjl⟩
    · exact ⟨i, false, rfl, hil⟩

/-- Which move is selected.  If aspiration is on and a trial improves the incumbent, it is a trial with the
smallest global augmented objective (the first one), and it is reported as aspirated exactly when it is tabu.
Otherwise it is the first trial with the smallest total score and is not reported as aspirated. -/
theorem selected_move (fl : ℚ → ℚ) (asp : Bool) (inc : Option ℚ) (ts : List Trial) (i : ℕ) (b : Bool)
    (h : selectMove fl asp inc ts = some (i, b)) :
    ∃ t, ts[i]? = some t ∧
      ((asp = true ∧ (∃ u ∈ ts, Improves inc u)) →
        Improves inc t ∧ b = !t.permissible ∧
        ∀ j u, ts[j]? = some u → t.globalAug ≤ u.globalAug ∧ (j < i → t.globalAug < u.globalAug)) ∧
      (¬ (asp = true ∧ (∃ u ∈ ts, Improves inc u)) →
        b = false ∧ ∀ j u, ts[j]? = some u → t.total fl ≤ u.total fl ∧ (j < i → t.total fl < u.total fl)) := by
  unfold selectMove at h
  obtain ⟨i1, h1, h2⟩ := Option.bind_eq_some_iff.1 h
  obtain ⟨x, hx, hmin⟩ := argmin_spec _ _ h1
  rw [List.getElem?_map] at hx
  obtain ⟨t1, ht1, rfl⟩ := Option.map_eq_some_iff.1 hx
  have hmin' : ∀ j u, ts[j]? = some u → t1.total fl ≤ u.total fl ∧ (j < i1 → t1.total fl < u.total fl) := fun j u hu =>
    hmin j _ (by rw [List.getElem?_map, hu, Option.map_some])
  split at h2
  · next hasp =>
    have := Option.some.inj h2
    obtain ⟨rfl, rfl⟩ := Prod.mk.inj this
    refine ⟨t1, ht1, fun ⟨ha, _⟩ => ?_, fun _ => ⟨rfl, hmin'⟩⟩
    rw [ha] at hasp
    exact absurd hasp (by decide)
  · next hasp =>
    have hasp : asp = true := by cases asp <;> simp_all
    obtain ⟨j1, h3, h4⟩ := Option.bind_eq_some_iff.1 h2
    obtain ⟨y, hy, hmin2⟩ := argmin_spec _ _ h3
    rw [List.getElem?_map] at hy
    obtain ⟨t2, ht2, rfl⟩ := Option.map_eq_some_iff.1 hy
    have hmin2' : ∀ j u, ts[j]? = some u → t2.globalAug ≤ u.globalAug ∧ (j < j1 → t2.globalAug < u.globalAug) := fun j u hu =>
      hmin2 j _ (by rw [List.getElem?_map, hu, Option.map_some])
    rw [ht2, Option.map_some] at h4
    have h5 := Option.some.inj h4
    have hmem2 : t2 ∈ ts := List.mem_of_getElem? ht2
    have hex : (∃ u ∈ ts, Improves inc u) ↔ Improves inc t2 := by
      constructor
      · rintro ⟨u, hu, him⟩
        obtain ⟨j, hj⟩ := List.getElem?_of_mem hu
        have := (hmin2' j u hj).1
        unfold Improves at him ⊢
        cases inc with
        | none => trivial
        | some o => simp only at him ⊢; linarith
      · intro him
        exact ⟨t2, hmem2, him⟩
    split at h5
    · next hb =>
      obtain ⟨rfl, rfl⟩ := Prod.mk.inj h5
      have him := (beats_iff inc t2).1 hb
      exact ⟨t2, ht2, fun _ => ⟨him, rfl, hmin2'⟩, fun hn => absurd ⟨hasp, hex.2 him⟩ hn⟩
    · next hb =>
      obtain ⟨rfl, rfl⟩ := Prod.mk.inj h5
      refine ⟨t1, ht1, fun ⟨_, hu⟩ => ?_, fun _ => ⟨rfl, hmin'⟩⟩
      exact absurd ((beats_iff inc t2).2 (hex.1 hu)) hb

/-! ## Tabu moves come last -/

/-- A trial that may be taken freely: not tabu, and not a special-neighborhood move that improves neither the
objective nor the feasibility. -/
def Admissible (t : Trial) : Prop :=
  t.permissible = true ∧ ¬ (t.special = true ∧ t.objImprovable = false ∧ t.feasImprovable = false)

/-- The penalised special moves. -/
def Useless (t : Trial) : Prop := t.special = true ∧ t.objImprovable = false ∧ t.feasImprovable = false

/-- What is needed of the rounding: monotone, and the large constants stay above scores bounded by `B`. -/
structure Rounding (fl : ℚ → ℚ) (B : ℚ) : Prop where
  mono : ∀ x y, x ≤ y → fl x ≤ fl y
  fifty : B < fl (LARGE_VALUE_50 - B)
  hundred : fl (LARGE_VALUE_50 + B) < fl (LARGE_VALUE_100 - B)

theorem useless_cond (t : Trial) : (t.special && !(t.objImprovable || t.feasImprovable)) = true ↔ Useless t := by
  unfold Useless
  cases t.special <;> cases t.objImprovable <;> cases t.feasImprovable <;> simp

theorem total_useless (fl : ℚ → ℚ) (t : Trial) (h : Useless t) :
    t.total fl = fl ((if t.permissible then t.base else fl (t.base + LARGE_VALUE_50)) + LARGE_VALUE_100) := by
  unfold Trial.total
  rw [if_pos ((useless_cond t).2 h)]

theorem total_useful (fl : ℚ → ℚ) (t : Trial) (h : ¬ Useless t) :
    t.total fl = if t.permissible then t.base else fl (t.base + LARGE_VALUE_50) := by
  unfold Trial.total
  rw [if_neg (fun hc => h ((useless_cond t).1 hc))]

theorem large : LARGE_VALUE_50 ≤ LARGE_VALUE_100 := by decide +kernel

/-- Without an aspirated trial, a tabu move is selected only when no trial is admissible. -/
theorem tabu_only_if_nothing_admissible (fl : ℚ → ℚ) (B : ℚ) (hfl : Rounding fl B) (asp : Bool) (inc : Option ℚ)
    (ts : List Trial) (hB : ∀ t ∈ ts, |t.base| ≤ B) (i : ℕ) (b : Bool) (t : Trial)
    (h : selectMove fl asp inc ts = some (i, b)) (ht : ts[i]? = some t)
    (hna : ¬ (asp = true ∧ (∃ u ∈ ts, Improves inc u))) (htabu : t.permissible = false) :
    ∀ u ∈ ts, ¬ Admissible u := by
  intro u hu ⟨hp, hs⟩
  obtain ⟨t', ht', -, h2⟩ := selected_move fl asp inc ts i b h
  rw [ht] at ht'
  have := Option.some.inj ht'
  subst this
  obtain ⟨j, hj⟩ := List.getElem?_of_mem hu
  have hle := ((h2 hna).2 j u hj).1
  have hbt := abs_le.1 (hB t (List.mem_of_getElem? ht))
  have hbu := abs_le.1 (hB u hu)
  have hB0 : 0 ≤ B := le_trans (abs_nonneg _) (hB u hu)
  rw [total_useful fl u hs, if_pos hp] at hle
  have h50 := hfl.mono (LARGE_VALUE_50 - B) (t.base + LARGE_VALUE_50) (by linarith)
  have hf := hfl.fifty
  by_cases hu' : Useless t
  · rw [total_useless fl t hu', if_neg (by simp [htabu])] at hle
    have := hfl.mono (LARGE_VALUE_50 - B) (fl (t.base + LARGE_VALUE_50) + LARGE_VALUE_100) (by
      have := large; linarith)
    linarith
  · rw [total_useful fl t hu', if_neg (by simp [htabu])] at hle
    linarith

/-- Without an aspirated trial, a special move that improves nothing is selected only when all trials are of
this kind. -/
theorem useless_only_if_all_useless (fl : ℚ → ℚ) (B : ℚ) (hfl : Rounding fl B) (asp : Bool) (inc : Option ℚ)
    (ts : List Trial) (hB : ∀ t ∈ ts, |t.base| ≤ B) (i : ℕ) (b : Bool) (t : Trial)
    (h : selectMove fl asp inc ts = some (i, b)) (ht : ts[i]? = some t)
    (hna : ¬ (asp = true ∧ (∃ u ∈ ts, Improves inc u))) (hus : Useless t) :
    ∀ u ∈ ts, Useless u := by
  intro u hu
  by_contra hn
  obtain ⟨t', ht', -, h2⟩ := selected_move fl asp inc ts i b h
  rw [ht] at ht'
  have := Option.some.inj ht'
  subst this
  obtain ⟨j, hj⟩ := List.getElem?_of_mem hu
  have hle := ((h2 hna).2 j u hj).1
  have hbt := abs_le.1 (hB t (List.mem_of_getElem? ht))
  have hbu := abs_le.1 (hB u hu)
  have hB0 : 0 ≤ B := le_trans (abs_nonneg _) (hB u hu)
  rw [total_useful fl u hn, total_useless fl t hus] at hle
  have hf := hfl.fifty
  have hh := hfl.hundred
  have hx : (if t.permissible = true then t.base else fl (t.base + LARGE_VALUE_50)) ≥ -B := by
    split
    · linarith
    · have := hfl.mono (LARGE_VALUE_50 - B) (t.base + LARGE_VALUE_50) (by linarith)
      linarith
  have h1 := hfl.mono (LARGE_VALUE_100 - B)
    ((if t.permissible = true then t.base else fl (t.base + LARGE_VALUE_50)) + LARGE_VALUE_100) (by linarith)
  have h50 := hfl.mono (LARGE_VALUE_50 - B) (LARGE_VALUE_50 + B) (by linarith)
  have hy : (if u.permissible = true then u.base else fl (u.base + LARGE_VALUE_50)) ≤ fl (LARGE_VALUE_50 + B) := by
    split
    · linarith
    · exact hfl.mono _ _ (by linarith)
  linarith

/-- Exact arithmetic is such a rounding for scores up to `10^49`. -/
theorem exact_rounding : Rounding id (10 ^ 49) where
  mono _ _ h := h
  fifty := by decide +kernel
  hundred := by decide +kernel

/-- In floating point the constant `1e50` absorbs the scores: whenever rounding gives `1e50` for every trial
and all trials are tabu ordinary moves, the first trial is taken, whatever the scores are. -/
theorem first_tabu_move_is_taken (fl : ℚ → ℚ) (inc : Option ℚ) (t : Trial) (ts : List Trial)
    (habs : ∀ u ∈ t :: ts, fl (u.base + LARGE_VALUE_50) = LARGE_VALUE_50)
    (htabu : ∀ u ∈ t :: ts, u.permissible = false ∧ u.special = false) :
    selectMove fl false inc (t :: ts) = some (0, false) := by
  obtain ⟨i, b, h, -⟩ := selection_exists fl false inc (t :: ts) (by simp)
  obtain ⟨u, hu, -, h2⟩ := selected_move fl false inc _ i b h
  obtain ⟨rfl, hmin⟩ := h2 (by simp)
  have ht : ∀ v ∈ t :: ts, v.total fl = LARGE_VALUE_50 := fun v hv => by
    rw [total_useful fl v (fun hc => by rw [Useless, (htabu v hv).2] at hc; simp at hc),
      if_neg (by simp [(htabu v hv).1]), habs v hv]
  have : i = 0 := by
    by_contra hne
    have h3 := (hmin 0 t (by simp)).2 (by omega)
    rw [ht t (by simp), ht u (List.mem_of_getElem? hu)] at h3
    exact lt_irrefl _ h3
  rw [h, this]

/-! Non-vacuity: three trials, the second is tabu with the best score, the third is the best admissible one;
with aspiration the second is taken when it improves the incumbent. -/
private def ex : List Trial := [⟨5, 5, 0, 0, true, false, true, false⟩, ⟨1, 1, 0, 0, false, false, true, false⟩,
  ⟨3, 4, 0, 0, true, false, true, false⟩, ⟨-7, 8, 0, 0, true, true, false, false⟩]
example : selectMove id true (some 1) ex = some (2, false) ∧ selectMove id true (some 2) ex = some (1, true) ∧
    selectMove id false (some 2) ex = some (2, false) := by decide +kernel
example : ∀ t ∈ ex, |t.base| ≤ 10 ^ 49 := by decide +kernel
/-- Only tabu trials left: the tabu one is selected. -/
example : selectMove id true (some 0) [⟨1, 1, 0, 0, false, false, true, false⟩] = some (0, false) := by decide +kernel

/-! ## The parts of a score -/

/-- Without aspiration, an admissible selected move has the smallest sum of local augmented objective, frequency
penalty and Lagrangian penalty among all admissible moves. -/
theorem best_admissible (fl : ℚ → ℚ) (inc : Option ℚ) (ts : List Trial) (i : ℕ) (b : Bool) (t : Trial)
    (h : selectMove fl false inc ts = some (i, b)) (ht : ts[i]? = some t)
    (hp : t.permissible = true) (hu : ¬ Useless t) :
    ∀ u ∈ ts, u.permissible = true → ¬ Useless u →
      t.localAug + t.frequency + t.lagrangian ≤ u.localAug + u.frequency + u.lagrangian := by
  intro u hm hup huu
  obtain ⟨t', ht', -, h2⟩ := selected_move fl false inc ts i b h
  rw [ht] at ht'
  obtain rfl := Option.some.inj ht'
  obtain ⟨-, hmin⟩ := h2 (by simp)
  obtain ⟨j, hj⟩ := List.getElem?_of_mem hm
  have := (hmin j u hj).1
  rw [total_useful fl t hu, total_useful fl u huu, if_pos hp, if_pos hup] at this
  exact this

theorem foldl_add (l : List ℚ) (s : ℚ) : l.foldl (fun s x => s + x) s = s + l.sum := by
  induction l generalizing s with
  | nil => simp
  | cons x l ih => rw [List.foldl_cons, ih, List.sum_cons]; ring

theorem reciprocal_after (reset : ℤ) (gl : ℕ → ℤ) (h : List C38.Record) (hne : h ≠ []) :
    (C38.after reset gl h).totalReciprocal = 1 / (max 1 (C38.altered h).length : ℕ) := by
  obtain ⟨h', r, rfl⟩ : ∃ h' r, h = h' ++ [r] := ⟨h.dropLast, h.getLast hne, (List.dropLast_append_getLast hne).symm⟩
  rw [← (C38.after_inv reset gl (h' ++ [r])).1.total]
  simp only [C38.after, List.foldl_append, List.foldl_cons, List.foldl_nil]
  rfl

theorem sum_count_le (vs : List ℕ) (hn : vs.Nodup) (L : List ℕ) :
    (vs.map (fun v => (L.count v : ℚ))).sum ≤ L.length := by
  induction L with
  | nil => simp
  | cons x L ih =>
    have : (vs.map (fun v => ((x :: L).count v : ℚ))).sum =
        (vs.map (fun v => (L.count v : ℚ))).sum + (vs.count x : ℚ) := by
      clear ih hn
      induction vs with
      | nil => simp
      | cons v vs ih =>
        rw [List.map_cons, List.sum_cons, ih, List.map_cons, List.sum_cons, List.count_cons, List.count_cons]
        by_cases e : x = v
        · subst e; simp; ring
        · simp [e, Ne.symm e]; ring
    have h1 : vs.count x ≤ 1 := List.nodup_iff_count_le_one.1 hn x
    rw [this, List.length_cons]
    have h2 : (vs.count x : ℚ) ≤ 1 := by exact_mod_cast h1
    push_cast; linarith

/-- The frequency penalty after every history of recorded moves: nothing at iteration 0; afterwards the
coefficient times the share of all alterations so far that concern the altered variables, which lies between
0 and the coefficient when the move alters distinct variables. -/
theorem frequency_penalty (reset : ℤ) (gl : ℕ → ℤ) (h : List C38.Record) (hne : h ≠ []) (coefficient : ℚ)
    (alts : List (ℕ × ℤ)) (iteration : ℤ) :
    (iteration = 0 → frequencyPenalty (C38.after reset gl h) coefficient alts iteration = 0) ∧
    (iteration ≠ 0 → frequencyPenalty (C38.after reset gl h) coefficient alts iteration =
      coefficient * ((alts.map (fun a => ((C38.altered h).count a.1 : ℚ))).sum / (C38.altered h).length)) ∧
    (0 ≤ coefficient → (alts.map Prod.fst).Nodup →
      0 ≤ frequencyPenalty (C38.after reset gl h) coefficient alts iteration ∧
      frequencyPenalty (C38.after reset gl h) coefficient alts iteration ≤ coefficient) := by
  have key : iteration ≠ 0 → frequencyPenalty (C38.after reset gl h) coefficient alts iteration =
      coefficient * ((alts.map (fun a => ((C38.altered h).count a.1 : ℚ))).sum / (C38.altered h).length) := by
    intro hi
    unfold frequencyPenalty
    rw [if_neg hi, foldl_add, reciprocal_after reset gl h hne]
    have hc := (C38.after_inv reset gl h).1.count
    rw [List.map_congr_left (g := fun a => ((C38.altered h).count a.1 : ℚ)) (fun a _ => by rw [hc a.1])]
    generalize hL : C38.altered h = L
    cases L with
    | nil => simp
    | cons x L =>
      rw [Nat.max_eq_right (by simp)]
      ring
  have zero : iteration = 0 → frequencyPenalty (C38.after reset gl h) coefficient alts iteration = 0 := fun hi => by
    unfold frequencyPenalty; rw [if_pos hi]
  refine ⟨zero, key, fun hc hn => ?_⟩
  by_cases hi : iteration = 0
  · rw [zero hi]; exact ⟨le_refl _, hc⟩
  · rw [key hi]
    have h1 := sum_count_le (alts.map Prod.fst) hn (C38.altered h)
    rw [List.map_map] at h1
    have h0 : 0 ≤ (alts.map (fun a => ((C38.altered h).count a.1 : ℚ))).sum :=
      List.sum_nonneg (fun x hx => by obtain ⟨a, -, rfl⟩ := List.mem_map.1 hx; positivity)
    have hq0 : 0 ≤ (alts.map (fun a => ((C38.altered h).count a.1 : ℚ))).sum / ((C38.altered h).length : ℚ) :=
      div_nonneg h0 (by positivity)
    have hq1 : (alts.map (fun a => ((C38.altered h).count a.1 : ℚ))).sum / ((C38.altered h).length : ℚ) ≤ 1 :=
      div_le_one_of_le₀ h1 (by positivity)
    exact ⟨mul_nonneg hc hq0, by nlinarith⟩

/-- The Lagrangian penalty: nothing when the Lagrange dual is disabled, otherwise the coefficient times the
Lagrangian of the new values of the altered variables. -/
theorem lagrangian_penalty (lag : ℕ → ℚ) (coefficient : ℚ) (alts : List (ℕ × ℤ)) :
    lagrangianPenalty false lag coefficient alts = 0 ∧
    lagrangianPenalty true lag coefficient alts = coefficient * (alts.map (fun a => lag a.1 * (a.2 : ℚ))).sum := by
  refine ⟨rfl, ?_⟩
  show (_ : List ℚ).foldl _ 0 * coefficient = _
  rw [foldl_add]; ring

example : frequencyPenalty (C38.after (-10) (fun _ => 0) [⟨1, [(0, 0), (1, 0)], []⟩, ⟨2, [(0, 0)], []⟩]) 6 [(0, 5)] 3 = 4 ∧
    lagrangianPenalty true (fun v => v) 2 [(3, 5)] = 30 := by decide +kernel
/-- The penalties decide between moves of equal augmented objective. -/
example : selectMove id false none [⟨1, 1, 3, 0, true, false, true, false⟩, ⟨1, 1, 1, 1, true, false, true, false⟩] =
    some (1, false) := by decide +kernel

end Printemps.C53
