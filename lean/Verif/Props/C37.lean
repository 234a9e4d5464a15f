import Verif.Model.StepSize
import Verif.Lemmas.Example
import Verif.Props.C08


/-! # C37 — step-size adjustment never worsens an integer move -/

namespace Printemps.C37
open StepSize Spec

/-- What a state of the search for a step must satisfy: the candidate lies strictly on the side of the
original value the move goes to, within the bounds, and is scored no worse than the initial target. -/
structure Ok (score : ℤ → ℚ) (orig lb ub init dir : ℤ) (s : Search) : Prop where
  best : s.best = score s.candidate
  better : s.candidate = init ∨ s.best < score init
  side : 0 < dir * (s.candidate - orig)
  low : lb ≤ s.candidate
  high : s.candidate ≤ ub

theorem better_of {score : ℤ → ℚ} {orig lb ub init dir : ℤ} {s : Search} (ho : Ok score orig lb ub init dir s)
    {x : ℚ} (h : x < s.best) : x < score init := by
  rcases ho.better with h1 | h1
  · rw [ho.best, h1] at h; exact h
  · exact h.trans h1

/-- The interval left for the bisection. -/
def Interval (orig lb ub dir : ℤ) (r : Search) : Prop :=
  (dir = 1 → orig ≤ r.lower ∧ r.upper ≤ ub) ∧ (dir = -1 → r.upper ≤ orig ∧ lb ≤ r.lower) ∧
    r.upper - r.lower ≤ ub - lb

theorem grow_ends (score : ℤ → ℚ) (orig lb ub init dir : ℤ) (hd : dir = 1 ∨ dir = -1)
    (hl : lb ≤ orig) (hu : orig ≤ ub) (fuel : ℕ) (s : Search) (ho : Ok score orig lb ub init dir s)
    (hs : 0 < s.step) (ht : s.target = orig + dir * s.step) (htl : lb ≤ s.target) (htu : s.target ≤ ub)
    (hlo : dir = 1 → orig ≤ s.lower ∧ s.lower ≤ ub) (hlo' : dir = -1 → s.upper ≤ orig ∧ lb ≤ s.upper)
    (hf : ub - lb - s.step < fuel) :
    ∃ r, grow score orig lb ub dir fuel s = some r ∧ Ok score orig lb ub init dir r ∧
      Interval orig lb ub dir r := by
  induction fuel generalizing s with
  | zero =>
    exfalso
    rcases hd with rfl | rfl <;> simp at hf <;> omega
  | succ n ih =>
    unfold grow
    by_cases hb : score s.target < s.best
    · rw [if_pos hb]
      have ho' : ∀ st tg lo up, Ok score orig lb ub init dir
          { step := st, target := tg, lower := lo, upper := up, candidate := s.target, best := score s.target } := by
        intro st tg lo up
        refine ⟨rfl, Or.inr (better_of ho hb), ?_, htl, htu⟩
        show 0 < dir * (s.target - orig)
        rw [ht]; rcases hd with rfl | rfl <;> omega
      simp only
      rcases hd with rfl | rfl
      · obtain ⟨h1, h2⟩ := hlo rfl
        simp only [show (1:ℤ) > 0 by decide, if_true]
        split
        · exact absurd ‹orig + 1 * (s.step * 2) ≤ lb› (by omega)
        · split
          · refine ⟨_, rfl, ho' _ _ _ _, fun _ => ⟨?_, le_rfl⟩, fun h => by omega, ?_⟩
            · exact le_max_of_le_left h1
            · show ub - max s.lower s.target ≤ _
              have := le_max_left s.lower s.target; omega
          · refine ih _ (ho' _ _ _ _) ?_ ?_ ?_ ?_ ?_ ?_ ?_ <;> simp only <;> (try intro h) <;> (try omega)
      · obtain ⟨h1, h2⟩ := hlo' rfl
        simp only [show ¬ (-1:ℤ) > 0 by decide, if_false]
        split
        · refine ⟨_, rfl, ho' _ _ _ _, fun h => by omega, fun _ => ⟨?_, le_rfl⟩, ?_⟩
          · exact min_le_of_left_le h1
          · show min s.upper s.target - lb ≤ _
            have := min_le_left s.upper s.target; omega
        · split
          · exact absurd ‹orig + -1 * (s.step * 2) ≥ ub› (by omega)
          · refine ih _ (ho' _ _ _ _) ?_ ?_ ?_ ?_ ?_ ?_ ?_ <;> simp only <;> (try intro h) <;> (try omega)
    · rw [if_neg hb]
      rcases hd with rfl | rfl
      · rw [if_pos (by decide)]
        have := hlo rfl
        exact ⟨_, rfl, ⟨ho.best, ho.better, ho.side, ho.low, ho.high⟩,
          fun _ => ⟨this.1, htu⟩, fun h => by omega, by show s.target - s.lower ≤ _; omega⟩
      · rw [if_neg (by decide)]
        have := hlo' rfl
        exact ⟨_, rfl, ⟨ho.best, ho.better, ho.side, ho.low, ho.high⟩,
          fun h => by omega, fun _ => ⟨this.1, htl⟩, by show s.upper - s.target ≤ _; omega⟩

theorem mid {a b : ℤ} (h : b - a > 1) : a < Int.tdiv (a + b) 2 ∧ Int.tdiv (a + b) 2 < b := by
  have : Int.tdiv (a + b) 2 = if 0 ≤ a + b then (a + b) / 2 else -(-(a + b) / 2) := by
    split
    · exact Int.tdiv_eq_ediv_of_nonneg ‹_›
    · rw [show a + b = -(-(a + b)) by ring, Int.neg_tdiv, Int.tdiv_eq_ediv_of_nonneg (by omega)]; simp
  rw [this]; split <;> omega

theorem bisect_ends (score : ℤ → ℚ) (orig lb ub init dir : ℤ) (hd : dir = 1 ∨ dir = -1)
    (hl : lb ≤ orig) (hu : orig ≤ ub) (fuel : ℕ) (s : Search) (ho : Ok score orig lb ub init dir s)
    (h1 : dir = 1 → orig ≤ s.lower ∧ s.upper ≤ ub) (h2 : dir = -1 → s.upper ≤ orig ∧ lb ≤ s.lower)
    (hf : s.upper - s.lower < fuel) (hf0 : 0 < fuel) :
    ∃ r, bisect score dir fuel s = some r ∧ Ok score orig lb ub init dir r := by
  induction fuel generalizing s with
  | zero => omega
  | succ n ih =>
    unfold bisect
    by_cases hw : s.upper - s.lower > 1
    · rw [if_pos hw]
      have hm := mid hw
      simp only
      generalize Int.tdiv (s.lower + s.upper) 2 = t at hm ⊢
      by_cases hb : score t < s.best
      · rw [if_pos hb]
        apply ih
        · refine ⟨rfl, Or.inr (better_of ho hb), ?_, ?_, ?_⟩
          · show 0 < dir * (t - orig)
            rcases hd with rfl | rfl
            · have := h1 rfl; omega
            · have := h2 rfl; omega
          · show lb ≤ t
            rcases hd with rfl | rfl
            · have := h1 rfl; omega
            · have := h2 rfl; omega
          · show t ≤ ub
            rcases hd with rfl | rfl
            · have := h1 rfl; omega
            · have := h2 rfl; omega
        · rintro rfl; have := h1 rfl; simp; omega
        · rintro rfl; have := h2 rfl; simp; omega
        · rcases hd with rfl | rfl <;> simp <;> omega
        · omega
      · rw [if_neg hb]
        apply ih
        · exact ⟨ho.best, ho.better, ho.side, ho.low, ho.high⟩
        · rintro rfl; have := h1 rfl; simp; omega
        · rintro rfl; have := h2 rfl; simp; omega
        · rcases hd with rfl | rfl <;> simp <;> omega
        · omega
    · rw [if_neg hw]; exact ⟨s, rfl, ho⟩

theorem grow_more (score : ℤ → ℚ) (orig lb ub dir : ℤ) (n k : ℕ) (s r : Search)
    (h : grow score orig lb ub dir n s = some r) : grow score orig lb ub dir (n + k) s = some r := by
  induction n generalizing s with
  | zero => simp [grow] at h
  | succ n ih =>
    rw [Nat.add_right_comm]
    unfold grow at h ⊢
    simp only at h ⊢
    split at h
    · split at h
      · rename_i h1 h2; rw [if_pos h1, if_pos h2]; exact h
      · split at h
        · rename_i h1 h2 h3; rw [if_pos h1, if_neg h2, if_pos h3]; exact h
        · rename_i h1 h2 h3; rw [if_pos h1, if_neg h2, if_neg h3]; exact ih _ h
    · rename_i h1; rw [if_neg h1]; exact h

theorem bisect_more (score : ℤ → ℚ) (dir : ℤ) (n k : ℕ) (s r : Search)
    (h : bisect score dir n s = some r) : bisect score dir (n + k) s = some r := by
  induction n generalizing s with
  | zero => simp [bisect] at h
  | succ n ih =>
    rw [Nat.add_right_comm]
    unfold bisect at h ⊢
    simp only at h ⊢
    split at h
    · split at h
      · rename_i h1 h2; rw [if_pos h1, if_pos h2]; exact ih _ h
      · rename_i h1 h2; rw [if_pos h1, if_neg h2]; exact ih _ h
    · rename_i h1; rw [if_neg h1]; exact h

theorem adjust_more (score : ℤ → ℚ) (n k : ℕ) (orig lb ub init t : ℤ)
    (h : adjustValue score n orig lb ub init = some t) :
    adjustValue score (n + k) orig lb ub init = some t := by
  unfold adjustValue at h ⊢
  simp only at h ⊢
  split at h
  · rename_i h1; rw [if_pos h1]; exact h
  · split at h
    · rename_i h1 h2; rw [if_neg h1, if_pos h2]; exact h
    · rename_i h1 h2
      rw [if_neg h1, if_neg h2]
      simp only [Option.bind_eq_bind, Option.bind_eq_some_iff] at h ⊢
      obtain ⟨s, h3, r, h4, h5⟩ := h
      exact ⟨s, grow_more _ _ _ _ _ _ _ _ _ h3, r, bisect_more _ _ _ _ _ _ h4, h5⟩

/-- For every score function, every variable value and target within the bounds, the two loops end, and the
adjusted target is within the bounds, on the same side of the old value as the original target, and scored better
unless it is the original target. -/
theorem adjusted_value (score : ℤ → ℚ) (orig lb ub init : ℤ) (hl : lb ≤ orig) (hu : orig ≤ ub)
    (hil : lb ≤ init) (hiu : init ≤ ub) (hne : init ≠ orig) :
    ∃ t, (∀ fuel : ℕ, ub - lb < fuel → adjustValue score fuel orig lb ub init = some t) ∧
      lb ≤ t ∧ t ≤ ub ∧ (t = init ∨ score t < score init) ∧ (orig < init → orig < t) ∧ (init < orig → t < orig) := by
  have key : ∀ fuel : ℕ, ub - lb < fuel → ∃ t, adjustValue score fuel orig lb ub init = some t ∧
      lb ≤ t ∧ t ≤ ub ∧ (t = init ∨ score t < score init) ∧ (orig < init → orig < t) ∧ (init < orig → t < orig) := by
    intro fuel hf
    have hd : direction orig init = 1 ∧ orig < init ∨ direction orig init = -1 ∧ init < orig := by
      unfold direction; split <;> omega
    unfold adjustValue
    simp only
    generalize direction orig init = dir at hd ⊢
    split
    · exact ⟨init, rfl, hil, hiu, Or.inl rfl, id, id⟩
    · split
      · exact ⟨init, rfl, hil, hiu, Or.inl rfl, id, id⟩
      · have hd' : dir = 1 ∨ dir = -1 := by rcases hd with h | h <;> simp [h.1]
        obtain ⟨s, h1, ho, h3, h4, h5⟩ := grow_ends score orig lb ub init dir hd' hl hu fuel
          { step := 2, target := orig + dir * 2, lower := orig, upper := orig, candidate := init,
            best := score init }
          ⟨rfl, Or.inl rfl, by
            show 0 < dir * (init - orig)
            rcases hd with ⟨rfl, h⟩ | ⟨rfl, h⟩ <;> omega, hil, hiu⟩ (by show (0:ℤ) < 2; decide) rfl
          (by show lb ≤ orig + dir * 2
              rcases hd with ⟨rfl, h⟩ | ⟨rfl, h⟩ <;> omega)
          (by show orig + dir * 2 ≤ ub
              rcases hd with ⟨rfl, h⟩ | ⟨rfl, h⟩ <;> omega)
          (fun _ => ⟨le_rfl, hu⟩) (fun _ => ⟨le_rfl, hl⟩) (by show ub - lb - 2 < fuel; omega)
        obtain ⟨r, h6, h7⟩ := bisect_ends score orig lb ub init dir hd' hl hu fuel s ho h3 h4
          (by omega) (by omega)
        refine ⟨r.candidate, by rw [h1]; simp [h6], h7.low, h7.high, by rw [← h7.best]; exact h7.better, ?_, ?_⟩
        · intro h
          have := h7.side
          rcases hd with ⟨rfl, _⟩ | ⟨rfl, _⟩ <;> omega
        · intro h
          have := h7.side
          rcases hd with ⟨rfl, _⟩ | ⟨rfl, _⟩ <;> omega
  obtain ⟨t, h, hp⟩ := key ((ub - lb).toNat + 1) (by omega)
  refine ⟨t, fun fuel hf => ?_, hp⟩
  have : fuel = (ub - lb).toNat + 1 + (fuel - ((ub - lb).toNat + 1)) := by omega
  rw [this]
  exact adjust_more _ _ _ _ _ _ _ _ h

/-- The same for a move of the model: `adjust` ends; it changes only the target of the last alteration; the new
target respects the bounds and the direction; and the score `evaluate_multi` gives to the new move is better,
unless the move is unchanged. -/
theorem adjusted_move (m : MState) (cur : Score) (mv : Move) (pre : List (ℕ × ℤ)) (v : ℕ) (t : ℤ)
    (hm : mv.alterations = pre ++ [(v, t)])
    (hl : (m.var v).lb ≤ (m.var v).value) (hu : (m.var v).value ≤ (m.var v).ub)
    (hil : (m.var v).lb ≤ t) (hiu : t ≤ (m.var v).ub) (hne : t ≠ (m.var v).value) :
    ∃ t' mv', (∀ fuel : ℕ, (m.var v).ub - (m.var v).lb < fuel → adjust m cur fuel mv = some mv') ∧
      mv' = { mv with alterations := pre ++ [(v, t')] } ∧
      (m.var v).lb ≤ t' ∧ t' ≤ (m.var v).ub ∧
      ((m.var v).value < t → (m.var v).value < t') ∧ (t < (m.var v).value → t' < (m.var v).value) ∧
      (t' = t ∨ (m.evaluateMulti mv' cur).globalAug < (m.evaluateMulti mv cur).globalAug) := by
  obtain ⟨t', h1, h2, h3, h4, h5, h6⟩ := adjusted_value
    (fun t => (m.evaluateMulti (withTarget mv v t) cur).globalAug) _ _ _ _ hl hu hil hiu hne
  refine ⟨t', withTarget mv v t', fun fuel hf => ?_, ?_, h2, h3, h5, h6, ?_⟩
  · unfold adjust
    rw [hm]
    simp only [List.getLast?_append, List.getLast?_singleton, Option.some_or]
    rw [h1 fuel hf]; rfl
  · unfold withTarget; rw [hm]; simp
  · rcases h4 with h | h
    · exact Or.inl h
    · right
      have e : withTarget mv v t = mv := by
        unfold withTarget; cases mv; simp only at hm; subst hm; simp
      simp only [e] at h
      exact h

/-- In terms of assignments: the augmented objective (objective to be minimised plus penalty coefficient times
total violation) of the assignment reached by the adjusted move is no worse than that of the original move, up
to the tolerance of the incremental evaluation (1e-10 per related constraint and move). -/
theorem adjusted_move_no_worse (m : MState) (cur : Score) (mv : Move) (pre : List (ℕ × ℤ)) (v : ℕ) (t : ℤ)
    (hm : mv.alterations = pre ++ [(v, t)])
    (hl : (m.var v).lb ≤ (m.var v).value) (hu : (m.var v).value ≤ (m.var v).ub)
    (hil : (m.var v).lb ≤ t) (hiu : t ≤ (m.var v).ub) (hne : t ≠ (m.var v).value)
    (hw : WellFormed m) (hc : Current m) (hd : (mv.alterations.map Prod.fst).Nodup)
    (hcov : Covers m mv.alterations mv.related)
    (htv : cur.totalViolation = totalViolation m (assignment m))
    (hlp : cur.localPenalty = localPenalty m (assignment m))
    (hpen : ∀ c ∈ m.conIds, 0 ≤ (m.con c).penLess ∧ 0 ≤ (m.con c).penGreater) (hg : 0 ≤ m.globalPen) :
    ∃ t', (∃ fuel, adjust m cur fuel mv = some { mv with alterations := pre ++ [(v, t')] }) ∧
      let σ := applyMove (assignment m) (pre ++ [(v, t)])
      let σ' := applyMove (assignment m) (pre ++ [(v, t')])
      minObjective m σ' + totalViolation m σ' * m.globalPen ≤
        minObjective m σ + totalViolation m σ * m.globalPen + 2 * mv.related.length * 1e-10 * m.globalPen := by
  obtain ⟨t', mv', h1, rfl, -, -, -, -, h7⟩ := adjusted_move m cur mv pre v t hm hl hu hil hiu hne
  refine ⟨t', ⟨_, h1 (((m.var v).ub - (m.var v).lb).toNat + 1) (by omega)⟩, ?_⟩
  have hnn : (0:ℚ) ≤ 2 * mv.related.length * 1e-10 * m.globalPen := by positivity
  rcases h7 with rfl | h7
  · simp only; linarith
  · obtain ⟨a1, -, a3, -⟩ := C08.multi_score_within_tolerance m mv cur hw hc hd hcov htv hlp hpen
    have hd' : (({ mv with alterations := pre ++ [(v, t')] } : Move).alterations.map Prod.fst).Nodup := by
      rw [hm] at hd; simpa using hd
    have hcov' : Covers m ({ mv with alterations := pre ++ [(v, t')] } : Move).alterations mv.related := by
      refine ⟨hcov.nodup, hcov.mem, fun c hcm he h => hcov.covers c hcm he ?_⟩
      rw [hm]
      simp only [List.mem_append, List.mem_singleton] at h ⊢
      obtain ⟨a, ha, hb⟩ := h
      rcases ha with ha | rfl
      · exact ⟨a, Or.inl ha, hb⟩
      · exact ⟨(v, t), Or.inr rfl, hb⟩
    obtain ⟨b1, -, b3, -⟩ := C08.multi_score_within_tolerance m { mv with alterations := pre ++ [(v, t')] } cur
      hw hc hd' hcov' htv hlp hpen
    have ga : ∀ x : Move, (m.evaluateMulti x cur).globalAug =
      (m.evaluateMulti x cur).objective + (m.evaluateMulti x cur).totalViolation * m.globalPen := fun _ => rfl
    rw [ga, ga, a3, b3] at h7
    rw [hm] at a1 h7
    simp only at a1 b1 h7 ⊢
    generalize (m.evaluateMulti mv cur).totalViolation = p at *
    generalize (m.evaluateMulti { mv with alterations := pre ++ [(v, t')] } cur).totalViolation = q at *
    have a := abs_le.1 a1
    have b := abs_le.1 b1
    have e1 := mul_le_mul_of_nonneg_right a.2 hg
    have e2 := mul_le_mul_of_nonneg_right b.1 hg
    nlinarith

/-- Non-vacuity: an integer move of the example model. -/
example : ∃ t', (∃ fuel, adjust Example.model {} fuel
      { alterations := [(2, 1)], related := [0, 1, 2] } =
        some { alterations := [(2, t')], related := [0, 1, 2] }) := by
  obtain ⟨t', mv', h1, rfl, -⟩ := adjusted_move Example.model {} { alterations := [(2, 1)], related := [0, 1, 2] }
    [] 2 1 rfl (by decide +kernel) (by decide +kernel) (by decide +kernel) (by decide +kernel) (by decide +kernel)
  exact ⟨t', 1000, h1 _ (by decide +kernel)⟩

/-- A score with its minimum at 7: the move to 1 becomes the move to 8. -/
example : adjustValue (fun t => ((t - 7) ^ 2 : ℤ)) 200 0 (-100) 100 1 = some 8 := by decide +kernel

end Printemps.C37
