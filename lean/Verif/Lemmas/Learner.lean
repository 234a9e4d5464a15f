import Verif.Model.Learner
import Mathlib.Tactic.Linarith
import Mathlib.Tactic.NormNum
import Mathlib.Tactic.Positivity
import Mathlib.Tactic.Ring

/-! # Lemmas on the learner that chooses the number of threads -/

namespace Printemps.Ucb1

/-- the upper confidence -/
def Action.upper (a : Action) : ℚ := a.mean + a.confidence

theorem argmax_some (l : List Action) (i : ℕ) (w : ℚ) (j : ℕ) :
    (argmax l i (some (w, j)) = some j ∧ ∀ a ∈ l, a.upper ≤ w) ∨
    ∃ n, ∃ h : n < l.length, argmax l i (some (w, j)) = some (i + n) ∧ w < l[n].upper ∧ ∀ a ∈ l, a.upper ≤ l[n].upper := by
  induction l generalizing i w j with
  | nil => left; simp [argmax]
  | cons b l ih =>
    by_cases hb : b.mean + b.confidence > w
    · have e : argmax (b :: l) i (some (w, j)) = argmax l (i + 1) (some (b.upper, i)) := by
        simp only [argmax, if_pos hb]; rfl
      rw [e]
      right
      rcases ih (i + 1) b.upper i with ⟨h1, h2⟩ | ⟨n, hn, h1, h2, h3⟩
      · refine ⟨0, by simp, by rw [h1]; rfl, hb, fun a ha => ?_⟩
        rcases List.mem_cons.1 ha with rfl | ha
        · exact le_refl _
        · exact h2 a ha
      · refine ⟨n + 1, by simpa using hn, ?_, lt_trans hb h2, fun a ha => ?_⟩
        · rw [h1]; congr 1; omega
        · rcases List.mem_cons.1 ha with rfl | ha
          · exact le_of_lt h2
          · exact h3 a ha
    · have e : argmax (b :: l) i (some (w, j)) = argmax l (i + 1) (some (w, j)) := by
        simp only [argmax, if_neg hb]
      rw [e]
      rcases ih (i + 1) w j with ⟨h1, h2⟩ | ⟨n, hn, h1, h2, h3⟩
      · left
        refine ⟨h1, fun a ha => ?_⟩
        rcases List.mem_cons.1 ha with rfl | ha
        · exact not_lt.1 hb
        · exact h2 a ha
      · right
        refine ⟨n + 1, by simpa using hn, ?_, h2, fun a ha => ?_⟩
        · rw [h1]; congr 1; omega
        · rcases List.mem_cons.1 ha with rfl | ha
          · exact le_trans (not_lt.1 hb) (le_of_lt h2)
          · exact h3 a ha

theorem argmax_none {l : List Action} (hl : l ≠ []) :
    ∃ n, ∃ h : n < l.length, argmax l 0 none = some n ∧ ∀ a ∈ l, a.upper ≤ l[n].upper := by
  obtain ⟨b, l, rfl⟩ := List.exists_cons_of_ne_nil hl
  have e : argmax (b :: l) 0 none = argmax l 1 (some (b.upper, 0)) := rfl
  rw [e]
  rcases argmax_some l 1 b.upper 0 with ⟨h1, h2⟩ | ⟨n, hn, h1, h2, h3⟩
  · refine ⟨0, by simp, h1, fun a ha => ?_⟩
    rcases List.mem_cons.1 ha with rfl | ha
    · exact le_refl _
    · exact h2 a ha
  · refine ⟨n + 1, by simpa using hn, by rw [h1]; congr 1; omega, fun a ha => ?_⟩
    rcases List.mem_cons.1 ha with rfl | ha
    · exact le_of_lt h2
    · exact h3 a ha

theorem choose_lt {l : List Action} (hl : l ≠ []) : ∃ i, i < l.length ∧ choose l = some i := by
  unfold choose
  by_cases h : (l.any (fun a => decide (a.samples = 0))) = true
  · rw [if_pos h]
    refine ⟨_, ?_, rfl⟩
    rw [List.findIdx_lt_length]
    simpa using h
  · rw [if_neg h]
    obtain ⟨n, hn, h1, -⟩ := argmax_none hl
    exact ⟨n, hn, h1⟩

/-- The learner points to an action, and the actions stand for `bodies`. -/
structure Valid (bodies : List ℤ) (L : Learner) : Prop where
  bodies : L.actions.map Action.body = bodies
  best : ∃ i, i < L.actions.length ∧ L.best = some i

theorem learn_body (score decay : ℚ) (a : Action) : (a.learn score decay).body = a.body := by
  unfold Action.learn; split <;> rfl

theorem updateConfidence_body (bonus : ℕ → ℕ → ℚ) (t : ℕ) (a : Action) : (a.updateConfidence bonus t).body = a.body := by
  unfold Action.updateConfidence; split <;> rfl

theorem learn_samples (score decay : ℚ) (a : Action) : (a.learn score decay).samples = a.samples + 1 := by
  unfold Action.learn; split <;> rfl

theorem updateConfidence_samples (bonus : ℕ → ℕ → ℚ) (t : ℕ) (a : Action) :
    (a.updateConfidence bonus t).samples = a.samples := by
  unfold Action.updateConfidence; split <;> rfl

theorem map_modify_body (l : List Action) (i : ℕ) (f : Action → Action) (hf : ∀ a, (f a).body = a.body) :
    (l.modify i f).map Action.body = l.map Action.body := by
  apply List.ext_getElem
  · simp
  · intro n h1 h2
    simp only [List.getElem_map, List.getElem_modify]
    split
    · exact hf _
    · rfl

theorem learn_valid {bodies : List ℤ} {L : Learner} (v : Valid bodies L) (bonus : ℕ → ℕ → ℚ) (score : ℚ) :
    ∃ L', L.learn bonus score = some L' ∧ Valid bodies L' := by
  obtain ⟨i, hi, hb⟩ := v.best
  unfold Learner.learn
  rw [hb]
  refine ⟨_, rfl, ?_, ?_⟩
  · dsimp only
    rw [List.map_map, show (Action.body ∘ Action.updateConfidence bonus (L.total + 1)) = Action.body from
      funext fun a => updateConfidence_body _ _ a, map_modify_body _ _ _ (learn_body score L.decay), v.bodies]
  · dsimp only
    apply choose_lt
    intro h
    have := congrArg List.length h
    simp at this
    rw [this] at hi
    simp at hi

theorem setup_valid (bodies : List ℤ) (h : bodies ≠ []) (decay : ℚ) :
    Valid bodies (setup (bodies.map fun n => ({ body := n } : Action)) decay) := by
  refine ⟨?_, 0, ?_, ?_⟩
  · simp [setup, Function.comp_def]
  · simp [setup, List.length_pos_iff, h]
  · simp [setup, h]

theorem Valid.bestBody {bodies : List ℤ} {L : Learner} (v : Valid bodies L) : ∃ t, L.bestBody = some t ∧ t ∈ bodies := by
  obtain ⟨i, hi, hb⟩ := v.best
  refine ⟨L.actions[i].body, ?_, ?_⟩
  · simp [Learner.bestBody, hb, hi]
  · rw [← v.bodies]
    exact List.mem_map_of_mem (List.getElem_mem hi)

/-- The first `k` actions have been tried once, the next one is to be tried. -/
structure Exploring (k : ℕ) (L : Learner) : Prop where
  samples : ∀ j (h : j < L.actions.length), (L.actions[j]).samples = if j < k then 1 else 0
  best : k < L.actions.length → L.best = some k

theorem setup_exploring (bodies : List ℤ) (decay : ℚ) :
    Exploring 0 (setup (bodies.map fun n => ({ body := n } : Action)) decay) := by
  refine ⟨fun j h => by simp [setup], fun h => ?_⟩
  have : bodies ≠ [] := by
    rintro rfl
    simp [setup] at h
  simp [setup, this]

theorem learn_exploring {k : ℕ} {L L' : Learner} (e : Exploring k L) (hk : k < L.actions.length) (bonus : ℕ → ℕ → ℚ)
    (score : ℚ) (h : L.learn bonus score = some L') : Exploring (k + 1) L' := by
  unfold Learner.learn at h
  rw [e.best hk] at h
  have h' := (Option.some.inj h).symm
  subst h'
  have hs : ∀ j (h : j < ((L.actions.modify k (Action.learn score L.decay)).map
      (Action.updateConfidence bonus (L.total + 1))).length),
      (((L.actions.modify k (Action.learn score L.decay)).map
        (Action.updateConfidence bonus (L.total + 1)))[j]).samples = if j < k + 1 then 1 else 0 := by
    intro j hj
    have hj' : j < L.actions.length := by simpa using hj
    rw [List.getElem_map, updateConfidence_samples, List.getElem_modify]
    by_cases hjk : k = j
    · subst hjk
      rw [if_pos rfl, learn_samples, e.samples _ hk, if_neg (lt_irrefl _), if_pos (Nat.lt_succ_self _)]
    · rw [if_neg hjk, e.samples j hj']
      have : (j < k) ↔ (j < k + 1) := by omega
      simp only [this]
  refine ⟨hs, fun hk' => ?_⟩
  dsimp only at hk' ⊢
  generalize (L.actions.modify k (Action.learn score L.decay)).map (Action.updateConfidence bonus (L.total + 1)) = l at hs hk'
  unfold choose
  have hany : (l.any (fun a => decide (a.samples = 0))) = true := by
    rw [List.any_eq_true]
    exact ⟨l[k + 1], List.getElem_mem _, by rw [hs, if_neg (lt_irrefl _)]; rfl⟩
  rw [if_pos hany]
  congr 1
  rw [List.findIdx_eq hk']
  refine ⟨by rw [hs, if_neg (lt_irrefl _)]; rfl, fun j hj => ?_⟩
  rw [hs, if_pos hj]; rfl

/-- Every action has been tried, and the one chosen has the largest upper confidence. -/
structure Exploiting (L : Learner) : Prop where
  samples : ∀ a ∈ L.actions, a.samples ≠ 0
  best : ∃ i, ∃ h : i < L.actions.length, L.best = some i ∧ ∀ a ∈ L.actions, a.upper ≤ L.actions[i].upper

theorem exploiting_of_choose {l : List Action} (hl : l ≠ []) (hs : ∀ a ∈ l, a.samples ≠ 0) (t : ℕ) (d : ℚ) :
    Exploiting ⟨l, choose l, t, d⟩ := by
  refine ⟨hs, ?_⟩
  have : ¬ (l.any (fun a => decide (a.samples = 0))) = true := by
    intro h
    obtain ⟨a, ha, h0⟩ := List.any_eq_true.1 h
    exact hs a ha (by simpa using h0)
  obtain ⟨n, hn, h1, h2⟩ := argmax_none hl
  refine ⟨n, hn, ?_, h2⟩
  dsimp only [choose]
  rw [if_neg this, h1]

theorem learn_eq {L L' : Learner} {bonus : ℕ → ℕ → ℚ} {score : ℚ} (h : L.learn bonus score = some L') :
    ∃ i, L.best = some i ∧ L' = ⟨(L.actions.modify i (Action.learn score L.decay)).map
      (Action.updateConfidence bonus (L.total + 1)), choose ((L.actions.modify i (Action.learn score L.decay)).map
      (Action.updateConfidence bonus (L.total + 1))), L.total + 1, L.decay⟩ := by
  unfold Learner.learn at h
  cases hb : L.best with
  | none => rw [hb] at h; exact absurd h (by simp)
  | some i => rw [hb] at h; exact ⟨i, rfl, (Option.some.inj h).symm⟩

theorem learn_exploiting {L L' : Learner} (e : Exploiting L) (bonus : ℕ → ℕ → ℚ) (score : ℚ)
    (h : L.learn bonus score = some L') : Exploiting L' := by
  obtain ⟨i, hi, rfl⟩ := learn_eq h
  obtain ⟨n, hn, -⟩ := e.best
  apply exploiting_of_choose
  · intro h0
    have := congrArg List.length h0
    simp at this
    rw [this] at hn
    simp at hn
  · intro a ha
    obtain ⟨b, hb, rfl⟩ := List.mem_map.1 ha
    rw [updateConfidence_samples]
    obtain ⟨m, hm, rfl⟩ := List.mem_iff_getElem.1 hb
    rw [List.getElem_modify]
    have hm' : m < L.actions.length := by simpa using hm
    split
    · rw [learn_samples]; omega
    · exact e.samples _ (List.getElem_mem _)

theorem learn_last {k : ℕ} {L L' : Learner} (e : Exploring k L) (hk : k + 1 = L.actions.length) (bonus : ℕ → ℕ → ℚ)
    (score : ℚ) (h : L.learn bonus score = some L') : Exploiting L' := by
  have e' := learn_exploring e (by omega) bonus score h
  obtain ⟨i, hi, rfl⟩ := learn_eq h
  apply exploiting_of_choose
  · intro h0
    have := congrArg List.length h0
    simp at this
    rw [this] at hk
    simp at hk
  · intro a ha
    obtain ⟨m, hm, rfl⟩ := List.mem_iff_getElem.1 ha
    have hm' : m < L.actions.length := by simpa using hm
    rw [e'.samples m hm, if_pos (by omega)]
    simp

/-- One more score. -/
theorem learn_within {decay lo hi score : ℚ} (h0 : 0 ≤ decay) (h1 : decay ≤ 1) (hl : lo ≤ score) (hh : score ≤ hi) {a : Action}
    (ha : a.samples = 0 ∨ (lo ≤ a.min ∧ a.min ≤ a.mean ∧ a.mean ≤ a.max ∧ a.max ≤ hi)) :
    lo ≤ (a.learn score decay).min ∧ (a.learn score decay).min ≤ (a.learn score decay).mean ∧
      (a.learn score decay).mean ≤ (a.learn score decay).max ∧ (a.learn score decay).max ≤ hi := by
  by_cases hz : a.samples + 1 = 1
  · unfold Action.learn
    rw [if_pos hz]
    exact ⟨hl, le_refl _, le_refl _, hh⟩
  · rcases ha with ha | ⟨b1, b2, b3, b4⟩
    · omega
    unfold Action.learn
    rw [if_neg hz]
    dsimp only
    have m1 : (a.min - a.mean) * decay ≤ 0 := mul_nonpos_of_nonpos_of_nonneg (by linarith) h0
    have m2 : 0 ≤ (a.max - a.mean) * decay := mul_nonneg (by linarith) h0
    have m3 : a.min - a.mean ≤ (a.min - a.mean) * decay := by nlinarith
    have m4 : (a.max - a.mean) * decay ≤ a.max - a.mean := by nlinarith
    refine ⟨le_min (by linarith) hl, ?_, ?_, max_le (by linarith) hh⟩
    · rcases le_total a.mean score with h | h
      · have : a.mean ≤ decay * a.mean + (1 - decay) * score := by nlinarith
        exact le_trans (min_le_left _ _) (by linarith)
      · have : score ≤ decay * a.mean + (1 - decay) * score := by nlinarith
        exact le_trans (min_le_right _ _) this
    · rcases le_total a.mean score with h | h
      · have : decay * a.mean + (1 - decay) * score ≤ score := by nlinarith
        exact le_trans this (le_max_right _ _)
      · have : decay * a.mean + (1 - decay) * score ≤ a.mean := by nlinarith
        exact le_trans this (le_trans (by linarith) (le_max_left _ _))

end Printemps.Ucb1
