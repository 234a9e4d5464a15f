import Verif.Lemmas.Learner
import Verif.Spec.Tuning
import Mathlib.Algebra.BigOperators.Group.List.Basic
import Mathlib.Data.Rat.Floor

/-! # Lemmas on the options of the searches of a call -/

namespace Printemps.Tuning
open Ucb1 Spec

/-- The numbers of threads tried: powers of two below the number of threads of the machine, and that number. -/
theorem patterns_eq (max : ℕ) : ∀ (fuel n : ℕ), 1 ≤ n → 0 < fuel → max < n + fuel →
    ∃ j, patterns max fuel n = some ((List.range j).map (fun i => n * 2 ^ i) ++ [max]) ∧ (∀ i < j, n * 2 ^ i < max) ∧
      max ≤ n * 2 ^ j := by
  intro fuel
  induction fuel with
  | zero =>
    intro n hn hf
    exact absurd hf (by omega)
  | succ fuel ih =>
    intro n hn _ hf
    by_cases h : n < max
    · obtain ⟨j, h1, h2, h3⟩ := ih (n * 2) (by omega) (by omega) (by omega)
      refine ⟨j + 1, ?_, ?_, ?_⟩
      · rw [patterns, if_pos h, h1, List.range_succ_eq_map]
        simp [Function.comp_def, pow_succ, mul_assoc, mul_comm]
      · intro i hi
        cases i with
        | zero => simpa using h
        | succ i =>
          have := h2 i (by omega)
          rw [pow_succ]
          calc n * (2 ^ i * 2) = n * 2 * 2 ^ i := by ring
            _ < max := this
      · calc max ≤ n * 2 * 2 ^ j := h3
          _ = n * 2 ^ (j + 1) := by rw [pow_succ]; ring
    · exact ⟨0, by rw [patterns, if_neg h]; rfl, fun i hi => absurd hi (by omega), by simpa using h⟩

/-- the numbers tried on this machine -/
def tried (w : Machine) : List ℕ := (patterns w.threads (w.threads + 1) 1).getD []

theorem tried_eq (w : Machine) :
    patterns w.threads (w.threads + 1) 1 = some (tried w) ∧
    ∃ j, tried w = (List.range j).map (fun i => 2 ^ i) ++ [w.threads] ∧ (∀ i < j, 2 ^ i < w.threads) ∧ w.threads ≤ 2 ^ j := by
  obtain ⟨j, h1, h2, h3⟩ := patterns_eq w.threads (w.threads + 1) 1 (le_refl _) (by omega) (by omega)
  have e : tried w = (List.range j).map (fun i => 2 ^ i) ++ [w.threads] := by
    rw [tried, h1]; simp
  refine ⟨by rw [e, h1]; simp, j, e, ?_, by simpa using h3⟩
  simpa using h2

theorem tried_ne (w : Machine) : tried w ≠ [] := by
  obtain ⟨-, j, h, -⟩ := tried_eq w
  rw [h]; simp

theorem tried_bounds {w : Machine} (hw : 1 ≤ w.threads) : ∀ t ∈ tried w, 1 ≤ t ∧ t ≤ w.threads := by
  obtain ⟨-, j, h, h2, -⟩ := tried_eq w
  rw [h]
  intro t ht
  rcases List.mem_append.1 ht with ht | ht
  · obtain ⟨i, hi, rfl⟩ := List.mem_map.1 ht
    exact ⟨Nat.one_le_two_pow, le_of_lt (h2 i (List.mem_range.1 hi))⟩
  · have : t = w.threads := by simpa using ht
    subst this
    exact ⟨hw, le_refl _⟩

/-- The number of threads is chosen by the learner. -/
def learns (w : Machine) (p : Par) : Bool := w.openMP && (p.enabled && p.automatic)

/-- the numbers of threads tried, as the learner holds them -/
def bodies (w : Machine) : List ℤ := (tried w).map (fun n : ℕ => (n : ℤ))

/-- What holds for a parallel stage before the search number `k`. -/
structure ParInv (w : Machine) (p : Par) (k : ℕ) (s : ParState) : Prop where
  pos : 1 ≤ s.threads
  max : p.automatic = true → p.enabled = true → s.threads ≤ w.threads
  enabled : s.enabled = true → p.enabled = true
  learner : learns w p = true → Valid (bodies w) s.learner ∧ s.learner.bestBody = some s.threads ∧
    (k < (tried w).length → Exploring k s.learner) ∧ ((tried w).length ≤ k → Exploiting s.learner)

theorem Valid.length {w : Machine} {L : Learner} (v : Valid (bodies w) L) : L.actions.length = (tried w).length := by
  have := congrArg List.length v.bodies
  simpa [bodies] using this

theorem adjusted_pos {w : Machine} (hw : 1 ≤ w.threads) (p : Par) :
    1 ≤ (adjustThreads w p).threads ∧ (w.openMP = false → (adjustThreads w p).threads = 1) ∧
      (adjustThreads w p).enabled = p.enabled ∧ (adjustThreads w p).automatic = p.automatic := by
  unfold adjustThreads
  by_cases h : w.openMP = true
  · rw [if_pos h]
    by_cases hp : p.threads ≤ 0
    · rw [if_pos hp]
      exact ⟨by show (1 : ℤ) ≤ (w.threads : ℤ); exact_mod_cast hw, fun h' => by rw [h] at h'; exact absurd h' (by decide), rfl, rfl⟩
    · rw [if_neg hp]
      exact ⟨by omega, fun h' => by rw [h] at h'; exact absurd h' (by decide), rfl, rfl⟩
  · rw [if_neg h]
    exact ⟨le_refl _, fun _ => rfl, rfl, rfl⟩

theorem body_bounds {w : Machine} (hw : 1 ≤ w.threads) {t : ℤ} (ht : t ∈ bodies w) : 1 ≤ t ∧ t ≤ w.threads := by
  obtain ⟨n, hn, rfl⟩ := List.mem_map.1 ht
  have := tried_bounds hw n hn
  exact ⟨by exact_mod_cast this.1, by exact_mod_cast this.2⟩

theorem setupPar_inv {w : Machine} (hw : 1 ≤ w.threads) (p : Par) (hp : 1 ≤ p.threads)
    (hs : w.openMP = false → p.threads = 1) :
    ∃ s, setupPar w p = some s ∧ ParInv w p 0 s ∧ s.total = 0 ∧ (learns w p = false → s.threads = p.threads) ∧
      s.enabled = p.enabled := by
  unfold setupPar
  by_cases h : learns w p = true
  · have h' : (w.openMP && (p.enabled && p.automatic)) = true := h
    rw [if_pos h', (tried_eq w).1]
    have v := setup_valid (bodies w) (by simpa [bodies] using tried_ne w) p.decay
    have x := setup_exploring (bodies w) p.decay
    have e : ((tried w).map fun n : ℕ => ({ body := (n : ℤ) } : Action)) = (bodies w).map fun n => ({ body := n } : Action) := by
      rw [bodies, List.map_map]; rfl
    obtain ⟨t, ht, hm⟩ := v.bestBody
    simp only [Option.bind_some, e, ht, Option.map_some]
    have hb := body_bounds hw hm
    refine ⟨_, rfl, ⟨hb.1, fun _ _ => hb.2, fun h => h, fun _ => ⟨v, ht, fun _ => x, fun h0 => ?_⟩⟩, rfl, ?_, rfl⟩
    · exact absurd (List.length_pos_iff.2 (tried_ne w)) (by omega)
    · intro h0
      rw [h] at h0; exact absurd h0 (by decide)
  · have h' : ¬ (w.openMP && (p.enabled && p.automatic)) = true := h
    rw [if_neg h']
    refine ⟨_, rfl, ⟨hp, fun h1 h2 => ?_, fun h => h, fun h0 => absurd h0 h⟩, rfl, fun _ => rfl, rfl⟩
    have : w.openMP = false := by
      cases ho : w.openMP
      · rfl
      · rw [ho, h1, h2] at h'; exact absurd rfl h'
    show p.threads ≤ _
    rw [hs this]
    exact_mod_cast hw

/-- The number of threads after a search when it is not learnt: that of the machine. -/
theorem updatePar_inv {w : Machine} (hw : 1 ≤ w.threads) (bonus : ℕ → ℕ → ℚ) (p : Par) (score : ℚ) (iteration : ℤ) {k : ℕ}
    {s : ParState} (i : ParInv w p k s) :
    ∃ s', updatePar w bonus p score iteration s = some s' ∧ ParInv w p (k + 1) s' ∧
      s'.total = s.total + (if s.enabled then s.threads else 1) ∧
      s'.averaged = ((s.total + (if s.enabled then s.threads else 1) : ℤ) : ℚ) / ((iteration : ℚ) + 1) ∧
      (learns w p = false → s'.threads = (if w.openMP then (w.threads : ℤ) else s.threads) ∧ s'.enabled = p.enabled) ∧
      (learns w p = true → s'.enabled = decide (s'.threads > 1)) := by
  unfold updatePar
  by_cases h : learns w p = true
  · have h' : (w.openMP && (p.enabled && p.automatic)) = true := h
    obtain ⟨v, hb, x, y⟩ := i.learner h
    obtain ⟨L, hL, v'⟩ := learn_valid v bonus score
    obtain ⟨t, ht, hm⟩ := v'.bestBody
    have hbd := body_bounds hw hm
    have ho : w.openMP = true := by
      simp only [Bool.and_eq_true] at h'; exact h'.1
    have hpa : (p.enabled && p.automatic) = true := by
      simp only [Bool.and_eq_true] at h' ⊢; exact h'.2
    have hpe : p.enabled = true := by
      simp only [Bool.and_eq_true] at hpa; exact hpa.1
    rw [if_pos h', hL]
    simp only [Option.bind_some, if_pos ho, if_pos hpa, ht, Option.map_some]
    refine ⟨_, rfl, ⟨hbd.1, fun _ _ => hbd.2, fun _ => hpe, fun _ => ⟨v', ht, fun hk => ?_, fun hk => ?_⟩⟩, rfl, rfl, ?_,
      fun _ => rfl⟩
    · exact learn_exploring (x (by omega)) (by rw [Valid.length v]; omega) bonus score hL
    · by_cases hk' : (tried w).length ≤ k
      · exact learn_exploiting (y hk') bonus score hL
      · exact learn_last (x (by omega)) (by rw [Valid.length v]; omega) bonus score hL
    · intro h0
      rw [h] at h0; exact absurd h0 (by decide)
  · have h' : ¬ (w.openMP && (p.enabled && p.automatic)) = true := h
    rw [if_neg h']
    simp only [Option.bind_some]
    by_cases ho : w.openMP = true
    · have hpa : ¬ (p.enabled && p.automatic) = true := by
        rw [ho] at h'; simpa using h'
      rw [if_pos ho, if_neg hpa]
      refine ⟨_, rfl, ⟨by show (1 : ℤ) ≤ (w.threads : ℤ); exact_mod_cast hw, fun h1 h2 => by simp [h1, h2] at hpa, fun h => h, fun h0 => absurd h0 h⟩, rfl, rfl,
        fun _ => ⟨by rw [if_pos ho], rfl⟩, fun h0 => absurd h0 h⟩
    · rw [if_neg ho]
      exact ⟨_, rfl, ⟨i.pos, i.max, fun h => h, fun h0 => absurd h0 h⟩, rfl, rfl, fun _ => ⟨by rw [if_neg ho], rfl⟩,
        fun h0 => absurd h0 h⟩

/-- What holds before the search number `k`; `o` has its numbers of threads adjusted. -/
structure Inv (w : Machine) (o : Opt) (base : MoveSense → Bool) (k : ℕ) (s : State) : Prop where
  screening : o.screening ≠ .automatic → s.screening = o.screening
  screeningChosen : o.screening = .automatic → s.screening = .soft ∨ s.screening = .aggressive ∨ s.screening = .intensive
  iterationFixed : o.autoIteration = false → s.iterationMax = o.iterationMax
  iterationMax : s.iterationMax ≤ max o.iterationMax o.tenure
  iterationMin : min o.iterationMax o.tenure ≤ s.iterationMax
  tenureFixed : o.autoTenure = false → s.tenure = o.tenure
  noModification : o.modification = false → s.modifications = 0
  modificationsNonneg : 0 ≤ s.modifications
  modificationsMax : 0 ≤ o.fixedRate → 0 ≤ o.randomRate → 0 ≤ s.tenure →
    (s.modifications : ℚ) ≤ max 1 ((1 + o.randomRate) * (o.fixedRate * s.tenure))
  pruningFull : s.iterationMax = o.iterationMax → s.pruning = o.pruning
  pruningShort : s.iterationMax ≠ o.iterationMax → s.pruning = 1
  update : ParInv w o.update k s.update
  evaluation : ParInv w o.evaluation k s.evaluation
  special : ∀ c, isSpecial c = true → s.kinds c = true → base c = true ∨ o.special c = true
  others : ∀ c, isSpecial c = false → s.kinds c = base c
  iteration : s.iteration = k

theorem nextModifications_bounds (o : Opt) (l : Lap) (tenure : ℤ) :
    0 ≤ nextModifications o l tenure ∧ (0 ≤ o.fixedRate → 0 ≤ o.randomRate → 0 ≤ tenure →
      (nextModifications o l tenure : ℚ) ≤ max 1 ((1 + o.randomRate) * (o.fixedRate * tenure))) := by
  unfold nextModifications
  by_cases h1 : l.globalUpdated = true
  · rw [if_pos h1]
    exact ⟨le_refl _, fun _ _ _ => le_trans (by norm_num) (le_max_left _ _)⟩
  rw [if_neg h1]
  by_cases h2 : (!l.forced) = true
  · rw [if_pos h2]
    exact ⟨le_refl _, fun _ _ _ => le_trans (by norm_num) (le_max_left _ _)⟩
  rw [if_neg h2]
  dsimp only
  refine ⟨le_trans (by norm_num) (le_max_left _ _), fun hf hr ht => ?_⟩
  have hft : 0 ≤ o.fixedRate * (tenure : ℚ) := mul_nonneg hf (by exact_mod_cast ht)
  have hfl : (0 : ℤ) ≤ ⌊o.fixedRate * (tenure : ℚ)⌋ := Int.floor_nonneg.2 hft
  have e : toInt (⌊o.fixedRate * (tenure : ℚ)⌋ : ℤ) = ⌊o.fixedRate * (tenure : ℚ)⌋ := by
    unfold toInt
    rw [if_pos (by exact_mod_cast hfl), Int.floor_intCast]
  rw [e]
  generalize hn : ⌊o.fixedRate * (tenure : ℚ)⌋ = n at *
  have hn' : (n : ℚ) ≤ o.fixedRate * tenure := by rw [← hn]; exact Int.floor_le _
  have hrn : 0 ≤ o.randomRate * (n : ℚ) := mul_nonneg hr (by exact_mod_cast hfl)
  have ew : toInt (o.randomRate * (n : ℚ)) = ⌊o.randomRate * (n : ℚ)⌋ := by
    unfold toInt; rw [if_pos hrn]
  rw [ew]
  generalize hw : ⌊o.randomRate * (n : ℚ)⌋ = width at *
  have hw' : (width : ℚ) ≤ o.randomRate * n := by rw [← hw]; exact Int.floor_le _
  have key : (1 + o.randomRate) * (n : ℚ) ≤ (1 + o.randomRate) * (o.fixedRate * tenure) :=
    mul_le_mul_of_nonneg_left hn' (by linarith)
  rw [Int.cast_max]
  apply max_le_max (by norm_num)
  refine le_trans ?_ key
  by_cases hp : width > 0
  · rw [if_pos hp]
    have hm : (l.random : ℤ) % (2 * width) < 2 * width := Int.emod_lt_of_pos _ (by omega)
    have : n + ((l.random : ℤ) % (2 * width) - width) ≤ n + width := by omega
    have h3 : ((n + ((l.random : ℤ) % (2 * width) - width) : ℤ) : ℚ) ≤ ((n + width : ℤ) : ℚ) := by exact_mod_cast this
    refine le_trans h3 ?_
    push_cast
    nlinarith
  · rw [if_neg hp]
    nlinarith

theorem nextIterationMax_bounds (m t : ℤ) (r : ℚ) (g : Bool) (a b cur : ℤ) (h1 : cur ≤ max m t) (h2 : min m t ≤ cur) :
    Tabu.nextIterationMax m t r g a b cur ≤ max m t ∧ min m t ≤ Tabu.nextIterationMax m t r g a b cur := by
  unfold Tabu.nextIterationMax
  by_cases h : a ≠ cur
  · rw [if_pos h]; exact ⟨h1, h2⟩
  · rw [if_neg h]
    dsimp only
    exact ⟨max_le (le_max_right _ _) (le_trans (min_le_left _ _) (le_max_left _ _)),
      le_trans (min_le_right _ _) (le_max_left _ _)⟩

theorem nextScreening_chosen (l : Lap) (r : ℤ) :
    nextScreening l r = .soft ∨ nextScreening l r = .aggressive ∨ nextScreening l r = .intensive := by
  unfold nextScreening
  split
  · exact Or.inl rfl
  split
  · exact Or.inr (Or.inr rfl)
  split
  · exact Or.inl rfl
  split
  · split
    · split
      · exact Or.inr (Or.inr rfl)
      · exact Or.inr (Or.inl rfl)
    · exact Or.inr (Or.inl rfl)
  · exact Or.inl rfl

theorem setup_inv {w : Machine} (hw : 1 ≤ w.threads) (o : Opt) (base : MoveSense → Bool) (clock : ℚ) :
    ∃ s, setup w (adjusted w o) base clock = some s ∧ Inv w (adjusted w o) base 0 s ∧ s.update.total = 0 ∧
      s.evaluation.total = 0 ∧ s.kinds = base ∧ s.modifications = 0 ∧ s.iterationMax = o.iterationMax ∧ s.tenure = o.tenure := by
  obtain ⟨a1, a2, -⟩ := adjusted_pos hw o.update
  obtain ⟨b1, b2, -⟩ := adjusted_pos hw o.evaluation
  obtain ⟨u, hu, iu, tu, -⟩ := setupPar_inv hw (adjustThreads w o.update) a1 a2
  obtain ⟨e, he, ie, te, -⟩ := setupPar_inv hw (adjustThreads w o.evaluation) b1 b2
  have e1 : (adjusted w o).update = adjustThreads w o.update := rfl
  have e2 : (adjusted w o).evaluation = adjustThreads w o.evaluation := rfl
  unfold setup
  rw [e1, e2, hu, he]
  refine ⟨_, rfl, ?_, tu, te, rfl, rfl, rfl, rfl⟩
  refine
    { screening := fun h => if_neg h
      screeningChosen := fun h => Or.inr (Or.inr (if_pos h))
      iterationFixed := fun _ => rfl
      iterationMax := le_max_left _ _
      iterationMin := min_le_left _ _
      tenureFixed := fun _ => rfl
      noModification := fun _ => rfl
      modificationsNonneg := le_refl _
      modificationsMax := fun _ _ _ => le_trans (by norm_num) (le_max_left _ _)
      pruningFull := fun _ => rfl
      pruningShort := fun h => absurd rfl h
      update := iu
      evaluation := ie
      special := fun c _ h => Or.inl h
      others := fun c _ => rfl
      iteration := rfl }

theorem update_inv {w : Machine} (hw : 1 ≤ w.threads) (bonus : ℕ → ℕ → ℚ) (o : Opt) (base : MoveSense → Bool) (l : Lap) {k : ℕ}
    {s : State} (i : Inv w o base k s) : ∃ s', update w bonus o l s = some s' ∧ Inv w o base (k + 1) s' := by
  obtain ⟨u, hu, iu, -⟩ := updatePar_inv hw bonus o.update l.updateScore s.iteration i.update
  obtain ⟨e, he, ie, -⟩ := updatePar_inv hw bonus o.evaluation l.evaluationScore s.iteration i.evaluation
  unfold update
  rw [hu, he]
  refine ⟨_, rfl, ?_⟩
  refine
    { screening := fun h => ?_
      screeningChosen := fun h => ?_
      iterationFixed := fun h => ?_
      iterationMax := ?_
      iterationMin := ?_
      tenureFixed := fun h => ?_
      noModification := fun h => ?_
      modificationsNonneg := ?_
      modificationsMax := ?_
      pruningFull := ?_
      pruningShort := ?_
      update := iu
      evaluation := ie
      special := ?_
      others := ?_
      iteration := ?_ }
  · dsimp only
    rw [if_neg h]; exact i.screening h
  · dsimp only
    rw [if_pos h]; exact nextScreening_chosen _ _
  · dsimp only
    rw [if_neg (by rw [h]; decide)]; exact i.iterationFixed h
  · dsimp only
    split
    · exact (nextIterationMax_bounds _ _ _ _ _ _ _ i.iterationMax i.iterationMin).1
    · exact i.iterationMax
  · dsimp only
    split
    · exact (nextIterationMax_bounds _ _ _ _ _ _ _ i.iterationMax i.iterationMin).2
    · exact i.iterationMin
  · dsimp only
    rw [if_neg (by rw [h]; decide)]; exact i.tenureFixed h
  · dsimp only
    rw [if_neg (by rw [h]; decide)]; exact i.noModification h
  · dsimp only
    by_cases hm : o.modification = true
    · rw [if_pos hm]; exact (nextModifications_bounds _ _ _).1
    · rw [if_neg hm]; exact i.modificationsNonneg
  · dsimp only
    by_cases hm : o.modification = true
    · rw [if_pos hm]; exact (nextModifications_bounds _ _ _).2
    · rw [if_neg hm, i.noModification (by simpa using hm)]
      exact fun _ _ _ => le_trans (by norm_num) (le_max_left _ _)
  · dsimp only
    by_cases ha : o.autoIteration = true
    · rw [if_pos ha, if_pos ha]
      intro h; unfold nextPruning; rw [if_pos h]
    · rw [if_neg ha, if_neg ha]; exact i.pruningFull
  · dsimp only
    by_cases ha : o.autoIteration = true
    · rw [if_pos ha, if_pos ha]
      intro h; unfold nextPruning; rw [if_neg h]
    · rw [if_neg ha, if_neg ha]; exact i.pruningShort
  · intro c hc
    dsimp only [nextKinds]
    split
    · unfold disableSpecial
      split
      · intro h; exact absurd h (by decide)
      · exact i.special c hc
    · split
      · unfold enableSpecial
        split
        · rename_i h
          intro _
          simp only [Bool.and_eq_true] at h
          exact Or.inr h.2.1
        · exact i.special c hc
      · exact i.special c hc
  · intro c hc
    dsimp only [nextKinds]
    split
    · simp only [disableSpecial, hc, Bool.false_and]
      exact i.others c hc
    · split
      · simp only [enableSpecial, hc, Bool.false_and]
        exact i.others c hc
      · exact i.others c hc
  · dsimp only
    rw [i.iteration]; push_cast; rfl

theorem states_some {w : Machine} (hw : 1 ≤ w.threads) (bonus : ℕ → ℕ → ℚ) (o : Opt) (base : MoveSense → Bool)
    (ls : List Lap) : ∀ {k : ℕ} {s : State}, Inv w o base k s → ∃ L, states w bonus o ls s = some L := by
  induction ls with
  | nil => exact fun {k s} _ => ⟨[s], rfl⟩
  | cons l ls ih =>
    intro k s i
    obtain ⟨s', hs, i'⟩ := update_inv hw bonus o base l i
    obtain ⟨L, hL⟩ := ih i'
    exact ⟨s :: L, by rw [states, hs, Option.bind_some, hL, Option.map_some]⟩

/-- The list of states: the first one, and every other one is made from the one before. -/
theorem states_steps {w : Machine} {bonus : ℕ → ℕ → ℚ} {o : Opt} {ls : List Lap} : ∀ {s : State} {L : List State},
    states w bonus o ls s = some L → L.length = ls.length + 1 ∧ L[0]? = some s ∧
      ∀ k l a, ls[k]? = some l → L[k]? = some a → ∃ b, L[k + 1]? = some b ∧ update w bonus o l a = some b := by
  induction ls with
  | nil =>
    intro s L h
    have : L = [s] := (Option.some.inj h).symm
    subst this
    exact ⟨rfl, rfl, fun k l a h => by simp at h⟩
  | cons l ls ih =>
    intro s L h
    rw [states] at h
    cases hu : update w bonus o l s with
    | none => rw [hu] at h; exact absurd h (by simp)
    | some s1 =>
      rw [hu, Option.bind_some] at h
      cases hr : states w bonus o ls s1 with
      | none => rw [hr] at h; exact absurd h (by simp)
      | some R =>
        rw [hr, Option.map_some] at h
        have e : L = s :: R := (Option.some.inj h).symm
        subst e
        obtain ⟨h1, h2, h3⟩ := ih hr
        refine ⟨by simp [h1], rfl, fun k l' a hk ha => ?_⟩
        cases k with
        | zero =>
          have e1 : l' = l := by simpa using hk.symm
          have e2 : a = s := by simpa using ha.symm
          subst e1 e2
          exact ⟨s1, by simpa using h2, hu⟩
        | succ k =>
          obtain ⟨b, hb, hb'⟩ := h3 k l' a (by simpa using hk) (by simpa using ha)
          exact ⟨b, by simpa using hb, hb'⟩

theorem states_inv {w : Machine} (hw : 1 ≤ w.threads) {bonus : ℕ → ℕ → ℚ} {o : Opt} {base : MoveSense → Bool} {ls : List Lap}
    {s : State} {L : List State} (i : Inv w o base 0 s) (h : states w bonus o ls s = some L) :
    ∀ k a, L[k]? = some a → Inv w o base k a := by
  obtain ⟨h1, h2, h3⟩ := states_steps h
  intro k
  induction k with
  | zero =>
    intro a ha
    rw [h2] at ha
    rw [← Option.some.inj ha]; exact i
  | succ k ih =>
    intro b hb
    have hk : k + 1 < L.length := by
      by_contra hc
      rw [List.getElem?_eq_none (by omega)] at hb
      exact absurd hb (by simp)
    have hl : ls[k]? = some ls[k] := List.getElem?_eq_getElem (by omega)
    have ha : L[k]? = some L[k] := List.getElem?_eq_getElem (by omega)
    obtain ⟨b', hb', hu⟩ := h3 k _ _ hl ha
    obtain ⟨s', hs', i'⟩ := update_inv hw bonus o base ls[k] (ih _ ha)
    rw [hb'] at hb
    rw [hu] at hs'
    rw [← Option.some.inj hb, Option.some.inj hs']
    exact i'

end Printemps.Tuning
