import Verif.Model.Memory
import Mathlib.Algebra.Order.Chebyshev
import Mathlib.Algebra.BigOperators.Group.Finset.Basic

/-! # C38 — search intensity bookkeeping -/

namespace Printemps.C38
open Memory

/-- One recorded move: iteration, altered variables with the random numbers drawn for them, and the
constraints violated at that time. -/
structure Record where
  iteration : ℤ
  alterations : List (ℕ × ℤ)
  violated : List ℕ

/-- The object after a whole history. -/
def after (reset : ℤ) (gl : ℕ → ℤ) (h : List Record) : Mem :=
  h.foldl (fun s r => update r.iteration r.alterations r.violated s) (setup reset gl)

/-- All altered variables of a history, in order. -/
def altered (h : List Record) : List ℕ := h.flatMap (fun r => r.alterations.map Prod.fst)

/-- All violated constraints of a history, in order. -/
def violations (h : List Record) : List ℕ := h.flatMap (fun r => r.violated)

/-- Sum of the squared numbers of occurrences. -/
def sumSq (L : List ℕ) : ℚ := ∑ v ∈ L.toFinset, (L.count v : ℚ) ^ 2

/-- Enlarging the index set by elements that do not occur changes nothing. -/
theorem sumSq_eq (L : List ℕ) (S : Finset ℕ) (h : L.toFinset ⊆ S) : sumSq L = ∑ v ∈ S, (L.count v : ℚ) ^ 2 := by
  unfold sumSq
  refine Finset.sum_subset h fun x _ hx => ?_
  rw [List.count_eq_zero.2 (by simpa using hx)]; simp

theorem sumSq_snoc (L : List ℕ) (x : ℕ) : sumSq (L ++ [x]) = sumSq L + (2 * L.count x + 1) := by
  rw [sumSq_eq L (L ++ [x]).toFinset (by intro a; simp +contextual)]
  unfold sumSq
  have hx : x ∈ (L ++ [x]).toFinset := by simp
  rw [← Finset.add_sum_erase _ _ hx, ← Finset.add_sum_erase _ _ hx]
  have : ∀ v ∈ (L ++ [x]).toFinset.erase x, ((L ++ [x]).count v : ℚ) ^ 2 = (L.count v : ℚ) ^ 2 := by
    intro v hv
    have : v ≠ x := (Finset.mem_erase.1 hv).1
    rw [List.count_append, List.count_singleton]; simp [Ne.symm this]
  rw [Finset.sum_congr rfl this, List.count_append]
  simp
  ring

theorem sum_count (L : List ℕ) : ∑ v ∈ L.toFinset, (L.count v : ℚ) = L.length := by
  have := List.sum_toFinset_count_eq_length L
  rw [← this]; push_cast; rfl

theorem sumSq_le (L : List ℕ) : sumSq L ≤ (L.length : ℚ) ^ 2 := by
  rw [← sum_count L]
  exact Finset.sum_sq_le_sq_sum_of_nonneg fun _ _ => by positivity

theorem le_sumSq (L : List ℕ) : (L.length : ℚ) ^ 2 ≤ L.toFinset.card * sumSq L := by
  rw [← sum_count L]; exact sq_sum_le_card_mul_sum_sq

/-- The invariant linking the object to the lists of altered variables and violated constraints. -/
structure Inv (s : Mem) (L K : List ℕ) : Prop where
  count : ∀ v, s.updateCount v = L.count v
  total : s.total = L.length
  num : s.primalNum = sumSq L
  vcount : ∀ c, s.violationCount c = K.count c
  vtotal : s.totalViolation = K.length
  vnum : s.dualNum = sumSq K

theorem recordAlterations_inv (it : ℤ) (alts : List (ℕ × ℤ)) (s : Mem) (L K : List ℕ) (h : Inv s L K) :
    Inv (recordAlterations it alts s) (L ++ alts.map Prod.fst) K := by
  induction alts generalizing s L with
  | nil => simpa [recordAlterations] using h
  | cons a rest ih =>
    obtain ⟨v, r⟩ := a
    have := ih { s with
        localLast := Function.update s.localLast v (it + r)
        globalLast := Function.update s.globalLast v s.total
        primalNum := s.primalNum + (2 * s.updateCount v + 1)
        updateCount := Function.update s.updateCount v (s.updateCount v + 1)
        total := s.total + 1 } (L ++ [v]) ⟨?_, ?_, ?_, h.vcount, h.vtotal, h.vnum⟩
    · simpa [recordAlterations] using this
    · intro w
      by_cases hw : w = v
      · subst hw; simp [h.count]
      · simp [Function.update_of_ne hw, h.count, Ne.symm hw]
    · simp [h.total]
    · simp only; rw [sumSq_snoc, h.num, h.count]

theorem recordViolations_inv (vs : List ℕ) (s : Mem) (L K : List ℕ) (h : Inv s L K) :
    Inv (recordViolations vs s) L (K ++ vs) := by
  induction vs generalizing s K with
  | nil => simpa [recordViolations] using h
  | cons c rest ih =>
    have := ih { s with
        dualNum := s.dualNum + (2 * s.violationCount c + 1)
        violationCount := Function.update s.violationCount c (s.violationCount c + 1)
        totalViolation := s.totalViolation + 1 } (K ++ [c]) ⟨h.count, h.total, h.num, ?_, ?_, ?_⟩
    · simpa [recordViolations] using this
    · intro w
      by_cases hw : w = c
      · subst hw; simp [h.vcount]
      · simp [Function.update_of_ne hw, h.vcount, Ne.symm hw]
    · simp [h.vtotal]
    · simp only; rw [sumSq_snoc, h.vnum, h.vcount]

/-- The intensity belonging to a list of occurrences: sum of squared frequencies. -/
def intensityOf (L : List ℕ) : ℚ := sumSq L / (L.length : ℚ) ^ 2

theorem intensity_aux (L : List ℕ) :
    sumSq L * ((1 / ((max 1 L.length : ℕ) : ℚ)) * (1 / ((max 1 L.length : ℕ) : ℚ))) = intensityOf L := by
  unfold intensityOf
  cases L with
  | nil => simp [sumSq]
  | cons a l => rw [Nat.max_eq_right (by simp)]; field_simp

theorem after_inv (reset : ℤ) (gl : ℕ → ℤ) (h : List Record) :
    Inv (after reset gl h) (altered h) (violations h) ∧
    (after reset gl h).primalIntensity = intensityOf (altered h) ∧
    (after reset gl h).dualIntensity = intensityOf (violations h) := by
  induction h using List.reverseRecOn with
  | nil => 
    refine ⟨⟨fun _ => rfl, rfl, ?_, fun _ => rfl, rfl, ?_⟩, ?_, ?_⟩ <;>
      simp [after, setup, altered, violations, sumSq, intensityOf]
  | append_singleton h r ih =>
    have e : after reset gl (h ++ [r]) = update r.iteration r.alterations r.violated (after reset gl h) := by
      simp [after]
    have hi := recordViolations_inv r.violated _ _ _
      (recordAlterations_inv r.iteration r.alterations _ _ _ ih.1)
    have e1 : altered (h ++ [r]) = altered h ++ r.alterations.map Prod.fst := by simp [altered]
    have e2 : violations (h ++ [r]) = violations h ++ r.violated := by simp [violations]
    rw [e, e1, e2]
    refine ⟨⟨hi.count, hi.total, hi.num, hi.vcount, hi.vtotal, hi.vnum⟩, ?_, ?_⟩
    · rw [← intensity_aux, ← hi.num, ← hi.total]; rfl
    · rw [← intensity_aux, ← hi.vnum, ← hi.vtotal]; rfl

/-- After every history of recorded moves: each variable's counter is its number of alterations, the total
is the number of all alterations, the primal intensity is the sum over the variables of the squared share of
alterations; the dual quantities are the same for the violated constraints. -/
theorem bookkeeping (reset : ℤ) (gl : ℕ → ℤ) (h : List Record) :
    (∀ v, (after reset gl h).updateCount v = (altered h).count v) ∧
    (after reset gl h).total = (altered h).length ∧
    (after reset gl h).primalIntensity =
      (∑ v ∈ (altered h).toFinset, ((altered h).count v : ℚ) ^ 2) / ((altered h).length : ℚ) ^ 2 ∧
    (∀ c, (after reset gl h).violationCount c = (violations h).count c) ∧
    (after reset gl h).totalViolation = (violations h).length ∧
    (after reset gl h).dualIntensity =
      (∑ c ∈ (violations h).toFinset, ((violations h).count c : ℚ) ^ 2) / ((violations h).length : ℚ) ^ 2 := by
  obtain ⟨hi, h1, h2⟩ := after_inv reset gl h
  exact ⟨hi.count, hi.total, h1, hi.vcount, hi.vtotal, h2⟩

theorem intensity_range (L : List ℕ) : 0 ≤ intensityOf L ∧ intensityOf L ≤ 1 ∧
    (L ≠ [] → 1 / (L.toFinset.card : ℚ) ≤ intensityOf L) := by
  have h0 : 0 ≤ sumSq L := Finset.sum_nonneg fun _ _ => by positivity
  refine ⟨div_nonneg h0 (by positivity), div_le_one_of_le₀ (sumSq_le L) (by positivity), fun hL => ?_⟩
  have hlen : 0 < (L.length : ℚ) := by
    have : 0 < L.length := List.length_pos_iff.2 hL
    exact_mod_cast this
  have hcard : 0 < (L.toFinset.card : ℚ) := by
    have : 0 < L.toFinset.card := Finset.card_pos.2 (List.toFinset_nonempty_iff _ |>.2 hL)
    exact_mod_cast this
  unfold intensityOf
  rw [div_le_div_iff₀ hcard (by positivity), one_mul, mul_comm]
  exact le_sumSq L

/-- Both intensities always lie between 0 and 1, and once a move has been recorded the primal intensity is at
least one over the number of variables altered so far. -/
theorem intensities_in_range (reset : ℤ) (gl : ℕ → ℤ) (h : List Record) :
    0 ≤ (after reset gl h).primalIntensity ∧ (after reset gl h).primalIntensity ≤ 1 ∧
    0 ≤ (after reset gl h).dualIntensity ∧ (after reset gl h).dualIntensity ≤ 1 ∧
    (altered h ≠ [] → 1 / ((altered h).toFinset.card : ℚ) ≤ (after reset gl h).primalIntensity) := by
  obtain ⟨-, h1, h2⟩ := after_inv reset gl h
  rw [h1, h2]
  have a := intensity_range (altered h)
  have b := intensity_range (violations h)
  exact ⟨a.1, a.2.1, b.1, b.2.1, a.2.2⟩

theorem recordAlterations_last (it : ℤ) (alts : List (ℕ × ℤ)) (s : Mem) (v : ℕ) :
    (v ∉ alts.map Prod.fst → (recordAlterations it alts s).localLast v = s.localLast v ∧
      (recordAlterations it alts s).globalLast v = s.globalLast v) ∧
    (v ∈ alts.map Prod.fst → (∃ r, (v, r) ∈ alts ∧ (recordAlterations it alts s).localLast v = it + r) ∧
      (s.total : ℤ) ≤ (recordAlterations it alts s).globalLast v ∧
      (recordAlterations it alts s).globalLast v < (recordAlterations it alts s).total) ∧
    s.total ≤ (recordAlterations it alts s).total := by
  induction alts generalizing s with
  | nil => simp [recordAlterations]
  | cons a rest ih =>
    obtain ⟨w, r⟩ := a
    obtain ⟨h1, h2, h3⟩ := ih { s with
        localLast := Function.update s.localLast w (it + r)
        globalLast := Function.update s.globalLast w s.total
        primalNum := s.primalNum + (2 * s.updateCount w + 1)
        updateCount := Function.update s.updateCount w (s.updateCount w + 1)
        total := s.total + 1 }
    simp only at h1 h2 h3
    refine ⟨fun hn => ?_, fun hm => ?_, ?_⟩
    · simp only [List.map_cons, List.mem_cons, not_or] at hn
      obtain ⟨a1, a2⟩ := h1 hn.2
      simp only [recordAlterations]
      rw [a1, a2, Function.update_of_ne hn.1, Function.update_of_ne hn.1]
      exact ⟨rfl, rfl⟩
    · simp only [recordAlterations]
      by_cases hr : v ∈ rest.map Prod.fst
      · obtain ⟨⟨q, b1, b2⟩, b3, b4⟩ := h2 hr
        exact ⟨⟨q, List.mem_cons_of_mem _ b1, b2⟩, by push_cast at b3; omega, b4⟩
      · have : v = w := by
          simp only [List.map_cons, List.mem_cons] at hm
          exact hm.resolve_right hr
        subst this
        obtain ⟨a1, a2⟩ := h1 hr
        rw [a1, a2, Function.update_self, Function.update_self]
        exact ⟨⟨r, List.mem_cons_self, rfl⟩, le_rfl, by omega⟩
    · simp only [recordAlterations]; omega

theorem recordViolations_last (vs : List ℕ) (s : Mem) :
    (recordViolations vs s).localLast = s.localLast ∧ (recordViolations vs s).globalLast = s.globalLast ∧
    (recordViolations vs s).total = s.total := by
  induction vs generalizing s with
  | nil => exact ⟨rfl, rfl, rfl⟩
  | cons c rest ih => exact ih _

/-- The time stamps: recording a move at iteration `it` stamps exactly the altered variables, with `it` plus
the random number drawn for the variable; the other variables keep their stamps. -/
theorem last_update_stamps (s : Mem) (it : ℤ) (alts : List (ℕ × ℤ)) (violated : List ℕ) (v : ℕ) :
    (v ∉ alts.map Prod.fst → (update it alts violated s).localLast v = s.localLast v ∧
      (update it alts violated s).globalLast v = s.globalLast v) ∧
    (v ∈ alts.map Prod.fst → (∃ r, (v, r) ∈ alts ∧ (update it alts violated s).localLast v = it + r) ∧
      (s.total : ℤ) ≤ (update it alts violated s).globalLast v ∧
      (update it alts violated s).globalLast v < (update it alts violated s).total) := by
  obtain ⟨h1, h2, -⟩ := recordAlterations_last it alts s v
  obtain ⟨e1, e2, e3⟩ := recordViolations_last violated (recordAlterations it alts s)
  have f1 : (update it alts violated s).localLast = (recordAlterations it alts s).localLast := e1
  have f2 : (update it alts violated s).globalLast = (recordAlterations it alts s).globalLast := e2
  have f3 : (update it alts violated s).total = (recordAlterations it alts s).total := e3
  rw [f1, f2, f3]
  exact ⟨h1, h2⟩

/-- Non-vacuity: three moves, variable 4 altered three times, variable 7 once. -/
example : (after 0 (fun _ => 0) [⟨0, [(4, 0)], [1]⟩, ⟨1, [(4, 0), (7, 0)], []⟩, ⟨2, [(4, 0)], [1]⟩]).primalIntensity
    = 10 / 16 := by
  rw [(bookkeeping _ _ _).2.2.1]; decide +kernel

end Printemps.C38
