import Verif.Model.GF2
import Verif.Lemmas.Assoc
import Verif.Lemmas.ConstraintType
import Verif.Props.C18

/-! # Lemmas about the GF(2) solver -/

namespace Printemps

namespace BiMap
variable {α : Type} [DecidableEq α]

theorem number_forward (l : List α) (m : BiMap α ℕ) (i : ℕ) (hl : l.Nodup) (a : α) :
    (number m i l).forwardAt a = if a ∈ l then some (i + l.idxOf a) else m.forwardAt a := by
  induction l generalizing m i with
  | nil => simp [number]
  | cons b l ih =>
    rw [List.nodup_cons] at hl
    rw [number, ih _ _ hl.2]
    have hi : (m.insert b i).forwardAt a = if b = a then some i else m.forwardAt a := Assoc.get_put _ _ _ _
    by_cases hb : b = a
    · subst hb
      rw [if_neg hl.1, hi, if_pos rfl, if_pos (by simp), List.idxOf_cons_self]; rfl
    · rw [hi, if_neg hb]
      by_cases ha : a ∈ l
      · rw [if_pos ha, if_pos (by simp [ha]), List.idxOf_cons_ne _ hb]
        congr 1; omega
      · rw [if_neg ha, if_neg (by simp [ha, Ne.symm hb])]

theorem number_reverse (l : List α) (m : BiMap α ℕ) (i j : ℕ) :
    (number m i l).reverseAt j = if i ≤ j ∧ j < i + l.length then l[j - i]? else m.reverseAt j := by
  induction l generalizing m i with
  | nil => rw [number, if_neg (by simp)]
  | cons b l ih =>
    rw [number, ih]
    have hi : (m.insert b i).reverseAt j = if i = j then some b else m.reverseAt j := Assoc.get_put _ _ _ _
    rw [hi, List.length_cons]
    by_cases hj : i = j
    · subst hj
      rw [if_neg (by omega), if_pos rfl, if_pos (by omega)]
      simp
    · rw [if_neg hj]
      by_cases h : i + 1 ≤ j ∧ j < i + 1 + l.length
      · rw [if_pos h, if_pos (by omega)]
        obtain ⟨k, hk⟩ : ∃ k, j - i = k + 1 := ⟨j - i - 1, by omega⟩
        rw [hk, List.getElem?_cons_succ]
        congr 1; omega
      · rw [if_neg h, if_neg (by omega)]

end BiMap

namespace Gf2
open BinMat Spec

theorem fillRow_eq (vm : BiMap VarId ℕ) (bins : List VarId) (hvm : ∀ v ∈ bins, vm.forwardAt v = some (bins.idxOf v))
    (row : ℕ) (vs : List VarId) (hvs : ∀ v ∈ vs, v ∈ bins) (M : Mat) :
    ∃ M', fillRow vm row vs M = some M' ∧
      ∀ i j, M' i j = if i = row ∧ ∃ v ∈ vs, bins.idxOf v = j then 1 else M i j := by
  induction vs generalizing M with
  | nil => exact ⟨M, rfl, fun i j => by rw [if_neg (by simp)]⟩
  | cons v vs ih =>
    obtain ⟨M', h1, h2⟩ := ih (fun w hw => hvs w (by simp [hw])) (setEntry M row (bins.idxOf v))
    refine ⟨M', ?_, fun i j => ?_⟩
    · rw [fillRow, hvm v (hvs v (by simp))]; exact h1
    · rw [h2]
      unfold setEntry
      by_cases hi : i = row
      · by_cases hj : ∃ w ∈ vs, bins.idxOf w = j
        · rw [if_pos ⟨hi, hj⟩, if_pos ⟨hi, by obtain ⟨w, hw, e⟩ := hj; exact ⟨w, by simp [hw], e⟩⟩]
        · rw [if_neg (fun h => hj h.2)]
          by_cases hv : j = bins.idxOf v
          · rw [if_pos ⟨hi, hv⟩, if_pos ⟨hi, v, by simp, hv.symm⟩]
          · rw [if_neg (fun h => hv h.2), if_neg]
            rintro ⟨_, w, hw, e⟩
            rcases List.mem_cons.1 hw with rfl | hw
            · exact hv e.symm
            · exact hj ⟨w, hw, e⟩
      · rw [if_neg (fun h => hi h.1), if_neg (fun h => hi h.1), if_neg (fun h => hi h.1)]

/-- The parity of the constant of a constraint. -/
def par (m : MState) (c : ConId) : ℕ := (Expr.truncQ (m.con c).expr.const % 2).toNat

theorem fill_eq (m : MState) (key : ConId → VarId) (vm : BiMap VarId ℕ) (cm : BiMap ConId ℕ) (bins gf2s : List ℕ)
    (hvm : ∀ v ∈ bins, vm.forwardAt v = some (bins.idxOf v)) (hcm : ∀ c ∈ gf2s, cm.forwardAt c = some (gf2s.idxOf c))
    (cs : List ConId) (hcs : ∀ c ∈ cs, c ∈ gf2s) (hb : ∀ c ∈ cs, ∀ v ∈ others m key c, v ∈ bins) (s : Mat × (ℕ → ℕ)) :
    ∃ r, fill m key vm cm cs s = some r ∧
      (∀ i j, r.1 i j = if ∃ c ∈ cs, gf2s.idxOf c = i ∧ ∃ v ∈ others m key c, bins.idxOf v = j then 1 else s.1 i j) ∧
      ∀ c ∈ gf2s, r.2 (gf2s.idxOf c) = if c ∈ cs then par m c else s.2 (gf2s.idxOf c) := by
  induction cs generalizing s with
  | nil => exact ⟨s, rfl, fun i j => by rw [if_neg (by simp)], fun c _ => by rw [if_neg (by simp)]⟩
  | cons c cs ih =>
    obtain ⟨M', h1, h2⟩ := fillRow_eq vm bins hvm (gf2s.idxOf c) (others m key c) (hb c (by simp)) s.1
    obtain ⟨r, h3, h4, h5⟩ := ih (fun d hd => hcs d (by simp [hd])) (fun d hd => hb d (by simp [hd]))
      (M', Function.update s.2 (gf2s.idxOf c) (par m c))
    refine ⟨r, ?_, fun i j => ?_, fun d hd => ?_⟩
    · rw [fill, hcm c (hcs c (by simp))]
      show (fillRow vm (gf2s.idxOf c) (others m key c) s.1).bind _ = _
      rw [h1]; exact h3
    · rw [h4]
      show (if _ then 1 else M' i j) = _
      rw [h2]
      by_cases ha : ∃ d ∈ cs, gf2s.idxOf d = i ∧ ∃ v ∈ others m key d, bins.idxOf v = j
      · rw [if_pos ha, if_pos]
        obtain ⟨d, hd, e⟩ := ha; exact ⟨d, by simp [hd], e⟩
      · rw [if_neg ha]
        by_cases hc : i = gf2s.idxOf c ∧ ∃ v ∈ others m key c, bins.idxOf v = j
        · rw [if_pos hc, if_pos ⟨c, by simp, hc.1.symm, hc.2⟩]
        · rw [if_neg hc, if_neg]
          rintro ⟨d, hd, e⟩
          rcases List.mem_cons.1 hd with rfl | hd
          · exact hc ⟨e.1.symm, e.2⟩
          · exact ha ⟨d, hd, e⟩
    · rw [h5 d hd]
      show (if _ then _ else Function.update s.2 (gf2s.idxOf c) (par m c) (gf2s.idxOf d)) = _
      by_cases h : d ∈ cs
      · rw [if_pos h, if_pos (by simp [h])]
      · rw [if_neg h]
        by_cases hdc : d = c
        · subst hdc; rw [Function.update_self, if_pos (by simp)]
        · rw [if_neg (by simp [h, hdc]), Function.update_of_ne]
          intro e
          exact hdc ((List.idxOf_inj hd).1 e)

theorem fixBinaries_eq (vm : BiMap VarId ℕ) (bins : List VarId) (hn : bins.Nodup) (hvm : ∀ i, vm.reverseAt i = bins[i]?)
    (sol : ℕ → ℕ) (is : List ℕ) (his : is.Nodup) (hlt : ∀ i ∈ is, i < bins.length) (var : VarId → Var) :
    ∃ var', fixBinaries vm sol is var = some var' ∧
      ∀ v, var' v = if v ∈ bins ∧ bins.idxOf v ∈ is then (var v).fixBy (sol (bins.idxOf v)) else var v := by
  induction is generalizing var with
  | nil => exact ⟨var, rfl, fun v => by rw [if_neg (by simp)]⟩
  | cons i is ih =>
    rw [List.nodup_cons] at his
    have hi := hlt i (by simp)
    obtain ⟨var', h1, h2⟩ := ih his.2 (fun j hj => hlt j (by simp [hj]))
      (Function.update var bins[i] ((var bins[i]).fixBy (sol i)))
    have hidx : bins.idxOf bins[i] = i := hn.idxOf_getElem i hi
    refine ⟨var', ?_, fun v => ?_⟩
    · rw [fixBinaries, hvm, List.getElem?_eq_getElem hi]; exact h1
    · rw [h2]
      by_cases hv : v = bins[i]
      · subst hv
        rw [hidx, if_neg (fun h => his.1 h.2), Function.update_self, if_pos ⟨List.getElem_mem _, by simp⟩]
      · rw [Function.update_of_ne hv]
        by_cases h : v ∈ bins ∧ bins.idxOf v ∈ is
        · rw [if_pos h, if_pos ⟨h.1, by simp [h.2]⟩]
        · rw [if_neg h, if_neg]
          rintro ⟨h3, h4⟩
          rcases List.mem_cons.1 h4 with e | h4
          · apply hv
            have := List.getElem_idxOf (List.idxOf_lt_length_of_mem h3)
            rw [← this]; congr 1
          · exact h ⟨h3, h4⟩

/-- A regular system of parity equations has at most one solution, the one computed. -/
theorem unique_solution (n : ℕ) (A : Mat) (hA : ∀ i < n, ∀ j < n, A i j < 2) (h : (inverseAndRank n A).2 = n)
    (b x : ℕ → ℕ) (hx : ∀ j < n, x j < 2)
    (he : ∀ i < n, (∑ k ∈ Finset.range n, A i k * x k) % 2 = b i % 2) :
    ∀ j < n, x j = dotVec n (inverseAndRank n A).1 b j := by
  obtain ⟨h1, _, _⟩ := C18.full_rank_gives_inverse n A hA h
  set B := (inverseAndRank n A).1
  intro j hj
  rw [C18.dotVec_eq]
  have e : ((∑ k ∈ Finset.range n, B j k * b k : ℕ) : ZMod 2) = (x j : ZMod 2) := by
    have e1 : ∀ k ∈ Finset.range n, ((B j k * b k : ℕ) : ZMod 2) = ∑ l ∈ Finset.range n, (B j k : ZMod 2) * ((A k l : ZMod 2) * x l) := by
      intro k hk
      have := (ZMod.natCast_eq_natCast_iff' _ _ _).2 (he k (Finset.mem_range.1 hk))
      push_cast at this ⊢
      rw [← this, Finset.mul_sum]
    push_cast at e1 ⊢
    rw [Finset.sum_congr rfl e1, Finset.sum_comm]
    have e2 : ∀ l ∈ Finset.range n, (∑ k ∈ Finset.range n, (B j k : ZMod 2) * ((A k l : ZMod 2) * x l))
        = if j = l then (x l : ZMod 2) else 0 := by
      intro l hl
      have hp := h1 j hj l (Finset.mem_range.1 hl)
      have hp' : ((C18.product n B A j l : ℕ) : ZMod 2) = if j = l then 1 else 0 := by
        rw [← ZMod.natCast_mod, hp]; split <;> simp
      rw [C18.product] at hp'
      push_cast at hp'
      have : (∑ k ∈ Finset.range n, (B j k : ZMod 2) * ((A k l : ZMod 2) * x l))
          = (∑ k ∈ Finset.range n, (B j k : ZMod 2) * (A k l : ZMod 2)) * x l := by
        rw [Finset.sum_mul]; apply Finset.sum_congr rfl; intros; ring
      rw [this, hp']; split <;> simp
    rw [Finset.sum_congr rfl e2, Finset.sum_ite_eq]
    simp [hj]
  have := (ZMod.natCast_eq_natCast_iff' _ _ _).1 e
  rw [this]
  exact (Nat.mod_eq_of_lt (hx j hj)).symm

/-- A sum over a duplicate-free list as a sum over the indices of a larger list. -/
theorem sum_indices (bins os : List ℕ) (ho : os.Nodup) (hs : ∀ v ∈ os, v ∈ bins) (x : ℕ → ℕ) :
    ∑ k ∈ Finset.range bins.length, (if ∃ v ∈ os, bins.idxOf v = k then 1 else 0) * x k =
      (os.map (fun v => x (bins.idxOf v))).sum := by
  induction os with
  | nil => simp
  | cons v os ih =>
    rw [List.nodup_cons] at ho
    rw [List.map_cons, List.sum_cons, ← ih ho.2 (fun w hw => hs w (by simp [hw]))]
    have hv : bins.idxOf v < bins.length := List.idxOf_lt_length_of_mem (hs v (by simp))
    have : ∀ k ∈ Finset.range bins.length,
        (if ∃ w ∈ v :: os, bins.idxOf w = k then 1 else 0) * x k =
          (if bins.idxOf v = k then x k else 0) + (if ∃ w ∈ os, bins.idxOf w = k then 1 else 0) * x k := by
      intro k _
      by_cases h1 : bins.idxOf v = k
      · have h2 : ¬ ∃ w ∈ os, bins.idxOf w = k := by
          rintro ⟨w, hw, e⟩
          have := (List.idxOf_inj (hs v (by simp))).1 (h1.trans e.symm)
          exact ho.1 (this ▸ hw)
        rw [if_pos ⟨v, by simp, h1⟩, if_pos h1, if_neg h2]; ring
      · by_cases h2 : ∃ w ∈ os, bins.idxOf w = k
        · rw [if_pos (by obtain ⟨w, hw, e⟩ := h2; exact ⟨w, by simp [hw], e⟩), if_neg h1, if_pos h2]; ring
        · rw [if_neg, if_neg h1, if_neg h2]; · ring
          rintro ⟨w, hw, e⟩
          rcases List.mem_cons.1 hw with rfl | hw
          · exact h1 e
          · exact h2 ⟨w, hw, e⟩
    rw [Finset.sum_congr rfl this, Finset.sum_add_distrib, Finset.sum_ite_eq, if_pos (Finset.mem_range.2 hv)]

end Gf2
end Printemps

namespace Printemps.Gf2
open Spec ConType

theorem setTypes_ne (c : Con) (r : Result) (h : setTypes c = some r) : r.1 ≠ .gf2 := by
  unfold setTypes at h
  intro e
  repeat' split at h
  all_goals first | (simp at h; done) | (simp only [Option.some.injEq] at h; subst h; simp at e)

theorem flowTypes_ne (var : VarId → Var) (c : Con) (r : Result) (h : flowTypes var c = some r) : r.1 ≠ .gf2 := by
  unfold flowTypes at h
  dsimp only at h
  intro e
  repeat' split at h
  all_goals first | (simp at h; done) | (simp only [Option.some.injEq] at h; subst h; simp at e)

theorem boundTypes_ne (var : VarId → Var) (c : Con) (r : Result) (h : boundTypes var c = some r) : r.1 ≠ .gf2 := by
  unfold boundTypes at h
  dsimp only at h
  intro e
  repeat' split at h
  all_goals first | (simp at h; done) | (simp only [Option.some.injEq] at h; subst h; simp at e)

theorem knapsackTypes_ne (var : VarId → Var) (c : Con) (r : Result) (h : knapsackTypes var c = some r) : r.1 ≠ .gf2 := by
  unfold knapsackTypes at h
  dsimp only at h
  intro e
  repeat' split at h
  all_goals first | (simp at h; done) | (simp only [Option.some.injEq] at h; subst h; simp at e)

theorem pairBinary_ne (var : VarId → Var) (lt : VarId → VarId → Bool) (k : ℚ) (x : VarId) (a : ℚ) (y : VarId) (b : ℚ)
    (r : Result) (h : pairBinary var lt k x a y b = some r) : r.1 ≠ .gf2 := by
  unfold pairBinary at h
  intro e
  repeat' split at h
  all_goals first | (simp at h; done) | (simp only [Option.some.injEq] at h; subst h; simp at e)

theorem pairUnit_ne (lt : VarId → VarId → Bool) (k : ℚ) (x : VarId) (a : ℚ) (y : VarId) (b : ℚ)
    (r : Result) (h : pairUnit lt k x a y b = some r) : r.1 ≠ .gf2 := by
  unfold pairUnit at h
  intro e
  repeat' split at h
  all_goals first | (simp at h; done) | (simp only [Option.some.injEq] at h; subst h; simp at e)

theorem pairHalf_ne (i : Bool) (k : ℚ) (x : VarId) (a : ℚ) (y : VarId) (b : ℚ)
    (r : Result) (h : pairHalf i k x a y b = some r) : r.1 ≠ .gf2 := by
  unfold pairHalf at h
  intro e
  repeat' split at h
  all_goals first | (simp at h; done) | (simp only [Option.some.injEq] at h; subst h; simp at e)

theorem trinomial_ne (var : VarId → Var) (ts : List (VarId × ℚ)) (r : Result) (h : trinomial var ts = some r) :
    r.1 ≠ .gf2 := by
  unfold trinomial at h
  dsimp only at h
  intro e
  repeat' split at h
  all_goals first | (simp at h; done) | (simp only [Option.some.injEq] at h; subst h; simp at e)

theorem general_gf2 (var : VarId → Var) (c : Con) (k : VarId) (h : general var c = (.gf2, some k)) :
    gf2Type var c = some (.gf2, some k) := by
  unfold general at h
  cases h1 : setTypes c with
  | some r => rw [h1] at h; exact absurd (show r.1 = .gf2 by have : r = _ := h; rw [this]) (setTypes_ne c r h1)
  | none =>
    cases h2 : flowTypes var c with
    | some r => rw [h1, h2] at h; exact absurd (show r.1 = .gf2 by have : r = _ := h; rw [this]) (flowTypes_ne var c r h2)
    | none =>
      cases h3 : boundTypes var c with
      | some r => rw [h1, h2, h3] at h; exact absurd (show r.1 = .gf2 by have : r = _ := h; rw [this]) (boundTypes_ne var c r h3)
      | none =>
        cases h4 : knapsackTypes var c with
        | some r => rw [h1, h2, h3, h4] at h; exact absurd (show r.1 = .gf2 by have : r = _ := h; rw [this]) (knapsackTypes_ne var c r h4)
        | none =>
          cases h5 : gf2Type var c with
          | some r => rw [h1, h2, h3, h4, h5] at h; have : r = _ := h; rw [this]
          | none => rw [h1, h2, h3, h4, h5] at h; exact absurd h (by simp [Option.orElse, Option.getD])

theorem classify_gf2 (var : VarId → Var) (lt : VarId → VarId → Bool) (c : Con) (k : VarId)
    (h : classify var lt c = (.gf2, some k)) : gf2Type var c = some (.gf2, some k) := by
  unfold classify at h
  split at h
  · simp at h
  · split at h
    · split at h
      · exfalso
        unfold pairEqual at h
        split at h
        · rename_i r hr; exact pairBinary_ne _ _ _ _ _ _ _ r hr (by rw [h])
        · split at h
          · split at h
            · rename_i r hr; exact pairUnit_ne _ _ _ _ _ _ r hr (by rw [h])
            · split at h
              · rename_i r hr; exact pairHalf_ne _ _ _ _ _ _ r hr (by rw [h])
              · simp at h
          · simp at h
      · exfalso
        unfold pairInequality at h
        split at h <;> simp at h
    · exact general_gf2 var c k h
  · split at h
    · rename_i t u w ht hh
      cases ht : trinomial var [t, u, w] with
      | some r => rw [ht] at h; exact absurd (show r.1 = .gf2 by have : r = _ := h; rw [this]) (trinomial_ne _ _ r ht)
      | none => rw [ht] at h; exact general_gf2 var c k h
    · exact general_gf2 var c k h
  · exact general_gf2 var c k h

/-- What the classification as GF(2) says about a constraint. -/
structure Facts (var : VarId → Var) (c : Con) (k : VarId) (a : ℚ) (kk : ℤ) : Prop where
  const : c.expr.const = kk
  const_small : -1 ≤ kk ∧ kk ≤ 1
  sense : c.sense = .equal
  key : (k, a) ∈ c.expr.terms
  two : a = 2 ∨ a = -2
  other : ∀ t ∈ c.expr.terms, t.1 ≠ k → |t.2| = 1 ∧ (var t.1).sense = .binary
  unfixed : ∀ t ∈ c.expr.terms, (var t.1).fixed = false
  low : (var k).lb ≠ INT_HALF_MIN →
    (var k).lb ≤ ⌈(if a > 0 then -(c.expr.erase k).upperBound (fun v => (var v).box) else
      (c.expr.erase k).lowerBound (fun v => (var v).box)) * (1/2)⌉
  high : (var k).ub ≠ INT_HALF_MAX →
    ⌊(if a > 0 then -(c.expr.erase k).lowerBound (fun v => (var v).box) else
      (c.expr.erase k).upperBound (fun v => (var v).box)) * (1/2)⌋ ≤ (var k).ub

theorem facts (var : VarId → Var) (c : Con) (k : VarId) (h : gf2Type var c = some (.gf2, some k)) :
    ∃ a kk, Facts var c k a kk := by
  unfold gf2Type at h
  dsimp only at h
  split at h
  swap
  · exact absurd h (by simp)
  rename_i h0
  obtain ⟨hk, hs, hall⟩ := h0
  split at h
  swap
  · exact absurd h (by simp)
  rename_i t hkey
  obtain ⟨hb, he⟩ := ite_none_some h
  simp only [Prod.mk.injEq, Option.some.injEq, true_and] at he
  subst he
  rw [not_or] at hb
  have hkm : t ∈ c.expr.terms ∧ gf2Key var t = true := by
    have : t ∈ c.expr.terms.filter (gf2Key var) := by rw [hkey]; simp
    exact List.mem_filter.1 this
  have hka : |t.2| = 2 := by
    have := hkm.2; unfold gf2Key at this; simp only [Bool.and_eq_true, decide_eq_true_eq] at this; exact this.2
  obtain ⟨kk, hkk, hkkp⟩ : ∃ kk : ℤ, c.expr.const = kk ∧ (-1 ≤ kk ∧ kk ≤ 1) := by
    rcases hk with h | h
    · exact ⟨0, by rw [h]; simp, by omega⟩
    · rcases eq_or_eq_neg_of_abs_eq h with h | h
      · exact ⟨1, by rw [h]; simp, by omega⟩
      · exact ⟨-1, by rw [h]; simp, by omega⟩
  refine ⟨t.2, kk, hkk, hkkp, hs, hkm.1, eq_or_eq_neg_of_abs_eq hka, ?_, ?_, ?_, ?_⟩
  · intro u hu hne
    have := List.all_eq_true.1 hall u hu
    simp only [Bool.and_eq_true, Bool.or_eq_true, decide_eq_true_eq, beq_iff_eq] at this
    rcases this.2 with h | h
    · exfalso
      have : u ∈ c.expr.terms.filter (gf2Key var) := List.mem_filter.2 ⟨hu, h⟩
      rw [hkey, List.mem_singleton] at this
      exact hne (by rw [this])
    · exact ⟨h.2, h.1⟩
  · intro u hu
    have := List.all_eq_true.1 hall u hu
    simp only [Bool.and_eq_true, Bool.not_eq_true'] at this
    exact this.1
  · intro hne; exact not_lt.1 (fun h => hb.1 ⟨hne, h⟩)
  · intro hne; exact not_lt.1 (fun h => hb.2 ⟨hne, h⟩)

end Printemps.Gf2
