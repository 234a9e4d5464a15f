import Verif.Lemmas.GF2
import Verif.Props.C19
import Verif.Lemmas.Example

/-! # C63 — solving the parity equations in presolve neither loses nor invents solutions -/

namespace Printemps.C63
open Spec ConType BinMat Gf2

/-- The situation in which the solver is called: `gf2s` are enabled constraints that have been classified as parity
equations with the given key variables, and `bins` lists their other variables in an arbitrary order. -/
structure Setting (m : MState) (lt : ℕ → ℕ → Bool) (gf2s : List ℕ) (key : ℕ → ℕ) (bins : List ℕ) : Prop where
  nodup : gf2s.Nodup
  enabled : ∀ c ∈ gf2s, c ∈ m.conIds ∧ (m.con c).enabled = true
  wf : ∀ c ∈ gf2s, ((m.con c).expr.terms.map Prod.fst).Nodup
  typed : ∀ c ∈ gf2s, classify m.var lt (m.con c) = (.gf2, some (key c))
  order : bins.Nodup
  complete : ∀ v, v ∈ bins ↔ ∃ c ∈ gf2s, v ∈ (m.con c).expr.terms.map Prod.fst ∧ v ≠ key c
  zeroOne : ∀ v, (m.var v).sense = .binary → 0 ≤ (m.var v).lb ∧ (m.var v).ub ≤ 1

variable {m : MState} {lt : ℕ → ℕ → Bool} {gf2s : List ℕ} {key : ℕ → ℕ} {bins : List ℕ}

theorem mem_others (m : MState) (key : ℕ → ℕ) (c v : ℕ) :
    v ∈ others m key c ↔ v ∈ (m.con c).expr.terms.map Prod.fst ∧ v ≠ key c := by
  unfold others
  rw [List.mem_filter, decide_eq_true_eq]

theorem others_eq (m : MState) (key : ℕ → ℕ) (c : ℕ) :
    others m key c = ((m.con c).expr.terms.filter (fun t => t.1 ≠ key c)).map Prod.fst := by
  unfold others
  rw [List.filter_map]; rfl

theorem Setting.facts (h : Setting m lt gf2s key bins) (c : ℕ) (hc : c ∈ gf2s) :
    ∃ a kk, Facts m.var (m.con c) (key c) a kk := Gf2.facts _ _ _ (classify_gf2 _ _ _ _ (h.typed c hc))

theorem Setting.others_bins (h : Setting m lt gf2s key bins) (c : ℕ) (hc : c ∈ gf2s) (v : ℕ) (hv : v ∈ others m key c) :
    v ∈ bins := (h.complete v).2 ⟨c, hc, (mem_others _ _ _ _).1 hv⟩

theorem Setting.others_nodup (h : Setting m lt gf2s key bins) (c : ℕ) (hc : c ∈ gf2s) : (others m key c).Nodup :=
  (h.wf c hc).filter _

/-- The constraint in terms of its key variable and the rest. -/
theorem holds_eq (c : Con) (k : ℕ) (a : ℚ) (kk : ℤ) (var : ℕ → Var) (hf : Facts var c k a kk)
    (hw : (c.expr.terms.map Prod.fst).Nodup) (σ : ℕ → ℤ) :
    Holds c σ ↔ a * σ k + (kk + Expr.lin (c.expr.terms.filter (fun t => t.1 ≠ k)) σ) = 0 := by
  rw [ConType.holds_iff, hf.sense]
  simp only []
  rw [← ConType.value_eq, ← hf.const]
  have h1 := Dependent.exprValue_erase c.expr hw k σ
  rw [Expr.lookup_of_mem _ hw k a hf.key] at h1
  have h2 : exprValue (c.expr.erase k) σ = c.expr.const + Expr.lin (c.expr.terms.filter (fun t => t.1 ≠ k)) σ := by
    rw [exprValue_eq, Expr.evaluate_eq]; rfl
  rw [h2] at h1
  constructor <;> intro h <;> linarith

theorem sum_toNat (l : List ℕ) (σ : ℕ → ℤ) (h : ∀ v ∈ l, σ v = 0 ∨ σ v = 1) :
    (l.map (fun v => (σ v).toNat)).sum = (l.filter (fun v => σ v = 1)).length := by
  induction l with
  | nil => rfl
  | cons v l ih =>
    have := ih (fun w hw => h w (by simp [hw]))
    rcases h v (by simp) with e | e
    · rw [List.map_cons, List.sum_cons, List.filter_cons_of_neg (by simp [e]), this, e]; simp
    · rw [List.map_cons, List.sum_cons, List.filter_cons_of_pos (by simp [e]), this, e, List.length_cons]; simp; omega

theorem par_eq (m : MState) (c : ℕ) (kk : ℤ) (h : (m.con c).expr.const = kk) : par m c = (kk % 2).toNat := by
  unfold par
  rw [h]
  have : Expr.truncQ (kk : ℚ) = kk := by unfold Expr.truncQ; split <;> simp
  rw [this]

/-- A satisfied parity equation fixes the parity of its 0/1 variables. -/
theorem parity_of_holds (h : Setting m lt gf2s key bins) (c : ℕ) (hc : c ∈ gf2s) (σ : ℕ → ℤ)
    (hz : ∀ v ∈ bins, σ v = 0 ∨ σ v = 1) (hh : Holds (m.con c) σ) :
    ((others m key c).map (fun v => (σ v).toNat)).sum % 2 = par m c % 2 := by
  obtain ⟨a, kk, hf⟩ := h.facts c hc
  rw [holds_eq _ _ a kk _ hf (h.wf c hc)] at hh
  have hmem : ∀ t ∈ (m.con c).expr.terms.filter (fun t => t.1 ≠ key c), t ∈ (m.con c).expr.terms ∧ t.1 ≠ key c := by
    intro t ht
    obtain ⟨h1, h2⟩ := List.mem_filter.1 ht
    exact ⟨h1, by simpa using h2⟩
  have hzo : ∀ v ∈ others m key c, σ v = 0 ∨ σ v = 1 := fun v hv => hz v (h.others_bins c hc v hv)
  obtain ⟨n, n1, _, n3⟩ := lin_parity ((m.con c).expr.terms.filter (fun t => t.1 ≠ key c)) σ
    (fun t ht => (hf.other t (hmem t ht).1 (hmem t ht).2).1)
    (fun t ht => hzo t.1 (by rw [others_eq]; exact List.mem_map.2 ⟨t, ht, rfl⟩))
  rw [sum_toNat _ _ hzo, par_eq m c kk hf.const]
  rw [← others_eq] at n3
  rw [n1] at hh
  generalize ((others m key c).filter (fun v => σ v = 1)).length = cnt at *
  have hp : (kk + n) % 2 = 0 := by
    rcases hf.two with e | e
    · rw [e] at hh
      have : 2 * σ (key c) + (kk + n) = 0 := by exact_mod_cast hh
      omega
    · rw [e] at hh
      have : -2 * σ (key c) + (kk + n) = 0 := by exact_mod_cast hh
      omega
  have := hf.const_small
  omega

/-- The matrix and the right-hand side the solver builds. -/
theorem matrix (h : Setting m lt gf2s key bins) :
    ∃ A b, fill m key (BiMap.number {} 0 bins) (BiMap.number {} 0 gf2s) gf2s (fun _ _ => 0, fun _ => 0) = some (A, b) ∧
      (∀ c ∈ gf2s, ∀ j, A (gf2s.idxOf c) j = if ∃ v ∈ others m key c, bins.idxOf v = j then 1 else 0) ∧
      (∀ c ∈ gf2s, b (gf2s.idxOf c) = par m c) ∧ ∀ i j, A i j < 2 := by
  obtain ⟨r, h1, h2, h3⟩ := fill_eq m key (BiMap.number {} 0 bins) (BiMap.number {} 0 gf2s) bins gf2s
    (fun v hv => by rw [BiMap.number_forward _ _ _ h.order, if_pos hv, Nat.zero_add])
    (fun c hc => by rw [BiMap.number_forward _ _ _ h.nodup, if_pos hc, Nat.zero_add])
    gf2s (fun c hc => hc) (fun c hc v hv => h.others_bins c hc v hv) (fun _ _ => 0, fun _ => 0)
  refine ⟨r.1, r.2, h1, fun c hc j => ?_, fun c hc => ?_, fun i j => ?_⟩
  · rw [h2]
    by_cases he : ∃ v ∈ others m key c, bins.idxOf v = j
    · rw [if_pos he, if_pos ⟨c, hc, rfl, he⟩]
    · rw [if_neg he, if_neg]
      rintro ⟨d, hd, e, f⟩
      have : d = c := (List.idxOf_inj hd).1 e
      exact he (this ▸ f)
  · rw [h3 c hc, if_pos hc]
  · rw [h2]; split <;> simp

/-- The equations of the matrix are the parity equations. -/
theorem matrix_row (h : Setting m lt gf2s key bins) (A : Mat)
    (hA : ∀ c ∈ gf2s, ∀ j, A (gf2s.idxOf c) j = if ∃ v ∈ others m key c, bins.idxOf v = j then 1 else 0)
    (c : ℕ) (hc : c ∈ gf2s) (x : ℕ → ℕ) :
    ∑ k ∈ Finset.range bins.length, A (gf2s.idxOf c) k * x k = ((others m key c).map (fun v => x (bins.idxOf v))).sum := by
  rw [← sum_indices bins (others m key c) (h.others_nodup c hc) (h.others_bins c hc)]
  exact Finset.sum_congr rfl fun k _ => by rw [hA c hc]

/-- The outcomes of a call. -/
theorem outcomes (h : Setting m lt gf2s key bins) :
    solve m gf2s key bins = some (false, m) ∨
    ∃ A b var, bins.length = gf2s.length ∧ (keySet m gf2s key).length = gf2s.length ∧
      (∀ c ∈ gf2s, ∀ j, A (gf2s.idxOf c) j = if ∃ v ∈ others m key c, bins.idxOf v = j then 1 else 0) ∧
      (∀ c ∈ gf2s, b (gf2s.idxOf c) = par m c) ∧ (∀ i j, A i j < 2) ∧
      (inverseAndRank gf2s.length A).2 = gf2s.length ∧
      (∀ v, var v = if v ∈ bins then
        (m.var v).fixBy (dotVec gf2s.length (inverseAndRank gf2s.length A).1 b (bins.idxOf v)) else m.var v) ∧
      solve m gf2s key bins = some (true, { m with var := fixKeys m key var gf2s }) := by
  obtain ⟨A, b, h1, h2, h3, h4⟩ := matrix h
  unfold solve
  dsimp only
  by_cases hb : bins.length ≠ gf2s.length
  · left; rw [if_pos hb]
  · rw [if_neg hb]
    by_cases hk : (keySet m gf2s key).length ≠ gf2s.length
    · left; rw [if_pos hk]
    · rw [if_neg hk, h1]
      show (if (inverseAndRank gf2s.length A).2 ≠ gf2s.length then some (false, m) else _) = _ ∨ _
      by_cases hr : (inverseAndRank gf2s.length A).2 ≠ gf2s.length
      · left; rw [if_pos hr]
      · right
        obtain ⟨var, v1, v2⟩ := fixBinaries_eq (BiMap.number {} 0 bins) bins h.order
          (fun i => by
            rw [BiMap.number_reverse]
            by_cases hi : 0 ≤ i ∧ i < 0 + bins.length
            · rw [if_pos hi]; rfl
            · rw [if_neg hi, List.getElem?_eq_none (by omega)]; rfl)
          (dotVec gf2s.length (inverseAndRank gf2s.length A).1 b) (List.range gf2s.length) List.nodup_range
          (fun i hi => by rw [List.mem_range] at hi; push Not at hb; omega) m.var
        refine ⟨A, b, var, not_not.1 hb, not_not.1 hk, h2, h3, h4, not_not.1 hr, fun v => ?_, ?_⟩
        · rw [v2]
          by_cases hv : v ∈ bins
          · rw [if_pos hv, if_pos ⟨hv, by
              rw [List.mem_range, ← not_not.1 hb]; exact List.idxOf_lt_length_of_mem hv⟩]
          · rw [if_neg hv, if_neg (fun h => hv h.1)]
        · show (if (inverseAndRank gf2s.length A).2 ≠ gf2s.length then some (false, m) else
            (fixBinaries (BiMap.number {} 0 bins) (dotVec gf2s.length (inverseAndRank gf2s.length A).1 b)
              (List.range gf2s.length) m.var).map _) = _
          rw [if_neg hr, v1]; rfl

/-- The call never throws: all look-ups succeed. -/
theorem always_defined (h : Setting m lt gf2s key bins) : ∃ r, solve m gf2s key bins = some r := by
  rcases outcomes h with h | ⟨_, _, _, _, _, _, _, _, _, _, h⟩
  · exact ⟨_, h⟩
  · exact ⟨_, h⟩

/-- If the solver reports failure, it has changed nothing. -/
theorem failure_changes_nothing (h : Setting m lt gf2s key bins) (m' : MState)
    (hr : solve m gf2s key bins = some (false, m')) : m' = m := by
  rcases outcomes h with e | ⟨_, _, _, _, _, _, _, _, _, _, e⟩
  · rw [e] at hr; simp at hr; exact hr.symm
  · rw [e] at hr; simp at hr

/-- A feasible assignment gives the 0/1 variables of the equations the values 0 or 1. -/
theorem feasible_zeroOne (h : Setting m lt gf2s key bins) (σ : ℕ → ℤ) (hf : Feasible m σ) :
    ∀ v ∈ bins, σ v = 0 ∨ σ v = 1 := by
  intro v hv
  obtain ⟨c, hc, hm, hne⟩ := (h.complete v).1 hv
  obtain ⟨a, kk, f⟩ := h.facts c hc
  obtain ⟨t, ht, rfl⟩ := List.mem_map.1 hm
  have := (hf.1 t.1).2 (f.unfixed t ht)
  have := h.zeroOne t.1 (f.other t ht hne).2
  omega

/-- The solution of the matrix equations is the only one: every feasible assignment has these values. -/
theorem forced (h : Setting m lt gf2s key bins) (A : Mat) (b : ℕ → ℕ) (hl : bins.length = gf2s.length)
    (hA : ∀ c ∈ gf2s, ∀ j, A (gf2s.idxOf c) j = if ∃ v ∈ others m key c, bins.idxOf v = j then 1 else 0)
    (hb : ∀ c ∈ gf2s, b (gf2s.idxOf c) = par m c) (h2 : ∀ i j, A i j < 2)
    (hr : (inverseAndRank gf2s.length A).2 = gf2s.length) (σ : ℕ → ℤ)
    (hz : ∀ v ∈ bins, σ v = 0 ∨ σ v = 1) (hh : ∀ c ∈ gf2s, Holds (m.con c) σ) (v : ℕ) (hv : v ∈ bins) :
    σ v = dotVec gf2s.length (inverseAndRank gf2s.length A).1 b (bins.idxOf v) := by
  have hlt : bins.idxOf v < gf2s.length := by rw [← hl]; exact List.idxOf_lt_length_of_mem hv
  have := unique_solution gf2s.length A (fun i _ j _ => h2 i j) hr b (fun k => (σ (bins.getD k 0)).toNat)
    (fun j hj => by
      have hj' : j < bins.length := by omega
      have hmem : bins.getD j 0 ∈ bins := by
        rw [List.getD_eq_getElem?_getD, List.getElem?_eq_getElem hj']; exact List.getElem_mem _
      rcases hz _ hmem with e | e <;> rw [e] <;> simp)
    (fun i hi => by
      have hmem : gf2s[i] ∈ gf2s := List.getElem_mem _
      have hidx : gf2s.idxOf gf2s[i] = i := h.nodup.idxOf_getElem i hi
      have e1 := matrix_row h A hA gf2s[i] hmem (fun k => (σ (bins.getD k 0)).toNat)
      rw [hidx, hl] at e1
      have hbi := hb _ hmem
      rw [hidx] at hbi
      rw [e1, hbi, ← parity_of_holds h _ hmem σ hz (hh _ hmem)]
      congr 2
      apply List.map_congr_left
      intro w hw
      have hw' := List.idxOf_lt_length_of_mem (h.others_bins _ hmem w hw)
      rw [List.getD_eq_getElem?_getD, List.getElem?_eq_getElem hw']
      simp)
    (bins.idxOf v) hlt
  rw [← this]
  have hv' := List.idxOf_lt_length_of_mem hv
  rw [List.getD_eq_getElem?_getD, List.getElem?_eq_getElem hv']
  simp only [List.getElem_idxOf, Option.getD_some]
  rcases hz v hv with e | e <;> rw [e] <;> simp

theorem fixKeys_other (m : MState) (key : ℕ → ℕ) (cs : List ℕ) (var : ℕ → Var) (v : ℕ) (hv : ∀ c ∈ cs, key c ≠ v) :
    fixKeys m key var cs v = var v := by
  induction cs generalizing var with
  | nil => rfl
  | cons c cs ih =>
    have := ih (Function.update var (key c) ((var (key c)).fixBy (keyValue m key var c))) (fun d hd => hv d (by simp [hd]))
    show fixKeys m key (Function.update var (key c) ((var (key c)).fixBy (keyValue m key var c))) cs v = _
    rw [this, Function.update_of_ne (Ne.symm (hv c (by simp)))]

/-- For every feasible assignment and every 0/1 variable of the equations that is not itself a key variable: the
variable is fixed at its value in the assignment (whatever the signs of the coefficients are). -/
theorem binary_values_are_forced (h : Setting m lt gf2s key bins) (m' : MState)
    (hr : solve m gf2s key bins = some (true, m')) (σ : ℕ → ℤ) (hf : Feasible m σ) (v : ℕ) (hv : v ∈ bins)
    (hk : ∀ c ∈ gf2s, key c ≠ v) : (m'.var v).fixed = true ∧ (m'.var v).value = σ v := by
  rcases outcomes h with e | ⟨A, b, var, hl, _, hA, hb, h2, hrk, hvar, e⟩
  · rw [e] at hr; simp at hr
  · rw [e] at hr
    simp only [Option.some.injEq, Prod.mk.injEq, true_and] at hr
    subst hr
    have hw : fixKeys m key var gf2s v = (m.var v).fixBy (σ v) := by
      rw [fixKeys_other m key gf2s var v hk, hvar v, if_pos hv, forced h A b hl hA hb h2 hrk σ
        (feasible_zeroOne h σ hf) (fun c hc => hf.2 c (h.enabled c hc).1 (h.enabled c hc).2) v hv]
    show (fixKeys m key var gf2s v).fixed = true ∧ (fixKeys m key var gf2s v).value = σ v
    rw [hw]; exact ⟨rfl, rfl⟩

theorem foldl_add (l : List ℕ) (f : ℕ → ℚ) (a : ℚ) : l.foldl (fun acc v => acc + f v) a = a + (l.map f).sum := by
  induction l generalizing a with
  | nil => simp
  | cons v l ih => rw [List.foldl_cons, ih, List.map_cons, List.sum_cons]; ring

theorem lin_units' (ts : List (ℕ × ℚ)) (σ : ℕ → ℤ) (h : ∀ t ∈ ts, t.2 = 1) :
    Expr.lin ts σ = ((ts.map Prod.fst).map (fun v => (σ v : ℚ))).sum := by
  induction ts with
  | nil => simp
  | cons t ts ih =>
    rw [Expr.lin_cons, ih (fun u hu => h u (by simp [hu])), h t (by simp)]
    simp

/-- A variable whose state is the original one, or fixed at its value in the assignment. -/
def Right (m : MState) (σ : ℕ → ℤ) (var : ℕ → Var) (v : ℕ) : Prop :=
  var v = m.var v ∨ ((var v).fixed = true ∧ (var v).value = σ v)

theorem fixKeys_right (h : Setting m lt gf2s key bins) (σ : ℕ → ℤ) (cs : List ℕ) (hcs : ∀ c ∈ cs, c ∈ gf2s)
    (hu : ∀ c ∈ cs, ∀ t ∈ (m.con c).expr.terms, t.1 ≠ key c → t.2 = 1)
    (hh : ∀ c ∈ gf2s, Holds (m.con c) σ) (var : ℕ → Var) (hr : ∀ v, Right m σ var v)
    (hbin : ∀ v ∈ bins, (var v).fixed = true ∧ (var v).value = σ v) (v : ℕ) : Right m σ (fixKeys m key var cs) v := by
  induction cs generalizing var with
  | nil => exact hr v
  | cons c cs ih =>
    have hc := hcs c (by simp)
    have hval : keyValue m key var c = σ (key c) := by
      obtain ⟨a, kk, f⟩ := h.facts c hc
      unfold keyValue
      dsimp only
      rw [Expr.lookup_of_mem _ (h.wf c hc) _ a f.key, foldl_add _ (fun v => ((var v).value : ℚ))]
      have e1 : (others m key c).map (fun v => ((var v).value : ℚ)) = (others m key c).map (fun v => (σ v : ℚ)) := by
        apply List.map_congr_left
        intro w hw
        rw [(hbin w (h.others_bins c hc w hw)).2]
      have hH := (holds_eq _ _ a kk _ f (h.wf c hc) σ).1 (hh c hc)
      rw [lin_units' _ _ (fun t ht => by
        obtain ⟨t1, t2⟩ := List.mem_filter.1 ht
        exact hu c (by simp) t t1 (by simpa using t2)), ← others_eq] at hH
      rw [e1, f.const]
      have hne : a ≠ 0 := by rcases f.two with e | e <;> rw [e] <;> norm_num
      have : -((kk : ℚ) + ((others m key c).map (fun v => (σ v : ℚ))).sum) / a = (σ (key c) : ℚ) := by
        rw [div_eq_iff hne]; linarith
      rw [this]
      unfold Expr.truncQ; split <;> simp
    refine ih (fun d hd => hcs d (by simp [hd])) (fun d hd => hu d (by simp [hd]))
      (Function.update var (key c) ((var (key c)).fixBy (keyValue m key var c))) ?_ ?_
    · intro w
      by_cases hw : w = key c
      · right; rw [hw, Function.update_self]; exact ⟨rfl, hval⟩
      · rcases hr w with e | e
        · left; rw [Function.update_of_ne hw]; exact e
        · right; rw [Function.update_of_ne hw]; exact e
    · intro w hwb
      by_cases hw : w = key c
      · rw [hw, Function.update_self]; exact ⟨rfl, hval⟩
      · rw [Function.update_of_ne hw]; exact hbin w hwb

/-- Solving the parity equations loses no solution.  Missing: equations with a negative coefficient of a 0/1 variable,
for which the claim is false (`negative_coefficient_loses_solutions`). -/
theorem no_solution_lost_partial (h : Setting m lt gf2s key bins)
    (hu : ∀ c ∈ gf2s, ∀ t ∈ (m.con c).expr.terms, t.1 ≠ key c → t.2 = 1) (m' : MState)
    (hr : solve m gf2s key bins = some (true, m')) (σ : ℕ → ℤ) (hf : Feasible m σ) : Feasible m' σ := by
  rcases outcomes h with e | ⟨A, b, var, hl, _, hA, hb, h2, hrk, hvar, e⟩
  · rw [e] at hr; simp at hr
  · rw [e] at hr
    simp only [Option.some.injEq, Prod.mk.injEq, true_and] at hr
    subst hr
    have hh : ∀ c ∈ gf2s, Holds (m.con c) σ := fun c hc => hf.2 c (h.enabled c hc).1 (h.enabled c hc).2
    have hbin : ∀ v ∈ bins, (var v).fixed = true ∧ (var v).value = σ v := by
      intro v hv
      rw [hvar v, if_pos hv, forced h A b hl hA hb h2 hrk σ (feasible_zeroOne h σ hf) hh v hv]
      exact ⟨rfl, rfl⟩
    refine ⟨fun v => ?_, hf.2⟩
    have := fixKeys_right h σ gf2s (fun c hc => hc) hu hh var (fun v => by
      by_cases hv : v ∈ bins
      · exact Or.inr (hbin v hv)
      · left; rw [hvar v, if_neg hv]) hbin v
    show Admits (fixKeys m key var gf2s v) (σ v)
    rcases this with e | e
    · rw [e]; exact hf.1 v
    · exact ⟨fun _ => e.2.symm, fun h => absurd (h.symm.trans e.1) (by simp)⟩

theorem key_in_bounds (c : Con) (k : ℕ) (a : ℚ) (kk : ℤ) (var : ℕ → Var) (hf : Facts var c k a kk)
    (hw : (c.expr.terms.map Prod.fst).Nodup) (hlen : c.expr.terms.length ≤ 1000000000) (σ : ℕ → ℤ)
    (hσ : ∀ t ∈ c.expr.terms, t.1 ≠ k → (σ t.1 = 0 ∨ σ t.1 = 1) ∧ (var t.1).lb ≤ σ t.1 ∧ σ t.1 ≤ (var t.1).ub)
    (hh : Holds c σ) : (var k).lb ≤ σ k ∧ σ k ≤ (var k).ub := by
  rw [holds_eq _ _ a kk _ hf hw] at hh
  have hmem : ∀ t ∈ c.expr.terms.filter (fun t => t.1 ≠ k), t ∈ c.expr.terms ∧ t.1 ≠ k := by
    intro t ht
    obtain ⟨h1, h2⟩ := List.mem_filter.1 ht
    exact ⟨h1, by simpa using h2⟩
  have hlr : (c.expr.terms.filter (fun t => t.1 ≠ k)).length ≤ c.expr.terms.length := List.length_filter_le _ _
  obtain ⟨n, n1, n2, _⟩ := lin_parity (c.expr.terms.filter (fun t => t.1 ≠ k)) σ
    (fun t ht => (hf.other t (hmem t ht).1 (hmem t ht).2).1) (fun t ht => (hσ t (hmem t ht).1 (hmem t ht).2).1)
  have hbounds : (c.expr.erase k).lowerBound (fun v => (var v).box) ≤ (kk : ℚ) + n ∧
      (kk : ℚ) + n ≤ (c.expr.erase k).upperBound (fun v => (var v).box) := by
    have := Dependent.bounds_enclose_on (c.expr.erase k) var σ (by
      intro v hv
      obtain ⟨t, ht, rfl⟩ := List.mem_map.1 hv
      obtain ⟨h1, h2⟩ := hmem t ht
      refine ⟨fun h => ?_, fun _ => (hσ t h1 h2).2⟩
      rw [hf.unfixed t h1] at h; exact absurd h (by simp))
    have hv : exprValue (c.expr.erase k) σ = (kk : ℚ) + n := by
      rw [exprValue_eq, Expr.evaluate_eq, ← n1, ← hf.const]; rfl
    rw [hv] at this
    exact this
  rw [n1] at hh
  have hlow := hf.low
  have hhigh := hf.high
  generalize (c.expr.erase k).lowerBound (fun v => (var v).box) = L at *
  generalize (c.expr.erase k).upperBound (fun v => (var v).box) = U at *
  have hlen' : ((c.expr.terms.filter (fun t => t.1 ≠ k)).length : ℤ) ≤ 1000000000 := by
    exact_mod_cast le_trans hlr hlen
  have n2' : |n| ≤ 1000000000 := le_trans n2 hlen'
  clear n2
  rw [abs_le] at n2'
  have hcs := hf.const_small
  have inb : (-1000000001 ≤ 2 * σ k ∧ 2 * σ k ≤ 1000000001) →
      ((if a > 0 then -U else L) ≤ 2 * (σ k : ℚ) ∧ 2 * (σ k : ℚ) ≤ (if a > 0 then -L else U)) →
      (var k).lb ≤ σ k ∧ σ k ≤ (var k).ub := by
    intro hz hr
    constructor
    · by_cases hl : (var k).lb = INT_HALF_MIN
      · rw [hl]; unfold INT_HALF_MIN; omega
      · refine le_trans (hlow hl) (Int.ceil_le.2 ?_)
        linarith [hr.1]
    · by_cases hl : (var k).ub = INT_HALF_MAX
      · rw [hl]; unfold INT_HALF_MAX; omega
      · refine le_trans (Int.le_floor.2 ?_) (hhigh hl)
        linarith [hr.2]
  rcases hf.two with e | e
  · rw [e] at hh
    have hz : 2 * σ k + (kk + n) = 0 := by exact_mod_cast hh
    apply inb
    · omega
    · rw [if_pos (by rw [e]; norm_num), if_pos (by rw [e]; norm_num)]
      constructor <;> linarith [hbounds.1, hbounds.2]
  · rw [e] at hh
    have hz : -2 * σ k + (kk + n) = 0 := by exact_mod_cast hh
    apply inb
    · omega
    · rw [if_neg (by rw [e]; norm_num), if_neg (by rw [e]; norm_num)]
      constructor <;> linarith [hbounds.1, hbounds.2]

/-- A key variable is fixed at some value, all others stay as they are. -/
theorem solved_fixes (h : Setting m lt gf2s key bins) (m' : MState) (hr : solve m gf2s key bins = some (true, m')) :
    m'.con = m.con ∧ m'.conIds = m.conIds ∧
    (∀ v, v ∉ bins → (∀ c ∈ gf2s, key c ≠ v) → m'.var v = m.var v) ∧
    ∀ v ∈ bins, (∀ c ∈ gf2s, key c ≠ v) → (m'.var v).fixed = true ∧ ((m'.var v).value = 0 ∨ (m'.var v).value = 1) := by
  rcases outcomes h with e | ⟨A, b, var, hl, _, hA, hb, h2, hrk, hvar, e⟩
  · rw [e] at hr; simp at hr
  · rw [e] at hr
    simp only [Option.some.injEq, Prod.mk.injEq, true_and] at hr
    subst hr
    refine ⟨rfl, rfl, fun v hv hk => ?_, fun v hv hk => ?_⟩
    · show fixKeys m key var gf2s v = _
      rw [fixKeys_other m key gf2s var v hk, hvar v, if_neg hv]
    · show (fixKeys m key var gf2s v).fixed = true ∧ ((fixKeys m key var gf2s v).value = 0 ∨ (fixKeys m key var gf2s v).value = 1)
      rw [fixKeys_other m key gf2s var v hk, hvar v, if_pos hv]
      refine ⟨rfl, ?_⟩
      show ((dotVec _ _ _ _ : ℕ) : ℤ) = 0 ∨ ((dotVec _ _ _ _ : ℕ) : ℤ) = 1
      have : dotVec gf2s.length (inverseAndRank gf2s.length A).1 b (bins.idxOf v) < 2 := Nat.mod_lt _ (by decide)
      omega

/-- Solving the parity equations invents no solution.  Missing: 0/1 variables with the bounds [0,0] or [1,1] that are not
fixed (`bounds_are_ignored`), and variables that are the key variable of one equation and a 0/1 variable of another. -/
theorem no_solution_gained_partial (h : Setting m lt gf2s key bins) (hb : ∀ v ∈ bins, (m.var v).lb = 0 ∧ (m.var v).ub = 1)
    (hd : ∀ c ∈ gf2s, key c ∉ bins) (hlen : ∀ c ∈ gf2s, (m.con c).expr.terms.length ≤ 1000000000) (m' : MState)
    (hr : solve m gf2s key bins = some (true, m')) (σ : ℕ → ℤ) (hf : Feasible m' σ) : Feasible m σ := by
  obtain ⟨e1, e2, e3, e4⟩ := solved_fixes h m' hr
  obtain ⟨f1, f2⟩ := hf
  rw [e1, e2] at f2
  have hz : ∀ v ∈ bins, σ v = 0 ∨ σ v = 1 := by
    intro v hv
    obtain ⟨g1, g2⟩ := e4 v hv (fun c hc e => hd c hc (e ▸ hv))
    rw [(f1 v).1 g1]; exact g2
  refine ⟨fun v => ?_, f2⟩
  by_cases hv : v ∈ bins
  · obtain ⟨c, hc, hm, hne⟩ := (h.complete v).1 hv
    obtain ⟨a, kk, f⟩ := h.facts c hc
    obtain ⟨t, ht, rfl⟩ := List.mem_map.1 hm
    refine ⟨fun hx => absurd ((f.unfixed t ht).symm.trans hx) (by simp), fun _ => ?_⟩
    rw [(hb _ hv).1, (hb _ hv).2]
    rcases hz _ hv with e | e <;> omega
  · by_cases hk : ∃ c ∈ gf2s, key c = v
    · obtain ⟨c, hc, rfl⟩ := hk
      obtain ⟨a, kk, f⟩ := h.facts c hc
      refine ⟨fun hx => absurd ((f.unfixed _ f.key).symm.trans hx) (by simp), fun _ => ?_⟩
      refine key_in_bounds _ _ a kk _ f (h.wf c hc) (hlen c hc) σ (fun t ht hne => ?_)
        (f2 c (h.enabled c hc).1 (h.enabled c hc).2)
      have hb' := (h.complete t.1).2 ⟨c, hc, List.mem_map.2 ⟨t, ht, rfl⟩, hne⟩
      refine ⟨hz _ hb', ?_⟩
      rw [(hb _ hb').1, (hb _ hb').2]
      rcases hz _ hb' with e | e <;> omega
    · rw [← e3 v hv (fun c hc e => hk ⟨c, hc, e⟩)]; exact f1 v

theorem keys_eq (h : Setting m lt gf2s key bins) (c : ℕ) (hc : c ∈ gf2s) : keys m key c = [key c] := by
  obtain ⟨a, kk, f⟩ := h.facts c hc
  have hm : key c ∈ (m.con c).expr.terms.map Prod.fst := List.mem_map.2 ⟨_, f.key, rfl⟩
  unfold keys
  have h1 : ((m.con c).expr.terms.map Prod.fst).filter (fun v => decide (v = key c)) =
      ((m.con c).expr.terms.map Prod.fst).filter (fun v => v == key c) := by
    apply List.filter_congr; intro v _; rw [Bool.eq_iff_iff]; simp
  rw [h1, List.filter_beq, List.count_eq_one_of_mem (h.wf c hc) hm]
  rfl

theorem keySet_length (h : Setting m lt gf2s key bins) :
    (keySet m gf2s key).length = gf2s.length ↔ ∀ c ∈ gf2s, ∀ d ∈ gf2s, key c = key d → c = d := by
  have h1 : gf2s.flatMap (keys m key) = gf2s.map key := by
    rw [← List.flatMap_singleton' (gf2s.map key), List.flatMap_map]
    exact List.flatMap_congr fun c hc => keys_eq h c hc
  unfold keySet
  rw [h1]
  constructor
  · intro he
    have h2 : (gf2s.map key).dedup = gf2s.map key :=
      (List.dedup_sublist _).eq_of_length (by rw [he, List.length_map])
    have h3 : (gf2s.map key).Nodup := List.dedup_eq_self.1 h2
    exact List.inj_on_of_nodup_map h3
  · intro hi
    have h3 : (gf2s.map key).Nodup := h.nodup.map_on hi
    rw [List.dedup_eq_self.2 h3, List.length_map]

/-- When the solver succeeds: there are as many 0/1 variables and key variables as equations, and no 0/1 variables other
than none at all can be flipped together without changing the parity of some equation. -/
theorem solved_iff (h : Setting m lt gf2s key bins) :
    (∃ m', solve m gf2s key bins = some (true, m')) ↔
      bins.length = gf2s.length ∧ (∀ c ∈ gf2s, ∀ d ∈ gf2s, key c = key d → c = d) ∧
      ∀ x : ℕ → ℕ, (∀ v ∈ bins, x v < 2) → (∀ c ∈ gf2s, ((others m key c).map x).sum % 2 = 0) → ∀ v ∈ bins, x v = 0 := by
  obtain ⟨A, b, h1, h2, h3, h4⟩ := matrix h
  have hget : ∀ v ∈ bins, bins.getD (bins.idxOf v) 0 = v := by
    intro v hv
    rw [List.getD_eq_getElem?_getD, List.getElem?_eq_getElem (List.idxOf_lt_length_of_mem hv)]
    simp
  constructor
  · rintro ⟨m', hr⟩
    rcases outcomes h with e | ⟨A, b, var, hl, hk, hA, hb, h2, hrk, hvar, e⟩
    · rw [e] at hr; simp at hr
    · refine ⟨hl, (keySet_length h).1 hk, fun x hx hp v hv => ?_⟩
      have hlt : bins.idxOf v < gf2s.length := by rw [← hl]; exact List.idxOf_lt_length_of_mem hv
      have := unique_solution gf2s.length A (fun i _ j _ => h2 i j) hrk (fun _ => 0) (fun k => x (bins.getD k 0))
        (fun j hj => by
          have hj' : j < bins.length := by omega
          have hmem : bins.getD j 0 ∈ bins := by
            rw [List.getD_eq_getElem?_getD, List.getElem?_eq_getElem hj']; exact List.getElem_mem _
          exact hx _ hmem)
        (fun i hi => by
          have hmem : gf2s[i] ∈ gf2s := List.getElem_mem _
          have hidx : gf2s.idxOf gf2s[i] = i := h.nodup.idxOf_getElem i hi
          have e1 := matrix_row h A hA gf2s[i] hmem (fun k => x (bins.getD k 0))
          rw [hidx, hl] at e1
          have e2 : (others m key gf2s[i]).map (fun v => x (bins.getD (bins.idxOf v) 0)) = (others m key gf2s[i]).map x := by
            apply List.map_congr_left
            intro w hw
            rw [hget w (h.others_bins _ hmem w hw)]
          rw [e1, e2, hp _ hmem])
        (bins.idxOf v) hlt
      rw [hget v hv] at this
      rw [this, C18.dotVec_eq]
      simp
  · rintro ⟨hl, hk, hx⟩
    rcases outcomes h with e | ⟨_, _, _, _, _, _, _, _, _, _, e⟩
    swap
    · exact ⟨_, e⟩
    exfalso
    unfold solve at e
    dsimp only at e
    rw [if_neg (not_not.2 hl), if_neg (not_not.2 ((keySet_length h).2 hk)), h1] at e
    have hrk : (inverseAndRank gf2s.length A).2 ≠ gf2s.length := by
      intro hr
      have e' : (if (inverseAndRank gf2s.length A).2 ≠ gf2s.length then some (false, m) else
            (fixBinaries (BiMap.number {} 0 bins) (dotVec gf2s.length (inverseAndRank gf2s.length A).1 b)
              (List.range gf2s.length) m.var).map fun var => (true, { m with var := fixKeys m key var gf2s })) = some (false, m) := e
      rw [if_neg (not_not.2 hr)] at e'
      obtain ⟨x, _, hx⟩ := Option.map_eq_some_iff.1 e'
      simp at hx
    have hlt := lt_of_le_of_ne (C19.rank_le_size gf2s.length A (fun i _ j _ => h4 i j)) hrk
    obtain ⟨v, ⟨j, hj, hvj⟩, hv⟩ := C19.deficient_rank_has_kernel gf2s.length A (fun i _ j _ => h4 i j) hlt
    have hj' : j < bins.length := by omega
    have := hx (fun w => v (bins.idxOf w) % 2) (fun w _ => Nat.mod_lt _ (by decide)) (fun c hc => by
      have e1 := matrix_row h A h2 c hc v
      rw [hl] at e1
      have e2 := hv (gf2s.idxOf c) (List.idxOf_lt_length_of_mem hc)
      rw [e1] at e2
      rw [← e2]
      generalize others m key c = l
      induction l with
      | nil => rfl
      | cons w l ih => rw [List.map_cons, List.map_cons, List.sum_cons, List.sum_cons]; omega)
      bins[j] (List.getElem_mem _)
    simp only [h.order.idxOf_getElem j hj', hvj] at this
    omega

/-! Concrete equations: `x0 ± x1 + 2 y3 = 0`, `x1 + x2 + 2 y4 = 1`, `x0 + x1 + x2 + 2 y5 = 0`. -/

/-- integer variable in [-10,10] -/
def int10 : Var := { Var.init with lb := -10, ub := 10, hasBounds := true }

/-- The three equations; `s` is the coefficient of `x1` in the first one, `x1` is the second variable. -/
def sample (s : ℚ) (x1 : Var) : MState :=
  let senses : ℕ → VarSense := fun v => if v < 3 then .binary else .integer
  { Example.raw with
    var := fun v => if v = 1 then x1 else if v < 3 then Example.bin0 else int10
    varIds := [0, 1, 2, 3, 4, 5]
    con := fun c =>
      if c = 0 then Con.setup ⟨[(0, 1), (1, s), (3, 2)], 0, 0⟩ .equal senses
      else if c = 1 then Con.setup ⟨[(1, 1), (2, 1), (4, 2)], -1, 0⟩ .equal senses
      else Con.setup ⟨[(0, 1), (1, 1), (2, 1), (5, 2)], 0, 0⟩ .equal senses
    conIds := [0, 1, 2] }

/-- The key variables. -/
def sampleKey (c : ℕ) : ℕ := c + 3

/-- The order of names. -/
def sampleLt (x y : ℕ) : Bool := decide (x < y)

theorem sample_setting (s : ℚ) (x1 : Var) (hs : s = 1 ∨ s = -1) (hx : x1 = Example.bin0 ∨ x1 = { Example.bin0 with ub := 0 }) :
    Setting (sample s x1) sampleLt [0, 1, 2] sampleKey [2, 0, 1] where
  nodup := by decide
  enabled := by
    rcases hs with rfl | rfl <;> rcases hx with rfl | rfl <;> decide +kernel
  wf := by
    rcases hs with rfl | rfl <;> rcases hx with rfl | rfl <;> decide +kernel
  typed := by
    rcases hs with rfl | rfl <;> rcases hx with rfl | rfl <;> decide +kernel
  order := by decide
  complete v := by
    simp only [List.mem_cons, List.not_mem_nil, or_false, exists_eq_or_imp, exists_eq_left]
    simp only [sample, Con.setup, if_pos, sampleKey]
    simp
    omega
  zeroOne v := by
    unfold sample
    dsimp only
    intro _
    split
    · rcases hx with rfl | rfl <;> decide
    · split
      · decide
      · rename_i h _ _ ; simp_all [int10, Var.init]

/-- The theorems apply: with positive signs the equations are solved. -/
theorem sample_solved (s : ℚ) (x1 : Var) (hs : s = 1 ∨ s = -1) (hx : x1 = Example.bin0 ∨ x1 = { Example.bin0 with ub := 0 }) :
    ∃ m', solve (sample s x1) [0, 1, 2] sampleKey [2, 0, 1] = some (true, m') ∧
      (m'.var 0).value = 1 ∧ (m'.var 1).value = 1 ∧ (m'.var 2).value = 0 ∧
      (m'.var 3).value = -1 ∧ (m'.var 4).value = 0 ∧ (m'.var 5).value = -1 ∧ ∀ v < 6, (m'.var v).fixed = true := by
  have : (solve (sample s x1) [0, 1, 2] sampleKey [2, 0, 1]).map (fun r => (r.1, (List.range 6).map (fun v => ((r.2.var v).value, (r.2.var v).fixed)))) =
      some (true, [(1, true), (1, true), (0, true), (-1, true), (0, true), (-1, true)]) := by
    rcases hs with rfl | rfl <;> rcases hx with rfl | rfl <;> decide +kernel
  obtain ⟨r, h1, h2⟩ := Option.map_eq_some_iff.1 this
  simp only [List.range, List.range.loop, List.map_cons, List.map_nil, Prod.mk.injEq, List.cons.injEq] at h2
  obtain ⟨h3, ⟨h4, h4'⟩, ⟨h5, h5'⟩, ⟨h6, h6'⟩, ⟨h7, h7'⟩, ⟨h8, h8'⟩, ⟨h9, h9'⟩, _⟩ := h2
  refine ⟨r.2, by rw [h1, ← h3], h4, h5, h6, h7, h8, h9, fun v hv => ?_⟩
  interval_cases v <;> assumption

/-- The hypotheses of `no_solution_lost_partial` and `no_solution_gained_partial` are met by the example. -/
example : ∃ m', solve (sample 1 Example.bin0) [0, 1, 2] sampleKey [2, 0, 1] = some (true, m') ∧
    (∀ σ, Feasible (sample 1 Example.bin0) σ ↔ Feasible m' σ) := by
  obtain ⟨m', hr, _⟩ := sample_solved 1 Example.bin0 (Or.inl rfl) (Or.inl rfl)
  have hset := sample_setting 1 Example.bin0 (Or.inl rfl) (Or.inl rfl)
  exact ⟨m', hr, fun σ => ⟨no_solution_lost_partial hset (by decide +kernel) m' hr σ,
    no_solution_gained_partial hset (by decide +kernel) (by decide +kernel) (by decide +kernel) m' hr σ⟩⟩

/-- Signs are ignored: with `x0 - x1 + 2 y3 = 0` the solvable problem becomes unsolvable. -/
theorem negative_coefficient_loses_solutions : ∃ (m m' : MState) (gf2s bins : List ℕ) (key : ℕ → ℕ),
    Setting m sampleLt gf2s key bins ∧ solve m gf2s key bins = some (true, m') ∧
    (∃ σ, Feasible m σ) ∧ ∀ σ, ¬ Feasible m' σ := by
  obtain ⟨m', hr, v0, v1, v2, v3, v4, v5, hfx⟩ := sample_solved (-1) Example.bin0 (Or.inr rfl) (Or.inl rfl)
  have hset := sample_setting (-1) Example.bin0 (Or.inr rfl) (Or.inl rfl)
  refine ⟨_, m', _, _, _, hset, hr, ?_, ?_⟩
  · refine ⟨fun v => if v = 0 ∨ v = 1 then 1 else if v = 5 then -1 else 0, fun v => ?_, ?_⟩
    · refine ⟨fun hx => absurd hx ?_, fun _ => ?_⟩
      · unfold sample; dsimp only; repeat' split
        all_goals decide
      · unfold sample; dsimp only
        rcases Nat.lt_or_ge v 6 with h | h
        · interval_cases v <;> decide
        · have g1 : v ≠ 0 := by omega
          have g2 : v ≠ 1 := by omega
          have g3 : ¬ v < 3 := by omega
          have g4 : v ≠ 5 := by omega
          simp [g1, g2, g3, g4, int10]
    · intro c hc _
      rw [ConType.holds_iff]
      have : c = 0 ∨ c = 1 ∨ c = 2 := by simpa [sample] using hc
      rcases this with rfl | rfl | rfl
      all_goals
        simp only [sample, Con.setup]
        norm_num [Expr.lin]
  · intro σ hf
    obtain ⟨e1, e2, _, _⟩ := solved_fixes hset m' hr
    have hh := hf.2 0 (by rw [e2]; decide) (by rw [e1]; rfl)
    rw [e1, ConType.holds_iff] at hh
    have a0 := (hf.1 0).1 (hfx 0 (by decide))
    have a1 := (hf.1 1).1 (hfx 1 (by decide))
    have a3 := (hf.1 3).1 (hfx 3 (by decide))
    rw [v0] at a0; rw [v1] at a1; rw [v3] at a3
    have hh' : (0 : ℚ) + Expr.lin [(0, 1), (1, -1), (3, 2)] σ = 0 := hh
    simp only [Expr.lin_cons, Expr.lin_nil, a0, a1, a3] at hh'
    norm_num at hh'

/-- Bounds are ignored: a variable with the bounds [0,0] that is not fixed is fixed at 1, and an unsolvable problem becomes
solvable. -/
theorem bounds_are_ignored : ∃ (m m' : MState) (gf2s bins : List ℕ) (key : ℕ → ℕ),
    Setting m sampleLt gf2s key bins ∧ solve m gf2s key bins = some (true, m') ∧
    (∀ σ, ¬ Feasible m σ) ∧ ∃ σ, Feasible m' σ := by
  obtain ⟨m', hr, v0, v1, v2, v3, v4, v5, hfx⟩ := sample_solved 1 { Example.bin0 with ub := 0 } (Or.inl rfl) (Or.inr rfl)
  have hset := sample_setting 1 { Example.bin0 with ub := 0 } (Or.inl rfl) (Or.inr rfl)
  refine ⟨_, m', _, _, _, hset, hr, ?_, ?_⟩
  · intro σ hf
    have := (binary_values_are_forced hset m' hr σ hf 1 (by decide) (by decide)).2
    rw [v1] at this
    have h2 := ((hf.1 1).2 rfl).2
    rw [← this] at h2
    exact absurd h2 (by decide)
  · obtain ⟨e1, e2, e3, _⟩ := solved_fixes hset m' hr
    refine ⟨fun v => if v = 0 ∨ v = 1 then 1 else if v = 3 ∨ v = 5 then -1 else 0, fun v => ?_, ?_⟩
    · rcases Nat.lt_or_ge v 6 with h | h
      · refine ⟨fun _ => ?_, fun hx => absurd ((hfx v h).symm.trans hx) (by simp)⟩
        interval_cases v
        · exact v0.symm
        · exact v1.symm
        · exact v2.symm
        · exact v3.symm
        · exact v4.symm
        · exact v5.symm
      · rw [e3 v (by simp; omega) (by intro c hc; simp at hc; unfold sampleKey; omega)]
        unfold sample; dsimp only
        have g1 : v ≠ 0 := by omega
        have g2 : v ≠ 1 := by omega
        have g3 : ¬ v < 3 := by omega
        have g4 : v ≠ 3 := by omega
        have g5 : v ≠ 5 := by omega
        simp [g1, g2, g3, g4, g5, int10, Admits, Var.init]
    · rw [e1, e2]
      intro c hc _
      rw [ConType.holds_iff]
      have : c = 0 ∨ c = 1 ∨ c = 2 := by simpa [sample] using hc
      rcases this with rfl | rfl | rfl
      all_goals
        simp only [sample, Con.setup]
        norm_num [Expr.lin]

end Printemps.C63
