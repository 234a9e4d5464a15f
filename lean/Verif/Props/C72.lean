import Verif.Model.Proxy
import Verif.Spec.Proxy
import Verif.Spec.Score
import Verif.Lemmas.Expression
import Verif.Props.C02
import Verif.Props.C13
import Verif.Props.C67

/-! # C72 — sums, scalar products and selections over arrays mean what their indices say -/

namespace Printemps.C72
open MultiArray Proxy Spec

/-! ## Positions and indices -/

theorem range_mul (s P : ℕ) :
    List.range (s * P) = (List.range s).flatMap (fun i => (List.range P).map (fun k => i * P + k)) := by
  induction s with
  | zero => simp
  | succ s ih =>
    rw [Nat.succ_mul, List.range_add, ih, List.range_succ, List.flatMap_append]
    simp

theorem multi_cons (s : ℕ) (l : List ℕ) (hl : l ≠ []) (f : ℕ) :
    multiIndex (s :: l) f = f / l.prod :: multiIndex l (f % l.prod) := by
  unfold multiIndex; rw [C13.strides_cons s l hl, unflatten]

theorem map_multi (shape : List ℕ) (hne : shape ≠ []) :
    (List.range (numberOfElements shape)).map (multiIndex shape) = indices shape := by
  rw [C13.numberOfElements_eq]
  induction shape with
  | nil => exact absurd rfl hne
  | cons s l ih =>
    by_cases hl : l = []
    · subst hl
      simp only [indices, List.prod_cons, List.prod_nil, mul_one, List.map_cons, List.map_nil]
      induction List.range s with
      | nil => rfl
      | cons a r ih =>
        rw [List.map_cons, ih, List.flatMap_cons, multiIndex, C13.strides_single]
        simp [unflatten]
    · rw [List.prod_cons, range_mul, List.map_flatMap, indices]
      apply List.flatMap_congr
      intro i _
      rw [List.map_map, ← ih hl, List.map_map]
      apply List.map_congr_left
      intro k hk
      have hk' := List.mem_range.1 hk
      have hp : 0 < l.prod := by omega
      simp only [Function.comp]
      rw [multi_cons s l hl, Nat.mul_comm i, Nat.mul_add_div hp, Nat.div_eq_of_lt hk', Nat.mul_add_mod,
        Nat.mod_eq_of_lt hk', Nat.add_zero]

theorem mem_indices (shape idx : List ℕ) : idx ∈ indices shape ↔ C13.InRange shape idx := by
  induction shape generalizing idx with
  | nil => simp [indices, C13.InRange]
  | cons s l ih =>
    simp only [indices, List.mem_flatMap, List.mem_range, List.mem_map, C13.InRange]
    constructor
    · rintro ⟨i, hi, r, hr, rfl⟩
      exact .cons hi ((ih r).1 hr)
    · intro h
      cases h with
      | cons h1 h2 => exact ⟨_, h1, _, (ih _).2 h2, rfl⟩

theorem flatInt_cast (shape idx : List ℕ) :
    flatInt shape (idx.map (fun i : ℕ => (i : ℤ))) = (flatIndex shape idx : ℤ) := by
  unfold flatInt flatIndex
  generalize strides shape = st
  suffices h : ∀ (a : ℤ) (b : ℕ), a = b →
      (List.zipWith (fun (i : ℤ) (s : ℕ) => i * s) (idx.map (fun i : ℕ => (i : ℤ))) st).foldl (· + ·) a =
      (((List.zipWith (· * ·) idx st).foldl (· + ·) b : ℕ) : ℤ) from h 0 0 rfl
  induction idx generalizing st with
  | nil => intro a b h; simpa using h
  | cons i is ih =>
    intro a b h
    cases st with
    | nil => simpa using h
    | cons s st =>
      simp only [List.zipWith_cons_cons, List.foldl_cons]
      exact ih st _ _ (by rw [h]; push_cast; ring)

theorem position_ok (shape idx : List ℕ) (hne : shape ≠ []) (h : C13.InRange shape idx) :
    position shape (idx.map (fun i : ℕ => (i : ℤ))) = .ok (flatIndex shape idx) := by
  have hl : shape.length = idx.length := (List.Forall₂.length_eq h).symm
  have hr := C13.flat_index_in_range shape idx hne h
  unfold position
  rw [if_neg (by simpa using hl), flatInt_cast, if_pos ⟨by omega, by exact_mod_cast hr⟩, Int.toNat_natCast]

/-! ## Slices -/

theorem covered_eq (pattern : List ℤ) (idx : List ℕ) (h : pattern.length = idx.length) :
    covered pattern idx = some (decide (InSlice pattern idx)) := by
  induction pattern generalizing idx with
  | nil =>
    have : idx = [] := by simpa using h.symm
    subst this; simp [covered, InSlice]
  | cons p ps ih =>
    cases idx with
    | nil => simp at h
    | cons i is =>
      have hl : ps.length = is.length := by simpa using h
      have e : decide (InSlice (p :: ps) (i :: is)) =
          (decide (p = -1 ∨ p = (i : ℤ)) && decide (InSlice ps is)) := by
        have h' : InSlice (p :: ps) (i :: is) ↔ (p = -1 ∨ p = (i : ℤ)) ∧ InSlice ps is := by
          unfold InSlice; exact List.forall₂_cons
        rw [decide_eq_decide.2 h', Bool.decide_and]
      rw [covered, e]
      by_cases hp : p = ALL
      · rw [if_pos hp, List.tail_cons, ih is hl]
        have : p = -1 := hp
        simp [this]
      · rw [if_neg hp]
        have hp' : p ≠ -1 := hp
        by_cases hi : (i : ℤ) ≠ p
        · simp only [if_pos hi]
          have hq : ¬ (p = -1 ∨ p = (i : ℤ)) := by rintro (h | h); exacts [hp' h, hi h.symm]
          rw [decide_eq_false hq, Bool.false_and]
        · simp only [if_neg hi]
          rw [ih is hl]
          push Not at hi
          simp [hi]

theorem coveredOf_eq (tag : ℕ → List ℕ) (pattern : List ℤ) (l : List ℕ)
    (h : ∀ i ∈ l, pattern.length = (tag i).length) :
    coveredOf tag pattern l = .ok (l.filter (fun i => InSlice pattern (tag i))) := by
  induction l with
  | nil => rfl
  | cons i l ih =>
    rw [coveredOf, covered_eq pattern _ (h i (by simp)), ih (fun j hj => h j (by simp [hj]))]
    simp only [Outcome.bind, List.filter_cons]

theorem multi_length (shape : List ℕ) (hne : shape ≠ []) (i : ℕ) (hi : i < numberOfElements shape) :
    (multiIndex shape i).length = shape.length := by
  rw [C13.numberOfElements_eq] at hi
  exact List.Forall₂.length_eq (C13.core' shape hne i hi).1

/-- The positions found are those of the slice. -/
theorem coveredOf_setup (shape : List ℕ) (hne : shape ≠ []) (pattern : List ℤ)
    (hp : shape.length = pattern.length) (tag : ℕ → List ℕ)
    (htag : ∀ i < numberOfElements shape, tag i = multiIndex shape i) :
    ∃ ps, coveredOf tag pattern (List.range (numberOfElements shape)) = .ok ps ∧ ps.Nodup ∧
      (∀ i ∈ ps, i < numberOfElements shape) ∧ ps.map (multiIndex shape) = slice shape pattern := by
  have hm : ∀ i ∈ List.range (numberOfElements shape), i < numberOfElements shape := fun i => List.mem_range.1
  refine ⟨_, coveredOf_eq tag pattern _ (fun i hi => ?_), List.nodup_range.filter _, fun i hi => ?_, ?_⟩
  · rw [htag i (hm i hi), multi_length shape hne i (hm i hi), hp]
  · exact hm i (List.mem_filter.1 hi).1
  · rw [slice, ← map_multi shape hne, List.filter_map]
    congr 1
    apply List.filter_congr
    intro i hi
    simp only [Function.comp, htag i (hm i hi)]

/-! ## The value of the built expressions -/

theorem put_append (l : List (VarId × ℚ)) (v : VarId) (c : ℚ) (h : v ∉ l.map Prod.fst) :
    put l v c = l ++ [(v, c)] := by
  induction l with
  | nil => rfl
  | cons t l ih =>
    simp only [List.map_cons, List.mem_cons, not_or] at h
    obtain ⟨w, d⟩ := t
    rw [put, if_neg (fun e => h.1 e.symm), ih h.2, List.cons_append]

theorem foldl_put (l m : List (VarId × ℚ)) (h : ((m ++ l).map Prod.fst).Nodup) :
    l.foldl (fun m t => put m t.1 t.2) m = m ++ l := by
  induction l generalizing m with
  | nil => simp
  | cons t l ih =>
    rw [List.foldl_cons, put_append, ih]
    · simp
    · simpa using h
    · rw [List.map_append, List.nodup_append] at h
      intro hm
      exact h.2.2 _ hm _ (by simp) rfl

theorem linear_eq (l : List (VarId × ℚ)) (h : (l.map Prod.fst).Nodup) : linear l = Expr.create l 0 := by
  rw [linear, foldl_put l [] (by simpa using h)]; rfl

/-- What a user knows about the values: `val idx` is the value of the variable `x(idx)`. -/
def VarValues (x : VarArray) (σ : ℕ → ℤ) (val : List ℕ → ℤ) : Prop :=
  ∀ idx ∈ indices x.shape, ∃ v, x.at' (idx.map (fun i : ℕ => (i : ℤ))) = .ok v ∧ val idx = σ v

/-- The elements of an array are different objects. -/
def Distinct (x : VarArray) : Prop :=
  ∀ i < numberOfElements x.shape, ∀ j < numberOfElements x.shape, x.var i = x.var j → i = j

theorem val_multi (shape : List ℕ) (hne : shape ≠ []) (var : ℕ → VarId) (σ : ℕ → ℤ) (val : List ℕ → ℤ)
    (hv : VarValues (VarArray.setup shape var) σ val) (i : ℕ) (hi : i < numberOfElements shape) :
    val (multiIndex shape i) = σ (var i) := by
  have hi' := hi
  rw [C13.numberOfElements_eq] at hi'
  obtain ⟨h1, h2⟩ := C13.core' shape hne i hi'
  obtain ⟨v, e, e'⟩ := hv _ ((mem_indices _ _).2 h1)
  rw [VarArray.at', VarArray.setup] at e
  simp only [position_ok shape _ hne h1, Outcome.bind, h2] at e
  cases e; exact e'

theorem nodup_keys (x : VarArray) (hd : Distinct x) (ps : List ℕ) (hn : ps.Nodup)
    (hl : ∀ i ∈ ps, i < numberOfElements x.shape) : (ps.map x.var).Nodup := by
  refine List.Nodup.map_on ?_ hn
  intro i hi j hj e
  exact hd i (hl i hi) j (hl j hj) e

theorem zipWith_keys (var : ℕ → VarId) (ps : List ℕ) (cs : List ℚ) (h : ps.length = cs.length) :
    (List.zipWith (fun i c => (var i, c)) ps cs).map Prod.fst = ps.map var := by
  induction ps generalizing cs with
  | nil => simp
  | cons p ps ih =>
    cases cs with
    | nil => simp at h
    | cons c cs => simp [ih cs (by simpa using h)]

theorem zipWith_value (var : ℕ → VarId) (σ : ℕ → ℤ) (ps : List ℕ) (cs : List ℚ) :
    ((List.zipWith (fun i c => (var i, c)) ps cs).map (fun t => t.2 * (σ t.1 : ℚ))).sum =
      (List.zipWith (fun c (y : ℤ) => c * (y : ℚ)) cs (ps.map (fun i => σ (var i)))).sum := by
  induction ps generalizing cs with
  | nil => simp
  | cons p ps ih =>
    cases cs with
    | nil => simp
    | cons c cs =>
      rw [List.zipWith_cons_cons, List.map_cons, List.sum_cons, ih cs, List.map_cons, List.zipWith_cons_cons,
        List.sum_cons]

/-- **`x.sum({…})` is the sum over the slice.**  For every array of variables, every pattern with one entry per
dimension and all values: the expression exists, mentions no variable twice, and its value is the sum of the
values of `x(i, j, …)` over the indices in the slice. -/
theorem sum_over_slice (shape : List ℕ) (hne : shape ≠ []) (var : ℕ → VarId)
    (hd : Distinct (VarArray.setup shape var)) (pattern : List ℤ) (hp : pattern.length = shape.length) :
    ∃ e, (VarArray.setup shape var).sum pattern = .ok e ∧ e.WF ∧
      ∀ σ val, VarValues (VarArray.setup shape var) σ val →
        exprValue e σ = (((slice shape pattern).map val).sum : ℤ) := by
  obtain ⟨ps, h1, h2, h3, h4⟩ := coveredOf_setup shape hne pattern hp.symm (multiIndex shape) (fun _ _ => rfl)
  have hk : ((ps.map (fun i => (var i, (1 : ℚ)))).map Prod.fst).Nodup := by
    rw [List.map_map]; exact nodup_keys (VarArray.setup shape var) hd ps h2 h3
  refine ⟨linear (ps.map (fun i => (var i, 1))), ?_, ?_, ?_⟩
  · unfold VarArray.sum
    rw [if_neg (by simpa [VarArray.setup] using hp.symm)]
    simp only [VarArray.setup, h1, Outcome.bind]
  · rw [linear_eq _ hk]; exact hk
  · intro σ val hv
    rw [linear_eq _ hk, ← h4, List.map_map]
    have : ps.map (val ∘ multiIndex shape) = ps.map (fun i => σ (var i)) := by
      apply List.map_congr_left
      intro i hi
      exact val_multi shape hne var σ val hv i (h3 i hi)
    rw [this]
    simp only [exprValue, Expr.create, List.map_map, zero_add]
    clear this h4 h1 h2 h3 hk hv
    induction ps with
    | nil => simp
    | cons p ps ih => simp [ih]

/-- `x.sum()` is the sum over the whole array. -/
theorem sum_over_all (shape : List ℕ) (hne : shape ≠ []) (var : ℕ → VarId)
    (hd : Distinct (VarArray.setup shape var)) (σ : ℕ → ℤ) (val : List ℕ → ℤ)
    (hv : VarValues (VarArray.setup shape var) σ val) :
    (VarArray.setup shape var).sumAll.WF ∧
    exprValue (VarArray.setup shape var).sumAll σ = (((indices shape).map val).sum : ℤ) := by
  have hk : (((List.range (numberOfElements shape)).map (fun i => (var i, (1 : ℚ)))).map Prod.fst).Nodup := by
    rw [List.map_map]
    exact nodup_keys (VarArray.setup shape var) hd _ List.nodup_range (fun i => List.mem_range.1)
  unfold VarArray.sumAll
  simp only [VarArray.setup]
  rw [linear_eq _ hk]
  refine ⟨hk, ?_⟩
  rw [← map_multi shape hne, List.map_map]
  have : (List.range (numberOfElements shape)).map (val ∘ multiIndex shape) =
      (List.range (numberOfElements shape)).map (fun i => σ (var i)) := by
    apply List.map_congr_left
    intro i hi
    exact val_multi shape hne var σ val hv i (List.mem_range.1 hi)
  rw [this]
  simp only [exprValue, Expr.create, List.map_map, zero_add]
  generalize List.range (numberOfElements shape) = ps
  induction ps with
  | nil => simp
  | cons p ps ih => simp [ih]

/-- **`x.dot({…}, c)` is the scalar product with the slice, in order**, and it is refused exactly when the
number of entries is wrong, two or more entries are "all", or the number of coefficients is not the size of
the slice. -/
theorem dot_over_slice (shape : List ℕ) (hne : shape ≠ []) (var : ℕ → VarId)
    (hd : Distinct (VarArray.setup shape var)) (pattern : List ℤ) (coefs : List ℚ) :
    ((VarArray.setup shape var).dot pattern coefs = .thrown ↔
      pattern.length ≠ shape.length ∨ 2 ≤ (pattern.filter (fun p => p = -1)).length ∨
        (slice shape pattern).length ≠ coefs.length) ∧
    (VarArray.setup shape var).dot pattern coefs ≠ .undefined ∧
    ∀ e, (VarArray.setup shape var).dot pattern coefs = .ok e → e.WF ∧
      ∀ σ val, VarValues (VarArray.setup shape var) σ val →
        exprValue e σ =
          (List.zipWith (fun c (y : ℤ) => c * (y : ℚ)) coefs ((slice shape pattern).map val)).sum := by
  have hdef : (VarArray.setup shape var).dot pattern coefs =
      if shape.length ≠ pattern.length then .thrown
      else if countAll pattern ≥ 2 then .thrown
      else
        (coveredOf (multiIndex shape) pattern (List.range (numberOfElements shape))).bind
          (fun ps =>
            if ps.length ≠ coefs.length then .thrown
            else .ok (linear (List.zipWith (fun i c => (var i, c)) ps coefs))) := rfl
  rw [hdef]
  clear hdef
  by_cases hp : shape.length ≠ pattern.length
  · rw [if_pos hp]
    exact ⟨⟨fun _ => Or.inl (Ne.symm hp), fun _ => rfl⟩, by simp, by simp⟩
  rw [if_neg hp]
  push Not at hp
  have hc : countAll pattern = (pattern.filter (fun p => p = -1)).length := rfl
  rw [hc]
  by_cases h2 : (pattern.filter (fun p => p = -1)).length ≥ 2
  · rw [if_pos h2]
    exact ⟨⟨fun _ => Or.inr (Or.inl h2), fun _ => rfl⟩, by simp, by simp⟩
  rw [if_neg h2]
  obtain ⟨ps, g1, g2, g3, g4⟩ := coveredOf_setup shape hne pattern hp (multiIndex shape) (fun _ _ => rfl)
  rw [g1]
  have hlen : ps.length = (slice shape pattern).length := by rw [← g4, List.length_map]
  simp only [Outcome.bind]
  by_cases h3 : ps.length ≠ coefs.length
  · rw [if_pos h3]
    exact ⟨⟨fun _ => Or.inr (Or.inr (hlen ▸ h3)), fun _ => rfl⟩, by simp, by simp⟩
  rw [if_neg h3]
  push Not at h3
  refine ⟨⟨by simp, ?_⟩, by simp, ?_⟩
  · rintro (h | h | h)
    · exact absurd hp.symm h
    · exact absurd h h2
    · exact absurd (hlen ▸ h3) h
  · intro e he
    cases he
    have hk : ((List.zipWith (fun i c => (var i, c)) ps coefs).map Prod.fst).Nodup := by
      rw [zipWith_keys var ps coefs h3]; exact nodup_keys (VarArray.setup shape var) hd ps g2 g3
    rw [linear_eq _ hk]
    refine ⟨hk, fun σ val hv => ?_⟩
    simp only [exprValue, Expr.create, zero_add]
    rw [zipWith_value, ← g4, List.map_map]
    congr 2
    apply List.map_congr_left
    intro i hi
    exact (val_multi shape hne var σ val hv i (g3 i hi)).symm

/-! ## Lines: one free coordinate -/

theorem slice_cons (s : ℕ) (l : List ℕ) (p : ℤ) (ps : List ℤ) :
    slice (s :: l) (p :: ps) =
      (List.range s).flatMap
        (fun i : ℕ => if p = -1 ∨ p = (i : ℤ) then (slice l ps).map (fun r => i :: r) else []) := by
  rw [slice, indices, List.filter_flatMap]
  apply List.flatMap_congr
  intro i _
  rw [List.filter_map]
  by_cases h : p = -1 ∨ p = (i : ℤ)
  · rw [if_pos h, slice]
    congr 1
    apply List.filter_congr
    intro r _
    simp only [Function.comp, decide_eq_decide]
    unfold InSlice
    rw [List.forall₂_cons]; exact and_iff_right h
  · rw [if_neg h]
    have : List.filter ((fun idx => decide (InSlice (p :: ps) idx)) ∘ fun r => i :: r) (indices l) = [] := by
      rw [List.filter_eq_nil_iff]
      intro r _ hr
      simp only [Function.comp, decide_eq_true_eq] at hr
      unfold InSlice at hr
      rw [List.forall₂_cons] at hr
      exact h hr.1
    rw [this]; rfl

theorem flatMap_range_single {α : Type} (s a : ℕ) (h : a < s) (g : List α) (f : ℕ → List α)
    (ha : f a = g) (hf : ∀ i, i ≠ a → f i = []) : (List.range s).flatMap f = g := by
  have e : List.range s = List.range a ++ a :: (List.range (s - a - 1)).map (fun k => a + 1 + k) := by
    have : s = a + 1 + (s - a - 1) := by omega
    conv_lhs => rw [this, List.range_add, List.range_succ]
    simp
  rw [e, List.flatMap_append, List.flatMap_cons, ha]
  have e1 : (List.range a).flatMap f = [] := by
    rw [List.flatMap_eq_nil_iff]; intro i hi; exact hf i (by have := List.mem_range.1 hi; omega)
  have e2 : ((List.range (s - a - 1)).map (fun k => a + 1 + k)).flatMap f = [] := by
    rw [List.flatMap_eq_nil_iff]; intro i hi
    obtain ⟨k, _, rfl⟩ := List.mem_map.1 hi
    exact hf _ (by omega)
  rw [e1, e2]; simp

theorem slice_fixed (s : ℕ) (l : List ℕ) (a : ℕ) (h : a < s) (ps : List ℤ) :
    slice (s :: l) ((a : ℤ) :: ps) = (slice l ps).map (fun r => a :: r) := by
  rw [slice_cons]
  apply flatMap_range_single s a h
  · rw [if_pos (Or.inr rfl)]
  · intro i hi
    rw [if_neg]
    rintro (h | h)
    · omega
    · exact hi (by exact_mod_cast h.symm)

theorem slice_point (l b : List ℕ) (h : C13.InRange l b) : slice l (b.map (fun i : ℕ => (i : ℤ))) = [b] := by
  induction h with
  | nil => simp [slice, indices, InSlice]
  | cons h1 _ ih => rw [List.map_cons, slice_fixed _ _ _ h1, ih]; rfl

/-- The slice with exactly one free coordinate is the line through the fixed ones, in order. -/
theorem slice_line (la lb a b : List ℕ) (s : ℕ) (ha : C13.InRange la a) (hb : C13.InRange lb b) :
    slice (la ++ s :: lb) (a.map (fun i : ℕ => (i : ℤ)) ++ -1 :: b.map (fun i : ℕ => (i : ℤ))) =
      (List.range s).map (fun k => a ++ k :: b) := by
  induction ha with
  | nil =>
    simp only [List.nil_append, List.map_nil]
    rw [slice_cons]
    simp only [true_or, if_true, slice_point lb b hb, List.map_cons, List.map_nil]
    induction List.range s with
    | nil => rfl
    | cons x r ih => rw [List.flatMap_cons, ih]; rfl
  | cons h1 _ ih =>
    rw [List.cons_append, List.map_cons, List.cons_append, slice_fixed _ _ _ h1, ih, List.map_map]
    rfl

/-- **Scalar product along a line**: `x.dot({a…, All, b…}, c)` with as many coefficients as the free
coordinate has values equals `Σ_k c_k · x(a…, k, b…)`. -/
theorem dot_along_line (la lb a b : List ℕ) (s : ℕ) (ha : C13.InRange la a) (hb : C13.InRange lb b)
    (var : ℕ → VarId) (hd : Distinct (VarArray.setup (la ++ s :: lb) var)) (coefs : List ℚ)
    (hc : coefs.length = s) :
    ∃ e, (VarArray.setup (la ++ s :: lb) var).dot
        (a.map (fun i : ℕ => (i : ℤ)) ++ -1 :: b.map (fun i : ℕ => (i : ℤ))) coefs = .ok e ∧
      ∀ σ val, VarValues (VarArray.setup (la ++ s :: lb) var) σ val →
        exprValue e σ =
          ((List.range s).map (fun k => coefs.getD k 0 * (val (a ++ k :: b) : ℚ))).sum := by
  have hne : la ++ s :: lb ≠ [] := by simp
  obtain ⟨h1, h2, h3⟩ := dot_over_slice (la ++ s :: lb) hne var hd
    (a.map (fun i : ℕ => (i : ℤ)) ++ -1 :: b.map (fun i : ℕ => (i : ℤ))) coefs
  have hfil : ∀ l : List ℕ, (l.map (fun i : ℕ => (i : ℤ))).filter (fun p => p = -1) = [] := by
    intro l
    rw [List.filter_eq_nil_iff]
    intro x hx
    obtain ⟨n, _, rfl⟩ := List.mem_map.1 hx
    simp
  have hnt : (VarArray.setup (la ++ s :: lb) var).dot
        (a.map (fun i : ℕ => (i : ℤ)) ++ -1 :: b.map (fun i : ℕ => (i : ℤ))) coefs ≠ .thrown := by
    rw [Ne, h1, slice_line la lb a b s ha hb]
    have l1 := List.Forall₂.length_eq ha
    have l2 := List.Forall₂.length_eq hb
    rw [List.filter_append, List.filter_cons, hfil a, hfil b]
    simp [l1, l2, hc]
  cases ho : (VarArray.setup (la ++ s :: lb) var).dot
        (a.map (fun i : ℕ => (i : ℤ)) ++ -1 :: b.map (fun i : ℕ => (i : ℤ))) coefs with
  | thrown => exact absurd ho hnt
  | undefined => exact absurd ho h2
  | ok e =>
    refine ⟨e, rfl, fun σ val hv => ?_⟩
    rw [(h3 e ho).2 σ val hv, slice_line la lb a b s ha hb, List.map_map]
    subst hc
    clear hd h1 h2 h3 hnt ho hv hne
    have key : ∀ (cs : List ℚ) (f : ℕ → ℤ) , (List.zipWith (fun c (y : ℤ) => c * (y : ℚ)) cs
        ((List.range cs.length).map f)).sum = ((List.range cs.length).map (fun k => cs.getD k 0 * (f k : ℚ))).sum := by
      intro cs
      induction cs with
      | nil => simp
      | cons c cs ih =>
        intro f
        rw [List.length_cons, List.range_succ_eq_map, List.map_cons, List.map_map, List.zipWith_cons_cons,
          List.sum_cons, ih, List.map_cons, List.map_map, List.sum_cons]
        simp [Function.comp_def]
    exact key coefs _

/-- `x.sum({…})` is refused exactly when the number of entries is wrong, and never reads anything it should
not. -/
theorem sum_refused_iff (shape : List ℕ) (hne : shape ≠ []) (var : ℕ → VarId) (pattern : List ℤ) :
    ((VarArray.setup shape var).sum pattern = .thrown ↔ pattern.length ≠ shape.length) ∧
    (VarArray.setup shape var).sum pattern ≠ .undefined := by
  have hdef : (VarArray.setup shape var).sum pattern =
      if shape.length ≠ pattern.length then .thrown
      else
        (coveredOf (multiIndex shape) pattern (List.range (numberOfElements shape))).bind
          (fun ps => .ok (linear (ps.map (fun i => (var i, 1))))) := rfl
  rw [hdef]
  clear hdef
  by_cases hp : shape.length ≠ pattern.length
  · rw [if_pos hp]; exact ⟨⟨fun _ => Ne.symm hp, fun _ => rfl⟩, by simp⟩
  · rw [if_neg hp]
    push Not at hp
    obtain ⟨ps, g1, -⟩ := coveredOf_setup shape hne pattern hp (multiIndex shape) (fun _ _ => rfl)
    rw [g1]
    simp [Outcome.bind, hp]

/-! ## Selection constraints -/

/-- **`x.selection({…})` says "exactly one"**: for 0/1 values the constraint is satisfied exactly when one
variable of the slice is 1 and all others of the slice are 0. -/
theorem selection_is_exactly_one (shape : List ℕ) (hne : shape ≠ []) (var : ℕ → VarId)
    (hd : Distinct (VarArray.setup shape var)) (pattern : List ℤ) (hp : pattern.length = shape.length)
    (so : ℕ → VarSense) :
    ∃ c, (VarArray.setup shape var).selection pattern so = .ok c ∧
      ∀ σ val, VarValues (VarArray.setup shape var) σ val →
        (∀ idx ∈ slice shape pattern, val idx = 0 ∨ val idx = 1) →
        ((c.update σ).violation = 0 ↔
          ∃ idx ∈ slice shape pattern, val idx = 1 ∧ ∀ j ∈ slice shape pattern, j ≠ idx → val j = 0) := by
  obtain ⟨e, h1, -, h3⟩ := sum_over_slice shape hne var hd pattern hp
  obtain ⟨ps, g1, g2, g3, g4⟩ := coveredOf_setup shape hne pattern hp.symm (multiIndex shape) (fun _ _ => rfl)
  refine ⟨_, by rw [VarArray.selection, h1]; rfl, ?_⟩
  intro σ val hv h01
  have hz := (C02.violation_zero_iff .eq (.expr e) (.num 1) so _ rfl σ).1
  refine Iff.trans hz ?_
  simp only [Cmp.holds, C02.sideValue]
  have he : e.evaluate σ = exprValue e σ := by
    rw [Expr.evaluate_eq, exprValue]; rfl
  rw [he, h3 σ val hv, ← g4, List.map_map]
  have hinj : ∀ i ∈ ps, ∀ j ∈ ps, multiIndex shape i = multiIndex shape j → i = j := by
    intro i hi j hj hij
    have a := g3 i hi
    have b := g3 j hj
    rw [C13.numberOfElements_eq] at a b
    rw [← (C13.core' shape hne i a).2, ← (C13.core' shape hne j b).2, hij]
  have := C67.sum_one_iff (val ∘ multiIndex shape) ps g2
    (fun i hi => h01 _ (by rw [← g4]; exact List.mem_map_of_mem hi))
  have c1 : ((((ps.map (val ∘ multiIndex shape)).sum : ℤ) : ℚ) = 1) ↔
      (ps.map (val ∘ multiIndex shape)).sum = 1 := by norm_cast
  rw [c1, this]
  constructor
  · rintro ⟨i, hi, e1, e2⟩
    refine ⟨_, List.mem_map_of_mem hi, e1, ?_⟩
    intro j hj hne'
    obtain ⟨k, hk, rfl⟩ := List.mem_map.1 hj
    exact e2 k hk (fun h => hne' (by rw [h]))
  · rintro ⟨idx, hidx, e1, e2⟩
    obtain ⟨i, hi, rfl⟩ := List.mem_map.1 hidx
    refine ⟨i, hi, e1, fun u hu hne' => ?_⟩
    exact e2 _ (List.mem_map_of_mem hu) (fun h => hne' (hinj u hu i hi h))

/-! ## Bounds of a whole array -/

theorem setBoundLoop_spec (x : VarArray) (l u : ℤ) (hlu : l ≤ u) (ps : List ℕ) (mem : VarId → Var)
    (hn : (ps.map x.var).Nodup) :
    ∃ mem', x.setBoundLoop l u ps mem = .ok mem' ∧
      (∀ i ∈ ps, some (mem' (x.var i)) = Var.setBound (mem (x.var i)) l u) ∧
      ∀ w, w ∉ ps.map x.var → mem' w = mem w := by
  induction ps generalizing mem with
  | nil => exact ⟨mem, rfl, by simp, fun _ _ => rfl⟩
  | cons i is ih =>
    rw [List.map_cons, List.nodup_cons] at hn
    have hs : ∃ v, Var.setBound (mem (x.var i)) l u = some v := by
      unfold Var.setBound; rw [if_neg (by omega)]; exact ⟨_, rfl⟩
    obtain ⟨v, hv⟩ := hs
    obtain ⟨mem', h1, h2, h3⟩ := ih (fun w => if w = x.var i then v else mem w) hn.2
    refine ⟨mem', ?_, ?_, ?_⟩
    · rw [VarArray.setBoundLoop, hv]; exact h1
    · intro j hj
      rcases List.mem_cons.1 hj with rfl | hj
      · rw [h3 _ hn.1, hv]; simp
      · rw [h2 j hj, if_neg]
        intro e; exact hn.1 (e ▸ List.mem_map_of_mem hj)
    · intro w hw
      simp only [List.map_cons, List.mem_cons, not_or] at hw
      rw [h3 w hw.2, if_neg hw.1]

/-- **`x.set_bound(l, u)` bounds every element and nothing else**, and is refused exactly when `l > u`. -/
theorem set_bound_on_all (x : VarArray) (hd : Distinct x) (l u : ℤ) (mem : VarId → Var) :
    (x.setBound l u mem = .thrown ↔ u < l) ∧ x.setBound l u mem ≠ .undefined ∧
    ∀ mem', x.setBound l u mem = .ok mem' →
      (∀ i < numberOfElements x.shape, (mem' (x.var i)).lb = l ∧ (mem' (x.var i)).ub = u) ∧
      ∀ w, (∀ i < numberOfElements x.shape, w ≠ x.var i) → mem' w = mem w := by
  unfold VarArray.setBound
  by_cases h : l > u
  · rw [if_pos h]; exact ⟨⟨fun _ => h, fun _ => rfl⟩, by simp, by simp⟩
  · rw [if_neg h]
    obtain ⟨mem', h1, h2, h3⟩ := setBoundLoop_spec x l u (by omega) (List.range (numberOfElements x.shape)) mem
      (nodup_keys x hd _ List.nodup_range (fun i => List.mem_range.1))
    rw [h1]
    refine ⟨⟨by simp, fun h' => absurd h' h⟩, by simp, ?_⟩
    intro m hm
    cases hm
    refine ⟨fun i hi => ?_, fun w hw => ?_⟩
    · have := h2 i (List.mem_range.2 hi)
      unfold Var.setBound at this
      rw [if_neg h] at this
      simp only [Option.some.injEq] at this
      rw [this]
      simp only [Var.updateMargin, Var.setupSense]
      split <;> exact ⟨rfl, rfl⟩
    · apply h3
      intro hm
      obtain ⟨i, hi, e⟩ := List.mem_map.1 hm
      exact hw i (List.mem_range.1 hi) e.symm

/-! ## Arrays of expressions -/

/-- What a user knows about the values: `val idx` is the value of the expression `a(idx)`. -/
def ExprValues (a : ExprArray) (σ : ℕ → ℤ) (val : List ℕ → ℚ) : Prop :=
  ∀ idx ∈ indices a.shape, ∃ e, a.at' (idx.map (fun i : ℕ => (i : ℤ))) = .ok e ∧ val idx = exprValue e σ

/-- Each element still carries its own index. -/
def Tagged (a : ExprArray) : Prop := ∀ i < numberOfElements a.shape, (a.elem i).tag = multiIndex a.shape i

theorem exprValue_eq (e : Expr) (σ : ℕ → ℤ) : exprValue e σ = e.evaluate σ := by
  rw [Expr.evaluate_eq, exprValue]; rfl

theorem val_multi_expr (a : ExprArray) (hne : a.shape ≠ []) (σ : ℕ → ℤ) (val : List ℕ → ℚ)
    (hv : ExprValues a σ val) (i : ℕ) (hi : i < numberOfElements a.shape) :
    val (multiIndex a.shape i) = exprValue (a.elem i).expr σ := by
  have hi' := hi
  rw [C13.numberOfElements_eq] at hi'
  obtain ⟨h1, h2⟩ := C13.core' a.shape hne i hi'
  obtain ⟨v, e, e'⟩ := hv _ ((mem_indices _ _).2 h1)
  rw [ExprArray.at', position_ok a.shape _ hne h1] at e
  simp only [Outcome.bind, h2] at e
  cases e; exact e'

theorem foldl_sum (a : ExprArray) (σ : ℕ → ℤ) (ps : List ℕ) (r : Expr) :
    (ps.foldl (fun r i => r.addAssign (a.elem i).expr) r).evaluate σ =
      r.evaluate σ + (ps.map (fun i => (a.elem i).expr.evaluate σ)).sum := by
  induction ps generalizing r with
  | nil => simp
  | cons p ps ih => rw [List.foldl_cons, ih, Expr.evaluate_addAssign, List.map_cons, List.sum_cons]; ring

theorem foldl_dot (a : ExprArray) (σ : ℕ → ℤ) (ps : List ℕ) (cs : List ℚ) (r : Expr) :
    ((List.zip ps cs).foldl (fun r t => r.addAssign ((a.elem t.1).expr.mul t.2)) r).evaluate σ =
      r.evaluate σ + (List.zipWith (· * ·) cs (ps.map (fun i => (a.elem i).expr.evaluate σ))).sum := by
  induction ps generalizing r cs with
  | nil => simp
  | cons p ps ih =>
    cases cs with
    | nil => simp
    | cons c cs =>
      rw [List.zip_cons_cons, List.foldl_cons, ih, Expr.evaluate_addAssign, Expr.evaluate_mul, List.map_cons,
        List.zipWith_cons_cons, List.sum_cons]; ring

theorem evaluate_empty (σ : ℕ → ℤ) : (Expr.create [] 0).evaluate σ = 0 := rfl

/-- `a.sum()` over an array of expressions is the sum over the whole array, whatever was assigned to the
elements. -/
theorem expression_sum_over_all (a : ExprArray) (hne : a.shape ≠ []) (σ : ℕ → ℤ) (val : List ℕ → ℚ)
    (hv : ExprValues a σ val) : exprValue a.sumAll σ = ((indices a.shape).map val).sum := by
  rw [exprValue_eq, ExprArray.sumAll, foldl_sum, evaluate_empty, zero_add, ← map_multi a.shape hne, List.map_map]
  congr 1
  apply List.map_congr_left
  intro i hi
  rw [Function.comp, val_multi_expr a hne σ val hv i (List.mem_range.1 hi), exprValue_eq]

/-- **Slices of an array of expressions**, as long as each element still carries its own index: `a.sum({…})` is
the sum over the slice and `a.dot({…}, c)` the scalar product with it.  (Partial: elements that were assigned
an expression do not carry their index any more, see `assigned_elements_leave_their_slice`.) -/
theorem expression_slice_partial (a : ExprArray) (hne : a.shape ≠ []) (ht : Tagged a) (pattern : List ℤ)
    (hp : pattern.length = a.shape.length) :
    (∃ e, a.sum pattern = .ok e ∧ ∀ σ val, ExprValues a σ val →
      exprValue e σ = ((slice a.shape pattern).map val).sum) ∧
    ∀ coefs : List ℚ,
      (a.dot pattern coefs = .thrown ↔ 2 ≤ (pattern.filter (fun p => p = -1)).length ∨
        (slice a.shape pattern).length ≠ coefs.length) ∧
      a.dot pattern coefs ≠ .undefined ∧
      ∀ e, a.dot pattern coefs = .ok e → ∀ σ val, ExprValues a σ val →
        exprValue e σ = (List.zipWith (· * ·) coefs ((slice a.shape pattern).map val)).sum := by
  obtain ⟨ps, g1, g2, g3, g4⟩ := coveredOf_setup a.shape hne pattern hp.symm (fun i => (a.elem i).tag) ht
  have hlen : ps.length = (slice a.shape pattern).length := by rw [← g4, List.length_map]
  have hmap : ∀ σ val, ExprValues a σ val →
      (slice a.shape pattern).map val = ps.map (fun i => (a.elem i).expr.evaluate σ) := by
    intro σ val hv
    rw [← g4, List.map_map]
    apply List.map_congr_left
    intro i hi
    rw [Function.comp, val_multi_expr a hne σ val hv i (g3 i hi), exprValue_eq]
  constructor
  · refine ⟨ps.foldl (fun r i => r.addAssign (a.elem i).expr) (Expr.create [] 0), ?_, ?_⟩
    · unfold ExprArray.sum
      rw [if_neg (by simpa using hp.symm), g1]; rfl
    · intro σ val hv
      rw [exprValue_eq, foldl_sum, evaluate_empty, zero_add, hmap σ val hv]
  · intro coefs
    unfold ExprArray.dot
    rw [if_neg (by simpa using hp.symm), g1]
    have hc : countAll pattern = (pattern.filter (fun p => p = -1)).length := rfl
    rw [hc]
    by_cases h2 : (pattern.filter (fun p => p = -1)).length ≥ 2
    · rw [if_pos h2]
      exact ⟨⟨fun _ => Or.inl h2, fun _ => rfl⟩, by simp, by simp⟩
    rw [if_neg h2]
    simp only [Outcome.bind]
    by_cases h3 : ps.length ≠ coefs.length
    · rw [if_pos h3]
      exact ⟨⟨fun _ => Or.inr (hlen ▸ h3), fun _ => rfl⟩, by simp, by simp⟩
    rw [if_neg h3]
    push Not at h3
    refine ⟨⟨by simp, ?_⟩, by simp, ?_⟩
    · rintro (h | h)
      · exact absurd h h2
      · exact absurd (hlen ▸ h3) h
    · intro e he σ val hv
      cases he
      rw [exprValue_eq, ExprArray.dotLoop, foldl_dot, evaluate_empty, zero_add, hmap σ val hv]

/-- A new array carries its indices, and assigning variables or adding keeps them. -/
theorem tagged_kept (a : ExprArray) (i : ℕ) (v : VarId) (e : Expr) :
    (∀ shape, Tagged (ExprArray.setup shape)) ∧
    (Tagged a → Tagged (a.assignVar i v) ∧ Tagged (a.addTo i e)) := by
  refine ⟨fun shape j _ => rfl, fun h => ⟨?_, ?_⟩⟩ <;>
  · intro j hj
    simp only [ExprArray.assignVar, ExprArray.addTo, ExprArray.set] at hj ⊢
    by_cases e : j = i
    · subst e; simpa using h j hj
    · rw [if_neg e]; exact h j hj

/-- Writing an element of an array of expressions writes this element and no other: `=` makes it the expression or the
variable, `+=` adds the expression. -/
theorem elements_are_written (a : ExprArray) (i : ℕ) (e : Expr) (v : VarId) (σ : ℕ → ℤ) :
    exprValue ((a.assign i e).elem i).expr σ = exprValue e σ ∧
    exprValue ((a.assignVar i v).elem i).expr σ = σ v ∧
    exprValue ((a.addTo i e).elem i).expr σ = exprValue (a.elem i).expr σ + exprValue e σ ∧
    ∀ j, j ≠ i → (a.assign i e).elem j = a.elem j ∧ (a.assignVar i v).elem j = a.elem j ∧ (a.addTo i e).elem j = a.elem j := by
  refine ⟨?_, ?_, ?_, fun j hj => ⟨if_neg hj, if_neg hj, if_neg hj⟩⟩
  · simp [ExprArray.assign, ExprArray.set]
  · simp [ExprArray.assignVar, ExprArray.set, exprValue_eq, Expr.assignLike, Expr.ofVar, Expr.evaluate, Expr.create]
  · simp only [ExprArray.addTo, ExprArray.set, if_true, exprValue_eq]
    exact Expr.evaluate_addAssign _ _ _

/-- `e(1) = 2 x0 + 3`, then `e(1) += x1` in an array of three expressions -/
example : exprValue (((((ExprArray.setup [3]).assign 1 (Expr.create [(0, 2)] 3)).addTo 1 (Expr.ofVar 1)).elem 1).expr)
    (fun v => if v = 0 then 5 else 7) = 20 := by
  decide +kernel

/-- The array after `a(i…) = expression` for every element, starting from a new array. -/
def assignAll (shape : List ℕ) (f : ℕ → Expr) : ExprArray :=
  (List.range (numberOfElements shape)).foldl (fun a i => a.assign i (f i)) (ExprArray.setup shape)

theorem assignAll_spec (shape : List ℕ) (f : ℕ → Expr) :
    (assignAll shape f).shape = shape ∧
    ∀ i < numberOfElements shape, (assignAll shape f).elem i = ⟨[0], f i⟩ := by
  have key : ∀ (l : List ℕ) (a : ExprArray),
      (l.foldl (fun a i => a.assign i (f i)) a).shape = a.shape ∧
      ∀ i, (i ∈ l → (l.foldl (fun a i => a.assign i (f i)) a).elem i = ⟨[0], f i⟩) ∧
        (i ∉ l → (l.foldl (fun a i => a.assign i (f i)) a).elem i = a.elem i) := by
    intro l
    induction l with
    | nil => intro a; exact ⟨rfl, fun i => ⟨by simp, fun _ => rfl⟩⟩
    | cons j l ih =>
      intro a
      obtain ⟨h1, h2⟩ := ih (a.assign j (f j))
      rw [List.foldl_cons]
      refine ⟨h1, fun i => ⟨fun hi => ?_, fun hi => ?_⟩⟩
      · by_cases hl : i ∈ l
        · exact (h2 i).1 hl
        · have : i = j := by simpa [hl] using hi
          subst this
          rw [(h2 i).2 hl]; simp [ExprArray.assign, ExprArray.set]
      · simp only [List.mem_cons, not_or] at hi
        rw [(h2 i).2 hi.2]; simp [ExprArray.assign, ExprArray.set, hi.1]
  obtain ⟨h1, h2⟩ := key (List.range (numberOfElements shape)) (ExprArray.setup shape)
  exact ⟨h1, fun i hi => (h2 i).1 (List.mem_range.2 hi)⟩

theorem coveredOf_all (tag : ℕ → List ℕ) (pattern : List ℤ) (b : Bool) (l : List ℕ)
    (h : ∀ i ∈ l, covered pattern (tag i) = some b) :
    coveredOf tag pattern l = .ok (if b then l else []) := by
  induction l with
  | nil => cases b <;> rfl
  | cons i l ih =>
    rw [coveredOf, h i (by simp)]
    simp only [ih (fun j hj => h j (by simp [hj])), Outcome.bind]
    cases b <;> rfl

theorem covered_replicate (n : ℕ) (idx : List ℕ) : covered (List.replicate n ALL) idx = some true := by
  induction n generalizing idx with
  | zero => rfl
  | succ n ih => rw [List.replicate_succ, covered.eq_def]; simp only [if_pos, ih]

/-- **Deviation.**  After every element of an array with several dimensions was assigned an expression, the sum
over row `k ≥ 1` is the empty expression, whatever was assigned; and the sum over row 0 is the sum of the
*whole* array. -/
theorem assigned_elements_leave_their_slice (s n : ℕ) (l : List ℕ) (hl : l.length = n) (f : ℕ → Expr)
    (k : ℕ) (hk : 1 ≤ k) :
    (assignAll (s :: l) f).sum ((k : ℤ) :: List.replicate n ALL) = .ok (Expr.create [] 0) ∧
    (assignAll (s :: l) f).sum (0 :: List.replicate n ALL) = .ok (assignAll (s :: l) f).sumAll := by
  obtain ⟨h1, h2⟩ := assignAll_spec (s :: l) f
  have c1 : ∀ i ∈ List.range (numberOfElements (s :: l)),
      covered ((k : ℤ) :: List.replicate n ALL) ((assignAll (s :: l) f).elem i).tag = some false := by
    intro i hi
    rw [h2 i (List.mem_range.1 hi), covered, if_neg (by unfold ALL; omega)]
    rw [if_pos (by push_cast; omega)]
  have c2 : ∀ i ∈ List.range (numberOfElements (s :: l)),
      covered (0 :: List.replicate n ALL) ((assignAll (s :: l) f).elem i).tag = some true := by
    intro i hi
    rw [h2 i (List.mem_range.1 hi), covered, if_neg (by unfold ALL; omega)]
    rw [if_neg (by simp), covered_replicate]
  constructor
  · unfold ExprArray.sum
    rw [h1, if_neg (by simp [hl]), coveredOf_all _ _ false _ c1]; rfl
  · unfold ExprArray.sum ExprArray.sumAll
    rw [h1, if_neg (by simp [hl]), coveredOf_all _ _ true _ c2]; rfl

/-- **Deviation.**  An index outside the shape is not refused: `x.sum({3, All})` of a 2×3 array is the empty
sum, and `x(0, 4)` is the element `x(1, 1)`. -/
theorem out_of_range_index_not_refused :
    (VarArray.setup [2, 3] id).sum [3, ALL] = .ok (Expr.create [] 0) ∧
    (VarArray.setup [2, 3] id).at' [0, 4] = (VarArray.setup [2, 3] id).at' [1, 1] ∧
    (VarArray.setup [2, 3] id).at' [0, 4] = .ok 4 := by
  refine ⟨by decide +kernel, by decide +kernel, by decide +kernel⟩

/-! ## Non-vacuity -/

/-- A 2×3 array of variables: the slice `{1, All}`, its sum, and a scalar product along it. -/
example : slice [2, 3] [1, -1] = [[1, 0], [1, 1], [1, 2]] ∧
    (VarArray.setup [2, 3] (fun i => i + 10)).sum [1, ALL] = .ok (Expr.create [(13, 1), (14, 1), (15, 1)] 0) ∧
    (VarArray.setup [2, 3] (fun i => i + 10)).dot [ALL, 2] [5, 7] = .ok (Expr.create [(12, 5), (15, 7)] 0) := by
  refine ⟨by decide +kernel, by decide +kernel, by decide +kernel⟩

/-- The hypotheses of the theorems above are met by that array. -/
example : Distinct (VarArray.setup [2, 3] (fun i => i + 10)) ∧
    VarValues (VarArray.setup [2, 3] (fun i => i + 10)) (fun v => (v : ℤ)) (fun idx => flatIndex [2, 3] idx + 10) := by
  refine ⟨fun i _ j _ h => by simpa [VarArray.setup] using h, ?_⟩
  intro idx h
  have hr := (mem_indices _ _).1 h
  refine ⟨flatIndex [2, 3] idx + 10, ?_, by push_cast; rfl⟩
  rw [VarArray.at', VarArray.setup]
  simp only [position_ok [2, 3] idx (by simp) hr, Outcome.bind]

/-- An array of expressions set up from variables: row 1 is found; after assigning expressions it is lost. -/
example : (((ExprArray.setup [2, 2]).assignVar 2 20).assignVar 3 30).sum [1, ALL] =
      .ok (Expr.create [(20, 1), (30, 1)] 0) ∧
    (((ExprArray.setup [2, 2]).assign 2 (Expr.ofVar 20)).assign 3 (Expr.ofVar 30)).sum [1, ALL] =
      .ok (Expr.create [] 0) := by
  refine ⟨by decide +kernel, by decide +kernel⟩

end Printemps.C72
