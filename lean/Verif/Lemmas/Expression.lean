import Verif.Model.Expression
import Verif.Spec.Move

/-! Helper lemmas about `Expr`. -/

namespace Printemps
namespace Expr

/-- Sum of `coefficient * value` over a term list. -/
def lin (ts : List (VarId × ℚ)) (σ : VarId → ℤ) : ℚ := (ts.map (fun t => t.2 * (σ t.1 : ℚ))).sum

@[simp] theorem lin_nil (σ) : lin [] σ = 0 := rfl
@[simp] theorem lin_cons (t ts σ) : lin (t :: ts) σ = t.2 * (σ t.1 : ℚ) + lin ts σ := by
  simp [lin]

theorem foldl_eval (ts : List (VarId × ℚ)) (σ : VarId → ℤ) (c : ℚ) :
    ts.foldl (fun v t => v + (σ t.1 : ℚ) * t.2) c = c + lin ts σ := by
  induction ts generalizing c with
  | nil => simp
  | cons t ts ih => simp only [List.foldl_cons, ih, lin_cons]; ring

theorem evaluate_eq (e : Expr) (σ) : e.evaluate σ = e.const + lin e.terms σ := foldl_eval _ _ _

theorem lin_upsert (ts v c σ) : lin (upsert ts v c) σ = lin ts σ + c * (σ v : ℚ) := by
  induction ts with
  | nil => simp [upsert]
  | cons t ts ih =>
    obtain ⟨w, d⟩ := t
    simp only [upsert]
    split
    · rename_i h; subst h; simp; ring
    · simp [ih]; ring

theorem lin_foldl_upsert (us ts : List (VarId × ℚ)) (σ) :
    lin (us.foldl (fun ts t => upsert ts t.1 t.2) ts) σ = lin ts σ + lin us σ := by
  induction us generalizing ts with
  | nil => simp
  | cons u us ih => simp only [List.foldl_cons, ih, lin_upsert, lin_cons]; ring

theorem lin_map_mul (ts : List (VarId × ℚ)) (c σ) :
    lin (ts.map (fun t => (t.1, t.2 * c))) σ = lin ts σ * c := by
  induction ts with
  | nil => simp
  | cons t ts ih => simp [ih]; ring

theorem lin_map_div (ts : List (VarId × ℚ)) (c σ) :
    lin (ts.map (fun t => (t.1, t.2 / c))) σ = lin ts σ / c := by
  have := lin_map_mul ts (1/c) σ
  simp only [mul_one_div] at this
  exact this

theorem mem_keys_upsert (ts : List (VarId × ℚ)) (v c x) :
    x ∈ (upsert ts v c).map Prod.fst ↔ x ∈ ts.map Prod.fst ∨ x = v := by
  induction ts with
  | nil => simp [upsert]
  | cons t ts ih =>
    obtain ⟨w, d⟩ := t
    simp only [upsert]
    split
    · rename_i h; subst h; simp only [List.map_cons, List.mem_cons]; tauto
    · simp only [List.map_cons, List.mem_cons, ih]; tauto

theorem nodup_upsert (ts : List (VarId × ℚ)) (v c) (h : (ts.map Prod.fst).Nodup) :
    ((upsert ts v c).map Prod.fst).Nodup := by
  induction ts with
  | nil => simp [upsert]
  | cons t ts ih =>
    obtain ⟨w, d⟩ := t
    simp only [List.map_cons, List.nodup_cons] at h
    simp only [upsert]
    split
    · simpa using h
    · rename_i hne
      simp only [List.map_cons, List.nodup_cons, mem_keys_upsert]
      exact ⟨fun hh => hh.elim h.1 hne, ih h.2⟩

theorem nodup_foldl_upsert (us ts : List (VarId × ℚ)) (h : (ts.map Prod.fst).Nodup) :
    ((us.foldl (fun ts t => upsert ts t.1 t.2) ts).map Prod.fst).Nodup := by
  induction us generalizing ts with
  | nil => exact h
  | cons u us ih => exact ih _ (nodup_upsert _ _ _ h)

theorem evaluate_addAssign (e f : Expr) (σ) :
    (e.addAssign f).evaluate σ = e.evaluate σ + f.evaluate σ := by
  simp only [evaluate_eq, addAssign, lin_foldl_upsert]; ring

theorem evaluate_copy (e : Expr) (σ) : e.copy.evaluate σ = e.evaluate σ := rfl

theorem evaluate_neg (e : Expr) (σ) : e.neg.evaluate σ = - e.evaluate σ := by
  simp only [evaluate_eq, neg, lin_map_mul]; ring

theorem evaluate_subAssign (e f : Expr) (σ) :
    (e.subAssign f).evaluate σ = e.evaluate σ - f.evaluate σ := by
  simp only [subAssign, evaluate_addAssign, evaluate_neg]; ring

theorem evaluate_mulAssign (e : Expr) (c σ) : (e.mulAssign c).evaluate σ = e.evaluate σ * c := by
  simp only [evaluate_eq, mulAssign, lin_map_mul]; ring

theorem evaluate_divAssign (e : Expr) (c σ) : (e.divAssign c).evaluate σ = e.evaluate σ / c := by
  simp only [evaluate_eq, divAssign, lin_map_div]; ring

theorem evaluate_addAssignValue (e : Expr) (c σ) :
    (e.addAssignValue c).evaluate σ = e.evaluate σ + c := by
  simp only [evaluate_eq, addAssignValue]; ring

theorem evaluate_subAssignValue (e : Expr) (c σ) :
    (e.subAssignValue c).evaluate σ = e.evaluate σ - c := by
  simp only [evaluate_eq, subAssignValue]; ring

theorem evaluate_ofVar (v σ) : (ofVar v).evaluate σ = σ v := by
  simp [evaluate_eq, ofVar, create]

theorem evaluate_add (e f : Expr) (σ) : (e.add f).evaluate σ = e.evaluate σ + f.evaluate σ := by
  simp only [add, evaluate_addAssign, evaluate_copy]
theorem evaluate_sub (e f : Expr) (σ) : (e.sub f).evaluate σ = e.evaluate σ - f.evaluate σ := by
  simp only [sub, evaluate_subAssign, evaluate_copy]
theorem evaluate_mul (e : Expr) (c σ) : (e.mul c).evaluate σ = e.evaluate σ * c := by
  simp only [mul, evaluate_mulAssign, evaluate_copy]
theorem evaluate_div (e : Expr) (c σ) : (e.div c).evaluate σ = e.evaluate σ / c := by
  simp only [div, evaluate_divAssign, evaluate_copy]
theorem evaluate_addValue (e : Expr) (c σ) : (e.addValue c).evaluate σ = e.evaluate σ + c := by
  simp only [addValue, evaluate_addAssignValue, evaluate_copy]
theorem evaluate_subValue (e : Expr) (c σ) : (e.subValue c).evaluate σ = e.evaluate σ - c := by
  simp only [subValue, evaluate_subAssignValue, evaluate_copy]
theorem evaluate_valueSub (e : Expr) (c σ) : (valueSub c e).evaluate σ = c - e.evaluate σ := by
  simp only [valueSub, evaluate_addAssignValue, evaluate_neg, evaluate_copy]; ring

theorem wf_copy (e : Expr) (h : e.WF) : e.copy.WF := h
theorem keys_map (ts : List (VarId × ℚ)) (g : ℚ → ℚ) :
    (ts.map (fun t => (t.1, g t.2))).map Prod.fst = ts.map Prod.fst := by
  simp [List.map_map, Function.comp_def]
theorem wf_neg (e : Expr) (h : e.WF) : e.neg.WF := by
  simp only [WF, vars, neg, keys_map _ (· * (-1))]; exact h
theorem wf_addAssign (e f : Expr) (h : e.WF) : (e.addAssign f).WF := nodup_foldl_upsert _ _ h
theorem wf_mulAssign (e : Expr) (c) (h : e.WF) : (e.mulAssign c).WF := by
  simp only [WF, vars, mulAssign, keys_map _ (· * c)]; exact h
theorem wf_divAssign (e : Expr) (c) (h : e.WF) : (e.divAssign c).WF := by
  simp only [WF, vars, divAssign, keys_map _ (· / c)]; exact h
theorem wf_ofVar (v) : (ofVar v).WF := by simp [WF, vars, ofVar, create]
theorem wf_addAssignValue (e : Expr) (c) (h : e.WF) : (e.addAssignValue c).WF := h
theorem wf_subAssignValue (e : Expr) (c) (h : e.WF) : (e.subAssignValue c).WF := h
theorem wf_subAssign (e f : Expr) (h : e.WF) : (e.subAssign f).WF := wf_addAssign _ _ h

/-! ### lookup -/

theorem lookup_of_not_mem (ts : List (VarId × ℚ)) (v) (h : v ∉ ts.map Prod.fst) : lookup ts v = 0 := by
  induction ts with
  | nil => rfl
  | cons t ts ih =>
    obtain ⟨w, d⟩ := t
    simp only [List.map_cons, List.mem_cons, not_or] at h
    simp only [lookup]
    rw [if_neg (fun hh => h.1 hh.symm), ih h.2]

theorem lookup_of_mem (ts : List (VarId × ℚ)) (h : (ts.map Prod.fst).Nodup) (v c)
    (hm : (v, c) ∈ ts) : lookup ts v = c := by
  induction ts with
  | nil => simp at hm
  | cons t ts ih =>
    obtain ⟨w, d⟩ := t
    simp only [List.map_cons, List.nodup_cons] at h
    simp only [lookup]
    rcases List.mem_cons.1 hm with hm | hm
    · cases hm; simp
    · have : w ≠ v := by
        rintro rfl
        exact h.1 (List.mem_map.2 ⟨_, hm, rfl⟩)
      rw [if_neg this, ih h.2 hm]

theorem mem_of_mem_keys (ts : List (VarId × ℚ)) (h : (ts.map Prod.fst).Nodup) (v)
    (hm : v ∈ ts.map Prod.fst) : (v, lookup ts v) ∈ ts := by
  obtain ⟨⟨w, c⟩, h1, h2⟩ := List.mem_map.1 hm
  simp only at h2; subst h2
  rw [lookup_of_mem ts h _ _ h1]; exact h1

theorem lin_congr (ts : List (VarId × ℚ)) (σ τ : VarId → ℤ) (h : ∀ t ∈ ts, σ t.1 = τ t.1) :
    lin ts σ = lin ts τ := by
  induction ts with
  | nil => rfl
  | cons t ts ih =>
    simp only [lin_cons]
    rw [h t (by simp), ih (fun t ht => h t (by simp [ht]))]

/-- Changing one variable changes the linear value by coefficient times change. -/
theorem lin_update (ts : List (VarId × ℚ)) (h : (ts.map Prod.fst).Nodup) (σ : VarId → ℤ) (v x) :
    lin ts (Function.update σ v x) = lin ts σ + lookup ts v * ((x - σ v : ℤ) : ℚ) := by
  induction ts with
  | nil => simp [lookup]
  | cons t ts ih =>
    obtain ⟨w, d⟩ := t
    simp only [List.map_cons, List.nodup_cons] at h
    simp only [lin_cons, lookup, ih h.2]
    by_cases hw : w = v
    · subst hw
      rw [lookup_of_not_mem ts _ h.1]
      simp; ring
    · simp [hw]; ring

theorem evaluateMove_sum (e : Expr) (σ : VarId → ℤ) (alts : List (VarId × ℤ)) :
    e.evaluateMove σ alts
      = e.value + (alts.map (fun a => lookup e.terms a.1 * (((a.2 - σ a.1 : ℤ)) : ℚ))).sum := by
  simp only [evaluateMove]
  generalize e.value = c
  induction alts generalizing c with
  | nil => simp
  | cons a l ih => simp only [List.foldl_cons, ih, List.map_cons, List.sum_cons]; ring

theorem applyMove_of_not_mem (σ : VarId → ℤ) (alts : List (VarId × ℤ)) (v)
    (h : v ∉ alts.map Prod.fst) : Spec.applyMove σ alts v = σ v := by
  induction alts generalizing σ with
  | nil => rfl
  | cons a l ih =>
    simp only [List.map_cons, List.mem_cons, not_or] at h
    simp only [Spec.applyMove]
    rw [ih _ h.2, Function.update_of_ne h.1]

theorem applyMove_of_mem (σ : VarId → ℤ) (alts : List (VarId × ℤ)) (hd : (alts.map Prod.fst).Nodup)
    (a) (h : a ∈ alts) : Spec.applyMove σ alts a.1 = a.2 := by
  induction alts generalizing σ with
  | nil => simp at h
  | cons b l ih =>
    simp only [List.map_cons, List.nodup_cons] at hd
    simp only [Spec.applyMove]
    rcases List.mem_cons.1 h with rfl | h
    · rw [applyMove_of_not_mem _ _ _ hd.1]; simp
    · exact ih _ hd.2 h

theorem lin_applyMove (ts : List (VarId × ℚ)) (h : (ts.map Prod.fst).Nodup) (σ : VarId → ℤ)
    (alts : List (VarId × ℤ)) (hd : (alts.map Prod.fst).Nodup) :
    lin ts (Spec.applyMove σ alts) = lin ts σ +
      (alts.map (fun a => lookup ts a.1 * (((a.2 - σ a.1 : ℤ)) : ℚ))).sum := by
  induction alts generalizing σ with
  | nil => simp [Spec.applyMove]
  | cons a l ih =>
    obtain ⟨v, x⟩ := a
    simp only [List.map_cons, List.nodup_cons] at hd
    simp only [Spec.applyMove, List.map_cons, List.sum_cons]
    rw [ih _ hd.2, lin_update ts h]
    have : (l.map (fun a => lookup ts a.1 * (((a.2 - Function.update σ v x a.1 : ℤ)) : ℚ)))
        = (l.map (fun a => lookup ts a.1 * (((a.2 - σ a.1 : ℤ)) : ℚ))) := by
      refine List.map_congr_left fun a ha => ?_
      have : a.1 ≠ v := by
        rintro rfl
        exact hd.1 (List.mem_map.2 ⟨a, ha, rfl⟩)
      rw [Function.update_of_ne this]
    rw [this]; ring

theorem evaluateMove_eq (e : Expr) (hwf : e.WF) (σ : VarId → ℤ) (hcur : e.value = e.evaluate σ)
    (alts : List (VarId × ℤ)) (hd : (alts.map Prod.fst).Nodup) :
    e.evaluateMove σ alts = e.evaluate (Spec.applyMove σ alts) := by
  rw [evaluateMove_sum, evaluate_eq, lin_applyMove _ hwf _ _ hd, hcur, evaluate_eq]; ring

end Expr
end Printemps
