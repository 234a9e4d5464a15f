import Verif.Lemmas.SetupRun
import Verif.Lemmas.SelectionExtract
import Verif.Props.C30
import Verif.Lemmas.Example

/-! # C67 — preprocessing as a whole keeps the optimum -/

namespace Printemps.C67
open Spec Setup Presolve

/-- The stages before the extraction of selections, run one after the other with the lists of constraints
`Model::setup` gives them, terminate without error for a feasible model.  The result admits only solutions of the
user's model, has the same objective, and for every solution of the user's model admits one that is no worse.
Missing: the restrictions of `Proper`. -/
theorem reduction_keeps_optimum_partial (o : Options) (lt : ℕ → ℕ → Bool) (m : MState) (h : Proper o m)
    (hf : ∃ σ, Feasible m σ) :
    ∃ m', reduce o lt m = some (.ok m') ∧ (∀ σ, Feasible m' σ → Feasible m σ) ∧
      (∀ σ, Feasible m σ → ∃ τ, Feasible m' τ ∧ minObjective m τ ≤ minObjective m σ) ∧
      (∀ σ, minObjective m' σ = minObjective m σ) := by
  obtain ⟨m', h1, h2, _⟩ := reduce_facts o lt m h hf
  exact ⟨m', h1, h2.sound, h2.complete, h2.objective⟩

theorem sum_zero (σ : ℕ → ℤ) (l : List ℕ) (h : ∀ v ∈ l, 0 ≤ σ v) (hs : (l.map σ).sum = 0) : ∀ v ∈ l, σ v = 0 := by
  induction l with
  | nil => simp
  | cons a l ih =>
    rw [List.map_cons, List.sum_cons] at hs
    have h1 := h a (by simp)
    have h2 : 0 ≤ (l.map σ).sum := List.sum_nonneg (by
      intro x hx; obtain ⟨v, hv, rfl⟩ := List.mem_map.1 hx; exact h v (by simp [hv]))
    intro v hv
    rcases List.mem_cons.1 hv with rfl | hv
    · omega
    · exact ih (fun u hu => h u (by simp [hu])) (by omega) v hv

theorem sum_of_zero (σ : ℕ → ℤ) (l : List ℕ) (h : ∀ v ∈ l, σ v = 0) : (l.map σ).sum = 0 := by
  induction l with
  | nil => rfl
  | cons a l ih =>
    rw [List.map_cons, List.sum_cons, h a (by simp), ih (fun u hu => h u (by simp [hu]))]; rfl

/-- Values 0 and 1 add up to 1 exactly if one of them is 1 and the others are 0. -/
theorem sum_one_iff (σ : ℕ → ℤ) (l : List ℕ) (hn : l.Nodup) (h : ∀ v ∈ l, σ v = 0 ∨ σ v = 1) :
    (l.map σ).sum = 1 ↔ ∃ v ∈ l, σ v = 1 ∧ ∀ u ∈ l, u ≠ v → σ u = 0 := by
  induction l with
  | nil => simp
  | cons a l ih =>
    rw [List.nodup_cons] at hn
    have hl : ∀ v ∈ l, σ v = 0 ∨ σ v = 1 := fun v hv => h v (by simp [hv])
    rw [List.map_cons, List.sum_cons]
    constructor
    · intro hs
      rcases h a (by simp) with ha | ha
      · obtain ⟨v, hv, h1, h2⟩ := (ih hn.2 hl).1 (by omega)
        refine ⟨v, by simp [hv], h1, fun u hu huv => ?_⟩
        rcases List.mem_cons.1 hu with rfl | hu
        · exact ha
        · exact h2 u hu huv
      · have hz := sum_zero σ l (fun v hv => by rcases hl v hv with k | k <;> omega) (by omega)
        refine ⟨a, by simp, ha, fun u hu hua => ?_⟩
        rcases List.mem_cons.1 hu with rfl | hu
        · exact absurd rfl hua
        · exact hz u hu
    · rintro ⟨v, hv, h1, h2⟩
      rcases List.mem_cons.1 hv with rfl | hv
      · rw [sum_of_zero σ l (fun u hu => h2 u (by simp [hu]) (fun e => hn.1 (e ▸ hu)))]; omega
      · have ha := h2 a (by simp) (fun e => hn.1 (e ▸ hv))
        rw [(ih hn.2 hl).2 ⟨v, hv, h1, fun u hu => h2 u (by simp [hu])⟩]; omega

theorem foldl_keeps {α : Type} (P : (ℕ → Var) → Prop) (f : (ℕ → Var) → α → (ℕ → Var)) (hf : ∀ var a, P var → P (f var a))
    (l : List α) : ∀ var, P var → P (l.foldl f var) := by
  induction l with
  | nil => intro _ h; exact h
  | cons a l ih => intro var h; exact ih _ (hf var a h)

/-- Marking variables as members of selections changes neither bounds nor fixings. -/
theorem setSelections_inBounds (m : MState) (cs : List ℕ) (σ : ℕ → ℤ) :
    InBounds (SelectionExtract.setSelections m cs).var σ ↔ InBounds m.var σ := by
  have : ∀ v, ((SelectionExtract.setSelections m cs).var v).fixed = (m.var v).fixed ∧
      ((SelectionExtract.setSelections m cs).var v).value = (m.var v).value ∧
      ((SelectionExtract.setSelections m cs).var v).lb = (m.var v).lb ∧
      ((SelectionExtract.setSelections m cs).var v).ub = (m.var v).ub := by
    refine foldl_keeps (fun var => ∀ v, (var v).fixed = (m.var v).fixed ∧ (var v).value = (m.var v).value ∧
      (var v).lb = (m.var v).lb ∧ (var v).ub = (m.var v).ub) _ (fun var c h => ?_) cs m.var (fun v => ⟨rfl, rfl, rfl, rfl⟩)
    refine foldl_keeps (fun var => ∀ v, (var v).fixed = (m.var v).fixed ∧ (var v).value = (m.var v).value ∧
      (var v).lb = (m.var v).lb ∧ (var v).ub = (m.var v).ub) _ (fun var u h v => ?_) _ var h
    unfold Function.update
    split
    · rename_i e; subst e; exact h v
    · exact h v
  unfold InBounds Admits
  refine forall_congr' fun v => ?_
  obtain ⟨h1, h2, h3, h4⟩ := this v
  rw [h1, h2, h3, h4]

theorem selection_iff (o : Options) (lt : ℕ → ℕ → Bool) (user : ℕ → Bool) (mode : SelectionExtract.Mode) (O m : MState)
    (p : Proper o O) (g : Setup.Good (structured O) m) (k : ∀ σ, Feasible m σ → Feasible O σ) (σ : ℕ → ℤ) :
    Feasible m σ ↔ FeasibleWith (SelectionExtract.chosen lt user mode m) (SelectionExtract.extract lt user mode m) σ := by
  have hcon : ∀ c, (SelectionExtract.extract lt user mode m).con c =
      if c ∈ SelectionExtract.chosen lt user mode m then { m.con c with enabled := false } else m.con c := fun c => rfl
  have hexpr : ∀ c, ((SelectionExtract.extract lt user mode m).con c).expr = (m.con c).expr := by
    intro c; rw [hcon]; split <;> rfl
  have hb : InBounds (SelectionExtract.extract lt user mode m).var σ ↔ InBounds m.var σ :=
    setSelections_inBounds (SelectionExtract.disableAll m (SelectionExtract.chosen lt user mode m)) _ σ
  have hone : ∀ s ∈ SelectionExtract.chosen lt user mode m, (∀ v ∈ (m.con s).expr.vars, σ v = 0 ∨ σ v = 1) →
      (Holds (m.con s) σ ↔ ∃ v ∈ (m.con s).expr.vars, σ v = 1 ∧ ∀ u ∈ (m.con s).expr.vars, u ≠ v → σ u = 0) := by
    intro s hs h01
    obtain ⟨hm, hr⟩ := SelectionExtract.chosen_raw lt user mode m s hs
    rw [SelectionExtract.isRaw_iff] at hr
    have sh := classify_shape m.var lt (m.con s)
    rw [hr.1] at sh
    obtain ⟨s1, _, s3, s4⟩ := sh
    rw [← sum_one_iff σ _ (g.goodData p s hm).1 h01]
    unfold Holds
    rw [s4, exprValue_setForm (m.con s) ⟨g.coef s hm s1, s3⟩]
    show ((((m.con s).expr.vars.map σ).sum : ℤ) : ℚ) - 1 = 0 ↔ _
    rw [sub_eq_zero]
    exact_mod_cast Iff.rfl
  constructor
  · intro h
    have hO := k σ h
    refine ⟨⟨hb.2 h.1, fun c hc he => ?_⟩, fun s hs => ?_⟩
    · rw [hcon] at he ⊢
      split at he
      · exact absurd he (by simp)
      · rename_i hn; rw [if_neg hn]; exact h.2 c hc he
    · obtain ⟨hm, hr⟩ := SelectionExtract.chosen_raw lt user mode m s hs
      rw [SelectionExtract.isRaw_iff] at hr
      rw [hexpr]
      refine (hone s hs (fun v hv => ?_)).1 (h.2 s hm hr.2.1)
      have sh := classify_shape m.var lt (m.con s)
      rw [hr.1] at sh
      have hbin : (O.var v).sense = .binary := g.bin s hm sh.2.1 v hv
      obtain ⟨i, hi, e⟩ := g.vars hm
      have hx := p.box i hi v (by rw [e] at hv; exact hv) hbin
      have ha := hO.1 v
      cases hfx : (O.var v).fixed
      · have := ha.2 hfx; have := hx.2 hfx; omega
      · rw [ha.1 hfx]; exact hx.1 hfx
  · rintro ⟨h1, h2⟩
    refine ⟨hb.1 h1.1, fun c hc he => ?_⟩
    by_cases hs : c ∈ SelectionExtract.chosen lt user mode m
    · have := h2 c hs
      rw [hexpr] at this
      obtain ⟨v, hv, h3, h4⟩ := this
      refine (hone c hs (fun u hu => ?_)).2 ⟨v, hv, h3, h4⟩
      by_cases e : u = v
      · rw [e]; exact Or.inr h3
      · exact Or.inl (h4 u hu e)
    · have := h1.2 c hc
      rw [hcon, if_neg hs] at this
      exact this he

/-- The same including the extraction of selections.  The constraints turned into selections are disabled, so
the search has to keep exactly one of their variables at 1 (property C31); together with that condition the resulting
model admits only solutions of the user's model and keeps the optimum. -/
theorem preparation_keeps_optimum_partial (o : Options) (lt : ℕ → ℕ → Bool) (user : ℕ → Bool) (m : MState)
    (h : Proper o m) (hf : ∃ σ, Feasible m σ) :
    let sels := selections o lt user m
    ∃ m', prepare o lt user m = some (.ok m') ∧
      (∀ s ∈ sels, s ∈ m'.conIds ∧ (m'.con s).enabled = false ∧
        ∀ v ∈ (m'.con s).expr.vars, (m'.var v).selection = some s ∧ (m'.var v).sense = .selection) ∧
      (∀ σ, FeasibleWith sels m' σ → Feasible m σ) ∧
      (∀ σ, Feasible m σ → ∃ τ, FeasibleWith sels m' τ ∧ minObjective m τ ≤ minObjective m σ) ∧
      (∀ σ, minObjective m' σ = minObjective m σ) := by
  obtain ⟨m1, h1, h2, g⟩ := reduce_facts o lt m h hf
  unfold prepare selections
  rw [h1]
  simp only [andThen]
  by_cases hs : o.selection ≠ .off ∧ m1.varIds.length > m1.conIds.length
  · rw [if_pos hs, if_pos hs]
    have iff := selection_iff o lt user o.selection m m1 h g h2.sound
    obtain ⟨e1, e2, _⟩ := C30.extraction_effect lt user o.selection m1 g.conIds
    refine ⟨_, rfl, fun s hsm => ?_, fun σ hσ => ?_, fun σ hσ => ?_, fun σ => ?_⟩
    · have hc : ((structured (SelectionExtract.extract lt user o.selection m1)).con s) =
          { m1.con s with enabled := false } := by
        have := e1 s; rw [if_pos hsm] at this; exact this
      refine ⟨(SelectionExtract.chosen_raw lt user o.selection m1 s hsm).1, by rw [hc], fun v hv => ?_⟩
      rw [hc] at hv
      have hv' : (structured (SelectionExtract.extract lt user o.selection m1)).var v =
          { m1.var v with selection := some s, sense := .selection } := e2 s hsm v hv
      rw [hv']; exact ⟨rfl, rfl⟩
    · exact h2.sound σ ((iff σ).2 hσ)
    · obtain ⟨τ, t1, t2⟩ := h2.complete σ hσ
      exact ⟨τ, (iff τ).1 t1, t2⟩
    · exact h2.objective σ
  · rw [if_neg hs, if_neg hs]
    refine ⟨_, rfl, by simp, fun σ hσ => h2.sound σ hσ.1, fun σ hσ => ?_, h2.objective⟩
    obtain ⟨τ, t1, t2⟩ := h2.complete σ hσ
    exact ⟨τ, ⟨t1, by simp⟩, t2⟩

/-! ### A model meeting the conditions -/

def lt' (x y : ℕ) : Bool := decide (x < y)
def kinds : ℕ → VarSense := fun v => if v = 3 then .integer else .binary
def ex : MState := { Example.raw with
  var := fun v => if v = 3 then Example.int5 else Example.bin0
  varIds := [0, 1, 2, 3, 4]
  con := fun c => if c = 0 then Con.setup ⟨[(0, 1), (1, 1), (2, 1)], -1, 0⟩ .equal kinds
    else if c = 1 then Con.setup ⟨[(0, 1), (1, 1)], -1, 0⟩ .equal kinds
    else Con.setup ⟨[(0, 2), (3, 1)], -6, 0⟩ .less kinds
  conIds := [0, 1, 2, 3]
  obj := ⟨[(0, -2), (2, 1), (3, -1), (4, -1)], 0, 0⟩ }
/-- The default options without dependent variables. -/
def opts : Options :=
  { exclusiveOr := false, inverted := false, constantSum := false, constantDifference := false, constantRatio := false,
    intermediate := false }

theorem ex_var (v : ℕ) : ex.var v = Example.int5 ∨ ex.var v = Example.bin0 := by
  show (if v = 3 then Example.int5 else Example.bin0) = _ ∨ _
  by_cases h : v = 3
  · exact Or.inl (if_pos h)
  · exact Or.inr (if_neg h)

/-- `x0 + x1 + x2 = 1`, `x0 + x1 = 1`, `2 x0 + x3 ≤ 6` twice, `x4` free; all stages up to the selections are on. -/
example : Proper opts ex ∧ ∃ σ, Feasible ex σ := by
  refine ⟨⟨by decide, by decide, by decide, by decide, fun v => rfl, by decide +kernel, by decide +kernel, by decide +kernel,
    ?_, fun v _ => ?_, by decide +kernel, by decide +kernel, fun _ => by decide +kernel, fun _ => by decide +kernel,
    Or.inl (by decide)⟩, fun v => if v = 0 then 1 else 0, fun v => ?_, by decide +kernel⟩
  · have key : ∀ c ∈ ex.conIds, ∀ t ∈ (ex.con c).expr.terms, t.2 = 1 ∨ t.2 = 2 := by decide +kernel
    intro c hc t ht
    rcases key c hc t ht with h | h
    · exact ⟨by rw [h]; norm_num, 1, by rw [h]; rfl⟩
    · exact ⟨by rw [h]; norm_num, 2, by rw [h]; rfl⟩
  · rcases ex_var v with h | h <;> rw [h] <;> decide
  · by_cases h0 : v = 0
    · subst h0; decide
    · dsimp only
      rw [if_neg h0]
      rcases ex_var v with h | h <;> rw [h] <;> decide

/-! ### Counterexamples: without the restrictions -/

private def int10 : Var := { Example.int5 with ub := 10 }

/-- `x0 + x1 = 5`, `x0 + x1 + x2 ≤ 12`, all variables in `[0,10]`. -/
private def sumEx : MState := { Example.raw with
  var := fun _ => int10
  con := fun c => if c = 0 then Con.setup ⟨[(0, 1), (1, 1)], -5, 0⟩ .equal (fun _ => .integer)
    else Con.setup ⟨[(0, 1), (1, 1), (2, 1)], -12, 0⟩ .less (fun _ => .integer)
  conIds := [0, 1]
  obj := ⟨[(0, 1), (2, 1)], 0, 0⟩ }

private def isUndefined : Option (Outcome MState) → Bool
  | some .undefined => true
  | _ => false

/-- With the default options a feasible model leads to undefined behaviour: `x1` (say) is replaced by `5 - x0` in the second
constraint, which leaves the term `0 x0`, and the tightening of bounds divides by the coefficient and converts the
result to an integer. -/
theorem substitution_leads_to_undefined_behaviour : ∃ (m : MState) (lt : ℕ → ℕ → Bool),
    (∃ σ, Feasible m σ) ∧ reduce {} lt m = some .undefined := by
  refine ⟨sumEx, lt', ⟨fun v => if v = 0 then 5 else 0, fun v => ?_, by decide +kernel⟩, ?_⟩
  · by_cases h0 : v = 0
    · subst h0; decide
    · dsimp only; rw [if_neg h0]; show Admits int10 0; decide
  · have h : isUndefined (reduce {} lt' sumEx) = true := by decide +kernel
    generalize reduce {} lt' sumEx = r at h
    unfold isUndefined at h
    split at h
    · rfl
    · exact absurd h (by simp)

private def one1 : Var := { Example.bin0 with lb := 1, value := 1 }

/-- `x0 + x1 ≥ 1` with costs 1 and 2; `x1` has the bounds `[1,1]`. -/
private def coverEx : MState := { Example.raw with
  var := fun v => if v = 1 then one1 else Example.bin0
  varIds := [0, 1]
  con := fun _ => Con.setup ⟨[(0, 1), (1, 1)], -1, 0⟩ .greater (fun _ => .binary)
  conIds := [0]
  obj := ⟨[(0, 1), (1, 2)], 0, 0⟩ }

private theorem mergeSort_pair (r : ℕ → ℕ → Bool) (a b : ℕ) (h : r a b = true) : [a, b].mergeSort r = [a, b] :=
  List.mergeSort_of_pairwise (by rw [List.pairwise_cons]; exact ⟨by simpa using h, by simp⟩)

private def isOk : Option (Outcome MState) → Bool
  | some (.ok _) => true
  | _ => false
private def get (d : MState) : Option (Outcome MState) → MState
  | some (.ok m) => m
  | _ => d
private theorem eq_get (d : MState) (r : Option (Outcome MState)) (h : isOk r = true) : r = some (.ok (get d r)) := by
  unfold isOk at h
  split at h
  · rfl
  · exact absurd h (by simp)

private def cover1 : MState := structured (get coverEx (presolveStage {} lt' (structured coverEx)))
private def cover2 : MState := get coverEx (dependentStage {} lt' cover1)
private def cover3 : MState := dropDominated cover2 [0, 1]

private theorem cover_run : reduce {} lt' coverEx = some (.ok (structured (duplicateStage {} lt' cover2 cover3))) := by
  have h1 := eq_get coverEx (presolveStage {} lt' (structured coverEx)) (by decide +kernel)
  have h2 : dependentStage {} lt' cover1 = some (.ok cover2) := eq_get coverEx _ (by decide +kernel)
  have h3 : setVariableStage {} lt' cover2 = cover3 := by
    have hs : cover2.varIds.mergeSort (setVarLe cover2) = [0, 1] := by
      have : cover2.varIds = [0, 1] := by decide +kernel
      rw [this]
      exact mergeSort_pair _ 0 1 (by decide +kernel)
    have hl : ¬ cover2.conIds.length = 0 := by decide +kernel
    have hk : ¬ cover2.conIds.length ≠ (ofType lt' cover2 .setPartitioning ++ ofType lt' cover2 .setCovering ++
        ofType lt' cover2 .setPacking).length := by decide +kernel
    unfold setVariableStage
    rw [if_pos (by decide)]
    unfold removeRedundantSetVariables
    rw [if_neg hl, if_neg hk, hs]
    rfl
  unfold reduce
  rw [h1]
  show andThen (dependentStage {} lt' cover1) _ = _
  rw [h2]
  show some (Outcome.ok (structured (duplicateStage {} lt' cover2 (setVariableStage {} lt' cover2)))) = _
  rw [h3]

/-- Why 0/1 variables must not be fixed at 1: with the default options, a variable with the bounds `[1,1]` satisfies
the constraint, which is therefore disabled, and is then fixed at 0 as dominated by the other one.  What remains has no
constraint, and none of its solutions is a solution of the user's model, although that has one. -/
theorem bound_of_one_is_overwritten : ∃ (m m' : MState) (lt : ℕ → ℕ → Bool),
    (∃ σ, Feasible m σ) ∧ reduce {} lt m = some (.ok m') ∧ (∀ c ∈ m'.conIds, (m'.con c).enabled = false) ∧
      ∀ σ, Feasible m' σ → ¬ Feasible m σ := by
  refine ⟨coverEx, _, lt', ⟨fun v => if v = 1 then 1 else 0, fun v => ?_, by decide +kernel⟩, cover_run, by decide +kernel,
    fun σ h' h => ?_⟩
  · show Admits (if v = 1 then one1 else Example.bin0) (if v = 1 then 1 else 0)
    split <;> decide
  · have h1 := (h'.1 1).1 (by decide +kernel)
    have e : ((structured (duplicateStage {} lt' cover2 cover3)).var 1).value = 0 := by decide +kernel
    rw [e] at h1
    have h2 := (h.1 1).2 (by decide +kernel)
    have e2 : (coverEx.var 1).lb = 1 := by decide +kernel
    rw [e2, h1] at h2
    omega

/-- `x0 + x1 + x2 + x3 = 1`, and `x0 + x1 + x2 = 1` disabled by the user; costs 1, 1, 1 and -3. -/
private def offEx : MState := { Example.raw with
  var := fun _ => Example.bin0
  varIds := [0, 1, 2, 3]
  con := fun c => if c = 0 then Con.setup ⟨[(0, 1), (1, 1), (2, 1), (3, 1)], -1, 0⟩ .equal (fun _ => .binary)
    else { Con.setup ⟨[(0, 1), (1, 1), (2, 1)], -1, 0⟩ .equal (fun _ => .binary) with enabled := false }
  conIds := [0, 1]
  obj := ⟨[(0, 1), (1, 1), (2, 1), (3, -3)], 0, 0⟩ }
private def offOpts : Options := { setVariables := false, duplicates := false }
private def off1 : MState := dropSupersets (implicitStage offOpts lt' (structured offEx)) [0, 1]
private def off2 : MState := structured (get offEx (reduceProblemSize off1))
private def off3 : MState := get offEx (dependentStage offOpts lt' off2)

private theorem andThen_ok (m : MState) (f : MState → Option (Outcome MState)) : andThen (some (.ok m)) f = f m := rfl

private theorem off_run : reduce offOpts lt' offEx = some (.ok (structured off3)) := by
  have h1 : setConstraintStage offOpts lt' (structured offEx) (implicitStage offOpts lt' (structured offEx)) = off1 := by
    have hl : ofType lt' (structured offEx) .exclusiveOr ++ ofType lt' (structured offEx) .setPartitioning = [0, 1] := by
      decide +kernel
    unfold setConstraintStage
    rw [if_pos (by decide), hl]
    unfold removeRedundantSetConstraints
    rw [mergeSort_pair _ 0 1 (by decide +kernel)]
    rfl
  have h2 : presolveStage offOpts lt' (structured offEx) = some (.ok (get offEx (reduceProblemSize off1))) := by
    unfold presolveStage
    rw [if_pos (by decide), h1]
    exact eq_get offEx _ (by decide +kernel)
  have h3 : dependentStage offOpts lt' off2 = some (.ok off3) := eq_get offEx _ (by decide +kernel)
  unfold reduce
  rw [h2, andThen_ok]
  rw [show structured (get offEx (reduceProblemSize off1)) = off2 from rfl, h3, andThen_ok]
  unfold duplicateStage setVariableStage
  rw [if_neg (by decide), if_neg (by decide)]

/-- Why no constraint may be disabled by the user: a disabled set partitioning constraint still removes an enabled one
containing it and fixes the rest at 0.  The solution `x3 = 1` of cost -3 is lost, and no constraint is left. -/
theorem disabled_constraint_removes_enabled_one : ∃ (m m' : MState) (o : Options) (lt : ℕ → ℕ → Bool),
    (∃ σ, Feasible m σ ∧ minObjective m σ = -3) ∧ reduce o lt m = some (.ok m') ∧
      (∀ c ∈ m'.conIds, (m'.con c).enabled = false) ∧ ∀ σ, Feasible m' σ → 0 ≤ minObjective m σ := by
  refine ⟨offEx, _, offOpts, lt', ⟨fun v => if v = 3 then 1 else 0, ⟨fun v => ?_, by decide +kernel⟩, by decide +kernel⟩,
    off_run, by decide +kernel, fun σ h => ?_⟩
  · show Admits Example.bin0 (if v = 3 then 1 else 0)
    split <;> decide
  · have h3 := (h.1 3).1 (by decide +kernel)
    have e3 : ((structured off3).var 3).value = 0 := by decide +kernel
    rw [e3] at h3
    have pos : ∀ v : ℕ, ((structured off3).var v).fixed = false → ((structured off3).var v).lb = 0 → (0 : ℚ) ≤ σ v := by
      intro v hf hl
      have := ((h.1 v).2 hf).1
      rw [hl] at this
      exact_mod_cast this
    have p0 := pos 0 (by decide +kernel) (by decide +kernel)
    have p1 := pos 1 (by decide +kernel) (by decide +kernel)
    have p2 := pos 2 (by decide +kernel) (by decide +kernel)
    simp only [minObjective, exprValue, offEx, Example.raw, if_true, List.map_cons, List.map_nil, List.sum_cons,
      List.sum_nil, h3]
    push_cast
    linarith

end Printemps.C67
