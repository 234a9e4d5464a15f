import Verif.Model.Whole
import Verif.Spec.Feasible
import Verif.Lemmas.Verifier
import Verif.Lemmas.Example

/-! # C104 — without presolve and selections the searches work on the problem as it was built

`started i O = some m0` : the setup of a call for the problem `O` succeeds and the searches begin with the model `m0`. -/

namespace Printemps.C104
open Spec Setup Whole Verifier

/-! ## Specification -/

/-- The same problem: variables with the same bounds, kinds and fixings, constraints with the same sums, comparisons and
switches, the same objective, nothing made dependent. -/
structure SameProblem (O m : MState) : Prop where
  varIds : m.varIds = O.varIds
  bounds : ∀ v, (m.var v).lb = (O.var v).lb ∧ (m.var v).ub = (O.var v).ub
  kind : ∀ v, (m.var v).sense = (O.var v).sense
  fixed : ∀ v, (m.var v).fixed = (O.var v).fixed
  conIds : m.conIds = O.conIds
  expr : ∀ c, (m.con c).expr = (O.con c).expr
  sense : ∀ c, (m.con c).sense = (O.con c).sense
  enabled : ∀ c, (m.con c).enabled = (O.con c).enabled
  dependents : m.dependents = O.dependents
  obj : m.obj = O.obj
  isMin : m.isMin = O.isMin
  objDefined : m.objDefined = O.objDefined

/-- The initial values: those within the bounds are the user's, the others are the user's or at a bound; a fixed variable keeps
its value. -/
structure StartsAsGiven (O m : MState) : Prop where
  inside : ∀ v, (O.var v).lb ≤ (O.var v).value → (O.var v).value ≤ (O.var v).ub → (m.var v).value = (O.var v).value
  outside : ∀ v, (m.var v).value = (O.var v).value ∨ (m.var v).value = (O.var v).lb ∨ (m.var v).value = (O.var v).ub
  fixed : ∀ v, (O.var v).fixed = true → (m.var v).value = (O.var v).value

/-! ## Proof -/

/-- What the correction of a variable may do. -/
structure Corrects (x y : Var) : Prop where
  keeps : Keeps x y
  inside : x.lb ≤ x.value → x.value ≤ x.ub → y.value = x.value
  outside : y.value = x.value ∨ y.value = x.lb ∨ y.value = x.ub

theorem Corrects.refl (x : Var) : Corrects x x := ⟨Keeps.refl x, fun _ _ => rfl, Or.inl rfl⟩

theorem Corrects.trans {x y z : Var} (a : Corrects x y) (b : Corrects y z) : Corrects x z := by
  refine ⟨a.keeps.trans b.keeps, fun h1 h2 => ?_, ?_⟩
  · have e := a.inside h1 h2
    rw [b.inside (by rw [a.keeps.lb, e]; exact h1) (by rw [a.keeps.ub, e]; exact h2), e]
  · rcases b.outside with h | h | h
    · rw [h]; exact a.outside
    · rw [h, a.keeps.lb]; exact Or.inr (Or.inl rfl)
    · rw [h, a.keeps.ub]; exact Or.inr (Or.inr rfl)

theorem clip_corrects (x : Var) :
    Corrects x (x.setValueIfMutable (if x.value < x.lb then x.lb else if x.value > x.ub then x.ub else x.value)) := by
  refine ⟨keeps_mutable x _, fun h1 h2 => ?_, ?_⟩
  · rw [if_neg (by omega), if_neg (by omega)]
    unfold Var.setValueIfMutable
    split <;> rfl
  · unfold Var.setValueIfMutable
    split
    · exact Or.inl rfl
    · show (if x.value < x.lb then x.lb else if x.value > x.ub then x.ub else x.value) = _ ∨ _
      split
      · exact Or.inr (Or.inl rfl)
      · split
        · exact Or.inr (Or.inr rfl)
        · exact Or.inl rfl

theorem binaryStep_corrects (b : Bool) (x y : Var) (h : binaryStep b x = some y) : Corrects x y := by
  unfold binaryStep at h
  split at h
  · cases h; exact Corrects.refl _
  split at h
  · cases h
  split at h
  · cases h
  · cases h; exact clip_corrects x

theorem integerStep_corrects (b : Bool) (x y : Var) (h : integerStep b x = some y) : Corrects x y := by
  unfold integerStep at h
  split at h
  · cases h; exact Corrects.refl _
  split at h
  · cases h
  split at h
  · cases h
  · cases h; exact clip_corrects x

theorem overVars_corrects (p : Var → Bool) (f : Var → Option Var) (hf : ∀ x y, f x = some y → Corrects x y) (vs : List ℕ) :
    ∀ m m' : MState, overVars p f vs m = some m' → { m' with var := m.var } = m ∧ ∀ v, Corrects (m.var v) (m'.var v) := by
  induction vs with
  | nil =>
    intro m m' h
    obtain rfl := Option.some.inj h
    exact ⟨rfl, fun _ => Corrects.refl _⟩
  | cons v vs ih =>
    intro m m' h
    unfold overVars at h
    split at h
    · obtain ⟨x, h1, h2⟩ := Option.bind_eq_some_iff.1 h
      obtain ⟨e, c⟩ := ih _ _ h2
      refine ⟨?_, fun w => ?_⟩
      · have := congrArg (fun n : MState => { n with var := m.var }) e
        exact this
      · refine Corrects.trans ?_ (c w)
        show Corrects (m.var w) (Function.update m.var v x w)
        by_cases hw : w = v
        · subst hw; rw [Function.update_self]; exact hf _ _ h1
        · rw [Function.update_of_ne hw]; exact Corrects.refl _
    · exact ih _ _ h

theorem verifyAll_nil (b : Bool) (n m : MState) (h : verifyAll b [] n = some m) :
    { m with var := n.var } = n ∧ ∀ v, Corrects (n.var v) (m.var v) := by
  have e : verifyAll b [] n = (overVars (fun x => x.sense == .binary) (binaryStep b) n.varIds n).bind fun k =>
      overVars (fun x => x.sense == .integer) (integerStep b) k.varIds k := rfl
  rw [e] at h
  obtain ⟨k, h1, h2⟩ := Option.bind_eq_some_iff.1 h
  obtain ⟨f1, c1⟩ := overVars_corrects _ _ (binaryStep_corrects _) _ _ _ h1
  obtain ⟨f2, c2⟩ := overVars_corrects _ _ (integerStep_corrects _) _ _ _ h2
  refine ⟨?_, fun v => (c1 v).trans (c2 v)⟩
  have := congrArg (fun x : MState => { x with var := n.var }) f2
  exact this.trans f1

theorem same_of_corrects (n m : MState) (h : { m with var := n.var } = n) (c : ∀ v, Corrects (n.var v) (m.var v)) :
    SameProblem n m := by
  have f : ∀ {α : Type} (g : MState → α), g { m with var := n.var } = g n := fun g => congrArg g h
  exact {
    varIds := f MState.varIds
    bounds := fun v => ⟨(c v).keeps.lb, (c v).keeps.ub⟩
    kind := fun v => (c v).keeps.sense
    fixed := fun v => (c v).keeps.fixed
    conIds := f MState.conIds
    expr := fun k => f fun n => (n.con k).expr
    sense := fun k => f fun n => (n.con k).sense
    enabled := fun k => f fun n => (n.con k).enabled
    dependents := f MState.dependents
    obj := f MState.obj
    isMin := f MState.isMin
    objDefined := f MState.objDefined }

theorem SameProblem.trans {a b c : MState} (p : SameProblem a b) (q : SameProblem b c) : SameProblem a c := {
  varIds := q.varIds.trans p.varIds
  bounds := fun v => ⟨(q.bounds v).1.trans (p.bounds v).1, (q.bounds v).2.trans (p.bounds v).2⟩
  kind := fun v => (q.kind v).trans (p.kind v)
  fixed := fun v => (q.fixed v).trans (p.fixed v)
  conIds := q.conIds.trans p.conIds
  expr := fun k => (q.expr k).trans (p.expr k)
  sense := fun k => (q.sense k).trans (p.sense k)
  enabled := fun k => (q.enabled k).trans (p.enabled k)
  dependents := q.dependents.trans p.dependents
  obj := q.obj.trans p.obj
  isMin := q.isMin.trans p.isMin
  objDefined := q.objDefined.trans p.objDefined }

theorem same_structured (m : MState) : SameProblem m (structured m) :=
  ⟨rfl, fun _ => ⟨rfl, rfl⟩, fun _ => rfl, fun _ => rfl, rfl, fun _ => rfl, fun _ => rfl, fun _ => rfl, rfl, rfl, rfl, rfl⟩

theorem same_final (m : MState) (p : ℚ) :
    SameProblem m (Search.setPenalties { m.setupSens with globalPen := p } (fun _ => p) (fun _ => p)) :=
  ⟨rfl, fun _ => ⟨rfl, rfl⟩, fun _ => rfl, fun _ => rfl, rfl, fun _ => rfl, fun _ => rfl, fun _ => rfl, rfl, rfl, rfl, rfl⟩

theorem structured_var (m : MState) : (structured m).var = m.var := rfl

/-- **Without presolve and selections** the model of the searches is the problem of the user, and the initial values are the
user's as far as they are within the bounds. -/
theorem problem_as_built (i : Input) (O m0 : MState) (hp : i.options.presolve = false) (hs : i.options.selection = .off)
    (h : started i O = some m0) : SameProblem O m0 ∧ StartsAsGiven O m0 := by
  have hred : reduce i.options i.lt O = some (.ok (structured (structured (structured O)))) := by
    unfold reduce presolveStage dependentStage setVariableStage duplicateStage
    simp only [hp, Bool.false_and, Bool.false_eq_true, if_false, andThen]
  have hprep : prepare i.options i.lt i.user O = some (.ok (structured (structured (structured (structured O))))) := by
    unfold prepare
    rw [hred]
    simp only [andThen, hs, ne_eq, not_true, false_and, if_false]
  have hsel : Setup.selections i.options i.lt i.user O = [] := by
    unfold Setup.selections
    rw [hred]
    simp only [hs, ne_eq, not_true, false_and, if_false]
  unfold started at h
  rw [hprep, hsel] at h
  dsimp only at h
  have ho : SameProblem O (structured (structured (structured (structured O)))) :=
    (((same_structured _).trans (same_structured _)).trans (same_structured _)).trans (same_structured _)
  have hv : (structured (structured (structured (structured O)))).var = O.var := by
    simp only [structured_var]
  generalize structured (structured (structured (structured O))) = n at h ho hv
  unfold launch at h
  obtain ⟨m1, h1, h2⟩ := Option.bind_eq_some_iff.1 h
  obtain ⟨m2, h3, rfl⟩ := Option.map_eq_some_iff.1 h2
  have e2 : m1 = m2 := by
    unfold gf2Stage at h3
    rw [hp] at h3
    simp only [Bool.false_and, Bool.false_eq_true, if_false, Option.some.injEq] at h3
    exact h3
  subst e2
  obtain ⟨f, c⟩ := verifyAll_nil _ _ _ h1
  refine ⟨(ho.trans (same_of_corrects _ _ f c)).trans (same_final _ _), ?_⟩
  rw [hv] at c
  exact ⟨fun v => (c v).inside, fun v => (c v).outside, fun v hv => congrArg Var.value ((c v).keeps.same hv)⟩

/-- **The same assignments are feasible** for the user's problem and for the model of the searches, **with the same objective**. -/
theorem same_solutions (i : Input) (O m0 : MState) (hp : i.options.presolve = false) (hs : i.options.selection = .off)
    (h : started i O = some m0) (σ : ℕ → ℤ) :
    (Feasible m0 σ ↔ Feasible O σ) ∧ exprValue m0.obj σ = exprValue O.obj σ := by
  obtain ⟨p, q⟩ := problem_as_built i O m0 hp hs h
  refine ⟨?_, by rw [p.obj]⟩
  have hb : InBounds m0.var σ ↔ InBounds O.var σ := by
    refine forall_congr' fun v => ?_
    unfold Admits
    rw [p.fixed v, (p.bounds v).1, (p.bounds v).2]
    refine and_congr ⟨fun g e => ?_, fun g e => ?_⟩ Iff.rfl
    · rw [g e, q.fixed v e]
    · rw [g e, q.fixed v e]
  have hc : ∀ c, Holds (m0.con c) σ ↔ Holds (O.con c) σ := fun c => by
    unfold Holds
    rw [p.sense c, p.expr c]
  unfold Feasible
  rw [hb, p.conIds]
  exact and_congr Iff.rfl (forall_congr' fun c => by rw [p.enabled c, hc c])

/-! ## A case: a parity equation and an initial value out of range -/

/-- a binary variable -/
private def b : Var := { Var.init with lb := 0, ub := 1, sense := .binary, hasBounds := true, hasLowerMargin := false }
/-- an integer variable within 0 and 5, with a value out of range -/
private def z : Var := { Var.init with lb := 0, ub := 5, value := 9, hasBounds := true, hasUpperMargin := false }
private def kinds : ℕ → VarSense := fun v => if v = 2 then .integer else .binary
private def ex : MState := { Example.raw with
  var := fun v => if v = 2 then z else b
  varIds := [0, 1, 2]
  con := fun _ => Con.setup ⟨[(0, 1), (1, 1), (2, -2)], 0, 0⟩ .equal kinds
  conIds := [0]
  obj := ⟨[(0, -1), (1, 1)], 0, 0⟩ }
private def opts : Options := { presolve := false, selection := .off }
private def inp (o : Options) : Input := ⟨o, fun a b => decide (a < b), fun _ => false, true, 100, [0, 1]⟩

/-- the call starts, its constraint is a parity equation, which the presolve would have switched off, and the value out of range is
corrected -/
example : (started (inp opts) ex).isSome ∧ ofType (fun a b => decide (a < b)) ex .gf2 = [0] ∧
    (started (inp opts) ex).map (fun m => ((m.var 2).value, (m.con 0).enabled, m.dependents)) = some (5, true, []) ∧
    (started (inp { opts with presolve := true }) ex).map (fun m => ((m.var 2).value, (m.con 0).enabled, m.dependents))
      ≠ some (5, true, []) := by
  decide +kernel

end Printemps.C104
