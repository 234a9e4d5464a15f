import Verif.Lemmas.Update

/-! A small concrete model used to show that hypotheses of theorems are met:
minimise `-2*x0 + x1 + 3*x2`, `c0: x0 + x1 <= 1`, `c1: 2*x0 - x2 >= 1`, `c2: x1 + x2 = 1`,
`x0, x1` binary, `x2` in `[0,5]`; start at all zero. -/

namespace Printemps.Example
open Spec

/-- binary variable at 0 -/
def bin0 : Var := { Var.init with lb := 0, ub := 1, sense := .binary, hasBounds := true,
                                  hasLowerMargin := false, hasUpperMargin := true }
/-- integer variable in [0,5] at 0 -/
def int5 : Var := { Var.init with lb := 0, ub := 5, hasBounds := true,
                                  hasLowerMargin := false, hasUpperMargin := true }

def senses : ℕ → VarSense := fun v => if v = 2 then .integer else .binary

def c0 : Con := { Con.setup ⟨[(0, 1), (1, 1)], -1, 0⟩ .less senses with penLess := 10, penGreater := 10 }
def c1 : Con := { Con.setup ⟨[(0, 2), (2, -1)], -1, 0⟩ .greater senses with penLess := 10, penGreater := 20 }
def c2 : Con := { Con.setup ⟨[(1, 1), (2, 1)], -1, 0⟩ .equal senses with penLess := 5, penGreater := 7 }

def raw : MState :=
  { var := fun v => if v = 2 then int5 else bin0
    varIds := [0, 1, 2]
    con := fun c => if c = 0 then c0 else if c = 1 then c1 else c2
    conIds := [0, 1, 2]
    uexpr := fun _ => { expr := ⟨[], 0, 0⟩ }
    uexprIds := []
    dependents := []
    obj := ⟨[(0, -2), (1, 1), (2, 3)], 0, 0⟩
    objValue := 0
    objDefined := true
    isMin := true
    globalPen := 100
    userDefinedMoves := false
    sens := fun _ => []
    objSens := fun _ => 0
    selected := fun _ => none
    violative := []
    feasible := false }

/-- the model after `setup_variable_constraint_sensitivities()` and `update()` -/
def model : MState := raw.setupSens.setupObjSens.update

theorem raw_wf : WellFormed raw.setupSens.setupObjSens where
  conIds := by decide
  con c hc := by
    simp only [raw, MState.setupSens, MState.setupObjSens, List.mem_cons, List.not_mem_nil, or_false] at hc ⊢
    rcases hc with rfl | rfl | rfl <;> decide
  obj := by decide
  uexpr i hi := by simp [raw, MState.setupSens, MState.setupObjSens] at hi

theorem shape : SameShape raw.setupSens.setupObjSens model := MState.update_shape _

theorem wf : WellFormed model := (MState.update_shape _).wellFormed raw_wf

theorem current : Current model := MState.update_current _ (by
  intro i hi; simp [raw, MState.setupSens, MState.setupObjSens] at hi)

theorem assignment_eq (v) : assignment model v = 0 := by
  simp only [assignment, model, MState.update, MState.updateFeasibility, MState.updateObj,
    MState.updateCons, MState.updateDependents, MState.updateExprs, raw, MState.setupSens,
    MState.setupObjSens, List.foldl_nil, if_true]
  split <;> rfl

theorem assignment_fun : assignment model = fun _ => 0 := funext assignment_eq

/-- flip x0 and set x2 to 1 -/
def move : Move := { alterations := [(0, 1), (2, 1)], related := [0, 1, 2] }

theorem fixed_eq (v) : (model.var v).fixed = false := by
  simp only [model, MState.update, MState.updateFeasibility, MState.updateObj,
    MState.updateCons, MState.updateDependents, MState.updateExprs, raw, MState.setupSens,
    MState.setupObjSens, List.foldl_nil, if_true]
  split <;> rfl

theorem good : GoodMove model move.alterations := ⟨by decide, fun a _ => fixed_eq a.1⟩

theorem covers : Covers model move.alterations move.related where
  nodup := List.Nodup.filter _ (by decide)
  mem c hc := by
    rw [show model.conIds = [0, 1, 2] from (MState.update_shape _).conIds]; exact hc
  covers c hc _ _ := by
    rw [show model.conIds = [0, 1, 2] from (MState.update_shape _).conIds] at hc; exact hc

end Printemps.Example
