import Verif.Model.Model
import Verif.Model.SparseMatrix

/-! # Model of the LP relaxation: `Model::export_lp_instance`, `LinearProgramming::scaling` and the dual side
of PDLP

`none` is a thrown exception.  Square roots are a parameter. -/

namespace Printemps.Lp
open Sparse (Entry Matrix)

/-- `struct LinearProgramming`, linear_programming/linear_programming.h:11-36 (initial solutions are not
modelled).  A dual lower bound `none` is `numeric_limits<double>::lowest()`; all dual upper bounds are
`numeric_limits<double>::max()` and not modelled. -/
structure LP where
  rows : ℕ
  cols : ℕ
  offset : ℚ
  c : List ℚ
  lb : List ℚ
  ub : List ℚ
  A : Matrix
  lowerUnbounded : List Bool
  upperUnbounded : List Bool
  b : List ℚ
  dualLb : List (Option ℚ)
  At : Matrix
  less : ℕ × ℕ
  equal : ℕ × ℕ
  greater : ℕ × ℕ
  isMin : Bool

/-- The mutable variables in the order of their index: binary, integer, selection
(`mutable_variable_index_map`), model/model.h:1401-1425. -/
def columns (m : MState) : List VarId :=
  m.varIds.filter (fun v => (m.var v).sense == .binary && !(m.var v).fixed) ++
  (m.varIds.filter (fun v => (m.var v).sense == .integer && !(m.var v).fixed) ++
   m.varIds.filter (fun v => (m.var v).sense == .selection && !(m.var v).fixed))

/-- The enabled constraints of a sense, model/model.h:1429-1434, 1445-1450, 1455-1460. -/
def enabledOf (m : MState) (s : Sense) : List ConId :=
  m.conIds.filter (fun c => (m.con c).sense == s && (m.con c).enabled)

/-- The constraints of the selections that are disabled, model/model.h:1438-1443.  `sels` lists the constraint
of each selection. -/
def selectionRows (m : MState) (sels : List ConId) : List ConId := sels.filter (fun c => !(m.con c).enabled)

/-- The rows in the order of their index (`enabled_constraint_index_map`), model/model.h:1427-1462. -/
def rowCons (m : MState) (sels : List ConId) : List ConId :=
  enabledOf m .less ++ ((selectionRows m sels ++ enabledOf m .equal) ++ enabledOf m .greater)

/-- `objective_offset`, model/model.h:1467-1474. -/
def fixedOffset (m : MState) : ℚ :=
  (m.varIds.filter (fun v => (m.var v).fixed)).foldl (fun a v => a + ((m.var v).value : ℚ) * m.objSens v) 0

/-- Constant plus fixed terms of a constraint, model/model.h:1528-1534. -/
def fixedPart (m : MState) (e : Expr) : ℚ :=
  e.terms.foldl (fun a t => if (m.var t.1).fixed then a + ((m.var t.1).value : ℚ) * t.2 else a) e.const

/-- One entry of `dual_objective_coefficients`, model/model.h:1536-1541. -/
def rhs (m : MState) (c : ConId) : ℚ :=
  if (m.con c).sense = .less then fixedPart m (m.con c).expr else - fixedPart m (m.con c).expr

/-- The nonzeros of one row, sorted by column, model/model.h:1567-1597.  `forward_at` throws for a variable
that is neither fixed nor in the index map. -/
def rowRecords (m : MState) (cols : List VarId) (i : ℕ) (c : ConId) : Option (List Entry) :=
  let ts := (m.con c).expr.terms.filter (fun t => !(m.var t.1).fixed)
  if ts.all (fun t => decide (t.1 ∈ cols)) then
    some ((ts.map (fun t => (⟨i, cols.idxOf t.1, if (m.con c).sense = .less then -t.2 else t.2⟩ : Entry))).mergeSort
      (fun a b => decide (a.col ≤ b.col)))
  else none

/-- The loop over the rows, model/model.h:1560-1602. -/
def records (m : MState) (cols : List VarId) : ℕ → List ConId → Option (List Entry)
  | _, [] => some []
  | i, c :: cs => (rowRecords m cols i c).bind fun r => (records m cols (i + 1) cs).map fun rest => r ++ rest

/-- `export_lp_instance`, model/model.h:1387-1629. -/
def exportLP (m : MState) (sels : List ConId) : Option LP :=
  let vs := columns m
  let cs := rowCons m sels
  let nl := (enabledOf m .less).length
  let ne := nl + (selectionRows m sels ++ enabledOf m .equal).length
  (records m vs 0 cs).bind fun es =>
  (Sparse.construct es cs.length vs.length).bind fun A =>
  (Sparse.transpose A).map fun At =>
    { rows := cs.length
      cols := vs.length
      offset := if m.isMin then fixedOffset m else fixedOffset m * -1
      c := vs.map (fun v => if m.isMin then m.objSens v else m.objSens v * -1)
      lb := vs.map (fun v => ((m.var v).lb : ℚ))
      ub := vs.map (fun v => ((m.var v).ub : ℚ))
      A := A
      lowerUnbounded := vs.map (fun v => decide ((m.var v).lb < INT_HALF_MIN / 2))
      upperUnbounded := vs.map (fun v => decide ((m.var v).ub > INT_HALF_MAX / 2))
      b := cs.map (rhs m)
      dualLb := (List.range cs.length).map (fun i => if i < nl then some 0 else if i < ne then none else some 0)
      At := At
      less := (0, nl)
      equal := (nl, ne)
      greater := (ne, cs.length)
      isMin := m.isMin }

/-- The scaled matrix, linear_programming/linear_programming.h:75-83. -/
def scaledMatrix (sqrtf : ℚ → ℚ) (ruizCount : ℕ) (pock : Bool) (A : Matrix) : Matrix :=
  let A1 := if ruizCount > 0 then Sparse.ruiz sqrtf ruizCount A else A
  if pock then Sparse.pockChambolle sqrtf A1 else A1

/-- `Diagonal::dot(Vector*)`, utility/sparse/diagonal.h:110-121 (sizes agree). -/
def diag (d : ℕ → ℚ) (x : List ℚ) : List ℚ := x.mapIdx (fun i v => v * d i)

/-- `LinearProgramming::scaling`, linear_programming/linear_programming.h:73-104. -/
def scaling (sqrtf : ℚ → ℚ) (ruizCount : ℕ) (pock : Bool) (lp : LP) : Option LP :=
  let A := scaledMatrix sqrtf ruizCount pock lp.A
  (Sparse.transpose A).map fun At =>
    { lp with
      A := A
      At := At
      c := diag (fun j => 1 / A.colScaler j) lp.c
      lb := diag A.colScaler lp.lb
      ub := diag A.colScaler lp.ub
      b := diag (fun i => 1 / A.rowScaler i) lp.b
      dualLb := lp.dualLb.mapIdx (fun i l => l.map (fun l => l * A.rowScaler i)) }

/-- `Vector::dot`, utility/sparse/vector.h:215-224 (sizes agree). -/
def inner (x y : List ℚ) : ℚ := (List.zipWith (fun a b => a * b) x y).foldl (fun a v => a + v) 0

/-- Clipping of the reduced costs, solver/pdlp/core/pdlp_core_state_manager.h:480-490. -/
def clip (upper lower : Bool) (r : ℚ) : ℚ :=
  let r1 := if upper then max r 0 else r
  if lower then min r1 0 else r1

/-- `c - Aᵀ y`, solver/pdlp/core/pdlp_core_state_manager.h:474-478. -/
def rawCosts (lp : LP) (y : List ℚ) : Option (List ℚ) := Sparse.linearCombination (-1) lp.At y 1 lp.c

/-- The reduced costs after clipping, solver/pdlp/core/pdlp_core_state_manager.h:474-490. -/
def reducedCosts (lp : LP) (y : List ℚ) : Option (List ℚ) :=
  (rawCosts lp y).map fun r =>
    r.mapIdx (fun j v => clip (lp.upperUnbounded.getD j false) (lp.lowerUnbounded.getD j false) v)

/-- `dual.objective` of `update_objective`, solver/pdlp/core/pdlp_core_state_manager.h:473-514. -/
def dualObjective (lp : LP) (y : List ℚ) : Option ℚ :=
  (reducedCosts lp y).map fun r =>
    let reduced := (r.mapIdx (fun j v => if v > 0 then v * lp.lb.getD j 0 else v * lp.ub.getD j 0)).foldl
      (fun a v => a + v) 0
    inner y lp.b + reduced + lp.offset

/-- The dual residual `c - Aᵀ y - r` of `update_violation`, solver/pdlp/core/pdlp_core_state_manager.h:546-551. -/
def residual (lp : LP) (y : List ℚ) : Option (List ℚ) :=
  (rawCosts lp y).bind fun c => (reducedCosts lp y).map fun r => List.zipWith (fun a b => a + -1 * b) c r

/-- The dual side of the PDLP state: solution, average, weight of the average, the last reported objective
and residual, and the number of restarts (`outer_iteration`), solver/pdlp/core/pdlp_core_state.h,
primal_dual_state.h. -/
structure DualState where
  y : List ℚ
  average : List ℚ
  total : ℚ
  objective : ℚ
  residual : List ℚ
  outer : ℕ

/-- What one iteration of `PDLPCore::run` chooses: the dual point before clamping and the accepted step size of
`update_solution` (solver/pdlp/core/pdlp_core_state_manager.h:264-349), whether convergence information is
updated, and whether to restart, from the current (`true`) or the average solution
(solver/pdlp/core/pdlp_core.h:365-390).  Simplification: these are inputs, so theorems hold for every
way of computing them. -/
structure Event where
  trial : List ℚ
  step : ℚ
  converge : Bool
  restart : Option Bool

/-- `Vector::clamp` with the dual bounds, utility/sparse/vector.h:174-190. -/
def clampDual (lbs : List (Option ℚ)) (y : List ℚ) : List ℚ :=
  List.zipWith (fun l v => match l with | none => v | some l => max v l) lbs y

/-- `Vector::learn`, utility/sparse/vector.h:234-249. -/
def learn (rate : ℚ) (avg y : List ℚ) : List ℚ := List.zipWith (fun a v => (1 - rate) * a + rate * v) avg y

/-- `update_convergence_information`, solver/pdlp/core/pdlp_core_state_manager.h:466-557. -/
def converge (lp : LP) (s : DualState) : Option DualState :=
  (dualObjective lp s.average).bind fun o => (residual lp s.average).map fun r => { s with objective := o, residual := r }

/-- One iteration, solver/pdlp/core/pdlp_core.h:362-391; the restart is `update_restart_solution` and
`setup_new_inner_loop`, solver/pdlp/core/pdlp_core_state_manager.h:442-446, 121-147: the first restart empties the
average. -/
def iterate (lp : LP) (s : DualState) (e : Event) : Option DualState :=
  let y := clampDual lp.dualLb e.trial
  let total := s.total + e.step
  let s1 := { s with y := y, total := total, average := learn (e.step / total) s.average y }
  (if e.converge then converge lp s1 else some s1).map fun s2 =>
    match e.restart with
    | none => s2
    | some current =>
      let y := if current then s2.y else s2.average
      if s2.outer = 0 then { s2 with y := y, average := List.replicate y.length 0, total := 0, outer := s2.outer + 1 }
      else { s2 with y := y, average := y, total := 1, outer := s2.outer + 1 }

/-- `setup` and the first steps of `run`, solver/pdlp/core/pdlp_core_state_manager.h:39-94, 121-130;
solver/pdlp/core/pdlp_core.h:288-314. -/
def start (lp : LP) : Option DualState :=
  let zero := List.replicate lp.rows 0
  (converge lp { y := zero, average := zero, total := 0, objective := 0, residual := [], outer := 0 })

/-- `PDLPCore::run` for a history of iterations, solver/pdlp/core/pdlp_core.h:276-397. -/
def run (lp : LP) (es : List Event) : Option DualState :=
  (start lp).bind fun s => es.foldlM (iterate lp) s

/-- The controller's update of the dual bound, solver/pdlp/controller/pdlp_controller.h:187-206; `small` is the
test of the relative violation norm. -/
def controllerBound (isMin small : Bool) (objective bound : ℚ) : ℚ :=
  if small then
    if isMin then (if objective > bound then objective else bound)
    else if -objective < bound then -objective else bound
  else bound

end Printemps.Lp
