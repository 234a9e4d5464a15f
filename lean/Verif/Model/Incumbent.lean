import Verif.Model.Model

/-! # Model of `solution/incumbent_holder.h` -/

namespace Printemps

/-- The members of `IncumbentHolder`, solution/incumbent_holder.h:24-47.  `none` is the default objective
`HUGE_VALF` (incumbent_holder.h:13-14), and a solution / score that was never assigned. -/
structure Holder (α : Type) where
  found : Bool := false
  localObj : Option ℚ := none
  localSol : Option α := none
  localScore : Option Score := none
  globalObj : Option ℚ := none
  globalSol : Option α := none
  globalScore : Option Score := none
  feasObj : Option ℚ := none
  feasSol : Option α := none
  feasScore : Option Score := none

/-- The comparison `x + EPSILON < stored`, incumbent_holder.h:83, 94, 106 (`HUGE_VALF` when never set). -/
def beats (x : ℚ) : Option ℚ → Bool
  | none => true
  | some o => decide (x + EPSILON < o)

/-- `IncumbentHolder::initialize`, incumbent_holder.h:56-70. -/
def Holder.init {α} : Holder α := {}

/-- `try_update_incumbent(solution, score)`, incumbent_holder.h:73-120; returns the status. -/
def Holder.tryUpdate {α} (h : Holder α) (sol : α) (sc : Score) : Holder α × ℕ :=
  let bl := beats sc.localAug h.localObj
  let bg := beats sc.globalAug h.globalObj
  let bf := sc.isFeasible && beats sc.objective h.feasObj
  ({ found := h.found || sc.isFeasible
     localObj := if bl then some sc.localAug else h.localObj
     localSol := if bl then some sol else h.localSol
     localScore := if bl then some sc else h.localScore
     globalObj := if bg then some sc.globalAug else h.globalObj
     globalSol := if bg then some sol else h.globalSol
     globalScore := if bg then some sc else h.globalScore
     feasObj := if bf then some sc.objective else h.feasObj
     feasSol := if bf then some sol else h.feasSol
     feasScore := if bf then some sc else h.feasScore },
   (if bl then 1 else 0) + (if bg then 2 else 0) + (if bf then 4 else 0))

/-- `try_update_incumbent(model_ptr, score)`, incumbent_holder.h:123-189: the model is refreshed
(`refresh`) and exported (`exp`) at most once, at the first slot that improves. -/
def Holder.tryUpdateModel {α S} (refresh : S → S) (exp : S → α) (h : Holder α) (m : S) (sc : Score) :
    Holder α × S × ℕ :=
  -- local slot
  let bl := beats sc.localAug h.localObj
  let m1 := if bl then refresh m else m
  let s1 : Option α := if bl then some (exp m1) else none
  let h1 := if bl then { h with localObj := some sc.localAug, localSol := s1, localScore := some sc } else h
  -- global slot
  let bg := beats sc.globalAug h1.globalObj
  let m2 := if bg && s1.isNone then refresh m1 else m1
  let s2 : Option α := if bg && s1.isNone then some (exp m2) else s1
  let h2 := if bg then { h1 with globalObj := some sc.globalAug, globalSol := s2, globalScore := some sc } else h1
  -- feasible slot
  let h3 := if sc.isFeasible then { h2 with found := true } else h2
  let bf := sc.isFeasible && beats sc.objective h3.feasObj
  let m3 := if bf && s2.isNone then refresh m2 else m2
  let s3 : Option α := if bf && s2.isNone then some (exp m3) else s2
  let h4 := if bf then { h3 with feasObj := some sc.objective, feasSol := s3, feasScore := some sc } else h3
  (h4, m3, (if bl then 1 else 0) + (if bg then 2 else 0) + (if bf then 4 else 0))

/-- `reset_local_augmented_incumbent`, incumbent_holder.h:192-195 (only the objective is reset). -/
def Holder.resetLocal {α} (h : Holder α) : Holder α := { h with localObj := none }

/-- One call on the holder. -/
inductive HolderCall (α : Type) where
  | offer (sol : α) (sc : Score)
  | resetLocal

/-- Effect of a call. -/
def Holder.step {α} (h : Holder α) : HolderCall α → Holder α
  | .offer s sc => (h.tryUpdate s sc).1
  | .resetLocal => h.resetLocal

end Printemps
