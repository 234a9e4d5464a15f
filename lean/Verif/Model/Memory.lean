import Verif.Model.Model

/-! # Model of `Memory`, solver/memory.h

The counters that live in the variables and constraints (`update_count`, `violation_count`,
`local_last_update_iteration`, `global_last_update_iteration`) are collected here; `long` and `double` do not
overflow or round. -/

namespace Printemps.Memory

/-- The members of `Memory`, solver/memory.h:20-34, with the counters of variables and constraints
(model_component/variable.h:267-312, constraint.h:1080-1092). -/
structure Mem where
  updateCount : VarId → ℕ
  violationCount : ConId → ℕ
  localLast : VarId → ℤ
  globalLast : VarId → ℤ
  total : ℕ
  totalReciprocal : ℚ
  totalViolation : ℕ
  primalNum : ℚ
  primalIntensity : ℚ
  dualNum : ℚ
  dualIntensity : ℚ

/-- `setup`, solver/memory.h:67-83 with `initialize`, 47-64; the local last update of every variable becomes
a constant, here `reset` (model_component/variable.h:267-276). -/
def setup (reset : ℤ) (globalLast : VarId → ℤ) : Mem :=
  { updateCount := fun _ => 0, violationCount := fun _ => 0
    localLast := fun _ => reset, globalLast := globalLast
    total := 0, totalReciprocal := 0, totalViolation := 0
    primalNum := 0, primalIntensity := 0, dualNum := 0, dualIntensity := 0 }

/-- Loop over the alterations, solver/memory.h:108-128; each variable comes with the random number drawn for
it (0 if the random width is 0). -/
def recordAlterations (iteration : ℤ) : List (VarId × ℤ) → Mem → Mem
  | [], s => s
  | (v, r) :: rest, s =>
    recordAlterations iteration rest
      { s with
        localLast := Function.update s.localLast v (iteration + r)
        globalLast := Function.update s.globalLast v s.total
        primalNum := s.primalNum + (2 * s.updateCount v + 1)
        updateCount := Function.update s.updateCount v (s.updateCount v + 1)
        total := s.total + 1 }

/-- Loop over the violated constraints, solver/memory.h:130-136. -/
def recordViolations : List ConId → Mem → Mem
  | [], s => s
  | c :: rest, s =>
    recordViolations rest
      { s with
        dualNum := s.dualNum + (2 * s.violationCount c + 1)
        violationCount := Function.update s.violationCount c (s.violationCount c + 1)
        totalViolation := s.totalViolation + 1 }

/-- `update`, solver/memory.h:102-153. -/
def update (iteration : ℤ) (alts : List (VarId × ℤ)) (violated : List ConId) (s : Mem) : Mem :=
  let s := recordViolations violated (recordAlterations iteration alts s)
  let r : ℚ := 1 / (max 1 s.total : ℕ)
  let q : ℚ := 1 / (max 1 s.totalViolation : ℕ)
  { s with
    totalReciprocal := r
    primalIntensity := s.primalNum * (r * r)
    dualIntensity := s.dualNum * (q * q) }

/-- `reset_local_last_update_iterations`, solver/memory.h:156-161. -/
def resetLocalLast (reset : ℤ) (s : Mem) : Mem := { s with localLast := fun _ => reset }

end Printemps.Memory
