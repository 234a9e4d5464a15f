import Verif.Model.Verifier
import Verif.Model.Incumbent

/-! # Model of solutions: export, import, distance, fixing by name, and the frame of `Solver`

solution/*.h, model/model.h:3207-3412, utility/unordered_map_utility.h, solver/solver.h.
`name v` is the name of variable `v`. -/

namespace Printemps

/-- A `std::unordered_map` with string keys: pairs in the order of iteration (any order; the theorems hold for
every order). -/
abbrev StrMap (β : Type) := List (String × β)

namespace StrMap

/-- `find` / `at`. -/
def get {β : Type} (m : StrMap β) (k : String) : Option β := (m.find? (fun e => e.1 == k)).map Prod.snd

/-- `map[key] = value`. -/
def put {β : Type} (m : StrMap β) (k : String) (x : β) : StrMap β :=
  if m.any (fun e => e.1 == k) then m.map (fun e => if e.1 == k then (e.1, x) else e) else m ++ [(k, x)]

end StrMap

namespace Sol

/-- `DenseSolution`, solution/dense_solution.h:12-22.  Simplification: the value proxies are functions of the
variables and constraints; the names of the proxies are those of the model. -/
structure Dense where
  values : VarId → ℤ
  objective : ℚ
  totalViolation : ℚ
  globalAug : ℚ
  feasible : Bool

/-- `SparseSolution`, solution/sparse_solution.h:13-21. -/
structure Sparse where
  entries : StrMap ℤ
  objective : ℚ
  totalViolation : ℚ
  globalAug : ℚ
  feasible : Bool

/-- The loop that sums the violations of all constraints, model/model.h:3231-3236, 3263-3268, 3311-3316. -/
def sumViolation (m : MState) : ℚ := m.conIds.foldl (fun s c => s + (m.con c).violation) 0

/-- `export_dense_solution`, model/model.h:3207-3246. -/
def exportDense (m : MState) : Dense :=
  { values := m.vals, objective := m.objValue, totalViolation := sumViolation m,
    globalAug := m.objValue + m.globalPen * sumViolation m, feasible := m.feasible }

/-- The loop of `export_sparse_solution` over the variables, model/model.h:3253-3260. -/
def sparseVars (name : VarId → String) (value : VarId → ℤ) (vs : List VarId) : StrMap ℤ :=
  vs.foldl (fun s v => if value v ≠ 0 then s.put (name v) (value v) else s) []

/-- `export_sparse_solution`, model/model.h:3249-3277. -/
def exportSparse (name : VarId → String) (m : MState) : Sparse :=
  { entries := sparseVars name m.vals m.varIds, objective := m.objValue, totalViolation := sumViolation m,
    globalAug := m.objValue + m.globalPen * sumViolation m, feasible := m.feasible }

/-- `DenseSolution::to_sparse`, solution/dense_solution.h:62-84. -/
def Dense.toSparse (name : VarId → String) (vs : List VarId) (d : Dense) : Sparse :=
  { entries := sparseVars name d.values vs, objective := d.objective, totalViolation := d.totalViolation,
    globalAug := d.globalAug, feasible := d.feasible }

/-- `import_solution(DenseSolution)`, model/model.h:3332-3350; `sels` are the selections.  `none` is a thrown
`std::logic_error`. -/
def importDense (sels : List ConId) (d : Dense) (m : MState) : Option MState :=
  Verifier.verifyAll false sels
    { m with var := fun v => if v ∈ m.varIds then (m.var v).setValueIfMutable (d.values v) else m.var v }

/-- The loop of the imports by name: `variable = value`, and 0 for the variables that are not mentioned,
model/model.h:3355-3363, 3377-3385. -/
def assignAll (name : VarId → String) (s : StrMap ℤ) : List VarId → MState → Option MState
  | [], m => some m
  | v :: vs, m =>
    ((m.var v).setValue ((s.get (name v)).getD 0)).bind fun x =>
      assignAll name s vs { m with var := Function.update m.var v x }

/-- `import_solution(SparseSolution)`, model/model.h:3353-3372. -/
def importSparse (name : VarId → String) (sels : List ConId) (s : Sparse) (m : MState) : Option MState :=
  (assignAll name s.entries m.varIds m).bind (Verifier.verifyAll false sels)

/-- `import_solution(std::unordered_map<std::string, int>)`, model/model.h:3375-3386. -/
def importMap (name : VarId → String) (s : StrMap ℤ) (m : MState) : Option MState := assignAll name s m.varIds m

/-- `fix_variables`, model/model.h:3389-3398. -/
def fixVariables (name : VarId → String) (s : StrMap ℤ) (m : MState) : MState :=
  { m with var := fun v => if v ∈ m.varIds then
      (match s.get (name v) with | some x => (m.var v).fixBy x | none => m.var v) else m.var v }

/-- `unfix_variables`, model/model.h:3401-3412. -/
def unfixVariables (name : VarId → String) (names : List String) (m : MState) : MState :=
  { m with var := fun v => if v ∈ m.varIds then
      (if name v ∈ names then ((m.var v).fixBy 0).unfix else (m.var v).fixBy 0) else m.var v }

/-- `DenseSolution::distance`, solution/dense_solution.h:42-59. -/
def denseDistance (vs : List VarId) (a b : Dense) : ℤ :=
  vs.foldl (fun s v => if a.values v ≠ b.values v then s + 1 else s) 0

/-- The loop over the shorter map in `distance_l0`, utility/unordered_map_utility.h:71-81, 83-93. -/
def l0Loop (longer shorter : StrMap ℤ) : ℤ :=
  shorter.foldl (fun s e => match longer.get e.1 with
    | none => s + 1
    | some x => if e.2 = x then s - 1 else s) (longer.length : ℤ)

/-- `distance_l0`, utility/unordered_map_utility.h:65-95, and `SparseSolution::distance`,
solution/sparse_solution.h:37-40. -/
def distanceL0 (a b : StrMap ℤ) : ℤ := if a.length < b.length then l0Loop b a else l0Loop a b

/-- The loops of `distance_l1`, utility/unordered_map_utility.h:30-45, 47-61. -/
def l1Loop (longer shorter : StrMap ℤ) : ℤ :=
  shorter.foldl (fun s e => match longer.get e.1 with
    | none => s + |e.2|
    | some x => s - |x| + |x - e.2|) (longer.foldl (fun s e => s + |e.2|) 0)

/-- `distance_l1`, utility/unordered_map_utility.h:24-62. -/
def distanceL1 (a b : StrMap ℤ) : ℤ := if a.length < b.length then l1Loop b a else l1Loop a b

/-- `NamedSolution`, solution/named_solution.h, as filled by `export_named_solution`, model/model.h:3280-3328.
Simplification: values by variable and constraint instead of by name. -/
structure Named where
  values : VarId → ℤ
  conValue : ConId → ℚ
  conViolation : ConId → ℚ
  objective : ℚ
  totalViolation : ℚ
  feasible : Bool

/-- `export_named_solution`, model/model.h:3280-3328. -/
def exportNamed (m : MState) : Named :=
  { values := m.vals, conValue := fun c => (m.con c).value, conViolation := fun c => (m.con c).violation,
    objective := m.objValue, totalViolation := sumViolation m, feasible := m.feasible }

/-- `Solver::postprocess`, solver/solver.h:105-141.  `none`: the chosen slot holds no solution (the import would
read outside its vectors) or the import throws. -/
def postprocess (sels : List ConId) (h : Holder Dense) (m : MState) : Option (Named × MState) :=
  (if h.found then h.feasSol else h.globalSol).bind fun d =>
    (importDense sels d m).map fun m1 => (exportNamed m1.update, m1.update)

/-- `Solver::preprocess` and `solve` as far as the "solved" flag is concerned, solver/solver.h:270-279, 413-457:
a solved model throws, otherwise it is marked and the rest of the solver (`rest`, which may throw or not) runs.
The result of `rest` is `none` if it throws. -/
def solveOnce {M R : Type} (rest : M → Option R × M) (solved : Bool) (m : M) : Option R × Bool × M :=
  if solved then (none, solved, m) else ((rest m).1, true, (rest m).2)

end Sol
end Printemps
