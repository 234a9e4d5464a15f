import Verif.Model.Presolve

/-! # Model of `printemps/preprocess/dependent_variable_extractor.h`

`key c` is `key_variable_ptr()` of constraint `c` as chosen by the classification
(model_component/constraint.h:342-741). -/

namespace Printemps
namespace Dependent
open Presolve

/-- `adj[i][j] > 0` for `i != j`: the key variable of `i` occurs in `j`,
preprocess/dependent_variable_extractor.h:168-177. -/
def uses (m : MState) (key : ConId → VarId) (i j : ConId) : Bool :=
  decide (i ≠ j) && decide (key i ∈ (m.con j).expr.vars)

/-- The constraints whose flag stays set, preprocess/dependent_variable_extractor.h:178-196: disabled ones
are skipped, and so are those that use each other's key variable mutually with an earlier one that was kept
(`kept`). -/
def surviving (m : MState) (key : ConId → VarId) (kept : List ConId) : List ConId → List ConId
  | [] => []
  | i :: rest =>
    if (m.con i).enabled = true ∧ kept.all (fun k => !(uses m key k i && uses m key i k)) = true then
      i :: surviving m key (i :: kept) rest
    else surviving m key kept rest

/-- The constraints actually used, preprocess/dependent_variable_extractor.h:197-221: their key variable is
the key variable of exactly one surviving constraint. -/
def chosen (m : MState) (key : ConId → VarId) (cs : List ConId) : List ConId :=
  let s := surviving m key [] cs
  s.filter (fun i => (s.map key).count (key i) == 1)

/-- `constraint_ptr->expression().solve(key_variable_ptr)`,
preprocess/dependent_variable_extractor.h:231-232. -/
def solved (m : MState) (key : ConId → VarId) (c : ConId) : Expr :=
  ((m.con c).expr.solve (key c)).getD ⟨[], 0, 0⟩

/-- The extra constraints keeping the bounds of an extracted variable,
preprocess/dependent_variable_extractor.h:237-255. -/
def extraConstraints (senseOf : VarId → VarSense) (m : MState) (v : VarId) (e : Expr) : List Con :=
  (if (m.var v).lb ≠ INT_HALF_MIN ∧ ((m.var v).lb : ℚ) > e.lowerBound (boxes m.var) then
    [Con.setup (e.subValue (m.var v).lb) .greater senseOf] else []) ++
  (if (m.var v).ub ≠ INT_HALF_MAX ∧ ((m.var v).ub : ℚ) < e.upperBound (boxes m.var) then
    [Con.setup (e.subValue (m.var v).ub) .less senseOf] else [])

/-- `set_dependent_expression_ptr`, model_component/variable.h:582-592: the sense becomes the dependent
variant of binary or integer (`setup_sense_binary_or_integer`, variable.h:421-429). -/
def markDependent (v : Var) : Var :=
  { v with sense := if (v.lb = 0 ∧ v.ub = 1) ∨ (v.lb = 0 ∧ v.ub = 0) ∨ (v.lb = 1 ∧ v.ub = 1)
      then .dependentBinary else .dependentInteger }

/-- `extract`, preprocess/dependent_variable_extractor.h:40-310, for the candidate list `cs` assembled in
lines 73-158 according to the options.  New constraints get the numbers `nextC, nextC+1, ...` and new
expressions `nextE, nextE+1, ...` (`create_constraints("additional", ...)`,
`create_expressions("additional", ...)`).  `none` models `std::out_of_range` thrown by `solve`.
Simplification: the branch that overwrites the expression of an already dependent variable (lines 277-280)
is not modelled. -/
def extract (senseOf : VarId → VarSense) (key : ConId → VarId) (cs : List ConId) (nextC nextE : ℕ)
    (m : MState) : Option MState :=
  let ch := chosen m key cs
  if ch.all (fun c => decide (key c ∈ (m.con c).expr.vars)) then
    let extra := ch.flatMap (fun c => extraConstraints senseOf m (key c) (solved m key c))
    some { m with
      var := fun v => if v ∈ ch.map key then markDependent (m.var v) else m.var v
      con := fun c =>
        if nextC ≤ c ∧ c < nextC + extra.length then extra.getD (c - nextC) (m.con c)
        else if c ∈ ch then { m.con c with enabled := false } else m.con c
      conIds := m.conIds ++ (List.range extra.length).map (nextC + ·)
      uexpr := fun i =>
        if nextE ≤ i ∧ i < nextE + ch.length then { expr := (ch.map (solved m key)).getD (i - nextE) ⟨[], 0, 0⟩ }
        else m.uexpr i
      uexprIds := m.uexprIds ++ (List.range ch.length).map (nextE + ·)
      dependents := m.dependents ++ (List.range ch.length).map (fun k => ((ch.map key).getD k 0, nextE + k)) }
  else none

/-- Objective part of `eliminate`, preprocess/dependent_variable_extractor.h:337-358; the number counts the
substitutions. -/
def elimObj (m : MState) : List (VarId × ℕ) → Expr × ℕ → Expr × ℕ
  | [], s => s
  | d :: ds, s =>
    elimObj m ds (if d.1 ∈ s.1.vars then (s.1.substitute d.1 (m.uexpr d.2).expr, s.2 + 1) else s)

/-- One inner loop of the constraint part, preprocess/dependent_variable_extractor.h:362-380. -/
def elimConsOf (v : VarId) (f : Expr) : List ConId → (ConId → Con) × ℕ → (ConId → Con) × ℕ
  | [], s => s
  | c :: cs, s =>
    elimConsOf v f cs
      (if (s.1 c).enabled then
        (Function.update s.1 c { s.1 c with expr := (s.1 c).expr.substitute v f }, s.2 + 1) else s)

/-- Constraint part of `eliminate`, preprocess/dependent_variable_extractor.h:360-381; `rel` are the
`related_constraint_ptrs()` set up before the call. -/
def elimCons (m : MState) (rel : VarId → List ConId) : List (VarId × ℕ) → (ConId → Con) × ℕ → (ConId → Con) × ℕ
  | [], s => s
  | d :: ds, s => elimCons m rel ds (elimConsOf d.1 (m.uexpr d.2).expr (rel d.1) s)

/-- One pass over all expressions, preprocess/dependent_variable_extractor.h:385-405.  The expression of the
variable is read anew for every substitution, as the code passes a reference to it. -/
def elimExprsOf (d : VarId × ℕ) : List ℕ → (ℕ → UserExpr) × ℕ → (ℕ → UserExpr) × ℕ
  | [], s => s
  | i :: is, s =>
    elimExprsOf d is
      (if d.1 ∈ (s.1 i).expr.vars then
        (Function.update s.1 i { s.1 i with expr := (s.1 i).expr.substitute d.1 (s.1 d.2).expr }, s.2 + 1)
       else s)

/-- Expression part of `eliminate`, preprocess/dependent_variable_extractor.h:383-406. -/
def elimExprs (ids : List ℕ) : List (VarId × ℕ) → (ℕ → UserExpr) × ℕ → (ℕ → UserExpr) × ℕ
  | [], s => s
  | d :: ds, s => elimExprs ids ds (elimExprsOf d ids s)

/-- `eliminate`, preprocess/dependent_variable_extractor.h:313-409, with the number of substitutions.
`ds` lists the dependent variables (binary ones first). -/
def eliminate (ds : List (VarId × ℕ)) (m : MState) : MState × ℕ :=
  let o := elimObj m ds (m.obj, 0)
  let c := elimCons m (relatedCons m) ds (m.con, 0)
  let e := elimExprs m.uexprIds ds (m.uexpr, 0)
  ({ m with obj := o.1, con := c.1, uexpr := e.1 }, o.2 + c.2 + e.2)

/-- The inner `while (true)` loop of `Model::setup`, model/model.h:706-712.  `none`: the given number of
rounds was not enough. -/
def eliminateLoop (ds : List (VarId × ℕ)) : ℕ → MState → Option MState
  | 0, _ => none
  | fuel + 1, m =>
    let r := eliminate ds m
    if r.2 = 0 then some r.1 else eliminateLoop ds fuel r.1

end Dependent
end Printemps
