import Verif.Model.Model
import Verif.Model.ConstraintType

/-! # Model of the move generators, neighborhood/*_move_generator.h

Every generator has a fixed list of moves; `update_moves` refreshes the alterations and the flags.  The model
gives the moves of the current state together with their flags.  `rel` gives the related constraints of a move
where they matter. -/

namespace Printemps.Moves

/-- The three switches of `update_moves`, neighborhood/abstract_move_generator.h:45-57. -/
structure Accept where
  all : Bool
  objective : Bool
  feasibility : Bool
deriving Repr, DecidableEq

/-- `has_fixed_variable`, neighborhood/move.h:121-128. -/
def hasFixed (var : VarId → Var) (alts : List (VarId × ℤ)) : Bool := alts.any (fun a => (var a.1).fixed)

/-- `has_selection_variable`, neighborhood/move.h:131-139. -/
def hasSelection (var : VarId → Var) (alts : List (VarId × ℤ)) : Bool :=
  alts.any (fun a => (var a.1).sense == .selection)

/-- `has_bound_violation`, neighborhood/move.h:142-152. -/
def hasBoundViolation (var : VarId → Var) (alts : List (VarId × ℤ)) : Bool :=
  alts.any (fun a => decide (a.2 < (var a.1).lb) || decide (a.2 > (var a.1).ub))

/-- `has_objective_improvable_variable`, neighborhood/move.h:155-162. -/
def hasObjImprovable (var : VarId → Var) (alts : List (VarId × ℤ)) : Bool :=
  alts.any (fun a => (var a.1).objImprovable)

/-- `has_feasibility_improvable_variable`, neighborhood/move.h:165-172. -/
def hasFeasImprovable (var : VarId → Var) (alts : List (VarId × ℤ)) : Bool :=
  alts.any (fun a => (var a.1).feasImprovable)

/-- The common end of the flag computations, e.g. neighborhood/selection_move_generator.h:114-130: accept all,
or accept by improvability of a variable. -/
def screened (acc : Accept) (var : VarId → Var) (alts : List (VarId × ℤ)) : Bool :=
  acc.all || (acc.objective && hasObjImprovable var alts) || (acc.feasibility && hasFeasImprovable var alts)

/-- `extract_mutable_variable_ptrs`, neighborhood/abstract_move_generator.h:119-130. -/
def mutables (var : VarId → Var) (vs : List VarId) : List VarId := vs.filter (fun v => !(var v).fixed)

/-! ## Selections -/

/-- The move of one selection variable, neighborhood/selection_move_generator.h:48-63 and 90-98; `none` is the
access through a null pointer, which the code leaves undefined. -/
def selectionMove (rel : ℕ → List ConId) (m : MState) (v : VarId) : Option Move :=
  match (m.var v).selection with
  | none => none
  | some s =>
    match m.selected s with
    | none => none
    | some u => some
        { alterations := [(u, 0), (v, 1)], sense := .selection, related := rel s, isSelection := true }

/-- The flag of a selection move, neighborhood/selection_move_generator.h:105-131. -/
def selectionFlag (acc : Accept) (m : MState) (mv : Move) : Bool :=
  match mv.alterations with
  | [a, b] => decide (a.1 ≠ b.1) && screened acc m.var mv.alterations
  | _ => false

/-! ## Binary and integer variables -/

/-- The flip move of a 0/1 variable, neighborhood/binary_move_generator.h:51-66, 86-91. -/
def binaryMove (rel : VarId → List ConId) (var : VarId → Var) (v : VarId) : Move :=
  { alterations := [(v, 1 - (var v).value)], sense := .binary, related := rel v, isUnivariable := true }

/-- The flag of a flip move, neighborhood/binary_move_generator.h:83-143: with both or none of the two
improvability switches any improvable variable is accepted. -/
def binaryFlag (acc : Accept) (x : Var) : Bool :=
  if acc.all then true
  else if acc.objective && !acc.feasibility then x.objImprovable
  else if !acc.objective && acc.feasibility then x.feasImprovable
  else x.objImprovable || x.feasImprovable

/-- The moves of `BinaryMoveGenerator` that are switched on, neighborhood/binary_move_generator.h:24-146. -/
def binaryMoves (rel : VarId → List ConId) (acc : Accept) (var : VarId → Var) (vs : List VarId) : List Move :=
  ((mutables var vs).filter (fun v => binaryFlag acc (var v))).map (binaryMove rel var)

/-- `DELTA_MAX`, neighborhood/integer_move_generator.h:90. -/
def deltaMax : ℤ := 10000

/-- The four candidate values of an integer variable, `none` for a flag 0,
neighborhood/integer_move_generator.h:109-149; the division of C++ truncates. -/
def integerTargets (x : Var) : List (Option ℤ) :=
  [ if x.value = x.ub then none else some (x.value + 1),
    if x.value = x.lb then none else some (x.value - 1),
    if x.value ≥ x.ub - 4 ∨ x.ub = INT_HALF_MAX then none
      else some (x.value + min deltaMax (Int.tdiv (x.ub - x.value) 2)),
    if x.value ≤ x.lb + 4 ∨ x.lb = INT_HALF_MIN then none
      else some (x.value + max (-deltaMax) (Int.tdiv (x.lb - x.value) 2)) ]

/-- The screening of an integer variable, neighborhood/integer_move_generator.h:102-108. -/
def integerFlag (acc : Accept) (x : Var) : Bool :=
  acc.all || (acc.objective && x.objImprovable) || (acc.feasibility && x.feasImprovable)

/-- The moves of one integer variable that are switched on, neighborhood/integer_move_generator.h:52-69, 95-156. -/
def integerMovesOf (rel : VarId → List ConId) (acc : Accept) (var : VarId → Var) (v : VarId) : List Move :=
  if integerFlag acc (var v) then
    (integerTargets (var v)).filterMap (fun t => t.map (fun x =>
      { alterations := [(v, x)], sense := .integer, related := rel v, isUnivariable := true }))
  else []

/-- The moves of `IntegerMoveGenerator` that are switched on, neighborhood/integer_move_generator.h:24-160. -/
def integerMoves (rel : VarId → List ConId) (acc : Accept) (var : VarId → Var) (vs : List VarId) : List Move :=
  (mutables var vs).flatMap (integerMovesOf rel acc var)

/-! ## Moves made from constraints with two or three variables -/

/-- `extract_effective_constraint_ptrs`, neighborhood/abstract_move_generator.h:133-163. -/
def effective (var : VarId → Var) (cs : List Con) : List Con :=
  cs.filter (fun c => c.enabled && c.expr.terms.all (fun t => !((var t.1).fixed || (var t.1).sense == .selection)))

/-- `BinomialConstraint`, neighborhood/binomial_constraint.h:10-32. -/
structure Binomial where
  first : VarId
  second : VarId
  a : ℚ
  b : ℚ
  k : ℚ
  sense : Sense
deriving Repr, DecidableEq

/-- One step of `convert_to_binomial_constraints`, neighborhood/abstract_move_generator.h:166-202: the variables
are ordered by address, `none` is the thrown error. -/
def binomial (c : Con) : Option Binomial :=
  match c.expr.terms with
  | [t, u] =>
    if t.1 > u.1 then some ⟨u.1, t.1, u.2, t.2, c.expr.const, c.sense⟩
    else some ⟨t.1, u.1, t.2, u.2, c.expr.const, c.sense⟩
  | _ => none

/-- Alterations of the moves of one exclusive-or constraint, neighborhood/exclusive_or_move_generator.h:49-82. -/
def exclusiveOr (p : Binomial) : List (List (VarId × ℤ)) :=
  [[(p.first, 0), (p.second, 1)], [(p.first, 1), (p.second, 0)]]

/-- Alterations of the moves of one exclusive-nor constraint, neighborhood/exclusive_nor_move_generator.h:49-83. -/
def exclusiveNor (p : Binomial) : List (List (VarId × ℤ)) :=
  [[(p.first, 0), (p.second, 0)], [(p.first, 1), (p.second, 1)]]

/-- Alterations for inverted integers, neighborhood/inverted_integers_move_generator.h:105-122. -/
def invertedIntegers (val : VarId → ℤ) (p : Binomial) : List (List (VarId × ℤ)) :=
  [[(p.first, val p.first + 1), (p.second, -(val p.first + 1))],
   [(p.first, val p.first - 1), (p.second, -(val p.first - 1))]]

/-- Alterations for balanced integers, neighborhood/balanced_integers_move_generator.h:104-121. -/
def balancedIntegers (val : VarId → ℤ) (p : Binomial) : List (List (VarId × ℤ)) :=
  [[(p.first, val p.first + 1), (p.second, val p.first + 1)],
   [(p.first, val p.first - 1), (p.second, val p.first - 1)]]

/-- Alterations for a constant sum, neighborhood/constant_sum_integers_move_generator.h:110-129; the assignment
of a `double` to the integer truncates. -/
def constantSum (val : VarId → ℤ) (p : Binomial) : List (List (VarId × ℤ)) :=
  [[(p.first, val p.first + 1), (p.second, Expr.truncQ (-p.k - ((val p.first + 1 : ℤ) : ℚ)))],
   [(p.first, val p.first - 1), (p.second, Expr.truncQ (-p.k - ((val p.first - 1 : ℤ) : ℚ)))]]

/-- Alterations for a constant difference, neighborhood/constant_difference_integers_move_generator.h:110-129. -/
def constantDifference (val : VarId → ℤ) (p : Binomial) : List (List (VarId × ℤ)) :=
  [[(p.first, val p.first + 1), (p.second, Expr.truncQ (p.k + ((val p.first + 1 : ℤ) : ℚ)))],
   [(p.first, val p.first - 1), (p.second, Expr.truncQ (p.k + ((val p.first - 1 : ℤ) : ℚ)))]]

/-- Alterations for a constant ratio, neighborhood/constant_ratio_integers_move_generator.h:51-77, 128-147: the
moved variable is the one that is not the key variable, but its new value is computed from the value of the
variable with the smaller address. -/
def constantRatio (val : VarId → ℤ) (key : Option VarId) (p : Binomial) : List (List (VarId × ℤ)) :=
  let other := if key = some p.first then p.second else p.first
  let dep := if key = some p.first then p.first else p.second
  let coef := if key = some p.first then -p.b / p.a else -p.a / p.b
  [[(other, val p.first + 1), (dep, Expr.truncQ (((val p.first + 1 : ℤ) : ℚ) * coef))],
   [(other, val p.first - 1), (dep, Expr.truncQ (((val p.first - 1 : ℤ) : ℚ) * coef))]]

/-- The value of the second variable rounded to the nearest integer,
neighborhood/aggregation_move_generator.h:113-121. -/
def nearest (k a b : ℚ) (x : ℤ) : ℤ := ⌊(-k - a * (x : ℚ)) / b + 1/2⌋

/-- Alterations for an aggregation, neighborhood/aggregation_move_generator.h:106-167. -/
def aggregation (val : VarId → ℤ) (p : Binomial) : List (List (VarId × ℤ)) :=
  [[(p.first, val p.first + 1), (p.second, nearest p.k p.a p.b (val p.first + 1))],
   [(p.first, val p.first - 1), (p.second, nearest p.k p.a p.b (val p.first - 1))],
   [(p.first, nearest p.k p.b p.a (val p.second + 1)), (p.second, val p.second + 1)],
   [(p.first, nearest p.k p.b p.a (val p.second - 1)), (p.second, val p.second - 1)]]

/-- Alterations for a precedence, neighborhood/precedence_move_generator.h:105-125. -/
def precedence (val : VarId → ℤ) (p : Binomial) : List (List (VarId × ℤ)) :=
  [[(p.first, val p.first + 1), (p.second, val p.second + 1)],
   [(p.first, val p.first - 1), (p.second, val p.second - 1)]]

/-- The value that makes a variable bound constraint as tight as possible,
neighborhood/variable_bound_move_generator.h:112-131. -/
def tight (sense : Sense) (k a b : ℚ) (x : ℤ) : ℤ :=
  let t := (-k - a * (x : ℚ)) / b
  if (b > 0 ∧ sense = .less) ∨ (b < 0 ∧ sense = .greater) then ⌊t⌋ else ⌈t⌉

/-- Alterations for a variable bound, neighborhood/variable_bound_move_generator.h:107-231. -/
def variableBound (val : VarId → ℤ) (p : Binomial) : List (List (VarId × ℤ)) :=
  [[(p.first, val p.first + 1), (p.second, tight p.sense p.k p.a p.b (val p.first + 1))],
   [(p.first, val p.first - 1), (p.second, tight p.sense p.k p.a p.b (val p.first - 1))],
   [(p.first, tight p.sense p.k p.b p.a (val p.second + 1)), (p.second, val p.second + 1)],
   [(p.first, tight p.sense p.k p.b p.a (val p.second - 1)), (p.second, val p.second - 1)]]

/-- Alterations for three equal 0/1 variables, neighborhood/trinomial_exclusive_nor_move_generator.h:49-94; a
constraint without exactly three variables makes the conversion throw
(neighborhood/abstract_move_generator.h:205-240), `none`. -/
def trinomialExclusiveNor (c : Con) : Option (List (List (VarId × ℤ))) :=
  match c.expr.terms with
  | [t, u, w] => some [[(t.1, 0), (u.1, 0), (w.1, 0)], [(t.1, 1), (u.1, 1), (w.1, 1)]]
  | _ => none

/-- Alterations for a soft selection, neighborhood/soft_selection_move_generator.h:37-84. -/
def softSelection (key : VarId) (c : Con) : List (List (VarId × ℤ)) :=
  (c.expr.vars.filter (fun v => v ≠ key)).flatMap (fun v => [[(v, 0), (key, 0)], [(v, 1), (key, 1)]])

/-- Alterations of the two-flip moves of one pair, neighborhood/two_flip_move_generator.h:39-77. -/
def twoFlip (p : VarId × VarId) : List (List (VarId × ℤ)) :=
  [[(p.1, 1), (p.2, 0)], [(p.1, 0), (p.2, 1)]]

/-- The alterations of the moves of the generator for one class of constraints with two or three variables, or
for soft selections (the generators' `setup` together with their updaters, files as above). -/
def ofClass (val : VarId → ℤ) (key : Option VarId) (c : Con) : ConType → Option (List (List (VarId × ℤ)))
  | .exclusiveOr => (binomial c).map exclusiveOr
  | .exclusiveNor => (binomial c).map exclusiveNor
  | .invertedIntegers => (binomial c).map (invertedIntegers val)
  | .balancedIntegers => (binomial c).map (balancedIntegers val)
  | .constantSum => (binomial c).map (constantSum val)
  | .constantDifference => (binomial c).map (constantDifference val)
  | .constantRatio => (binomial c).map (constantRatio val key)
  | .aggregation => (binomial c).map (aggregation val)
  | .precedence => (binomial c).map (precedence val)
  | .variableBound => (binomial c).map (variableBound val)
  | .trinomialExclusiveNor => trinomialExclusiveNor c
  | .softSelection => key.map (fun k => softSelection k c)
  | _ => some []

/-- `setup_neighborhood` for one class, model/model.h:1248-1338 with the lists of constraints by class,
model/model.h:1078-1245: all moves of the generator of class `t`, for the variables and constraints at set-up
and the values `val` at the update.  `none` is a thrown error. -/
def ofModel (m : MState) (lt : VarId → VarId → Bool) (val : VarId → ℤ) (t : ConType) :
    Option (List (List (VarId × ℤ))) :=
  ((effective m.var (m.conIds.map m.con |>.filter (fun c => (ConType.classify m.var lt c).1 = t))).mapM
    (fun c => ofClass val (ConType.classify m.var lt c).2 c t)).map List.flatten

/-! ## The flags of the special moves -/

/-- Every alteration changes the value, e.g. neighborhood/exclusive_or_move_generator.h:124-131. -/
def allChange (var : VarId → Var) (alts : List (VarId × ℤ)) : Bool :=
  alts.all (fun a => !decide ((var a.1).value = a.2))

/-- The flag of the exclusive-or, exclusive-nor and trinomial moves,
neighborhood/exclusive_or_move_generator.h:106-152, exclusive_nor_move_generator.h:107-153,
trinomial_exclusive_nor_move_generator.h:119-165. -/
def flipFlag (acc : Accept) (var : VarId → Var) (available : Bool) (alts : List (VarId × ℤ)) : Bool :=
  available && !hasFixed var alts && !hasBoundViolation var alts && allChange var alts && screened acc var alts

/-- The flag of the moves with shifted integers, neighborhood/inverted_integers_move_generator.h:128-162,
balanced_integers_move_generator.h:128-162, constant_sum_integers_move_generator.h:136-170,
constant_difference_integers_move_generator.h:136-170, constant_ratio_integers_move_generator.h:154-188,
aggregation_move_generator.h:174-205, precedence_move_generator.h:132-163, variable_bound_move_generator.h:238-269. -/
def shiftFlag (acc : Accept) (var : VarId → Var) (available : Bool) (alts : List (VarId × ℤ)) : Bool :=
  available && !hasFixed var alts && !hasBoundViolation var alts && screened acc var alts

/-- The flag of the soft selection and chain moves, which does not look at the bounds,
neighborhood/soft_selection_move_generator.h:109-147, chain_move_generator.h:44-82. -/
def softFlag (acc : Accept) (var : VarId → Var) (available : Bool) (alts : List (VarId × ℤ)) : Bool :=
  available && !hasFixed var alts && allChange var alts && screened acc var alts

/-- The flag of the two-flip moves, neighborhood/two_flip_move_generator.h:100-142. -/
def twoFlipFlag (acc : Accept) (var : VarId → Var) (available : Bool) (alts : List (VarId × ℤ)) : Bool :=
  available && !hasSelection var alts && !hasFixed var alts && allChange var alts && screened acc var alts

/-- The flag of the user defined moves, neighborhood/user_defined_move_generator.h:62-94. -/
def userFlag (acc : Accept) (var : VarId → Var) (alts : List (VarId × ℤ)) : Bool :=
  !hasFixed var alts && !hasSelection var alts && !hasBoundViolation var alts && screened acc var alts

/-- The flag of a move of the class `t`. -/
def flagOf (t : ConType) (acc : Accept) (var : VarId → Var) (available : Bool) (alts : List (VarId × ℤ)) : Bool :=
  match t with
  | .exclusiveOr | .exclusiveNor | .trinomialExclusiveNor => flipFlag acc var available alts
  | .softSelection => softFlag acc var available alts
  | _ => shiftFlag acc var available alts

end Printemps.Moves
