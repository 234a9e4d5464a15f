import Verif.Model.Model
import Mathlib.Data.Rat.Floor
import Mathlib.Data.Int.Log

/-! # Floating-point versions of the evaluation functions

Everywhere else `double` is modelled by exact rational numbers. Here the same functions are modelled with every
arithmetic operation on `double` followed by a rounding `fl`; `fl53` is rounding to nearest, ties to even, with 53 binary
digits (IEEE 754 binary64 without overflow, underflow and non-numbers). Conversions from `int` are exact. -/

namespace Printemps
namespace Rounded

/-- Rounding to the nearest integer, ties to even (IEEE 754 roundTiesToEven). -/
def roundEven (x : ℚ) : ℤ :=
  if x - ⌊x⌋ < 1 / 2 then ⌊x⌋
  else if x - ⌊x⌋ > 1 / 2 then ⌊x⌋ + 1
  else if ⌊x⌋ % 2 = 0 then ⌊x⌋ else ⌊x⌋ + 1

/-- Rounding to 53 binary digits: the type `double` that `T_Expression` stands for, model_component/expression.h:14. -/
def fl53 (q : ℚ) : ℚ :=
  if q = 0 then 0
  else (roundEven (q / 2 ^ (Int.log 2 |q| - 52)) : ℚ) * 2 ^ (Int.log 2 |q| - 52)

/-- The loop `value += a * b` over a list of products, model_component/expression.h:273-276, 285-288. -/
def sum (fl : ℚ → ℚ) (v : ℚ) (l : List ℚ) : ℚ := l.foldl (fun v t => fl (v + fl t)) v

/-- `Expression::evaluate()`, model_component/expression.h:271-278. -/
def evaluate (fl : ℚ → ℚ) (e : Expr) (σ : VarId → ℤ) : ℚ :=
  sum fl e.const (e.terms.map (fun t => (σ t.1 : ℚ) * t.2))

/-- `Expression::evaluate(move)`, model_component/expression.h:281-290, with the stored value `v`. -/
def evaluateMove (fl : ℚ → ℚ) (e : Expr) (v : ℚ) (σ : VarId → ℤ) (alts : List (VarId × ℤ)) : ℚ :=
  sum fl v (alts.map (fun a => Expr.lookup e.terms a.1 * (((a.2 - σ a.1 : ℤ)) : ℚ)))

/-- New values of the variables, model/model.h:2451-2453 (none of them fixed). -/
def assign (σ : VarId → ℤ) (alts : List (VarId × ℤ)) : VarId → ℤ :=
  alts.foldl (fun τ a => Function.update τ a.1 a.2) σ

/-- The stored value of an expression after moves, `Expression::update(move)`, model_component/expression.h:298-301, called for
every performed move before the variables change (model/model.h:2417-2460). -/
def afterMoves (fl : ℚ → ℚ) (e : Expr) : (VarId → ℤ) → ℚ → List (List (VarId × ℤ)) → (VarId → ℤ) × ℚ
  | σ, v, [] => (σ, v)
  | σ, v, alts :: rest => afterMoves fl e (assign σ alts) (evaluateMove fl e v σ alts) rest

/-- The total violation in the loop of the full evaluation, model/model.h:2640-2672. -/
def fullStep (fl : ℚ → ℚ) (m : MState) (alts : List (VarId × ℤ)) (acc : ℚ) (c : ConId) : ℚ :=
  let k := m.con c
  if !k.enabled then acc
  else
    let x := evaluateMove fl k.expr k.expr.value m.vals alts
    let a1 := if k.isLe then fl (acc + max x 0) else acc
    if k.isGe then fl (a1 + max (-x) 0) else a1

/-- Total violation of a move by the full evaluation, model/model.h:2624-2703. -/
def fullViolation (fl : ℚ → ℚ) (m : MState) (mv : Move) : ℚ := m.conIds.foldl (fullStep fl m mv.alterations) 0

/-- The total violation in the loop of the evaluation of several variables, model/model.h:2960-2991. -/
def multiStep (fl : ℚ → ℚ) (m : MState) (alts : List (VarId × ℤ)) (acc : ℚ) (c : ConId) : ℚ :=
  let k := m.con c
  if !k.enabled then acc
  else
    let x := evaluateMove fl k.expr k.expr.value m.vals alts
    if |fl (x - k.value)| < EPSILON_10 then acc
    else
      let dp := if k.isLe then fl (max x 0 - k.pos) else 0
      let dn := if k.isGe then fl (max (-x) 0 - k.neg) else 0
      fl (acc + fl (dp + dn))

/-- Total violation of a move by the fast evaluation, model/model.h:2947-3020. -/
def multiViolation (fl : ℚ → ℚ) (m : MState) (mv : Move) (cur : Score) : ℚ :=
  mv.related.foldl (multiStep fl m mv.alterations) cur.totalViolation

/-- The total violation in the loop of the evaluation of one variable, model/model.h:2721-2749. -/
def singleStep (fl : ℚ → ℚ) (m : MState) (d : ℤ) (acc : ℚ) (s : ConId × ℚ) : ℚ :=
  let k := m.con s.1
  if k.ignorable then acc
  else
    let x := fl (k.value + fl (s.2 * (d : ℚ)))
    let a1 := if k.isLe then fl (acc + fl (max x 0 - k.pos)) else acc
    if k.isGe then fl (a1 - fl (min x 0 + k.neg)) else a1

/-- Total violation of a move of one variable by the fast evaluation, model/model.h:2706-2779. -/
def singleViolation (fl : ℚ → ℚ) (m : MState) (a : VarId × ℤ) (cur : Score) : ℚ :=
  (m.sens a.1).foldl (singleStep fl m (a.2 - m.vals a.1)) cur.totalViolation

end Rounded
end Printemps
