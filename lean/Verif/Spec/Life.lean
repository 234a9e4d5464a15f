import Verif.Model.Life

/-! # Specification: what a program has done with a model object

Only the syntax of programs is used. -/

namespace Printemps.Life

/-- The solver has been called since the model was made or initialized last. -/
def CalledSince (acts : List Act) : Prop := ∃ a b, acts = a ++ Act.solve :: b ∧ Act.reset ∉ b

/-- The arrays a statement creates: kind and number of elements. -/
def sizes : Program.Stmt → List (Kind × ℕ)
  | .variables_ _ shape _ => [(.var, shape.prod)]
  | .expressions _ shape => [(.expr, shape.prod)]
  | .expressionOf _ _ => [(.expr, 1)]
  | .constraints _ shape => [(.con, shape.prod)]
  | .constraintOf _ _ => [(.con, 1)]
  | _ => []

/-- A program creates an array of the kind, and all it creates have elements. -/
def States (k : Kind) (p : List Program.Stmt) : Prop :=
  (∃ n, (k, n) ∈ p.flatMap sizes) ∧ ∀ n, (k, n) ∈ p.flatMap sizes → 0 < n

/-- The names of the arrays of a kind created by a program, in order. -/
def arrayNames (k : Kind) : List Program.Stmt → List Names.Name
  | [] => []
  | x :: l => (match x, k with
    | .variables_ name _ _, .var => [name]
    | .expressions name _, .expr => [name]
    | .expressionOf name _, .expr => [name]
    | .constraints name _, .con => [name]
    | .constraintOf name _, .con => [name]
    | _, _ => []) ++ arrayNames k l

/-- The statements among the actions of a program. -/
def statements : List Act → List Program.Stmt
  | [] => []
  | .stmt x :: l => x :: statements l
  | _ :: l => statements l

/-- The name given last to an element; empty if none was given. -/
def given (k : Kind) (i j : ℕ) (acts : List Act) : Names.Name :=
  acts.foldl (fun n a => match a with
    | .label k' i' j' name => if k' = k ∧ i' = i ∧ j' = j then name else n
    | _ => n) []

end Printemps.Life
