import Verif.Prelude
import Mathlib.Logic.Relation

/-! # Specification vocabulary for graphs: connectivity, forests

Nothing here refers to the model of the code. -/

namespace Printemps.Spec

/-- An undirected edge list; `Conn L a b`: `a` and `b` are joined by a path of edges of `L`. -/
inductive Conn {N : Type} (L : List (N × N)) : N → N → Prop
  | refl (a) : Conn L a a
  | step {a b c} : Conn L a b → ((b, c) ∈ L ∨ (c, b) ∈ L) → Conn L a c

/-- Each edge of the list joins two nodes that the edges before it leave apart, i.e. no cycle is ever
closed. -/
def Forest {N : Type} : List (N × N) → List (N × N) → Prop
  | _, [] => True
  | L, e :: F => ¬ Conn L e.1 e.2 ∧ Forest (e :: L) F

end Printemps.Spec
