import Verif.Prelude

/-! # Specification: indices of an array and slices of it, independent of strides and flat positions -/

namespace Printemps.Spec

/-- All indices of an array of the given shape, the last coordinate running fastest. -/
def indices : List ℕ → List (List ℕ)
  | [] => [[]]
  | s :: l => (List.range s).flatMap (fun i => (indices l).map (fun r => i :: r))

/-- An index belongs to the slice described by a pattern: same number of coordinates, and each entry of the
pattern is either `-1` ("all") or that coordinate. -/
def InSlice (pattern : List ℤ) (idx : List ℕ) : Prop :=
  List.Forall₂ (fun p (i : ℕ) => p = -1 ∨ p = (i : ℤ)) pattern idx

instance (pattern : List ℤ) (idx : List ℕ) : Decidable (InSlice pattern idx) := by
  unfold InSlice; infer_instance

/-- The indices of a slice, in order. -/
def slice (shape : List ℕ) (pattern : List ℤ) : List (List ℕ) :=
  (indices shape).filter (fun idx => InSlice pattern idx)

end Printemps.Spec
