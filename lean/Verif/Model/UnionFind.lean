import Verif.Prelude

/-! # Model of `utility/union_find.h` -/

namespace Printemps.UnionFind

/-- `UnionFind`, union_find.h:14-16. The three hash maps are total functions; `elements` is their key set,
used only to bound the recursion of `root`. -/
structure UF where
  elements : List ℕ
  parents : ℕ → ℕ
  hasParent : ℕ → Bool
  sizes : ℕ → ℤ

/-- `setup`, union_find.h:38-44. -/
def setup (elements : List ℕ) : UF :=
  { elements := elements
    parents := id
    hasParent := fun _ => false
    sizes := fun _ => 1 }

/-- The recursion of `root`, union_find.h:47-53, with its path compression. `none` means that the
recursion has gone deeper than the given depth. -/
def UF.rootRec : ℕ → UF → ℕ → Option (UF × ℕ)
  | 0, _, _ => none
  | fuel + 1, s, x =>
    if !s.hasParent x then some (s, x)
    else (UF.rootRec fuel s (s.parents x)).map fun p =>
      ({ p.1 with parents := Function.update p.1.parents x p.2 }, p.2)

/-- `root`, union_find.h:47-53; a recursion deeper than the number of elements never ends (`none`). -/
def UF.root (s : UF) (x : ℕ) : Option (UF × ℕ) := s.rootRec (s.elements.length + 1) x

/-- `is_same`, union_find.h:56-58 (the order of evaluation of the two calls is left to right here). -/
def UF.isSame (s : UF) (a b : ℕ) : Option (UF × Bool) :=
  (s.root a).bind fun p => (p.1.root b).map fun q => (q.1, p.2 == q.2)

/-- `unite`, union_find.h:61-79. The sizes compared and updated are those of the arguments, not of the
roots, as in the code. -/
def UF.unite (s : UF) (a b : ℕ) : Option (UF × Bool) :=
  (s.root a).bind fun p => (p.1.root b).map fun q =>
    let t := q.1
    if p.2 = q.2 then (t, false)
    else
      let r1 := if t.sizes a < t.sizes b then q.2 else p.2
      let r2 := if t.sizes a < t.sizes b then p.2 else q.2
      ({ t with
         parents := Function.update t.parents r2 r1
         hasParent := Function.update t.hasParent r2 true
         sizes := Function.update t.sizes a (t.sizes a + t.sizes b) }, true)

end Printemps.UnionFind
