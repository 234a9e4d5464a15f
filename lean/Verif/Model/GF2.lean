import Verif.Model.Model
import Verif.Model.Assoc
import Verif.Model.BinaryMatrix

/-! # Model of `preprocess/gf2_solver.h` and `utility/bidirectional_map.h` -/

namespace Printemps

/-- `BidirectionalMap`, utility/bidirectional_map.h:11-15. -/
structure BiMap (α β : Type) where
  forward : Assoc α β := []
  reverse : Assoc β α := []

namespace BiMap
variable {α β : Type} [DecidableEq α] [DecidableEq β]

/-- `insert`, utility/bidirectional_map.h:39-42. -/
def insert (m : BiMap α β) (a : α) (b : β) : BiMap α β := ⟨m.forward.put a b, m.reverse.put b a⟩

/-- `forward_at`, utility/bidirectional_map.h:45-47; `none` is a thrown `std::out_of_range`. -/
def forwardAt (m : BiMap α β) (a : α) : Option β := m.forward.get a

/-- `reverse_at`, utility/bidirectional_map.h:50-52. -/
def reverseAt (m : BiMap α β) (b : β) : Option α := m.reverse.get b

/-- `size`, utility/bidirectional_map.h:29-31. -/
def size (m : BiMap α β) : ℕ := m.forward.length

/-- The loops that number the elements of a range, preprocess/gf2_solver.h:92-100: the element at hand gets the
counter, which is then increased. -/
def number (m : BiMap α ℕ) (i : ℕ) : List α → BiMap α ℕ
  | [] => m
  | a :: l => number (m.insert a i) (i + 1) l

end BiMap

namespace Gf2
open BinMat

/-- The variables of a constraint other than its key variable, preprocess/gf2_solver.h:59-66. -/
def others (m : MState) (key : ConId → VarId) (c : ConId) : List VarId :=
  ((m.con c).expr.terms.map Prod.fst).filter (fun v => v ≠ key c)

/-- The key variable, if it occurs, preprocess/gf2_solver.h:59-66. -/
def keys (m : MState) (key : ConId → VarId) (c : ConId) : List VarId :=
  ((m.con c).expr.terms.map Prod.fst).filter (fun v => v = key c)

/-- `binary_variable_ptrs`, preprocess/gf2_solver.h:49-67, as a set. -/
def binarySet (m : MState) (gf2s : List ConId) (key : ConId → VarId) : List VarId :=
  (gf2s.flatMap (others m key)).dedup

/-- `key_variable_ptrs`, preprocess/gf2_solver.h:49-67, as a set. -/
def keySet (m : MState) (gf2s : List ConId) (key : ConId → VarId) : List VarId :=
  (gf2s.flatMap (keys m key)).dedup

/-- `binary_matrix[row][column] = 1`, preprocess/gf2_solver.h:116. -/
def setEntry (M : Mat) (r c : ℕ) : Mat := fun i j => if i = r ∧ j = c then 1 else M i j

/-- The entries of one row, preprocess/gf2_solver.h:113-118; `none` is a thrown `std::out_of_range`. -/
def fillRow (vm : BiMap VarId ℕ) (row : ℕ) : List VarId → Mat → Option Mat
  | [], M => some M
  | v :: vs, M => (vm.forwardAt v).bind fun col => fillRow vm row vs (setEntry M row col)

/-- The matrix and the right-hand side, preprocess/gf2_solver.h:106-121. -/
def fill (m : MState) (key : ConId → VarId) (vm : BiMap VarId ℕ) (cm : BiMap ConId ℕ) :
    List ConId → Mat × (ℕ → ℕ) → Option (Mat × (ℕ → ℕ))
  | [], s => some s
  | c :: cs, s => (cm.forwardAt c).bind fun row =>
      (fillRow vm row (others m key c) s.1).bind fun M =>
        fill m key vm cm cs
          (M, Function.update s.2 row ((Expr.truncQ (m.con c).expr.const % 2).toNat))

/-- The loop that fixes the 0/1 variables, preprocess/gf2_solver.h:141-143. -/
def fixBinaries (vm : BiMap VarId ℕ) (sol : ℕ → ℕ) : List ℕ → (VarId → Var) → Option (VarId → Var)
  | [], var => some var
  | i :: is, var => (vm.reverseAt i).bind fun v =>
      fixBinaries vm sol is (Function.update var v ((var v).fixBy (sol i)))

/-- The value of a key variable, preprocess/gf2_solver.h:146-158.  The coefficients of the other variables are not
used. -/
def keyValue (m : MState) (key : ConId → VarId) (var : VarId → Var) (c : ConId) : ℤ :=
  let e := (m.con c).expr
  let value := (others m key c).foldl (fun acc v => acc + ((var v).value : ℚ)) e.const
  Expr.truncQ (-value / Expr.lookup e.terms (key c))

/-- The loop that fixes the key variables, preprocess/gf2_solver.h:145-158. -/
def fixKeys (m : MState) (key : ConId → VarId) (var : VarId → Var) (cs : List ConId) : VarId → Var :=
  cs.foldl (fun var c => Function.update var (key c) ((var (key c)).fixBy (keyValue m key var c))) var

/-- `GF2Solver::solve`, preprocess/gf2_solver.h:38-179.  `gf2s` are the constraints of type GF(2) with their key
variables; `bins` lists the elements of `binary_variable_ptrs` in the order of iteration.  The result says
whether the equations were solved and gives the variables after the call. -/
def solve (m : MState) (gf2s : List ConId) (key : ConId → VarId) (bins : List VarId) : Option (Bool × MState) :=
  let n := gf2s.length
  if bins.length ≠ n then some (false, m)
  else if (keySet m gf2s key).length ≠ n then some (false, m)
  else
    let vm := BiMap.number {} 0 bins
    let cm := BiMap.number {} 0 gf2s
    (fill m key vm cm gf2s (fun _ _ => 0, fun _ => 0)).bind fun s =>
      let r := inverseAndRank n s.1
      if r.2 ≠ n then some (false, m)
      else
        (fixBinaries vm (dotVec n r.1 s.2) (List.range n) m.var).map fun var =>
          (true, { m with var := fixKeys m key var gf2s })

end Gf2
end Printemps
