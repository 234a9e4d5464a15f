import Verif.Prelude

/-! # Model of `utility/fixed_size_hash_map.h`

Keys are pointers, here natural numbers. Values are rationals. The heap arrays are functions on slots. -/

namespace Printemps.HashMap

/-- The object after `setup`; fixed_size_hash_map.h:18-27. -/
structure Table where
  shift : ℕ
  mask : ℕ
  bucketSize : ℕ
  keys : ℕ → ℕ
  values : ℕ → ℚ
  occupied : ℕ → Bool

/-- `compute_hash` and `compute_index`, fixed_size_hash_map.h:30-38. -/
def Table.index (t : Table) (k : ℕ) : ℕ := (k >>> t.shift) &&& t.mask

/-- Step to the next slot, fixed_size_hash_map.h:48 and 136. -/
def Table.next (t : Table) (i : ℕ) : ℕ := (i + 1) &&& t.mask

/-- Probe loop of `insert`, fixed_size_hash_map.h:47-49. `none` means that the loop has made as many
steps as there are slots without finding a free one, i.e. that it never ends. -/
def Table.findFree (t : Table) : ℕ → ℕ → Option ℕ
  | 0, _ => none
  | fuel + 1, i => if t.occupied i then t.findFree fuel (t.next i) else some i

/-- `insert`, fixed_size_hash_map.h:41-54. -/
def Table.insert (t : Table) (k : ℕ) (v : ℚ) : Option Table :=
  (t.findFree t.bucketSize (t.index k)).map fun i =>
    { t with
      keys := Function.update t.keys i k
      values := Function.update t.values i v
      occupied := Function.update t.occupied i true }

/-- The doubling loop, fixed_size_hash_map.h:97-100. -/
def bucketLoop (minimum b : ℕ) : ℕ :=
  if h : 0 < b ∧ b < minimum then bucketLoop minimum (b * 2) else b
termination_by minimum - b
decreasing_by omega

/-- `setup`, fixed_size_hash_map.h:89-120, with `LOAD_FACTOR_MULTIPLIER = 5`; `floor(log2(·))` is
`Nat.log2`. The source map is a list of pairs in any order. -/
def setup (m : List (ℕ × ℚ)) (keySize : ℕ) : Option Table :=
  let b := bucketLoop (m.length * 5) 1
  m.foldl (fun t p => t.bind fun t => t.insert p.1 p.2)
    (some { shift := Nat.log2 keySize
            mask := b - 1
            bucketSize := b
            keys := fun _ => 0
            values := fun _ => 0
            occupied := fun _ => false })

/-- Probe loop of `at`, fixed_size_hash_map.h:132-138. -/
def Table.probe (t : Table) (k : ℕ) : ℕ → ℕ → Option ℚ
  | 0, _ => none
  | fuel + 1, i =>
    if t.keys i = k then some (t.values i)
    else if !t.occupied i then some 0
    else t.probe k fuel (t.next i)

/-- `at`, fixed_size_hash_map.h:123-139. `none` stands for an endless loop. -/
def Table.at (t : Table) (k : ℕ) : Option ℚ :=
  if !t.occupied (t.index k) then some 0 else t.probe k t.bucketSize (t.index k)

end Printemps.HashMap
