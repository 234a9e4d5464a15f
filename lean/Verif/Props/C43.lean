import Verif.Model.Mps
import Verif.Lemmas.Assoc
import Verif.Spec.Feasible
import Verif.Lemmas.Model

/-! # C43 — MPS ranges -/

namespace Printemps.C43
open Spec Mps Text

/-- A row value `x` satisfies "`x` sense `b`". -/
def RowHolds (s : Sense) (b x : ℚ) : Prop :=
  match s with
  | .less => x ≤ b
  | .equal => x = b
  | .greater => b ≤ x

/-- The interval of the MPS standard for a row with sense `s`, right-hand side `b` and range `r`. -/
def Standard (s : Sense) (b r x : ℚ) : Prop :=
  match s with
  | .less => b - |r| ≤ x ∧ x ≤ b
  | .greater => b ≤ x ∧ x ≤ b + |r|
  | .equal => if r < 0 then b - |r| ≤ x ∧ x ≤ b else b ≤ x ∧ x ≤ b + |r|

/-- What the two rows that the reader keeps after a RANGES entry for row `n` say about the value `x` of the
row. -/
def Installed (f : File) (n : Name) (x : ℚ) : Prop :=
  ∃ c d, f.cons.get n = some c ∧ f.cons.get (n ++ kRange) = some d ∧ d.coef = c.coef ∧ n ++ kRange ∈ f.conNames ∧
    RowHolds c.sense c.rhs x ∧ RowHolds d.sense d.rhs x

theorem ne_range (n : Name) : n ++ kRange ≠ n := fun h => by
  have := congrArg List.length h
  simp [kRange] at this

/-- What the reader does with a RANGES entry: the row stays, and a second row with the same coefficients is
added. -/
theorem range_rows (f : File) (n t : Name) (c : MCon) (h : f.cons.get n = some c) :
    (addRange f (n, t)).cons.get n = some c ∧
    (addRange f (n, t)).conNames = f.conNames ++ [n ++ kRange] ∧
    ∃ d, (addRange f (n, t)).cons.get (n ++ kRange) = some d ∧ d.coef = c.coef ∧
      (d.sense, d.rhs) = match c.sense with
        | .less => (.greater, c.rhs + |atof t|)
        | .greater => (.less, c.rhs - |atof t|)
        | .equal => if atof t > 0 then (.greater, c.rhs + |atof t|) else (.less, c.rhs - |atof t|) := by
  have hget : (f.cons.modify n {} id).get n = some c := by
    rw [Assoc.get_modify, if_pos rfl, h]; rfl
  refine ⟨?_, rfl, ?_⟩
  · unfold addRange
    dsimp only
    rw [Assoc.get_put, if_neg (ne_range n)]
    exact hget
  · unfold addRange
    dsimp only
    rw [Assoc.get_put, if_pos rfl, hget]
    refine ⟨_, rfl, ?_⟩
    simp only [Option.getD_some]
    cases c.sense with
    | less => exact ⟨rfl, rfl⟩
    | greater => exact ⟨rfl, rfl⟩
    | equal => dsimp only; split <;> exact ⟨rfl, rfl⟩

/-- Entries for other rows change nothing for this row. -/
theorem range_frame (f : File) (e : Name × Name) (k : Name) (c : MCon) (h : f.cons.get k = some c)
    (h1 : k ≠ e.1 ++ kRange) : (addRange f e).cons.get k = some c := by
  unfold addRange
  dsimp only
  rw [Assoc.get_put, if_neg (Ne.symm h1), Assoc.get_modify]
  split
  · next h2 => rw [h2, h]; rfl
  · exact h

/-- Lines of the RANGES section are entries: the first item names the set, then come one or two pairs of row and range. -/
theorem range_line (s : St) (hm : s.mode = .ranges) (n a t : Name) (hn : n ≠ kName) :
    lineStep s [n, a, t] = some { s with file := addRange s.file (a, t) } ∧
    ∀ b u, lineStep s [n, a, t, b, u] = some { s with file := addRange (addRange s.file (a, t)) (b, u) } := by
  constructor
  · unfold lineStep
    simp only [hn, if_false, List.cons_ne_nil, and_false]
    unfold sectionStep
    rw [hm]
    rfl
  · intro b u
    unfold lineStep
    simp only [hn, if_false, List.cons_ne_nil, and_false]
    unfold sectionStep
    rw [hm]
    rfl

/-- The values of a row that the reader admits after a RANGES entry `r`. -/
theorem installed_iff (f : File) (n t : Name) (c : MCon) (h : f.cons.get n = some c) (x : ℚ) :
    Installed (addRange f (n, t)) n x ↔ RowHolds c.sense c.rhs x ∧
      match c.sense with
      | .less => c.rhs + |atof t| ≤ x
      | .greater => x ≤ c.rhs - |atof t|
      | .equal => if atof t > 0 then c.rhs + |atof t| ≤ x else x ≤ c.rhs - |atof t| := by
  obtain ⟨h1, h2, d, h3, h4, h5⟩ := range_rows f n t c h
  have : Installed (addRange f (n, t)) n x ↔ RowHolds c.sense c.rhs x ∧ RowHolds d.sense d.rhs x := by
    constructor
    · rintro ⟨c', d', g1, g2, -, -, g3, g4⟩
      rw [h1] at g1
      rw [h3] at g2
      cases g1; cases g2
      exact ⟨g3, g4⟩
    · rintro ⟨g1, g2⟩
      exact ⟨c, d, h1, h3, h4, by rw [h2]; simp, g1, g2⟩
  rw [this]
  refine and_congr_right fun _ => ?_
  cases hs : c.sense with
  | less => rw [hs] at h5; simp only [Prod.mk.injEq] at h5; rw [h5.1, h5.2]; rfl
  | greater => rw [hs] at h5; simp only [Prod.mk.injEq] at h5; rw [h5.1, h5.2]; rfl
  | equal =>
    rw [hs] at h5
    dsimp only at h5 ⊢
    split at h5
    · next hp => simp only [Prod.mk.injEq] at h5; rw [h5.1, h5.2, if_pos hp]; rfl
    · next hp => simp only [Prod.mk.injEq] at h5; rw [h5.1, h5.2, if_neg hp]; rfl

/-- The standard interval is never empty: it contains the right-hand side. -/
theorem standard_contains_rhs (s : Sense) (b r : ℚ) : Standard s b r b := by
  have := abs_nonneg r
  unfold Standard
  cases s with
  | less => exact ⟨by linarith, le_refl _⟩
  | greater => exact ⟨le_refl _, by linarith⟩
  | equal => dsimp only; split <;> exact ⟨by linarith, by linarith⟩

/-- With range 0 the reader agrees with the standard. -/
theorem zero_range_standard_partial (f : File) (n t : Name) (c : MCon) (h : f.cons.get n = some c) (h0 : atof t = 0) (x : ℚ) :
    Installed (addRange f (n, t)) n x ↔ Standard c.sense c.rhs (atof t) x := by
  rw [installed_iff f n t c h, h0]
  unfold Standard RowHolds
  cases c.sense with
  | less => simp; constructor <;> rintro ⟨a, b⟩ <;> exact ⟨b, a⟩
  | greater => simp
  | equal =>
    simp
    intro hx
    exact ⟨fun e => e.ge, fun h => le_antisymm hx h⟩

/-- With any other range the reader's sign is wrong: no value of the row satisfies both rows, so the model becomes
infeasible, although the standard admits at least the right-hand side. -/
theorem nonzero_range_excludes_everything (f : File) (n t : Name) (c : MCon) (h : f.cons.get n = some c)
    (h0 : atof t ≠ 0) : (∀ x, ¬ Installed (addRange f (n, t)) n x) ∧ Standard c.sense c.rhs (atof t) c.rhs := by
  refine ⟨fun x hx => ?_, standard_contains_rhs _ _ _⟩
  rw [installed_iff f n t c h] at hx
  have hp : 0 < |atof t| := abs_pos.2 h0
  unfold RowHolds at hx
  cases hs : c.sense with
  | less => simp only [hs] at hx; linarith [hx.1, hx.2]
  | greater => simp only [hs] at hx; linarith [hx.1, hx.2]
  | equal =>
    simp only [hs] at hx
    obtain ⟨a, b⟩ := hx
    split at b <;> linarith

/-- The imported constraints mean what the rows say: the import turns a row into the constraint "sum of
coefficients times variables, sense, right-hand side". -/
theorem imported_row (names : List Name) (senseOf : ℕ → VarSense) (c : MCon) (k : Con)
    (h : importCon names senseOf c = some k) :
    ∃ ts, importTerms names c.coef = some ts ∧ k.sense = c.sense ∧
      ∀ σ : ℕ → ℤ, exprValue k.expr σ = (ts.map (fun t => t.2 * (σ t.1 : ℚ))).sum - c.rhs := by
  unfold importCon at h
  obtain ⟨ts, h1, h2⟩ := Option.bind_eq_some_iff.1 h
  refine ⟨ts, h1, ?_⟩
  unfold compareOp sideDiff at h2
  simp only [Option.map_some, Option.some.injEq] at h2
  subst h2
  refine ⟨rfl, fun σ => ?_⟩
  simp only [exprValue, Con.setup, Expr.subValue, Expr.copy, Expr.create, Expr.subAssignValue]
  ring

/-! Non-vacuity: a whole file with the row `r: x + y <= 4` and the range 2.  By the standard `2 <= x + y <= 4`; the
reader gives `x + y <= 4` and `x + y >= 6`. -/
private def text : List (List Char) :=
  [kRows, ['N', ' ', 'o'], ['L', ' ', 'r'], kColumns, ['m', ' ', 'm', ' '] ++ kIntOrg, ['x', ' ', 'r', ' ', '1', ' ', 'o', ' ', '1'],
   ['y', ' ', 'r', ' ', '1'], kRhs, ['b', ' ', 'r', ' ', '4'], kRanges, ['b', ' ', 'r', ' ', '2'], kEndata]
example : ((readMps text).bind (importMps false)).map
    (fun p => p.cons.map (fun c => (c.sense, c.expr.terms, c.expr.const))) =
    some [(.less, [(0, 1), (1, 1)], -4), (.greater, [(0, 1), (1, 1)], -6)] := by decide +kernel
example : atof ['2'] ≠ 0 := by decide +kernel

end Printemps.C43
