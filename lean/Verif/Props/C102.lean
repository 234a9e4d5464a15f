import Verif.Model.SizeTable
import Verif.Props.C93

/-! # C102 — the table of the size of the problem adds up

`first` is the model of the first setup of the structure, `last` that of the last one.  The numbers are compared with
`freeVars` (variables that are not fixed) and `usedCons` (enabled constraints) of `Spec/Status`. -/

namespace Printemps.C102
open Spec Setup Whole Status SizeTable

/-- The three comparisons in the order of the row, `[<= : …, == : …, >= : …]`. -/
def comparisons : List Sense := [.less, .equal, .greater]

theorem comparison_sum (m : MState) (p : ℕ → Bool) (l : List ℕ) :
    (comparisons.map fun s => (l.filter fun c => (m.con c).enabled && decide ((m.con c).sense = s)).countP p).sum =
      l.countP fun c => (m.con c).enabled && p c := by
  induction l with
  | nil => rfl
  | cons c l ih =>
    rw [List.countP_cons, ← ih]
    simp only [comparisons, List.map_cons, List.map_nil, List.sum_cons, List.sum_nil, List.filter_cons]
    cases he : (m.con c).enabled <;> cases hs : (m.con c).sense <;> simp [List.countP_cons] <;> omega

theorem used_filter (l : List ℕ) (e q : ℕ → Bool) :
    (l.filter fun c => e c && q c).countP e = ((l.filter e).filter q).length := by
  induction l with
  | nil => rfl
  | cons c l ih => cases he : e c <;> cases hq : q c <;> simp [List.filter_cons, he, hq, ih]

theorem filter_swap (l : List ℕ) (p q : ℕ → Bool) : (l.filter p).countP q = ((l.filter q).filter p).length := by
  induction l with
  | nil => rfl
  | cons c l ih => cases hp : p c <;> cases hq : q c <;> simp [List.filter_cons, hp, hq, ih]

/-- **Inside the parentheses**: variables that are not fixed and enabled constraints after the presolve, in all and for each
sense, comparison and type; each of the four groups adds up to the number in its head row. -/
theorem inside_right (lt : ℕ → ℕ → Bool) (first last : MState) :
    let t := table lt first last
    t.variables_.inside = (freeVars last).length ∧ (senses.map fun s => (t.sense s).inside).sum = t.variables_.inside ∧
    (∀ s, (t.sense s).inside = ((freeVars last).filter fun v => decide ((last.var v).sense = s)).length) ∧
    t.constraints.inside = (usedCons last).length ∧
    (comparisons.map fun s => (t.comparison s).inside).sum = t.constraints.inside ∧
    (∀ s, (t.comparison s).inside = ((usedCons last).filter fun c => decide ((last.con c).sense = s)).length) ∧
    (types.map fun k => (t.type k).inside).sum = t.constraints.inside ∧
    ∀ k, (t.type k).inside =
      ((usedCons last).filter fun c => decide ((ConType.classify last.var lt (last.con c)).1 = k)).length := by
  have e1 : ∀ (l : List ℕ) (p : ℕ → Bool), l.countP p = (l.filter p).length := fun l p => List.countP_eq_length_filter
  obtain ⟨-, -, -, -, -, -, -, h1, -, -, -, -, h2⟩ := C93.presolved_counts lt first last last ⟨rfl, rfl, fun _ => rfl, fun _ => rfl, fun _ => rfl⟩
  refine ⟨e1 _ _, ?_, fun s => filter_swap _ _ _, e1 _ _, ?_, fun s => ?_, ?_, fun k => filter_swap _ _ _⟩
  · exact h1.trans (e1 _ _).symm
  · refine (comparison_sum last _ last.conIds).trans ?_
    show _ = last.conIds.countP _
    simp only [Bool.and_self]
  · exact used_filter last.conIds (fun c => (last.con c).enabled) (fun c => decide ((last.con c).sense = s))
  · exact h2.trans (e1 _ _).symm

/-- **Before the parentheses**: the variables, and the constraints, of the first setup; the senses add up to the number of
variables, the types add up to the number of constraints.  Partial: the comparisons add up to the constraints that were
enabled, so to all of them exactly if none was disabled. -/
theorem before_right_partial (lt : ℕ → ℕ → Bool) (first last : MState) :
    let t := table lt first last
    t.variables_.before = first.varIds.length ∧ (senses.map fun s => (t.sense s).before).sum = t.variables_.before ∧
    (∀ s, (t.sense s).before = (first.varIds.filter fun v => decide ((first.var v).sense = s)).length) ∧
    t.constraints.before = first.conIds.length ∧ (types.map fun k => (t.type k).before).sum = t.constraints.before ∧
    (∀ k, (t.type k).before = (first.conIds.filter fun c => decide ((ConType.classify first.var lt (first.con c)).1 = k)).length) ∧
    (comparisons.map fun s => (t.comparison s).before).sum = (usedCons first).length ∧
    ((comparisons.map fun s => (t.comparison s).before).sum = t.constraints.before ↔
      ∀ c ∈ first.conIds, (first.con c).enabled = true) := by
  obtain ⟨-, -, -, -, -, h1, -, -, -, -, h2⟩ := C93.original_counts lt first last last
  have h3 : (comparisons.map fun s => ((table lt first last).comparison s).before).sum = (usedCons first).length := by
    have := comparison_sum first (fun _ => true) first.conIds
    simp only [List.countP_true, Bool.and_true] at this
    refine this.trans ?_
    rw [List.countP_eq_length_filter]
    rfl
  refine ⟨rfl, h1, fun s => rfl, rfl, h2, fun k => rfl, h3, ?_⟩
  rw [h3]
  show (first.conIds.filter _).length = first.conIds.length ↔ _
  rw [List.length_filter_eq_length_iff]

/-- The table of a call: the problem of the user before the parentheses, and not more free variables, nor more constraints in
use, inside of them. -/
theorem table_of_call (o : Setup.Options) (lt : ℕ → ℕ → Bool) (user : ℕ → Bool) (O m1 : MState) (p : Ordinary o O)
    (hf : ∃ σ, Feasible O σ) (h : prepare o lt user O = some (.ok m1)) :
    let t := table lt (structured O) m1
    t.variables_.before = O.varIds.length ∧ t.constraints.before = O.conIds.length ∧
    t.variables_.inside ≤ (freeVars O).length ∧ t.constraints.inside ≤ (usedCons O).length ∧
    t.variables_.inside ≤ t.variables_.before ∧ t.constraints.inside ≤ t.constraints.before := by
  obtain ⟨-, s2, -, s4, -⟩ := C93.setup_shrinks o lt user O m1 m1 p hf h
  obtain ⟨i1, -, -, i2, -⟩ := inside_right lt (structured O) m1
  have a : (table lt (structured O) m1).variables_.inside ≤ (freeVars O).length := by rw [i1]; exact s2
  have b : (table lt (structured O) m1).constraints.inside ≤ (usedCons O).length := by rw [i2]; exact s4
  exact ⟨rfl, rfl, a, b, a.trans (List.length_filter_le _ _), b.trans (List.length_filter_le _ _)⟩

/-! ## Cases -/

/-- The example model of `Lemmas/Example`, with its first constraint switched off. -/
def off : MState := { Example.model with con := fun c => { Example.model.con c with enabled := decide (c ≠ 0) } }

/-- With a disabled constraint the comparisons do not add up to the number of constraints in the same table. -/
theorem comparisons_do_not_add_up : ∃ m : MState, ∀ (lt : ℕ → ℕ → Bool) (last : MState),
    let t := table lt m last
    (comparisons.map fun s => (t.comparison s).before).sum + 1 = t.constraints.before := by
  refine ⟨off, fun lt last => ?_⟩
  have h := (before_right_partial lt off last).2.2.2.2.2.2.1
  dsimp only at h ⊢
  rw [h]
  show (usedCons off).length + 1 = off.conIds.length
  decide +kernel

/-- The example model: all of the comparisons are counted. -/
example (lt : ℕ → ℕ → Bool) (last : MState) : (comparisons.map fun s => ((table lt Example.model last).comparison s).before).sum =
    (table lt Example.model last).constraints.before :=
  (before_right_partial lt Example.model last).2.2.2.2.2.2.2.2 (by decide +kernel)

/-- A problem with two constraints to which the presolve adds one. -/
example : ∃ m1, prepare C67.opts C67.lt' (fun _ => false) C93.pairEx = some (.ok m1) ∧
    (table C67.lt' (structured C93.pairEx) m1).constraints.before = 2 ∧
    (table C67.lt' (structured C93.pairEx) m1).constraints.inside ≤ 2 := by
  obtain ⟨m1, h, -⟩ := C93.constraints_added
  obtain ⟨-, b, -, -, -, f⟩ := table_of_call C67.opts C67.lt' (fun _ => false) C93.pairEx m1 C93.pair_ordinary C93.pair_feasible h
  exact ⟨m1, h, b, f⟩

end Printemps.C102
