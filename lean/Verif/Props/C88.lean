import Verif.Lemmas.Program

/-! # C88: a program gets the problem it states

For every program of any length: arrays of any shapes, sums and scalar products over arrays and slices, terms of any
depth, assignments, comparisons, changes of bounds.  The model handed to the solver has exactly the solutions the program
describes, and the objective it describes. -/

namespace Printemps.C88
open Spec Stated Program MultiArray Proxy

/-- `σ` gives the values by address, `val` by array and index: `val k idx` is the value of the variable that `x(idx)`
returns for the `k`-th array `x`. -/
def Reads (s : St) (m : Meaning) (σ : ℕ → ℤ) (val : Values) : Prop :=
  ∀ k idx, IndexOK m.vshapes k idx →
    ∃ v, (pick s.vars k).bind (fun a => a.array.at' (ints idx)) = .ok v ∧ val k idx = σ v

theorem reads_iff {s : St} {m : Meaning} (hr : Rep s m) (σ : ℕ → ℤ) (val : Values) : Reads s m σ val ↔ Agree s σ val := by
  have key : ∀ (k : ℕ) (a : VarBlock), s.vars[k]? = some a → ∀ idx ∈ indices a.shape,
      (pick s.vars k).bind (fun a => a.array.at' (ints idx)) = .ok (a.base + flatIndex a.shape idx) := by
    intro k a ha idx hidx
    obtain ⟨h1, h2⟩ := shape_of_lookup _ _ _ hr.vshapes k a ha
    have hne : a.shape ≠ [] := h2 ▸ hr.vne _ (shapeOf_mem _ _ h1)
    rw [pick_ok ha]
    simp only [Outcome.bind]
    unfold VarArray.at'
    have h' : position a.array.shape (ints idx) = .ok (flatIndex a.shape idx) := position_eq hne hidx
    rw [h']; rfl
  constructor
  · intro h k a ha idx hidx
    obtain ⟨h1, h2⟩ := shape_of_lookup _ _ _ hr.vshapes k a ha
    obtain ⟨v, e1, e2⟩ := h k idx ⟨h1, by rw [h2]; exact hidx⟩
    rw [key k a ha idx hidx] at e1
    rw [e2, ← Outcome.ok.inj e1]
  · intro h k idx hidx
    obtain ⟨a, ha, hs⟩ := lookup_shape _ _ _ hr.vshapes k hidx.1
    exact ⟨_, key k a ha idx (hs ▸ hidx.2), h k a ha idx (hs ▸ hidx.2)⟩

theorem mem_conList (s : St) (c : Con) :
    c ∈ conList s ↔ ∃ (k : ℕ) (a : ConBlock), s.cons[k]? = some a ∧ ∃ i < numberOfElements a.shape, a.con i = c := by
  unfold conList
  simp only [List.mem_flatMap, List.mem_map, List.mem_range]
  constructor
  · rintro ⟨a, ha, i, hi, e⟩
    obtain ⟨k, hk⟩ := List.getElem?_of_mem ha
    exact ⟨k, a, hk, i, hi, e⟩
  · rintro ⟨k, a, hk, i, hi, e⟩
    exact ⟨a, List.mem_of_getElem? hk, i, hi, e⟩

theorem forall_con (s : St) (P : Con → Prop) :
    (∀ c ∈ (model s).conIds, P ((model s).con c)) ↔ ∀ c ∈ conList s, P c := by
  constructor
  · intro h c hc
    obtain ⟨i, hi⟩ := List.getElem?_of_mem hc
    have := h i (List.mem_range.2 (List.getElem?_eq_some_iff.1 hi).1)
    have e : (model s).con i = c := by
      show ((conList s)[i]?).getD blank = c
      rw [hi]; rfl
    rwa [e] at this
  · intro h i hi
    have hi' : i < (conList s).length := List.mem_range.1 hi
    have e : (model s).con i = (conList s)[i] := by
      show ((conList s)[i]?).getD blank = _
      rw [List.getElem?_eq_getElem hi']; rfl
    rw [e]
    exact h _ (List.getElem_mem hi')

theorem satisfied_iff {s : St} {m : Meaning} (hr : Rep s m) (σ : ℕ → ℤ) (val : Values) (h : Agree s σ val) :
    Solves (model s) σ ↔ m.Satisfied val := by
  have vne : ∀ (k : ℕ) (a : VarBlock), s.vars[k]? = some a → a.shape ≠ [] := by
    intro k a ha
    obtain ⟨h1, h2⟩ := shape_of_lookup _ _ _ hr.vshapes k a ha
    exact h2 ▸ hr.vne _ (shapeOf_mem _ _ h1)
  have cne : ∀ (k : ℕ) (a : ConBlock), s.cons[k]? = some a → a.shape ≠ [] := by
    intro k a ha
    obtain ⟨h1, h2⟩ := shape_of_lookup _ _ _ hr.cshapes k a ha
    exact h2 ▸ hr.cne _ (shapeOf_mem _ _ h1)
  have hvar : ∀ v, v < s.next → (model s).var v = s.mem v := fun v hv => if_pos hv
  unfold Solves Meaning.Satisfied
  apply and_congr
  · constructor
    · intro g k hk idx hidx
      obtain ⟨a, ha, hs⟩ := lookup_shape _ _ _ hr.vshapes k hk
      rw [hs] at hidx
      have hlt : a.base + flatIndex a.shape idx < s.next := by
        have := ((laid_block _ _ _ hr.laid).2 k a ha).2
        have := flat_lt (vne k a ha) hidx
        omega
      obtain ⟨q1, q2, q3⟩ := hr.range k a ha idx hidx
      have := (g _ (List.mem_range.2 hlt)).2 (by rw [hvar _ hlt]; exact q3)
      rw [hvar _ hlt, q1, q2, ← h k a ha idx hidx] at this
      exact this
    · intro g v hv
      have hv' : v < s.next := List.mem_range.1 hv
      obtain ⟨k, a, ha, i, hi, rfl⟩ := laid_cover _ _ _ hr.laid v (Nat.zero_le _) hv'
      obtain ⟨h1, h2⟩ := shape_of_lookup _ _ _ hr.vshapes k a ha
      obtain ⟨r1, r2⟩ := multi_mem (vne k a ha) hi
      have := g k h1 _ (by rw [h2]; exact r1)
      obtain ⟨q1, q2, q3⟩ := hr.range k a ha _ r1
      rw [h k a ha _ r1] at this
      rw [r2] at q1 q2 q3 this
      rw [hvar _ hv']
      exact ⟨fun hf => by rw [q3] at hf; (cases hf), fun _ => by rw [q1, q2]; exact this⟩
  · rw [forall_con s (fun c => c.enabled = true → Holds c σ)]
    constructor
    · intro g k hk idx hidx hact
      obtain ⟨a, ha, hs⟩ := lookup_shape _ _ _ hr.cshapes k hk
      rw [hs] at hidx
      obtain ⟨q1, q2⟩ := hr.con k a ha idx hidx
      refine (q1.holds σ val h).1 (g _ ?_ (by rw [q2]; exact hact))
      exact (mem_conList s _).2 ⟨k, a, ha, _, flat_lt (cne k a ha) hidx, rfl⟩
    · intro g c hc he
      obtain ⟨k, a, ha, i, hi, rfl⟩ := (mem_conList s c).1 hc
      obtain ⟨h1, h2⟩ := shape_of_lookup _ _ _ hr.cshapes k a ha
      obtain ⟨r1, r2⟩ := multi_mem (cne k a ha) hi
      obtain ⟨q1, q2⟩ := hr.con k a ha _ r1
      rw [r2] at q1 q2
      exact (q1.holds σ val h).2 (g k h1 _ (by rw [h2]; exact r1) (by rw [← q2]; exact he))

/-- Values by array and index of given values by address. -/
def valuesOf (s : St) (σ : ℕ → ℤ) : Values := fun k idx =>
  match s.vars[k]? with
  | some a => σ (a.base + flatIndex a.shape idx)
  | none => 0

theorem agree_valuesOf (s : St) (σ : ℕ → ℤ) : Agree s σ (valuesOf s σ) := by
  intro k a ha idx _
  unfold valuesOf
  rw [ha]

open Classical in
theorem exists_agree {s : St} {m : Meaning} (hr : Rep s m) (val : Values) : ∃ σ, Agree s σ val := by
  have vne : ∀ (k : ℕ) (a : VarBlock), s.vars[k]? = some a → a.shape ≠ [] := by
    intro k a ha
    obtain ⟨h1, h2⟩ := shape_of_lookup _ _ _ hr.vshapes k a ha
    exact h2 ▸ hr.vne _ (shapeOf_mem _ _ h1)
  let P : ℕ → ℕ × List ℕ → Prop := fun v q =>
    ∃ a, s.vars[q.1]? = some a ∧ q.2 ∈ indices a.shape ∧ v = a.base + flatIndex a.shape q.2
  refine ⟨fun v => if h : ∃ q, P v q then val h.choose.1 h.choose.2 else 0, ?_⟩
  intro k a ha idx hidx
  have h : ∃ q, P (a.base + flatIndex a.shape idx) q := ⟨(k, idx), a, ha, hidx, rfl⟩
  have e := h.choose_spec
  simp only
  rw [dif_pos h]
  generalize h.choose = q at e
  obtain ⟨a', ha', hidx', e'⟩ := e
  obtain ⟨r1, r2⟩ := laid_disjoint _ _ _ hr.laid k q.1 a a' ha ha' _ _ (flat_lt (vne k a ha) hidx)
    (flat_lt (vne _ a' ha') hidx') e'
  subst r1
  rw [ha] at ha'
  cases ha'
  rw [flat_inj (vne _ a ha) hidx hidx' r2]

/-- **A program gets the problem it states.**  Every program that obeys the rules `ProgramOK` (the arrays and indices it
mentions exist, slices and coefficient lists fit, lower bounds do not exceed upper bounds, names without spaces and at most
100 arrays of a kind, no division by zero) runs without an error, and of the model it builds:

* values by address and values by array and index correspond to each other, both ways;
* the assignments that solve the model are exactly those that satisfy what the program states;
* the objective is the stated one, with the stated direction;
* every expression that can be read has the value stated for it.

Missing: two things a program may write that do not get the stated meaning (`element_assigned_from_an_array`,
`slice_of_assigned_elements`) are excluded by `ProgramOK`. -/
theorem program_gets_its_problem_partial (p : List Stmt) (h : ProgramOK {} p) :
    ∃ s, run {} p = .ok s ∧
      (∀ σ, ∃ val, Reads s (meaning {} p) σ val) ∧ (∀ val, ∃ σ, Reads s (meaning {} p) σ val) ∧
      (model s).objDefined = (meaning {} p).hasGoal ∧ (model s).isMin = (meaning {} p).minimize ∧
      ∀ σ val, Reads s (meaning {} p) σ val →
        (Solves (model s) σ ↔ (meaning {} p).Satisfied val) ∧
        exprValue (model s).obj σ = (meaning {} p).goal val ∧
        ∀ k idx, IndexOK (meaning {} p).eshapes k idx →
          ∃ o, eval s (.expr k idx) = .ok o ∧ exprValue o.expr σ = (meaning {} p).expr k idx val := by
  obtain ⟨s, h1, hr⟩ := run_ok p {} {} rep_empty h
  refine ⟨s, h1, ?_, ?_, hr.hasGoal, hr.minimize, ?_⟩
  · exact fun σ => ⟨_, (reads_iff hr σ _).2 (agree_valuesOf s σ)⟩
  · intro val
    obtain ⟨σ, hσ⟩ := exists_agree hr val
    exact ⟨σ, (reads_iff hr σ val).2 hσ⟩
  · intro σ val hv
    have ha := (reads_iff hr σ val).1 hv
    refine ⟨satisfied_iff hr σ val ha, hr.goal.value σ val ha, ?_⟩
    intro k idx hidx
    obtain ⟨o, e1, g, _⟩ := evaluates hr (.expr k idx) hidx
    exact ⟨o, e1, g.value σ val ha⟩

/-- **What was stated earlier is not changed by later statements** on other objects: a constraint keeps the meaning it had
when it was stated, also if an expression it mentions, another constraint, or bounds are changed afterwards. -/
theorem constraints_keep_their_meaning (m : Meaning) (x : Stmt) (k : ℕ) (idx : List ℕ) (hk : k < m.cshapes.length)
    (h : ∀ tgt r, x ≠ .demand k tgt r) : (m.after x).con k idx = m.con k idx := by
  cases x with
  | demand k' tgt r =>
    have : k ≠ k' := fun e => h tgt r (by rw [e])
    simp only [Meaning.after, update]
    rw [if_neg (fun h => this h.1)]
  | constraints _ _ =>
    simp only [Meaning.after, update]
    rw [if_neg (fun h => by omega)]
  | constraintOf _ _ =>
    simp only [Meaning.after, update]
    rw [if_neg (fun h => by omega)]
  | _ => rfl

/-! ## A program -/

/-- Two rows of three 0/1 variables and a number `z` between 0 and 20; row sums are kept in expressions; one of each
column is selected; the first row must not weigh more than 7; maximise. -/
def sample : List Stmt :=
  [.variables_ "x".toList [2, 3] (some (0, 1)),
   .variables_ "z".toList [1] none,
   .bounds 1 .whole 0 20,
   .expressions "row".toList [2],
   .change 0 (.elem [0]) (.add (.sumVar 0 (some [0, -1]))),
   .change 0 (.elem [1]) (.add (.dotVar 0 (some [1, -1]) [2, 3, 5])),
   .constraints "col".toList [3],
   .demand 0 (.elem [0]) (.select 0 (some [-1, 0])),
   .demand 0 (.elem [1]) (.select 0 (some [-1, 1])),
   .demand 0 (.elem [2]) (.compare .less (.term (.sub (.var 0 [0, 2]) (.varArr 1))) (.num 0)),
   .constraintOf "cap".toList (.compare .less (.term (.add (.expr 0 [1]) (.mulNum (.varArr 1) (1 / 2)))) (.num 7)),
   .change 0 (.elem [0]) (.addNum 100),
   .switch 0 (.elem [1]) false,
   .start 1 .whole 4,
   .goal false (.add (.sumExpr 0 (some [-1])) (.varArr 1))]

example : ProgramOK {} sample := by
  simp [ProgramOK, sample, StmtOK, NewOK, ManyOK, TargetOK, OpOK, TermOK, RelationOK, Meaning.after, IndexOK, OneOK,
    PatternOK, DotOK, shapeOf, chosen, indices, replaces, slice, InSlice, List.range_succ]

/-! ## What is excluded -/

/-- An expression `e = x + 5` and an array `f` of two expressions; `f(0) = e`; minimise `f(0)`. -/
def fromArray : List Stmt :=
  [.variables_ "x".toList [1] (some (0, 9)),
   .expressionOf "e".toList (.addNum (.varArr 0) 5),
   .expressions "f".toList [2],
   .change 1 (.elem [0]) (.set (.exprArr 0)),
   .goal true (.expr 1 [0])]

/-- **An element that is assigned from an array (a single expression is one) loses the constant**: the objective of this
program is `x`, although it states `x + 5`. -/
theorem element_assigned_from_an_array :
    ∃ s, run {} fromArray = .ok s ∧ ∀ σ val, Reads s (meaning {} fromArray) σ val →
      exprValue (model s).obj σ = (meaning {} fromArray).goal val - 5 := by
  have run_eq : ∃ s, run {} fromArray = .ok s ∧ s.obj.terms = [(0, 1)] ∧ s.obj.const = 0 ∧
      (pick s.vars 0).bind (fun a => a.array.at' (ints [0])) = .ok 0 := ⟨_, rfl, rfl, rfl, rfl⟩
  obtain ⟨s, h1, h2, h3, h4⟩ := run_eq
  refine ⟨s, h1, ?_⟩
  intro σ val h
  obtain ⟨v, e1, e2⟩ := h 0 [0] ⟨by decide, by decide⟩
  rw [h4] at e1
  cases e1
  have g : (meaning {} fromArray).goal val = (val 0 [0] : ℚ) + 5 := by
    simp [meaning, fromArray, Meaning.after, Meaning.denote, update, covers, shapeOf, indices, Meaning.result,
      List.range_succ]
  rw [g, e2]
  show exprValue s.obj σ = _
  rw [exprValue, h2, h3]
  simp

/-- Two 0/1 variables, an array `e` of two expressions, `e(1) = x(0) + x(1)`, and the constraint `e.sum({1}) ≥ 1`. -/
def fromSlice : List Stmt :=
  [.variables_ "x".toList [2] (some (0, 1)),
   .expressions "e".toList [2],
   .change 0 (.elem [1]) (.set (.add (.var 0 [0]) (.var 0 [1]))),
   .constraintOf "g".toList (.compare .greater (.term (.sumExpr 0 (some [1]))) (.num 1))]

/-- **Elements that are assigned an expression by `=` leave the slices of their array**: this program states a problem
that `x(0) = 1, x(1) = 0` satisfies, and gets a problem without solutions. -/
theorem slice_of_assigned_elements :
    ∃ s, run {} fromSlice = .ok s ∧ (∀ σ, ¬ Solves (model s) σ) ∧ ∃ val, (meaning {} fromSlice).Satisfied val := by
  have run_eq : ∃ s, run {} fromSlice = .ok s ∧ (model s).conIds = [0] ∧ ((model s).con 0).enabled = true ∧
      ((model s).con 0).sense = .greater ∧ ((model s).con 0).expr.terms = [] ∧ ((model s).con 0).expr.const = 0 - 1 :=
    ⟨_, rfl, rfl, rfl, rfl, rfl, rfl⟩
  obtain ⟨s, h1, h2, h3, h4, h5, h6⟩ := run_eq
  refine ⟨s, h1, ?_, ?_⟩
  · intro σ h
    have := h.2 0 (by rw [h2]; simp) h3
    unfold Holds at this
    rw [h4, exprValue, h5, h6] at this
    simp only [cmpOf, Cmp.holds, List.map_nil, List.sum_nil] at this
    norm_num at this
  · refine ⟨fun _ idx => if idx = [0] then 1 else 0, ?_, ?_⟩
    · intro k hk idx hidx
      have : k = 0 := by
        have : (meaning {} fromSlice).vshapes.length = 1 := rfl
        omega
      subst this
      have e1 : (meaning {} fromSlice).lower 0 idx = 0 := by
        simp [meaning, fromSlice, Meaning.after, update, covers]
      have e2 : (meaning {} fromSlice).upper 0 idx = 1 := by
        simp [meaning, fromSlice, Meaning.after, update, covers]
      rw [e1, e2]
      show (0 : ℤ) ≤ (if idx = [0] then 1 else 0) ∧ (if idx = [0] then (1 : ℤ) else 0) ≤ 1
      split <;> simp
    · intro k hk idx hidx _
      have : k = 0 := by
        have : (meaning {} fromSlice).cshapes.length = 1 := rfl
        omega
      subst this
      simp [meaning, fromSlice, Meaning.after, update, covers, Meaning.relation, Meaning.part, Meaning.denote, shapeOf,
        chosen, slice, InSlice, indices, Meaning.result, cmpOf, Cmp.holds, List.range_succ]

end Printemps.C88
