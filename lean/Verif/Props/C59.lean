import Verif.Lemmas.Solution
import Verif.Lemmas.Update
import Verif.Props.C11
import Verif.Props.C48

/-! # C59 — result reporting -/

namespace Printemps.C59
open Spec Sol

/-! ## A model can be solved only once -/

/-- The results of calling `solve` again and again; `rest` is everything the solver does after the check. -/
def calls {M R : Type} (rest : M → Option R × M) : ℕ → Bool × M → List (Option R) × Bool × M
  | 0, s => ([], s)
  | n + 1, s =>
    let r := solveOnce rest s.1 s.2
    let t := calls rest n r.2
    (r.1 :: t.1, t.2)

/-- Whatever the solver does, and whether or not the first call throws: the second and all later calls throw
and leave the model as the first call left it. -/
theorem solve_only_once {M R : Type} (rest : M → Option R × M) (m : M) (n : ℕ) :
    (calls rest (n + 1) (false, m)).1 = (rest m).1 :: List.replicate n none ∧
    (calls rest (n + 1) (false, m)).2 = (true, (rest m).2) := by
  have later : ∀ (n : ℕ) (m : M), calls rest n (true, m) = (List.replicate n none, true, m) := by
    intro n
    induction n with
    | zero => intro m; rfl
    | succ n ih =>
      intro m
      unfold calls
      simp only [solveOnce, if_true]
      rw [ih, List.replicate_succ]
  unfold calls
  simp only [solveOnce, Bool.false_eq_true, if_false]
  rw [later]
  exact ⟨rfl, rfl⟩

/-! ## The reported solution -/

/-- The choice of the reported solution: among all solutions offered during the search, a feasible one whose
objective no other feasible one beats by more than `1e-5` if there is a feasible one, otherwise one whose
augmented objective no other one beats by more than `1e-5`. -/
def Chosen (l : List (Dense × Score)) (d : Dense) : Prop :=
  (∃ sc, (d, sc) ∈ l ∧ sc.isFeasible = true ∧ ∀ p ∈ l, p.2.isFeasible = true → sc.objective ≤ p.2.objective + 1e-5) ∨
  ((∀ p ∈ l, p.2.isFeasible = false) ∧ ∃ sc, (d, sc) ∈ l ∧ ∀ p ∈ l, sc.globalAug ≤ p.2.globalAug + 1e-5)

/-- The reported numbers are those of the reported values: constraint by constraint, also for the constraints
that the preprocessing disabled. -/
structure Consistent (m : MState) (r : Named) : Prop where
  con : ∀ c ∈ m.conIds, r.conValue c = exprValue (m.con c).expr r.values ∧
    r.conViolation c = violation (m.con c) r.values
  objective : m.objDefined = true → r.objective = exprValue m.obj r.values
  totalViolation : r.totalViolation = (m.conIds.map (fun c => violation (m.con c) r.values)).sum
  feasible : r.feasible = true ↔ ∀ c ∈ m.conIds, (m.con c).enabled = true → violation (m.con c) r.values < 1e-5

theorem slot (hist : List (HolderCall Dense)) (d : Dense)
    (h : (if (C11.after hist).found then (C11.after hist).feasSol else (C11.after hist).globalSol) = some d)
    (hne : C11.offers hist ≠ []) :
    Chosen (C11.offers hist) d := by
  obtain ⟨h1, h2⟩ := C11.feasible_incumbent_is_best hist
  have h3 := C11.global_incumbent_is_best hist
  dsimp only at h1 h2 h3
  split at h
  · next hf =>
    left
    rcases h2 with ⟨-, h2⟩ | ⟨s, sc, hm, -, e, -, hb⟩
    · exact absurd h2 (h1.1 hf)
    · rw [e] at h
      obtain rfl := Option.some.inj h
      obtain ⟨hm1, hm2⟩ := List.mem_filter.1 hm
      exact ⟨sc, hm1, hm2, fun p hp hpf => hb p (List.mem_filter.2 ⟨hp, hpf⟩)⟩
  · next hf =>
    right
    refine ⟨fun p hp => ?_, ?_⟩
    · by_contra hc
      refine hf (h1.2 (fun he => ?_))
      have : p ∈ (C11.offers hist).filter (fun p => p.2.isFeasible) := List.mem_filter.2 ⟨hp, by simpa using hc⟩
      rw [he] at this
      simp at this
    · rcases h3 with ⟨-, h3⟩ | ⟨s, sc, hm, -, e, -, hb⟩
      · exact absurd h3 hne
      · rw [e] at h
        obtain rfl := Option.some.inj h
        exact ⟨sc, hm, hb⟩

/-- The update at the end makes all reported numbers those of the reported values. -/
theorem export_consistent (m : MState) : Consistent m (exportNamed m.update) := by
  obtain ⟨o, ov, h, h1, h2, h3⟩ := MState.update_desc m
  have hv : (exportNamed m.update).values = m.pre.vals := by rw [h]; rfl
  have hcon : ∀ c ∈ m.conIds, m.update.con c = (m.con c).update m.pre.vals := by
    intro c hc
    rw [h]
    show (if c ∈ m.conIds then _ else _) = _
    rw [if_pos hc]
  have hval : ∀ c, exprValue ((m.con c).update m.pre.vals).expr m.pre.vals = exprValue (m.con c).expr m.pre.vals :=
    fun c => rfl
  have hids : m.update.conIds = m.conIds := (MState.update_shape m).conIds
  have hviol : ∀ c ∈ m.conIds, (m.update.con c).violation = violation (m.con c) m.pre.vals := fun c hc => by
    rw [hcon c hc, (Con.update_current (m.con c) m.pre.vals).violation]; rfl
  have e5 : (1e-5 : ℚ) = EPSILON := C11.eps_eq
  constructor
  · intro c hc
    rw [hv]
    refine ⟨?_, hviol c hc⟩
    show (m.update.con c).value = _
    rw [hcon c hc, (Con.update_current (m.con c) m.pre.vals).value]; rfl
  · intro hd
    rw [hv]
    show m.update.objValue = _
    have : m.update.objValue = ov := by rw [h]; rfl
    rw [this, (h3 hd).2, ← exprValue_eq]
  · rw [hv]
    show sumViolation m.update = _
    rw [sumViolation_eq, hids]
    exact congrArg List.sum (List.map_congr_left hviol)
  · rw [hv, e5]
    show m.update.feasible = true ↔ _
    have hf : m.update.feasible = true ↔ ∀ c ∈ m.update.conIds, (m.update.con c).enabled = true →
        (m.update.con c).violation < EPSILON := by
      rw [h]; exact MState.updateFeasibility_flag _
    rw [hf, hids]
    have hen : ∀ c, (m.update.con c).enabled = (m.con c).enabled := (MState.update_shape m).conEnabled
    constructor
    · intro g c hc he; rw [← hviol c hc]; exact g c hc (by rw [hen]; exact he)
    · intro g c hc he; rw [hviol c hc]; exact g c hc (by rw [← hen]; exact he)

/-- After every search history with at least one evaluated solution: the values reported are those of the chosen
solution (fixed variables keep their value, dependent variables are computed from the others), and all other
reported numbers are those of the reported values. -/
theorem reported_solution (sels : List ℕ) (hist : List (HolderCall Dense)) (hne : C11.offers hist ≠ [])
    (m : MState) (hr : C51.Ready sels m) (r : Named) (m' : MState)
    (h : postprocess sels (C11.after hist) m = some (r, m')) :
    ∃ d, Chosen (C11.offers hist) d ∧
      (∀ v ∈ m.varIds, v ∉ m.dependents.map Prod.fst → (m.var v).fixed = false → r.values v = d.values v) ∧
      (∀ v, v ∉ m.dependents.map Prod.fst → (m.var v).fixed = true → r.values v = (m.var v).value) ∧
      Consistent m r := by
  unfold postprocess at h
  obtain ⟨d, hd, h⟩ := Option.bind_eq_some_iff.1 h
  obtain ⟨m1, h1, h2⟩ := Option.map_eq_some_iff.1 h
  simp only [Prod.mk.injEq] at h2
  obtain ⟨rfl, rfl⟩ := h2
  refine ⟨d, slot hist d hd hne, ?_⟩
  unfold importDense at h1
  have hready : C51.Ready sels
      { m with var := fun v => if v ∈ m.varIds then (m.var v).setValueIfMutable (d.values v) else m.var v } := by
    have hsame : ∀ v, (if v ∈ m.varIds then (m.var v).setValueIfMutable (d.values v) else m.var v).sense = (m.var v).sense ∧
        (if v ∈ m.varIds then (m.var v).setValueIfMutable (d.values v) else m.var v).lb = (m.var v).lb ∧
        (if v ∈ m.varIds then (m.var v).setValueIfMutable (d.values v) else m.var v).ub = (m.var v).ub := by
      intro v
      split
      · unfold Var.setValueIfMutable; split <;> exact ⟨rfl, rfl, rfl⟩
      · exact ⟨rfl, rfl, rfl⟩
    refine ⟨hr.nodup, hr.varNodup, hr.once, hr.apart, ?_, ?_, ?_⟩
    · intro s hs v hv; dsimp only; rw [(hsame v).1]; exact hr.sense s hs v hv
    · intro v hv hb; dsimp only at hb ⊢; rw [(hsame v).1] at hb; rw [(hsame v).2.1, (hsame v).2.2]; exact hr.binary v hv hb
    · intro v hv hb; dsimp only at hb ⊢; rw [(hsame v).1] at hb; rw [(hsame v).2.1, (hsame v).2.2]; exact hr.integer v hv hb
  have hvar := (C51.check_only_changes_nothing sels _ m1 hready h1).1
  obtain ⟨var, sel, e⟩ := verifyAll_frame _ _ _ _ h1
  have hcons := export_consistent m1
  have hval : ∀ v, v ∉ m.dependents.map Prod.fst → (exportNamed m1.update).values v =
      (if v ∈ m.varIds then (m.var v).setValueIfMutable (d.values v) else m.var v).value := by
    intro v hv
    obtain ⟨o, ov, hu, -⟩ := MState.update_desc m1
    have : (exportNamed m1.update).values v = (m1.pre.var v).value := by rw [hu]; rfl
    rw [this, MState.pre_value m1 v (by rw [e]; exact hv), hvar]
  refine ⟨fun v hm hv hf => ?_, fun v hv hf => ?_, ?_⟩
  · rw [hval v hv, if_pos hm]
    unfold Var.setValueIfMutable
    rw [if_neg (by simp [hf])]
    rfl
  · rw [hval v hv]
    split
    · unfold Var.setValueIfMutable; rw [if_pos hf]
    · rfl
  · have ec : m1.con = m.con := by rw [e]
    have ei : m1.conIds = m.conIds := by rw [e]
    have eo : m1.obj = m.obj ∧ m1.objDefined = m.objDefined := by rw [e]; exact ⟨rfl, rfl⟩
    refine ⟨?_, ?_, ?_, ?_⟩
    · rw [← ec, ← ei]; exact hcons.con
    · rw [← eo.1, ← eo.2]; exact hcons.objective
    · rw [← ec, ← ei]; exact hcons.totalViolation
    · rw [← ec, ← ei]; exact hcons.feasible

/-- Nothing is thrown when the solutions offered during the search are states of the model: there is a report
after every such history. -/
theorem report_exists (sels : List ℕ) (hist : List (HolderCall Dense)) (hne : C11.offers hist ≠ []) (m : MState)
    (hr : C51.Ready sels m)
    (hoff : ∀ p ∈ C11.offers hist, ∃ m0, p.1 = exportDense m0 ∧ C48.SameModel m0 m ∧ C48.GoodValues sels m0) :
    ∃ r m', postprocess sels (C11.after hist) m = some (r, m') := by
  have hsome : ∃ d, (if (C11.after hist).found then (C11.after hist).feasSol else (C11.after hist).globalSol) = some d ∧
      ∃ sc, (d, sc) ∈ C11.offers hist := by
    obtain ⟨h1, h2⟩ := C11.feasible_incumbent_is_best hist
    have h3 := C11.global_incumbent_is_best hist
    dsimp only at h1 h2 h3
    split
    · next hf =>
      rcases h2 with ⟨-, h2⟩ | ⟨s, sc, hm, -, e, -, -⟩
      · exact absurd h2 (h1.1 hf)
      · exact ⟨s, e, sc, (List.mem_filter.1 hm).1⟩
    · rcases h3 with ⟨-, h3⟩ | ⟨s, sc, hm, -, e, -, -⟩
      · exact absurd h3 hne
      · exact ⟨s, e, sc, hm⟩
  obtain ⟨d, hd, sc, hm⟩ := hsome
  obtain ⟨m0, e0, hs, hg⟩ := hoff _ hm
  obtain ⟨m1, h1, -⟩ := C48.dense_roundtrip sels m0 m hs hr hg
  refine ⟨exportNamed m1.update, m1.update, ?_⟩
  unfold postprocess
  dsimp only at e0
  rw [hd, Option.bind_some, e0, h1, Option.map_some]

/-- A solution that the search counts as feasible is reported as feasible, if the values are taken over unchanged
and the total violation is below `1e-5` (and not exactly `1e-5`). -/
theorem found_is_reported_feasible (m : MState) (r : Named) (hc : Consistent m r)
    (h : totalViolation m r.values < 1e-5) : r.feasible = true := by
  refine hc.feasible.2 fun c hcm he => lt_of_le_of_lt ?_ h
  rw [totalViolation]
  have hnn : ∀ k : Con, 0 ≤ violation k r.values := fun k => by
    unfold violation Cmp.gap
    cases cmpOf k.sense
    · exact le_max_right _ _
    · exact abs_nonneg _
    · exact le_max_right _ _
  have hmem : violation (m.con c) r.values ∈ (enabledCons m).map (fun c => violation c r.values) :=
    List.mem_map.2 ⟨m.con c, List.mem_filter.2 ⟨List.mem_map.2 ⟨c, hcm, rfl⟩, he⟩, rfl⟩
  exact List.single_le_sum (fun x hx => by obtain ⟨k, -, rfl⟩ := List.mem_map.1 hx; exact hnn k) _ hmem

/-- The boundary case: with a violation of exactly `1e-5` the search counts the solution as feasible ("found"),
but the report says that it is not. -/
theorem found_but_reported_infeasible : ∃ (m : MState) (hist : List (HolderCall Dense)),
    hist = [.offer (exportDense m) (m.evaluateFull { alterations := [] })] ∧ C51.Ready [] m ∧
    (C11.after hist).found = true ∧ ∃ r m', postprocess [] (C11.after hist) m = some (r, m') ∧ r.feasible = false := by
  let k : Con := Con.setup ⟨[(0, 1)], 1 / 100000, 0⟩ .less (fun _ => .integer)
  let m : MState := { Example.raw with con := fun _ => k, conIds := [0], obj := ⟨[], 0, 0⟩ }.update
  let hist : List (HolderCall Dense) := [.offer (exportDense m) (m.evaluateFull { alterations := [] })]
  have h : ((postprocess [] (C11.after hist) m).map (fun p => p.1.feasible)) = some false := by decide +kernel
  obtain ⟨p, h1, h2⟩ := Option.map_eq_some_iff.1 h
  refine ⟨m, hist, rfl, ?_, by decide +kernel, p.1, p.2, h1, h2⟩
  exact ⟨by decide, by decide, by simp, by simp, by simp, by decide +kernel, by decide +kernel⟩

/-! Non-vacuity: two solutions of the example model are offered, the second one is feasible; it is reported. -/
private def at_ (a b c : ℤ) : MState := { Example.raw with
  var := fun v => if v = 2 then { Example.int5 with value := c }.updateMargin
    else { Example.bin0 with value := if v = 0 then a else b }.updateMargin }.update
private def offer_ (a b c : ℤ) : HolderCall Dense :=
  .offer (exportDense (at_ a b c)) ((at_ a b c).evaluateFull { alterations := [] })
private def hist : List (HolderCall Dense) := [offer_ 0 0 0, .resetLocal, offer_ 1 0 1, offer_ 1 1 3]
example : C51.Ready [] (at_ 0 0 0) :=
  ⟨by decide, by decide, by simp, by simp, by simp, by decide +kernel, by decide +kernel⟩
example : ((postprocess [] (C11.after hist) (at_ 0 0 0)).map
    (fun p => (p.1.values 0, p.1.values 1, p.1.values 2, p.1.objective, p.1.feasible))) = some (1, 0, 1, 1, true) := by
  decide +kernel
/-- Without the feasible solution the one with the smallest augmented objective is reported. -/
example : ((postprocess [] (C11.after [offer_ 1 1 3, offer_ 0 0 0]) (at_ 0 0 0)).map
    (fun p => (p.1.values 0, p.1.totalViolation, p.1.feasible))) = some (0, 2, false) := by
  decide +kernel
/-- The first call throws after changing the model, later calls throw and change nothing. -/
example : calls (fun (n : ℕ) => ((none : Option ℕ), n + 1)) 3 (false, 5) = ([none, none, none], true, 6) := by decide

end Printemps.C59
