import Verif.Lemmas.DependentPairs

/-! # C81 — the rounds of extracting dependent variables keep the problem

`Setup.reduce` models the preprocessing of `Model::setup` up to the selections: presolve, then rounds of extracting
dependent variables, substituting their definitions and reducing, then the removal of duplicates.  `Spec.ProperDep` says
what is asked of the model of the user. -/

namespace Printemps.C81
open Spec Setup Presolve Dependent

/-- The preprocessing ends and throws nothing; if no undefined behaviour occurs, the model it leaves stands for the user's
model, and dependent variables occur nowhere in it. -/
theorem dependent_rounds_keep_problem_partial (o : Options) (lt : ℕ → ℕ → Bool) (m : MState) (h : ProperDep o lt m) :
    ∃ r, reduce o lt m = some r ∧ r ≠ .thrown ∧ ∀ m', r = .ok m' → KeepsWithDependents m m' ∧ Eliminated m' := by
  obtain ⟨r, h1, h2, h3⟩ := reduce_dependents o lt m h.presolve h.proper h.none h.listed h.exprs h.feasible h.acyclic h.sets
  exact ⟨r, h1, h2, fun m' e => ⟨(h3 m' e).1, (h3 m' e).2.1⟩⟩

/-- Whatever values `τ` the search finds for the other variables, within their bounds and satisfying the enabled
constraints: after `update()` all variables together are a feasible assignment of the user's model, with the objective
value the search saw. -/
theorem restored_values_are_feasible_partial (o : Options) (lt : ℕ → ℕ → Bool) (m : MState) (h : ProperDep o lt m)
    (m' : MState) (hr : reduce o lt m = some (.ok m')) (var : ℕ → Var) (τ : ℕ → ℤ) (hτ : ∀ v, (var v).value = τ v)
    (hb : ∀ v, ¬ IsDependent m' v → Admits (m'.var v) (τ v))
    (hc : ∀ c ∈ m'.conIds, (m'.con c).enabled = true → Holds (m'.con c) τ) :
    Feasible m { m' with var := var }.update.vals ∧
      (∀ v, ¬ IsDependent m' v → { m' with var := var }.update.vals v = τ v) ∧
      minObjective m { m' with var := var }.update.vals = minObjective m' τ := by
  obtain ⟨r, h1, _, h3⟩ := reduce_dependents o lt m h.presolve h.proper h.none h.listed h.exprs h.feasible h.acyclic h.sets
  rw [hr] at h1
  simp only [Option.some.injEq] at h1
  obtain ⟨k, el, nd, fe, ids, hz⟩ := h3 m' h1.symm
  have hvals : ({ m' with var := var } : MState).vals = τ := funext hτ
  obtain ⟨u1, u2⟩ := update_restores { m' with var := var } nd fe ids (fun d hd => hz d hd _)
  rw [hvals] at u1
  generalize ({ m' with var := var } : MState).update.vals = σ at u1 u2 ⊢
  have u1 : ∀ v, ¬ IsDependent m' v → σ v = τ v := u1
  have u2 : ∀ d ∈ m'.dependents, (σ d.1 : ℚ) = exprValue (m'.uexpr d.2).expr σ := u2
  have hfd : FeasibleDep m' σ := by
    refine ⟨fun v hv => by rw [u1 v hv]; exact hb v hv, u2, fun c hcm he => ?_⟩
    have := hc c hcm he
    unfold Holds at this ⊢
    rw [exprValue_congr _ σ τ (fun w hw => u1 w (el.constraints c hcm he w hw))]
    exact this
  refine ⟨k.sound σ hfd, u1, ?_⟩
  rw [← k.objective σ hfd]
  unfold minObjective
  rw [exprValue_congr _ σ τ (fun w hw => u1 w (el.objective w hw))]

/-- `lt` orders the variables strictly and totally, as different names are. -/
structure Ordered (lt : ℕ → ℕ → Bool) : Prop where
  irrefl : ∀ a, lt a a = false
  trans : ∀ a b c, lt a b = true → lt b c = true → lt a c = true
  total : ∀ a b, a ≠ b → lt a b = true ∨ lt b a = true

/-- If definitions are only taken from equalities of two variables with coefficients 1 and -1 (constant ratios and
intermediate variables switched off), they never form a cycle, in no model and no round. -/
theorem pairs_form_no_cycle (o : Options) (h1 : o.constantRatio = false) (h2 : o.intermediate = false)
    (lt : ℕ → ℕ → Bool) (hlt : Ordered lt) (m : MState) :
    NoCycle m (keyOf lt m) (chosen m (keyOf lt m) (dependentCandidates o lt m)) ∧ ∀ n, AcyclicRounds o lt n m :=
  ⟨pairs_acyclic o h1 h2 lt hlt.irrefl hlt.trans hlt.total m,
   fun n => acyclicRounds_of o lt (pairs_acyclic o h1 h2 lt hlt.irrefl hlt.trans hlt.total) n m⟩

/-! ### Non-vacuity: two rounds with the default options -/

private def int10 : Var := { Example.int5 with ub := 10 }

private def lt' : ℕ → ℕ → Bool := fun a b => decide (a < b)

/-- `x0 = x1 + x2`, `x0 = 2 x1 + x3`, `x1 + x3 ≤ 12`, all variables in `[0,10]`. -/
def chain : MState := { Example.raw with
  var := fun _ => int10
  varIds := [0, 1, 2, 3]
  con := fun c => if c = 0 then Con.setup ⟨[(0, 1), (1, -1), (2, -1)], 0, 0⟩ .equal (fun _ => .integer)
    else if c = 1 then Con.setup ⟨[(0, 1), (1, -2), (3, -1)], 0, 0⟩ .equal (fun _ => .integer)
    else Con.setup ⟨[(1, 1), (3, 1)], -12, 0⟩ .less (fun _ => .integer)
  conIds := [0, 1, 2]
  obj := ⟨[(0, 1), (3, -2)], 0, 0⟩ }

private def getOk (r : Option (Outcome MState)) : MState := match r with
  | some (.ok m) => m
  | _ => chain

private theorem getOk_eq {r : Option (Outcome MState)} {m : MState} (h : r = some (.ok m)) : m = getOk r := by
  rw [h]; rfl

private def isOk (r : Option (Outcome MState)) : Bool := match r with
  | some (.ok _) => true
  | _ => false

private theorem isOk_eq {r : Option (Outcome MState)} (h : isOk r = true) : r = some (.ok (getOk r)) := by
  unfold isOk at h
  unfold getOk
  split at h
  · rfl
  · exact absurd h (by simp)

/-- the model before the first round, and what one round makes of a model -/
private def start : MState := structured (getOk (presolveStage {} lt' (structured chain)))
private def extr (m : MState) : Option MState :=
  extract (fun v => (m.var v).sense) (keyOf lt' m) (dependentCandidates {} lt' m) (fresh m.conIds) (fresh m.uexprIds) m
private def next (m : MState) : MState :=
  let m1 := (extr m).getD chain
  let m2 := (eliminateLoop (eliminationOrder m1) 4 m1).getD chain
  structured (getOk (reduceProblemSize (structured m2)))

private theorem next_eq (m m1 m2 m3 : MState)
    (h1 : extract (fun v => (m.var v).sense) (keyOf lt' m) (dependentCandidates {} lt' m) (fresh m.conIds)
      (fresh m.uexprIds) m = some m1)
    (h2 : eliminateLoop (eliminationOrder m1) 4 m1 = some m2)
    (h3 : reduceProblemSize (structured m2) = some (.ok m3)) : structured m3 = next m := by
  unfold next extr
  rw [h1]
  dsimp only [Option.getD_some]
  rw [h2]
  dsimp only [Option.getD_some]
  rw [h3]; rfl

private theorem few_candidates (m : MState) (h : (chosen m (keyOf lt' m) (dependentCandidates {} lt' m)).length ≤ 1) :
    NoCycle m (keyOf lt' m) (chosen m (keyOf lt' m) (dependentCandidates {} lt' m)) := by
  refine ⟨fun _ => 0, fun c hc w _ hne hw => ?_⟩
  generalize chosen m (keyOf lt' m) (dependentCandidates {} lt' m) = l at h hc hw
  match l, h with
  | [a], _ =>
    rw [List.mem_singleton] at hc
    subst hc
    simp at hw; exact absurd hw hne

example : ProperDep {} lt' chain := by
  refine ⟨rfl, ⟨by decide, by decide, by decide, by decide, fun v => rfl, by decide +kernel, by decide +kernel,
    by decide +kernel, ?_, fun v _ => ?_, by decide +kernel, by decide +kernel, fun _ => by decide +kernel,
    fun _ => by decide +kernel, Or.inl (by decide)⟩, rfl, by decide, fun i => List.nodup_nil, ?_, fun _ m1 e => ?_, Or.inr ?_⟩
  · have key : ∀ c ∈ chain.conIds, ∀ t ∈ (chain.con c).expr.terms, t.2 = 1 ∨ t.2 = -1 ∨ t.2 = -2 := by decide +kernel
    intro c hc t ht
    rcases key c hc t ht with h | h | h
    · exact ⟨by rw [h]; norm_num, 1, by rw [h]; rfl⟩
    · exact ⟨by rw [h]; norm_num, -1, by rw [h]; norm_num⟩
    · exact ⟨by rw [h]; norm_num, -2, by rw [h]; norm_num⟩
  · show -100000 < int10.lb ∧ int10.ub < 100000; decide
  · refine ⟨fun v => if v = 0 then 4 else if v = 1 then 1 else if v = 2 then 3 else 2, fun v => ?_, by decide +kernel⟩
    show Admits int10 _
    have : ∀ z : ℤ, 0 ≤ z → z ≤ 10 → Admits int10 z := fun z h1 h2 => by
      refine ⟨fun h => absurd h (by decide), fun _ => ⟨h1, h2⟩⟩
    dsimp only
    split
    · exact this _ (by decide) (by decide)
    · split
      · exact this _ (by decide) (by decide)
      · split <;> exact this _ (by decide) (by decide)
  · have hs : structured m1 = start := by rw [getOk_eq e]; rfl
    have hl : m1.varIds.length + 1 = 5 := by rw [getOk_eq e]; decide +kernel
    rw [hs, hl]
    refine ⟨few_candidates _ (by decide +kernel), fun a b c h1 _ h2 h3 => ?_⟩
    rw [next_eq _ a b c h1 h2 h3]
    refine ⟨few_candidates _ (by decide +kernel), fun a b c h1 _ h2 h3 => ?_⟩
    rw [next_eq _ a b c h1 h2 h3]
    refine ⟨few_candidates _ (by decide +kernel), fun a b c _ h4 _ _ => ?_⟩
    exact absurd (show chosen (next (next start)) (keyOf lt' (next (next start)))
      (dependentCandidates {} lt' (next (next start))) = [] by decide +kernel) h4
  · intro m1 m2 e1 e2
    rw [getOk_eq e1] at e2
    rw [getOk_eq e2]
    exact ⟨2, by decide +kernel, by decide +kernel⟩

/-- The preprocessing of this model ends normally: in the rounds `x0` and then `x2` become dependent, with the definitions
`x0 = 2 x1 + x3` and `x2 = x1 + x3`; the bounds of `x0` and `x2` become constraints. -/
example : isOk (reduce {} lt' chain) = true ∧ ∃ m', dependentStage {} lt' start = some (.ok m') ∧
    m'.dependents = [(0, 0), (2, 1)] ∧
    (m'.uexpr 0).expr.terms = [(1, 2), (3, 1)] ∧ (m'.uexpr 1).expr.terms = [(1, 1), (3, 1)] ∧
    (m'.conIds.filter (fun c => (m'.con c).enabled)).map (fun c => (m'.con c).expr.terms) =
      [[(1, 1), (3, 1)], [(1, 2), (3, 1)], [(1, 1), (3, 1)]] :=
  ⟨by decide +kernel, _, isOk_eq (by decide +kernel), by decide +kernel, by decide +kernel, by decide +kernel,
   by decide +kernel⟩

example : Ordered lt' :=
  ⟨fun a => by simp [lt'], fun a b c h1 h2 => by simp only [lt', decide_eq_true_eq] at *; omega,
   fun a b h => by simp only [lt', decide_eq_true_eq]; omega⟩

/-! ### A selection made of a constraint of the wrong type -/

/-- What the search regards as feasible after the preprocessing: listed variables that are not dependent respect their
bounds, dependent variables have their values, enabled constraints hold, and of every selection exactly one variable
is 1. -/
structure Accepted (sels : List ℕ) (m : MState) (σ : ℕ → ℤ) : Prop where
  bounds : ∀ v ∈ m.varIds, v ∉ m.dependents.map Prod.fst → Admits (m.var v) (σ v)
  defs : ∀ d ∈ m.dependents, (σ d.1 : ℚ) = exprValue (m.uexpr d.2).expr σ
  cons : ∀ c ∈ m.conIds, (m.con c).enabled = true → Holds (m.con c) σ
  sels : ∀ s ∈ sels, ∃ v ∈ (m.con s).expr.vars, σ v = 1 ∧ ∀ u ∈ (m.con s).expr.vars, u ≠ v → σ u = 0

/-- minimise `x0` subject to `x0 + x1 = 1`, `x0 + x2 + x3 + x4 = 2`, all variables 0/1 -/
def two : MState := { Example.raw with
  var := fun _ => Example.bin0
  varIds := [0, 1, 2, 3, 4]
  con := fun c => if c = 0 then Con.setup ⟨[(0, 1), (1, 1)], -1, 0⟩ .equal (fun _ => .binary)
    else Con.setup ⟨[(0, 1), (2, 1), (3, 1), (4, 1)], -2, 0⟩ .equal (fun _ => .binary)
  conIds := [0, 1]
  obj := ⟨[(0, 1)], 0, 0⟩ }

/-- the assignment `x1 = 1`, all others 0 -/
private def wrong : ℕ → ℤ := fun v => if v = 1 then 1 else 0

private theorem two_proper : Proper ({} : Options).withoutDependents two := by
  refine ⟨by decide, by decide, by decide, by decide, fun v => rfl, by decide +kernel, by decide +kernel,
    by decide +kernel, ?_, fun v _ => ?_, by decide +kernel, by decide +kernel, fun _ => by decide +kernel,
    fun _ => by decide +kernel, Or.inl (by decide)⟩
  · have key : ∀ c ∈ two.conIds, ∀ t ∈ (two.con c).expr.terms, t.2 = 1 := by decide +kernel
    intro c hc t ht
    exact ⟨by rw [key c hc t ht]; norm_num, 1, by rw [key c hc t ht]; rfl⟩
  · show -100000 < Example.bin0.lb ∧ Example.bin0.ub < 100000; decide

/-- With the default options the preprocessing can make a selection out of a constraint that is none.  Substituting
`x0 = 1 - x1` turns the cardinality constraint `x0 + x2 + x3 + x4 = 2` into `- x1 + x2 + x3 + x4 = 1`, which is taken for
a set partitioning constraint because its flags are not computed anew; the constraint is disabled and "exactly one of
`x1 … x4`" put in its place.  The search then accepts an assignment that violates the user's constraint and is better than
every feasible one it can still reach, and the optimum is lost. -/
theorem wrong_selection_accepts_infeasible : ∃ (m m' : MState) (lt : ℕ → ℕ → Bool),
    Proper ({} : Options).withoutDependents m ∧ prepare {} lt (fun _ => false) m = some (.ok m') ∧
    (∃ σ, Accepted (selections {} lt (fun _ => false) m) m' σ ∧ ¬ Feasible m σ ∧ minObjective m' σ = 0) ∧
    (∃ σ, Feasible m σ ∧ minObjective m σ = 0) ∧
    (∀ σ, Accepted (selections {} lt (fun _ => false) m) m' σ → Feasible m σ → minObjective m σ = 1) := by
  have hsel : selections {} lt' (fun _ => false) two = [1] := by decide +kernel
  refine ⟨two, _, lt', two_proper, isOk_eq (by decide +kernel), ⟨wrong, ?_, ?_, ?_⟩, ?_, ?_⟩
  · rw [hsel]
    refine ⟨by decide +kernel, by decide +kernel, by decide +kernel, ?_⟩
    intro s hs
    rw [List.mem_singleton] at hs
    subst hs
    exact ⟨1, by decide +kernel, by decide, by decide +kernel⟩
  · intro h
    exact absurd (h.2 1 (by decide) rfl) (by decide +kernel)
  · decide +kernel
  · refine ⟨fun v => if v = 1 ∨ v = 2 ∨ v = 3 then 1 else 0, ⟨fun v => ?_, by decide +kernel⟩, by decide +kernel⟩
    show Admits Example.bin0 _
    dsimp only
    split <;> decide
  · intro σ ha hf
    rw [hsel] at ha
    have h0 := hf.2 0 (by decide) rfl
    have h1 := hf.2 1 (by decide) rfl
    obtain ⟨v, hv, e1, e2⟩ := ha.sels 1 (by simp)
    have hvars : ((getOk (prepare {} lt' (fun _ => false) two)).con 1).expr.vars = [2, 3, 4, 1] := by decide +kernel
    rw [hvars] at hv e2
    have k0 : σ 0 + σ 1 = 1 := by
      have : exprValue ⟨[(0, 1), (1, 1)], -1, 0⟩ σ = 0 := h0
      simp [exprValue] at this
      have : ((σ 0 + σ 1 : ℤ) : ℚ) = 1 := by push_cast; linarith
      exact_mod_cast this
    have k1 : σ 0 + σ 2 + σ 3 + σ 4 = 2 := by
      have : exprValue ⟨[(0, 1), (2, 1), (3, 1), (4, 1)], -2, 0⟩ σ = 0 := h1
      simp [exprValue] at this
      have : ((σ 0 + σ 2 + σ 3 + σ 4 : ℤ) : ℚ) = 2 := by push_cast; linarith
      exact_mod_cast this
    have hx0 : σ 0 = 1 := by
      simp only [List.mem_cons, List.not_mem_nil, or_false] at hv e2
      rcases hv with rfl | rfl | rfl | rfl
      · have := e2 1 (by simp) (by decide); omega
      · have := e2 1 (by simp) (by decide); omega
      · have := e2 1 (by simp) (by decide); omega
      · have a := e2 2 (by simp) (by decide)
        have b := e2 3 (by simp) (by decide)
        have c := e2 4 (by simp) (by decide)
        omega
    show (if (true : Bool) = true then _ else _) = (1 : ℚ)
    show exprValue ⟨[(0, 1)], 0, 0⟩ σ = 1
    simp [exprValue, hx0]

end Printemps.C81
