import Verif.Lemmas.Dependent
import Verif.Props.C21

/-! # C29 — eliminating dependent variables preserves the problem

`extract` turns equalities into definitions of their key variables, `eliminateLoop` substitutes the
definitions until nothing is left to substitute. -/

namespace Printemps.C29
open Spec Dependent Presolve

/-- Solving an equality for a variable with nonzero coefficient: the equality holds exactly for the
assignments in which the variable has the value of the solved expression. -/
theorem solved_equality_is_equivalent (e : Expr) (he : (e.terms.map Prod.fst).Nodup) (v : ℕ)
    (hv : Expr.lookup e.terms v ≠ 0) : ∃ f, e.solve v = some f ∧ v ∉ f.terms.map Prod.fst ∧
      ∀ σ, exprValue e σ = 0 ↔ (σ v : ℚ) = exprValue f σ := by
  have hm : v ∈ e.vars := by
    by_contra h; exact hv (Expr.lookup_of_not_mem _ _ h)
  obtain ⟨f, hf⟩ := solve_some e v hm
  exact ⟨f, hf, fun h => ((solve_vars e f v hf v).1 h).2 rfl, fun σ => solve_iff e f he v hf hv σ⟩

/-- Substituting a definition without self reference keeps the value of every expression, for all assignments
satisfying the definition, and the variable is gone afterwards. -/
theorem substitution_keeps_value (e f : Expr) (he : (e.terms.map Prod.fst).Nodup) (v : ℕ)
    (hv : v ∉ f.terms.map Prod.fst) : v ∉ (e.substitute v f).terms.map Prod.fst ∧
      ∀ σ : ℕ → ℤ, (σ v : ℚ) = exprValue f σ → exprValue (e.substitute v f) σ = exprValue e σ :=
  ⟨fun h => ((substitute_vars e f v v).1 h).1 rfl, fun σ hd => substitute_same e f he v hv σ hd⟩

/-- Extraction keeps the feasible assignments: a variable turned into a dependent one still satisfies its
equality and, through the additional constraints, its bounds.  `Candidates` says: the constraints are
equalities of the model in which the key variable has a nonzero coefficient and is not fixed.  Needed besides:
the new constraints and expressions get new numbers, and the definitions do not refer to each other in a
cycle; values are within the range of "no bound" (`∓1073741823`). -/
theorem extraction_keeps_feasible_partial (senseOf : ℕ → VarSense) (key : ℕ → ℕ) (cs : List ℕ) (nextC nextE : ℕ)
    (m : MState) (hw : ∀ c ∈ m.conIds, (m.con c).expr.WF) (h : Candidates m key cs)
    (hC : ∀ c ∈ m.conIds, c < nextC) (hE : ∀ d ∈ m.dependents, d.2 < nextE)
    (ha : Acyclic m key (chosen m key cs)) :
    ∃ m', extract senseOf key cs nextC nextE m = some m' ∧ m'.obj = m.obj ∧ m'.isMin = m.isMin ∧
      ∀ σ : ℕ → ℤ, (∀ c ∈ cs, INT_HALF_MIN ≤ σ (key c) ∧ σ (key c) ≤ INT_HALF_MAX) →
        (FeasibleDep m σ ↔ FeasibleDep m' σ) := by
  obtain ⟨m', hx, h1, h2, _⟩ := extract_ok senseOf key cs nextC nextE m h
  exact ⟨m', hx, h1, h2, fun σ hr => extract_iff senseOf key cs nextC nextE m m' hw h hC hE ha hx σ hr⟩

/-- The substitution loop ends after at most three rounds; afterwards neither the objective, nor an enabled
constraint, nor a definition mentions a dependent variable; the feasible assignments are the same and have
the same objective values.  Needed: the definitions are acyclic (`ElimOK`). -/
theorem elimination_keeps_feasible_partial (m : MState) (r : ℕ → ℕ) (h : ElimOK m r) (ds : List (ℕ × ℕ))
    (hds : ∀ d, d ∈ ds ↔ d ∈ m.dependents) (fuel : ℕ) (hfuel : 3 ≤ fuel) :
    ∃ m', eliminateLoop ds fuel m = some m' ∧ m'.dependents = m.dependents ∧ m'.isMin = m.isMin ∧
      (∀ σ, FeasibleDep m' σ ↔ FeasibleDep m σ) ∧
      (∀ σ, FeasibleDep m σ → exprValue m'.obj σ = exprValue m.obj σ) ∧
      (∀ i ∈ m'.uexprIds, ∀ w ∈ (m'.uexpr i).expr.vars, ¬ IsDependent m' w) ∧
      (∀ w ∈ m'.obj.vars, ¬ IsDependent m' w) ∧
      (∀ c ∈ m'.conIds, (m'.con c).enabled = true → ∀ w ∈ (m'.con c).expr.vars, ¬ IsDependent m' w) := by
  obtain ⟨m', h1, h2, h3, h4, h5, h6, h7, _⟩ := eliminateLoop_spec m r h ds hds fuel hfuel
  exact ⟨m', h1, h2, h3, h4, h5, h6, h7.1, h7.2⟩

/-- Both together, for a model without dependent variables: the feasible assignments and their objective
values are the same before and after, and restoring the dependent variables by `update()` from values of the
other variables yields an assignment of the original model that is feasible whenever the remaining constraints
hold and the definitions have integer values. -/
theorem dependent_variables_preserve_problem_partial (senseOf : ℕ → VarSense) (key : ℕ → ℕ) (cs : List ℕ)
    (nextC nextE : ℕ) (m : MState) (hw : ∀ c, (m.con c).expr.WF) (hu : ∀ i, (m.uexpr i).expr.WF) (ho : m.obj.WF)
    (hd0 : m.dependents = []) (h : Candidates m key cs) (hC : ∀ c ∈ m.conIds, c < nextC)
    (ha : Acyclic m key (chosen m key cs)) :
    ∃ m1 m2, extract senseOf key cs nextC nextE m = some m1 ∧ eliminateLoop m1.dependents 3 m1 = some m2 ∧
      (∀ σ : ℕ → ℤ, (∀ c ∈ cs, INT_HALF_MIN ≤ σ (key c) ∧ σ (key c) ≤ INT_HALF_MAX) →
        (Feasible m σ ↔ FeasibleDep m2 σ) ∧ (Feasible m σ → exprValue m2.obj σ = exprValue m.obj σ)) ∧
      (∀ var : ℕ → Var, ∀ τ σ : ℕ → ℤ, (∀ v, (var v).value = τ v) →
        ({ m2 with var := var }.update).vals = σ →
        (∀ v, ¬ IsDependent m2 v → Admits (m2.var v) (τ v)) →
        (∀ d ∈ m2.dependents, ∃ z : ℤ, exprValue (m2.uexpr d.2).expr τ = z ∧ INT_HALF_MIN ≤ z ∧ z ≤ INT_HALF_MAX) →
        (∀ c ∈ m2.conIds, (m2.con c).enabled = true → Holds (m2.con c) τ) →
        (∀ c ∈ cs, ¬ IsDependent m2 (key c) → INT_HALF_MIN ≤ τ (key c) ∧ τ (key c) ≤ INT_HALF_MAX) →
        Feasible m σ ∧ (∀ v, ¬ IsDependent m2 v → σ v = τ v) ∧ exprValue m.obj σ = exprValue m2.obj τ) := by
  obtain ⟨m1, hx, h1, h2, _⟩ := extract_ok senseOf key cs nextC nextE m h
  obtain ⟨⟨r, hok⟩, hnd⟩ := extract_elimOK senseOf key cs nextC nextE m m1 h hw hu ho hd0 ha hx
  obtain ⟨m2, g1, g2, g3, g4, g5, g6, g7, g8⟩ :=
    eliminateLoop_spec m1 r hok m1.dependents (fun d => Iff.rfl) 3 (le_refl _)
  have hmain : ∀ σ : ℕ → ℤ, (∀ c ∈ cs, INT_HALF_MIN ≤ σ (key c) ∧ σ (key c) ≤ INT_HALF_MAX) →
      (Feasible m σ ↔ FeasibleDep m2 σ) ∧ (Feasible m σ → exprValue m2.obj σ = exprValue m.obj σ) := by
    intro σ hr
    have e := extract_iff senseOf key cs nextC nextE m m1 (fun c _ => hw c) h hC (by rw [hd0]; simp) ha hx σ hr
    rw [feasibleDep_iff m hd0] at e
    refine ⟨e.trans (g4 σ).symm, fun hf => ?_⟩
    rw [g5 σ (e.1 hf), h1]
  refine ⟨m1, m2, hx, g1, hmain, ?_⟩
  intro var τ σ hτ hσ hb hz hc hr
  have hvals : ({ m2 with var := var } : MState).vals = τ := funext hτ
  obtain ⟨u1, u2⟩ := update_restores { m2 with var := var } (by show (m2.dependents.map _).Nodup; rw [g2]; exact hnd)
    g6 g8.ids (fun d hd => by rw [hvals]; obtain ⟨z, hz, _⟩ := hz d hd; exact ⟨z, hz⟩)
  rw [hσ, hvals] at u1
  rw [hσ] at u2
  have u1 : ∀ v, ¬ IsDependent m2 v → σ v = τ v := u1
  have u2 : ∀ d ∈ m2.dependents, (σ d.1 : ℚ) = exprValue (m2.uexpr d.2).expr σ := u2
  have hfd : FeasibleDep m2 σ := by
    refine ⟨fun v hv => by rw [u1 v hv]; exact hb v hv, u2, fun c hcm he => ?_⟩
    have := hc c hcm he
    unfold Holds at this ⊢
    rw [exprValue_congr _ σ τ (fun w hw => u1 w (g7.2 c hcm he w hw))]
    exact this
  have hrange : ∀ c ∈ cs, INT_HALF_MIN ≤ σ (key c) ∧ σ (key c) ≤ INT_HALF_MAX := by
    intro c hcm
    by_cases hdc : IsDependent m2 (key c)
    · obtain ⟨d, hd, hdk⟩ := hdc
      obtain ⟨z, hz1, hz2⟩ := hz d hd
      have := u2 d hd
      rw [exprValue_congr _ σ τ (fun w hw => u1 w (g6 d.2 (g8.ids d hd) w hw)), hz1] at this
      have : σ d.1 = z := by exact_mod_cast this
      rw [← hdk, this]; exact hz2
    · rw [u1 _ hdc]; exact hr c hcm hdc
  have hf := (hmain σ hrange).1.2 hfd
  refine ⟨hf, u1, ?_⟩
  rw [← (hmain σ hrange).2 hf]
  exact exprValue_congr _ _ _ (fun w hw => u1 w (g7.1 w hw))

/-- Of two constraints that define each other's key variable at most one is used. -/
theorem no_mutual_definitions (m : MState) (key : ℕ → ℕ) (cs : List ℕ) (i j : ℕ) (hi : i ∈ chosen m key cs)
    (hj : j ∈ chosen m key cs) (hij : i ≠ j) :
    ¬ (key i ∈ (m.con j).expr.vars ∧ key j ∈ (m.con i).expr.vars) := by
  have main : ∀ l kept, (∀ k ∈ kept, ∀ c ∈ surviving m key kept l, (uses m key k c && uses m key c k) = false) ∧
      (surviving m key kept l).Pairwise (fun a b => (uses m key a b && uses m key b a) = false) := by
    intro l
    induction l with
    | nil => intro kept; simp [surviving]
    | cons c l ih =>
      intro kept
      unfold surviving
      split
      · rename_i h
        obtain ⟨i1, i2⟩ := ih (c :: kept)
        refine ⟨fun k hk d hd => ?_, List.Pairwise.cons (fun d hd => i1 c (by simp) d hd) i2⟩
        rcases List.mem_cons.1 hd with rfl | hd
        · have := List.all_eq_true.1 h.2 k hk
          rw [Bool.not_eq_true'] at this
          exact this
        · exact i1 k (by simp [hk]) d hd
      · exact ih kept
  have hp := (main cs []).2
  have hsym : ∀ a b, a ∈ surviving m key [] cs → b ∈ surviving m key [] cs → a ≠ b →
      (uses m key a b && uses m key b a) = false := by
    intro a b ha hb hab
    have : Std.Symm (fun a b => (uses m key a b && uses m key b a) = false) :=
      ⟨fun x y h => by rw [Bool.and_comm]; exact h⟩
    exact hp.forall ha hb hab
  have := hsym i j (List.mem_filter.1 hi).1 (List.mem_filter.1 hj).1 hij
  rintro ⟨k1, k2⟩
  unfold uses at this
  simp [hij, Ne.symm hij, k1, k2] at this

/-- With at most two candidate constraints the definitions cannot refer to each other in a cycle, so the
theorems above apply without that hypothesis. -/
theorem two_candidates_are_acyclic (m : MState) (key : ℕ → ℕ) (cs : List ℕ) (hl : cs.length ≤ 2) :
    Acyclic m key (chosen m key cs) := by
  have hlen : (chosen m key cs).length ≤ 2 := by
    have h1 : ∀ l kept, (surviving m key kept l).length ≤ l.length := by
      intro l
      induction l with
      | nil => intro kept; simp [surviving]
      | cons c l ih =>
        intro kept
        unfold surviving
        split
        · simpa using ih (c :: kept)
        · exact le_trans (ih kept) (by simp)
    exact le_trans (List.length_filter_le _ _) (le_trans (h1 cs []) hl)
  have hm := no_mutual_definitions m key cs
  match hch : chosen m key cs with
  | [] => exact ⟨fun _ => 0, by simp⟩
  | [a] =>
    refine ⟨fun _ => 0, fun c hc w _ hne hw => ?_⟩
    have : c = a := by simpa using hc
    subst this
    exact absurd (by simpa using hw) hne
  | [a, b] =>
    rw [hch] at hm
    by_cases hab : a = b
    · subst hab
      refine ⟨fun _ => 0, fun c hc w _ hne hw => ?_⟩
      have : c = a := by simpa using hc
      subst this
      exact absurd (by simpa using hw) hne
    · have hno := hm a b (by simp) (by simp) hab
      by_cases hb : key b ∈ (m.con a).expr.vars
      · have ha : key a ∉ (m.con b).expr.vars := fun h => hno ⟨h, hb⟩
        refine ⟨fun v => if v = key b then 0 else 1, fun c hc w hw hne hk => ?_⟩
        have hc : c = a ∨ c = b := by simpa using hc
        have hk : w = key a ∨ w = key b := by simpa using hk
        rcases hc with rfl | rfl
        · rcases hk with rfl | rfl
          · exact absurd rfl hne
          · simp [Ne.symm hne]
        · rcases hk with rfl | rfl
          · exact absurd hw ha
          · exact absurd rfl hne
      · refine ⟨fun v => if v = key a then 0 else 1, fun c hc w hw hne hk => ?_⟩
        have hc : c = a ∨ c = b := by simpa using hc
        have hk : w = key a ∨ w = key b := by simpa using hk
        rcases hc with rfl | rfl
        · rcases hk with rfl | rfl
          · exact absurd rfl hne
          · exact absurd hw hb
        · rcases hk with rfl | rfl
          · simp [Ne.symm hne]
          · exact absurd rfl hne
  | a :: b :: c :: l => rw [hch] at hlen; simp at hlen

/-! Non-vacuity: `x0 - 2*x1 - 1 = 0` (key `x0`), `x1 - x2 - x3 = 0` (key `x1`), `x0 + x3 <= 7`. -/

/-- an integer variable in [-20,20] -/
def iv : Var := { Var.init with lb := -20, ub := 20, hasBounds := true }

/-- a chain of two definitions -/
def chain : MState :=
  { Example.raw with
    var := fun _ => iv
    varIds := [0, 1, 2, 3]
    con := fun c =>
      if c = 0 then Con.setup ⟨[(0, 1), (1, -2)], -1, 0⟩ .equal (fun _ => .integer)
      else if c = 1 then Con.setup ⟨[(1, 1), (2, -1), (3, -1)], 0, 0⟩ .equal (fun _ => .integer)
      else Con.setup ⟨[(0, 1), (3, 1)], -7, 0⟩ .less (fun _ => .integer)
    obj := ⟨[(0, 1)], 0, 0⟩ }

example : Candidates chain (fun c => c) [0, 1] where
  mem := by decide
  sense := by decide
  keyMem := by decide
  coef := by decide +kernel
  unfixed := by decide
  noDep := by rintro c _ _ v _ ⟨d, hd, _⟩; simp [chain, Example.raw] at hd

example : chosen chain (fun c => c) [0, 1] = [0, 1] := by decide

example : Acyclic chain (fun c => c) (chosen chain (fun c => c) [0, 1]) := by
  rw [show chosen chain (fun c => c) [0, 1] = [0, 1] by decide]
  refine ⟨fun v => if v = 0 then 1 else 0, ?_⟩
  decide

example : (∀ c, (chain.con c).expr.WF) ∧ (∀ i, (chain.uexpr i).expr.WF) ∧ chain.obj.WF ∧
    chain.dependents = [] ∧ ∀ c ∈ chain.conIds, c < 3 := by
  refine ⟨fun c => ?_, fun i => ?_, ?_, rfl, by decide⟩
  · simp only [chain]
    unfold Expr.WF
    split
    · decide
    · split <;> decide
  · unfold Expr.WF; show ([] : List ℕ).Nodup; decide
  · unfold Expr.WF; decide

/-! ### Cycles are not noticed -/

/-- `x0 = 2*x1 - 1`, `x1 = 2*x2 - 1`, `x2 = 2*x0 - 1`: only `x0 = x1 = x2 = 1` is feasible. -/
def cycle : MState :=
  { Example.raw with
    var := fun _ => iv
    con := fun c =>
      if c = 0 then Con.setup ⟨[(0, 1), (1, -2)], 1, 0⟩ .equal (fun _ => .integer)
      else if c = 1 then Con.setup ⟨[(1, 1), (2, -2)], 1, 0⟩ .equal (fun _ => .integer)
      else Con.setup ⟨[(2, 1), (0, -2)], 1, 0⟩ .equal (fun _ => .integer) }

/-- Only pairs of definitions that refer to each other are noticed.  For a cycle of three definitions all are
extracted, substitution drops the self references that arise, and the only feasible assignment is lost. -/
theorem cycle_of_three_loses_solutions : Candidates cycle (fun c => c) [0, 1, 2] ∧
    Feasible cycle (fun _ => 1) ∧
    ∃ m1 m2, extract (fun _ => .integer) (fun c => c) [0, 1, 2] 3 0 cycle = some m1 ∧
      eliminateLoop m1.dependents 3 m1 = some m2 ∧ ∀ σ, Feasible cycle σ → ¬ FeasibleDep m2 σ := by
  refine ⟨⟨by decide, by decide, by decide, by decide +kernel, by decide, ?_⟩, ⟨fun v => ?_, ?_⟩, ?_⟩
  · rintro c _ _ v _ ⟨d, hd, _⟩; simp [cycle, Example.raw] at hd
  · show Admits iv 1
    exact ⟨fun h => absurd h (by decide), fun _ => by decide⟩
  · have hh : ∀ c ∈ [0, 1, 2], (cycle.con c).sense = .equal ∧ exprValue (cycle.con c).expr (fun _ => 1) = 0 := by
      decide +kernel
    intro c hc _
    unfold Holds
    rw [(hh c hc).1]
    exact (hh c hc).2
  · have hx : (extract (fun _ => .integer) (fun c => c) [0, 1, 2] 3 0 cycle).isSome = true := by decide +kernel
    obtain ⟨m1, h1⟩ := Option.isSome_iff_exists.1 hx
    have key : ((extract (fun _ => .integer) (fun c => c) [0, 1, 2] 3 0 cycle).bind
        (fun m1 => (eliminateLoop m1.dependents 3 m1).map
          (fun m2 => (decide ((0, 0) ∈ m2.dependents), (m2.uexpr 0).expr)))) =
        some (true, ⟨[], -31, 0⟩) := by decide +kernel
    rw [h1, Option.bind_some] at key
    obtain ⟨m2, h2, h3⟩ := Option.map_eq_some_iff.1 key
    refine ⟨m1, m2, h1, h2, fun σ hσ hf => ?_⟩
    simp only [Prod.mk.injEq, decide_eq_true_eq] at h3
    have hd := hf.defs _ h3.1
    simp only [h3.2, exprValue_eq] at hd
    have h0 : (σ 0 : ℚ) = -31 := by rw [hd]; rfl
    have hb := (hσ.1 0).2 rfl
    have : σ 0 = -31 := by exact_mod_cast h0
    rw [this] at hb
    exact absurd hb.1 (by decide)

end Printemps.C29
