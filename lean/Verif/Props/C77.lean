import Verif.Lemmas.Online
import Verif.Props.C75

/-! # C77 — bounding variables during the search loses no improving solution

During the search the bounds of the variables are tightened by the condition that the objective function is not worse
than that of the best solution found. -/

namespace Printemps.C77
open Spec Presolve Online Search Nbhd

/-- The bounding ends normally when some assignment within the bounds is at least as good as the given value (the best
solution found is one); it changes nothing but variables, keeps every assignment within the bounds that is at least as
good, and adds none.  Partial: minimisation, or maximisation with a value that is not negative for the user
(`maximisation_throws`, `maximisation_loses_everything` otherwise); nonzero coefficients; integral contributions of the
fixed variables (`fractional_objective_loses_the_incumbent` otherwise). -/
theorem bounding_keeps_what_is_as_good_partial (m : MState) (z : ℚ) (hs : m.isMin = true ∨ z ≤ 0)
    (hd : m.objDefined = false → m.obj.terms = [] ∧ m.obj.const = 0)
    (hw : (m.obj.terms.map Prod.fst).Nodup) (hz : ∀ t ∈ m.obj.terms, t.2 ≠ 0)
    (hi : ∀ t ∈ m.obj.terms, (m.var t.1).fixed = true → ∃ k : ℤ, t.2 * ((m.var t.1).value : ℚ) = k)
    (σ : ℕ → ℤ) (hb : InBounds m.var σ) (h : minObjective m σ ≤ z) :
    ∃ m', updateBounds z true m = .ok m' ∧ m' = { m with var := m'.var } ∧
      (∀ τ, InBounds m.var τ → minObjective m τ ≤ z → InBounds m'.var τ) ∧
      (∀ τ, InBounds m'.var τ → InBounds m.var τ) := by
  obtain ⟨var', h1, h2, h3⟩ := updateBounds_spec m z hs hd hw hz hi σ hb h
  exact ⟨_, h1, rfl, h2, h3⟩

/-- With the value of a feasible solution the bounding keeps the optimum: the same best objective value can be reached, and
what is feasible afterwards was feasible before. -/
theorem bounding_keeps_the_optimum_partial (m : MState) (z : ℚ) (hs : m.isMin = true ∨ z ≤ 0)
    (hd : m.objDefined = false → m.obj.terms = [] ∧ m.obj.const = 0)
    (hw : (m.obj.terms.map Prod.fst).Nodup) (hz : ∀ t ∈ m.obj.terms, t.2 ≠ 0)
    (hi : ∀ t ∈ m.obj.terms, (m.var t.1).fixed = true → ∃ k : ℤ, t.2 * ((m.var t.1).value : ℚ) = k)
    (σ : ℕ → ℤ) (hf : Feasible m σ) (h : minObjective m σ = z) :
    ∃ m', updateBounds z true m = .ok m' ∧ Feasible m' σ ∧ KeepsOptimum m m' ∧ ∀ y, IsBest m y ↔ IsBest m' y := by
  obtain ⟨m', h1, h2, h3, h4⟩ := bounding_keeps_what_is_as_good_partial m z hs hd hw hz hi σ hf.1 h.le
  have hcon : m'.con = m.con := by rw [h2]
  have hids : m'.conIds = m.conIds := by rw [h2]
  have hobj : ∀ τ, minObjective m' τ = minObjective m τ := fun τ => by rw [h2]; rfl
  have fwd : ∀ τ, Feasible m τ → minObjective m τ ≤ z → Feasible m' τ := fun τ f g =>
    ⟨h3 τ f.1 g, fun c hc he => by rw [hcon] at he ⊢; rw [hids] at hc; exact f.2 c hc he⟩
  have hσ := fwd σ hf h.le
  have hk : KeepsOptimum m m' :=
    { sound := fun τ f => ⟨h4 τ f.1, fun c hc he => by
        have := f.2 c (by rw [hids]; exact hc)
        rw [hcon] at this
        exact this he⟩
      complete := fun τ f => by
        by_cases hle : minObjective m τ ≤ z
        · exact ⟨τ, fwd τ f hle, le_rfl⟩
        · exact ⟨σ, hσ, by linarith [not_le.1 hle]⟩
      objective := hobj }
  exact ⟨m', h1, hσ, hk, hk.best⟩

/-- Without the switch, or when the flags do not ask for it, nothing happens. -/
theorem bounding_only_when_asked (enabled updated before : Bool) (z : ℚ) (m : MState)
    (h : (enabled && updated && !before) = false) : onlineBounding enabled updated before z m = .ok m := by
  unfold onlineBounding
  rw [h]
  rfl

/-! ### Non-vacuity: minimise `x0 + 2 x1`, `0 <= x <= 5`, `x0 + x1 >= 2`, value 4 (of `x0 = 2, x1 = 1`) -/

namespace Sample

def box (l u : ℤ) : Var := ({ Var.init with lb := l, ub := u, hasBounds := true, value := l }.setupSense).updateMargin

def m : MState := { Example.raw with
  var := fun _ => box 0 5
  varIds := [0, 1]
  con := fun _ => Con.setup ⟨[(0, 1), (1, 1)], -2, 0⟩ .greater (fun _ => .integer)
  conIds := [0]
  obj := ⟨[(0, 1), (1, 2)], 0, 0⟩ }

def σ : ℕ → ℤ := fun v => if v = 0 then 2 else if v = 1 then 1 else 0

example : m.isMin = true ∧ (m.obj.terms.map Prod.fst).Nodup ∧ (∀ t ∈ m.obj.terms, t.2 ≠ 0) ∧ Feasible m σ ∧
    minObjective m σ = 4 ∧
    test (updateBounds 4 true m) (fun m' => decide (((m'.var 0).lb, (m'.var 0).ub, (m'.var 1).lb, (m'.var 1).ub) = (0, 4, 0, 2))) =
      true := by
  refine ⟨rfl, by decide, by decide, ⟨fun v => ?_, by unfold Holds; decide +kernel⟩, by decide +kernel, by decide +kernel⟩
  show Admits (box 0 5) (σ v)
  unfold Admits σ
  split
  · decide
  · split <;> decide

end Sample

/-! ### What the hypotheses exclude -/

/-- Is an outcome a thrown error? (for concrete evaluations) -/
def isThrown {α : Type} (o : Outcome α) : Bool :=
  match o with
  | .thrown => true
  | _ => false

theorem isThrown_eq {α : Type} {o : Outcome α} (h : isThrown o = true) : o = .thrown := by
  cases o <;> simp [isThrown] at h ⊢

namespace Maximise

private def m : MState := { Sample.m with
  isMin := false
  con := fun _ => Con.setup ⟨[(0, 1), (1, 1)], -4, 0⟩ .less (fun _ => .integer)
  obj := ⟨[(0, 1), (1, 1)], -8, 0⟩
  var := fun _ => Sample.box 0 10 }

private def small : MState := { m with var := fun _ => Sample.box 0 5 }

private theorem inBox (u : ℤ) (hu : 0 ≤ u) : ∀ v : ℕ, Admits ((fun _ => Sample.box 0 u : ℕ → Var) v) 0 := by
  intro v
  refine ⟨fun h => ?_, fun _ => ?_⟩
  · exfalso
    simp only [Sample.box, Var.updateMargin, Var.setupSense, Var.init] at h
    split at h <;> simp at h
  · simp only [Sample.box, Var.updateMargin, Var.setupSense, Var.init]
    split <;> simpa using hu

/-- When maximising, the objective is compared with the negated value: maximise `x0 + x1 - 8`, `0 <= x <= 5`,
`x0 + x1 <= 4`.  The feasible solution 0 has the value -8, minimised 8, and the bounding asks for `x0 + x1 - 8 >= 8`: the
lower bound of `x0` would exceed the upper one and the call ends with an exception. -/
theorem maximisation_throws : ∃ (m : MState) (σ : ℕ → ℤ), Feasible m σ ∧ m.isMin = false ∧
    (m.obj.terms.map Prod.fst).Nodup ∧ (∀ t ∈ m.obj.terms, t.2 ≠ 0) ∧ (∀ v, (m.var v).fixed = false) ∧
    updateBounds (minObjective m σ) true m = .thrown := by
  refine ⟨small, fun _ => 0, ⟨inBox 5 (by decide), by unfold Holds; decide +kernel⟩, rfl, by decide, by decide, fun v => rfl, ?_⟩
  exact isThrown_eq (by decide +kernel)

/-- With the wider bounds `0 <= x <= 10` nothing is thrown, but `x0 >= 6` and `x1 >= 6` is demanded and no feasible solution
is left, not even the one whose value was used. -/
theorem maximisation_loses_everything : ∃ (m m' : MState) (σ : ℕ → ℤ), Feasible m σ ∧ m.isMin = false ∧
    (m.obj.terms.map Prod.fst).Nodup ∧ (∀ t ∈ m.obj.terms, t.2 ≠ 0) ∧ (∀ v, (m.var v).fixed = false) ∧
    updateBounds (minObjective m σ) true m = .ok m' ∧ ∀ τ, ¬ Feasible m' τ := by
  have h : test (updateBounds (minObjective m (fun _ => 0)) true m) (fun m' =>
      decide (((m'.var 0).lb, (m'.var 1).lb, (m'.var 0).fixed, (m'.var 1).fixed) = (6, 6, false, false)) &&
      decide ((m'.conIds, m'.con 0) = (m.conIds, m.con 0))) = true := by decide +kernel
  obtain ⟨m', h1, h2⟩ := test_ok h
  simp only [Bool.and_eq_true, decide_eq_true_eq, Prod.mk.injEq] at h2
  obtain ⟨⟨a, b, c, d⟩, e, f⟩ := h2
  refine ⟨m, m', fun _ => 0, ⟨inBox 10 (by decide), by unfold Holds; decide +kernel⟩, rfl, by decide, by decide, fun v => rfl, h1, ?_⟩
  intro τ hτ
  have t0 := ((hτ.1 0).2 c).1
  have t1 := ((hτ.1 1).2 d).1
  have t2 := hτ.2 0 (by rw [e]; decide) (by rw [f]; rfl)
  rw [f] at t2
  have t3 : (-4 : ℚ) + ([((0 : ℕ), (1 : ℚ)), (1, 1)].map (fun t => t.2 * (τ t.1 : ℚ))).sum ≤ 0 := t2
  rw [a] at t0
  rw [b] at t1
  simp at t3
  have u0 : (6 : ℚ) ≤ τ 0 := by exact_mod_cast t0
  have u1 : (6 : ℚ) ≤ τ 1 := by exact_mod_cast t1
  linarith

end Maximise

namespace Fraction

private def m : MState := { Sample.m with
  var := fun v => if v = 0 then (Sample.box 0 1).fixBy 1 else Sample.box 0 5
  con := fun _ => Con.setup ⟨[(1, 1)], -1, 0⟩ .greater (fun _ => .integer)
  obj := ⟨[(0, -1/2), (1, 1/2)], 0, 0⟩ }

private def σ : ℕ → ℤ := fun v => if v = 0 ∨ v = 1 then 1 else 0

/-- Minimise `-0.5 x0 + 0.5 x1` with `x0` fixed at 1, `0 <= x1 <= 5`, `x1 >= 1`: the optimum `x1 = 1` has the value 0.  The fixed
part `-0.5` is truncated to 0, so its own value cuts it off: `x1` is fixed at 0. -/
theorem fractional_objective_loses_the_incumbent : ∃ (m m' : MState) (σ : ℕ → ℤ), Feasible m σ ∧ m.isMin = true ∧
    IsBest m (minObjective m σ) ∧ (m.obj.terms.map Prod.fst).Nodup ∧ (∀ t ∈ m.obj.terms, t.2 ≠ 0) ∧
    updateBounds (minObjective m σ) true m = .ok m' ∧ ∀ τ, ¬ Feasible m' τ := by
  have h : test (updateBounds (minObjective m σ) true m) (fun m' =>
      decide (((m'.var 1).value, (m'.var 1).fixed) = (0, true)) &&
      decide ((m'.conIds, m'.con 0) = (m.conIds, m.con 0))) = true := by decide +kernel
  obtain ⟨m', h1, h2⟩ := test_ok h
  simp only [Bool.and_eq_true, decide_eq_true_eq, Prod.mk.injEq] at h2
  obtain ⟨⟨a, b⟩, e, f⟩ := h2
  have hf : Feasible m σ := by
    refine ⟨fun v => ?_, by unfold Holds; decide +kernel⟩
    by_cases h0 : v = 0
    · subst h0; unfold Admits; decide +kernel
    · by_cases h1 : v = 1
      · subst h1; unfold Admits; decide +kernel
      · have e1 : m.var v = Sample.box 0 5 := by
          show (if v = 0 then _ else _) = _
          rw [if_neg h0]
        have e2 : σ v = 0 := by unfold σ; rw [if_neg (by tauto)]
        rw [e1, e2]; unfold Admits; decide
  refine ⟨m, m', σ, hf, rfl, ⟨⟨σ, hf, rfl⟩, fun τ hτ => ?_⟩, by decide, by decide +kernel, h1, ?_⟩
  · have t0 : τ 0 = 1 := (hτ.1 0).1 rfl
    have t2 := hτ.2 0 (by decide) rfl
    have t3 : (0 : ℚ) ≤ (-1 : ℚ) + ([((1 : ℕ), (1 : ℚ))].map (fun t => t.2 * (τ t.1 : ℚ))).sum := t2
    simp at t3
    have e1 : minObjective m σ = 0 := by decide +kernel
    have e2 : minObjective m τ = 0 + ([((0 : ℕ), (-1/2 : ℚ)), (1, 1/2)].map (fun t => t.2 * (τ t.1 : ℚ))).sum := rfl
    rw [e1, e2]
    simp [t0]
    linarith
  · intro τ hτ
    have t1 := (hτ.1 1).1 b
    have t2 := hτ.2 0 (by rw [e]; decide) (by rw [f]; rfl)
    rw [f] at t2
    have t3 : (0 : ℚ) ≤ (-1 : ℚ) + ([((1 : ℕ), (1 : ℚ))].map (fun t => t.2 * (τ t.1 : ℚ))).sum := t2
    simp [t1, a] at t3
    norm_num at t3

end Fraction

namespace Broken

private def kinds : ℕ → VarSense := fun _ => .binary
private def user : MState := { Example.raw with
  var := fun v => if v = 2 then { Example.bin0 with value := 1 }.updateMargin else Example.bin0
  varIds := [0, 1, 2, 3, 4]
  con := fun c => if c = 0 then Con.setup ⟨[(0, 1), (1, 1), (2, 1)], -1, 0⟩ .equal kinds
    else Con.setup ⟨[(3, 2), (4, 3)], -4, 0⟩ .less kinds
  conIds := [0, 1]
  obj := ⟨[(0, -10), (1, -1), (2, 1)], 0, 0⟩ }
private def inp : Whole.Input := ⟨{}, C67.lt', fun _ => false, true, 100, []⟩
private def ok : Option (Outcome MState) → Option MState
  | some (.ok m) => some m
  | _ => none
private theorem of_ok {r : Option (Outcome MState)} (h : (ok r).isSome = true) (d : MState) : r = some (.ok ((ok r).getD d)) := by
  unfold ok at h ⊢
  split at h
  · rfl
  · exact absurd h (by simp)
private def m1 : MState := (ok (Setup.prepare inp.options inp.lt inp.user user)).getD user
private def m0 : MState := (Whole.started inp user).getD user
private def conf : Nbhd.Config ℕ ℕ := { setup := m1, name := id, vname := id, lt := C67.lt', pairs := [] }
private def selRel : ℕ → List ℕ := fun _ => selectionRelated id id m1 0
private def cfg : Cfg := Whole.cfg inp true selRel user
private def on : Status := { enabled := fun s => s = .selection, available := fun _ _ => true, chain := [] }
private def every : Moves.Accept := ⟨true, true, true⟩
private def at' (u : ℕ) (z : ℚ) : Sol.Dense := ⟨fun v => if v = u then 1 else 0, z, 0, z, true⟩
private def swap (u v : ℕ) : Move := { alterations := [(u, 0), (v, 1)], sense := .selection, related := [], isSelection := true }
private def after (s : St) (ev : Event) : St := (step cfg s ev).getD s
private def s0 : St := begin m0
private def s1 : St := after s0 (.start (at' 2 1))
private def s2 : St := after s1 (.move (swap 2 0) false)
private def s3 : St := after s2 (.start (at' 0 (-10)))
private def s4 : St := after s3 (.move (swap 0 1) false)
private def s5 : St := after s4 (.move (swap 1 2) false)
private def events : List Event := [.start (at' 2 1), .move (swap 2 0) false, .start (at' 0 (-10)), .move (swap 0 1) false,
  .move (swap 1 2) false]
private def out : Outcome MState → MState
  | .ok m => m
  | _ => m0
private def b : MState := out (updateBounds (-10) true s5.model)
private def t0 : St := ⟨b, s5.cur, s5.holder⟩
private def t1 : St := after t0 (.start (at' 0 (-10)))
private def conf' : Nbhd.Config ℕ ℕ := { conf with recent := b.var }
private def later : List Event := [.start (at' 0 (-10)), .move (swap 2 1) false]
private def cands (C : Nbhd.Config ℕ ℕ) (s : St) : List Move := (candidates C on every s.model).getD []

private theorem follows : Follows conf cfg [] (begin m0) events := by
  refine ⟨trivial, fun t ht => ?_⟩
  obtain rfl : t = s1 := by unfold s1 after; rw [show s0 = begin m0 from rfl, ht]; rfl
  refine ⟨⟨on, every, by simp [on], .plain (cands conf s1) _ (by decide +kernel) (by decide +kernel)⟩, fun t ht => ?_⟩
  obtain rfl : t = s2 := by unfold s2 after; rw [ht]; rfl
  refine ⟨trivial, fun t ht => ?_⟩
  obtain rfl : t = s3 := by unfold s3 after; rw [ht]; rfl
  refine ⟨⟨on, every, by simp [on], .plain (cands conf s3) _ (by decide +kernel) (by decide +kernel)⟩, fun t ht => ?_⟩
  obtain rfl : t = s4 := by unfold s4 after; rw [ht]; rfl
  exact ⟨⟨on, every, by simp [on], .plain (cands conf s4) _ (by decide +kernel) (by decide +kernel)⟩, fun t ht => trivial⟩

private theorem followsLater : Follows conf' cfg [] t0 later := by
  refine ⟨trivial, fun t ht => ?_⟩
  obtain rfl : t = t1 := by unfold t1 after; rw [ht]; rfl
  exact ⟨⟨on, every, by simp [on], .plain (cands conf' t1) _ (by decide +kernel) (by decide +kernel)⟩, fun t ht => trivial⟩

private theorem equation (σ : ℕ → ℤ) (h : Solves user σ) : (σ 0 : ℚ) + σ 1 + σ 2 = 1 := by
  have hc : (-1 : ℚ) + ([((0 : ℕ), (1 : ℚ)), (1, 1), (2, 1)].map (fun t => t.2 * (σ t.1 : ℚ))).sum = 0 :=
    h.2 0 (by decide) (by decide +kernel)
  simp at hc
  linarith

private theorem best (σ : ℕ → ℤ) (h : Solves user σ) : -10 ≤ exprValue user.obj σ := by
  have b1 : 0 ≤ σ 1 := ((h.1 1 (by decide)).2 rfl).1
  have b2 : 0 ≤ σ 2 := ((h.1 2 (by decide)).2 rfl).1
  have hc := equation σ h
  have hv : exprValue user.obj σ = -10 * (σ 0 : ℚ) - σ 1 + σ 2 := by
    show (0 : ℚ) + ([((0 : ℕ), (-10 : ℚ)), (1, -1), (2, 1)].map (fun t => t.2 * (σ t.1 : ℚ))).sum = _
    simp
    ring
  have b1' : (0 : ℚ) ≤ σ 1 := by exact_mod_cast b1
  have b2' : (0 : ℚ) ≤ σ 2 := by exact_mod_cast b2
  rw [hv]
  linarith

private theorem after_eq {s : St} {ev : Event} (h : (step cfg s ev).isSome = true) : step cfg s ev = some (after s ev) := by
  obtain ⟨t, ht⟩ := Option.isSome_iff_exists.1 h
  unfold after
  rw [ht]
  rfl

private theorem out_eq {o : Outcome MState} (h : test o (fun _ => true) = true) : o = .ok (out o) := by
  cases o <;> simp [test, out] at h ⊢

/-- Bounding can fix a variable of a selection at 1 while the others stay changeable.  An import of a solution does then
not tell the selection which of its variables is the selected one, so the pointer keeps whatever the last search left, and
a swap from that variable makes a second variable 1.  Here minimise `-10 x0 - x1 + x2` subject to `x0 + x1 + x2 = 1` and a
constraint on other variables: two searches find the optimum -10 (`x0 = 1`), the bounding fixes `x0`, and the next search,
started from the optimum, takes the only candidate, a swap from `x2` to `x1`.  The result counts as feasible, better than the
optimum, and the call ends with an exception. -/
theorem bounding_can_break_a_selection : ∃ (i : Whole.Input) (O m1 m0 b : MState) (selRel : ℕ → List ℕ)
    (C : Nbhd.Config ℕ ℕ) (before after : List Event) (s t : St) (z : ℚ) (d : Sol.Dense),
    i.options = {} ∧ O.isMin = true ∧ Setup.prepare i.options i.lt i.user O = some (.ok m1) ∧ C.setup = m1 ∧ C.recent = m1.var ∧
    Whole.started i O = some m0 ∧ Follows C (Whole.cfg i true selRel O) [] (begin m0) before ∧
    run (Whole.cfg i true selRel O) before (begin m0) = some s ∧ s.holder.feasObj = some z ∧
    (∃ σ, Solves O σ ∧ exprValue O.obj σ = z) ∧ (∀ σ, Solves O σ → z ≤ exprValue O.obj σ) ∧
    onlineBounding true true false z s.model = .ok b ∧
    Follows { C with recent := b.var } (Whole.cfg i true selRel O) [] ⟨b, s.cur, s.holder⟩ after ∧
    (∀ d, Event.start d ∈ after → ∀ e, s.holder.feasSol = some e → ∀ v ∈ O.varIds, d.values v = e.values v) ∧
    run (Whole.cfg i true selRel O) after ⟨b, s.cur, s.holder⟩ = some t ∧
    t.holder.feasSol = some d ∧ d.feasible = true ∧ ¬ Solves O d.values ∧ d.objective < z ∧
    Sol.postprocess (Whole.cfg i true selRel O).sels t.holder t.model = none := by
  have h1 : Setup.prepare inp.options inp.lt inp.user user = some (.ok m1) := of_ok (by decide +kernel) user
  have h2 : (Whole.started inp user).isSome = true := by decide +kernel
  obtain ⟨m, hm⟩ := Option.isSome_iff_exists.1 h2
  have h3 : (run cfg events (begin m0)) = some s5 := by
    have a1 : step cfg (begin m0) (.start (at' 2 1)) = some s1 := after_eq (by decide +kernel)
    have a2 : step cfg s2 (.start (at' 0 (-10))) = some s3 := after_eq (by decide +kernel)
    simp only [events, run, a1, Option.bind_some]
    rw [show step cfg s1 (.move (swap 2 0) false) = some s2 from rfl, Option.bind_some, a2, Option.bind_some,
      show step cfg s3 (.move (swap 0 1) false) = some s4 from rfl, Option.bind_some,
      show step cfg s4 (.move (swap 1 2) false) = some s5 from rfl, Option.bind_some]
  have h4 : ((run cfg later t0).bind (fun s => s.holder.feasSol.map (fun d =>
      (d.objective, d.feasible, [0, 1, 2].map d.values, (Sol.postprocess cfg.sels s.holder s.model).isNone)))) =
      some (-11, true, [1, 1, 0], true) := by decide +kernel
  obtain ⟨t, ht, h5⟩ := Option.bind_eq_some_iff.1 h4
  obtain ⟨d, hd, h6⟩ := Option.map_eq_some_iff.1 h5
  simp only [Prod.mk.injEq, List.map_cons, List.map_nil, List.cons.injEq, and_true] at h6
  obtain ⟨e1, e2, ⟨e3, e4, e5⟩, e6⟩ := h6
  refine ⟨inp, user, m1, m0, b, selRel, conf, events, later, s5, t, -10, d, rfl, rfl, h1, rfl, rfl, by unfold m0; rw [hm]; rfl, follows,
    h3, by decide +kernel, ⟨fun v => if v = 0 then 1 else 0, ⟨by unfold Admits; decide +kernel, by unfold Holds; decide +kernel⟩,
      by decide +kernel⟩, best, out_eq (by decide +kernel), followsLater, ?_, ht, hd, e2, ?_, by rw [e1]; norm_num,
    Option.isNone_iff_eq_none.1 e6⟩
  · intro d' hd' e he v hv
    have hd'' : d' = at' 0 (-10) := by simpa [later] using hd'
    subst hd''
    have key : s5.holder.feasSol.map (fun e => user.varIds.map e.values) = some (user.varIds.map (at' 0 (-10)).values) := by
      decide +kernel
    rw [he] at key
    simp only [Option.map_some, Option.some.injEq, List.map_inj_left] at key
    exact (key v hv).symm
  · intro hn
    have := equation _ hn
    rw [e3, e4, e5] at this
    norm_num at this

end Broken

end Printemps.C77
