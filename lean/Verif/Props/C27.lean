import Verif.Lemmas.PresolveOpt
import Verif.Props.C21

/-! # C27 — fixing variables that occur in no constraint keeps the optimum -/

namespace Printemps.C27
open Spec Presolve

/-- Partial: fixing the variables that occur in no constraint keeps the optimum, provided that the recorded
objective coefficients are the ones of the objective, the bounds of such a variable are not crossed, and its
coefficient is either at least `1e-10` in size, or exactly zero with 0 inside the bounds.  The
counterexamples below show what happens otherwise. -/
theorem fixing_independent_keeps_optimum_partial (m : MState)
    (hw : ∀ c ∈ m.conIds, ((m.con c).expr.terms.map Prod.fst).Nodup) (ho : (m.obj.terms.map Prod.fst).Nodup)
    (hs : ∀ v ∈ m.varIds, m.objSens v = Expr.lookup m.obj.terms v)
    (hok : ∀ v ∈ m.varIds, (m.var v).fixed = false → (∀ c ∈ m.conIds, v ∉ (m.con c).expr.vars) →
      (m.var v).lb ≤ (m.var v).ub ∧ (|Expr.lookup m.obj.terms v| ≥ 1 / 10000000000 ∨
        (Expr.lookup m.obj.terms v = 0 ∧ (m.var v).lb ≤ 0 ∧ 0 ≤ (m.var v).ub))) :
    KeepsOptimum m (removeIndependent m.varIds m).1 := by
  refine removeIndependent_keeps m.varIds m hw ho hs (fun v hv hf hr => hok v hv hf ?_)
  intro c hc hvc
  have : c ∈ relatedCons m v := List.mem_filter.2 ⟨hc, by simpa using hvc⟩
  rw [hr] at this; exact absurd this (by simp)

/-- Exactly the unfixed variables that occur in no constraint are fixed, at a value within their bounds (under
the same conditions), and nothing else changes. -/
theorem fixed_value_within_bounds_partial (m : MState) (hn : m.varIds.Nodup)
    (hs : ∀ v ∈ m.varIds, m.objSens v = Expr.lookup m.obj.terms v)
    (hok : ∀ v ∈ m.varIds, (m.var v).fixed = false → (∀ c ∈ m.conIds, v ∉ (m.con c).expr.vars) →
      (m.var v).lb ≤ (m.var v).ub ∧ (|Expr.lookup m.obj.terms v| ≥ 1 / 10000000000 ∨
        (Expr.lookup m.obj.terms v = 0 ∧ (m.var v).lb ≤ 0 ∧ 0 ≤ (m.var v).ub))) (v : ℕ) (hv : v ∈ m.varIds) :
    ((m.var v).fixed = false ∧ (∀ c ∈ m.conIds, v ∉ (m.con c).expr.vars) →
      ∃ x, (removeIndependent m.varIds m).1.var v = (m.var v).fixBy x ∧ (m.var v).lb ≤ x ∧ x ≤ (m.var v).ub) ∧
    (¬ ((m.var v).fixed = false ∧ (∀ c ∈ m.conIds, v ∉ (m.con c).expr.vars)) →
      (removeIndependent m.varIds m).1.var v = m.var v) := by
  have hrel : (∀ c ∈ m.conIds, v ∉ (m.con c).expr.vars) ↔ relatedCons m v = [] := by
    unfold relatedCons
    rw [List.filter_eq_nil_iff]
    simp
  rw [removeIndependent_var m.varIds m hn v]
  constructor
  · rintro ⟨hf, hr⟩
    rw [if_pos ⟨hv, hf, hrel.1 hr⟩]
    exact ⟨_, rfl, independentValue_mem m v (hs v hv) (hok v hv hf hr)⟩
  · intro h
    rw [if_neg]
    rintro ⟨_, hf, hr⟩
    exact h ⟨hf, hrel.2 hr⟩

theorem removeIndependent_same (l : List ℕ) : ∀ (m : MState), SameData m (removeIndependent l m).1 ∧
    (removeIndependent l m).1.con = m.con := by
  induction l with
  | nil => intro m; exact ⟨SameData.refl m, rfl⟩
  | cons v l ih =>
    intro m
    unfold removeIndependent
    split
    · exact ih m
    · split
      · have h := ih (independentStep m v)
        exact ⟨(SameData.mk rfl rfl (fun _ => rfl) (fun _ => rfl) rfl rfl rfl rfl : SameData m (independentStep m v)).trans h.1,
          h.2⟩
      · exact ih m

/-- The complete problem size reduction (independent variables, then bound tightening, redundant
constraints and implied fixings until nothing changes) terminates and keeps the optimum of every feasible
model with nonzero integer coefficients and bounds below 100000 in size. -/
theorem reduction_keeps_optimum (m : MState) (hn : m.varIds.Nodup)
    (hg : ∀ c ∈ m.conIds, ((m.con c).expr.terms.map Prod.fst).Nodup ∧
      ∀ t ∈ (m.con c).expr.terms, t.2 ≠ 0 ∧ ∃ k : ℤ, t.2 = k)
    (ho : (m.obj.terms.map Prod.fst).Nodup)
    (hs : ∀ v ∈ m.varIds, m.objSens v = Expr.lookup m.obj.terms v)
    (hb : ∀ v, (m.var v).fixed = false → -100000 < (m.var v).lb ∧ (m.var v).ub < 100000)
    (hok : ∀ v ∈ m.varIds, (m.var v).fixed = false → (∀ c ∈ m.conIds, v ∉ (m.con c).expr.vars) →
      (m.var v).lb ≤ (m.var v).ub ∧ (|Expr.lookup m.obj.terms v| ≥ 1 / 10000000000 ∨
        (Expr.lookup m.obj.terms v = 0 ∧ (m.var v).lb ≤ 0 ∧ 0 ≤ (m.var v).ub)))
    (hf : ∃ σ, Feasible m σ) :
    ∃ m', reduceProblemSize m = some (.ok m') ∧ KeepsOptimum m m' := by
  have h1 := fixing_independent_keeps_optimum_partial m (fun c hc => (hg c hc).1) ho hs hok
  obtain ⟨sd, hcon⟩ := removeIndependent_same m.varIds m
  obtain ⟨σ, hσ⟩ := hf
  obtain ⟨τ, hτ, _⟩ := h1.complete σ hσ
  have hvar := removeIndependent_var m.varIds m hn
  unfold reduceProblemSize
  simp only []
  generalize (removeIndependent m.varIds m).1 = m1 at *
  obtain ⟨r, hr⟩ := C21.reduction_terminates m1
  obtain ⟨m', rfl, k2, k3⟩ := reduceLoop_exact _ m1 r
    (by intro c hc; rw [sd.conIds] at hc; rw [hcon]; exact hg c hc)
    (by
      intro v hv
      rw [hvar v] at hv ⊢
      split at hv
      · exact absurd hv (by simp [Var.fixBy, Var.updateMargin])
      · rename_i hne
        rw [if_neg hne]; exact hb v hv) ⟨τ, hτ⟩ hr
  refine ⟨m', hr, h1.trans ⟨fun ρ h => (k3 ρ).2 h, fun ρ h => ⟨ρ, (k3 ρ).1 h, le_refl _⟩, fun ρ => ?_⟩⟩
  unfold minObjective
  rw [k2.obj, k2.isMin, k2.objDefined]

/-! ### Non-vacuity -/

/-- `min -2*x0 + x1 + 3*x2` with only `x0 + x1 <= 1`: `x2` in `[0,5]` is independent and gets fixed at 0. -/
def ex : MState := { Example.raw.setupObjSens with conIds := [0] }

example : (∀ c ∈ ex.conIds, ((ex.con c).expr.terms.map Prod.fst).Nodup ∧
      ∀ t ∈ (ex.con c).expr.terms, t.2 ≠ 0 ∧ ∃ k : ℤ, t.2 = k) ∧
    (ex.obj.terms.map Prod.fst).Nodup ∧ (∀ v ∈ ex.varIds, ex.objSens v = Expr.lookup ex.obj.terms v) ∧
    (∀ v ∈ ex.varIds, (ex.var v).fixed = false → (∀ c ∈ ex.conIds, v ∉ (ex.con c).expr.vars) →
      (ex.var v).lb ≤ (ex.var v).ub ∧ (|Expr.lookup ex.obj.terms v| ≥ 1 / 10000000000 ∨
        (Expr.lookup ex.obj.terms v = 0 ∧ (ex.var v).lb ≤ 0 ∧ 0 ≤ (ex.var v).ub))) ∧
    (∃ σ, Feasible ex σ) ∧
    ((removeIndependent ex.varIds ex).1.var 2).fixed = true ∧
    ((removeIndependent ex.varIds ex).1.var 2).value = 0 ∧
    ((removeIndependent ex.varIds ex).1.var 0).fixed = false := by
  refine ⟨?_, by decide, by decide +kernel, by decide +kernel, ⟨fun _ => 0, fun v => ?_, by decide +kernel⟩, by decide +kernel, by decide +kernel,
    by decide +kernel⟩
  · intro c hc
    have : c = 0 := by simpa [ex] using hc
    subst this
    refine ⟨by decide, fun t ht => ?_⟩
    have : t = (0, 1) ∨ t = (1, 1) := by simpa [ex, Example.raw, MState.setupObjSens, Example.c0, Con.setup] using ht
    rcases this with rfl | rfl <;> exact ⟨by norm_num, 1, by norm_num⟩
  · show Admits (if v = 2 then Example.int5 else Example.bin0) 0
    split <;> decide

/-! ### Counterexamples -/

/-- A variable without any coefficient is fixed at 0 even if its bounds are `[1,5]`: no feasible assignment of
the reduced model is feasible for the original one. -/
theorem fixed_outside_bounds : ∃ m : MState, (∃ σ, Feasible m σ) ∧
    (∀ v ∈ m.varIds, m.objSens v = Expr.lookup m.obj.terms v) ∧
    (∃ σ, Feasible (removeIndependent m.varIds m).1 σ) ∧
    ∀ σ, Feasible (removeIndependent m.varIds m).1 σ → ¬ Feasible m σ := by
  refine ⟨{ Example.raw with var := fun _ => { Example.int5 with lb := 1, value := 1 }, varIds := [0], conIds := [],
                             obj := ⟨[], 0, 0⟩ },
    ⟨fun _ => 1, fun v => ?_, by simp⟩, ?_, ⟨fun v => if v = 0 then 0 else 1, fun v => ?_, ?_⟩, ?_⟩
  · show Admits { Example.int5 with lb := 1, value := 1 } 1
    decide
  · intro v _; rfl
  · rw [removeIndependent_var _ _ (by simp)]
    by_cases h : v = 0
    · subst h
      decide +kernel
    · rw [if_neg (by simp [h])]
      simp only [h, if_false]
      decide
  · intro c hc
    rw [(removeIndependent_same _ _).1.conIds] at hc
    exact absurd hc (by simp)
  · intro σ h1 h2
    have k1 := h1.1 0
    have k2 := h2.1 0
    rw [removeIndependent_var _ _ (by simp), if_pos ⟨by simp, rfl, rfl⟩, admits_fixBy] at k1
    have k3 := (k2.2 rfl).1
    rw [k1] at k3
    exact absurd k3 (by decide +kernel)

end Printemps.C27
