import Verif.Props.C91
import Verif.Props.C78
import Verif.Props.C70
import Verif.Model.Command
import Verif.Spec.Command
import Verif.Lemmas.Decimal10

/-! # Lemmas: what the flags of the command line change in the model -/

namespace Printemps.C92
open Json Cmd Opt Sol Text Spec

/-- Only values and fixings of variables of the model were changed, with the margins. -/
structure Refixed (m m' : MState) : Prop where
  rest : m' = { m with var := m'.var }
  outside : ∀ v, v ∉ m.varIds → m'.var v = m.var v
  kind : ∀ v, (m'.var v).sense = (m.var v).sense ∧ (m'.var v).lb = (m.var v).lb ∧ (m'.var v).ub = (m.var v).ub ∧
    (m'.var v).selection = (m.var v).selection
  margins : (∀ v, (m.var v).updateMargin = m.var v) → ∀ v, (m'.var v).updateMargin = m'.var v

theorem Refixed.refl (m : MState) : Refixed m m := ⟨rfl, fun _ _ => rfl, fun _ => ⟨rfl, rfl, rfl, rfl⟩, fun h => h⟩

theorem Refixed.varIds {m m' : MState} (h : Refixed m m') : m'.varIds = m.varIds := by rw [h.rest]

theorem Refixed.trans {a b c : MState} (h : Refixed a b) (g : Refixed b c) : Refixed a c where
  rest := by rw [g.rest, h.rest]
  outside v hv := by rw [g.outside v (by rw [h.varIds]; exact hv), h.outside v hv]
  kind v := by
    obtain ⟨a1, a2, a3, a4⟩ := h.kind v
    obtain ⟨b1, b2, b3, b4⟩ := g.kind v
    exact ⟨b1.trans a1, b2.trans a2, b3.trans a3, b4.trans a4⟩
  margins k := g.margins (h.margins k)

theorem unfix_refixed (name : ℕ → String) (l : List String) (m : MState) : Refixed m (unfixVariables name l m) := by
  refine ⟨rfl, fun v hv => ?_, fun v => ?_, fun h v => ?_⟩
  · unfold unfixVariables; dsimp only; rw [if_neg hv]
  · unfold unfixVariables; dsimp only
    split
    · split <;> exact ⟨rfl, rfl, rfl, rfl⟩
    · exact ⟨rfl, rfl, rfl, rfl⟩
  · unfold unfixVariables; dsimp only
    split
    · split <;> rfl
    · exact h v

theorem fix_refixed (name : ℕ → String) (s : StrMap ℤ) (m : MState) : Refixed m (fixVariables name s m) := by
  refine ⟨rfl, fun v hv => ?_, fun v => ?_, fun h v => ?_⟩
  · unfold fixVariables; dsimp only; rw [if_neg hv]
  · unfold fixVariables; dsimp only
    split
    · cases s.get (name v) <;> exact ⟨rfl, rfl, rfl, rfl⟩
    · exact ⟨rfl, rfl, rfl, rfl⟩
  · unfold fixVariables; dsimp only
    split
    · cases s.get (name v) with
      | none => exact h v
      | some x => rfl
    · exact h v

theorem setValue_kind {w w' : Var} {x : ℤ} (h : w.setValue x = some w') : w' = ({ w with value := x } : Var).updateMargin := by
  unfold Var.setValue at h
  split at h
  · cases h
  · exact (Option.some.inj h).symm

theorem assign_refixed (name : ℕ → String) (s : StrMap ℤ) (vs : List ℕ) (m m' : MState) (hs : ∀ v ∈ vs, v ∈ m.varIds)
    (h : assignAll name s vs m = some m') : Refixed m m' := by
  induction vs generalizing m with
  | nil => rw [← Option.some.inj h]; exact Refixed.refl m
  | cons v vs ih =>
    rw [assignAll] at h
    obtain ⟨x, hx, h⟩ := Option.bind_eq_some_iff.1 h
    have hx := setValue_kind hx
    have k := ih { m with var := Function.update m.var v x } (fun u hu => hs u (List.mem_cons_of_mem _ hu)) h
    refine Refixed.trans ?_ k
    clear k h
    refine ⟨rfl, fun u hu => ?_, fun u => ?_, fun k u => ?_⟩
    · dsimp only
      rw [Function.update_of_ne]
      rintro rfl
      exact hu (hs u (by simp))
    · dsimp only
      by_cases e : u = v
      · subst e; rw [Function.update_self, hx]; exact ⟨rfl, rfl, rfl, rfl⟩
      · rw [Function.update_of_ne e]; exact ⟨rfl, rfl, rfl, rfl⟩
    · dsimp only
      by_cases e : u = v
      · subst e; rw [Function.update_self, hx]; rfl
      · rw [Function.update_of_ne e]; exact k u

theorem withFile_inv {β : Type} {fs : Str → Option (List Char)} {f : Str} {d x : β} {g : List Char → Outcome β}
    (h : withFile fs f d g = .ok x) : x = d ∨ ∃ t, g t = .ok x := by
  unfold withFile at h
  split at h
  · injection h with e; exact Or.inl e.symm
  · split at h
    · cases h
    · exact Or.inr ⟨_, h⟩

theorem setup_refixed (fs : Str → Option (List Char)) (fuel : ℕ) (name cname : ℕ → Str) (a : Args) (m : MState) (r : Ready)
    (h : Cmd.setup fs fuel name cname a m = .ok r) : Refixed m r.model := by
  unfold Cmd.setup at h
  split at h
  · cases h
  obtain ⟨o, -, h⟩ := C89.bind_ok h
  obtain ⟨m1, h1, h⟩ := C89.bind_ok h
  obtain ⟨m2, h2, h⟩ := C89.bind_ok h
  obtain ⟨sels, -, h⟩ := C89.bind_ok h
  obtain ⟨p, -, h⟩ := C89.bind_ok h
  obtain ⟨m3, h3, h⟩ := C89.bind_ok h
  injection h with h
  rw [← h]
  have k1 : Refixed m m1 := by
    rcases withFile_inv h1 with rfl | ⟨t, e⟩
    · exact Refixed.refl _
    · injection e with e; rw [← e]; exact unfix_refixed _ _ _
  have k2 : Refixed m1 m2 := by
    rcases withFile_inv h2 with rfl | ⟨t, e⟩
    · exact Refixed.refl _
    · obtain ⟨s, -, e⟩ := C89.bind_ok e
      injection e with e; rw [← e]; exact fix_refixed _ _ _
  have k3 : Refixed m2 m3 := by
    rcases withFile_inv h3 with rfl | ⟨t, e⟩
    · exact Refixed.refl _
    · obtain ⟨s, -, e⟩ := C89.bind_ok e
      unfold importMap at e
      cases ha : assignAll (fun v => String.ofList (name v)) s m2.varIds m2 with
      | none => rw [ha] at e; cases e
      | some x =>
        rw [ha] at e
        injection e with e
        rw [← e]
        exact assign_refixed _ _ _ _ _ (fun v hv => hv) ha
  exact k1.trans (k2.trans k3)

/-- An ordinary model stays one if variables are fixed at or freed from values within their bounds, and no 0/1 variables
are fixed at 1 while redundant set constraints or variables are removed. -/
theorem ordinary_refixed {o : Setup.Options} {m m' : MState} (h : Ordinary o m) (hr : Stated.Restricted o m)
    (g : Refixed m m') (hin : ∀ v ∈ m.varIds, (m'.var v).fixed = true → (m.var v).lb ≤ (m'.var v).value ∧ (m'.var v).value ≤ (m.var v).ub)
    (hone : o.setConstraints = true ∨ o.setVariables = true → ∀ c ∈ m.conIds, ∀ v ∈ (m.con c).expr.vars, v ∈ m.varIds →
      (m.var v).sense = .binary → (m'.var v).fixed = true → (m'.var v).value ≠ 1) : Ordinary o m' := by
  have e1 : m'.varIds = m.varIds := g.varIds
  have e2 : m'.conIds = m.conIds := by rw [g.rest]
  have e3 : m'.con = m.con := by rw [g.rest]
  have e4 : m'.obj = m.obj := by rw [g.rest]
  have e5 : m'.objSens = m.objSens := by rw [g.rest]
  have e6 : m'.uexprIds = m.uexprIds := by rw [g.rest]
  have e7 : m'.uexpr = m.uexpr := by rw [g.rest]
  have e8 : m'.dependents = m.dependents := by rw [g.rest]
  have e9 : m'.isMin = m.isMin := by rw [g.rest]
  have ks := fun v => (g.kind v).1
  have kl := fun v => (g.kind v).2.1
  have ku := fun v => (g.kind v).2.2.1
  have bin : ∀ c ∈ m.conIds, ∀ v ∈ (m.con c).expr.vars, (m.var v).sense = .binary → v ∈ m.varIds ∧ 0 ≤ (m.var v).lb ∧ (m.var v).ub ≤ 1 := by
    intro c hc v hv hs
    have hvin := h.inside c hc v hv
    rcases (h.ranges v hvin).2 with k | k
    · rw [hs] at k; cases k
    · exact ⟨hvin, k.2⟩
  exact
    { varIds := e1 ▸ h.varIds, conIds := e2 ▸ h.conIds, objective := e4 ▸ h.objective
      terms := by rw [e2, e3]; exact h.terms
      sens := by rw [e5]; exact h.sens
      flags := by
        rw [e2, e3]
        intro c hc
        refine ⟨(h.flags c hc).1, fun k v hv => ?_⟩
        rw [ks]; exact (h.flags c hc).2 k v hv
      senses := by
        rw [e2, e3]
        intro c hc v hv
        rw [ks]; exact h.senses c hc v hv
      box := by
        rw [e2, e3]
        intro c hc v hv hs
        rw [ks] at hs
        obtain ⟨b1, b2, b3⟩ := bin c hc v hv hs
        refine ⟨fun hf => ?_, fun _ => by rw [kl, ku]; exact ⟨b2, b3⟩⟩
        have := hin v b1 hf
        omega
      integral := by rw [e2, e3]; exact h.integral
      bounds := by
        intro v hv
        by_cases hvin : v ∈ m.varIds
        · rw [kl, ku]; exact hr.bounds v hvin
        · rw [g.outside v hvin] at hv ⊢
          exact h.bounds v hv
      enabled := by rw [e2, e3]; exact h.enabled
      free := by
        rw [e1, e2, e3, e4]
        intro v hv _ hnot
        rw [kl, ku]
        exact ⟨(h.ranges v hv).1, hr.free v hv hnot⟩
      binary := by
        rw [e2, e3]
        intro ho c hc v hv hs
        rw [ks] at hs
        obtain ⟨b1, b2, b3⟩ := bin c hc v hv hs
        have h0 := hr.binary ho c hc v hv hs
        refine ⟨fun hf => ?_, fun _ => ?_⟩
        · have k1 := hin v b1 hf
          have k2 := hone ho c hc v hv b1 hs hf
          omega
        · rw [kl, ku]
          have := (h.ranges v b1).1
          exact ⟨h0, by omega, b3⟩
      costs := by
        rw [e2, e3]
        intro ho c hc v hv hs
        rw [ks] at hs
        have : minCost m' v = minCost m v := by unfold minCost; rw [e4, e9, show m'.objDefined = m.objDefined by rw [g.rest]]
        rw [this]
        exact h.costs ho c hc v hv hs
      independent := by rw [e2, e3]; exact h.independent
      presolve := h.presolve
      const := by rw [e2, e3]; exact h.const
      inside := by rw [e1, e2, e3]; exact h.inside
      ranges := by
        rw [e1]
        intro v hv
        rw [kl, ku, ks]; exact h.ranges v hv
      maxLe := by rw [e2, e3]; exact h.maxLe
      maxEq := by rw [e2, e3]; exact h.maxEq
      uexpr := by rw [e6, e7]; exact h.uexpr
      dependents := e8 ▸ h.dependents }

end Printemps.C92
