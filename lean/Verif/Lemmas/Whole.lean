import Verif.Lemmas.SetupVars
import Verif.Spec.Whole
import Verif.Model.Whole
import Verif.Props.C66
import Verif.Props.C67

/-! From the user's model to the setting of the search. -/

namespace Printemps.Whole
open Spec Expr Presolve Setup

/-- Bounds and kind of a variable fit together. -/
def VarOK (v : Var) : Prop :=
  v.lb ≤ v.ub ∧ (v.sense = .integer ∨ (v.sense = .binary ∧ 0 ≤ v.lb ∧ v.ub ≤ 1))

theorem setBound_varOK {v w : Var} {l u : ℤ} (h : v.setBound l u = some w) : VarOK w ∧ w.lb = l ∧ w.ub = u := by
  unfold Var.setBound at h
  split at h
  · exact absurd h (by simp)
  · rename_i hlu
    simp only [Option.some.injEq] at h
    subst h
    unfold Var.setupSense Var.updateMargin
    split
    · rename_i hc
      dsimp only at hc
      refine ⟨⟨?_, Or.inr ⟨rfl, ?_, ?_⟩⟩, rfl, rfl⟩ <;> dsimp only <;> omega
    · refine ⟨⟨?_, Or.inl rfl⟩, rfl, rfl⟩
      dsimp only; omega

/-- The three facts kept about variables: range and kind; unfixed variables were unfixed, with wider bounds. -/
def Tame (O : MState) (i : ℕ) (v : Var) : Prop :=
  (i ∈ O.varIds → VarOK v) ∧
    (v.fixed = false → (O.var i).fixed = false ∧ (O.var i).lb ≤ v.lb ∧ v.ub ≤ (O.var i).ub)

theorem tame_closed (O : MState) : Closed (Tame O) where
  fix i v x h := by
    refine ⟨h.1, fun hf => ?_⟩
    exact absurd hf (by simp [Var.fixBy, Var.updateMargin])
  bound i v old w l u hv ho hf hl hu h := by
    obtain ⟨h1, h2, h3⟩ := setBound_varOK h
    refine ⟨fun _ => h1, fun hw => ?_⟩
    rw [setBound_fixed h, ← hf] at hw
    obtain ⟨k1, k2, k3⟩ := ho.2 hw
    rw [h2, h3]
    exact ⟨k1, le_trans k2 hl, le_trans hu k3⟩

theorem tame_start {o : Options} {O : MState} (p : Ordinary o O) (v : ℕ) : Tame O v (O.var v) :=
  ⟨p.ranges v, fun h => ⟨h, le_refl _, le_refl _⟩⟩

/-- The facts kept about constraints. -/
def Plain (c : Con) : Prop :=
  (∀ t ∈ c.expr.terms, |t.2| ≤ c.maxAbs) ∧ (c.maxAbs = 0 ∨ ∃ t ∈ c.expr.terms, c.maxAbs = |t.2|) ∧
    ∃ k : ℤ, c.expr.const = k

theorem plain_enabled {c : Con} (h : Plain c) (e : Bool) : Plain { c with enabled := e } := h

theorem foldl_max_eq (ts : List (ℕ × ℚ)) : ∀ a : ℚ, ts.foldl (fun m t => max m |t.2|) a = a ∨
    ∃ t ∈ ts, ts.foldl (fun m t => max m |t.2|) a = |t.2| := by
  induction ts with
  | nil => intro a; exact Or.inl rfl
  | cons t ts ih =>
    intro a
    rw [List.foldl_cons]
    rcases ih (max a |t.2|) with h | ⟨u, hu, h⟩
    · rcases le_total a |t.2| with k | k
      · rw [max_eq_right k] at h ⊢; exact Or.inr ⟨t, by simp, h⟩
      · rw [max_eq_left k] at h ⊢; exact Or.inl h
    · exact Or.inr ⟨u, by simp [hu], h⟩

theorem plain_setup (e : Expr) (s : Sense) (so : ℕ → VarSense) (h : ∃ k : ℤ, e.const = k) :
    Plain (Con.setup (e.subValue 0) s so) := by
  refine ⟨fun t ht => C07.setup_maxAbs _ s so t ht, foldl_max_eq _ 0, ?_⟩
  obtain ⟨k, hk⟩ := h
  exact ⟨k, by show e.const - 0 = k; rw [hk, sub_zero]⟩

theorem implicit_plain (o : Options) (lt : ℕ → ℕ → Bool) (O : MState) (p : Proper o O)
    (h : ∀ c ∈ O.conIds, Plain (O.con c)) :
    ∀ c ∈ (implicitStage o lt (structured O)).conIds, Plain ((implicitStage o lt (structured O)).con c) := by
  unfold implicitStage
  split
  · have f := extractImplicitEqualities_facts (fun v => ((structured O).var v).sense)
      (implicitCandidates lt (structured O)) (fresh (structured O).conIds) (structured O) (fun c hc => p.terms c hc)
      (fun c hc => (mem_implicitCandidates hc).1) (lt_fresh _) p.conIds
    obtain ⟨_, _, _, _, _, _, _, f8, f9⟩ := f
    intro c hc
    rcases f9 c hc with k | ⟨i, hi, k⟩
    · obtain ⟨_, ⟨e, he⟩, _⟩ := f8 c k
      rw [he]; exact plain_enabled (h c k) e
    · rw [k]; exact plain_setup _ _ _ (h i hi).2.2
  · exact h

/-- What is known of the model after the transformation. -/
structure Prepared (O m : MState) (sels : List ℕ) : Prop where
  conIds : m.conIds.Nodup
  varIds : m.varIds = O.varIds
  obj : m.obj = O.obj
  isMin : m.isMin = O.isMin
  objDefined : m.objDefined = O.objDefined
  uexpr : m.uexpr = O.uexpr
  uexprIds : m.uexprIds = O.uexprIds
  dependents : m.dependents = O.dependents
  terms : ∀ c ∈ m.conIds, ∃ i ∈ O.conIds, (m.con c).expr.terms = (O.con i).expr.terms
  plain : ∀ c ∈ m.conIds, Plain (m.con c)
  bin : ∀ c ∈ m.conIds, (m.con c).onlyBinaryVar = true → ∀ v ∈ (m.con c).expr.vars, (O.var v).sense = .binary
  range : ∀ v ∈ m.varIds, (m.var v).lb ≤ (m.var v).ub
  kinds : ∀ v ∈ m.varIds, ((m.var v).sense = .binary ∧ 0 ≤ (m.var v).lb ∧ (m.var v).ub ≤ 1) ∨
    (m.var v).sense = .integer ∨
    (((m.var v).sense = .selection ∧ 0 ≤ (m.var v).lb ∧ (m.var v).ub ≤ 1) ∧ ∃ s ∈ sels, v ∈ (m.con s).expr.vars)
  narrow : ∀ v, (m.var v).fixed = false → (O.var v).fixed = false ∧ (O.var v).lb ≤ (m.var v).lb ∧ (m.var v).ub ≤ (O.var v).ub
  ne : ∀ v ∈ m.varIds, (m.var v).fixed = false → (m.var v).lb ≠ (m.var v).ub
  selsNodup : sels.Nodup
  selsIn : ∀ s ∈ sels, s ∈ m.conIds
  apart : ∀ s ∈ sels, ∀ t ∈ sels, s ≠ t → ∀ v ∈ (m.con s).expr.vars, v ∉ (m.con t).expr.vars
  selSense : ∀ s ∈ sels, ∀ v ∈ (m.con s).expr.vars, (m.var v).sense = .selection
  sound : ∀ σ, FeasibleWith sels m σ → Feasible O σ
  complete : ∀ σ, Feasible O σ → ∃ τ, FeasibleWith sels m τ ∧ minObjective O τ ≤ minObjective O σ
  holds : ∀ σ, Feasible O σ → ∀ c ∈ m.conIds, (m.con c).enabled = true → Holds (m.con c) σ

theorem reduced_holds (o : Options) (lt : ℕ → ℕ → Bool) (O m : MState) (p : Proper o O)
    (s : Shrunk (Tame O) (implicitStage o lt (structured O)) m) (σ : ℕ → ℤ) (h : Feasible O σ) :
    ∀ c ∈ m.conIds, (m.con c).enabled = true → Holds (m.con c) σ := by
  intro c hc he
  have hI := ((implicitStage_facts o lt O p).2.2.2.1 σ).1 h
  rcases s.off c with e | e
  · rw [e] at he ⊢; exact hI.2 c (by rw [← s.conIds]; exact hc) he
  · rw [e] at he; exact absurd he (by simp)

theorem prepared (o : Options) (lt : ℕ → ℕ → Bool) (user : ℕ → Bool) (O m : MState) (p : Ordinary o O)
    (hf : ∃ σ, Feasible O σ) (h : prepare o lt user O = some (.ok m)) : Prepared O m (selections o lt user O) := by
  obtain ⟨m1, h1, h2, g⟩ := reduce_facts o lt O p.toProper hf
  obtain ⟨k0, k1, hne⟩ := reduce_shrunk (tame_closed O) o lt O m1 p.toProper hf p.presolve h1
  have k := k0.trans k1.toKept
  obtain ⟨m', h3, _, h5, h6, _⟩ := C67.preparation_keeps_optimum_partial o lt user O p.toProper hf
  have e : m' = m := by
    rw [h] at h3; simp only [Option.some.injEq, Outcome.ok.injEq] at h3; exact h3.symm
  subst e
  have tame := k.vars (tame_start p)
  have fr := k.frame
  have hpl : ∀ c ∈ m1.conIds, Plain (m1.con c) := by
    intro c hc
    have := implicit_plain o lt O p.toProper (fun c hc => ⟨p.maxLe c hc, p.maxEq c hc, p.const c hc⟩) c
      (by rw [← k1.conIds]; exact hc)
    rcases k1.off c with e | e
    · rw [e]; exact this
    · rw [e]; exact plain_enabled this _
  unfold prepare at h
  rw [h1] at h
  simp only [andThen] at h
  have hsel : selections o lt user O = if o.selection ≠ .off ∧ m1.varIds.length > m1.conIds.length then
      SelectionExtract.chosen lt user o.selection m1 else [] := by
    unfold selections; rw [h1]
  rw [hsel] at h5 h6 ⊢
  by_cases hs : o.selection ≠ .off ∧ m1.varIds.length > m1.conIds.length
  · rw [if_pos hs] at h h5 h6 ⊢
    simp only [Option.some.injEq, Outcome.ok.injEq] at h
    obtain ⟨e1, e2, e3⟩ := C30.extraction_effect lt user o.selection m1 g.conIds
    obtain ⟨q1, q2, q3⟩ := C30.selections_do_not_overlap lt user o.selection m1 g.conIds
    have hcon : ∀ c, m'.con c = if c ∈ SelectionExtract.chosen lt user o.selection m1 then
        { m1.con c with enabled := false } else m1.con c := by rw [← h]; exact e1
    have hexpr : ∀ c, (m'.con c).expr = (m1.con c).expr := by intro c; rw [hcon]; split <;> rfl
    have hids : m'.conIds = m1.conIds := by rw [← h]; rfl
    have hvids : m'.varIds = O.varIds := by rw [← g.varIds.trans (show _ = O.varIds from rfl), ← h]; rfl
    have hvar : ∀ v, (m'.var v = m1.var v ∧ ∀ c ∈ SelectionExtract.chosen lt user o.selection m1, v ∉ (m1.con c).expr.vars) ∨
        ∃ c ∈ SelectionExtract.chosen lt user o.selection m1, v ∈ (m1.con c).expr.vars ∧
          m'.var v = { m1.var v with selection := some c, sense := .selection } := by
      intro v
      by_cases hv : ∃ c ∈ SelectionExtract.chosen lt user o.selection m1, v ∈ (m1.con c).expr.vars
      · obtain ⟨c, hc, hvc⟩ := hv
        refine Or.inr ⟨c, hc, hvc, ?_⟩
        rw [← h]; exact e2 c hc v hvc
      · push Not at hv
        refine Or.inl ⟨?_, hv⟩
        rw [← h]; exact e3 v hv
    have hsame : ∀ v, (m'.var v).fixed = (m1.var v).fixed ∧ (m'.var v).lb = (m1.var v).lb ∧ (m'.var v).ub = (m1.var v).ub := by
      intro v
      rcases hvar v with ⟨e, _⟩ | ⟨c, _, _, e⟩ <;> rw [e] <;> exact ⟨rfl, rfl, rfl⟩
    have hframe : m'.obj = m1.obj ∧ m'.isMin = m1.isMin ∧ m'.objDefined = m1.objDefined ∧ m'.uexpr = m1.uexpr ∧
        m'.uexprIds = m1.uexprIds ∧ m'.dependents = m1.dependents := by
      rw [← h]; exact ⟨rfl, rfl, rfl, rfl, rfl, rfl⟩
    have hun : m1.uexpr = O.uexpr ∧ m1.uexprIds = O.uexprIds ∧ m1.dependents = O.dependents := by
      rw [fr]; exact ⟨rfl, rfl, rfl⟩
    exact
      { conIds := by rw [hids]; exact g.conIds
        varIds := hvids
        obj := hframe.1.trans g.obj
        isMin := hframe.2.1.trans g.isMin
        objDefined := hframe.2.2.1.trans g.objDefined
        uexpr := hframe.2.2.2.1.trans hun.1
        uexprIds := hframe.2.2.2.2.1.trans hun.2.1
        dependents := hframe.2.2.2.2.2.trans hun.2.2
        terms := fun c hc => by rw [hexpr]; exact g.terms c (by rw [← hids]; exact hc)
        plain := fun c hc => by
          rw [hcon]; split
          · exact plain_enabled (hpl c (by rw [← hids]; exact hc)) _
          · exact hpl c (by rw [← hids]; exact hc)
        bin := fun c hc hb v hv => by
          rw [hexpr] at hv
          have : (m1.con c).onlyBinaryVar = true := by rw [hcon] at hb; split at hb <;> exact hb
          exact g.bin c (by rw [← hids]; exact hc) this v hv
        range := fun v hv => by
          rw [hvids] at hv
          rw [(hsame v).2.1, (hsame v).2.2]; exact ((tame v).1 hv).1
        kinds := fun v hv => by
          rw [hvids] at hv
          have tv := ((tame v).1 hv)
          rcases hvar v with ⟨e, _⟩ | ⟨c, hc, hvc, e⟩
          · rw [e]
            rcases tv.2 with t | t
            · exact Or.inr (Or.inl t)
            · exact Or.inl t
          · refine Or.inr (Or.inr ⟨?_, c, hc, by rw [hexpr]; exact hvc⟩)
            rw [e]
            have hb := (q2 c hc).2.2 v hvc
            rcases tv.2 with t | t
            · rw [hb] at t; exact absurd t (by decide)
            · exact ⟨rfl, t.2⟩
        narrow := fun v hv => by
          rw [(hsame v).1] at hv
          rw [(hsame v).2.1, (hsame v).2.2]; exact (tame v).2 hv
        ne := fun v hv hfx => by
          rw [(hsame v).1] at hfx
          rw [(hsame v).2.1, (hsame v).2.2]
          exact hne v (by rw [← hvids]; exact hv) hfx
        selsNodup := q1
        selsIn := fun s hsm => by rw [hids]; exact (q2 s hsm).1
        apart := fun s hsm t ht hst v hv => by
          rw [hexpr] at hv ⊢; exact q3 s hsm t ht hst v hv
        selSense := fun s hsm v hv => by
          rw [hexpr] at hv
          have : m'.var v = { m1.var v with selection := some s, sense := .selection } := by
            rw [← h]; exact e2 s hsm v hv
          rw [this]
        sound := h5
        complete := h6
        holds := fun σ hσ c hc he => by
          have := reduced_holds o lt O m1 p.toProper k1 σ hσ c (by rw [← hids]; exact hc)
          rw [hcon] at he ⊢
          split at he
          · exact absurd he (by simp)
          · rename_i hn
            rw [if_neg hn]; exact this he }
  · rw [if_neg hs] at h h5 h6 ⊢
    simp only [Option.some.injEq, Outcome.ok.injEq] at h
    have hcon : m'.con = m1.con := by rw [← h]; rfl
    have hvar : m'.var = m1.var := by rw [← h]; rfl
    have hids : m'.conIds = m1.conIds := by rw [← h]; rfl
    have hvids : m'.varIds = O.varIds := by rw [← g.varIds.trans (show _ = O.varIds from rfl), ← h]; rfl
    have hframe : m'.obj = m1.obj ∧ m'.isMin = m1.isMin ∧ m'.objDefined = m1.objDefined ∧ m'.uexpr = m1.uexpr ∧
        m'.uexprIds = m1.uexprIds ∧ m'.dependents = m1.dependents := by
      rw [← h]; exact ⟨rfl, rfl, rfl, rfl, rfl, rfl⟩
    have hun : m1.uexpr = O.uexpr ∧ m1.uexprIds = O.uexprIds ∧ m1.dependents = O.dependents := by
      rw [fr]; exact ⟨rfl, rfl, rfl⟩
    exact
      { conIds := by rw [hids]; exact g.conIds
        varIds := hvids
        obj := hframe.1.trans g.obj
        isMin := hframe.2.1.trans g.isMin
        objDefined := hframe.2.2.1.trans g.objDefined
        uexpr := hframe.2.2.2.1.trans hun.1
        uexprIds := hframe.2.2.2.2.1.trans hun.2.1
        dependents := hframe.2.2.2.2.2.trans hun.2.2
        terms := fun c hc => by rw [hcon]; exact g.terms c (by rw [← hids]; exact hc)
        plain := fun c hc => by rw [hcon]; exact hpl c (by rw [← hids]; exact hc)
        bin := fun c hc => by rw [hcon]; exact g.bin c (by rw [← hids]; exact hc)
        range := fun v hv => by rw [hvids] at hv; rw [hvar]; exact ((tame v).1 hv).1
        kinds := fun v hv => by
          rw [hvids] at hv
          rw [hvar]
          rcases ((tame v).1 hv).2 with t | t
          · exact Or.inr (Or.inl t)
          · exact Or.inl t
        narrow := fun v => by rw [hvar]; exact (tame v).2
        ne := fun v hv => by rw [hvar]; exact hne v (by rw [← hvids]; exact hv)
        selsNodup := List.nodup_nil
        selsIn := by simp
        apart := by simp
        selSense := by simp
        sound := h5
        complete := h6
        holds := fun σ hσ c hc => by
          rw [hcon]; exact reduced_holds o lt O m1 p.toProper k1 σ hσ c (by rw [← hids]; exact hc) }

end Printemps.Whole
