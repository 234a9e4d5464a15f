import Verif.Lemmas.Solution
import Verif.Props.C51

/-! # C48 — solutions survive export and import -/

namespace Printemps.C48
open Spec Sol

/-- The same model, possibly at other values: same variables, bounds, fixings and constraints; fixed variables
have the same values. -/
structure SameModel (m m' : MState) : Prop where
  varIds : m'.varIds = m.varIds
  con : ∀ c, (m'.con c).expr.vars = (m.con c).expr.vars
  fixed : ∀ v, (m'.var v).fixed = (m.var v).fixed
  fixedValue : ∀ v, (m.var v).fixed = true → (m'.var v).value = (m.var v).value
  lb : ∀ v, (m'.var v).lb = (m.var v).lb
  ub : ∀ v, (m'.var v).ub = (m.var v).ub
  sense : ∀ v, (m'.var v).sense = (m.var v).sense

/-- Values that a search can produce: one variable per selection is 1 and the others 0, 0/1 variables are 0 or
1, integer variables are inside their bounds. -/
structure GoodValues (sels : List ℕ) (m : MState) : Prop where
  oneHot : ∀ s ∈ sels, (∀ v ∈ (m.con s).expr.vars, (m.var v).value = 0 ∨ (m.var v).value = 1) ∧
      ((m.con s).expr.vars.filter (fun v => (m.var v).value = 1)).length = 1
  binary : ∀ v ∈ m.varIds, (m.var v).sense = .binary → (m.var v).value = 0 ∨ (m.var v).value = 1
  integer : ∀ v ∈ m.varIds, (m.var v).sense = .integer → (m.var v).lb ≤ (m.var v).value ∧ (m.var v).value ≤ (m.var v).ub
  listed : ∀ s ∈ sels, ∀ v ∈ (m.con s).expr.vars, v ∈ m.varIds

/-- Distinct names. -/
def Distinct (name : ℕ → String) (m : MState) : Prop := ∀ v ∈ m.varIds, ∀ w ∈ m.varIds, name v = name w → v = w

/-- A state of the same model with the values of `m` on the listed variables is accepted by the checks of the
import and not changed by them. -/
theorem check_accepts (sels : List ℕ) (m m' : MState) (hs : SameModel m m') (hr : C51.Ready sels m')
    (hg : GoodValues sels m) (var : ℕ → Var)
    (hvar : ∀ v, (var v).sense = (m'.var v).sense ∧ (var v).lb = (m'.var v).lb ∧ (var v).ub = (m'.var v).ub)
    (hval : ∀ v ∈ m.varIds, (var v).value = (m.var v).value) :
    ∃ m'', Verifier.verifyAll false sels { m' with var := var } = some m'' ∧ m''.var = var := by
  refine C51.good_values_are_accepted false sels { m' with var := var } ?_ ?_ ?_ ?_
  · refine ⟨hr.nodup, hr.varNodup, hr.once, hr.apart, ?_, ?_, ?_⟩
    · intro s hs' v hv; show (var v).sense = _; rw [(hvar v).1]; exact hr.sense s hs' v hv
    · intro v hv hb
      have hb' : (m'.var v).sense = .binary := by rw [← (hvar v).1]; exact hb
      show 0 ≤ (var v).lb ∧ (var v).lb ≤ (var v).ub ∧ (var v).ub ≤ 1
      rw [(hvar v).2.1, (hvar v).2.2]; exact hr.binary v hv hb'
    · intro v hv hb
      have hb' : (m'.var v).sense = .integer := by rw [← (hvar v).1]; exact hb
      show (var v).lb ≤ (var v).ub
      rw [(hvar v).2.1, (hvar v).2.2]; exact hr.integer v hv hb'
  · intro s hs'
    show (∀ v ∈ (m'.con s).expr.vars, (var v).value = 0 ∨ (var v).value = 1) ∧
      ((m'.con s).expr.vars.filter (fun v => (var v).value = 1)).length = 1
    rw [hs.con]
    have hl := hg.listed s hs'
    refine ⟨fun v hv => by rw [hval v (hl v hv)]; exact (hg.oneHot s hs').1 v hv, ?_⟩
    rw [List.filter_congr (fun v hv => by rw [hval v (hl v hv)])]
    exact (hg.oneHot s hs').2
  · intro v hv hb
    have hv' : v ∈ m.varIds := by rw [← hs.varIds]; exact hv
    show (var v).value = 0 ∨ (var v).value = 1
    rw [hval v hv']
    refine hg.binary v hv' ?_
    rw [← hs.sense, ← (hvar v).1]; exact hb
  · intro v hv hb
    have hv' : v ∈ m.varIds := by rw [← hs.varIds]; exact hv
    show (var v).lb ≤ (var v).value ∧ (var v).value ≤ (var v).ub
    rw [hval v hv', (hvar v).2.1, (hvar v).2.2, hs.lb, hs.ub]
    refine hg.integer v hv' ?_
    rw [← hs.sense, ← (hvar v).1]; exact hb

/-- What a sparse export says about each variable: its value, 0 when it is not mentioned; zero values are not
stored and no other names occur. -/
theorem sparse_export_content (name : ℕ → String) (m : MState) (hd : Distinct name m) :
    (∀ v ∈ m.varIds, ((exportSparse name m).entries.get (name v)).getD 0 = (m.var v).value) ∧
    (∀ v ∈ m.varIds, (m.var v).value = 0 → (exportSparse name m).entries.get (name v) = none) ∧
    (∀ k, (∀ v ∈ m.varIds, name v ≠ k) → (exportSparse name m).entries.get k = none) ∧
    ((exportSparse name m).entries.map Prod.fst).Nodup := by
  obtain ⟨h1, h2⟩ := sparseVars_get name m.vals m.varIds hd
  refine ⟨fun v hv => ?_, fun v hv h0 => ?_, h2, sparseVars_nodup _ _ _⟩
  · show ((sparseVars name m.vals m.varIds).get (name v)).getD 0 = _
    rw [h1 v hv]
    by_cases h : m.vals v ≠ 0
    · rw [if_pos h]; rfl
    · rw [if_neg h]; exact (not_not.1 h).symm
  · show (sparseVars name m.vals m.varIds).get (name v) = none
    rw [h1 v hv, if_neg (fun h => h h0)]

/-- Sparse export and import: every variable gets back its value. -/
theorem sparse_roundtrip (name : ℕ → String) (sels : List ℕ) (m m' : MState) (hd : Distinct name m)
    (hs : SameModel m m') (hr : C51.Ready sels m') (hg : GoodValues sels m) :
    ∃ m'', importSparse name sels (exportSparse name m) m' = some m'' ∧
      (∀ v ∈ m.varIds, (m''.var v).value = (m.var v).value) ∧
      ∀ v, v ∉ m.varIds → m''.var v = m'.var v := by
  obtain ⟨hc, -⟩ := sparse_export_content name m hd
  unfold importSparse
  rw [assignAll_eq name _ m'.varIds hr.varNodup m', Option.bind_some]
  · obtain ⟨m'', h1, h2⟩ := check_accepts sels m m' hs hr hg
      (fun v => if v ∈ m'.varIds then { m'.var v with value := ((exportSparse name m).entries.get (name v)).getD 0 }.updateMargin
        else m'.var v)
      (fun v => by dsimp only; split <;> exact ⟨rfl, rfl, rfl⟩)
      (fun v hv => by
        dsimp only
        rw [if_pos (by rw [hs.varIds]; exact hv)]
        exact hc v hv)
    refine ⟨m'', h1, fun v hv => ?_, fun v hv => ?_⟩
    · rw [h2]
      dsimp only
      rw [if_pos (by rw [hs.varIds]; exact hv)]
      exact hc v hv
    · rw [h2]
      dsimp only
      rw [if_neg (by rw [hs.varIds]; exact hv)]
  · intro v hv hf
    rw [hs.varIds] at hv
    rw [hs.fixed] at hf
    rw [hc v hv, hs.fixedValue v hf]

/-- Dense export and import: every variable gets back its value. -/
theorem dense_roundtrip (sels : List ℕ) (m m' : MState) (hs : SameModel m m') (hr : C51.Ready sels m')
    (hg : GoodValues sels m) :
    ∃ m'', importDense sels (exportDense m) m' = some m'' ∧
      (∀ v ∈ m.varIds, (m''.var v).value = (m.var v).value) ∧
      ∀ v, v ∉ m.varIds → m''.var v = m'.var v := by
  have hset : ∀ v, ((m'.var v).setValueIfMutable (m.vals v)).value = (m.var v).value := by
    intro v
    unfold Var.setValueIfMutable
    split
    · next hf => rw [hs.fixed] at hf; exact hs.fixedValue v hf
    · rfl
  unfold importDense
  obtain ⟨m'', h1, h2⟩ := check_accepts sels m m' hs hr hg
    (fun v => if v ∈ m'.varIds then (m'.var v).setValueIfMutable ((exportDense m).values v) else m'.var v)
    (fun v => by
      split
      · unfold Var.setValueIfMutable; split <;> exact ⟨rfl, rfl, rfl⟩
      · exact ⟨rfl, rfl, rfl⟩)
    (fun v hv => by
      rw [if_pos (by rw [hs.varIds]; exact hv)]
      exact hset v)
  refine ⟨m'', h1, fun v hv => ?_, fun v hv => ?_⟩
  · rw [h2]
    beta_reduce
    rw [if_pos (by rw [hs.varIds]; exact hv)]
    exact hset v
  · rw [h2]
    beta_reduce
    rw [if_neg (by rw [hs.varIds]; exact hv)]

/-- The import from a map (no checks): it throws exactly when a fixed variable would change, and otherwise sets
every variable to its entry, or to 0. -/
theorem map_import (name : ℕ → String) (s : StrMap ℤ) (m : MState) (hn : m.varIds.Nodup) :
    (importMap name s m = none ↔ ∃ v ∈ m.varIds, (m.var v).fixed = true ∧ (m.var v).value ≠ (s.get (name v)).getD 0) ∧
    ∀ m', importMap name s m = some m' → ∀ v,
      (m'.var v).value = if v ∈ m.varIds then (s.get (name v)).getD 0 else (m.var v).value := by
  unfold importMap
  by_cases h : ∃ v ∈ m.varIds, (m.var v).fixed = true ∧ (m.var v).value ≠ (s.get (name v)).getD 0
  · obtain ⟨v, hv, h1, h2⟩ := h
    have := assignAll_none name s m.varIds hn m v hv h1 h2
    exact ⟨⟨fun _ => ⟨v, hv, h1, h2⟩, fun _ => this⟩, fun m' hm' => (by rw [this] at hm'; cases hm')⟩
  · have := assignAll_eq name s m.varIds hn m (fun v hv hf => by
      by_contra hc
      exact h ⟨v, hv, hf, hc⟩)
    refine ⟨⟨fun hc => (by rw [this] at hc; cases hc), fun hc => absurd hc h⟩, fun m' hm' v => ?_⟩
    rw [this] at hm'
    cases hm'
    dsimp only
    split <;> rfl

/-- A sparse export and the conversion of a dense export are the same solution. -/
theorem to_sparse_agrees (name : ℕ → String) (m : MState) :
    (exportDense m).toSparse name m.varIds = exportSparse name m := rfl

/-- Equal names lose values: the second variable overwrites the first. -/
theorem equal_names_lose_values : ∃ (name : ℕ → String) (m : MState), 0 ∈ m.varIds ∧ (m.var 0).value = 1 ∧
    (importSparse name [] (exportSparse name m) m).map (fun r => (r.var 0).value) = some 2 :=
  ⟨fun _ => "x", { Example.model with
    var := fun v => { Example.int5 with value := if v = 0 then 1 else 2 }.updateMargin, varIds := [0, 1] }, by decide +kernel⟩

/-! Non-vacuity: the example model with values 1, 0, 3 and the same model at zero. -/
private def full : MState := { Example.model with
  var := fun v => { Example.int5 with value := if v = 0 then 1 else if v = 2 then 3 else 0 }.updateMargin, varIds := [0, 1, 2] }
private def zero : MState := { Example.model with var := fun _ => { Example.int5 with value := 0 }.updateMargin, varIds := [0, 1, 2] }

example : Distinct (fun v => if v = 0 then "a" else if v = 1 then "b" else "c") full := by unfold Distinct; decide +kernel
example : SameModel full zero := by
  refine ⟨rfl, fun _ => rfl, ?_, ?_, ?_, ?_, ?_⟩ <;> intro v <;> simp [full, zero, Var.updateMargin, Example.int5, Var.init]
example : C51.Ready [] zero :=
  ⟨by decide, by decide, by simp, by simp, by simp, by decide +kernel, by decide +kernel⟩
example : GoodValues [] full := ⟨by simp, by decide +kernel, by decide +kernel, by simp⟩
example : (exportSparse (fun v => if v = 0 then "a" else if v = 1 then "b" else "c") full).entries = [("a", 1), ("c", 3)] := by
  decide +kernel

end Printemps.C48
