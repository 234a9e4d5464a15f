import Verif.Props.C88
import Verif.Props.C76
import Verif.Spec.Told

/-! # C89: from the program to the report

A program states a problem (C88) and the solver is called on the model it has built (C76).  Together: the reported values,
read by array and index, are judged rightly by what the program states. -/

namespace Printemps.C89
open Spec Stated Program MultiArray Proxy C88

/-- Variables of a model being built. -/
structure VarOK (w : Var) : Prop where
  range : w.lb ≤ w.ub
  kind : w.sense = .integer ∨ (w.sense = .binary ∧ 0 ≤ w.lb ∧ w.ub ≤ 1)
  ptr : w.selection = none

/-- Constraints of a model being built. -/
structure ConOK (n : ℕ) (mem : VarId → Var) (c : Con) : Prop where
  uses : Uses n c.expr
  coef : c.onlyBinaryCoef = true → ∀ t ∈ c.expr.terms, t.2 = 1
  var : c.onlyBinaryVar = true → ∀ v ∈ c.expr.vars, (mem v).sense = .binary
  maxLe : ∀ t ∈ c.expr.terms, |t.2| ≤ c.maxAbs
  maxEq : c.maxAbs = 0 ∨ ∃ t ∈ c.expr.terms, c.maxAbs = |t.2|

structure Built (s : St) : Prop where
  var : ∀ v, VarOK (s.mem v)
  con : ∀ a ∈ s.cons, ∀ i, ConOK s.next s.mem (a.con i)

/-- No constraint has been stated yet. -/
def NoFlags (s : St) : Prop := ∀ a ∈ s.cons, ∀ i, (a.con i).onlyBinaryVar = false

theorem varOK_init : VarOK Var.init := ⟨by decide, Or.inl rfl, rfl⟩

theorem varOK_setBound {w w' : Var} (h : VarOK w) {l u : ℤ} (e : w.setBound l u = some w') : VarOK w' := by
  unfold Var.setBound at e
  split at e
  · cases e
  · rename_i hlu
    simp only [Option.some.injEq] at e
    subst e
    have hp := h.ptr
    refine ⟨?_, ?_, ?_⟩
    · unfold Var.setupSense Var.updateMargin; split <;> (dsimp only; omega)
    · unfold Var.setupSense Var.updateMargin
      split
      · rename_i hb
        dsimp only at hb ⊢
        refine Or.inr ⟨rfl, ?_, ?_⟩ <;> omega
      · exact Or.inl rfl
    · unfold Var.setupSense Var.updateMargin; split <;> exact hp

theorem varOK_resetBound {w : Var} : VarOK w.resetBound := ⟨by show INT_HALF_MIN ≤ INT_HALF_MAX; decide, Or.inl rfl, rfl⟩

theorem varOK_setValue {w w' : Var} (h : VarOK w) {x : ℤ} (e : w.setValue x = some w') :
    VarOK w' ∧ w'.sense = w.sense := by
  unfold Var.setValue at e
  split at e
  · cases e
  · simp only [Option.some.injEq] at e
    subst e
    exact ⟨⟨h.range, h.kind, h.ptr⟩, rfl⟩

theorem setBoundLoop_ok (x : VarArray) (l u : ℤ) (ps : List ℕ) (mem mem' : VarId → Var) (h : ∀ v, VarOK (mem v))
    (e : x.setBoundLoop l u ps mem = .ok mem') : ∀ v, VarOK (mem' v) := by
  induction ps generalizing mem with
  | nil => cases e; exact h
  | cons i ps ih =>
    rw [VarArray.setBoundLoop] at e
    cases hb : (mem (x.var i)).setBound l u with
    | none => rw [hb] at e; cases e
    | some w =>
      rw [hb] at e
      refine ih _ ?_ e
      intro v
      show VarOK (if _ then _ else _)
      split
      · exact varOK_setBound (h _) hb
      · exact h v

theorem setBound_ok (x : VarArray) (l u : ℤ) (mem mem' : VarId → Var) (h : ∀ v, VarOK (mem v))
    (e : x.setBound l u mem = .ok mem') : ∀ v, VarOK (mem' v) := by
  unfold VarArray.setBound at e
  split at e
  · cases e
  · exact setBoundLoop_ok x l u _ mem mem' h e

theorem foldl_max (ts : List (VarId × ℚ)) (b : ℚ) :
    b ≤ ts.foldl (fun m t => max m |t.2|) b ∧ (∀ t ∈ ts, |t.2| ≤ ts.foldl (fun m t => max m |t.2|) b) ∧
    (ts.foldl (fun m t => max m |t.2|) b = b ∨ ∃ t ∈ ts, ts.foldl (fun m t => max m |t.2|) b = |t.2|) := by
  induction ts generalizing b with
  | nil => exact ⟨le_rfl, by simp, Or.inl rfl⟩
  | cons x ts ih =>
    obtain ⟨h1, h2, h3⟩ := ih (max b |x.2|)
    rw [List.foldl_cons]
    refine ⟨le_trans (le_max_left _ _) h1, ?_, ?_⟩
    · intro t ht
      rcases List.mem_cons.1 ht with rfl | ht
      · exact le_trans (le_max_right _ _) h1
      · exact h2 t ht
    · rcases h3 with h3 | ⟨t, ht, h3⟩
      · rcases le_total b |x.2| with hb | hb
        · right; exact ⟨x, List.mem_cons_self, by rw [h3, max_eq_right hb]⟩
        · left; rw [h3, max_eq_left hb]
      · right; exact ⟨t, List.mem_cons_of_mem _ ht, h3⟩

theorem conOK_setup {n : ℕ} {mem : VarId → Var} (hv : ∀ v, VarOK (mem v)) {e : Expr} (hu : Uses n e) (c : Sense) :
    ConOK n mem (Con.setup e c (fun v => (mem v).sense)) where
  uses := by rw [(setup_expr e c _).1]; exact hu
  coef := by
    intro h t ht
    have h' : e.terms.all (fun t => decide (t.2 = 1)) = true := h
    exact of_decide_eq_true (List.all_eq_true.1 h' t ht)
  var := by
    intro h v hv'
    have h' : e.terms.all (fun t => (mem t.1).sense == .binary || (mem t.1).sense == .selection) = true := h
    obtain ⟨t, ht, rfl⟩ := List.mem_map.1 hv'
    have := List.all_eq_true.1 h' t ht
    rcases (hv t.1).kind with k | k
    · rw [k] at this; cases this
    · exact k.1
  maxLe := (foldl_max e.terms 0).2.1
  maxEq := (foldl_max e.terms 0).2.2

theorem bind_ok {α β : Type} {o : Outcome α} {f : α → Outcome β} {b : β} (h : o.bind f = .ok b) :
    ∃ a, o = .ok a ∧ f a = .ok b := by
  cases o with
  | ok a => exact ⟨a, rfl, h⟩
  | thrown => cases h
  | undefined => cases h

theorem admit_inv {α : Type} {l : List α} {name : Names.Name} {x : Outcome St} {s : St} (h : admit l name x = .ok s) :
    x = .ok s := by
  unfold admit at h
  split at h
  · cases h
  · split at h
    · cases h
    · exact h

theorem conOK_blank (n : ℕ) (mem : VarId → Var) : ConOK n mem blank where
  uses := uses_empty n
  coef := by intro h; cases h
  var := by intro h; cases h
  maxLe := by intro t ht; cases ht
  maxEq := Or.inl rfl

theorem ConOK.switch {n : ℕ} {mem : VarId → Var} {c : Con} (h : ConOK n mem c) (on : Bool) :
    ConOK n mem { c with enabled := on } := ⟨h.uses, h.coef, h.var, h.maxLe, h.maxEq⟩

theorem ConOK.sense {n n' : ℕ} (hn : n ≤ n') {mem mem' : VarId → Var} {c : Con} (h : ConOK n mem c)
    (hm : ∀ v, v < n → (mem' v).sense = (mem v).sense) : ConOK n' mem' c :=
  ⟨uses_mono hn h.uses, h.coef, fun hb v hv => by rw [hm v (h.uses v hv)]; exact h.var hb v hv, h.maxLe, h.maxEq⟩

theorem ConOK.unflagged {n : ℕ} {mem mem' : VarId → Var} {c : Con} (h : ConOK n mem c) (hf : c.onlyBinaryVar = false) :
    ConOK n mem' c := ⟨h.uses, h.coef, fun hb => (by rw [hf] at hb; cases hb), h.maxLe, h.maxEq⟩

theorem built_exec {s s' : St} {m : Meaning} (hr : Rep s m) (x : Stmt) (hx : StmtOK m x) (hb : Built s)
    (hc : changesBounds x = true → NoFlags s) (e : exec s x = .ok s') :
    Built s' ∧ (statesConstraint x = false → NoFlags s → NoFlags s') := by
  have same : ∀ s' : St, s'.mem = s.mem → s'.cons = s.cons → s'.next = s.next →
      Built s' ∧ (statesConstraint x = false → NoFlags s → NoFlags s') := by
    intro s' h1 h2 h3
    refine ⟨⟨by rw [h1]; exact hb.var, by rw [h1, h2, h3]; exact hb.con⟩, fun _ h => ?_⟩
    unfold NoFlags; rw [h2]; exact h
  have memory : ∀ s' : St, (∀ v, VarOK (s'.mem v)) → s'.cons = s.cons → s'.next = s.next → NoFlags s →
      Built s' ∧ (statesConstraint x = false → NoFlags s → NoFlags s') := by
    intro s' h1 h2 h3 h4
    refine ⟨⟨h1, ?_⟩, fun _ h => ?_⟩
    · rw [h2, h3]
      exact fun a ha i => (hb.con a ha i).unflagged (h4 a ha i)
    · unfold NoFlags; rw [h2]; exact h
  cases x with
  | variables_ name shape range =>
    rw [exec] at e
    have e := admit_inv e
    cases range with
    | none =>
      simp only [Outcome.ok.injEq] at e
      subst e
      refine ⟨⟨hb.var, ?_⟩, fun _ h => h⟩
      exact fun a ha i => (hb.con a ha i).sense (Nat.le_add_right _ _) (fun _ _ => rfl)
    | some p =>
      obtain ⟨l, u⟩ := p
      obtain ⟨mem, e1, e2⟩ := bind_ok e
      simp only [Outcome.ok.injEq] at e2
      subst e2
      obtain ⟨_, _, h3⟩ := hx
      obtain ⟨mem', g1, g2, g3⟩ := setBound_array ⟨name, shape, s.next⟩ l u (h3 _ rfl) s.mem
      rw [g1] at e1
      obtain rfl : mem' = mem := by injection e1
      refine ⟨⟨setBound_ok _ _ _ _ _ hb.var g1, ?_⟩, fun _ h => h⟩
      refine fun a ha i => (hb.con a ha i).sense (Nat.le_add_right _ _) (fun v hv => ?_)
      have : mem' v = s.mem v := g3 v (fun i _ e => by
        have e' : v = s.next + i := e
        have hv' : v < s.next := hv
        rw [e'] at hv'
        exact absurd hv' (Nat.not_lt.2 (Nat.le_add_right _ _)))
      show (mem' v).sense = _
      rw [this]
  | expressions name shape =>
    rw [exec] at e
    have e := admit_inv e
    simp only [Outcome.ok.injEq] at e
    subst e
    exact same _ rfl rfl rfl
  | expressionOf name t =>
    rw [exec] at e
    obtain ⟨o, _, e⟩ := bind_ok e
    have e := admit_inv e
    simp only [Outcome.ok.injEq] at e
    subst e
    exact same _ rfl rfl rfl
  | constraints name shape =>
    rw [exec] at e
    have e := admit_inv e
    simp only [Outcome.ok.injEq] at e
    subst e
    refine ⟨⟨hb.var, ?_⟩, fun _ h => ?_⟩
    · intro a ha i
      rcases List.mem_append.1 ha with ha | ha
      · exact hb.con a ha i
      · simp only [List.mem_singleton] at ha
        subst ha
        exact conOK_blank _ _
    · intro a ha i
      rcases List.mem_append.1 ha with ha | ha
      · exact h a ha i
      · simp only [List.mem_singleton] at ha
        subst ha
        rfl
  | constraintOf name r =>
    obtain ⟨c, e1, g⟩ := relation_ok hr r hx.2
    rw [exec, e1] at e
    have e := admit_inv e
    simp only [Outcome.ok.injEq] at e
    subst e
    refine ⟨⟨hb.var, ?_⟩, fun h => by cases h⟩
    intro a ha i
    rcases List.mem_append.1 ha with ha | ha
    · exact hb.con a ha i
    · simp only [List.mem_singleton] at ha
      subst ha
      dsimp only [setAt]
      split
      · refine conOK_setup hb.var ?_ c.sense
        have := (g (fun _ => .integer)).uses
        rw [(setup_expr _ _ _).1] at this
        exact this
      · exact conOK_blank _ _
  | change k tgt op =>
    rw [exec] at e
    obtain ⟨a, _, e⟩ := bind_ok e
    obtain ⟨i, _, e⟩ := bind_ok e
    obtain ⟨y, _, e⟩ := bind_ok e
    simp only [Outcome.ok.injEq] at e
    subst e
    exact same _ rfl rfl rfl
  | demand k tgt r =>
    rw [exec] at e
    obtain ⟨a, ha, e⟩ := bind_ok e
    obtain ⟨c', e1, g⟩ := relation_ok hr r hx.2
    rw [e1] at e
    obtain ⟨c, hc', e⟩ := bind_ok e
    cases hc'
    obtain ⟨i, _, e⟩ := bind_ok e
    simp only [Outcome.ok.injEq] at e
    subst e
    refine ⟨⟨hb.var, ?_⟩, fun h => by cases h⟩
    have ham : a ∈ s.cons := by
      unfold pick at ha
      split at ha
      · rename_i b hb'; cases ha; exact List.mem_of_getElem? hb'
      · cases ha
    intro a' ha' j
    rcases List.mem_or_eq_of_mem_set ha' with ha' | rfl
    · exact hb.con a' ha' j
    · dsimp only [setAt]
      split
      · refine conOK_setup hb.var ?_ c'.sense
        have := (g (fun _ => .integer)).uses
        rw [(setup_expr _ _ _).1] at this
        exact this
      · exact hb.con a ham j
  | switch k tgt on =>
    have step : ∀ (a : ConBlock) (con : ℕ → Con), a ∈ s.cons → (∀ i, con i = a.con i ∨ con i = { a.con i with enabled := on }) →
        Built { s with cons := s.cons.set k { a with con := con } } ∧
        (statesConstraint (.switch k tgt on) = false → NoFlags s → NoFlags { s with cons := s.cons.set k { a with con := con } }) := by
      intro a con ha hcon
      refine ⟨⟨hb.var, ?_⟩, fun _ h => ?_⟩
      · intro a' ha' j
        rcases List.mem_or_eq_of_mem_set ha' with ha' | rfl
        · exact hb.con a' ha' j
        · rcases hcon j with q | q
          · show ConOK _ _ (con j); rw [q]; exact hb.con a ha j
          · show ConOK _ _ (con j); rw [q]; exact (hb.con a ha j).switch on
      · intro a' ha' j
        rcases List.mem_or_eq_of_mem_set ha' with ha' | rfl
        · exact h a' ha' j
        · rcases hcon j with q | q
          · show (con j).onlyBinaryVar = false; rw [q]; exact h a ha j
          · show (con j).onlyBinaryVar = false; rw [q]; exact h a ha j
    have hmem : ∀ {a : ConBlock}, pick s.cons k = .ok a → a ∈ s.cons := by
      intro a ha
      unfold pick at ha
      split at ha
      · rename_i b hb'; cases ha; exact List.mem_of_getElem? hb'
      · cases ha
    cases tgt with
    | whole =>
      rw [exec] at e
      obtain ⟨a, ha, e⟩ := bind_ok e
      simp only [Outcome.ok.injEq] at e
      subst e
      exact step a _ (hmem ha) (fun i => Or.inr rfl)
    | elem idx =>
      rw [exec] at e
      obtain ⟨a, ha, e⟩ := bind_ok e
      obtain ⟨i, _, e⟩ := bind_ok e
      simp only [Outcome.ok.injEq] at e
      subst e
      refine step a _ (hmem ha) (fun j => ?_)
      dsimp only [setAt]
      split
      · rename_i h; subst h; exact Or.inr rfl
      · exact Or.inl rfl
  | bounds k tgt l u =>
    cases tgt with
    | whole =>
      rw [exec] at e
      obtain ⟨a, _, e⟩ := bind_ok e
      obtain ⟨mem, e1, e⟩ := bind_ok e
      simp only [Outcome.ok.injEq] at e
      subst e
      exact memory _ (setBound_ok _ _ _ _ _ hb.var e1) rfl rfl (hc rfl)
    | elem idx =>
      rw [exec] at e
      obtain ⟨a, _, e⟩ := bind_ok e
      obtain ⟨v, _, e⟩ := bind_ok e
      obtain ⟨w, e1, e⟩ := bind_ok e
      simp only [Outcome.ok.injEq] at e
      subst e
      have e1' : (s.mem v).setBound l u = some w := by
        cases h : (s.mem v).setBound l u with
        | none => rw [h] at e1; cases e1
        | some w' => rw [h] at e1; cases e1; rfl
      refine memory _ (fun v' => ?_) rfl rfl (hc rfl)
      dsimp only [setAt]
      split
      · exact varOK_setBound (hb.var v) e1'
      · exact hb.var v'
  | unbound k tgt =>
    cases tgt with
    | whole =>
      rw [exec] at e
      obtain ⟨a, _, e⟩ := bind_ok e
      simp only [Outcome.ok.injEq] at e
      subst e
      refine memory _ (fun v' => ?_) rfl rfl (hc rfl)
      dsimp only
      split
      · exact varOK_resetBound
      · exact hb.var v'
    | elem idx =>
      rw [exec] at e
      obtain ⟨a, _, e⟩ := bind_ok e
      obtain ⟨v, _, e⟩ := bind_ok e
      simp only [Outcome.ok.injEq] at e
      subst e
      refine memory _ (fun v' => ?_) rfl rfl (hc rfl)
      dsimp only [setAt]
      split
      · exact varOK_resetBound
      · exact hb.var v'
  | start k tgt x =>
    rw [exec] at e
    obtain ⟨a, _, e⟩ := bind_ok e
    obtain ⟨i, _, e⟩ := bind_ok e
    obtain ⟨w, e1, e⟩ := bind_ok e
    simp only [Outcome.ok.injEq] at e
    subst e
    have e1' : (s.mem (a.base + i)).setValue x = some w := by
      cases h : (s.mem (a.base + i)).setValue x with
      | none => rw [h] at e1; cases e1
      | some w' => rw [h] at e1; cases e1; rfl
    obtain ⟨k1, k2⟩ := varOK_setValue (hb.var _) e1'
    refine ⟨⟨fun v' => ?_, ?_⟩, fun _ h => h⟩
    · dsimp only [setAt]
      split
      · exact k1
      · exact hb.var v'
    · refine fun c hc i' => (hb.con c hc i').sense le_rfl (fun v _ => ?_)
      dsimp only [setAt]
      split
      · rename_i h; rw [k2, h]
      · rfl
  | goal d t =>
    rw [exec] at e
    obtain ⟨o, _, e⟩ := bind_ok e
    simp only [Outcome.ok.injEq] at e
    subst e
    exact same _ rfl rfl rfl

theorem built_run (p : List Stmt) (s s' : St) (m : Meaning) (hr : Rep s m) (hp : ProgramOK m p) (hf : BoundsFirst p)
    (hb : Built s) (hn : (∃ y ∈ p, changesBounds y = true) → NoFlags s) (e : run s p = .ok s') : Built s' := by
  induction p generalizing s m with
  | nil => cases e; exact hb
  | cons x l ih =>
    rw [run] at e
    obtain ⟨s1, e1, e2⟩ := bind_ok e
    obtain ⟨s1', e1', r1⟩ := exec_ok hr x hp.1
    rw [e1'] at e1
    cases e1
    obtain ⟨b1, n1⟩ := built_exec hr x hp.1 hb (fun h => hn ⟨x, List.mem_cons_self, h⟩) e1'
    refine ih s1 _ r1 hp.2 hf.2 b1 ?_ e2
    rintro ⟨y, hy, hcb⟩
    cases hst : statesConstraint x with
    | true => rw [hf.1 hst y hy] at hcb; cases hcb
    | false => exact n1 hst (hn ⟨y, List.mem_cons_of_mem _ hy, hcb⟩)

theorem built_empty : Built {} := ⟨fun _ => varOK_init, by intro a ha; cases ha⟩

/-- A model built by a program is one of those a whole call is proved correct for, if it meets the real restrictions. -/
theorem ordinary {s : St} {m : Meaning} (hr : Rep s m) (hb : Built s) (o : Setup.Options) (h : Restricted o (model s)) :
    Ordinary o (model s) ∧ C76.Unselected (model s) := by
  have hvar : ∀ v, v < s.next → (model s).var v = s.mem v := fun v hv => if_pos hv
  have hfix : ∀ v, v < s.next → (s.mem v).fixed = false := by
    intro v hv
    obtain ⟨k, a, ha, i, hi, rfl⟩ := laid_cover _ _ _ hr.laid v (Nat.zero_le _) hv
    obtain ⟨h1, h2⟩ := shape_of_lookup _ _ _ hr.vshapes k a ha
    obtain ⟨r1, r2⟩ := multi_mem (h2 ▸ hr.vne _ (shapeOf_mem _ _ h1)) hi
    have := (hr.range k a ha _ r1).2.2
    rwa [r2] at this
  have hcon : ∀ c ∈ (model s).conIds, ConOK s.next s.mem ((model s).con c) := by
    rw [forall_con s (fun c => ConOK s.next s.mem c)]
    intro c hc
    obtain ⟨k, a, ha, i, _, rfl⟩ := (mem_conList s c).1 hc
    exact hb.con a (List.mem_of_getElem? ha) i
  have hwf : ∀ c ∈ (model s).conIds, ((model s).con c).expr.WF := by
    rw [forall_con s (fun c => c.expr.WF)]
    intro c hc
    obtain ⟨k, a, ha, i, hi, rfl⟩ := (mem_conList s c).1 hc
    obtain ⟨h1, h2⟩ := shape_of_lookup _ _ _ hr.cshapes k a ha
    obtain ⟨r1, r2⟩ := multi_mem (h2 ▸ hr.cne _ (shapeOf_mem _ _ h1)) hi
    have := (hr.con k a ha _ r1).1.wf
    rwa [r2] at this
  have hin : ∀ c ∈ (model s).conIds, ∀ v ∈ ((model s).con c).expr.vars, v < s.next := fun c hc => (hcon c hc).uses
  have huex : ∀ i ∈ (model s).uexprIds, (((model s).uexpr i).expr.terms.map Prod.fst).Nodup := by
    intro i hi
    have hi' : i < (exprList s).length := List.mem_range.1 hi
    have e : ((model s).uexpr i).expr = (exprList s)[i] := by
      show ((exprList s)[i]?).getD _ = _
      rw [List.getElem?_eq_getElem hi']; rfl
    rw [e]
    have hm := List.getElem_mem hi'
    generalize (exprList s)[i] = x at hm
    unfold exprList at hm
    simp only [List.mem_flatMap, List.mem_map, List.mem_range] at hm
    obtain ⟨a, ha, j, hj, rfl⟩ := hm
    obtain ⟨k, hk⟩ := List.getElem?_of_mem ha
    obtain ⟨h1, h2⟩ := shape_of_lookup s.exprs (fun a => a.2.shape) _ hr.eshapes k a hk
    obtain ⟨r1, r2⟩ := multi_mem (h2 ▸ hr.ene _ (shapeOf_mem _ _ h1)) hj
    have := (hr.expr k a hk _ r1).wf
    rwa [r2] at this
  have noVarOK : VarOK noVar := ⟨by decide, Or.inl rfl, rfl⟩
  have hall : ∀ v, VarOK ((model s).var v) := by
    intro v
    show VarOK (if v < s.next then s.mem v else noVar)
    split
    · exact hb.var v
    · exact noVarOK
  have hunfixed : ∀ v, ((model s).var v).fixed = false → v < s.next := by
    intro v hv
    by_contra hge
    have e : (model s).var v = noVar := if_neg hge
    rw [e] at hv
    cases hv
  refine ⟨{ varIds := List.nodup_range, conIds := List.nodup_range, objective := hr.goal.wf, terms := hwf,
            sens := fun _ => rfl, flags := ?_, senses := ?_, box := ?_, integral := h.integral, bounds := ?_,
            enabled := h.enabled, free := ?_, binary := ?_, costs := h.costs, independent := h.independent,
            presolve := h.presolve, const := h.const, inside := fun c hc v hv => List.mem_range.2 (hin c hc v hv),
            ranges := fun v _ => ⟨(hall v).range, (hall v).kind⟩, maxLe := fun c hc => (hcon c hc).maxLe,
            maxEq := fun c hc => (hcon c hc).maxEq, uexpr := huex, dependents := rfl },
    ⟨fun v => (hall v).ptr, fun _ => rfl⟩⟩
  · intro c hc
    refine ⟨(hcon c hc).coef, fun hbv v hv => ?_⟩
    rw [hvar v (hin c hc v hv)]
    exact (hcon c hc).var hbv v hv
  · intro c hc v hv
    rcases (hall v).kind with k | k
    · exact Or.inr k
    · exact Or.inl k.1
  · intro c hc v hv hs
    have e := hvar v (hin c hc v hv)
    refine ⟨fun hf => ?_, fun _ => ?_⟩
    · rw [e, hfix v (hin c hc v hv)] at hf; cases hf
    · rcases (hall v).kind with k | k
      · rw [k] at hs; cases hs
      · exact k.2
  · intro v hv
    exact h.bounds v (List.mem_range.2 (hunfixed v hv))
  · intro v hv _ hnot
    exact ⟨(hall v).range, h.free v hv hnot⟩
  · intro ho c hc v hv hs
    have e := hvar v (hin c hc v hv)
    refine ⟨fun hf => ?_, fun _ => ?_⟩
    · rw [e, hfix v (hin c hc v hv)] at hf; cases hf
    · have h0 := h.binary ho c hc v hv hs
      rcases (hall v).kind with k | k
      · rw [k] at hs; cases hs
      · exact ⟨h0, h0 ▸ (hall v).range, k.2.2⟩

theorem feasible_of_satisfied {s : St} {m : Meaning} (hr : Rep s m) (h : ∃ val, m.Satisfied val) :
    ∃ σ, Feasible (model s) σ := by
  obtain ⟨val, hv⟩ := h
  obtain ⟨σ, hσ⟩ := exists_agree hr val
  have hag : Agree s (fun v => if v < s.next then σ v else 0) val := by
    intro k a ha idx hidx
    have h1 := ((laid_block _ _ _ hr.laid).2 k a ha).2
    obtain ⟨q1, q2⟩ := shape_of_lookup _ _ _ hr.vshapes k a ha
    have h2 := flat_lt (q2 ▸ hr.vne _ (shapeOf_mem _ _ q1)) hidx
    show _ = if _ then _ else _
    rw [if_pos (by omega)]
    exact hσ k a ha idx hidx
  have hs := (satisfied_iff hr _ val hag).2 hv
  refine ⟨_, fun v => ?_, hs.2⟩
  by_cases hlt : v < s.next
  · exact hs.1 v (List.mem_range.2 hlt)
  · have e : (model s).var v = noVar := if_neg hlt
    rw [e]
    refine ⟨fun _ => ?_, fun hf => by cases hf⟩
    show (if v < s.next then σ v else 0) = 0
    rw [if_neg hlt]

open Setup Whole Search Sol Nbhd in
/-- What a program gives a whole call: the part of the proof that does not depend on the search. -/
theorem program_facts (p : List Stmt)
    (hp : ProgramOK {} p) (hf : BoundsFirst p) (s : Program.St) (hrun : Program.run {} p = .ok s)
    (hsat : ∃ val, (meaning {} p).Satisfied val) (opt : Setup.Options) (hres : Restricted opt (model s)) :
    Ordinary opt (model s) ∧ C76.Unselected (model s) ∧ (∃ σ, Feasible (model s) σ) ∧
      (model s).objDefined = (meaning {} p).hasGoal ∧
      ∀ σ val, Reads s (meaning {} p) σ val → (Solves (model s) σ ↔ (meaning {} p).Satisfied val) ∧
        exprValue (model s).obj σ = (meaning {} p).goal val ∧ minObjective (model s) σ = (meaning {} p).cost val := by
  obtain ⟨s', e', hr⟩ := run_ok p {} {} rep_empty hp
  rw [hrun] at e'
  cases e'
  have hb := built_run p {} s {} rep_empty hp hf built_empty (fun _ a ha => by cases ha) hrun
  obtain ⟨ho, hu⟩ := ordinary hr hb opt hres
  refine ⟨ho, hu, feasible_of_satisfied hr hsat, hr.hasGoal, fun σ val hv => ?_⟩
  have ha := (reads_iff hr _ _).1 hv
  have e1 : (model s).objDefined = (meaning {} p).hasGoal := hr.hasGoal
  have e2 : (model s).isMin = (meaning {} p).minimize := hr.minimize
  have e3 : exprValue (model s).obj σ = (meaning {} p).goal val := hr.goal.value σ val ha
  refine ⟨satisfied_iff hr _ _ ha, e3, ?_⟩
  unfold minObjective Meaning.cost
  rw [e1, e2, e3]

open Setup Whole Search Sol Nbhd in
/-- **From the program to the report.**  A program obeys the rules of C88, changes no bounds once a constraint is stated,
and states a problem that can be satisfied; the model it builds meets the restrictions of a whole call (`Restricted`).
Then every call on this model in which the search makes only moves of the neighbourhood (as in C76) ends with a report,
and with the reported values read by array and index:

* the report says "feasible" exactly when the values satisfy what the program states;
* the reported objective is the stated objective at these values;
* whenever the search came across values that satisfy what the program states, so do the reported values, and they cost
  at most `1e-5` more than any of them.

Missing: the restrictions. -/
theorem stated_problem_is_reported_rightly_partial {ν μ : Type} [LinearOrder ν] [LinearOrder μ] (p : List Stmt)
    (hp : ProgramOK {} p) (hf : BoundsFirst p) (s : Program.St) (hrun : Program.run {} p = .ok s)
    (hsat : ∃ val, (meaning {} p).Satisfied val) (i : Input) (hres : Restricted i.options (model s)) (m1 m0 : MState)
    (fast : Bool) (selRel : ℕ → List ℕ) (C : Nbhd.Config ν μ) (hpen : 0 ≤ i.pen)
    (hprep : prepare i.options i.lt i.user (model s) = some (.ok m1)) (hgf : ofType i.lt m1 .gf2 = [])
    (h0 : started i (model s) = some m0) (hC : C76.SetUp C selRel m1) (hcon : C74.Constrained m0) (es : List Event)
    (hfol : Follows C (Whole.cfg i fast selRel (model s)) [] (begin m0) es)
    (hrel : ∀ low, Event.relax low ∈ es → selections i.options i.lt i.user (model s) = [])
    (hstart : ∀ pre d post, es = pre ++ Event.start d :: post → ∃ q ∈ C66.all m0 pre, d.values = q.1) :
    ∃ r m', Whole.solve i fast selRel (model s) es = some (r, m') ∧
      ∀ val, Reads s (meaning {} p) r.values val →
        (r.feasible = true ↔ (meaning {} p).Satisfied val) ∧
        ((meaning {} p).hasGoal = true → r.objective = (meaning {} p).goal val) ∧
        ∀ q ∈ C66.all m0 es, ∀ val', Reads s (meaning {} p) q.1 val' → (meaning {} p).Satisfied val' →
          (meaning {} p).Satisfied val ∧ (meaning {} p).cost val ≤ (meaning {} p).cost val' + 1e-5 := by
  obtain ⟨ho, hu, hfe, hg, sem⟩ := program_facts p hp hf s hrun hsat i.options hres
  obtain ⟨r, m', h1, h2, h3, h4⟩ := C76.call_ends_with_right_report_partial i (model s) m1 m0 fast selRel C ho hu
    hfe hpen hprep hgf h0 hC hcon es hfol hrel hstart
  refine ⟨r, m', h1, fun val hv => ?_⟩
  obtain ⟨s1, s2, s3⟩ := sem _ _ hv
  refine ⟨by rw [h2, s1], fun h => by rw [h3 (hg.trans h), s2], fun q hq val' hv' hs' => ?_⟩
  obtain ⟨t1, t2, t3⟩ := sem _ _ hv'
  obtain ⟨k1, k2⟩ := h4 q hq (t1.2 hs')
  rw [s3, t3] at k2
  exact ⟨s1.1 k1, k2⟩

/-! ### A program meeting the conditions

It states the problem of `C76.Sample`: minimise `-2 x(0) + x(2) - y - w` under `x(0) + x(1) + x(2) = 1` and
`2 x(0) + x(1) + 3 x(2) + y ≤ 6`, with `y` in `[0,5]` and the others 0/1. -/

namespace Sample
open Setup Whole Search Sol Nbhd

def prog : List Stmt :=
  [.variables_ "x".toList [3] (some (0, 1)),
   .variables_ "y".toList [1] none,
   .bounds 1 .whole 0 5,
   .variables_ "w".toList [1] (some (0, 1)),
   .constraintOf "one".toList (.select 0 none),
   .constraintOf "cap".toList (.compare .less (.term (.add (.dotVar 0 none [2, 1, 3]) (.varArr 1))) (.num 6)),
   .goal true (.sub (.sub (.add (.mulNum (.var 0 [0]) (-2)) (.var 0 [2])) (.varArr 1)) (.varArr 2))]
def st : Program.St := match Program.run {} prog with
  | .ok s => s
  | _ => {}
theorem runs : Program.run {} prog = .ok st := rfl
theorem good : ProgramOK {} prog := by
  simp [ProgramOK, prog, StmtOK, NewOK, ManyOK, OneOK, TermOK, RelationOK, Meaning.after, IndexOK,
    PatternOK, DotOK, shapeOf, chosen, indices, List.range_succ]

def ex : MState := model st
def inp : Input := ⟨C67.opts, C67.lt', fun _ => false, true, 100, []⟩
def m1 : MState := (C76.Sample.ok (prepare inp.options inp.lt inp.user ex)).getD ex
def m0 : MState := (started inp ex).getD ex
def conf : Nbhd.Config ℕ ℕ := { setup := m1, name := id, vname := id, lt := C67.lt', pairs := [] }
def selRel : ℕ → List ℕ := fun _ => selectionRelated id id m1 0
def cfg : Cfg := Whole.cfg inp true selRel ex
def cands (s : Search.St) : List Move := (candidates conf C76.Sample.on C74.Sample.every s.model).getD []
def after (s : Search.St) (ev : Event) : Search.St := (Search.step cfg s ev).getD s
def inc : Move := { alterations := [(3, 2)], sense := .integer, related := [1], isUnivariable := true }
def first : Dense := ⟨assignment m0, 0, 0, 0, true⟩
def s1 : Search.St := after (begin m0) (.start first)
def s2 : Search.St := after s1 (.move inc false)
def s3 : Search.St := after s2 (.penalties (fun _ => 3) (fun _ => 4))
def swap : Move := { alterations := [(0, 0), (1, 1)], sense := .selection, related := [1], isSelection := true }
def events : List Event := [.start first, .move inc false, .penalties (fun _ => 3) (fun _ => 4), .move swap false]

theorem prep : prepare inp.options inp.lt inp.user ex = some (.ok m1) := C76.Sample.of_ok (by decide +kernel) ex
theorem start : started inp ex = some m0 := by
  have h : (started inp ex).isSome = true := by decide +kernel
  obtain ⟨m, hm⟩ := Option.isSome_iff_exists.1 h
  unfold m0
  rw [hm]; rfl

theorem restricted : Restricted inp.options ex := by
  have key : ∀ c ∈ ex.conIds, ∀ t ∈ (ex.con c).expr.terms, t.2 = 1 ∨ t.2 = 2 ∨ t.2 = 3 := by decide +kernel
  have key2 : ∀ c ∈ ex.conIds, (ex.con c).expr.const = -1 ∨ (ex.con c).expr.const = -6 := by decide +kernel
  refine ⟨by decide, ?_, ?_, by decide +kernel, by decide +kernel, by decide +kernel, fun _ => by decide +kernel,
    fun _ => by decide +kernel, Or.inl (by decide)⟩
  · intro c hc t ht
    rcases key c hc t ht with h | h | h
    · exact ⟨by rw [h]; norm_num, 1, by rw [h]; rfl⟩
    · exact ⟨by rw [h]; norm_num, 2, by rw [h]; rfl⟩
    · exact ⟨by rw [h]; norm_num, 3, by rw [h]; rfl⟩
  · intro c hc
    rcases key2 c hc with h | h
    · exact ⟨-1, by rw [h]; rfl⟩
    · exact ⟨-6, by rw [h]; rfl⟩

theorem first_bounds : BoundsFirst prog := by
  simp [BoundsFirst, prog, statesConstraint, changesBounds]

theorem represented : Rep st (meaning {} prog) := by
  obtain ⟨s', e', hr⟩ := run_ok prog {} {} rep_empty good
  rw [runs] at e'
  cases e'
  exact hr

theorem satisfiable : ∃ val, (meaning {} prog).Satisfied val := by
  have h : Solves ex (fun v => if v = 0 then 1 else 0) := by
    refine ⟨?_, ?_⟩
    · decide +kernel
    · decide +kernel
  exact ⟨_, (satisfied_iff represented _ _ (agree_valuesOf st _)).1 h⟩

theorem setUp : C76.SetUp conf selRel m1 where
  setup := rfl
  recent := rfl
  names _ _ _ _ h := h
  pairs := by simp [conf]
  selRel v s h := by
    have hb := built_run prog {} st {} rep_empty good first_bounds built_empty (fun _ a ha => by cases ha) runs
    obtain ⟨ho, hu⟩ := ordinary represented hb inp.options restricted
    have : s ∈ selections inp.options inp.lt inp.user ex :=
      ((C76.pointers inp.options inp.lt inp.user ex m1 ho (feasible_of_satisfied represented satisfiable) hu prep).owner v s h).1
    have e : selections inp.options inp.lt inp.user ex = [0] := by decide +kernel
    rw [e] at this
    have : s = 0 := by simpa using this
    subst this; rfl

theorem follows : Follows conf (Whole.cfg inp true selRel ex) [] (begin m0) events := by
  refine ⟨trivial, fun t ht => ?_⟩
  obtain rfl : t = s1 := by unfold s1 after cfg; rw [ht]; rfl
  refine ⟨⟨C76.Sample.on, C74.Sample.every, by simp [C76.Sample.on], .plain (cands s1) inc (by decide +kernel) (by decide +kernel)⟩, fun t ht => ?_⟩
  obtain rfl : t = s2 := by unfold s2 after cfg; rw [ht]; rfl
  refine ⟨fun c => by norm_num, fun t ht => ?_⟩
  obtain rfl : t = s3 := by unfold s3 after cfg; rw [ht]; rfl
  exact ⟨⟨C76.Sample.on, C74.Sample.every, by simp [C76.Sample.on], .plain (cands s3) swap (by decide +kernel) (by decide +kernel)⟩, fun t ht => trivial⟩

example : ProgramOK {} prog ∧ BoundsFirst prog ∧ Program.run {} prog = .ok st ∧
    (∃ val, (meaning {} prog).Satisfied val) ∧ Restricted inp.options (model st) ∧ 0 ≤ inp.pen ∧
    prepare inp.options inp.lt inp.user (model st) = some (.ok m1) ∧ ofType inp.lt m1 .gf2 = [] ∧
    started inp (model st) = some m0 ∧ C76.SetUp conf selRel m1 ∧ C74.Constrained m0 ∧
    Follows conf (Whole.cfg inp true selRel (model st)) [] (begin m0) events ∧
    (∀ low, Event.relax low ∈ events → selections inp.options inp.lt inp.user (model st) = []) ∧
    (∀ pre d post, events = pre ++ Event.start d :: post → ∃ q ∈ C66.all m0 pre, d.values = q.1) := by
  refine ⟨good, first_bounds, runs, satisfiable, restricted, by decide +kernel, prep, by decide +kernel, start, setUp, ?_,
    follows, ?_, ?_⟩
  · unfold C74.Constrained; decide +kernel
  · intro low hl; simp [events] at hl
  · intro pre d post he
    refine ⟨(assignment m0, 0), by simp [C66.all], ?_⟩
    have hd : d = first := by
      have : Event.start d ∈ events := by rw [he]; simp
      simpa [events] using this
    subst hd; rfl

/-- The report of this call. -/
example : (Whole.solve inp true selRel (model st) events).map
    (fun p => ([0, 1, 2, 3, 4].map p.1.values, p.1.objective, p.1.feasible)) = some ([1, 0, 0, 2, 1], -5, true) := by
  decide +kernel

end Sample

end Printemps.C89
