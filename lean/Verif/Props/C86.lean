import Verif.Lemmas.Scientific
import Verif.Props.C46
import Verif.Lemmas.ArrayFile
import Verif.Lemmas.Example
import Verif.Spec.Dependent
import Verif.Model.ModelFile
import Verif.Spec.ModelFile

/-! # C86 — the file that describes a model -/

namespace Printemps.C86
open Json Text ArrayFile ModelFile Spec

theorem says_iff (l : List (Str × Val)) (hd : (l.map Prod.fst).Nodup) (k : String) (w w' : Val) (h : (k.toList, w) ∈ l) :
    Says (.obj (members l)) k w' ↔ w' = w := by
  unfold Says
  constructor
  · rintro ⟨ms, e, hg⟩
    obtain rfl := Val.obj.inj e
    rw [get_members l hd _ _ h] at hg
    exact (Option.some.inj hg).symm
  · rintro rfl
    exact ⟨_, rfl, get_members l hd _ _ h⟩

theorem elems_array (l : List Val) : elems (array l) = l := by
  induction l with
  | nil => rfl
  | cons v l ih => rw [array, elems, ih]

theorem isTerm_iff (vname : VarId → Str) (t : VarId × ℚ) (q : ℚ) (n : Str) : IsTerm (term vname t) q n ↔ (n, q) = (vname t.1, t.2) := by
  unfold IsTerm term
  have hd : ([(kVariable, Val.str (vname t.1)), (kCoefficient, Val.real t.2)].map Prod.fst).Nodup := by
    simp only [List.map_cons, List.map_nil]; decide
  rw [says_iff [(kVariable, Val.str (vname t.1)), (kCoefficient, Val.real t.2)] hd "variable" (.str (vname t.1)) _ (.head _),
    says_iff [(kVariable, Val.str (vname t.1)), (kCoefficient, Val.real t.2)] hd "coefficient" (.real t.2) _ (.tail _ (.head _))]
  simp

theorem linear_iff (l : List (Str × Val)) (hd : (l.map Prod.fst).Nodup) (vname : VarId → Str) (e : Expr)
    (h : (kSensitivities, terms vname e) ∈ l) (a : Str → ℤ) (z : ℚ) :
    LinearDoc (.obj (members l)) a z ↔ z + e.const = exprValue e (fun v => a (vname v)) := by
  have hs : ∀ es, Says (.obj (members l)) "sensitivities" (.arr es) ↔ es = array (e.terms.map (term vname)) := by
    intro es
    rw [says_iff l hd _ _ _ h]
    unfold terms
    exact ⟨fun e => Val.arr.inj e, fun e => by rw [e]⟩
  have hl : ∀ (ts : List (VarId × ℚ)) (l : List (Str × ℚ)), List.Forall₂ (fun t x => IsTerm t x.2 x.1) (ts.map (term vname)) l ↔
      l = ts.map fun t => (vname t.1, t.2) := by
    intro ts
    induction ts with
    | nil =>
      intro l
      rw [List.map_nil, List.forall₂_nil_left_iff, List.map_nil]
    | cons t ts ih =>
      intro l
      rw [List.map_cons, List.forall₂_cons_left_iff]
      constructor
      · rintro ⟨b, u, h1, h2, rfl⟩
        rw [List.map_cons, (ih u).1 h2, ← (isTerm_iff vname t b.2 b.1).1 h1]
      · rintro rfl
        exact ⟨_, _, (isTerm_iff vname t _ _).2 rfl, (ih _).2 rfl, rfl⟩
  unfold LinearDoc exprValue
  constructor
  · rintro ⟨es, h1, l, h2, rfl⟩
    rw [(hs es).1 h1, elems_array] at h2
    rw [(hl _ _).1 h2, List.map_map, add_comm]
    rfl
  · intro hz
    refine ⟨_, (hs _).2 rfl, _, (by rw [elems_array]; exact (hl _ _).2 rfl), ?_⟩
    rw [List.map_map]
    have : z = (e.terms.map fun t => t.2 * ((a (vname t.1) : ℤ) : ℚ)).sum := by linarith
    rw [this]
    rfl

theorem admits_iff (name : Str) (v : Var) (a : Str → ℤ) : AdmitsDoc (variable_ name v) a ↔ Admits v (a name) := by
  have key : ∀ (k : String) (w w' : Val), (k.toList, w) ∈ [(kName, Val.str name), (kValue, .int v.value), (kIsFixed, .bool v.fixed),
      (kLower, .int v.lb), (kUpper, .int v.ub), (kSense, .str (if v.sense = VarSense.binary then wBinary else wInteger))] →
      (Says (variable_ name v) k w' ↔ w' = w) := fun k w w' h =>
    says_iff _ (by simp only [List.map_cons, List.map_nil]; decide) k w w' h
  unfold AdmitsDoc Admits
  constructor
  · rintro ⟨n, x, f, l, u, h1, h2, h3, h4, h5, h6, h7⟩
    have e1 := (key "name" (.str name) _ (.head _)).1 h1
    have e2 := (key "value" (.int v.value) _ (.tail _ (.head _))).1 h2
    have e3 := (key "is_fixed" (.bool v.fixed) _ (.tail _ (.tail _ (.head _)))).1 h3
    have e4 := (key "lower_bound" (.int v.lb) _ (.tail _ (.tail _ (.tail _ (.head _))))).1 h4
    have e5 := (key "upper_bound" (.int v.ub) _ (.tail _ (.tail _ (.tail _ (.tail _ (.head _)))))).1 h5
    rw [Val.str.injEq] at e1
    rw [Val.int.injEq] at e2 e4 e5
    rw [Val.bool.injEq] at e3
    subst e1 e2 e3 e4 e5
    exact ⟨h6, h7⟩
  · rintro ⟨h6, h7⟩
    exact ⟨name, v.value, v.fixed, v.lb, v.ub, (key "name" _ _ (.head _)).2 rfl, (key "value" _ _ (.tail _ (.head _))).2 rfl,
      (key "is_fixed" _ _ (.tail _ (.tail _ (.head _)))).2 rfl, (key "lower_bound" _ _ (.tail _ (.tail _ (.tail _ (.head _))))).2 rfl,
      (key "upper_bound" _ _ (.tail _ (.tail _ (.tail _ (.tail _ (.head _)))))).2 rfl, h6, h7⟩

theorem compares_iff (s : Sense) (left c : ℚ) : Compares (symbol s) left (-c) ↔ (cmpOf s).holds (left + c) 0 := by
  unfold Compares
  cases s
  · rw [show symbol Sense.less = "<=".toList from rfl]
    simp only [show ("<=".toList = "=".toList) = False by decide, show ("<=".toList = ">=".toList) = False by decide, false_and, false_or,
      or_false, true_and]
    show left ≤ -c ↔ left + c ≤ 0
    constructor <;> intro h <;> linarith
  · rw [show symbol Sense.equal = "=".toList from rfl]
    simp only [show ("=".toList = "<=".toList) = False by decide, show ("=".toList = ">=".toList) = False by decide, false_and,
      or_false, true_and]
    show left = -c ↔ left + c = 0
    constructor <;> intro h <;> linarith
  · rw [show symbol Sense.greater = ">=".toList from rfl]
    simp only [show (">=".toList = "=".toList) = False by decide, show (">=".toList = "<=".toList) = False by decide, false_and, false_or,
      true_and]
    show -c ≤ left ↔ left + c ≥ 0
    constructor <;> intro h <;> linarith

theorem holds_iff (vname : VarId → Str) (name : Str) (c : Con) (a : Str → ℤ) :
    HoldsDoc (constraint vname name c) a ↔ (c.enabled = true → Holds c (fun v => a (vname v))) := by
  have hd : ([(kName, Val.str name), (kIsEnabled, .bool c.enabled), (kRhs, .real (-c.expr.const)),
    (kSense, .str (symbol c.sense)), (kSensitivities, terms vname c.expr)].map Prod.fst).Nodup := by
    simp only [List.map_cons, List.map_nil]; decide
  have key : ∀ (k : String) (w w' : Val), (k.toList, w) ∈ [(kName, Val.str name), (kIsEnabled, .bool c.enabled),
      (kRhs, .real (-c.expr.const)), (kSense, .str (symbol c.sense)), (kSensitivities, terms vname c.expr)] →
      (Says (constraint vname name c) k w' ↔ w' = w) := fun k w w' h => says_iff _ hd k w w' h
  have hlin : ∀ z, LinearDoc (constraint vname name c) a z ↔ z + c.expr.const = exprValue c.expr (fun v => a (vname v)) :=
    fun z => linear_iff _ hd vname c.expr (.tail _ (.tail _ (.tail _ (.tail _ (.head _))))) a z
  unfold HoldsDoc Holds
  constructor
  · rintro ⟨e, r, s, z, h1, h2, h3, h4, h5⟩ he
    have e1 := (key "is_enabled" (.bool c.enabled) _ (.tail _ (.head _))).1 h1
    have e2 := (key "rhs" (.real (-c.expr.const)) _ (.tail _ (.tail _ (.head _)))).1 h2
    have e3 := (key "sense" (.str (symbol c.sense)) _ (.tail _ (.tail _ (.tail _ (.head _))))).1 h3
    rw [Val.str.injEq] at e3
    rw [Val.real.injEq] at e2
    rw [Val.bool.injEq] at e1
    subst e1 e2 e3
    rw [← (hlin z).1 h4]
    exact (compares_iff _ _ _).1 (h5 he)
  · intro h
    refine ⟨c.enabled, -c.expr.const, symbol c.sense, exprValue c.expr (fun v => a (vname v)) - c.expr.const,
      (key "is_enabled" _ _ (.tail _ (.head _))).2 rfl, (key "rhs" _ _ (.tail _ (.tail _ (.head _)))).2 rfl,
      (key "sense" _ _ (.tail _ (.tail _ (.tail _ (.head _))))).2 rfl, (hlin _).2 (by ring), fun he => (compares_iff _ _ _).2 ?_⟩
    rw [sub_add_cancel]
    exact h he

theorem parts_nodup (t : Val) (vname : VarId → Str) (cname : ConId → Str) (m : MState) : ((parts t vname cname m).map Prod.fst).Nodup := by
  unfold parts
  simp only [List.map_cons, List.map_nil]
  decide

theorem feasible_parts (t : Val) (vname : VarId → Str) (cname : ConId → Str) (m : MState) (a : Str → ℤ) :
    FeasibleDoc (members (parts t vname cname m)) a ↔ FeasibleOn m (fun v => a (vname v)) := by
  have hd := parts_nodup t vname cname m
  have hv : ∀ vs, Says (.obj (members (parts t vname cname m))) "variables" (.arr vs) ↔
      vs = array (m.varIds.map fun v => variable_ (vname v) (m.var v)) := by
    intro vs
    rw [says_iff _ hd "variables" (.arr (array (m.varIds.map fun v => variable_ (vname v) (m.var v)))) _ (.tail _ (.tail _ (.head _)))]
    exact ⟨fun e => Val.arr.inj e, fun e => by rw [e]⟩
  have hc : ∀ cs, Says (.obj (members (parts t vname cname m))) "constraints" (.arr cs) ↔
      cs = array (m.conIds.map fun c => constraint vname (cname c) (m.con c)) := by
    intro cs
    rw [says_iff _ hd "constraints" (.arr (array (m.conIds.map fun c => constraint vname (cname c) (m.con c)))) _ (.tail _ (.tail _ (.tail _ (.tail _ (.head _)))))]
    exact ⟨fun e => Val.arr.inj e, fun e => by rw [e]⟩
  unfold FeasibleDoc FeasibleOn
  constructor
  · rintro ⟨vs, cs, h1, h2, h3, h4⟩
    rw [(hv vs).1 h1, elems_array] at h3
    rw [(hc cs).1 h2, elems_array] at h4
    exact ⟨fun v hv => (admits_iff _ _ _).1 (h3 _ (List.mem_map.2 ⟨v, hv, rfl⟩)),
      fun c hc => (holds_iff _ _ _ _).1 (h4 _ (List.mem_map.2 ⟨c, hc, rfl⟩))⟩
  · rintro ⟨h3, h4⟩
    refine ⟨_, _, (hv _).2 rfl, (hc _).2 rfl, fun v hv => ?_, fun c hc => ?_⟩
    · rw [elems_array] at hv
      obtain ⟨w, hw, rfl⟩ := List.mem_map.1 hv
      exact (admits_iff _ _ _).2 (h3 w hw)
    · rw [elems_array] at hc
      obtain ⟨w, hw, rfl⟩ := List.mem_map.1 hc
      exact (holds_iff _ _ _ _).2 (h4 w hw)

theorem objective_parts (t : Val) (vname : VarId → Str) (cname : ConId → Str) (m : MState) (a : Str → ℤ) (z : ℚ) :
    ObjectiveDoc (members (parts t vname cname m)) a z ↔ z + m.obj.const = exprValue m.obj (fun v => a (vname v)) := by
  have ho : ∀ o, Says (.obj (members (parts t vname cname m))) "objective" o ↔ o = .obj (members [(kSensitivities, terms vname m.obj)]) :=
    fun o => says_iff _ (parts_nodup t vname cname m) "objective" _ o (.tail _ (.tail _ (.tail _ (.head _))))
  have hl := linear_iff [(kSensitivities, terms vname m.obj)] (by simp) vname m.obj (.head _) a z
  unfold ObjectiveDoc
  constructor
  · rintro ⟨o, h1, h2⟩
    rw [(ho o).1 h1] at h2
    exact hl.1 h2
  · intro h
    exact ⟨_, (ho _).2 rfl, hl.2 h⟩

theorem direction_parts (t : Val) (vname : VarId → Str) (cname : ConId → Str) (m : MState) (b : Bool) :
    Says (.obj (members (parts t vname cname m))) "is_minimization" (.bool b) ↔ b = m.isMin := by
  rw [says_iff _ (parts_nodup t vname cname m) "is_minimization" (.bool m.isMin) _ (.tail _ (.head _)), Val.bool.injEq]

/-- The document has the constraints of the model: an assignment to the names is feasible for it if and only if the model,
with the values of the names for its variables, is satisfied. -/
theorem document_is_the_problem (name : Str) (vname : VarId → Str) (cname : ConId → Str) (m : MState) (a : Str → ℤ) :
    FeasibleDoc (document name vname cname m) a ↔ FeasibleOn m (fun v => a (vname v)) := feasible_parts ..

/-- The document has the objective of the model up to its constant, and its direction. -/
theorem document_has_the_objective (name : Str) (vname : VarId → Str) (cname : ConId → Str) (m : MState) :
    (∀ a z, ObjectiveDoc (document name vname cname m) a z ↔ z + m.obj.const = exprValue m.obj (fun v => a (vname v))) ∧
    ∀ b, Says (.obj (document name vname cname m)) "is_minimization" (.bool b) ↔ b = m.isMin :=
  ⟨fun _ _ => objective_parts .., fun _ => direction_parts ..⟩

/-- Assignments to the variables are assignments to their names if the names are different. -/
theorem by_names (vname : VarId → Str) (m : MState) (h : Distinct vname m) (σ : ℕ → ℤ) : ∃ a : Str → ℤ, ∀ v ∈ m.varIds, a (vname v) = σ v := by
  classical
  refine ⟨fun n => if hn : ∃ v ∈ m.varIds, vname v = n then σ hn.choose else 0, fun v hv => ?_⟩
  have hn : ∃ w ∈ m.varIds, vname w = vname v := ⟨v, hv, rfl⟩
  dsimp only
  rw [dif_pos hn]
  exact congrArg σ (h _ hn.choose_spec.1 _ hv hn.choose_spec.2)

theorem exprValue_congr (e : Expr) (σ τ : ℕ → ℤ) (h : ∀ t ∈ e.terms, σ t.1 = τ t.1) : exprValue e σ = exprValue e τ := by
  unfold exprValue
  rw [List.map_congr_left (fun t ht => by rw [h t ht])]

theorem feasible_congr (m : MState) (hc : Closed m) (σ τ : ℕ → ℤ) (h : ∀ v ∈ m.varIds, σ v = τ v) : FeasibleOn m σ → FeasibleOn m τ := by
  rintro ⟨h1, h2⟩
  refine ⟨fun v hv => h v hv ▸ h1 v hv, fun c hcm he => ?_⟩
  have := h2 c hcm he
  unfold Holds at this ⊢
  rwa [← exprValue_congr _ σ τ (fun t ht => h _ (hc.constraints c hcm t ht))]

theorem best_parts (t : Val) (vname : VarId → Str) (cname : ConId → Str) (m : MState) (hc : Closed m) (hd : Distinct vname m) (z : ℚ) :
    BestDoc (members (parts t vname cname m)) z ↔ BestOn m (z + m.obj.const) := by
  have back : ∀ σ, FeasibleOn m σ → ∃ a : Str → ℤ, FeasibleDoc (members (parts t vname cname m)) a ∧
      exprValue m.obj (fun v => a (vname v)) = exprValue m.obj σ := by
    intro σ hσ
    obtain ⟨a, ha⟩ := by_names vname m hd σ
    exact ⟨a, (feasible_parts t vname cname m a).2 (feasible_congr m hc σ _ (fun v hv => (ha v hv).symm) hσ),
      exprValue_congr _ _ _ fun t ht => ha _ (hc.objective t ht)⟩
  unfold BestDoc BestOn
  refine and_congr ⟨?_, ?_⟩ ?_
  · rintro ⟨a, h1, h2⟩
    exact ⟨_, (feasible_parts t vname cname m a).1 h1, ((objective_parts t vname cname m a z).1 h2).symm⟩
  · rintro ⟨σ, h1, h2⟩
    obtain ⟨a, h3, h4⟩ := back σ h1
    exact ⟨a, h3, (objective_parts t vname cname m a z).2 (by rw [h4, h2])⟩
  · simp only [direction_parts]
    cases hm : m.isMin
    · simp only [Bool.true_eq_false, false_and, false_or, true_and, if_false, Bool.false_eq_true]
      constructor
      · intro h σ hσ
        obtain ⟨a, h3, h4⟩ := back σ hσ
        have := h a (exprValue m.obj σ - m.obj.const) h3 ((objective_parts t vname cname m a _).2 (by rw [h4]; ring))
        linarith
      · intro h a y h1 h2
        have := h _ ((feasible_parts t vname cname m a).1 h1)
        rw [← (objective_parts t vname cname m a y).1 h2] at this
        linarith
    · simp only [Bool.false_eq_true, false_and, or_false, true_and, if_true]
      constructor
      · intro h σ hσ
        obtain ⟨a, h3, h4⟩ := back σ hσ
        have := h a (exprValue m.obj σ - m.obj.const) h3 ((objective_parts t vname cname m a _).2 (by rw [h4]; ring))
        linarith
      · intro h a y h1 h2
        have := h _ ((feasible_parts t vname cname m a).1 h1)
        rw [← (objective_parts t vname cname m a y).1 h2] at this
        linarith

/-- Whoever solves the problem of the document solves that of the model: their best objectives differ by the constant of the
objective only. -/
theorem document_has_the_best_value (name : Str) (vname : VarId → Str) (cname : ConId → Str) (m : MState) (hc : Closed m)
    (hd : Distinct vname m) (z : ℚ) : BestDoc (document name vname cname m) z ↔ BestOn m (z + m.obj.const) := best_parts _ _ _ m hc hd z

/-! ## Through the file -/

theorem echo_members (l : List (Str × Val)) : echoM (members l) = members (l.map fun x => (respell x.1, echoV false x.2)) := by
  induction l with
  | nil => rfl
  | cons x l ih => rw [members, echoM, ih]; rfl

theorem echo_array (l : List Val) : echoE (array l) = array (l.map (echoV true)) := by
  induction l with
  | nil => rfl
  | cons x l ih => rw [array, echoE, ih]; rfl

theorem clean_members (l : List (Str × Val)) (h : ∀ y ∈ l, '"' ∉ y.1 ∧ CleanV y.2) : CleanM (members l) := by
  induction l with
  | nil => unfold members CleanM; trivial
  | cons x l ih =>
    unfold members CleanM
    exact ⟨(h x (by simp)).1, (h x (by simp)).2, ih fun y hy => h y (by simp [hy])⟩

theorem clean_array (l : List Val) (h : ∀ v ∈ l, CleanV v) : CleanE (array l) := by
  induction l with
  | nil => unfold array CleanE; trivial
  | cons x l ih =>
    unfold array CleanE
    exact ⟨h x (by simp), ih fun y hy => h y (by simp [hy])⟩

theorem echo_terms (vname : VarId → Str) (e : Expr) (h : ∀ t ∈ e.terms, atof (formatE t.2) = t.2) (b : Bool) :
    echoV b (terms vname e) = terms (fun v => respell (vname v)) e := by
  unfold terms
  rw [echoV, echo_array, List.map_map]
  congr 2
  refine List.map_congr_left fun t ht => ?_
  unfold term
  rw [Function.comp_apply, echoV, echo_members]
  simp only [List.map_cons, List.map_nil, echoV, h t ht]
  rfl

theorem clean_terms (vname : VarId → Str) (e : Expr) (h : ∀ t ∈ e.terms, '"' ∉ vname t.1) : CleanV (terms vname e) := by
  unfold terms CleanV
  refine clean_array _ fun v hv => ?_
  obtain ⟨t, ht, rfl⟩ := List.mem_map.1 hv
  unfold term CleanV
  refine clean_members _ ?_
  simp only [List.mem_cons, List.not_mem_nil, or_false, forall_eq_or_imp, forall_eq]
  refine ⟨⟨by decide, ?_⟩, ⟨by decide, ?_⟩⟩
  · unfold CleanV; exact h t ht
  · unfold CleanV; trivial

theorem document_clean (name : Str) (vname : VarId → Str) (cname : ConId → Str) (m : MState) (hp : Ints m) (hcl : Closed m)
    (ht : '"' ∉ name) (hv : ∀ v ∈ m.varIds, '"' ∉ vname v) (hcn : ∀ c ∈ m.conIds, '"' ∉ cname c) :
    CleanM (document name vname cname m) := by
  unfold document parts
  refine clean_members _ ?_
  simp only [List.mem_cons, List.not_mem_nil, or_false, forall_eq_or_imp, forall_eq]
  refine ⟨⟨by decide, ?_⟩, ⟨by decide, ?_⟩, ⟨by decide, ?_⟩, ⟨by decide, ?_⟩, ⟨by decide, ?_⟩⟩
  · unfold title
    split
    · unfold CleanV; trivial
    · unfold CleanV deleteSpace; exact fun hm => ht (List.mem_of_mem_filter hm)
  · unfold CleanV; trivial
  · unfold CleanV
    refine clean_array _ fun w hw => ?_
    obtain ⟨v, hvm, rfl⟩ := List.mem_map.1 hw
    have hi := hp v hvm
    simp only [List.mem_cons, List.not_mem_nil, or_false, forall_eq_or_imp, forall_eq] at hi
    unfold variable_ CleanV
    refine clean_members _ ?_
    simp only [List.mem_cons, List.not_mem_nil, or_false, forall_eq_or_imp, forall_eq]
    refine ⟨⟨by decide, ?_⟩, ⟨by decide, ?_⟩, ⟨by decide, ?_⟩, ⟨by decide, ?_⟩, ⟨by decide, ?_⟩, ⟨by decide, ?_⟩⟩
    · unfold CleanV; exact hv v hvm
    · unfold CleanV; exact hi.1
    · unfold CleanV; trivial
    · unfold CleanV; exact hi.2.1
    · unfold CleanV; exact hi.2.2
    · unfold CleanV; split <;> decide
  · unfold CleanV
    refine clean_members _ ?_
    simp only [List.mem_cons, List.not_mem_nil, or_false, forall_eq]
    exact ⟨by decide, clean_terms _ _ fun t h => hv _ (hcl.objective t h)⟩
  · unfold CleanV
    refine clean_array _ fun w hw => ?_
    obtain ⟨c, hcm, rfl⟩ := List.mem_map.1 hw
    unfold constraint CleanV
    refine clean_members _ ?_
    simp only [List.mem_cons, List.not_mem_nil, or_false, forall_eq_or_imp, forall_eq]
    refine ⟨⟨by decide, ?_⟩, ⟨by decide, ?_⟩, ⟨by decide, ?_⟩, ⟨by decide, ?_⟩, ⟨by decide, ?_⟩⟩
    · unfold CleanV; exact hcn c hcm
    · unfold CleanV; trivial
    · unfold CleanV; trivial
    · unfold CleanV; cases (m.con c).sense <;> decide
    · exact clean_terms _ _ fun t h => hv _ (hcl.constraints c hcm t h)

/-- The file is read back as the document with the names as the reader spells them. -/
theorem file_echo (name : Str) (vname : VarId → Str) (cname : ConId → Str) (m : MState) (hp : Printable m) (hcl : Closed m)
    (ht : '"' ∉ name) (hv : ∀ v ∈ m.varIds, '"' ∉ vname v) (hcn : ∀ c ∈ m.conIds, '"' ∉ cname c) :
    ∃ N, ∀ fuel ≥ N, readObject fuel (file name vname cname m) =
      some (members (parts (echoV false (title name)) (fun v => respell (vname v)) (fun c => respell (cname c)) m)) := by
  obtain ⟨N, hN⟩ := C46.file_is_echo_object _ (document_clean name vname cname m hp.ints hcl ht hv hcn) 0
  refine ⟨N, fun fuel hf => ?_⟩
  unfold file
  rw [hN fuel hf]
  congr 1
  unfold document
  rw [echo_members]
  congr 1
  unfold parts
  simp only [List.map_cons, List.map_nil, echoV, echo_array, List.map_map, echo_members, echo_terms vname m.obj hp.objective]
  have e1 : (m.varIds.map (echoV true ∘ fun v => variable_ (vname v) (m.var v))) =
      m.varIds.map fun v => variable_ (respell (vname v)) (m.var v) := by
    refine List.map_congr_left fun v _ => ?_
    unfold variable_
    rw [Function.comp_apply, echoV, echo_members]
    simp only [List.map_cons, List.map_nil, echoV]
    rw [show (respell (if (m.var v).sense = VarSense.binary then wBinary else wInteger)) =
      (if (m.var v).sense = VarSense.binary then wBinary else wInteger) by split <;> rfl]
    rfl
  have e2 : (m.conIds.map (echoV true ∘ fun c => constraint vname (cname c) (m.con c))) =
      m.conIds.map fun c => constraint (fun v => respell (vname v)) (respell (cname c)) (m.con c) := by
    refine List.map_congr_left fun c hcm => ?_
    unfold constraint
    rw [Function.comp_apply, echoV, echo_members]
    simp only [List.map_cons, List.map_nil, echoV, echo_terms vname _ (hp.constraints c hcm).1, (hp.constraints c hcm).2]
    rw [show respell (symbol (m.con c).sense) = symbol (m.con c).sense by cases (m.con c).sense <;> rfl]
    rfl
  rw [e1, e2]
  rfl

/-- The expression with its coefficients as they are read from the file. -/
def readExpr (e : Expr) : Expr := { e with terms := e.terms.map fun t => (t.1, atof (formatE t.2)) }

/-- The model with its coefficients as they are read from the file. -/
def readModel (m : MState) : MState :=
  { m with
    obj := readExpr m.obj
    con := fun c => { m.con c with expr := { readExpr (m.con c).expr with const := -atof (formatE (-(m.con c).expr.const)) } } }

theorem echo_any_terms (vname : VarId → Str) (e : Expr) (b : Bool) :
    echoV b (terms vname e) = terms (fun v => respell (vname v)) (readExpr e) := by
  unfold terms readExpr
  rw [echoV, echo_array, List.map_map]
  simp only [List.map_map]
  congr 2

/-- Whatever the coefficients are, the file is read back as the document of the model with the coefficients as they are read. -/
theorem file_echo_any (name : Str) (vname : VarId → Str) (cname : ConId → Str) (m : MState) (hp : Ints m) (hcl : Closed m)
    (ht : '"' ∉ name) (hv : ∀ v ∈ m.varIds, '"' ∉ vname v) (hcn : ∀ c ∈ m.conIds, '"' ∉ cname c) :
    ∃ N, ∀ fuel ≥ N, readObject fuel (file name vname cname m) =
      some (members (parts (echoV false (title name)) (fun v => respell (vname v)) (fun c => respell (cname c)) (readModel m))) := by
  obtain ⟨N, hN⟩ := C46.file_is_echo_object _ (document_clean name vname cname m hp hcl ht hv hcn) 0
  refine ⟨N, fun fuel hf => ?_⟩
  unfold file
  rw [hN fuel hf]
  congr 1
  unfold document
  rw [echo_members]
  congr 1
  unfold parts
  simp only [List.map_cons, List.map_nil, echoV, echo_array, List.map_map, echo_members, echo_any_terms]
  have e1 : (m.varIds.map (echoV true ∘ fun v => variable_ (vname v) (m.var v))) =
      m.varIds.map fun v => variable_ (respell (vname v)) (m.var v) := by
    refine List.map_congr_left fun v _ => ?_
    unfold variable_
    rw [Function.comp_apply, echoV, echo_members]
    simp only [List.map_cons, List.map_nil, echoV]
    rw [show (respell (if (m.var v).sense = VarSense.binary then wBinary else wInteger)) =
      (if (m.var v).sense = VarSense.binary then wBinary else wInteger) by split <;> rfl]
    rfl
  have e2 : (m.conIds.map (echoV true ∘ fun c => constraint vname (cname c) (m.con c))) =
      m.conIds.map fun c => constraint (fun v => respell (vname v)) (respell (cname c)) ((readModel m).con c) := by
    refine List.map_congr_left fun c hcm => ?_
    unfold constraint
    rw [Function.comp_apply, echoV, echo_members]
    simp only [List.map_cons, List.map_nil, echoV, echo_any_terms]
    rw [show respell (symbol (m.con c).sense) = symbol (m.con c).sense by cases (m.con c).sense <;> rfl]
    simp only [readModel, neg_neg]
    rfl
  rw [e1, e2]
  rfl

theorem nearTerms_read (e : Expr) (q : ℚ) : NearTerms e { readExpr e with const := q } := by
  unfold NearTerms readExpr
  generalize e.terms = l
  induction l with
  | nil => exact .nil
  | cons t l ih => exact .cons ⟨rfl, formatE_close t.2⟩ ih

/-- **The problem is in the file up to seven digits**: for any coefficients and names without quotation marks, a reader of the
file gets a document of a problem with the same variables, bounds, directions and senses, whose coefficients and right hand
sides are those of the model in the first seven digits. -/
theorem file_is_near_the_problem (name : Str) (vname : VarId → Str) (cname : ConId → Str) (m : MState) (hp : Ints m)
    (hcl : Closed m) (ht : '"' ∉ name) (hv : ∀ v ∈ m.varIds, '"' ∉ vname v) (hcn : ∀ c ∈ m.conIds, '"' ∉ cname c) :
    ∃ m' d N, Near m m' ∧ (∀ fuel ≥ N, readObject fuel (file name vname cname m) = some d) ∧
      (∀ a, FeasibleDoc d a ↔ FeasibleOn m' (fun v => a (respell (vname v)))) ∧
      (∀ a z, ObjectiveDoc d a z ↔ z + m.obj.const = exprValue m'.obj (fun v => a (respell (vname v)))) ∧
      (∀ b, Says (.obj d) "is_minimization" (.bool b) ↔ b = m.isMin) ∧
      (Distinct (fun v => respell (vname v)) m → ∀ z, BestDoc d z ↔ BestOn m' (z + m.obj.const)) := by
  obtain ⟨N, hN⟩ := file_echo_any name vname cname m hp hcl ht hv hcn
  refine ⟨readModel m, _, N, ?_, hN, fun _ => feasible_parts .., fun _ _ => objective_parts .., fun _ => direction_parts ..,
    fun hd z => best_parts _ _ _ (readModel m) ?_ hd z⟩
  · refine ⟨⟨rfl, rfl⟩, rfl, ⟨nearTerms_read m.obj m.obj.const, rfl⟩, rfl, fun c _ => ⟨rfl, rfl, nearTerms_read (m.con c).expr _, ?_⟩⟩
    have := formatE_close (-(m.con c).expr.const)
    unfold SevenDigits readModel
    dsimp only
    rw [abs_neg] at this
    rw [← abs_neg]
    refine le_trans (le_of_eq ?_) this
    congr 1
    ring
  · refine ⟨?_, ?_⟩
    · intro t ht
      obtain ⟨t', ht', rfl⟩ := List.mem_map.1 ht
      exact hcl.objective t' ht'
    · intro c hc t ht
      obtain ⟨t', ht', rfl⟩ := List.mem_map.1 ht
      exact hcl.constraints c hc t' ht'

/-- A reader of the file gets a document with the same constraints, objective and direction, in which every name is spelled
as the reader of the library spells it; if these names are different for different variables, the best objectives are those of
the model up to the constant. -/
theorem file_is_the_problem_partial (name : Str) (vname : VarId → Str) (cname : ConId → Str) (m : MState) (hp : Printable m)
    (hcl : Closed m) (ht : '"' ∉ name) (hv : ∀ v ∈ m.varIds, '"' ∉ vname v) (hcn : ∀ c ∈ m.conIds, '"' ∉ cname c) :
    ∃ d N, (∀ fuel ≥ N, readObject fuel (file name vname cname m) = some d) ∧
      (∀ a, FeasibleDoc d a ↔ FeasibleOn m (fun v => a (respell (vname v)))) ∧
      (∀ a z, ObjectiveDoc d a z ↔ z + m.obj.const = exprValue m.obj (fun v => a (respell (vname v)))) ∧
      (∀ b, Says (.obj d) "is_minimization" (.bool b) ↔ b = m.isMin) ∧
      (Distinct (fun v => respell (vname v)) m → ∀ z, BestDoc d z ↔ BestOn m (z + m.obj.const)) := by
  obtain ⟨N, hN⟩ := file_echo name vname cname m hp hcl ht hv hcn
  exact ⟨_, N, hN, fun _ => feasible_parts .., fun _ _ => objective_parts .., fun _ => direction_parts ..,
    fun hd z => best_parts _ _ _ _ hcl hd z⟩

/-! ## Names that stay different -/

/-- Undoes the spelling of the reader. -/
def unspell : Str → Str
  | [] => []
  | [c] => [c]
  | c :: d :: r =>
    if c = ' ' ∧ (d = ']' ∨ d = '}') then d :: unspell r
    else if (c = '[' ∨ c = '{') ∧ d = ' ' then c :: unspell r
    else c :: unspell (d :: r)

theorem unspell_other (c : Char) (r : Str) (h1 : c ≠ '[' ∧ c ≠ '{') (h2 : c = ' ' → r.head? ≠ some ']' ∧ r.head? ≠ some '}') :
    unspell (c :: r) = c :: unspell r := by
  cases r with
  | nil => rfl
  | cons d r =>
    rw [unspell, if_neg, if_neg (by tauto)]
    rintro ⟨e, hd⟩
    obtain ⟨h3, h4⟩ := h2 e
    rcases hd with rfl | rfl
    · exact h3 rfl
    · exact h4 rfl

theorem unspell_respell (s : Str) (h : ∀ c ∈ s, c ∉ [',', ':', '\n']) : unspell (respell s) = s := by
  induction s with
  | nil => rfl
  | cons c s ih =>
    have ih := ih fun d hd => h d (by simp [hd])
    have hc := h c (by simp)
    simp only [List.mem_cons, List.not_mem_nil, or_false, not_or] at hc
    have hr : respell (c :: s) = respellChar c ++ respell s := by unfold respell; rw [List.flatMap_cons]
    have hh : (respell s).head? ≠ some ']' ∧ (respell s).head? ≠ some '}' := by
      cases s with
      | nil => exact ⟨by decide, by decide⟩
      | cons d s =>
        have hd := h d (by simp)
        simp only [List.mem_cons, List.not_mem_nil, or_false, not_or] at hd
        have hr : respell (d :: s) = respellChar d ++ respell s := by unfold respell; rw [List.flatMap_cons]
        rw [hr]
        unfold respellChar
        rw [if_neg hd.2.2, if_neg hd.1, if_neg hd.2.1]
        by_cases h1 : d = '{'
        · rw [if_pos h1]; exact ⟨by simp, by simp⟩
        rw [if_neg h1]
        by_cases h2 : d = '}'
        · rw [if_pos h2]; exact ⟨by simp, by simp⟩
        rw [if_neg h2]
        by_cases h3 : d = '['
        · rw [if_pos h3]; exact ⟨by simp, by simp⟩
        rw [if_neg h3]
        by_cases h4 : d = ']'
        · rw [if_pos h4]; exact ⟨by simp, by simp⟩
        rw [if_neg h4]
        exact ⟨by simpa using h4, by simpa using h2⟩
    rw [hr]
    unfold respellChar
    rw [if_neg hc.2.2, if_neg hc.1, if_neg hc.2.1]
    by_cases h1 : c = '{'
    · rw [if_pos h1, h1]
      show unspell ('{' :: ' ' :: respell s) = _
      rw [unspell, if_neg (by decide), if_pos (by decide), ih]
    rw [if_neg h1]
    by_cases h2 : c = '}'
    · rw [if_pos h2, h2]
      show unspell (' ' :: '}' :: respell s) = _
      rw [unspell, if_pos (by decide), ih]
    rw [if_neg h2]
    by_cases h3 : c = '['
    · rw [if_pos h3, h3]
      show unspell ('[' :: ' ' :: respell s) = _
      rw [unspell, if_neg (by decide), if_pos (by decide), ih]
    rw [if_neg h3]
    by_cases h4 : c = ']'
    · rw [if_pos h4, h4]
      show unspell (' ' :: ']' :: respell s) = _
      rw [unspell, if_pos (by decide), ih]
    rw [if_neg h4, List.singleton_append, unspell_other c _ ⟨h3, h1⟩ (fun _ => hh), ih]

/-- Names without commas, colons and line ends, with any brackets, stay different. -/
theorem names_stay_different (vname : VarId → Str) (m : MState) (h : ∀ v ∈ m.varIds, ∀ c ∈ vname v, c ∉ [',', ':', '\n'])
    (hd : Distinct vname m) : Distinct (fun v => respell (vname v)) m := by
  intro v hv w hw e
  refine hd v hv w hw ?_
  rw [← unspell_respell _ (h v hv), ← unspell_respell _ (h w hw)]
  exact congrArg unspell e

/-! ## A file written after a call -/

theorem bestOn_iff (m : MState) (hcl : Closed m) (ho : m.objDefined = true) (hx : ∀ v, v ∉ m.varIds → ∃ x, Admits (m.var v) x) (y : ℚ) :
    BestOn m y ↔ IsBest m (if m.isMin then y else -y) := by
  classical
  have lift : ∀ σ, FeasibleOn m σ → ∃ τ, Feasible m τ ∧ exprValue m.obj τ = exprValue m.obj σ := by
    intro σ hσ
    have hag : ∀ v ∈ m.varIds, σ v = (fun v => if hv : v ∈ m.varIds then σ v else (hx v hv).choose) v := by
      intro v hv
      dsimp only
      rw [dif_pos hv]
    refine ⟨fun v => if hv : v ∈ m.varIds then σ v else (hx v hv).choose, ⟨fun v => ?_, ?_⟩, ?_⟩
    · dsimp only
      by_cases hv : v ∈ m.varIds
      · rw [dif_pos hv]; exact hσ.1 v hv
      · rw [dif_neg hv]; exact (hx v hv).choose_spec
    · exact (feasible_congr m hcl σ _ hag hσ).2
    · exact (exprValue_congr _ _ _ fun t ht => hag _ (hcl.objective t ht)).symm
  have low : ∀ σ, Feasible m σ → FeasibleOn m σ := fun σ h => ⟨fun v _ => h.1 v, h.2⟩
  unfold BestOn IsBest minObjective
  simp only [ho, if_true]
  cases hm : m.isMin
  · simp only [Bool.false_eq_true, if_false]
    constructor
    · rintro ⟨⟨σ, h1, h2⟩, h3⟩
      obtain ⟨τ, h4, h5⟩ := lift σ h1
      exact ⟨⟨τ, h4, by rw [h5, h2]⟩, fun ρ hρ => neg_le_neg (h3 ρ (low ρ hρ))⟩
    · rintro ⟨⟨σ, h1, h2⟩, h3⟩
      refine ⟨⟨σ, low σ h1, neg_injective h2⟩, fun ρ hρ => ?_⟩
      obtain ⟨τ, h4, h5⟩ := lift ρ hρ
      have := h3 τ h4
      rw [h5] at this
      exact neg_le_neg_iff.1 this
  · simp only [if_true]
    constructor
    · rintro ⟨⟨σ, h1, h2⟩, h3⟩
      obtain ⟨τ, h4, h5⟩ := lift σ h1
      exact ⟨⟨τ, h4, by rw [h5, h2]⟩, fun ρ hρ => h3 ρ (low ρ hρ)⟩
    · rintro ⟨⟨σ, h1, h2⟩, h3⟩
      refine ⟨⟨σ, low σ h1, h2⟩, fun ρ hρ => ?_⟩
      obtain ⟨τ, h4, h5⟩ := lift ρ hρ
      have := h3 τ h4
      rwa [h5] at this

/-- The command line program writes the file after the call.  If what the call has done to the model keeps the optimum, the
best objective of the file is that of the model that was given, up to the constant. -/
theorem file_after_a_call_partial (name : Str) (vname : VarId → Str) (cname : ConId → Str) (m m' : MState) (hk : KeepsOptimum m m')
    (hcl : Closed m') (hd : Distinct vname m') (ho : m'.objDefined = true)
    (hx : ∀ v, v ∉ m'.varIds → ∃ x, Admits (m'.var v) x) (z : ℚ) :
    BestDoc (document name vname cname m') z ↔ IsBest m (if m'.isMin then z + m'.obj.const else -(z + m'.obj.const)) := by
  rw [document_has_the_best_value name vname cname m' hcl hd, bestOn_iff m' hcl ho hx, ← hk.best]

/-! ## Examples -/

/-- Names as the library gives them. -/
def exampleNames (v : VarId) : Str := if v = 0 then "x[0, 0]".toList else if v = 1 then "x[0, 1]".toList else "y".toList
/-- Names as the library gives them. -/
def exampleConstraints (c : ConId) : Str := if c = 0 then "c[0]".toList else if c = 1 then "c[1]".toList else "d".toList

theorem example_printable : Printable Example.raw := by
  refine ⟨?_, ?_, ?_⟩
  · intro v hv
    have : v = 0 ∨ v = 1 ∨ v = 2 := by simpa [Example.raw] using hv
    rcases this with rfl | rfl | rfl <;> decide
  · intro t ht
    have : t = (0, -2) ∨ t = (1, 1) ∨ t = (2, 3) := by simpa [Example.raw] using ht
    rcases this with rfl | rfl | rfl <;> decide +kernel
  · intro c hc
    have : c = 0 ∨ c = 1 ∨ c = 2 := by simpa [Example.raw] using hc
    rcases this with rfl | rfl | rfl <;> exact ⟨by decide +kernel, by decide +kernel⟩

theorem example_closed : Closed Example.raw := by
  refine ⟨by decide, ?_⟩
  intro c hc
  have : c = 0 ∨ c = 1 ∨ c = 2 := by simpa [Example.raw] using hc
  rcases this with rfl | rfl | rfl <;> decide

theorem example_distinct : Distinct (fun v => respell (exampleNames v)) Example.raw := by
  intro v hv w hw
  have h1 : v = 0 ∨ v = 1 ∨ v = 2 := by simpa [Example.raw] using hv
  have h2 : w = 0 ∨ w = 1 ∨ w = 2 := by simpa [Example.raw] using hw
  rcases h1 with rfl | rfl | rfl <;> rcases h2 with rfl | rfl | rfl <;> decide

/-- The model of three variables and three constraints, with the names of array elements, meets the hypotheses: the file is
read, `x[0, 0] = 1`, `x[0, 1] = 0` and `y = 1` is feasible for it with the objective 1, which is the best. -/
example : ∃ d N, (∀ fuel ≥ N, readObject fuel (file "knapsack".toList exampleNames exampleConstraints Example.raw) = some d) ∧
    FeasibleDoc d (fun n => if n = "x[ 0  0 ]".toList ∨ n = "y".toList then 1 else 0) ∧
    ObjectiveDoc d (fun n => if n = "x[ 0  0 ]".toList ∨ n = "y".toList then 1 else 0) 1 ∧ ∀ z, BestDoc d z ↔ BestOn Example.raw z := by
  obtain ⟨d, N, h1, h2, h3, -, h5⟩ := file_is_the_problem_partial "knapsack".toList exampleNames exampleConstraints Example.raw example_printable
    example_closed (by decide) (by
      intro v hv
      have h1 : v = 0 ∨ v = 1 ∨ v = 2 := by simpa [Example.raw] using hv
      rcases h1 with rfl | rfl | rfl <;> decide) (by
      intro v hv
      have h1 : v = 0 ∨ v = 1 ∨ v = 2 := by simpa [Example.raw] using hv
      rcases h1 with rfl | rfl | rfl <;> decide)
  refine ⟨d, N, h1, (h2 _).2 ⟨?_, ?_⟩, (h3 _ _).2 (by decide +kernel), fun z => ?_⟩
  · intro v hv
    have h1 : v = 0 ∨ v = 1 ∨ v = 2 := by simpa [Example.raw] using hv
    rcases h1 with rfl | rfl | rfl <;> exact ⟨by decide, by decide⟩
  · intro c hc _
    have h1 : c = 0 ∨ c = 1 ∨ c = 2 := by simpa [Example.raw] using hc
    unfold Holds
    rcases h1 with rfl | rfl | rfl
    · show (_ : ℚ) ≤ 0; decide +kernel
    · show (_ : ℚ) ≥ 0; decide +kernel
    · show (_ : ℚ) = 0; decide +kernel
  · rw [h5 example_distinct z, show Example.raw.obj.const = 0 from rfl, add_zero]

/-- A coefficient of a third is in the file with seven digits. -/
example : ∃ m' d N, Near { Example.raw with obj := ⟨[(0, 1 / 3)], 0, 0⟩ } m' ∧
    (∀ fuel ≥ N, readObject fuel (file "knapsack".toList exampleNames exampleConstraints { Example.raw with obj := ⟨[(0, 1 / 3)], 0, 0⟩ }) =
      some d) ∧ ∀ a, FeasibleDoc d a ↔ FeasibleOn m' (fun v => a (respell (exampleNames v))) := by
  obtain ⟨m', d, N, h1, h2, h3, -⟩ := file_is_near_the_problem "knapsack".toList exampleNames exampleConstraints
    { Example.raw with obj := ⟨[(0, 1 / 3)], 0, 0⟩ } example_printable.ints
    ⟨fun t ht => by
      have : t = (0, 1 / 3) := by simpa using ht
      rw [this]; exact List.mem_cons_self .., example_closed.constraints⟩ (by decide) (by
      intro v hv
      have h1 : v = 0 ∨ v = 1 ∨ v = 2 := by simpa [Example.raw] using hv
      rcases h1 with rfl | rfl | rfl <;> decide) (by
      intro v hv
      have h1 : v = 0 ∨ v = 1 ∨ v = 2 := by simpa [Example.raw] using hv
      rcases h1 with rfl | rfl | rfl <;> decide)
  exact ⟨m', d, N, h1, h2, h3⟩

/-! ## What the file does not say -/

/-- The constant of the objective is not written: models that differ in it have the same file, and different objectives. -/
theorem objective_constant_is_lost (name : Str) (vname : VarId → Str) (cname : ConId → Str) (m : MState) (k : ℚ) :
    file name vname cname { m with obj := { m.obj with const := m.obj.const + k } } = file name vname cname m ∧
    ∀ σ, exprValue { m.obj with const := m.obj.const + k } σ = exprValue m.obj σ + k := by
  refine ⟨rfl, fun σ => ?_⟩
  unfold exprValue
  dsimp only
  ring

/-- A model without a name is written with the name `null`, not `untitled`, and is read back so. -/
theorem no_name_is_null (vname : VarId → Str) (cname : ConId → Str) (m : MState) (w : Val) :
    Says (.obj (document [] vname cname m)) "name" w ↔ w = .null :=
  says_iff _ (parts_nodup _ vname cname m) "name" _ w (.head _)

/-- Two variables, fixed at 0 and 1, without constraints. -/
def pair : MState :=
  { Example.raw with
    varIds := [0, 1]
    conIds := []
    obj := ⟨[], 0, 0⟩
    var := fun v => { Example.bin0 with fixed := true, value := if v = 0 then 0 else 1 } }

/-- Variables with different names become one variable for the reader of the file if the names differ in commas and colons
only: the model has a solution, the file has none. -/
theorem names_become_equal : ∃ vname : VarId → Str, Distinct vname pair ∧ (∃ σ, FeasibleOn pair σ) ∧
    ∃ d N, (∀ fuel ≥ N, readObject fuel (file "pair".toList vname (fun _ => []) pair) = some d) ∧ ∀ a, ¬ FeasibleDoc d a := by
  have hm : ∀ v, v ∈ pair.varIds → v = 0 ∨ v = 1 := fun v hv => by simpa [pair] using hv
  refine ⟨fun v => if v = 0 then "a,b".toList else "a:b".toList, ?_, ⟨fun v => if v = 0 then 0 else 1, ?_, ?_⟩, ?_⟩
  · intro v hv w hw
    rcases hm v hv with rfl | rfl <;> rcases hm w hw with rfl | rfl <;> decide
  · intro v _
    exact ⟨fun _ => rfl, fun h => by cases h⟩
  · intro c hc
    exact absurd hc (by simp [pair])
  · obtain ⟨d, N, h1, h2, -⟩ := file_is_the_problem_partial "pair".toList (fun v => if v = 0 then "a,b".toList else "a:b".toList)
      (fun _ => []) pair
      ⟨fun v hv => by rcases hm v hv with rfl | rfl <;> decide, fun t ht => absurd ht (by simp [pair]),
        fun c hc => absurd hc (by simp [pair])⟩
      ⟨fun t ht => absurd ht (by simp [pair]), fun c hc => absurd hc (by simp [pair])⟩ (by decide)
      (fun v hv => by rcases hm v hv with rfl | rfl <;> decide) (fun c hc => absurd hc (by simp [pair]))
    refine ⟨d, N, h1, fun a ha => ?_⟩
    obtain ⟨hb, -⟩ := (h2 a).1 ha
    have e0 := (hb 0 (by simp [pair])).1 rfl
    have e1 := (hb 1 (by simp [pair])).1 rfl
    replace e0 : a "a b".toList = 0 := e0
    replace e1 : a "a b".toList = 1 := e1
    rw [e0] at e1
    exact absurd e1 (by decide)

/-- Two variables, the second one defined as the first one by the presolver. -/
def defined : MState :=
  { Example.raw with
    varIds := [0, 1]
    conIds := []
    uexpr := fun _ => { expr := ⟨[(0, 1)], 0, 0⟩ }
    uexprIds := [0]
    dependents := [(1, 0)] }

/-- The definitions of the variables that the presolver has replaced are not written: a file written after a call accepts
values that the model does not. -/
theorem definitions_are_lost : FeasibleDoc (document "defined".toList exampleNames exampleConstraints defined)
      (fun n => if n = exampleNames 1 then 1 else 0) ∧
    ∀ σ, FeasibleDep defined σ → ¬ (σ 0 = 0 ∧ σ 1 = 1) := by
  refine ⟨(document_is_the_problem _ _ _ _ _).2 ⟨fun v hv => ?_, fun c hc => absurd hc (by simp [defined])⟩, fun σ h => ?_⟩
  · have : v = 0 ∨ v = 1 := by simpa [defined] using hv
    rcases this with rfl | rfl <;> exact ⟨by decide, by decide⟩
  · rintro ⟨h0, h1⟩
    have := h.defs (1, 0) (by simp [defined])
    dsimp only at this
    rw [h1] at this
    have e : exprValue (defined.uexpr 0).expr σ = 0 := by
      show (0 : ℚ) + (List.map (fun t : ℕ × ℚ => t.2 * (σ t.1 : ℚ)) [(0, 1)]).sum = 0
      simp [h0]
    rw [e] at this
    exact absurd this (by decide)

end Printemps.C86
