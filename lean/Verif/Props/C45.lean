import Verif.Lemmas.Scientific
import Verif.Lemmas.Mps
import Verif.Lemmas.Example

/-! # C45 — writing and re-reading a model -/

namespace Printemps.C45
open Spec Mps Text

theorem mapM_map {α β γ : Type} (l : List α) (k : α → β) (f : β → Option γ) (g : α → γ) (h : ∀ a ∈ l, f (k a) = some (g a)) :
    (l.map k).mapM f = some (l.map g) := by
  induction l with
  | nil => rfl
  | cons a l ih =>
    rw [List.map_cons, List.mapM_cons, h a (by simp), ih (fun a ha => h a (by simp [ha]))]
    rfl

theorem findIdx_map {α β : Type} [DecidableEq α] [DecidableEq β] (l : List α) (k : α → β)
    (hinj : ∀ a ∈ l, ∀ b ∈ l, k a = k b → a = b) (a : α) (ha : a ∈ l) :
    (l.map k).findIdx? (fun n => decide (n = k a)) = some (l.idxOf a) := by
  induction l with
  | nil => simp at ha
  | cons b l ih =>
    rw [List.map_cons, List.findIdx?_cons, List.idxOf_cons]
    by_cases e : b = a
    · subst e; simp
    · have hne : k b ≠ k a := fun h => e (hinj b (by simp) a ha h)
      have ha' : a ∈ l := by
        rcases List.mem_cons.1 ha with h | h
        · exact absurd h.symm e
        · exact h
      rw [ih (fun x hx y hy => hinj x (by simp [hx]) y (by simp [hy])) ha']
      simp only [hne, decide_false, Bool.false_eq_true, if_false, Option.map_some, beq_eq_false_iff_ne.2 e, cond_false]

/-- The same variable: both admit the same values and are fixed or free together. -/
def SameVar (x y : Var) : Prop :=
  y.fixed = x.fixed ∧ (x.fixed = true → y.value = x.value) ∧ (x.fixed = false → y.lb = x.lb ∧ y.ub = x.ub) ∧
  ∀ z, Admits y z ↔ Admits x z

/-- The same constraint, when the imported variable `i` is the `i`-th variable of the original model. -/
def SameCon (ids : List ℕ) (c d : Con) : Prop :=
  d.sense = c.sense ∧ ∀ σ : ℕ → ℤ, exprValue d.expr (fun i => σ (ids.getD i 0)) = exprValue c.expr σ

theorem getD_idxOf (l : List ℕ) (v : ℕ) (hv : v ∈ l) : l.getD (l.idxOf v) 0 = v := by
  have hlt : l.idxOf v < l.length := List.idxOf_lt_length_of_mem hv
  rw [List.getD_eq_getElem?_getD, List.getElem?_eq_getElem hlt, Option.getD_some]
  exact List.getElem_idxOf hlt

section
variable {title : Name} {vname : VarId → Name} {cname : ConId → Name} {m : MState}

/-- The variable that the import creates. -/
def newVar (x : Var) : Var :=
  let y : Var := { Var.init with lb := (bounded x).lb, ub := (bounded x).ub, hasBounds := true, value := max (min Var.init.value (bounded x).ub) (bounded x).lb }
  let v := y.setupSense.updateMargin
  if (bounded x).fixed then v.fixBy (bounded x).fixedValue else v

theorem importVar_bounded (x : Var) (h : x.lb ≤ x.ub) : importVar false (bounded x) = some (newVar x) := by
  unfold importVar Var.setBound newVar
  have e1 : (bounded x).integer = true := by unfold bounded; split <;> rfl
  have e2 : ¬ (bounded x).lb > (bounded x).ub := by
    unfold bounded; split
    · exact lt_irrefl _
    · exact not_lt.2 h
  rw [e1, if_neg (by simp), if_neg e2, Option.map_some]

theorem newVar_same (x : Var) : SameVar x (newVar x) := by
  unfold SameVar
  have e : (newVar x).fixed = x.fixed ∧ (x.fixed = true → (newVar x).value = x.value) ∧
      (x.fixed = false → (newVar x).lb = x.lb ∧ (newVar x).ub = x.ub) := by
    unfold newVar bounded Var.updateMargin Var.setupSense Var.fixBy
    cases hx : x.fixed
    · simp only [Bool.false_eq_true, if_false]
      split <;> simp [Var.init]
    · simp only [if_true]
      split <;> simp [Var.updateMargin]
  refine ⟨e.1, e.2.1, e.2.2, fun z => ?_⟩
  unfold Admits
  rw [e.1]
  refine and_congr ?_ ?_
  · refine forall_congr' fun hf => ?_
    rw [e.2.1 hf]
  · refine forall_congr' fun hf => ?_
    rw [(e.2.2 hf).1, (e.2.2 hf).2]

/-- The terms that the import creates from named coefficients. -/
theorem importTerms_mapped (h : Writable title vname cname m) (l : List VarId) (hl : ∀ v ∈ l, v ∈ m.varIds) (q : VarId → ℚ) :
    importTerms (m.varIds.map (fun v => deleteSpace (vname v))) (l.map (fun v => (deleteSpace (vname v), q v))) =
      some (l.map (fun v => (m.varIds.idxOf v, q v))) := by
  unfold importTerms
  refine mapM_map l _ _ _ fun v hv => ?_
  dsimp only
  rw [findIdx_map m.varIds (fun v => deleteSpace (vname v)) h.vinj v (hl v hv), Option.map_some]

theorem sum_terms (ts : List (VarId × ℚ)) (hnd : (ts.map Prod.fst).Nodup) (ids : List VarId) (hids : ids.Nodup)
    (hsub : ∀ t ∈ ts, t.1 ∈ ids) (σ : ℕ → ℤ) :
    (((ids.filter (fun v => v ∈ ts.map Prod.fst)).map (fun v => (ids.idxOf v, Expr.lookup ts v))).map
      (fun t => t.2 * ((σ (ids.getD t.1 0) : ℤ) : ℚ))).sum = (ts.map (fun t => t.2 * (σ t.1 : ℚ))).sum := by
  rw [List.map_map]
  have e1 : ((ids.filter (fun v => v ∈ ts.map Prod.fst)).map
      ((fun t : ℕ × ℚ => t.2 * ((σ (ids.getD t.1 0) : ℤ) : ℚ)) ∘ fun v => (ids.idxOf v, Expr.lookup ts v))).sum =
      ((ids.filter (fun v => v ∈ ts.map Prod.fst)).map (fun v => Expr.lookup ts v * (σ v : ℚ))).sum := by
    refine sum_map_congr _ _ _ fun v hv => ?_
    show Expr.lookup ts v * ((σ (ids.getD (ids.idxOf v) 0) : ℤ) : ℚ) = _
    rw [getD_idxOf ids v (List.mem_filter.1 hv).1]
  have e2 : (ts.map (fun t => t.2 * (σ t.1 : ℚ))).sum = ((ts.map Prod.fst).map (fun v => Expr.lookup ts v * (σ v : ℚ))).sum := by
    rw [List.map_map]
    refine sum_map_congr _ _ _ fun t ht => ?_
    show _ = Expr.lookup ts t.1 * _
    rw [Expr.lookup_of_mem ts hnd t.1 t.2 ht]
  rw [e1, e2]
  refine List.Perm.sum_eq (List.Perm.map _ ?_)
  refine (List.perm_ext_iff_of_nodup (hids.filter _) hnd).2 fun v => ?_
  rw [List.mem_filter, decide_eq_true_iff]
  refine ⟨fun h => h.2, fun h => ⟨?_, h⟩⟩
  obtain ⟨t, ht, rfl⟩ := List.mem_map.1 h
  exact hsub t ht

/-- Every model of the supported kind can be written and read back, and the imported model is the same: names,
variables (bounds, fixed values, admitted integers), constraints (sense and value under every assignment) and the
objective.  Two things change: the objective constant is dropped, and a maximisation is written as the minimisation
of the negated objective. -/
theorem round_trip_partial (h : Writable title vname cname m) :
    ∃ im, ((readMps (writeMps title vname cname m)).bind (importMps false)) = some im ∧
      im.names = m.varIds.map (fun v => deleteSpace (vname v)) ∧
      im.conNames = m.conIds.map (fun c => deleteSpace (cname c)) ∧
      List.Forall₂ (fun v y => SameVar (m.var v) y) m.varIds im.vars ∧
      List.Forall₂ (fun c d => SameCon m.varIds (m.con c) d) m.conIds im.cons ∧
      ∀ σ : ℕ → ℤ, exprValue im.obj (fun i => σ (m.varIds.getD i 0)) =
        if m.isMin then exprValue m.obj σ - m.obj.const else -(exprValue m.obj σ - m.obj.const) := by
  rw [read_write h, Option.bind_some]
  unfold importMps fileOf shape
  dsimp only
  have hvars : (m.varIds.map (fun v => deleteSpace (vname v))).mapM
      (fun n => (Assoc.get (m.varIds.map (fun v => (deleteSpace (vname v), bounded (m.var v)))) n).bind (importVar false)) =
      some (m.varIds.map (fun v => newVar (m.var v))) := by
    refine mapM_map _ _ _ _ fun v hv => ?_
    rw [Assoc.get_mapped m.varIds (fun v => deleteSpace (vname v)) (fun v => bounded (m.var v)) h.vinj v hv, Option.bind_some]
    exact importVar_bounded _ (h.range v hv).2.1
  rw [hvars, Option.bind_some]
  have hterms : ∀ c, importTerms (m.varIds.map (fun v => deleteSpace (vname v))) (coefOf vname m m.varIds c) =
      some ((m.varIds.filter (fun v => v ∈ (m.con c).expr.terms.map Prod.fst)).map
        (fun v => (m.varIds.idxOf v, Expr.lookup (m.con c).expr.terms v))) := fun c =>
    importTerms_mapped h _ (fun v hv => (List.mem_filter.1 hv).1) _
  have hcons : ∀ so : VarId → VarSense, (m.conIds.map (fun c => deleteSpace (cname c))).mapM (fun n =>
      (Assoc.get (m.conIds.map (fun c => (deleteSpace (cname c),
        (⟨(m.con c).sense, coefOf vname m m.varIds c, -(m.con c).expr.const⟩ : MCon)))) n).bind
        (importCon (m.varIds.map (fun v => deleteSpace (vname v))) so)) =
      some (m.conIds.map (fun c => Con.setup ((Expr.create
        ((m.varIds.filter (fun v => v ∈ (m.con c).expr.terms.map Prod.fst)).map
          (fun v => (m.varIds.idxOf v, Expr.lookup (m.con c).expr.terms v))) 0).subValue (-(m.con c).expr.const)) (m.con c).sense so)) := by
    intro so
    refine mapM_map _ _ _ _ fun c hc => ?_
    rw [Assoc.get_mapped m.conIds (fun c => deleteSpace (cname c))
      (fun c => (⟨(m.con c).sense, coefOf vname m m.varIds c, -(m.con c).expr.const⟩ : MCon)) h.cinj c hc, Option.bind_some]
    unfold importCon
    dsimp only
    rw [hterms c, Option.bind_some]
    rfl
  rw [hcons, Option.bind_some]
  unfold objOf
  rw [importTerms_mapped h _ (fun v hv => (List.mem_filter.1 hv).1), Option.map_some]
  refine ⟨_, rfl, rfl, rfl, ?_, ?_, fun σ => ?_⟩
  · rw [List.forall₂_map_right_iff, List.forall₂_same]
    exact fun v _ => newVar_same _
  · rw [List.forall₂_map_right_iff, List.forall₂_same]
    intro c hc
    refine ⟨rfl, fun σ => ?_⟩
    simp only [exprValue, Con.setup, Expr.subValue, Expr.copy, Expr.create, Expr.subAssignValue]
    rw [sum_terms _ (h.con c hc).1 _ h.varIds (fun t ht => ((h.con c hc).2.2 t ht).1) σ]
    ring
  · show exprValue (Expr.create _ 0) _ = _
    unfold exprValue Expr.create
    dsimp only
    have key : ((m.varIds.filter (fun v => |m.objSens v| > EPSILON_10)).map (fun v => m.objSens v * (σ v : ℚ))).sum =
        (m.obj.terms.map (fun t => t.2 * (σ t.1 : ℚ))).sum := by
      rw [← sum_terms _ h.obj.1 _ h.varIds (fun t ht => (h.obj.2 t ht).1) σ, List.map_map]
      have e1 : ((m.varIds.filter (fun v => v ∈ m.obj.terms.map Prod.fst)).map
          ((fun t : ℕ × ℚ => t.2 * ((σ (m.varIds.getD t.1 0) : ℤ) : ℚ)) ∘ fun v => (m.varIds.idxOf v, Expr.lookup m.obj.terms v))).sum =
          ((m.varIds.filter (fun v => v ∈ m.obj.terms.map Prod.fst)).map (fun v => m.objSens v * (σ v : ℚ))).sum := by
        refine sum_map_congr _ _ _ fun v hv => ?_
        have hv' := (List.mem_filter.1 hv).1
        show Expr.lookup m.obj.terms v * ((σ (m.varIds.getD (m.varIds.idxOf v) 0) : ℤ) : ℚ) = _
        rw [getD_idxOf m.varIds v hv', h.objSens v hv']
      rw [e1, sum_filter, sum_filter]
      refine sum_map_congr _ _ _ fun v hv => ?_
      by_cases h0 : m.objSens v = 0
      · rw [h0]; simp
      · have h1 := (objOut_printed h hv h0).1
        have h2 : v ∈ m.obj.terms.map Prod.fst := by
          by_contra hn
          exact h0 ((h.objSens v hv).trans (Expr.lookup_of_not_mem _ _ hn))
        rw [if_pos (by simpa using h1), if_pos (by simpa using h2)]
    rw [List.map_map, ← key]
    have e3 : ∀ s : ℚ, (∀ v, objOut m v = s * m.objSens v) → ((m.varIds.filter (fun v => |m.objSens v| > EPSILON_10)).map
        ((fun t : ℕ × ℚ => t.2 * ((σ (m.varIds.getD t.1 0) : ℤ) : ℚ)) ∘ fun v => (m.varIds.idxOf v, objOut m v))).sum =
        ((m.varIds.filter (fun v => |m.objSens v| > EPSILON_10)).map (fun v => m.objSens v * (σ v : ℚ))).sum * s := by
      intro s hs
      rw [← sum_map_mul_right]
      refine sum_map_congr _ _ _ fun v hv => ?_
      show objOut m v * ((σ (m.varIds.getD (m.varIds.idxOf v) 0) : ℤ) : ℚ) = _
      rw [getD_idxOf m.varIds v (List.mem_filter.1 hv).1, hs]
      ring
    cases hmin : m.isMin
    · rw [e3 (-1) (fun v => by unfold objOut; rw [hmin]; simp)]
      simp
    · rw [e3 1 (fun v => by unfold objOut; rw [hmin]; simp)]
      simp

/-- Assignments are feasible for the imported constraints and variables exactly when they are for the original
ones. -/
theorem round_trip_feasible (h : Writable title vname cname m) (im : Imported)
    (hi : (readMps (writeMps title vname cname m)).bind (importMps false) = some im) (σ : ℕ → ℤ) :
    ((∀ i y, im.vars[i]? = some y → Admits y (σ (m.varIds.getD i 0))) ∧
      (∀ d ∈ im.cons, Holds d (fun i => σ (m.varIds.getD i 0)))) ↔
    ((∀ v ∈ m.varIds, Admits (m.var v) (σ v)) ∧ ∀ c ∈ m.conIds, Holds (m.con c) σ) := by
  obtain ⟨im', e, -, -, hv, hc, -⟩ := round_trip_partial h
  rw [hi] at e
  obtain rfl := Option.some.inj e
  have hcon : ∀ c d, SameCon m.varIds (m.con c) d → (Holds d (fun i => σ (m.varIds.getD i 0)) ↔ Holds (m.con c) σ) := by
    intro c d hs
    unfold Holds
    rw [hs.1, hs.2]
  refine and_congr ?_ ?_
  · obtain ⟨hlen, hget⟩ := List.forall₂_iff_get.1 hv
    constructor
    · intro ha v hv'
      obtain ⟨i, hi, rfl⟩ := List.getElem_of_mem hv'
      have hi' : i < im.vars.length := hlen ▸ hi
      have := ha i im.vars[i] (List.getElem?_eq_getElem hi')
      rw [List.getD_eq_getElem?_getD, List.getElem?_eq_getElem hi, Option.getD_some] at this
      exact ((hget i hi hi').2.2.2 _).1 this
    · intro ha i y hy
      obtain ⟨hi', rfl⟩ := List.getElem?_eq_some_iff.1 hy
      have hi : i < m.varIds.length := hlen ▸ hi'
      rw [List.getD_eq_getElem?_getD, List.getElem?_eq_getElem hi, Option.getD_some]
      exact ((hget i hi hi').2.2.2 _).2 (ha _ (List.getElem_mem hi))
  · obtain ⟨hlen, hget⟩ := List.forall₂_iff_get.1 hc
    constructor
    · intro ha c hc'
      obtain ⟨i, hi, rfl⟩ := List.getElem_of_mem hc'
      have hi' : i < im.cons.length := hlen ▸ hi
      exact (hcon _ _ (hget i hi hi')).1 (ha _ (List.getElem_mem hi'))
    · intro ha d hd
      obtain ⟨i, hi', rfl⟩ := List.getElem_of_mem hd
      have hi : i < m.conIds.length := hlen ▸ hi'
      exact (hcon _ _ (hget i hi hi')).2 (ha _ (List.getElem_mem hi))

end

/-- Integers below one million in absolute value are printed exactly, so models with such coefficients have
`Printed` coefficients. -/
theorem small_integers_printed (n : ℤ) (h : |n| < 1000000) : Printed n := printed_int n h

theorem format_word (q : ℚ) : Word (formatDouble q) := by
  have hdig : ∀ c, isDigit c = true → isSpace c = false := fun c h => (isDigit_ne c h).2.2.1
  have hpos : ∀ q : ℚ, 0 < q → Word (formatPositive q) := by
    intro q hq
    obtain ⟨ip, fp0, tail, x, hdef, hip, hne, hfp, ht, -⟩ := formatPositive_shape q hq
    have hs := (strip_value ip fp0 x).2
    rw [hdef]
    refine ⟨by simp [hne], fun c hc => ?_⟩
    rw [List.mem_append, List.mem_append] at hc
    rcases hc with hc | hc | hc
    · exact hdig c (hip c hc)
    · split at hc
      · simp at hc
      · rcases List.mem_cons.1 hc with rfl | hc
        · decide
        · exact hdig c (hfp c (hs c hc))
    · rcases ht with ⟨rfl, -⟩ | rfl
      · simp at hc
      · unfold exponentText at hc
        rcases List.mem_cons.1 hc with rfl | hc
        · decide
        rcases List.mem_cons.1 hc with rfl | hc
        · split <;> decide
        · split at hc
          · rcases List.mem_cons.1 hc with rfl | hc
            · decide
            · exact hdig c (natChars_digits _ c hc)
          · exact hdig c (natChars_digits _ c hc)
  by_cases hi : q.den = 1 ∧ q.num.natAbs < 1000000
  · have := (formatDouble_int q.num hi.2).1
    rwa [show (q.num : ℚ) = q from by
      conv_rhs => rw [← Rat.num_div_den q, hi.1]
      simp] at this
  unfold formatDouble
  rw [if_neg hi]
  have h0 : q ≠ 0 := by rintro rfl; exact hi (by decide)
  split
  · next h =>
    obtain ⟨h1, h2⟩ := hpos (-q) (by linarith)
    refine ⟨by simp, fun c hc => ?_⟩
    rcases List.mem_cons.1 hc with rfl | hc
    · decide
    · exact h2 c hc
  · next h => exact hpos q (lt_of_le_of_ne (not_lt.1 h) (Ne.symm h0))

/-- Numbers with six digits, with the decimal point anywhere, are `Printed`: 0.125, 12.5 and 3e20 as well as integers. -/
theorem six_digits_printed (k j : ℤ) (h : |k| < 1000000) : Printed ((k : ℚ) * 10 ^ j) := ⟨format_word _, formatDouble_exact k j h⟩

/-- Other numbers are changed by half a unit of the sixth digit at most. -/
theorem coefficients_close (q : ℚ) : Word (formatDouble q) ∧ |atof (formatDouble q) - q| ≤ |q| / 200000 :=
  ⟨format_word q, formatDouble_close q⟩

example : Printed (1 / 8) ∧ Printed (-25 / 2) ∧ ¬ Printed (1 / 3) := by decide +kernel

/-! ## What is lost -/

/-- A model with one variable, one constraint `x <= 3` and the objective `a x`. -/
def tiny (x : Var) (a : ℚ) : MState :=
  let r : MState := { Example.raw with
    var := fun _ => x, varIds := [0], conIds := [0]
    con := fun _ => Con.setup ⟨[(0, 1)], -3, 0⟩ .less (fun _ => .integer)
    obj := ⟨[(0, a)], 0, 0⟩ }
  r.setupSens.setupObjSens
/-- The names of the tiny model. -/
def nx : VarId → Name := fun _ => ['x']
/-- The names of the tiny model. -/
def nc : ConId → Name := fun _ => ['c']
/-- Bounds of the re-read variable. -/
def reread (m : MState) : Option (List (ℤ × ℤ)) :=
  ((readMps (writeMps [] nx nc m)).bind (importMps false)).map (fun im => im.vars.map (fun v => (v.lb, v.ub)))

/-- A non-negative variable without upper bound comes back as a binary variable. -/
theorem nonnegative_becomes_binary : reread (tiny { Var.init with lb := 0, ub := INT_HALF_MAX } 1) = some [(0, 1)] := by
  decide +kernel
/-- A free variable comes back as a binary variable. -/
theorem free_becomes_binary : reread (tiny Var.init 1) = some [(0, 1)] := by decide +kernel
/-- A variable that is only bounded from above comes back as non-negative. -/
theorem lower_bound_lost : reread (tiny { Var.init with ub := 5 } 1) = some [(0, 5)] := by decide +kernel
/-- Coefficients are rounded to six digits. -/
theorem coefficients_rounded : ((readMps (writeMps [] nx nc (tiny { Var.init with lb := 0, ub := 5 } 1234567))).bind
    (importMps false)).map (fun im => im.obj.terms) = some [(0, 1234570)] := by decide +kernel
/-- A variable that occurs nowhere makes the written file unreadable. -/
theorem unused_variable_unreadable :
    (readMps (writeMps [] nx nc { tiny { Var.init with lb := 0, ub := 5 } 0 with conIds := [], sens := fun _ => [] })).isNone := by
  decide +kernel
/-- A variable called `NAME` makes the written file unreadable. -/
theorem name_unreadable : (readMps (writeMps [] (fun _ => kName) nc (tiny { Var.init with lb := 0, ub := 5 } 1))).isNone ∨
    ((readMps (writeMps [] (fun _ => kName) nc (tiny { Var.init with lb := 0, ub := 5 } 1))).bind (importMps false)).map
      (fun im => im.names) ≠ some [kName] := by
  decide +kernel

/-! A line with two entries says the same as two lines with one entry each. -/

theorem addEntry_addVar (i : Bool) (n : Name) (f : File) (e : Name × Name) :
    addEntry n (addVar i n f) e = (addEntry n f e).map (addVar i n) := by
  unfold addEntry addVar
  cases hv : f.vars.get n with
  | some x =>
    dsimp only
    split
    · split
      · simp [hv]
      · cases f.cons.get e.1 <;> simp [hv]
    · simp [hv]
  | none =>
    dsimp only
    split
    · split
      · simp [hv]
      · cases f.cons.get e.1 <;> simp [hv]
    · simp [hv]

theorem addVar_twice (i : Bool) (n : Name) (f : File) : addVar i n (addVar i n f) = addVar i n f := by
  unfold addVar
  cases hv : f.vars.get n with
  | some x => simp [hv]
  | none => simp [Assoc.get_put]

/-- COLUMNS: two coefficients on one line. -/
theorem two_coefficients_on_a_line (i : Bool) (f : File) (n a b c d : Name) (hb : b ≠ kIntOrg ∧ b ≠ kIntEnd)
    (hd : d ≠ kIntOrg ∧ d ≠ kIntEnd) :
    columnsStep i f [n, a, b, c, d] = (columnsStep i f [n, a, b]).bind (fun r => columnsStep r.2 r.1 [n, c, d]) := by
  unfold columnsStep
  simp only [if_neg hb.1, if_neg hb.2]
  simp only [if_neg hd.1, if_neg hd.2, pairs, addEntries]
  cases addEntry n f (a, b) with
  | none => rfl
  | some g =>
    simp only [Option.bind_some, Option.map_some, addEntry_addVar]
    cases addEntry n g (c, d) with
    | none => rfl
    | some k => simp [addVar_twice]

/-- RHS: two right-hand sides on one line. -/
theorem two_right_hand_sides_on_a_line (f : File) (n a b c d : Name) :
    rhsStep f [n, a, b, c, d] = (rhsStep f [n, a, b]).bind (fun g => rhsStep g [n, c, d]) := rfl

/-- RANGES: two ranges on one line. -/
theorem two_ranges_on_a_line (f : File) (n a b c d : Name) :
    rangesStep f [n, a, b, c, d] = (rangesStep f [n, a, b]).bind (fun g => rangesStep g [n, c, d]) := rfl

/-! Non-vacuity: the example model with three variables and three constraints. -/
private def names : ℕ → Name := fun v => ['x', '[', digitChar v, ',', ' ', '0', ']']
private def rows : ℕ → Name := fun c => ['c', digitChar c]
private def big : MState := Example.raw.setupSens.setupObjSens
example : Writable [] names rows big where
  title := Or.inl rfl
  varIds := by decide
  conIds := by decide
  vword := by decide
  cword := by decide
  vinj := by decide
  cinj := by decide
  con := by decide +kernel
  obj := by decide +kernel
  sens := fun v _ => List.Perm.refl _
  objSens := by decide +kernel
  occurs := by decide +kernel
  range := by decide +kernel
  bounds := by decide +kernel

end Printemps.C45
