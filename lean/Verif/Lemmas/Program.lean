import Verif.Spec.Program
import Verif.Props.C72
import Verif.Props.C02
import Verif.Spec.Whole

/-! # Lemmas on programs: what the arrays and operators build, and that statements keep the representation -/

namespace Printemps.Stated
open Spec Program MultiArray Proxy

/-! ## Which variables an expression mentions -/

/-- All variables of the expression have an address below `n`. -/
def Uses (n : ℕ) (e : Expr) : Prop := ∀ v ∈ e.terms.map Prod.fst, v < n

theorem uses_mono {n n' : ℕ} (h : n ≤ n') {e : Expr} (hu : Uses n e) : Uses n' e :=
  fun v hv => lt_of_lt_of_le (hu v hv) h

theorem uses_foldl_upsert (n : ℕ) (us ts : List (VarId × ℚ)) (h : ∀ v ∈ ts.map Prod.fst, v < n)
    (hu : ∀ v ∈ us.map Prod.fst, v < n) :
    ∀ v ∈ (us.foldl (fun ts t => Expr.upsert ts t.1 t.2) ts).map Prod.fst, v < n := by
  induction us generalizing ts with
  | nil => exact h
  | cons t us ih =>
    simp only [List.map_cons, List.mem_cons, forall_eq_or_imp] at hu
    rw [List.foldl_cons]
    refine ih _ ?_ hu.2
    intro v hv
    rcases (Expr.mem_keys_upsert _ _ _ _).1 hv with h1 | rfl
    · exact h v h1
    · exact hu.1

theorem uses_addAssign {n : ℕ} {e f : Expr} (he : Uses n e) (hf : Uses n f) : Uses n (e.addAssign f) :=
  uses_foldl_upsert n _ _ he hf

theorem uses_keys {n : ℕ} {e : Expr} (g : ℚ → ℚ) (he : Uses n e) (f : Expr)
    (hf : f.terms = e.terms.map (fun t => (t.1, g t.2))) : Uses n f := by
  intro v hv
  rw [hf, Expr.keys_map] at hv
  exact he v hv

theorem uses_neg {n : ℕ} {e : Expr} (he : Uses n e) : Uses n e.neg := uses_keys (· * (-1)) he _ rfl
theorem uses_mulAssign {n : ℕ} {e : Expr} (c : ℚ) (he : Uses n e) : Uses n (e.mulAssign c) := uses_keys (· * c) he _ rfl
theorem uses_divAssign {n : ℕ} {e : Expr} (c : ℚ) (he : Uses n e) : Uses n (e.divAssign c) := uses_keys (· / c) he _ rfl
theorem uses_subAssign {n : ℕ} {e f : Expr} (he : Uses n e) (hf : Uses n f) : Uses n (e.subAssign f) :=
  uses_addAssign he (uses_neg hf)

theorem keys_put (l : List (VarId × ℚ)) (v : VarId) (c : ℚ) (w : VarId) (h : w ∈ (put l v c).map Prod.fst) :
    w ∈ l.map Prod.fst ∨ w = v := by
  induction l with
  | nil => simp only [put, List.map_cons, List.map_nil, List.mem_singleton] at h; exact Or.inr h
  | cons t l ih =>
    rw [put] at h
    by_cases e : t.1 = v
    · rw [if_pos e] at h; exact Or.inl h
    · rw [if_neg e] at h
      simp only [List.map_cons, List.mem_cons] at h ⊢
      rcases h with h | h
      · exact Or.inl (Or.inl h)
      · rcases ih h with h | h
        · exact Or.inl (Or.inr h)
        · exact Or.inr h

theorem uses_linear (n : ℕ) (l : List (VarId × ℚ)) (h : ∀ t ∈ l, t.1 < n) : Uses n (linear l) := by
  have : ∀ m : List (VarId × ℚ), (∀ v ∈ m.map Prod.fst, v < n) →
      ∀ v ∈ (l.foldl (fun m t => put m t.1 t.2) m).map Prod.fst, v < n := by
    induction l with
    | nil => exact fun m hm => hm
    | cons t l ih =>
      intro m hm
      rw [List.foldl_cons]
      refine ih (fun t ht => h t (List.mem_cons_of_mem _ ht)) _ ?_
      intro v hv
      rcases keys_put _ _ _ _ hv with h1 | rfl
      · exact hm v h1
      · exact h t List.mem_cons_self
  exact this [] (by simp)

theorem coveredOf_sub (tag : ℕ → List ℕ) (p : List ℤ) (l ps : List ℕ) (h : coveredOf tag p l = .ok ps) :
    ∀ i ∈ ps, i ∈ l := by
  induction l generalizing ps with
  | nil => cases h; simp
  | cons a l ih =>
    rw [coveredOf] at h
    cases hc : covered p (tag a) with
    | none => rw [hc] at h; cases h
    | some b =>
      rw [hc] at h
      cases hr : coveredOf tag p l with
      | ok r =>
        simp only [hr, Outcome.bind, Outcome.ok.injEq] at h
        subst h
        intro i hi
        cases b
        · exact List.mem_cons_of_mem _ (ih r hr i (by simpa using hi))
        · simp only [if_true, List.mem_cons] at hi
          rcases hi with rfl | hi
          · exact List.mem_cons_self
          · exact List.mem_cons_of_mem _ (ih r hr i hi)
      | thrown => simp [hr, Outcome.bind] at h
      | undefined => simp [hr, Outcome.bind] at h

/-! ## Positions -/

theorem flat_lt {shape idx : List ℕ} (hne : shape ≠ []) (h : idx ∈ indices shape) :
    flatIndex shape idx < numberOfElements shape :=
  C13.flat_index_in_range shape idx hne ((C72.mem_indices shape idx).1 h)

theorem flat_inj {shape idx idx' : List ℕ} (hne : shape ≠ []) (h : idx ∈ indices shape) (h' : idx' ∈ indices shape)
    (e : flatIndex shape idx = flatIndex shape idx') : idx = idx' := by
  rw [← C13.multi_index_of_flat_index shape idx hne ((C72.mem_indices shape idx).1 h), e,
    C13.multi_index_of_flat_index shape idx' hne ((C72.mem_indices shape idx').1 h')]

theorem multi_mem {shape : List ℕ} (hne : shape ≠ []) {i : ℕ} (hi : i < numberOfElements shape) :
    multiIndex shape i ∈ indices shape ∧ flatIndex shape (multiIndex shape i) = i := by
  rw [C13.numberOfElements_eq] at hi
  obtain ⟨h1, h2⟩ := C13.core' shape hne i hi
  exact ⟨(C72.mem_indices _ _).2 h1, h2⟩

theorem position_eq {shape idx : List ℕ} (hne : shape ≠ []) (h : idx ∈ indices shape) :
    position shape (ints idx) = .ok (flatIndex shape idx) :=
  C72.position_ok shape idx hne ((C72.mem_indices shape idx).1 h)

theorem count_eq (shape : List ℕ) (hne : shape ≠ []) : (indices shape).length = numberOfElements shape := by
  rw [← C72.map_multi shape hne, List.length_map, List.length_range]

/-- A statement for one element applies to one position, which is the one the target means. -/
theorem single_ok {shapes : List (List ℕ)} {k : ℕ} {tgt : Target} (h : TargetOK shapes k tgt)
    (hne : shapeOf shapes k ≠ []) :
    ∃ i, single (shapeOf shapes k) tgt = .ok i ∧ i < numberOfElements (shapeOf shapes k) ∧
      ∀ idx ∈ indices (shapeOf shapes k), covers tgt idx = true ↔ flatIndex (shapeOf shapes k) idx = i := by
  generalize hs : shapeOf shapes k = shape at *
  cases tgt with
  | whole =>
    have h1 : numberOfElements shape = 1 := by rw [← count_eq shape hne, ← hs]; exact h.2
    refine ⟨0, by rw [single, if_neg (by omega)], by omega, fun idx hidx => ⟨fun _ => ?_, fun _ => rfl⟩⟩
    have := flat_lt hne hidx
    omega
  | elem j =>
    have hj : j ∈ indices shape := hs ▸ h.2
    refine ⟨_, position_eq hne hj, flat_lt hne hj, fun idx hidx => ?_⟩
    simp only [covers, decide_eq_true_eq]
    exact ⟨fun e => e ▸ rfl, fun e => flat_inj hne hidx hj e⟩

/-! ## The representation -/

/-- `σ` gives the variables, by address, the values `val` by array and index. -/
def Agree (s : St) (σ : ℕ → ℤ) (val : Values) : Prop :=
  ∀ k a, s.vars[k]? = some a → ∀ idx ∈ indices a.shape, val k idx = σ (a.base + flatIndex a.shape idx)

/-- The arrays of variables follow each other without gaps from address `b` to `n`. -/
def Laid : ℕ → List VarBlock → ℕ → Prop
  | b, [], n => b = n
  | b, a :: l, n => a.base = b ∧ Laid (b + numberOfElements a.shape) l n

/-- An expression mentions only existing variables, each once, and has the value `f`. -/
structure Good (s : St) (e : Expr) (f : Values → ℚ) : Prop where
  wf : e.WF
  uses : Uses s.next e
  value : ∀ σ val, Agree s σ val → exprValue e σ = f val

/-- A constraint mentions only existing variables, each once, and is the condition `f`. -/
structure GoodCon (s : St) (c : Con) (f : Values → Prop) : Prop where
  wf : c.expr.WF
  uses : Uses s.next c.expr
  holds : ∀ σ val, Agree s σ val → (Holds c σ ↔ f val)

/-- The state of the code represents what was stated. -/
structure Rep (s : St) (m : Meaning) : Prop where
  vshapes : s.vars.map VarBlock.shape = m.vshapes
  eshapes : s.exprs.map (fun a => a.2.shape) = m.eshapes
  cshapes : s.cons.map ConBlock.shape = m.cshapes
  vne : ∀ l ∈ m.vshapes, l ≠ []
  ene : ∀ l ∈ m.eshapes, l ≠ []
  cne : ∀ l ∈ m.cshapes, l ≠ []
  laid : Laid 0 s.vars s.next
  fresh : ∀ v, s.next ≤ v → s.mem v = Var.init
  range : ∀ k a, s.vars[k]? = some a → ∀ idx ∈ indices a.shape,
    (s.mem (a.base + flatIndex a.shape idx)).lb = m.lower k idx ∧
    (s.mem (a.base + flatIndex a.shape idx)).ub = m.upper k idx ∧
    (s.mem (a.base + flatIndex a.shape idx)).fixed = false
  expr : ∀ k a, s.exprs[k]? = some a → ∀ idx ∈ indices a.2.shape,
    Good s (a.2.elem (flatIndex a.2.shape idx)).expr (m.expr k idx)
  tags : ∀ k a, s.exprs[k]? = some a → m.replaced k = false → C72.Tagged a.2
  con : ∀ k a, s.cons[k]? = some a → ∀ idx ∈ indices a.shape,
    GoodCon s (a.con (flatIndex a.shape idx)) (m.con k idx) ∧
    (a.con (flatIndex a.shape idx)).enabled = m.active k idx
  goal : Good s s.obj m.goal
  hasGoal : s.objDefined = m.hasGoal
  minimize : s.isMin = m.minimize

theorem lookup_shape {α : Type} (l : List α) (f : α → List ℕ) (shapes : List (List ℕ)) (h : l.map f = shapes) (k : ℕ)
    (hk : k < shapes.length) : ∃ a, l[k]? = some a ∧ shapeOf shapes k = f a := by
  subst h
  rw [List.length_map] at hk
  refine ⟨l[k], List.getElem?_eq_getElem hk, ?_⟩
  simp [shapeOf, hk]

theorem shape_of_lookup {α : Type} (l : List α) (f : α → List ℕ) (shapes : List (List ℕ)) (h : l.map f = shapes) (k : ℕ)
    (a : α) (ha : l[k]? = some a) : k < shapes.length ∧ shapeOf shapes k = f a := by
  subst h
  refine ⟨?_, by simp [shapeOf, ha]⟩
  rw [List.length_map]
  exact (List.getElem?_eq_some_iff.1 ha).1

theorem shapeOf_mem (shapes : List (List ℕ)) (k : ℕ) (hk : k < shapes.length) : shapeOf shapes k ∈ shapes := by
  simp [shapeOf, hk]

theorem laid_block (l : List VarBlock) (b n : ℕ) (h : Laid b l n) :
    b ≤ n ∧ ∀ (k : ℕ) a, l[k]? = some a → b ≤ a.base ∧ a.base + numberOfElements a.shape ≤ n := by
  induction l generalizing b with
  | nil => cases h; simp
  | cons x l ih =>
    obtain ⟨h1, h2⟩ := h
    obtain ⟨g1, g2⟩ := ih _ h2
    refine ⟨by omega, ?_⟩
    intro k a hk
    cases k with
    | zero => simp only [List.getElem?_cons_zero, Option.some.injEq] at hk; subst hk; exact ⟨by omega, by omega⟩
    | succ k =>
      obtain ⟨q1, q2⟩ := g2 k a (by simpa using hk)
      exact ⟨by omega, q2⟩

/-- Different arrays occupy different addresses. -/
theorem laid_disjoint (l : List VarBlock) (b n : ℕ) (h : Laid b l n) (k k' : ℕ) (a a' : VarBlock)
    (hk : l[k]? = some a) (hk' : l[k']? = some a') (i i' : ℕ) (hi : i < numberOfElements a.shape)
    (hi' : i' < numberOfElements a'.shape) (e : a.base + i = a'.base + i') : k = k' ∧ i = i' := by
  induction l generalizing b k k' with
  | nil => simp at hk
  | cons x l ih =>
    obtain ⟨h1, h2⟩ := h
    obtain ⟨_, g2⟩ := laid_block _ _ _ h2
    cases k with
    | zero =>
      simp only [List.getElem?_cons_zero, Option.some.injEq] at hk
      subst hk
      cases k' with
      | zero =>
        simp only [List.getElem?_cons_zero, Option.some.injEq] at hk'
        subst hk'
        exact ⟨rfl, by omega⟩
      | succ k' =>
        have := (g2 k' a' (by simpa using hk')).1
        omega
    | succ k =>
      have q := g2 k a (by simpa using hk)
      cases k' with
      | zero =>
        simp only [List.getElem?_cons_zero, Option.some.injEq] at hk'
        subst hk'
        omega
      | succ k' =>
        obtain ⟨r1, r2⟩ := ih _ h2 k k' (by simpa using hk) (by simpa using hk')
        exact ⟨by omega, r2⟩

/-- Every address below `n` belongs to an array. -/
theorem laid_cover (l : List VarBlock) (b n : ℕ) (h : Laid b l n) (v : ℕ) (h1 : b ≤ v) (h2 : v < n) :
    ∃ (k : ℕ) (a : VarBlock), l[k]? = some a ∧ ∃ i < numberOfElements a.shape, v = a.base + i := by
  induction l generalizing b with
  | nil => cases h; omega
  | cons x l ih =>
    obtain ⟨e, hr⟩ := h
    by_cases hv : v < b + numberOfElements x.shape
    · exact ⟨0, x, rfl, v - b, by omega, by omega⟩
    · obtain ⟨k, a, hk, r⟩ := ih _ hr (by omega)
      exact ⟨k + 1, a, by simpa using hk, r⟩

theorem laid_append (l : List VarBlock) (b n : ℕ) (h : Laid b l n) (a : VarBlock) (ha : a.base = n) :
    Laid b (l ++ [a]) (n + numberOfElements a.shape) := by
  induction l generalizing b with
  | nil => cases h; exact ⟨ha, rfl⟩
  | cons x l ih => exact ⟨h.1, ih _ h.2⟩

/-! ## Terms -/

section Terms
variable {s : St} {m : Meaning}

theorem distinct (a : VarBlock) : C72.Distinct a.array := by
  intro i _ j _ e
  have : a.base + i = a.base + j := e
  omega

theorem values (hne : ∀ (k : ℕ) (a : VarBlock), s.vars[k]? = some a → a.shape ≠ []) {k : ℕ} {a : VarBlock} (hk : s.vars[k]? = some a)
    {σ : ℕ → ℤ} {val : Values} (h : Agree s σ val) : C72.VarValues a.array σ (val k) := by
  intro idx hidx
  refine ⟨a.base + flatIndex a.shape idx, ?_, h k a hk idx hidx⟩
  have := position_eq (hne k a hk) hidx
  unfold VarArray.at'
  have h' : position a.array.shape (idx.map (fun i : ℕ => (i : ℤ))) = .ok (flatIndex a.shape idx) := this
  rw [h']; rfl

theorem Good.of_eval {e : Expr} {f : Values → ℚ} (h1 : e.WF) (h2 : Uses s.next e)
    (h3 : ∀ σ val, Agree s σ val → e.evaluate σ = f val) : Good s e f :=
  ⟨h1, h2, fun σ val h => by rw [C72.exprValue_eq]; exact h3 σ val h⟩

theorem Good.eval {e : Expr} {f : Values → ℚ} (h : Good s e f) {σ : ℕ → ℤ} {val : Values} (ha : Agree s σ val) :
    e.evaluate σ = f val := by rw [← C72.exprValue_eq]; exact h.value σ val ha

theorem wf_foldl_sum (a : ExprArray) (ps : List ℕ) (r : Expr) (hr : r.WF) :
    (ps.foldl (fun r i => r.addAssign (a.elem i).expr) r).WF := by
  induction ps generalizing r with
  | nil => exact hr
  | cons i ps ih => exact ih _ (Expr.wf_addAssign _ _ hr)

theorem uses_foldl_sum {n : ℕ} (a : ExprArray) (ps : List ℕ) (r : Expr) (hr : Uses n r)
    (h : ∀ i ∈ ps, Uses n (a.elem i).expr) : Uses n (ps.foldl (fun r i => r.addAssign (a.elem i).expr) r) := by
  induction ps generalizing r with
  | nil => exact hr
  | cons i ps ih =>
    exact ih _ (uses_addAssign hr (h i List.mem_cons_self)) (fun j hj => h j (List.mem_cons_of_mem _ hj))

theorem wf_foldl_dot (a : ExprArray) (ps : List (ℕ × ℚ)) (r : Expr) (hr : r.WF) :
    (ps.foldl (fun r t => r.addAssign ((a.elem t.1).expr.mul t.2)) r).WF := by
  induction ps generalizing r with
  | nil => exact hr
  | cons i ps ih => exact ih _ (Expr.wf_addAssign _ _ hr)

theorem uses_foldl_dot {n : ℕ} (a : ExprArray) (ps : List (ℕ × ℚ)) (r : Expr) (hr : Uses n r)
    (h : ∀ t ∈ ps, Uses n (a.elem t.1).expr) : Uses n (ps.foldl (fun r t => r.addAssign ((a.elem t.1).expr.mul t.2)) r) := by
  induction ps generalizing r with
  | nil => exact hr
  | cons i ps ih =>
    exact ih _ (uses_addAssign hr (uses_mulAssign _ (h i List.mem_cons_self))) (fun j hj => h j (List.mem_cons_of_mem _ hj))

theorem wf_empty : (Expr.create [] 0).WF := List.nodup_nil
theorem uses_empty (n : ℕ) : Uses n (Expr.create [] 0) := by intro v hv; simp [Expr.create] at hv

/-- What the theorem on terms says. -/
def Evaluates (s : St) (m : Meaning) (t : Term) : Prop :=
  ∃ o, eval s t = .ok o ∧ Good s o.expr (fun val => m.denote val t) ∧ (o.like = true → ¬ BareArray t → o.expr.const = 0)

theorem unary {t t' : Term} (g : Expr → Expr) (h : Evaluates s m t)
    (he : eval s t' = (eval s t).bind fun x => .ok (temp (g x.expr)))
    (hg : ∀ e, Good s e (fun val => m.denote val t) → Good s (g e) (fun val => m.denote val t')) : Evaluates s m t' := by
  obtain ⟨o, h1, h2, _⟩ := h
  refine ⟨temp (g o.expr), by rw [he, h1]; rfl, hg _ h2, ?_⟩
  intro hl; simp [temp] at hl

theorem binary {a b t : Term} (g : Expr → Expr → Expr) (ha : Evaluates s m a) (hb : Evaluates s m b)
    (he : eval s t = (eval s a).bind fun x => (eval s b).bind fun y => .ok (temp (g x.expr y.expr)))
    (hg : ∀ e f, Good s e (fun val => m.denote val a) → Good s f (fun val => m.denote val b) →
      Good s (g e f) (fun val => m.denote val t)) : Evaluates s m t := by
  obtain ⟨o, h1, h2, _⟩ := ha
  obtain ⟨o', h1', h2', _⟩ := hb
  refine ⟨temp (g o.expr o'.expr), by rw [he, h1, h1']; rfl, hg _ _ h2 h2', ?_⟩
  intro hl; simp [temp] at hl

theorem cast_sum (l : List (List ℕ)) (f : List ℕ → ℤ) : (((l.map f).sum : ℤ) : ℚ) = (l.map fun i => (f i : ℚ)).sum := by
  induction l with
  | nil => simp
  | cons a l ih => simp [ih]

theorem cast_scalar (cs : List ℚ) (l : List (List ℕ)) (f : List ℕ → ℤ) :
    (List.zipWith (fun c (y : ℤ) => c * (y : ℚ)) cs (l.map f)).sum = scalar cs (l.map fun i => (f i : ℚ)) := by
  unfold scalar
  induction l generalizing cs with
  | nil => simp
  | cons a l ih =>
    cases cs with
    | nil => simp
    | cons c cs => simp [ih]

theorem pick_ok {α : Type} {l : List α} {k : ℕ} {a : α} (h : l[k]? = some a) : pick l k = .ok a := by simp [pick, h]

theorem evaluates (hr : Rep s m) (t : Term) (ht : TermOK m t) : Evaluates s m t := by
  have vne : ∀ (k : ℕ) (a : VarBlock), s.vars[k]? = some a → a.shape ≠ [] := by
    intro k a ha
    obtain ⟨h1, h2⟩ := shape_of_lookup _ _ _ hr.vshapes k a ha
    exact h2 ▸ hr.vne _ (shapeOf_mem _ _ h1)
  have ene : ∀ (k : ℕ) (a : Names.Name × ExprArray), s.exprs[k]? = some a → a.2.shape ≠ [] := by
    intro k a ha
    obtain ⟨h1, h2⟩ := shape_of_lookup s.exprs (fun a => a.2.shape) _ hr.eshapes k a ha
    exact h2 ▸ hr.ene _ (shapeOf_mem _ _ h1)
  have inside : ∀ (k : ℕ) (a : VarBlock), s.vars[k]? = some a → ∀ i < numberOfElements a.shape, a.base + i < s.next := by
    intro k a ha i hi
    have := ((laid_block _ _ _ hr.laid).2 k a ha).2
    omega
  have evals : ∀ (k : ℕ) (a : Names.Name × ExprArray), s.exprs[k]? = some a → ∀ σ val, Agree s σ val →
      C72.ExprValues a.2 σ (fun idx => m.expr k idx val) := by
    intro k a ha σ val hag idx hidx
    refine ⟨(a.2.elem (flatIndex a.2.shape idx)).expr, ?_, ?_⟩
    · have := position_eq (ene k a ha) hidx
      unfold ExprArray.at'
      have h' : position a.2.shape (idx.map (fun i : ℕ => (i : ℤ))) = .ok (flatIndex a.2.shape idx) := this
      rw [h']; rfl
    · exact ((hr.expr k a ha idx hidx).value σ val hag).symm
  have euses : ∀ (k : ℕ) (a : Names.Name × ExprArray), s.exprs[k]? = some a → ∀ i < numberOfElements a.2.shape,
      Good s (a.2.elem i).expr (m.expr k (multiIndex a.2.shape i)) := by
    intro k a ha i hi
    obtain ⟨q1, q2⟩ := multi_mem (ene k a ha) hi
    have := hr.expr k a ha _ q1
    rwa [q2] at this
  induction t with
  | var k idx =>
    obtain ⟨a, ha, hs⟩ := lookup_shape _ _ _ hr.vshapes k ht.1
    have hidx : idx ∈ indices a.shape := hs ▸ ht.2
    have hp : a.array.at' (ints idx) = .ok (a.base + flatIndex a.shape idx) := by
      unfold VarArray.at'
      have h' : position a.array.shape (ints idx) = .ok (flatIndex a.shape idx) := position_eq (vne k a ha) hidx
      rw [h']; rfl
    refine ⟨⟨true, Expr.ofVar (a.base + flatIndex a.shape idx), [0]⟩, ?_, ?_, fun _ _ => rfl⟩
    · rw [eval, pick_ok ha]; simp only [Outcome.bind, hp]
    · refine Good.of_eval (Expr.wf_ofVar _) ?_ ?_
      · intro v hv
        simp only [Expr.ofVar, Expr.create, List.map_cons, List.map_nil, List.mem_singleton] at hv
        rw [hv]; exact inside k a ha _ (flat_lt (vne k a ha) hidx)
      · intro σ val hag
        rw [Expr.evaluate_ofVar, ← hag k a ha idx hidx]; rfl
  | varArr k =>
    obtain ⟨a, ha, hs⟩ := lookup_shape _ _ _ hr.vshapes k ht.1
    have h1 : numberOfElements a.shape = 1 := by rw [← count_eq _ (vne k a ha), ← hs]; exact ht.2
    refine ⟨⟨true, Expr.ofVar (a.base + 0), [0]⟩, ?_, ?_, fun _ _ => rfl⟩
    · rw [eval, pick_ok ha]
      have : a.array.toExpression = .ok (Expr.ofVar (a.base + 0)) := by
        unfold VarArray.toExpression
        have h1' : numberOfElements a.array.shape = 1 := h1
        rw [if_neg (by omega)]; rfl
      simp only [Outcome.bind, this]
    · refine Good.of_eval (Expr.wf_ofVar _) ?_ ?_
      · intro v hv
        simp only [Expr.ofVar, Expr.create, List.map_cons, List.map_nil, List.mem_singleton] at hv
        rw [hv]; exact inside k a ha 0 (by omega)
      · intro σ val hag
        obtain ⟨q1, q2⟩ := multi_mem (vne k a ha) (i := 0) (by omega)
        have := hag k a ha _ q1
        rw [q2] at this
        rw [Expr.evaluate_ofVar, Meaning.denote, hs, ← C72.map_multi _ (vne k a ha), h1]
        simp [this]
  | expr k idx =>
    obtain ⟨a, ha, hs⟩ := lookup_shape s.exprs (fun a => a.2.shape) _ hr.eshapes k ht.1
    have hidx : idx ∈ indices a.2.shape := hs ▸ ht.2
    refine ⟨⟨false, (a.2.elem (flatIndex a.2.shape idx)).expr, (a.2.elem (flatIndex a.2.shape idx)).tag⟩, ?_, ?_, ?_⟩
    · rw [eval, pick_ok ha]; simp only [Outcome.bind, position_eq (ene k a ha) hidx]
    · exact hr.expr k a ha idx hidx
    · intro h; cases h
  | exprArr k =>
    obtain ⟨a, ha, hs⟩ := lookup_shape s.exprs (fun a => a.2.shape) _ hr.eshapes k ht.1
    have h1 : numberOfElements a.2.shape = 1 := by rw [← count_eq _ (ene k a ha), ← hs]; exact ht.2
    refine ⟨⟨true, (a.2.elem 0).expr.copy, [0]⟩, ?_, ?_, ?_⟩
    · rw [eval, pick_ok ha]; simp only [Outcome.bind]; rw [if_neg (by omega)]
    · have g := euses k a ha 0 (by omega)
      refine Good.of_eval g.wf g.uses ?_
      intro σ val hag
      rw [Expr.evaluate_copy, g.eval hag, Meaning.denote, hs, ← C72.map_multi _ (ene k a ha), h1]
      simp
    · intro _ h; exact absurd trivial h
  | sumVar k p =>
    obtain ⟨hk, hp⟩ := ht
    obtain ⟨a, ha, hs⟩ := lookup_shape _ _ _ hr.vshapes k hk
    rw [hs] at hp
    cases p with
    | none =>
      refine ⟨temp a.array.sumAll, by rw [eval, pick_ok ha]; rfl, ⟨?_, ?_, ?_⟩, by intro h; simp [temp] at h⟩
      · have := C72.nodup_keys a.array (distinct a) (List.range (numberOfElements a.shape)) List.nodup_range
          (fun i => List.mem_range.1)
        show (VarArray.sumAll _).WF
        rw [VarArray.sumAll, C72.linear_eq _ (by rw [List.map_map]; exact this)]
        show ((List.map _ (List.range (numberOfElements a.shape))).map Prod.fst).Nodup
        rw [List.map_map]; exact this
      · refine uses_linear _ _ ?_
        intro t ht
        obtain ⟨i, hi, rfl⟩ := List.mem_map.1 ht
        exact inside k a ha i (List.mem_range.1 hi)
      · intro σ val hag
        rw [Meaning.denote, hs, chosen, ← cast_sum]
        exact (C72.sum_over_all a.shape (vne k a ha) _ (distinct a) σ (val k) (values vne ha hag)).2
    | some p =>
      obtain ⟨e, h1, h2, h3⟩ := C72.sum_over_slice a.shape (vne k a ha) _ (distinct a) p hp
      have h1' : a.array.sum p = .ok e := h1
      refine ⟨temp e, by rw [eval, pick_ok ha]; simp only [Outcome.bind, h1'], ⟨h2, ?_, ?_⟩, by intro h; simp [temp] at h⟩
      · unfold VarArray.sum at h1'
        have hp' : a.array.shape.length = p.length := hp.symm
        rw [if_neg (by simpa using hp')] at h1'
        cases hc : coveredOf a.array.tag p (List.range (numberOfElements a.array.shape)) with
        | ok ps =>
          rw [hc] at h1'
          simp only [Outcome.bind, Outcome.ok.injEq] at h1'
          show Uses s.next e
          rw [← h1']
          refine uses_linear _ _ ?_
          intro t ht
          obtain ⟨i, hi, rfl⟩ := List.mem_map.1 ht
          exact inside k a ha i (List.mem_range.1 (coveredOf_sub _ _ _ _ hc i hi))
        | thrown => rw [hc] at h1'; cases h1'
        | undefined => rw [hc] at h1'; cases h1'
      · intro σ val hag
        rw [Meaning.denote, hs, chosen, ← cast_sum]
        exact h3 σ (val k) (values vne ha hag)
  | dotVar k p cs =>
    obtain ⟨hk, hp1, hp2⟩ := ht
    obtain ⟨a, ha, hs⟩ := lookup_shape _ _ _ hr.vshapes k hk
    rw [hs] at hp1 hp2
    cases p with
    | none =>
      have hn : numberOfElements a.shape = cs.length := by rw [← count_eq _ (vne k a ha)]; exact hp1
      have h1 : a.array.dotAll cs =
          .ok (linear (List.zipWith (fun i c => (a.base + i, c)) (List.range (numberOfElements a.shape)) cs)) := by
        unfold VarArray.dotAll
        have e1 : a.array.shape = a.shape := rfl
        simp only [e1]
        rw [if_neg (by simpa using hp2), if_neg (by simpa using hn)]; rfl
      have hkeys : ((List.zipWith (fun i c => (a.base + i, c)) (List.range (numberOfElements a.shape)) cs).map Prod.fst).Nodup := by
        rw [C72.zipWith_keys (fun i => a.base + i) _ _ (by simpa using hn)]
        exact C72.nodup_keys a.array (distinct a) _ List.nodup_range (fun i => List.mem_range.1)
      refine ⟨temp _, by rw [eval, pick_ok ha]; simp only [Outcome.bind, h1]; rfl, ⟨?_, ?_, ?_⟩, by intro h; simp [temp] at h⟩
      · show (linear _).WF
        rw [C72.linear_eq _ hkeys]; exact hkeys
      · refine uses_linear _ _ ?_
        intro t ht
        have : t.1 ∈ (List.zipWith (fun i c => (a.base + i, c)) (List.range (numberOfElements a.shape)) cs).map Prod.fst :=
          List.mem_map_of_mem ht
        rw [C72.zipWith_keys (fun i => a.base + i) _ _ (by simpa using hn)] at this
        obtain ⟨i, hi, e⟩ := List.mem_map.1 this
        rw [← e]
        exact inside k a ha i (List.mem_range.1 hi)
      · intro σ val hag
        show exprValue (linear _) σ = _
        rw [C72.linear_eq _ hkeys, Meaning.denote, hs, chosen, ← cast_scalar]
        simp only [exprValue, Expr.create, zero_add]
        rw [C72.zipWith_value (fun i => a.base + i), ← C72.map_multi _ (vne k a ha), List.map_map]
        congr 2
        apply List.map_congr_left
        intro i hi
        exact (C72.val_multi a.shape (vne k a ha) _ σ (val k) (values vne ha hag) i (List.mem_range.1 hi)).symm
    | some p =>
      obtain ⟨g1, g2, g3⟩ := C72.dot_over_slice a.shape (vne k a ha) _ (distinct a) p cs
      cases hd : a.array.dot p cs with
      | thrown =>
        exfalso
        rcases g1.1 hd with h | h | h
        · exact h hp2.1
        · omega
        · exact h hp1
      | undefined => exact absurd hd g2
      | ok e =>
        obtain ⟨h2, h3⟩ := g3 e hd
        refine ⟨temp e, by rw [eval, pick_ok ha]; simp only [Outcome.bind, hd], ⟨h2, ?_, ?_⟩, by intro h; simp [temp] at h⟩
        · unfold VarArray.dot at hd
          have hp' : a.array.shape.length = p.length := hp2.1.symm
          rw [if_neg (by simpa using hp')] at hd
          have hc2 : ¬ countAll p ≥ 2 := by
            have : countAll p = (p.filter (fun x => x = -1)).length := rfl
            omega
          rw [if_neg hc2] at hd
          cases hc : coveredOf a.array.tag p (List.range (numberOfElements a.array.shape)) with
          | ok ps =>
            rw [hc] at hd
            simp only [Outcome.bind] at hd
            by_cases hl : ps.length ≠ cs.length
            · rw [if_pos hl] at hd; cases hd
            · rw [if_neg hl] at hd
              push Not at hl
              simp only [Outcome.ok.injEq] at hd
              show Uses s.next e
              rw [← hd]
              refine uses_linear _ _ ?_
              intro t ht
              have : t.1 ∈ (List.zipWith (fun i c => (a.array.var i, c)) ps cs).map Prod.fst := List.mem_map_of_mem ht
              rw [C72.zipWith_keys _ _ _ hl] at this
              obtain ⟨i, hi, e⟩ := List.mem_map.1 this
              rw [← e]
              exact inside k a ha i (List.mem_range.1 (coveredOf_sub _ _ _ _ hc i hi))
          | thrown => rw [hc] at hd; cases hd
          | undefined => rw [hc] at hd; cases hd
        · intro σ val hag
          rw [Meaning.denote, hs, chosen, ← cast_scalar]
          exact h3 σ (val k) (values vne ha hag)
  | sumExpr k p =>
    obtain ⟨hk, hp, hrep⟩ := ht
    obtain ⟨a, ha, hs⟩ := lookup_shape s.exprs (fun a => a.2.shape) _ hr.eshapes k hk
    rw [hs] at hp
    cases p with
    | none =>
      refine ⟨temp a.2.sumAll, by rw [eval, pick_ok ha]; rfl, ⟨?_, ?_, ?_⟩, by intro h; simp [temp] at h⟩
      · exact wf_foldl_sum _ _ _ wf_empty
      · exact uses_foldl_sum _ _ _ (uses_empty _) (fun i hi => (euses k a ha i (List.mem_range.1 hi)).uses)
      · intro σ val hag
        rw [Meaning.denote, hs, chosen]
        exact C72.expression_sum_over_all a.2 (ene k a ha) σ _ (evals k a ha σ val hag)
    | some p =>
      have htag := hr.tags k a ha (by simpa using hrep)
      obtain ⟨⟨e, h1, h2⟩, _⟩ := C72.expression_slice_partial a.2 (ene k a ha) htag p hp
      refine ⟨temp e, by rw [eval, pick_ok ha]; simp only [Outcome.bind, h1], ?_, by intro h; simp [temp] at h⟩
      have h3 : ∀ σ val, Agree s σ val → exprValue e σ = m.denote val (.sumExpr k (some p)) := by
        intro σ val hag
        rw [Meaning.denote, hs, chosen]
        exact h2 σ _ (evals k a ha σ val hag)
      unfold ExprArray.sum at h1
      rw [if_neg (by simpa using hp.symm)] at h1
      cases hc : coveredOf (fun i => (a.2.elem i).tag) p (List.range (numberOfElements a.2.shape)) with
      | ok ps =>
        rw [hc] at h1
        simp only [Outcome.bind, Outcome.ok.injEq] at h1
        subst h1
        exact ⟨wf_foldl_sum _ _ _ wf_empty, uses_foldl_sum _ _ _ (uses_empty _)
          (fun i hi => (euses k a ha i (List.mem_range.1 (coveredOf_sub _ _ _ _ hc i hi))).uses), h3⟩
      | thrown => rw [hc] at h1; cases h1
      | undefined => rw [hc] at h1; cases h1
  | dotExpr k p cs =>
    obtain ⟨hk, ⟨hp1, hp2⟩, hrep⟩ := ht
    obtain ⟨a, ha, hs⟩ := lookup_shape s.exprs (fun a => a.2.shape) _ hr.eshapes k hk
    rw [hs] at hp1 hp2
    cases p with
    | none =>
      have hn : numberOfElements a.2.shape = cs.length := by rw [← count_eq _ (ene k a ha)]; exact hp1
      have h1 : a.2.dotAll cs = .ok (a.2.dotLoop (List.range (numberOfElements a.2.shape)) cs) := by
        unfold ExprArray.dotAll
        rw [if_neg (by simpa using hp2), if_neg (by simpa using hn)]
      refine ⟨temp _, by rw [eval, pick_ok ha]; simp only [Outcome.bind, h1]; rfl, ⟨?_, ?_, ?_⟩, by intro h; simp [temp] at h⟩
      · exact wf_foldl_dot _ _ _ wf_empty
      · exact uses_foldl_dot _ _ _ (uses_empty _)
          (fun t ht => (euses k a ha t.1 (List.mem_range.1 (List.of_mem_zip ht).1)).uses)
      · intro σ val hag
        show exprValue (ExprArray.dotLoop _ _ _) σ = _
        rw [C72.exprValue_eq, ExprArray.dotLoop, C72.foldl_dot, C72.evaluate_empty, zero_add, Meaning.denote, hs, chosen,
          ← C72.map_multi _ (ene k a ha), List.map_map, scalar]
        congr 2
        apply List.map_congr_left
        intro i hi
        exact (euses k a ha i (List.mem_range.1 hi)).eval hag
    | some p =>
      have htag := hr.tags k a ha (by simpa using hrep)
      obtain ⟨ps, g1, _, g3, g4⟩ := C72.coveredOf_setup a.2.shape (ene k a ha) p hp2.1.symm (fun i => (a.2.elem i).tag) htag
      have hl : ps.length = cs.length := by rw [← hp1, chosen, ← g4, List.length_map]
      have hc2 : ¬ countAll p ≥ 2 := by
        have : countAll p = (p.filter (fun x => x = -1)).length := rfl
        omega
      have h1 : a.2.dot p cs = .ok (a.2.dotLoop ps cs) := by
        unfold ExprArray.dot
        rw [if_neg (by simpa using hp2.1.symm), if_neg hc2, g1]
        simp only [Outcome.bind]
        rw [if_neg (by simpa using hl)]
      refine ⟨temp _, by rw [eval, pick_ok ha]; simp only [Outcome.bind, h1]; rfl, ⟨?_, ?_, ?_⟩, by intro h; simp [temp] at h⟩
      · exact wf_foldl_dot _ _ _ wf_empty
      · exact uses_foldl_dot _ _ _ (uses_empty _)
          (fun t ht => (euses k a ha t.1 (g3 _ (List.of_mem_zip ht).1)).uses)
      · intro σ val hag
        show exprValue (ExprArray.dotLoop _ _ _) σ = _
        rw [C72.exprValue_eq, ExprArray.dotLoop, C72.foldl_dot, C72.evaluate_empty, zero_add, Meaning.denote, hs, chosen,
          ← g4, List.map_map, scalar]
        congr 2
        apply List.map_congr_left
        intro i hi
        exact (euses k a ha i (g3 i hi)).eval hag
  | pos a ih =>
    refine unary Expr.copy (ih ht) rfl (fun e g => Good.of_eval g.wf g.uses ?_)
    intro σ val hag; rw [Expr.evaluate_copy, g.eval hag]; rfl
  | neg a ih =>
    refine unary Expr.neg (ih ht) rfl (fun e g => Good.of_eval (Expr.wf_neg _ g.wf) (uses_neg g.uses) ?_)
    intro σ val hag; rw [Expr.evaluate_neg, g.eval hag]; rfl
  | add a b iha ihb =>
    refine binary Expr.add (iha ht.1) (ihb ht.2) rfl
      (fun e f g g' => Good.of_eval (Expr.wf_addAssign _ _ g.wf) (uses_addAssign g.uses g'.uses) ?_)
    intro σ val hag; rw [Expr.evaluate_add, g.eval hag, g'.eval hag]; rfl
  | sub a b iha ihb =>
    refine binary Expr.sub (iha ht.1) (ihb ht.2) rfl
      (fun e f g g' => Good.of_eval (Expr.wf_subAssign _ _ g.wf) (uses_subAssign g.uses g'.uses) ?_)
    intro σ val hag; rw [Expr.evaluate_sub, g.eval hag, g'.eval hag]; rfl
  | addNum a c ih =>
    refine unary (fun e => e.addValue c) (ih ht) rfl (fun e g => Good.of_eval g.wf g.uses ?_)
    intro σ val hag; rw [Expr.evaluate_addValue, g.eval hag]; rfl
  | subNum a c ih =>
    refine unary (fun e => e.subValue c) (ih ht) rfl (fun e g => Good.of_eval g.wf g.uses ?_)
    intro σ val hag; rw [Expr.evaluate_subValue, g.eval hag]; rfl
  | numSub c a ih =>
    refine unary (fun e => Expr.valueSub c e) (ih ht) rfl
      (fun e g => Good.of_eval (Expr.wf_neg _ g.wf) (uses_neg g.uses) ?_)
    intro σ val hag; rw [Expr.evaluate_valueSub, g.eval hag]; rfl
  | mulNum a c ih =>
    refine unary (fun e => e.mul c) (ih ht) rfl
      (fun e g => Good.of_eval (Expr.wf_mulAssign _ _ g.wf) (uses_mulAssign _ g.uses) ?_)
    intro σ val hag; rw [Expr.evaluate_mul, g.eval hag]; rfl
  | divNum a c ih =>
    obtain ⟨o, h1, g, _⟩ := ih ht.1
    refine ⟨temp (o.expr.div c), by rw [eval, h1]; simp only [Outcome.bind]; rw [if_neg ht.2], ?_, by intro h; simp [temp] at h⟩
    refine Good.of_eval (Expr.wf_divAssign _ _ g.wf) (uses_divAssign _ g.uses) ?_
    intro σ val hag; show (o.expr.div c).evaluate σ = _; rw [Expr.evaluate_div, g.eval hag]; rfl

end Terms

/-! ## Constraints -/

theorem holds_iff (c : Sense) (d : Expr) (so : ℕ → VarSense) (σ : ℕ → ℤ) (x y : ℚ) (h : exprValue d σ = x - y) :
    Holds (Con.setup d c so) σ ↔ (cmpOf c).holds x y := by
  have h1 : (Con.setup d c so).expr = d := by cases c <;> rfl
  have h2 : (Con.setup d c so).sense = c := by cases c <;> rfl
  unfold Holds
  rw [h1, h2, h]
  cases c <;> simp only [cmpOf, Cmp.holds]
  · exact sub_nonpos
  · exact sub_eq_zero
  · exact sub_nonneg

theorem setup_expr (d : Expr) (c : Sense) (so : ℕ → VarSense) :
    (Con.setup d c so).expr = d ∧ (Con.setup d c so).sense = c ∧ (Con.setup d c so).enabled = true := by
  cases c <;> exact ⟨rfl, rfl, rfl⟩

theorem relation_ok {s : St} {m : Meaning} (hr : Rep s m) (r : Relation) (h : RelationOK m r) :
    ∃ c, evalRelation s r = .ok c ∧
      ∀ so, GoodCon s (Con.setup c.expr c.sense so) (fun val => m.relation val r) := by
  have main : ∀ (c : Sense) (x y : Part) (X Y : Side) (d : Expr), evalPart s x = .ok X → evalPart s y = .ok Y →
      sideDiff X Y = some d → Good s d (fun val => m.part val x - m.part val y) →
      ∃ c', evalRelation s (.compare c x y) = .ok c' ∧
        ∀ so, GoodCon s (Con.setup c'.expr c'.sense so) (fun val => m.relation val (.compare c x y)) := by
    intro c x y X Y d h1 h2 h3 g
    refine ⟨Con.setup d c (fun v => (s.mem v).sense), ?_, ?_⟩
    · rw [evalRelation, h1, h2]
      simp only [Outcome.bind, compareOp, h3, Option.map_some]
    · intro so
      obtain ⟨e1, e2, _⟩ := setup_expr d c (fun v => (s.mem v).sense)
      rw [e1, e2]
      obtain ⟨f1, _, _⟩ := setup_expr d c so
      refine ⟨by rw [f1]; exact g.wf, by rw [f1]; exact g.uses, ?_⟩
      intro σ val hag
      exact holds_iff c d so σ _ _ (g.value σ val hag)
  have selects : ∀ (k : ℕ) (a : VarBlock) (p : Option (List ℤ)) (e : Expr), s.vars[k]? = some a →
      Good s e (fun val => m.denote val (.sumVar k p)) →
      evalRelation s (.select k p) = .ok (Con.setup (e.subValue 1) .equal (fun v => (s.mem v).sense)) →
      ∃ c, evalRelation s (.select k p) = .ok c ∧
        ∀ so, GoodCon s (Con.setup c.expr c.sense so) (fun val => m.relation val (.select k p)) := by
    intro k a p e ha g he
    refine ⟨_, he, ?_⟩
    intro so
    obtain ⟨e1, e2, _⟩ := setup_expr (e.subValue 1) .equal (fun v => (s.mem v).sense)
    rw [e1, e2]
    obtain ⟨f1, _, _⟩ := setup_expr (e.subValue 1) .equal so
    refine ⟨by rw [f1]; exact g.wf, by rw [f1]; exact g.uses, ?_⟩
    intro σ val hag
    rw [holds_iff .equal _ so σ (m.denote val (.sumVar k p)) 1
      (by rw [C72.exprValue_eq, Expr.evaluate_subValue, g.eval hag])]
    simp only [cmpOf, Cmp.holds, Meaning.relation, Meaning.denote]
    rw [← cast_sum]
    exact_mod_cast Iff.rfl
  cases r with
  | compare c x y =>
    cases x with
    | term a =>
      cases y with
      | term b =>
        obtain ⟨o, h1, g, _⟩ := evaluates hr a h.1
        obtain ⟨o', h1', g', _⟩ := evaluates hr b h.2
        refine main c _ _ (.expr o.expr) (.expr o'.expr) (o.expr.sub o'.expr) (by rw [evalPart, h1]; rfl)
          (by rw [evalPart, h1']; rfl) rfl ?_
        refine Good.of_eval (Expr.wf_subAssign _ _ g.wf) (uses_subAssign g.uses g'.uses) ?_
        intro σ val hag
        rw [Expr.evaluate_sub, g.eval hag, g'.eval hag]; rfl
      | num y =>
        obtain ⟨o, h1, g, _⟩ := evaluates hr a h
        refine main c _ _ (.expr o.expr) (.num y) (o.expr.subValue y) (by rw [evalPart, h1]; rfl) rfl rfl ?_
        refine Good.of_eval g.wf g.uses ?_
        intro σ val hag
        rw [Expr.evaluate_subValue, g.eval hag]; rfl
    | num x =>
      cases y with
      | term b =>
        obtain ⟨o, h1, g, _⟩ := evaluates hr b h
        refine main c _ _ (.num x) (.expr o.expr) _ rfl (by rw [evalPart, h1]; rfl) rfl ?_
        refine Good.of_eval (Expr.wf_neg _ g.wf) (uses_neg g.uses) ?_
        intro σ val hag
        have := C02.sideDiff_value (.num x) (.expr o.expr) _ rfl σ
        rw [this]
        simp only [C02.sideValue, g.eval hag]; rfl
      | num y => exact absurd h id
  | select k p =>
    obtain ⟨hk, hp⟩ := h
    obtain ⟨a, ha, hs⟩ := lookup_shape _ _ _ hr.vshapes k hk
    obtain ⟨o, h1, g, _⟩ := evaluates hr (.sumVar k p) ⟨hk, hp⟩
    refine selects k a p o.expr ha g ?_
    cases p with
    | none =>
      rw [eval, pick_ok ha] at h1
      simp only [Outcome.bind, Outcome.ok.injEq] at h1
      subst h1
      rw [evalRelation, pick_ok ha]; rfl
    | some p =>
      rw [eval, pick_ok ha] at h1
      simp only [Outcome.bind] at h1
      rw [evalRelation, pick_ok ha]
      simp only [Outcome.bind]
      unfold VarArray.selection
      cases hc : a.array.sum p with
      | ok e =>
        rw [hc] at h1
        simp only [Outcome.ok.injEq] at h1
        subst h1
        rfl
      | thrown => rw [hc] at h1; cases h1
      | undefined => rw [hc] at h1; cases h1

/-! ## Statements keep the representation -/

theorem append_lookup {α : Type} (l : List α) (x a : α) (k : ℕ) (h : (l ++ [x])[k]? = some a) :
    l[k]? = some a ∧ k < l.length ∨ k = l.length ∧ a = x := by
  rcases lt_trichotomy k l.length with hk | hk | hk
  · rw [List.getElem?_append_left hk] at h; exact Or.inl ⟨h, hk⟩
  · subst hk; simp at h; exact Or.inr ⟨rfl, h.symm⟩
  · rw [List.getElem?_eq_none (by simp; omega)] at h; cases h

theorem set_lookup {α : Type} (l : List α) (x a : α) (k k' : ℕ) (h : (l.set k x)[k']? = some a) :
    k' = k ∧ a = x ∨ k' ≠ k ∧ l[k']? = some a := by
  by_cases e : k' = k
  · subst e
    rw [List.getElem?_set] at h
    simp only [if_true] at h
    split at h
    · exact Or.inl ⟨rfl, (Option.some.inj h).symm⟩
    · cases h
  · rw [List.getElem?_set, if_neg (fun h => e h.symm)] at h
    exact Or.inr ⟨e, h⟩

theorem map_set {α : Type} (l : List α) (f : α → List ℕ) (k : ℕ) (x a : α) (h : l[k]? = some a) (hf : f x = f a) :
    (l.set k x).map f = l.map f := by
  apply List.ext_getElem?
  intro j
  rw [List.getElem?_map, List.getElem?_map, List.getElem?_set]
  by_cases e : k = j
  · subst e
    rw [if_pos rfl, h, if_pos (List.getElem?_eq_some_iff.1 h).1]
    simp [hf]
  · rw [if_neg e]

section Statements
variable {s : St} {m : Meaning}

theorem Good.mono {s' : St} {e : Expr} {f : Values → ℚ} (g : Good s e f) (hn : s.next ≤ s'.next)
    (hv : ∀ (k : ℕ) (a : VarBlock), s.vars[k]? = some a → s'.vars[k]? = some a) : Good s' e f :=
  ⟨g.wf, uses_mono hn g.uses, fun σ val h => g.value σ val (fun k a hk => h k a (hv k a hk))⟩

theorem GoodCon.mono {s' : St} {c : Con} {f : Values → Prop} (g : GoodCon s c f) (hn : s.next ≤ s'.next)
    (hv : ∀ (k : ℕ) (a : VarBlock), s.vars[k]? = some a → s'.vars[k]? = some a) : GoodCon s' c f :=
  ⟨g.wf, uses_mono hn g.uses, fun σ val h => g.holds σ val (fun k a hk => h k a (hv k a hk))⟩

theorem Rep.withExprs (hr : Rep s m) (E : List (Names.Name × ExprArray)) (es : List (List ℕ))
    (ef : ℕ → List ℕ → Values → ℚ) (rp : ℕ → Bool) (h1 : E.map (fun a => a.2.shape) = es) (h2 : ∀ l ∈ es, l ≠ [])
    (h3 : ∀ (k : ℕ) (a : Names.Name × ExprArray), E[k]? = some a → ∀ idx ∈ indices a.2.shape,
      Good s (a.2.elem (flatIndex a.2.shape idx)).expr (ef k idx))
    (h4 : ∀ (k : ℕ) (a : Names.Name × ExprArray), E[k]? = some a → rp k = false → C72.Tagged a.2) :
    Rep { s with exprs := E } { m with eshapes := es, expr := ef, replaced := rp } where
  vshapes := hr.vshapes
  eshapes := h1
  cshapes := hr.cshapes
  vne := hr.vne
  ene := h2
  cne := hr.cne
  laid := hr.laid
  fresh := hr.fresh
  range := hr.range
  expr := fun k a ha idx hi => (h3 k a ha idx hi).mono le_rfl (fun _ _ h => h)
  tags := h4
  con := fun k a ha idx hi => ⟨((hr.con k a ha idx hi).1).mono le_rfl (fun _ _ h => h), (hr.con k a ha idx hi).2⟩
  goal := hr.goal.mono le_rfl (fun _ _ h => h)
  hasGoal := hr.hasGoal
  minimize := hr.minimize

theorem Rep.withCons (hr : Rep s m) (C : List ConBlock) (cs : List (List ℕ))
    (cf : ℕ → List ℕ → Values → Prop) (af : ℕ → List ℕ → Bool) (h1 : C.map ConBlock.shape = cs) (h2 : ∀ l ∈ cs, l ≠ [])
    (h3 : ∀ (k : ℕ) (a : ConBlock), C[k]? = some a → ∀ idx ∈ indices a.shape,
      GoodCon s (a.con (flatIndex a.shape idx)) (cf k idx) ∧ (a.con (flatIndex a.shape idx)).enabled = af k idx) :
    Rep { s with cons := C } { m with cshapes := cs, con := cf, active := af } where
  vshapes := hr.vshapes
  eshapes := hr.eshapes
  cshapes := h1
  vne := hr.vne
  ene := hr.ene
  cne := h2
  laid := hr.laid
  fresh := hr.fresh
  range := hr.range
  expr := fun k a ha idx hi => (hr.expr k a ha idx hi).mono le_rfl (fun _ _ h => h)
  tags := hr.tags
  con := fun k a ha idx hi => ⟨((h3 k a ha idx hi).1).mono le_rfl (fun _ _ h => h), (h3 k a ha idx hi).2⟩
  goal := hr.goal.mono le_rfl (fun _ _ h => h)
  hasGoal := hr.hasGoal
  minimize := hr.minimize

theorem Rep.withMem (hr : Rep s m) (mem : VarId → Var) (lo up : ℕ → List ℕ → ℤ)
    (h1 : ∀ v, s.next ≤ v → mem v = Var.init)
    (h2 : ∀ (k : ℕ) (a : VarBlock), s.vars[k]? = some a → ∀ idx ∈ indices a.shape,
      (mem (a.base + flatIndex a.shape idx)).lb = lo k idx ∧ (mem (a.base + flatIndex a.shape idx)).ub = up k idx ∧
      (mem (a.base + flatIndex a.shape idx)).fixed = false) :
    Rep { s with mem := mem } { m with lower := lo, upper := up } where
  vshapes := hr.vshapes
  eshapes := hr.eshapes
  cshapes := hr.cshapes
  vne := hr.vne
  ene := hr.ene
  cne := hr.cne
  laid := hr.laid
  fresh := h1
  range := h2
  expr := fun k a ha idx hi => (hr.expr k a ha idx hi).mono le_rfl (fun _ _ h => h)
  tags := hr.tags
  con := fun k a ha idx hi => ⟨((hr.con k a ha idx hi).1).mono le_rfl (fun _ _ h => h), (hr.con k a ha idx hi).2⟩
  goal := hr.goal.mono le_rfl (fun _ _ h => h)
  hasGoal := hr.hasGoal
  minimize := hr.minimize

theorem admit_ok {α : Type} {l : List α} {f : α → List ℕ} {shapes : List (List ℕ)} (h : l.map f = shapes) {name : List Char}
    (hn : NewOK shapes name) (x : Outcome St) : admit l name x = x := by
  unfold admit
  have h1 : Names.hasSpace name = false := by
    unfold Names.hasSpace
    simp only [List.any_eq_false, decide_eq_true_eq]
    intro c hc e
    exact hn.1 (e ▸ hc)
  have h2 : ¬ l.length ≥ Names.MAX_PROXIES := by
    have : l.length < 100 := by have := hn.2; rwa [← h, List.length_map] at this
    unfold Names.MAX_PROXIES; omega
  rw [h1, if_neg (by simp), if_neg h2]

theorem append_ne {l : List (List ℕ)} (h : ∀ x ∈ l, x ≠ []) {shape : List ℕ} (hs : shape ≠ []) :
    ∀ x ∈ l ++ [shape], x ≠ [] := by
  intro x hx
  rcases List.mem_append.1 hx with hx | hx
  · exact h x hx
  · simp only [List.mem_singleton] at hx; exact hx ▸ hs

theorem setBound_facts (v : Var) (l u : ℤ) (h : l ≤ u) :
    ∃ w, v.setBound l u = some w ∧ w.lb = l ∧ w.ub = u ∧ w.fixed = v.fixed := by
  unfold Var.setBound
  rw [if_neg (by omega)]
  refine ⟨_, rfl, ?_⟩
  simp only [Var.updateMargin, Var.setupSense]
  split <;> exact ⟨rfl, rfl, rfl⟩

theorem setBound_array (a : VarBlock) (l u : ℤ) (h : l ≤ u) (mem : VarId → Var) :
    ∃ mem', a.array.setBound l u mem = .ok mem' ∧
      (∀ i < numberOfElements a.shape, (mem' (a.base + i)).lb = l ∧ (mem' (a.base + i)).ub = u ∧
        (mem' (a.base + i)).fixed = (mem (a.base + i)).fixed) ∧
      ∀ w, (∀ i < numberOfElements a.shape, w ≠ a.base + i) → mem' w = mem w := by
  obtain ⟨mem', h1, h2, h3⟩ := C72.setBoundLoop_spec a.array l u h (List.range (numberOfElements a.shape)) mem
    (C72.nodup_keys a.array (distinct a) _ List.nodup_range (fun i => List.mem_range.1))
  refine ⟨mem', ?_, ?_, ?_⟩
  · unfold VarArray.setBound
    rw [if_neg (by omega)]; exact h1
  · intro i hi
    have := h2 i (List.mem_range.2 hi)
    obtain ⟨w, g1, g2⟩ := setBound_facts (mem (a.base + i)) l u h
    have e1 : a.array.var i = a.base + i := rfl
    rw [e1, g1] at this
    rw [Option.some.inj this]
    exact g2
  · intro w hw
    apply h3
    intro hm
    obtain ⟨i, hi, e⟩ := List.mem_map.1 hm
    exact hw i (List.mem_range.1 hi) e.symm

theorem init_range : Var.init.lb = -1073741823 ∧ Var.init.ub = 1073741823 ∧ Var.init.fixed = false := by decide

theorem resetBound_facts (v : Var) :
    v.resetBound.lb = -1073741823 ∧ v.resetBound.ub = 1073741823 ∧ v.resetBound.fixed = v.fixed := ⟨rfl, rfl, rfl⟩

/-- Changing the memory of the elements of a target, and nothing else. -/
theorem Rep.changed (hr : Rep s m) {k : ℕ} {a : VarBlock} (ha : s.vars[k]? = some a) {tgt : Target} (mem : VarId → Var)
    (lo up : List ℕ → ℤ)
    (h1 : ∀ idx ∈ indices a.shape, covers tgt idx = true →
      (mem (a.base + flatIndex a.shape idx)).lb = lo idx ∧ (mem (a.base + flatIndex a.shape idx)).ub = up idx ∧
      (mem (a.base + flatIndex a.shape idx)).fixed = false)
    (h2 : ∀ v, (∀ idx ∈ indices a.shape, covers tgt idx = true → v ≠ a.base + flatIndex a.shape idx) → mem v = s.mem v)
    (hne : ∀ (k : ℕ) (a : VarBlock), s.vars[k]? = some a → a.shape ≠ []) :
    Rep { s with mem := mem } { m with lower := update m.lower k tgt lo, upper := update m.upper k tgt up } := by
  have blk := laid_block _ _ _ hr.laid
  refine hr.withMem mem _ _ ?_ ?_
  · intro v hv
    rw [h2, hr.fresh v hv]
    intro idx hidx _ e
    have q1 := (blk.2 k a ha).2
    have q2 := flat_lt (hne k a ha) hidx
    rw [e] at hv
    omega
  · intro k' a' ha' idx hidx
    by_cases e : k' = k
    · subst e
      rw [ha] at ha'
      cases ha'
      by_cases hc : covers tgt idx = true
      · have e1 : update m.lower k' tgt lo k' idx = lo idx := by rw [update, if_pos ⟨rfl, hc⟩]
        have e2 : update m.upper k' tgt up k' idx = up idx := by rw [update, if_pos ⟨rfl, hc⟩]
        rw [e1, e2]
        exact h1 idx hidx hc
      · have e1 : update m.lower k' tgt lo k' idx = m.lower k' idx := by rw [update, if_neg (fun h => hc h.2)]
        have e2 : update m.upper k' tgt up k' idx = m.upper k' idx := by rw [update, if_neg (fun h => hc h.2)]
        rw [e1, e2, h2]
        · exact hr.range k' a ha idx hidx
        · intro idx' hidx' hc' e
          have : idx = idx' := flat_inj (hne k' a ha) hidx hidx' (by omega)
          rw [this] at hc
          exact hc hc'
    · have e1 : update m.lower k tgt lo k' idx = m.lower k' idx := by rw [update, if_neg (fun h => e h.1)]
      have e2 : update m.upper k tgt up k' idx = m.upper k' idx := by rw [update, if_neg (fun h => e h.1)]
      rw [e1, e2, h2]
      · exact hr.range k' a' ha' idx hidx
      · intro idx' hidx' _ e'
        exact e (laid_disjoint _ _ _ hr.laid k' k a' a ha' ha _ _ (flat_lt (hne k' a' ha') hidx)
          (flat_lt (hne k a ha) hidx') e').1

theorem exec_ok (hr : Rep s m) (x : Stmt) (hx : StmtOK m x) : ∃ s', exec s x = .ok s' ∧ Rep s' (m.after x) := by
  have vne : ∀ (k : ℕ) (a : VarBlock), s.vars[k]? = some a → a.shape ≠ [] := by
    intro k a ha
    obtain ⟨h1, h2⟩ := shape_of_lookup _ _ _ hr.vshapes k a ha
    exact h2 ▸ hr.vne _ (shapeOf_mem _ _ h1)
  have ene : ∀ (k : ℕ) (a : Names.Name × ExprArray), s.exprs[k]? = some a → a.2.shape ≠ [] := by
    intro k a ha
    obtain ⟨h1, h2⟩ := shape_of_lookup s.exprs (fun a => a.2.shape) _ hr.eshapes k a ha
    exact h2 ▸ hr.ene _ (shapeOf_mem _ _ h1)
  have cne : ∀ (k : ℕ) (a : ConBlock), s.cons[k]? = some a → a.shape ≠ [] := by
    intro k a ha
    obtain ⟨h1, h2⟩ := shape_of_lookup _ _ _ hr.cshapes k a ha
    exact h2 ▸ hr.cne _ (shapeOf_mem _ _ h1)
  have vlen : m.vshapes.length = s.vars.length := by rw [← hr.vshapes, List.length_map]
  have elen : m.eshapes.length = s.exprs.length := by rw [← hr.eshapes, List.length_map]
  have clen : m.cshapes.length = s.cons.length := by rw [← hr.cshapes, List.length_map]
  -- a new array of expressions, a new array of constraints
  have newExpr : ∀ (name : Names.Name) (a : ExprArray) (f : Values → ℚ) (b : Bool), a.shape ≠ [] →
      (∀ i < numberOfElements a.shape, Good s (a.elem i).expr f) → (b = false → C72.Tagged a) →
      Rep { s with exprs := s.exprs ++ [(name, a)] }
        { m with eshapes := m.eshapes ++ [a.shape], expr := update m.expr m.eshapes.length .whole fun _ => f,
                 replaced := fun k => if k = m.eshapes.length then b else m.replaced k } := by
    intro name a f b hne hg ht
    refine hr.withExprs _ _ _ _ (by rw [List.map_append, hr.eshapes]; rfl) (append_ne hr.ene hne) ?_ ?_
    · intro k a' ha' idx hidx
      rcases append_lookup _ _ _ _ ha' with ⟨h, hk⟩ | ⟨h, rfl⟩
      · have e : update m.expr m.eshapes.length .whole (fun _ => f) k idx = m.expr k idx := by
          rw [update, if_neg (fun h => by omega)]
        rw [e]
        exact hr.expr k a' h idx hidx
      · have e : update m.expr m.eshapes.length .whole (fun _ => f) k idx = f := by
          rw [update, if_pos ⟨by omega, rfl⟩]
        rw [e]
        exact hg _ (flat_lt hne hidx)
    · intro k a' ha' hb
      rcases append_lookup _ _ _ _ ha' with ⟨h, hk⟩ | ⟨h, rfl⟩
      · rw [if_neg (by omega)] at hb
        exact hr.tags k a' h hb
      · rw [if_pos (by omega)] at hb
        exact ht hb
  have newCon : ∀ (name : Names.Name) (shape : List ℕ) (con : ℕ → Con) (f : Values → Prop), shape ≠ [] →
      (∀ i < numberOfElements shape, GoodCon s (con i) f ∧ (con i).enabled = true) →
      Rep { s with cons := s.cons ++ [⟨name, shape, con⟩] }
        { m with cshapes := m.cshapes ++ [shape], con := update m.con m.cshapes.length .whole fun _ => f,
                 active := update m.active m.cshapes.length .whole fun _ => true } := by
    intro name shape con f hne hg
    refine hr.withCons _ _ _ _ (by rw [List.map_append, hr.cshapes]; rfl) (append_ne hr.cne hne) ?_
    intro k a' ha' idx hidx
    rcases append_lookup _ _ _ _ ha' with ⟨h, hk⟩ | ⟨h, rfl⟩
    · have e : update m.con m.cshapes.length .whole (fun _ => f) k idx = m.con k idx := by
        rw [update, if_neg (fun h => by omega)]
      have e' : update m.active m.cshapes.length .whole (fun _ => true) k idx = m.active k idx := by
        rw [update, if_neg (fun h => by omega)]
      rw [e, e']
      exact hr.con k a' h idx hidx
    · have e : update m.con m.cshapes.length .whole (fun _ => f) k idx = f := by
        rw [update, if_pos ⟨by omega, rfl⟩]
      have e' : update m.active m.cshapes.length .whole (fun _ => true) k idx = true := by
        rw [update, if_pos ⟨by omega, rfl⟩]
      rw [e, e']
      exact hg _ (flat_lt hne hidx)
  -- constraints changed at some elements
  have chCon : ∀ (k : ℕ) (a : ConBlock) (tgt : Target) (con : ℕ → Con) (f : List ℕ → Values → Prop) (b : List ℕ → Bool),
      s.cons[k]? = some a →
      (∀ idx ∈ indices a.shape, covers tgt idx = true →
        GoodCon s (con (flatIndex a.shape idx)) (f idx) ∧ (con (flatIndex a.shape idx)).enabled = b idx) →
      (∀ idx ∈ indices a.shape, covers tgt idx = false → con (flatIndex a.shape idx) = a.con (flatIndex a.shape idx)) →
      Rep { s with cons := s.cons.set k { a with con := con } }
        { m with con := update m.con k tgt f, active := update m.active k tgt b } := by
    intro k a tgt con f b ha h1 h2
    refine hr.withCons _ _ _ _ ((map_set s.cons ConBlock.shape k { a with con := con } a ha rfl).trans hr.cshapes) hr.cne ?_
    intro k' a' ha' idx hidx
    rcases set_lookup _ _ _ _ _ ha' with ⟨rfl, rfl⟩ | ⟨hk, h⟩
    · cases hc : covers tgt idx with
      | true =>
        have e : update m.con k' tgt f k' idx = f idx := by rw [update, if_pos ⟨rfl, hc⟩]
        have e' : update m.active k' tgt b k' idx = b idx := by rw [update, if_pos ⟨rfl, hc⟩]
        rw [e, e']
        exact h1 idx hidx hc
      | false =>
        have e : update m.con k' tgt f k' idx = m.con k' idx := by rw [update, if_neg (by simp [hc])]
        have e' : update m.active k' tgt b k' idx = m.active k' idx := by rw [update, if_neg (by simp [hc])]
        rw [e, e']
        have := hr.con k' a ha idx hidx
        rw [← h2 idx hidx hc] at this
        exact this
    · have e : update m.con k tgt f k' idx = m.con k' idx := by rw [update, if_neg (fun h => hk h.1)]
      have e' : update m.active k tgt b k' idx = m.active k' idx := by rw [update, if_neg (fun h => hk h.1)]
      rw [e, e']
      exact hr.con k' a' h idx hidx
  cases x with
  | variables_ name shape range =>
    obtain ⟨h1, h2, h3⟩ := hx
    have key : ∀ (mem : VarId → Var) (l u : ℤ),
        (∀ i < numberOfElements shape, (mem (s.next + i)).lb = l ∧ (mem (s.next + i)).ub = u ∧
          (mem (s.next + i)).fixed = false) →
        (∀ v, (∀ i < numberOfElements shape, v ≠ s.next + i) → mem v = s.mem v) →
        Rep { s with vars := s.vars ++ [⟨name, shape, s.next⟩], next := s.next + numberOfElements shape, mem := mem }
          { m with vshapes := m.vshapes ++ [shape], lower := update m.lower m.vshapes.length .whole fun _ => l,
                   upper := update m.upper m.vshapes.length .whole fun _ => u } := by
      intro mem l u g1 g2
      have hv : ∀ (k : ℕ) (a : VarBlock), s.vars[k]? = some a →
          (s.vars ++ [⟨name, shape, s.next⟩])[k]? = some a := by
        intro k a ha
        rw [List.getElem?_append_left (List.getElem?_eq_some_iff.1 ha).1]; exact ha
      refine ⟨?_, hr.eshapes, hr.cshapes, append_ne hr.vne h2, hr.ene, hr.cne, laid_append _ _ _ hr.laid _ rfl, ?_, ?_, ?_,
        hr.tags, ?_, ?_, hr.hasGoal, hr.minimize⟩
      · show (s.vars ++ _).map _ = _
        rw [List.map_append, hr.vshapes]; rfl
      · intro v hv'
        have hv'' : s.next + numberOfElements shape ≤ v := hv'
        show mem v = _
        rw [g2 v (fun i hi e => by omega)]
        exact hr.fresh v (by omega)
      · intro k a ha idx hidx
        rcases append_lookup _ _ _ _ ha with ⟨h, hk⟩ | ⟨h, rfl⟩
        · have e : update m.lower m.vshapes.length .whole (fun _ => l) k idx = m.lower k idx := by
            rw [update, if_neg (fun h => by omega)]
          have e' : update m.upper m.vshapes.length .whole (fun _ => u) k idx = m.upper k idx := by
            rw [update, if_neg (fun h => by omega)]
          show (mem _).lb = update m.lower m.vshapes.length .whole (fun _ => l) k idx ∧
            (mem _).ub = update m.upper m.vshapes.length .whole (fun _ => u) k idx ∧ (mem _).fixed = false
          rw [e, e', g2]
          · exact hr.range k a h idx hidx
          · intro i hi e
            have q1 := ((laid_block _ _ _ hr.laid).2 k a h).2
            have q2 := flat_lt (vne k a h) hidx
            omega
        · have e : update m.lower m.vshapes.length .whole (fun _ => l) k idx = l := by
            rw [update, if_pos ⟨by omega, rfl⟩]
          have e' : update m.upper m.vshapes.length .whole (fun _ => u) k idx = u := by
            rw [update, if_pos ⟨by omega, rfl⟩]
          show (mem _).lb = update m.lower m.vshapes.length .whole (fun _ => l) k idx ∧
            (mem _).ub = update m.upper m.vshapes.length .whole (fun _ => u) k idx ∧ (mem _).fixed = false
          rw [e, e']
          exact g1 _ (flat_lt h2 hidx)
      · exact fun k a ha idx hidx => (hr.expr k a ha idx hidx).mono (Nat.le_add_right _ _) hv
      · exact fun k a ha idx hidx =>
          ⟨(hr.con k a ha idx hidx).1.mono (Nat.le_add_right _ _) hv, (hr.con k a ha idx hidx).2⟩
      · exact hr.goal.mono (Nat.le_add_right _ _) hv
    cases range with
    | none =>
      refine ⟨_, by rw [exec, admit_ok hr.vshapes h1], ?_⟩
      refine key s.mem _ _ ?_ (fun _ _ => rfl)
      intro i hi
      rw [hr.fresh _ (by omega)]
      exact init_range
    | some p =>
      obtain ⟨l, u⟩ := p
      obtain ⟨mem', g1, g2, g3⟩ := setBound_array ⟨name, shape, s.next⟩ l u (h3 _ rfl) s.mem
      refine ⟨_, by rw [exec, admit_ok hr.vshapes h1]; simp only [g1, Outcome.bind]; rfl, ?_⟩
      refine key mem' _ _ ?_ g3
      intro i hi
      obtain ⟨q1, q2, q3⟩ := g2 i hi
      refine ⟨q1, q2, ?_⟩
      have := hr.fresh (s.next + i) (by omega)
      have q3' : (mem' (s.next + i)).fixed = (s.mem (s.next + i)).fixed := q3
      rw [q3', this]
      exact init_range.2.2
  | expressions name shape =>
    obtain ⟨h1, h2⟩ := hx
    refine ⟨_, by rw [exec, admit_ok hr.eshapes h1], ?_⟩
    refine newExpr name (ExprArray.setup shape) (fun _ => 0) false h2 ?_ (fun _ i _ => rfl)
    intro i _
    exact Good.of_eval wf_empty (uses_empty _) (fun σ val _ => C72.evaluate_empty σ)
  | expressionOf name t =>
    obtain ⟨h1, h2⟩ := hx
    obtain ⟨o, e1, g, _⟩ := evaluates hr t h2
    refine ⟨_, by rw [exec, e1]; simp only [Outcome.bind]; rw [admit_ok hr.eshapes h1], ?_⟩
    refine newExpr name ((ExprArray.setup [1]).set 0 ⟨o.tag, o.expr⟩) (fun val => m.denote val t) true ?_ ?_ (by simp)
    · show ([1] : List ℕ) ≠ []; simp
    · intro i hi
      have hi' : i < numberOfElements [1] := hi
      have : i = 0 := by
        have : numberOfElements [1] = 1 := rfl
        omega
      subst this
      exact g
  | constraints name shape =>
    obtain ⟨h1, h2⟩ := hx
    refine ⟨_, by rw [exec, admit_ok hr.cshapes h1], ?_⟩
    refine newCon name shape (fun _ => blank) (fun _ => True) h2 ?_
    intro i _
    refine ⟨⟨wf_empty, uses_empty _, ?_⟩, rfl⟩
    intro σ val _
    simp [Holds, blank, cmpOf, Cmp.holds, exprValue, Expr.create]
  | constraintOf name r =>
    obtain ⟨h1, h2⟩ := hx
    obtain ⟨c, e1, g⟩ := relation_ok hr r h2
    refine ⟨_, by rw [exec, e1]; simp only [Outcome.bind]; rw [admit_ok hr.cshapes h1], ?_⟩
    refine newCon name [1] _ (fun val => m.relation val r) (by simp) ?_
    intro i hi
    have : i = 0 := by
      have : numberOfElements [1] = 1 := rfl
      omega
    subst this
    rw [setAt, if_pos rfl]
    exact ⟨g _, (setup_expr _ _ _).2.2⟩
  | change k tgt op =>
    obtain ⟨h1, h2⟩ := hx
    have hk : k < m.eshapes.length := by cases tgt <;> exact h1.1
    obtain ⟨a, ha, hs⟩ := lookup_shape s.exprs (fun a => a.2.shape) _ hr.eshapes k hk
    have hne := ene k a ha
    obtain ⟨i, hi, hlt, hcov⟩ := single_ok h1 (by rw [hs]; exact hne)
    rw [hs] at hi hlt hcov
    have gold : Good s (a.2.elem i).expr (m.expr k (multiIndex a.2.shape i)) := by
      obtain ⟨q1, q2⟩ := multi_mem hne hlt
      have := hr.expr k a ha _ q1
      rwa [q2] at this
    -- the new element
    have hop : ∃ y, applyOp s tgt (a.2.elem i) op = .ok y ∧
        Good s y.expr (m.result (m.expr k (multiIndex a.2.shape i)) op) ∧
        (replaces op = false → y.tag = (a.2.elem i).tag) := by
      cases op with
      | set t =>
        obtain ⟨o, e1, g, hc⟩ := evaluates hr t h2.1
        have copy : ∀ y : Elem, y.expr = o.expr →
            Good s y.expr (m.result (m.expr k (multiIndex a.2.shape i)) (.set t)) := by
          intro y hy; rw [hy]; exact g
        cases tgt with
        | whole => exact ⟨⟨o.tag, o.expr⟩, by rw [applyOp, e1]; rfl, copy _ rfl, by intro h; cases h⟩
        | elem idx =>
          cases hl : o.like with
          | false =>
            exact ⟨⟨o.tag, o.expr⟩, by rw [applyOp, e1]; simp only [Outcome.bind, hl], copy _ rfl, by intro h; cases h⟩
          | true =>
            refine ⟨⟨(a.2.elem i).tag, (a.2.elem i).expr.assignLike o.expr⟩,
              by rw [applyOp, e1]; simp only [Outcome.bind, hl], ?_, fun _ => rfl⟩
            refine ⟨g.wf, g.uses, ?_⟩
            intro σ val hag
            have := g.value σ val hag
            have hc0 := hc hl h2.2
            unfold exprValue at this ⊢
            rw [hc0] at this
            exact this
      | setNum c =>
        refine ⟨_, rfl, ⟨List.nodup_nil, ?_, ?_⟩, fun _ => rfl⟩
        · intro v hv; simp [assignNum] at hv
        · intro σ val _; simp [exprValue, assignNum, Meaning.result]
      | add t =>
        obtain ⟨o, e1, g, _⟩ := evaluates hr t h2
        refine ⟨⟨(a.2.elem i).tag, (a.2.elem i).expr.addAssign o.expr⟩, by rw [applyOp, e1]; rfl,
          Good.of_eval (Expr.wf_addAssign _ _ gold.wf) (uses_addAssign gold.uses g.uses) ?_,
          fun _ => rfl⟩
        intro σ val hag; rw [Expr.evaluate_addAssign, gold.eval hag, g.eval hag]; rfl
      | sub t =>
        obtain ⟨o, e1, g, _⟩ := evaluates hr t h2
        refine ⟨⟨(a.2.elem i).tag, (a.2.elem i).expr.subAssign o.expr⟩, by rw [applyOp, e1]; rfl,
          Good.of_eval (Expr.wf_subAssign _ _ gold.wf) (uses_subAssign gold.uses g.uses) ?_,
          fun _ => rfl⟩
        intro σ val hag; rw [Expr.evaluate_subAssign, gold.eval hag, g.eval hag]; rfl
      | addNum c =>
        refine ⟨_, rfl, Good.of_eval gold.wf gold.uses ?_, fun _ => rfl⟩
        intro σ val hag; rw [Expr.evaluate_addAssignValue, gold.eval hag]; rfl
      | subNum c =>
        refine ⟨_, rfl, Good.of_eval gold.wf gold.uses ?_, fun _ => rfl⟩
        intro σ val hag; rw [Expr.evaluate_subAssignValue, gold.eval hag]; rfl
      | mulNum c =>
        refine ⟨_, rfl, Good.of_eval (Expr.wf_mulAssign _ _ gold.wf) (uses_mulAssign _ gold.uses) ?_, fun _ => rfl⟩
        intro σ val hag; rw [Expr.evaluate_mulAssign, gold.eval hag]; rfl
      | divNum c =>
        have h2' : c ≠ 0 := h2
        refine ⟨⟨(a.2.elem i).tag, (a.2.elem i).expr.divAssign c⟩, by rw [applyOp, if_neg h2'],
          Good.of_eval (Expr.wf_divAssign _ _ gold.wf) (uses_divAssign _ gold.uses) ?_, fun _ => rfl⟩
        intro σ val hag; rw [Expr.evaluate_divAssign, gold.eval hag]; rfl
    obtain ⟨y, e1, gy, ty⟩ := hop
    refine ⟨{ s with exprs := s.exprs.set k (a.1, a.2.set i y) }, ?_, ?_⟩
    · rw [exec, pick_ok ha]; simp only [Outcome.bind, hi, e1]
    · refine hr.withExprs _ _ _ _ ((map_set s.exprs (fun a => a.2.shape) k (a.1, a.2.set i y) a ha rfl).trans hr.eshapes) hr.ene ?_ ?_
      · intro k' a' ha' idx hidx
        rcases set_lookup _ _ _ _ _ ha' with ⟨rfl, rfl⟩ | ⟨hk', h⟩
        · have hidx' : idx ∈ indices a.2.shape := hidx
          have hsh : (a.2.set i y).shape = a.2.shape := rfl
          by_cases hf : flatIndex a.2.shape idx = i
          · have hc := (hcov idx hidx').2 hf
            have e : update m.expr k' tgt (fun idx => m.result (m.expr k' idx) op) k' idx = m.result (m.expr k' idx) op := by
              rw [update, if_pos ⟨rfl, hc⟩]
            rw [e]
            have hm : multiIndex a.2.shape i = idx := by
              rw [← hf]
              exact C13.multi_index_of_flat_index _ _ hne ((C72.mem_indices _ _).1 hidx')
            rw [hm] at gy
            have e2 : ((a.2.set i y).elem (flatIndex a.2.shape idx)) = y := by
              rw [ExprArray.set]; simp only [hf, if_true]
            have e3 : (((a.1, a.2.set i y) : Names.Name × ExprArray).2.elem
              (flatIndex ((a.1, a.2.set i y) : Names.Name × ExprArray).2.shape idx)) = y := e2
            rw [e3]; exact gy
          · have hc : ¬ covers tgt idx = true := fun h => hf ((hcov idx hidx').1 h)
            have e : update m.expr k' tgt (fun idx => m.result (m.expr k' idx) op) k' idx = m.expr k' idx := by
              rw [update, if_neg (fun h => hc h.2)]
            rw [e]
            have e2 : ((a.2.set i y).elem (flatIndex a.2.shape idx)) = a.2.elem (flatIndex a.2.shape idx) := by
              rw [ExprArray.set]; simp only [if_neg hf]
            have e3 : (((a.1, a.2.set i y) : Names.Name × ExprArray).2.elem
              (flatIndex ((a.1, a.2.set i y) : Names.Name × ExprArray).2.shape idx)) = a.2.elem (flatIndex a.2.shape idx) := e2
            rw [e3]; exact hr.expr k' a ha idx hidx'
        · have e : update m.expr k tgt (fun idx => m.result (m.expr k idx) op) k' idx = m.expr k' idx := by
            rw [update, if_neg (fun h => hk' h.1)]
          rw [e]
          exact hr.expr k' a' h idx hidx
      · intro k' a' ha' hrep
        rcases set_lookup _ _ _ _ _ ha' with ⟨rfl, rfl⟩ | ⟨hk', h⟩
        · cases hrp : replaces op with
          | true => simp [hrp] at hrep
          | false =>
            simp only [hrp] at hrep
            have ht := hr.tags k' a ha (by simpa using hrep)
            intro j hj
            show (if j = i then y else a.2.elem j).tag = _
            by_cases e : j = i
            · rw [if_pos e, ty hrp, e]; exact ht i hlt
            · rw [if_neg e]; exact ht j hj
        · rw [if_neg (fun h => hk' h.1)] at hrep
          exact hr.tags k' a' h hrep
  | demand k tgt r =>
    obtain ⟨h1, h2⟩ := hx
    have hk : k < m.cshapes.length := by cases tgt <;> exact h1.1
    obtain ⟨a, ha, hs⟩ := lookup_shape _ _ _ hr.cshapes k hk
    have hne := cne k a ha
    obtain ⟨i, hi, hlt, hcov⟩ := single_ok h1 (by rw [hs]; exact hne)
    rw [hs] at hi hlt hcov
    obtain ⟨c, e1, g⟩ := relation_ok hr r h2
    refine ⟨_, by rw [exec, pick_ok ha]; simp only [Outcome.bind, e1, hi]; rfl, ?_⟩
    refine chCon k a tgt _ (fun _ val => m.relation val r) (fun _ => true) ha ?_ ?_
    · intro idx hidx hc
      rw [setAt, if_pos ((hcov idx hidx).1 hc)]
      exact ⟨g _, (setup_expr _ _ _).2.2⟩
    · intro idx hidx hc
      rw [setAt, if_neg (fun e => by rw [(hcov idx hidx).2 e] at hc; cases hc)]
  | switch k tgt on =>
    have hcon : ∀ (c : Con) (f : Values → Prop), GoodCon s c f → GoodCon s { c with enabled := on } f := fun c f g => ⟨g.wf, g.uses, g.holds⟩
    have hm : ∀ (k : ℕ) (tgt : Target), update m.con k tgt (fun idx => m.con k idx) = m.con := by
      intro k tgt; funext k' idx
      rw [update]; split
      · rename_i h; rw [h.1]
      · rfl
    cases tgt with
    | whole =>
      obtain ⟨a, ha, hs⟩ := lookup_shape _ _ _ hr.cshapes k hx
      refine ⟨_, by rw [exec, pick_ok ha]; rfl, ?_⟩
      have := chCon k a .whole (fun j => { a.con j with enabled := on }) (fun idx => m.con k idx) (fun _ => on) ha
        (fun idx hidx _ => ⟨hcon _ _ (hr.con k a ha idx hidx).1, rfl⟩) (fun idx hidx hc => by cases hc)
      rw [hm] at this
      exact this
    | elem i =>
      obtain ⟨a, ha, hs⟩ := lookup_shape _ _ _ hr.cshapes k hx.1
      have hidx : i ∈ indices a.shape := hs ▸ hx.2
      refine ⟨_, by rw [exec, pick_ok ha]; simp only [Outcome.bind, position_eq (cne k a ha) hidx]; rfl, ?_⟩
      have := chCon k a (.elem i) (setAt a.con (flatIndex a.shape i) { a.con (flatIndex a.shape i) with enabled := on })
        (fun idx => m.con k idx) (fun _ => on) ha
        (fun idx hidx' hc => by
          have e : idx = i := by simpa [covers] using hc
          subst e
          rw [setAt, if_pos rfl]
          exact ⟨hcon _ _ (hr.con k a ha idx hidx).1, rfl⟩)
        (fun idx hidx' hc => by
          have e : idx ≠ i := by simpa [covers] using hc
          rw [setAt, if_neg (fun h => e (flat_inj (cne k a ha) hidx' hidx h))])
      rw [hm] at this
      exact this
  | bounds k tgt l u =>
    obtain ⟨h1, h2⟩ := hx
    cases tgt with
    | whole =>
      obtain ⟨a, ha, hs⟩ := lookup_shape _ _ _ hr.vshapes k h1
      obtain ⟨mem', g1, g2, g3⟩ := setBound_array a l u h2 s.mem
      refine ⟨_, by rw [exec, pick_ok ha]; simp only [Outcome.bind, g1]; rfl, ?_⟩
      refine hr.changed ha mem' (fun _ => l) (fun _ => u) ?_ ?_ vne
      · intro idx hidx _
        obtain ⟨q1, q2, q3⟩ := g2 _ (flat_lt (vne k a ha) hidx)
        exact ⟨q1, q2, by rw [q3]; exact (hr.range k a ha idx hidx).2.2⟩
      · intro v hv
        apply g3
        intro i hi e
        obtain ⟨q1, q2⟩ := multi_mem (vne k a ha) hi
        exact hv _ q1 rfl (by rw [q2]; exact e)
    | elem i =>
      obtain ⟨a, ha, hs⟩ := lookup_shape _ _ _ hr.vshapes k h1.1
      have hidx : i ∈ indices a.shape := hs ▸ h1.2
      have hp : a.array.at' (ints i) = .ok (a.base + flatIndex a.shape i) := by
        unfold VarArray.at'
        have h' : position a.array.shape (ints i) = .ok (flatIndex a.shape i) := position_eq (vne k a ha) hidx
        rw [h']; rfl
      obtain ⟨w, g1, g2, g3, g4⟩ := setBound_facts (s.mem (a.base + flatIndex a.shape i)) l u h2
      refine ⟨_, by rw [exec, pick_ok ha]; simp only [Outcome.bind, hp, g1, Outcome.ofOption]; rfl, ?_⟩
      refine hr.changed ha _ (fun _ => l) (fun _ => u) ?_ ?_ vne
      · intro idx hidx' hc
        have e : idx = i := by simpa [covers] using hc
        subst e
        rw [setAt, if_pos rfl]
        exact ⟨g2, g3, by rw [g4]; exact (hr.range k a ha idx hidx).2.2⟩
      · intro v hv
        rw [setAt, if_neg (hv i hidx (by simp [covers]))]
  | unbound k tgt =>
    cases tgt with
    | whole =>
      obtain ⟨a, ha, hs⟩ := lookup_shape _ _ _ hr.vshapes k hx
      refine ⟨_, by rw [exec, pick_ok ha]; rfl, ?_⟩
      refine hr.changed ha _ (fun _ => -1073741823) (fun _ => 1073741823) ?_ ?_ vne
      · intro idx hidx _
        have := flat_lt (vne k a ha) hidx
        rw [if_pos ⟨Nat.le_add_right _ _, Nat.add_lt_add_left this _⟩]
        exact ⟨rfl, rfl, (hr.range k a ha idx hidx).2.2⟩
      · intro v hv
        rw [if_neg]
        rintro ⟨q1, q2⟩
        obtain ⟨r1, r2⟩ := multi_mem (vne k a ha) (i := v - a.base) (Nat.sub_lt_left_of_lt_add q1 q2)
        exact hv _ r1 rfl (by rw [r2]; exact (Nat.add_sub_of_le q1).symm)
    | elem i =>
      obtain ⟨a, ha, hs⟩ := lookup_shape _ _ _ hr.vshapes k hx.1
      have hidx : i ∈ indices a.shape := hs ▸ hx.2
      have hp : a.array.at' (ints i) = .ok (a.base + flatIndex a.shape i) := by
        unfold VarArray.at'
        have h' : position a.array.shape (ints i) = .ok (flatIndex a.shape i) := position_eq (vne k a ha) hidx
        rw [h']; rfl
      refine ⟨_, by rw [exec, pick_ok ha]; simp only [Outcome.bind, hp]; rfl, ?_⟩
      refine hr.changed ha _ (fun _ => -1073741823) (fun _ => 1073741823) ?_ ?_ vne
      · intro idx hidx' hc
        have e : idx = i := by simpa [covers] using hc
        subst e
        rw [setAt, if_pos rfl]
        exact ⟨rfl, rfl, (hr.range k a ha idx hidx).2.2⟩
      · intro v hv
        rw [setAt, if_neg (hv i hidx (by simp [covers]))]
  | start k tgt x =>
    have hk : k < m.vshapes.length := by cases tgt <;> exact hx.1
    obtain ⟨a, ha, hs⟩ := lookup_shape _ _ _ hr.vshapes k hk
    have hne := vne k a ha
    obtain ⟨i, hi, hlt, hcov⟩ := single_ok hx (by rw [hs]; exact hne)
    rw [hs] at hi hlt hcov
    obtain ⟨q1, q2⟩ := multi_mem hne hlt
    have hrange := hr.range k a ha _ q1
    rw [q2] at hrange
    have hset : (s.mem (a.base + i)).setValue x = some { s.mem (a.base + i) with value := x }.updateMargin := by
      unfold Var.setValue
      rw [if_neg (by rw [hrange.2.2]; simp)]
    refine ⟨_, by rw [exec, pick_ok ha]; simp only [Outcome.bind, hi, hset, Outcome.ofOption]; rfl, ?_⟩
    refine hr.withMem _ m.lower m.upper ?_ ?_
    · intro v hv
      rw [setAt, if_neg, hr.fresh v hv]
      have := ((laid_block _ _ _ hr.laid).2 k a ha).2
      intro e
      rw [e] at hv
      omega
    · intro k' a' ha' idx hidx
      rw [setAt]
      by_cases e : a'.base + flatIndex a'.shape idx = a.base + i
      · rw [if_pos e]
        have := hr.range k' a' ha' idx hidx
        rw [e] at this
        exact this
      · rw [if_neg e]
        exact hr.range k' a' ha' idx hidx
  | goal d t =>
    obtain ⟨o, e1, g, _⟩ := evaluates hr t hx
    refine ⟨_, by rw [exec, e1]; rfl, ?_⟩
    exact ⟨hr.vshapes, hr.eshapes, hr.cshapes, hr.vne, hr.ene, hr.cne, hr.laid, hr.fresh, hr.range,
      fun k a ha idx hi => (hr.expr k a ha idx hi).mono le_rfl (fun _ _ h => h), hr.tags,
      fun k a ha idx hi => ⟨((hr.con k a ha idx hi).1).mono le_rfl (fun _ _ h => h), (hr.con k a ha idx hi).2⟩,
      g.mono le_rfl (fun _ _ h => h), rfl, rfl⟩

theorem rep_empty : Rep {} {} where
  vshapes := rfl
  eshapes := rfl
  cshapes := rfl
  vne := by simp
  ene := by simp
  cne := by simp
  laid := rfl
  fresh := fun _ _ => rfl
  range := by intro k a ha; simp at ha
  expr := by intro k a ha; simp at ha
  tags := by intro k a ha; simp at ha
  con := by intro k a ha; simp at ha
  goal := ⟨wf_empty, uses_empty _, fun σ val _ => by simp [exprValue, Expr.create]⟩
  hasGoal := rfl
  minimize := rfl

theorem run_ok (p : List Stmt) (s : St) (m : Meaning) (hr : Rep s m) (h : ProgramOK m p) :
    ∃ s', run s p = .ok s' ∧ Rep s' (meaning m p) := by
  induction p generalizing s m with
  | nil => exact ⟨s, rfl, hr⟩
  | cons x l ih =>
    obtain ⟨s1, e1, r1⟩ := exec_ok hr x h.1
    obtain ⟨s', e2, r2⟩ := ih s1 _ r1 h.2
    exact ⟨s', by rw [run, e1]; exact e2, r2⟩

end Statements

end Printemps.Stated
