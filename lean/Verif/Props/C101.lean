import Verif.Spec.Life
import Verif.Spec.Whole
import Verif.Props.C13

/-! # C101 — a model is solved once, and a model that was initialized is a new one

Histories of building, solving and initializing one model object.  What a call of the solver does to the object after the
names have been set is arbitrary (`rest`). -/

namespace Printemps.C101
open Life Program MultiArray

theorem bind_ok {α β : Type} {o : Outcome α} {f : α → Outcome β} {b : β} (h : o.bind f = .ok b) :
    ∃ a, o = .ok a ∧ f a = .ok b := by
  cases o with
  | ok a => exact ⟨a, rfl, h⟩
  | thrown => exact nomatch h
  | undefined => exact nomatch h

/-! ## What statements do to the arrays -/

/-- The shape of the array a statement creates. -/
def newShape (k : Kind) : Stmt → List (List ℕ)
  | .variables_ _ shape _ => if k = .var then [shape] else []
  | .expressions _ shape => if k = .expr then [shape] else []
  | .expressionOf _ _ => if k = .expr then [[1]] else []
  | .constraints _ shape => if k = .con then [shape] else []
  | .constraintOf _ _ => if k = .con then [[1]] else []
  | _ => []

theorem admit_ok {α : Type} {l : List α} {name : Names.Name} {x : Outcome St} {s : St} (h : admit l name x = .ok s) :
    x = .ok s := by
  unfold admit at h
  split at h
  · exact nomatch h
  · split at h
    · exact nomatch h
    · exact h

theorem pick_some {α : Type} {l : List α} {k : ℕ} {a : α} (h : pick l k = .ok a) : l[k]? = some a := by
  unfold pick at h
  split at h
  · rename_i b hb
    injection h with h
    rw [hb, h]
  · exact nomatch h

theorem map_set_same {α β : Type} (f : α → β) (l : List α) (k : ℕ) (a b : α) (h : l[k]? = some a) (hf : f b = f a) :
    (l.set k b).map f = l.map f := by
  apply List.ext_getElem?
  intro i
  rw [List.getElem?_map, List.getElem?_map, List.getElem?_set]
  split
  · rename_i e
    subst e
    split
    · rw [h]; simp [hf]
    · rename_i hlt
      rw [List.getElem?_eq_none (by omega)]
  · rfl

theorem set_shape (a : Proxy.ExprArray) (i : ℕ) (e : Proxy.Elem) : (a.set i e).shape = a.shape := rfl

theorem exec_shapes (s s' : St) (x : Stmt) (h : exec s x = .ok s') (k : Kind) :
    shapes s' k = shapes s k ++ newShape k x := by
  cases x with
  | variables_ name shape range =>
    have h := admit_ok h
    simp only at h
    cases range with
    | none =>
      injection h with h
      subst h
      cases k <;> simp [shapes, newShape]
    | some p =>
      obtain ⟨mem, -, h⟩ := bind_ok h
      injection h with h
      subst h
      cases k <;> simp [shapes, newShape]
  | expressions name shape =>
    have h := admit_ok h
    injection h with h
    subst h
    cases k <;> simp [shapes, newShape, Proxy.ExprArray.setup]
  | expressionOf name t =>
    obtain ⟨o, -, h⟩ := bind_ok h
    have h := admit_ok h
    injection h with h
    subst h
    cases k <;> simp [shapes, newShape, set_shape, Proxy.ExprArray.setup]
  | constraints name shape =>
    have h := admit_ok h
    injection h with h
    subst h
    cases k <;> simp [shapes, newShape]
  | constraintOf name r =>
    obtain ⟨o, -, h⟩ := bind_ok h
    have h := admit_ok h
    injection h with h
    subst h
    cases k <;> simp [shapes, newShape]
  | change j tgt op =>
    obtain ⟨a, ha, h⟩ := bind_ok h
    obtain ⟨i, -, h⟩ := bind_ok h
    obtain ⟨y, -, h⟩ := bind_ok h
    injection h with h
    subst h
    cases k <;> simp only [shapes, newShape, List.append_nil]
    exact map_set_same _ _ _ _ _ (pick_some ha) rfl
  | demand j tgt r =>
    obtain ⟨a, ha, h⟩ := bind_ok h
    obtain ⟨c, -, h⟩ := bind_ok h
    obtain ⟨i, -, h⟩ := bind_ok h
    injection h with h
    subst h
    cases k <;> simp only [shapes, newShape, List.append_nil]
    exact map_set_same _ _ _ _ _ (pick_some ha) rfl
  | switch j tgt on =>
    cases tgt with
    | whole =>
      obtain ⟨a, ha, h⟩ := bind_ok h
      injection h with h
      subst h
      cases k <;> simp only [shapes, newShape, List.append_nil]
      exact map_set_same _ _ _ _ _ (pick_some ha) rfl
    | elem idx =>
      obtain ⟨a, ha, h⟩ := bind_ok h
      obtain ⟨i, -, h⟩ := bind_ok h
      injection h with h
      subst h
      cases k <;> simp only [shapes, newShape, List.append_nil]
      exact map_set_same _ _ _ _ _ (pick_some ha) rfl
  | bounds j tgt l u =>
    cases tgt with
    | whole =>
      obtain ⟨a, -, h⟩ := bind_ok h
      obtain ⟨i, -, h⟩ := bind_ok h
      injection h with h
      subst h
      cases k <;> simp [shapes, newShape]
    | elem idx =>
      obtain ⟨a, -, h⟩ := bind_ok h
      obtain ⟨i, -, h⟩ := bind_ok h
      obtain ⟨y, -, h⟩ := bind_ok h
      injection h with h
      subst h
      cases k <;> simp [shapes, newShape]
  | unbound j tgt =>
    cases tgt with
    | whole =>
      obtain ⟨a, -, h⟩ := bind_ok h
      injection h with h
      subst h
      cases k <;> simp [shapes, newShape]
    | elem idx =>
      obtain ⟨a, -, h⟩ := bind_ok h
      obtain ⟨i, -, h⟩ := bind_ok h
      injection h with h
      subst h
      cases k <;> simp [shapes, newShape]
  | start j tgt x =>
    obtain ⟨a, -, h⟩ := bind_ok h
    obtain ⟨i, -, h⟩ := bind_ok h
    obtain ⟨y, -, h⟩ := bind_ok h
    injection h with h
    subst h
    cases k <;> simp [shapes, newShape]
  | goal m t =>
    obtain ⟨a, -, h⟩ := bind_ok h
    injection h with h
    subst h
    cases k <;> simp [shapes, newShape]

/-- The name of the array a statement creates. -/
def newName (k : Kind) (x : Stmt) : List Names.Name := arrayNames k [x]

theorem arrayNames_cons (k : Kind) (x : Stmt) (l : List Stmt) : arrayNames k (x :: l) = newName k x ++ arrayNames k l := by
  cases x <;> cases k <;> rfl

theorem newName_length (k : Kind) (x : Stmt) : (newName k x).length = (newShape k x).length := by
  cases x <;> cases k <;> rfl

theorem execute_effect (o o' : Obj) (x : Stmt) (h : execute o x = .ok o') (k : Kind) :
    shapes o'.built k = shapes o.built k ++ newShape k x ∧ o'.names k = o.names k ++ newName k x ∧
    (∀ i j, (shapes o.built k).length ≤ i → i < (shapes o'.built k).length → o'.own k i j = []) ∧
    (∀ i j, i < (shapes o.built k).length → o'.own k i j = o.own k i j) ∧ o'.solved = o.solved := by
  obtain ⟨s, hs, h⟩ := bind_ok h
  injection h with h
  subst h
  have e := exec_shapes _ _ _ hs k
  refine ⟨e, ?_, ?_, ?_, ?_⟩
  · cases x <;> cases k <;> simp [register, creates, newName, arrayNames]
  · intro i j h1 h2
    simp only [e, List.length_append] at h2
    cases x <;> cases k <;> simp [newShape] at h2 <;> first | omega | skip
    all_goals
      have hi := Nat.le_antisymm (Nat.lt_succ_iff.mp h2) h1
      simp [register, creates, hi]
  · intro i j h1
    cases x <;> cases k <;> simp [register, creates] <;> intro h2 <;> omega
  · cases x <;> simp [register, creates]

theorem run_append (rest : Obj → Option (Obj × Bool)) (a b : List Act) : ∀ o : Obj,
    run rest o (a ++ b) = (run rest o a).bind fun o' => run rest o' b := by
  induction a with
  | nil => intro o; rfl
  | cons x a ih =>
    intro o
    simp only [List.cons_append, Life.run]
    cases step rest o x with
    | ok r => exact ih r.1
    | thrown => rfl
    | undefined => rfl

theorem run_snoc (rest : Obj → Option (Obj × Bool)) (a : List Act) (x : Act) (o o' : Obj)
    (h : run rest o (a ++ [x]) = .ok o') : ∃ o1 r, run rest o a = .ok o1 ∧ step rest o1 x = .ok r ∧ r.1 = o' := by
  rw [run_append] at h
  obtain ⟨o1, h1, h⟩ := bind_ok h
  obtain ⟨r, h2, h⟩ := bind_ok h
  injection h with h
  exact ⟨o1, r, h1, h2, h⟩

/-! ## Solved at most once -/

theorem solve_solved (rest : Obj → Option (Obj × Bool)) (o : Obj) (r : Obj × Reply) (h : solve rest o = some r) :
    r.1.solved = true := by
  unfold solve at h
  split at h
  · rename_i hs
    injection h with h; subst h; exact hs
  · split at h
    · injection h with h; subst h; rfl
    · obtain ⟨o1, -, h⟩ := Option.bind_eq_some_iff.mp h
      obtain ⟨q, -, h⟩ := Option.map_eq_some_iff.mp h
      subst h; rfl

theorem step_solved (rest : Obj → Option (Obj × Bool)) (o : Obj) (a : Act) (r : Obj × Option Reply)
    (h : step rest o a = .ok r) : r.1.solved = true ↔ a = .solve ∨ (a ≠ .reset ∧ o.solved = true) := by
  cases a with
  | stmt x =>
    obtain ⟨o', h1, h⟩ := bind_ok h
    injection h with h; subst h
    simp [(execute_effect o o' x h1 .var).2.2.2.2]
  | title n => injection h with h; subst h; simp
  | label k i j n =>
    simp only [step] at h
    split at h
    · exact nomatch h
    · split at h
      · injection h with h; subst h; simp
      · exact nomatch h
  | reset => injection h with h; subst h; simp [Life.reset]
  | solve =>
    simp only [step] at h
    split at h
    · exact nomatch h
    · rename_i q hq
      injection h with h; subst h
      simp [solve_solved rest o q hq]

theorem calledSince_snoc (a : List Act) (x : Act) : CalledSince (a ++ [x]) ↔ x = .solve ∨ (x ≠ .reset ∧ CalledSince a) := by
  constructor
  · rintro ⟨u, v, e, hv⟩
    rcases List.eq_nil_or_concat v with rfl | ⟨v', y, rfl⟩
    · left
      have e := List.append_inj_right' (t₁ := [x]) (t₂ := [Act.solve]) e rfl
      simpa using e
    · right
      rw [List.concat_eq_append, ← List.cons_append, ← List.append_assoc] at e
      obtain ⟨e1, e2⟩ := List.append_inj' e rfl
      obtain rfl : x = y := by simpa using e2
      refine ⟨fun hx => hv (by simp [hx]), u, v', e1, fun hm => hv (by simp [hm])⟩
  · rintro (rfl | ⟨hx, u, v, rfl, hv⟩)
    · exact ⟨a, [], rfl, by simp⟩
    · exact ⟨u, v ++ [x], by simp, by simp [hv, Ne.symm hx]⟩

/-- The mark of the object tells whether the solver has been called since it was made or initialized. -/
theorem solved_iff (rest : Obj → Option (Obj × Bool)) (acts : List Act) : ∀ o : Obj, run rest {} acts = .ok o →
    (o.solved = true ↔ CalledSince acts) := by
  induction acts using List.reverseRecOn with
  | nil =>
    intro o h
    injection h with h; subst h
    simp [CalledSince]
  | append_singleton a x ih =>
    intro o h
    obtain ⟨o1, r, h1, h2, rfl⟩ := run_snoc rest a x _ _ h
    rw [step_solved rest o1 x r h2, ih o1 h1, calledSince_snoc]

/-- **A model is solved once.**  Whatever a program has done with a model object before, whatever the calls of the solver do:
a further call is refused exactly if the solver has been called, with or without success, since the object was made or
initialized last; and a call refused leaves the object as it is. -/
theorem refused_iff (rest : Obj → Option (Obj × Bool)) (acts : List Act) (o : Obj) (h : run rest {} acts = .ok o) :
    ((∃ o', solve rest o = some (o', .refused)) ↔ CalledSince acts) ∧
    (CalledSince acts → solve rest o = some (o, .refused)) := by
  rw [← solved_iff rest acts o h]
  refine ⟨⟨?_, fun hs => ⟨o, by simp [solve, hs]⟩⟩, fun hs => by simp [solve, hs]⟩
  rintro ⟨o', ho⟩
  by_contra hs
  rw [solve, if_neg hs] at ho
  split at ho
  · simp at ho
  · obtain ⟨o1, -, ho⟩ := Option.bind_eq_some_iff.mp ho
    obtain ⟨q, -, ho⟩ := Option.map_eq_some_iff.mp ho
    have := congrArg Prod.snd ho
    simp only at this
    split at this <;> exact nomatch this

/-! ## Names -/

theorem nameElements_spec (names : List Names.Name) (i : ℕ) (shape : List ℕ) (js : List ℕ) : ∀ own own' : ℕ → ℕ → Names.Name,
    js.Nodup → nameElements names i shape js own = some own' →
    (∀ i', i' ≠ i → own' i' = own i') ∧
    (∀ n, names[i]? = some n → ∀ j, own' i j = if j ∈ js ∧ own i j = [] then n ++ indicesLabel shape j else own i j) := by
  induction js with
  | nil =>
    intro own own' _ h
    injection h with h; subst h
    exact ⟨fun _ _ => rfl, fun n _ j => by simp⟩
  | cons x js ih =>
    intro own own' hnd h
    obtain ⟨own1, h1, h⟩ := Option.bind_eq_some_iff.mp h
    obtain ⟨hx, hnd⟩ := List.nodup_cons.mp hnd
    obtain ⟨a, b⟩ := ih own1 own' hnd h
    unfold nameElement at h1
    split at h1
    · rename_i he
      obtain ⟨n, hn, h1⟩ := Option.map_eq_some_iff.mp h1
      subst h1
      refine ⟨fun i' hi => by rw [a i' hi]; simp [setAt, hi], fun n' hn' j => ?_⟩
      obtain rfl : n = n' := by rw [hn] at hn'; injection hn'
      rw [b n hn j]
      by_cases hj : j = x
      · subst hj; simp [setAt, hx, he]
      · simp [setAt, hj]
    · rename_i he
      injection h1 with h1; subst h1
      refine ⟨a, fun n hn j => ?_⟩
      rw [b n hn j]
      by_cases hj : j = x
      · subst hj; simp [hx, he]
      · simp [hj]

theorem nameElements_defined (names : List Names.Name) (i : ℕ) (shape : List ℕ) (hi : i < names.length) (js : List ℕ) :
    ∀ own : ℕ → ℕ → Names.Name, ∃ own', nameElements names i shape js own = some own' := by
  induction js with
  | nil => intro own; exact ⟨own, rfl⟩
  | cons x js ih =>
    intro own
    simp only [nameElements, nameElement, List.getElem?_eq_getElem hi]
    split
    · exact ih _
    · exact ih _

theorem nameArrays_spec (names : List Names.Name) (l : List (List ℕ)) : ∀ (i0 : ℕ) (own : ℕ → ℕ → Names.Name),
    i0 + l.length ≤ names.length → ∃ own', nameArrays names i0 l own = some own' ∧
    (∀ i, i < i0 → own' i = own i) ∧
    ∀ d shape n, l[d]? = some shape → names[i0 + d]? = some n → ∀ j, j < shape.prod →
      own' (i0 + d) j = if own (i0 + d) j = [] then n ++ indicesLabel shape j else own (i0 + d) j := by
  induction l with
  | nil => intro i0 own _; exact ⟨own, rfl, fun _ _ => rfl, fun d s n h => by simp at h⟩
  | cons shape l ih =>
    intro i0 own hlen
    simp only [List.length_cons] at hlen
    obtain ⟨own1, h1⟩ := nameElements_defined names i0 shape (by omega) (List.range (numberOfElements shape)) own
    obtain ⟨a, b⟩ := nameElements_spec names i0 shape _ own own1 List.nodup_range h1
    obtain ⟨own', h2, c, d⟩ := ih (i0 + 1) own1 (by omega)
    refine ⟨own', by simp only [nameArrays, h1, Option.bind_some, h2], fun i hi => ?_, ?_⟩
    · rw [c i (by omega), a i (by omega)]
    · intro e s n hs hn j hj
      cases e with
      | zero =>
        simp only [List.getElem?_cons_zero, Option.some.injEq] at hs
        subst hs
        rw [c (i0 + 0) (by omega), Nat.add_zero, b n (by simpa using hn)]
        simp [C13.numberOfElements_eq, hj]
      | succ e =>
        have e1 : i0 + (e + 1) = i0 + 1 + e := by omega
        rw [e1] at hn ⊢
        rw [d e s n (by simpa using hs) hn j hj, a (i0 + 1 + e) (by omega)]

/-- What a program without calls of the solver and without `initialize` leaves. -/
theorem built_spec (rest : Obj → Option (Obj × Bool)) (acts : List Act) : ∀ o : Obj, Act.reset ∉ acts → Act.solve ∉ acts →
    run rest {} acts = .ok o → Program.run {} (statements acts) = .ok o.built ∧ ∀ k,
    o.names k = arrayNames k (statements acts) ∧ (o.names k).length = (shapes o.built k).length ∧
    ∀ i j, o.own k i j = given k i j acts ∧ ((shapes o.built k).length ≤ i → given k i j acts = []) := by
  have prun : ∀ (a : List Stmt) (x : Stmt) (s : St), Program.run s (a ++ [x]) = (Program.run s a).bind fun s' => exec s' x := by
    intro a x
    induction a with
    | nil =>
      intro s
      simp only [List.nil_append, Program.run]
      change _ = exec s x
      cases exec s x <;> rfl
    | cons y a ih =>
      intro s
      simp only [List.cons_append, Program.run]
      cases exec s y with
      | ok s' => exact ih s'
      | thrown => rfl
      | undefined => rfl
  have stm : ∀ (a : List Act) (x : Act), statements (a ++ [x]) = statements a ++ statements [x] := by
    intro a x
    induction a with
    | nil => rfl
    | cons y a ih => cases y <;> simp [statements, ih]
  have nam : ∀ (k : Kind) (a : List Stmt) (x : Stmt), arrayNames k (a ++ [x]) = arrayNames k a ++ newName k x := by
    intro k a x
    induction a with
    | nil => simp [newName, arrayNames]
    | cons y a ih => simp [arrayNames_cons, ih]
  induction acts using List.reverseRecOn with
  | nil =>
    intro o _ _ h
    injection h with h; subst h
    refine ⟨rfl, fun k => ⟨rfl, by cases k <;> rfl, fun i j => ⟨rfl, fun _ => rfl⟩⟩⟩
  | append_singleton a x ih =>
    intro o hr hs h
    obtain ⟨o1, r, h1, h2, rfl⟩ := run_snoc rest a x _ _ h
    simp only [List.mem_append, List.mem_singleton, not_or] at hr hs
    obtain ⟨i1, i2⟩ := ih o1 hr.1 hs.1 h1
    cases x with
    | stmt x =>
      obtain ⟨o', h3, h2⟩ := bind_ok h2
      injection h2 with h2; subst h2
      have e3 := h3
      obtain ⟨s, h4, h5⟩ := bind_ok e3
      injection h5 with h5
      have e1 : statements [Act.stmt x] = [x] := rfl
      refine ⟨?_, fun k => ?_⟩
      · rw [stm, e1, prun, i1]
        change exec o1.built x = _
        rw [h4, ← h5]
      · obtain ⟨f1, f2, f3, f4, -⟩ := execute_effect o1 o' x h3 k
        obtain ⟨j1, j2, j3⟩ := i2 k
        have g : ∀ i j, given k i j (a ++ [Act.stmt x]) = given k i j a := by
          intro i j; simp [given, List.foldl_append]
        refine ⟨?_, ?_, fun i j => ?_⟩
        · simp only [stm, e1, nam, f2, j1]
        · simp only [f1, f2, List.length_append, j2, newName_length]
        · rw [g]
          refine ⟨?_, fun hi => (j3 i j).2 ?_⟩
          · by_cases hi : i < (shapes o1.built k).length
            · rw [f4 i j hi, (j3 i j).1]
            · by_cases hi2 : i < (shapes o'.built k).length
              · rw [f3 i j (by omega) hi2, (j3 i j).2 (by omega)]
              · rw [← (j3 i j).1, ← h5]
                have := newName_length k x
                simp only [f1, List.length_append] at hi2
                cases x <;> cases k <;> simp [newShape] at hi2 <;> simp [register, creates] <;> intro hh <;> omega
          · simp only [f1, List.length_append] at hi; omega
    | title n =>
      injection h2 with h2; subst h2
      have e1 : statements (a ++ [Act.title n]) = statements a := by rw [stm]; simp [statements]
      have g : ∀ k i j, given k i j (a ++ [Act.title n]) = given k i j a := by
        intro k i j; simp [given, List.foldl_append]
      refine ⟨by rw [e1]; exact i1, fun k => ?_⟩
      obtain ⟨j1, j2, j3⟩ := i2 k
      exact ⟨by rw [e1]; exact j1, j2, fun i j => by rw [g]; exact j3 i j⟩
    | label k0 i0 j0 n =>
      simp only [step] at h2
      split at h2
      · exact nomatch h2
      · rename_i shape hsh
        split at h2
        swap
        · exact nomatch h2
        injection h2 with h2; subst h2
        have e1 : statements (a ++ [Act.label k0 i0 j0 n]) = statements a := by rw [stm]; simp [statements]
        have g : ∀ k i j, given k i j (a ++ [Act.label k0 i0 j0 n]) =
            if k0 = k ∧ i0 = i ∧ j0 = j then n else given k i j a := by
          intro k i j; simp [given, List.foldl_append]
        refine ⟨by rw [e1]; exact i1, fun k => ?_⟩
        obtain ⟨j1, j2, j3⟩ := i2 k
        refine ⟨by rw [e1]; exact j1, j2, fun i j => ?_⟩
        rw [g]
        have hlt : i0 < (shapes o1.built k0).length := by
          by_contra hc
          rw [List.getElem?_eq_none (by omega)] at hsh
          exact nomatch hsh
        by_cases hc : k0 = k ∧ i0 = i ∧ j0 = j
        · obtain ⟨rfl, rfl, rfl⟩ := hc
          exact ⟨by simp, fun hi => absurd hlt (Nat.not_lt.mpr hi)⟩
        · rw [if_neg hc]
          refine ⟨?_, (j3 i j).2⟩
          have hc' : ¬ (k = k0 ∧ i = i0 ∧ j = j0) := fun ⟨a, b, c⟩ => hc ⟨a.symm, b.symm, c.symm⟩
          simp only [if_neg hc']
          exact (j3 i j).1
    | reset => simp at hr
    | solve => simp at hs

/-- **The names of the elements.**  If a program builds a model in any way, without initializing it, then setting the names
is defined; it gives each element without a name the name of its array followed by its position, and leaves each name the
program gave to an element. -/
theorem element_names (rest : Obj → Option (Obj × Bool)) (acts : List Act) (o : Obj) (hr : Act.reset ∉ acts)
    (hs : Act.solve ∉ acts) (h : run rest {} acts = .ok o) :
    Program.run {} (statements acts) = .ok o.built ∧
    ∃ o', setupNames o = some o' ∧ o'.built = o.built ∧
    ∀ k i shape, (shapes o.built k)[i]? = some shape → ∃ name, (arrayNames k (statements acts))[i]? = some name ∧
      ∀ j, j < shape.prod →
        o'.own k i j = if given k i j acts = [] then name ++ indicesLabel shape j else given k i j acts := by
  obtain ⟨h1, h2⟩ := built_spec rest acts o hr hs h
  refine ⟨h1, ?_⟩
  have key : ∀ k, ∃ own', nameArrays (o.names k) 0 (shapes o.built k) (o.own k) = some own' ∧
      ∀ i shape, (shapes o.built k)[i]? = some shape → ∃ name, (arrayNames k (statements acts))[i]? = some name ∧
        ∀ j, j < shape.prod →
          own' i j = if given k i j acts = [] then name ++ indicesLabel shape j else given k i j acts := by
    intro k
    obtain ⟨j1, j2, j3⟩ := h2 k
    obtain ⟨own', a, -, c⟩ := nameArrays_spec (o.names k) (shapes o.built k) 0 (o.own k) (by omega)
    refine ⟨own', a, fun i shape hsh => ?_⟩
    have hi : i < (o.names k).length := by
      rw [j2]
      by_contra hc
      rw [List.getElem?_eq_none (by omega)] at hsh
      exact nomatch hsh
    have hn := List.getElem?_eq_getElem hi
    refine ⟨(o.names k)[i], by rw [← j1]; exact hn, fun j hj => ?_⟩
    have := c i shape (o.names k)[i] hsh (by simp) j hj
    simpa [(j3 i j).1] using this
  obtain ⟨v, v1, v2⟩ := key .var
  obtain ⟨e, e1, e2⟩ := key .expr
  obtain ⟨c, c1, c2⟩ := key .con
  refine ⟨{ o with own := fun k => match k with | .var => v | .expr => e | .con => c },
    by simp only [setupNames, v1, e1, c1, Option.bind_some, Option.map_some]; rfl, rfl, fun k => ?_⟩
  cases k
  · exact v2
  · exact e2
  · exact c2

/-! ## Initializing -/

/-- **An initialized model keeps its problem**: variables, bounds and constraints are those of before; only the objective is
forgotten. -/
theorem initialized_keeps (o : Obj) :
    (∀ σ : ℕ → ℤ, Spec.Solves (model (reset o).built) σ ↔ Spec.Solves (model o.built) σ) ∧
    (∀ k, shapes (reset o).built k = shapes o.built k) ∧ (reset o).built.objDefined = false := by
  refine ⟨fun σ => Iff.rfl, fun k => by cases k <;> rfl, rfl⟩

theorem nameElements_undefined (names : List Names.Name) (i : ℕ) (shape : List ℕ) (own : ℕ → ℕ → Names.Name)
    (hn : names[i]? = none) (hs : 0 < shape.prod) (ho : own i 0 = []) :
    nameElements names i shape (List.range (numberOfElements shape)) own = none := by
  obtain ⟨n, hm⟩ : ∃ n, numberOfElements shape = n + 1 := ⟨shape.prod - 1, by rw [C13.numberOfElements_eq]; omega⟩
  rw [hm, List.range_succ_eq_map]
  simp [nameElements, nameElement, ho, hn]

theorem nameArrays_undefined (names : List Names.Name) (l : List (List ℕ)) : ∀ (i0 d : ℕ) (own : ℕ → ℕ → Names.Name)
    (shape : List ℕ), l[d]? = some shape → 0 < shape.prod → names[i0 + d]? = none → own (i0 + d) 0 = [] →
    nameArrays names i0 l own = none := by
  induction l with
  | nil => intro i0 d own shape h; simp at h
  | cons s l ih =>
    intro i0 d own shape h hp hn ho
    cases d with
    | zero =>
      simp only [List.getElem?_cons_zero, Option.some.injEq] at h
      subst h
      simp only [nameArrays]
      rw [nameElements_undefined names i0 s own hn hp ho]
      rfl
    | succ d =>
      simp only [nameArrays]
      cases h1 : nameElements names i0 s (List.range (numberOfElements s)) own with
      | none => rfl
      | some own1 =>
        obtain ⟨a, -⟩ := nameElements_spec names i0 s _ own own1 List.nodup_range h1
        have e1 : i0 + (d + 1) = i0 + 1 + d := by omega
        rw [e1] at hn ho
        exact ih (i0 + 1) d own1 shape (by simpa using h) hp hn (by rw [a _ (by omega)]; exact ho)

theorem sizes_newShape (k : Kind) (x : Stmt) (s : List ℕ) (h : s ∈ newShape k x) : (k, s.prod) ∈ sizes x := by
  cases x <;> cases k <;> simp [newShape] at h <;> simp [sizes, h]

theorem newShape_sizes (k : Kind) (x : Stmt) (n : ℕ) (h : (k, n) ∈ sizes x) : newShape k x ≠ [] := by
  cases x <;> cases k <;> simp [sizes] at h <;> simp [newShape]

theorem statements_effect (rest : Obj → Option (Obj × Bool)) (q : List Stmt) : ∀ o o' : Obj,
    run rest o (q.map Act.stmt) = .ok o' → ∀ k,
    shapes o'.built k = shapes o.built k ++ q.flatMap (newShape k) ∧ o'.names k = o.names k ++ arrayNames k q ∧
    (∀ i j, (shapes o.built k).length ≤ i → i < (shapes o'.built k).length → o'.own k i j = []) ∧ o'.solved = o.solved := by
  induction q with
  | nil =>
    intro o o' h k
    injection h with h; subst h
    exact ⟨by simp, by simp [arrayNames], fun i j h1 h2 => by omega, rfl⟩
  | cons x q ih =>
    intro o o' h k
    simp only [List.map_cons, Life.run] at h
    obtain ⟨r, h1, h⟩ := bind_ok h
    obtain ⟨o1, h2, h1⟩ := bind_ok h1
    injection h1 with h1; subst h1
    obtain ⟨a1, a2, a3, a4, a5⟩ := execute_effect o o1 x h2 k
    obtain ⟨b1, b2, b3, b4⟩ := ih o1 o' h k
    refine ⟨by rw [b1, a1]; simp, by rw [b2, a2, arrayNames_cons]; simp, ?_, by rw [b4, a5]⟩
    intro i j h3 h4
    by_cases h5 : (shapes o1.built k).length ≤ i
    · exact b3 i j h5 h4
    · have keep : ∀ (q : List Stmt) (o o' : Obj), run rest o (q.map Act.stmt) = .ok o' →
          ∀ i j, i < (shapes o.built k).length → o'.own k i j = o.own k i j := by
        intro q
        induction q with
        | nil => intro o o' h i j _; injection h with h; subst h; rfl
        | cons y q ih2 =>
          intro o o' h i j hi
          simp only [List.map_cons, Life.run] at h
          obtain ⟨r, h1, h⟩ := bind_ok h
          obtain ⟨o1, h2, h1⟩ := bind_ok h1
          injection h1 with h1; subst h1
          obtain ⟨c1, -, -, c4, -⟩ := execute_effect o o1 y h2 k
          rw [ih2 o1 o' h i j (by simp only [c1, List.length_append]; omega), c4 i j hi]
      rw [keep q o1 o' h i j (by omega)]
      exact a3 i j h3 (by omega)

/-- **An initialized model is not a new one.**  If a model object has an array of some kind, it is initialized, and a program
creates arrays of that kind, with elements, then no call of the solver gives a result: either the problem is refused as one
without variables, or without objective and constraints, or the behaviour is undefined. -/
theorem initialized_undefined (rest : Obj → Option (Obj × Bool)) (o o' : Obj) (k : Kind) (q : List Stmt)
    (hk : shapes o.built k ≠ []) (hq : States k q) (h : run rest (reset o) (q.map Act.stmt) = .ok o') :
    solve rest o' = if verified o' then none else some ({ o' with solved := true }, .failed) := by
  obtain ⟨a1, a2, a3, a4⟩ := statements_effect rest q (reset o) o' h k
  have e0 : shapes (reset o).built k = shapes o.built k := (initialized_keeps o).2.1 k
  rw [e0] at a1 a3
  have hlen : (arrayNames k q).length = (q.flatMap (newShape k)).length := by
    clear hq h a1 a2 a3
    induction q with
    | nil => rfl
    | cons x q ih => rw [arrayNames_cons]; simp [newName_length, ih]
  obtain ⟨⟨n, hn⟩, hpos⟩ := hq
  obtain ⟨x, hx, hxn⟩ := List.mem_flatMap.mp hn
  have hne : q.flatMap (newShape k) ≠ [] := by
    intro hc
    exact newShape_sizes k x n hxn (List.flatMap_eq_nil_iff.mp hc x hx)
  set m := (q.flatMap (newShape k)).length with hm
  have hm0 : 0 < m := List.length_pos_iff.mpr hne
  have ho0 : 0 < (shapes o.built k).length := List.length_pos_iff.mpr hk
  set d := (shapes o.built k).length + (m - 1) with hd
  have hdlt : d < (shapes o'.built k).length := by rw [a1, List.length_append, ← hm]; omega
  have hu : nameArrays (o'.names k) 0 (shapes o'.built k) (o'.own k) = none := by
    refine nameArrays_undefined _ _ 0 d _ ((shapes o'.built k)[d]) (List.getElem?_eq_getElem hdlt) ?_ ?_ ?_
    · have hmem : (shapes o'.built k)[d] ∈ q.flatMap (newShape k) := by
        have : (shapes o'.built k)[d] = (q.flatMap (newShape k))[m - 1]'(by omega) := by
          simp only [a1]
          rw [List.getElem_append_right (by omega)]
          congr 1
          omega
        rw [this]
        exact List.getElem_mem _
      obtain ⟨y, hy, hys⟩ := List.mem_flatMap.mp hmem
      exact hpos _ (List.mem_flatMap.mpr ⟨y, hy, sizes_newShape k y _ hys⟩)
    · rw [a2]
      apply List.getElem?_eq_none
      simp only [reset, List.nil_append, hlen]
      omega
    · rw [Nat.zero_add]
      exact a3 d 0 (by omega) hdlt
  have hs : setupNames { o' with solved := true } = none := by
    unfold setupNames
    cases k with
    | var => simp only [hu]; rfl
    | expr =>
      simp only [hu]
      cases nameArrays (o'.names Kind.var) 0 (shapes o'.built Kind.var) (o'.own Kind.var) <;> rfl
    | con =>
      simp only [hu]
      cases nameArrays (o'.names Kind.var) 0 (shapes o'.built Kind.var) (o'.own Kind.var) with
      | none => rfl
      | some v => cases nameArrays (o'.names Kind.expr) 0 (shapes o'.built Kind.expr) (o'.own Kind.expr) <;> rfl
  have hsol : o'.solved = false := by rw [a4]; rfl
  rw [solve, hsol, hs]
  cases verified o' <;> simp

/-! ## Objects nothing was built with -/

theorem eval_empty (s : St) (h : ∀ k, shapes s k = []) (t : Term) : ∀ x, eval s t ≠ .ok x := by
  have hv : s.vars = [] := by simpa [shapes] using h .var
  have he : s.exprs = [] := by simpa [shapes] using h .expr
  induction t with
  | var k idx => intro x; simp [eval, pick, hv, Outcome.bind]
  | varArr k => intro x; simp [eval, pick, hv, Outcome.bind]
  | expr k idx => intro x; simp [eval, pick, he, Outcome.bind]
  | exprArr k => intro x; simp [eval, pick, he, Outcome.bind]
  | sumVar k p => intro x; cases p <;> simp [eval, pick, hv, Outcome.bind]
  | dotVar k p cs => intro x; cases p <;> simp [eval, pick, hv, Outcome.bind]
  | sumExpr k p => intro x; cases p <;> simp [eval, pick, he, Outcome.bind]
  | dotExpr k p cs => intro x; cases p <;> simp [eval, pick, he, Outcome.bind]
  | pos a ih => intro x hx; obtain ⟨y, hy, -⟩ := bind_ok hx; exact ih y hy
  | neg a ih => intro x hx; obtain ⟨y, hy, -⟩ := bind_ok hx; exact ih y hy
  | add a b ih _ => intro x hx; obtain ⟨y, hy, -⟩ := bind_ok hx; exact ih y hy
  | sub a b ih _ => intro x hx; obtain ⟨y, hy, -⟩ := bind_ok hx; exact ih y hy
  | addNum a c ih => intro x hx; obtain ⟨y, hy, -⟩ := bind_ok hx; exact ih y hy
  | subNum a c ih => intro x hx; obtain ⟨y, hy, -⟩ := bind_ok hx; exact ih y hy
  | numSub c a ih => intro x hx; obtain ⟨y, hy, -⟩ := bind_ok hx; exact ih y hy
  | mulNum a c ih => intro x hx; obtain ⟨y, hy, -⟩ := bind_ok hx; exact ih y hy
  | divNum a c ih => intro x hx; obtain ⟨y, hy, -⟩ := bind_ok hx; exact ih y hy

theorem exec_empty (s s' : St) (h : ∀ k, shapes s k = []) (x : Stmt) (hc : creates x = none) : exec s x ≠ .ok s' := by
  have hv : s.vars = [] := by simpa [shapes] using h .var
  have he : s.exprs = [] := by simpa [shapes] using h .expr
  have hk : s.cons = [] := by simpa [shapes] using h .con
  cases x with
  | variables_ => simp [creates] at hc
  | expressions => simp [creates] at hc
  | expressionOf => simp [creates] at hc
  | constraints => simp [creates] at hc
  | constraintOf => simp [creates] at hc
  | change j tgt op => simp [exec, pick, he, Outcome.bind]
  | demand j tgt r => simp [exec, pick, hk, Outcome.bind]
  | switch j tgt on => cases tgt <;> simp [exec, pick, hk, Outcome.bind]
  | bounds j tgt l u => cases tgt <;> simp [exec, pick, hv, Outcome.bind]
  | unbound j tgt => cases tgt <;> simp [exec, pick, hv, Outcome.bind]
  | start j tgt x => simp [exec, pick, hv, Outcome.bind]
  | goal m t => intro hx; obtain ⟨y, hy, -⟩ := bind_ok hx; exact eval_empty s h t y hy

/-- **A model initialized before anything was built is a new one**, whatever else was done with it, calls of the solver
included.  Partial: of a model with arrays this is wrong, see `initialized_keeps` and `initialized_undefined`. -/
theorem initialized_new_partial (rest : Obj → Option (Obj × Bool)) (acts : List Act) : ∀ o : Obj,
    (∀ k, arrayNames k (statements acts) = []) → run rest {} acts = .ok o → reset o = {} := by
  have hcr : ∀ x, (∀ k, arrayNames k [x] = []) → creates x = none := by
    intro x hx
    have h1 := hx .var
    have h2 := hx .expr
    have h3 := hx .con
    cases x <;> simp [arrayNames] at h1 h2 h3 <;> rfl
  have key : ∀ (acts : List Act) (o o' : Obj), (∀ k, arrayNames k (statements acts) = []) →
      o.built = {} → o.own = (fun _ _ _ => []) → run rest o acts = .ok o' →
      o'.built = {} ∧ o'.own = (fun _ _ _ => []) := by
    intro acts
    induction acts with
    | nil => intro o o' _ h1 h2 h; injection h with h; subst h; exact ⟨h1, h2⟩
    | cons a acts ih =>
      intro o o' hn h1 h2 h
      have hemp : ∀ k, shapes o.built k = [] := by intro k; rw [h1]; cases k <;> rfl
      simp only [Life.run] at h
      obtain ⟨r, hr, h⟩ := bind_ok h
      cases a with
      | stmt x =>
        exfalso
        obtain ⟨o1, hx, -⟩ := bind_ok hr
        obtain ⟨s, hx, -⟩ := bind_ok hx
        refine exec_empty o.built s hemp x (hcr x fun k => ?_) hx
        have := hn k
        simp only [statements, arrayNames_cons, List.append_eq_nil_iff] at this
        exact this.1
      | title n => injection hr with hr; subst hr; exact ih { o with title := n } _ hn h1 h2 h
      | label k i j n =>
        simp [step, hemp] at hr
      | reset =>
        injection hr with hr; subst hr
        exact ih (Life.reset o) _ hn (by simp [Life.reset, h1]) h2 h
      | solve =>
        simp only [step, Life.solve] at hr
        have hv : verified o = false := by simp [verified, h1]
        by_cases hs : o.solved = true
        · simp only [hs, if_true] at hr
          injection hr with hr; subst hr
          exact ih _ _ hn h1 h2 h
        · simp only [Bool.not_eq_true] at hs
          simp [hs, hv] at hr
          subst hr
          exact ih { o with solved := true } _ hn h1 h2 h
  intro o hn h
  obtain ⟨h1, h2⟩ := key acts {} o hn rfl rfl h
  simp [reset, h1, h2]

/-! ## Cases -/

/-- Two variables, of which the second gets a name, a constraint and an objective. -/
def sample : List Act :=
  [.stmt (.variables_ "x".toList [2] (some (0, 5))), .label .var 0 1 "y".toList,
   .stmt (.constraintOf "c".toList (.compare .less (.term (.sumVar 0 none)) (.num 3))),
   .stmt (.goal true (.var 0 [0]))]

/-- A call that finds something and changes nothing. -/
def calm : Obj → Option (Obj × Bool) := fun o => some (o, true)

theorem sample_runs : ∃ o, run calm {} sample = .ok o ∧ shapes o.built .var = [[2]] ∧ verified o = true := by
  refine ⟨_, rfl, ?_, ?_⟩ <;> decide +kernel

/-- The names of the elements of the sample. -/
example : ∃ o o', run calm {} sample = .ok o ∧ setupNames o = some o' ∧ o'.own .var 0 1 = "y".toList ∧
    o'.own .var 0 0 = "x".toList ++ indicesLabel [2] 0 := by
  obtain ⟨o, h, hs, -⟩ := sample_runs
  obtain ⟨-, o', h1, -, h2⟩ := element_names calm sample o (by simp [sample]) (by simp [sample]) h
  obtain ⟨n, hn, h3⟩ := h2 .var 0 [2] (by rw [hs]; rfl)
  obtain rfl : "x".toList = n := by simpa [sample, statements, arrayNames] using hn
  exact ⟨o, o', h, h1, by rw [h3 1 (by decide)]; decide, by rw [h3 0 (by decide), if_pos (by decide)]⟩

/-- A second call is refused. -/
example : ∃ o, run calm {} (sample ++ [.solve]) = .ok o ∧ solve calm o = some (o, .refused) := by
  have h : ∃ o, run calm {} (sample ++ [.solve]) = .ok o := ⟨_, rfl⟩
  obtain ⟨o, h⟩ := h
  exact ⟨o, h, (refused_iff calm _ o h).2 ⟨sample, [], rfl, by simp⟩⟩

/-- The same program, once more on the initialized object: undefined. -/
example : ∃ o o', run calm {} (sample ++ [.solve]) = .ok o ∧ run calm (reset o) ((statements sample).map .stmt) = .ok o' ∧
    solve calm o' = none := by
  have h : ∃ o, run calm {} (sample ++ [.solve]) = .ok o ∧ shapes o.built .var ≠ [] ∧
      ∃ o', run calm (reset o) ((statements sample).map .stmt) = .ok o' ∧ verified o' = true :=
    ⟨_, rfl, by decide +kernel, _, rfl, by decide +kernel⟩
  obtain ⟨o, h1, h2, o', h3, h4⟩ := h
  refine ⟨o, o', h1, h3, ?_⟩
  rw [initialized_undefined calm o o' .var (statements sample) h2 ⟨⟨2, by decide⟩, ?_⟩ h3, h4]
  · rfl
  · intro n hn
    simp [statements, sample, sizes] at hn
    omega

/-- A call on a model without variables fails; the model initialized after it is new. -/
example : ∃ o, run calm {} [.title "m".toList, .solve] = .ok o ∧ o.solved = true ∧ reset o = {} := by
  have h : ∃ o, run calm {} [.title "m".toList, .solve] = .ok o ∧ o.solved = true := ⟨_, rfl, rfl⟩
  obtain ⟨o, h, hs⟩ := h
  exact ⟨o, h, hs, initialized_new_partial calm _ o (fun k => rfl) h⟩

end Printemps.C101
