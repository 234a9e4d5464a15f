import Verif.Model.Names
import Verif.Props.C14

/-! # C73 — names identify variables, expressions and constraints -/

namespace Printemps.C73
open MultiArray Names

/-- The elements of all arrays: the array, its number and the position in it. -/
def Element (arrays : List NamedArray) (k j : ℕ) (a : NamedArray) : Prop :=
  arrays[k]? = some a ∧ j < numberOfElements a.shape

/-- No two elements share their extension. -/
def NoSharing (arrays : List NamedArray) : Prop :=
  ∀ k j a k' j' a', Element arrays k j a → Element arrays k' j' a' → a.ext j = a'.ext j' → k = k' ∧ j = j'

/-- Specification of the name an element has after setup. -/
def expectedName (given : Name) (a : NamedArray) (j : ℕ) : Name :=
  if given = [] then a.name ++ indicesLabel a.shape j else given

theorem nameElement_other (a : NamedArray) (mem : ℕ → Name) (j p : ℕ) (h : p ≠ a.ext j) :
    nameElement a mem j p = mem p := by
  unfold nameElement
  split
  · simp [h]
  · rfl

theorem nameElement_self (a : NamedArray) (mem : ℕ → Name) (j : ℕ) :
    nameElement a mem j (a.ext j) = expectedName (mem (a.ext j)) a j := by
  unfold nameElement expectedName
  split <;> simp_all

theorem fold_other (a : NamedArray) (l : List ℕ) (mem : ℕ → Name) (p : ℕ) (h : ∀ j ∈ l, p ≠ a.ext j) :
    l.foldl (nameElement a) mem p = mem p := by
  induction l generalizing mem with
  | nil => rfl
  | cons j l ih =>
    rw [List.foldl_cons, ih _ (fun i hi => h i (by simp [hi])), nameElement_other a mem j p (h j (by simp))]

theorem fold_self (a : NamedArray) (l : List ℕ) (hn : l.Nodup) (mem : ℕ → Name)
    (hd : ∀ i ∈ l, ∀ j ∈ l, a.ext i = a.ext j → i = j) (j : ℕ) (hj : j ∈ l) :
    l.foldl (nameElement a) mem (a.ext j) = expectedName (mem (a.ext j)) a j := by
  induction l generalizing mem with
  | nil => simp at hj
  | cons i l ih =>
    rw [List.nodup_cons] at hn
    rw [List.foldl_cons]
    by_cases e : j = i
    · subst e
      rw [fold_other, nameElement_self]
      intro k hk he
      have := hd j (by simp) k (by simp [hk]) he
      exact hn.1 (this ▸ hk)
    · have hj' : j ∈ l := by simpa [e] using hj
      rw [ih hn.2 _ (fun x hx y hy => hd x (by simp [hx]) y (by simp [hy])) hj', nameElement_other]
      intro he
      exact e (hd j hj i (by simp) he)

theorem setup_other (arrays : List NamedArray) (mem : ℕ → Name) (p : ℕ)
    (h : ∀ a ∈ arrays, ∀ j < numberOfElements a.shape, p ≠ a.ext j) :
    setupUniqueNames arrays mem p = mem p := by
  induction arrays generalizing mem with
  | nil => rfl
  | cons a l ih =>
    unfold setupUniqueNames at ih ⊢
    rw [List.foldl_cons, ih _ (fun b hb => h b (by simp [hb])), nameArray,
      fold_other a _ mem p (fun j hj => h a (by simp) j (List.mem_range.1 hj))]

/-- **Every element is named**: after setup an element has the name the user gave it, or else the name of its
array followed by its label.  (Partial: the elements must not share their extension, see
`assigned_expressions_share_their_name`.) -/
theorem names_after_setup_partial (arrays : List NamedArray) (hs : NoSharing arrays) (mem : ℕ → Name)
    (k j : ℕ) (a : NamedArray) (he : Element arrays k j a) :
    setupUniqueNames arrays mem (a.ext j) = expectedName (mem (a.ext j)) a j := by
  induction arrays generalizing mem k with
  | nil => exact absurd he.1 (by simp)
  | cons b l ih =>
    have hs' : NoSharing l := by
      intro k1 j1 a1 k2 j2 a2 h1 h2 h
      have := hs (k1 + 1) j1 a1 (k2 + 1) j2 a2 ⟨by simpa using h1.1, h1.2⟩ ⟨by simpa using h2.1, h2.2⟩ h
      exact ⟨by omega, this.2⟩
    show setupUniqueNames l (nameArray mem b) (a.ext j) = _
    cases k with
    | zero =>
      have hab : b = a := by simpa using he.1
      subst hab
      rw [setup_other, nameArray, fold_self b _ List.nodup_range mem ?_ j (List.mem_range.2 he.2)]
      · intro x hx y hy h
        exact (hs 0 x b 0 y b ⟨by simp, List.mem_range.1 hx⟩ ⟨by simp, List.mem_range.1 hy⟩ h).2
      · intro c hc i hi h
        obtain ⟨m, hm⟩ := List.mem_iff_getElem?.1 hc
        have := hs 0 j b (m + 1) i c he ⟨by simpa using hm, hi⟩ h
        omega
    | succ k =>
      rw [ih hs' (nameArray mem b) k ⟨by simpa using he.1, he.2⟩, nameArray, fold_other]
      intro i hi h
      have := hs (k + 1) j a 0 i b he ⟨by simp, List.mem_range.1 hi⟩ h
      omega

theorem label_head (shape : List ℕ) (j : ℕ) :
    indicesLabel shape j = [] ∨ ∃ r, indicesLabel shape j = '[' :: r := by
  unfold indicesLabel
  split
  · exact Or.inl rfl
  · exact Or.inr ⟨_, rfl⟩

theorem split_bracket (x y u v : List Char) (hx : '[' ∉ x) (hy : '[' ∉ y)
    (hu : u = [] ∨ ∃ r, u = '[' :: r) (hv : v = [] ∨ ∃ r, v = '[' :: r) (h : x ++ u = y ++ v) :
    x = y ∧ u = v := by
  induction x generalizing y with
  | nil =>
    cases y with
    | nil => exact ⟨rfl, by simpa using h⟩
    | cons c y =>
      rcases hu with rfl | ⟨r, rfl⟩
      · simp at h
      · simp only [List.nil_append, List.cons_append, List.cons.injEq] at h
        exact absurd (by rw [← h.1]; simp) hy
  | cons c x ih =>
    cases y with
    | nil =>
      rcases hv with rfl | ⟨r, rfl⟩
      · simp at h
      · simp only [List.nil_append, List.cons_append, List.cons.injEq] at h
        exact absurd (by rw [h.1]; simp) hx
    | cons d y =>
      simp only [List.cons_append, List.cons.injEq] at h
      obtain ⟨e1, e2⟩ := ih y (fun hm => hx (by simp [hm])) (fun hm => hy (by simp [hm])) h.2
      exact ⟨by rw [h.1, e1], e2⟩

/-- **Names are unique**: when the arrays were created with different names, none containing an opening bracket,
and no element was renamed, no two elements have the same name after setup, whatever the shapes are.
(Partial: see `equal_array_names_accepted`, `bracket_names_collide` and `assigned_expressions_share_their_name`
for what happens otherwise.) -/
theorem names_unique_partial (arrays : List NamedArray) (hs : NoSharing arrays) (mem : ℕ → Name)
    (hmem : ∀ k j a, Element arrays k j a → mem (a.ext j) = [])
    (hshape : ∀ a ∈ arrays, a.shape ≠ []) (hb : ∀ a ∈ arrays, '[' ∉ a.name)
    (hd : (arrays.map NamedArray.name).Nodup)
    (k j : ℕ) (a : NamedArray) (k' j' : ℕ) (a' : NamedArray)
    (he : Element arrays k j a) (he' : Element arrays k' j' a')
    (h : setupUniqueNames arrays mem (a.ext j) = setupUniqueNames arrays mem (a'.ext j')) :
    k = k' ∧ j = j' := by
  rw [names_after_setup_partial arrays hs mem k j a he, names_after_setup_partial arrays hs mem k' j' a' he',
    hmem k j a he, hmem k' j' a' he'] at h
  simp only [expectedName, if_true] at h
  have ha : a ∈ arrays := List.mem_iff_getElem?.2 ⟨k, he.1⟩
  have ha' : a' ∈ arrays := List.mem_iff_getElem?.2 ⟨k', he'.1⟩
  obtain ⟨h1, h2⟩ := split_bracket _ _ _ _ (hb a ha) (hb a' ha') (label_head _ _) (label_head _ _) h
  have hk : k = k' := by
    have e1 : (arrays.map NamedArray.name)[k]? = some a.name := by simp [he.1]
    have e2 : (arrays.map NamedArray.name)[k']? = some a.name := by simp [he'.1, h1]
    have hlt : k < (arrays.map NamedArray.name).length := (List.getElem?_eq_some_iff.1 e1).1
    exact (List.getElem?_inj hlt hd).1 (e1.trans e2.symm)
  subst hk
  have haa : a = a' := by
    have := he.1.symm.trans he'.1
    simpa using this
  subst haa
  exact ⟨rfl, C14.labels_unique a.shape (hshape a ha) j j' he.2 he'.2 h2⟩

/-- Creation is refused exactly when the name contains a blank or there are already 100 arrays of the kind; no
other name is refused. -/
theorem creation_refused_iff (arrays : List NamedArray) (name : Name) (shape : List ℕ) (ext : ℕ → ℕ) :
    (create arrays name shape ext = .thrown ↔ ' ' ∈ name ∨ 100 ≤ arrays.length) ∧
    ∀ arrays', create arrays name shape ext = .ok arrays' → arrays' = arrays ++ [⟨name, shape, ext⟩] := by
  have hsp : hasSpace name = true ↔ ' ' ∈ name := by
    unfold hasSpace
    rw [List.any_eq_true]
    constructor
    · rintro ⟨c, hc, e⟩
      have : c = ' ' := by simpa using e
      exact this ▸ hc
    · intro h; exact ⟨' ', h, by simp⟩
  unfold create MAX_PROXIES
  by_cases h1 : hasSpace name = true
  · rw [if_pos h1]; exact ⟨⟨fun _ => Or.inl (hsp.1 h1), fun _ => rfl⟩, by simp⟩
  rw [if_neg h1]
  by_cases h2 : arrays.length ≥ 100
  · rw [if_pos h2]; exact ⟨⟨fun _ => Or.inr h2, fun _ => rfl⟩, by simp⟩
  rw [if_neg h2]
  refine ⟨⟨by simp, ?_⟩, ?_⟩
  · rintro (h | h)
    · exact absurd (hsp.2 h) h1
    · exact absurd h h2
  · intro r hr; cases hr; rfl

/-- **Deviation.**  Two arrays with the same name are accepted, and their elements get the same names. -/
theorem equal_array_names_accepted :
    ∃ arrays, (create [] ['x'] [1] id).bind (fun l => create l ['x'] [1] (fun i => i + 1)) = .ok arrays ∧
      NoSharing arrays ∧
      setupUniqueNames arrays (fun _ => []) 0 = setupUniqueNames arrays (fun _ => []) 1 := by
  refine ⟨[⟨['x'], [1], id⟩, ⟨['x'], [1], fun i => i + 1⟩], by rfl, ?_, by decide +kernel⟩
  intro k j a k' j' a' h h' e
  obtain ⟨g1, g2⟩ := h
  obtain ⟨g1', g2'⟩ := h'
  rcases k with _ | _ | k <;> rcases k' with _ | _ | k' <;> simp at g1 g1' <;> subst g1 <;> subst g1' <;>
    simp [numberOfElements] at g2 g2' <;> subst g2 <;> subst g2' <;> simp_all

/-- **Deviation.**  A scalar created with the name `x[0]` has the same name as the first element of an array of
two elements created with the name `x`. -/
theorem bracket_names_collide :
    setupUniqueNames [⟨['x', '[', '0', ']'], [1], id⟩, ⟨['x'], [2], fun i => i + 1⟩] (fun _ => []) 0 =
    setupUniqueNames [⟨['x', '[', '0', ']'], [1], id⟩, ⟨['x'], [2], fun i => i + 1⟩] (fun _ => []) 1 := by
  have h : decimal 0 = ['0'] := by unfold decimal; rfl
  have h2 : decimal 2 = ['2'] := by unfold decimal; rfl
  simp [setupUniqueNames, nameArray, nameElement, numberOfElements, indicesLabel, multiIndex, strides,
    partialProducts, unflatten, joinLabel, padded, maxDigits, h, h2, List.range_succ]

/-- **Deviation.**  After `e(0) = e(1)` on an array of expressions the two elements share their extension
(model_component/expression.h:110-111 copies the pointer), and both have the name of the first. -/
theorem assigned_expressions_share_their_name :
    setupUniqueNames [⟨['e'], [2], fun _ => 1⟩] (fun _ => []) 1 = ['e', '[', '0', ']'] ∧
    expectedName [] ⟨['e'], [2], fun _ => 1⟩ 1 = ['e', '[', '1', ']'] := by
  have h : decimal 0 = ['0'] := by unfold decimal; rfl
  have h1 : decimal 1 = ['1'] := by unfold decimal; rfl
  have h2 : decimal 2 = ['2'] := by unfold decimal; rfl
  constructor <;>
  simp [setupUniqueNames, nameArray, nameElement, numberOfElements, indicesLabel, multiIndex, strides,
    partialProducts, unflatten, joinLabel, padded, maxDigits, h, h1, h2, List.range_succ, expectedName]

/-- Non-vacuity: a scalar `x` and a 2-vector `y`, created one after the other, meet the hypotheses. -/
example : ∃ arrays, (create [] ['x'] [1] id).bind (fun l => create l ['y'] [2] (fun i => i + 1)) = .ok arrays ∧
    NoSharing arrays ∧ (∀ a ∈ arrays, a.shape ≠ []) ∧ (∀ a ∈ arrays, '[' ∉ a.name) ∧
    (arrays.map NamedArray.name).Nodup := by
  refine ⟨[⟨['x'], [1], id⟩, ⟨['y'], [2], fun i => i + 1⟩], by rfl, ?_, by decide +kernel, by decide +kernel,
    by decide +kernel⟩
  intro k j a k' j' a' h h' e
  obtain ⟨g1, g2⟩ := h
  obtain ⟨g1', g2'⟩ := h'
  rcases k with _ | _ | k <;> rcases k' with _ | _ | k' <;> simp at g1 g1' <;> subst g1 <;> subst g1' <;>
    simp [numberOfElements] at g2 g2' e <;> omega

end Printemps.C73
