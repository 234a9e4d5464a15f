import Verif.Lemmas.Scientific
import Verif.Lemmas.ArrayFile
import Verif.Props.C46

/-! # C85 — Files with the values of a solution say what the solution is -/

namespace Printemps.C85
open Json Text ArrayFile Spec MultiArray

theorem short_written (q : ℚ) (h : ∃ k : ℤ, q = k / 1000000) (r : ℚ) (hr : SixDecimals q r) : r = q := by
  obtain ⟨k, rfl⟩ := h
  obtain ⟨⟨l, rfl⟩, hd⟩ := hr
  rw [abs_le] at hd
  have h1 : ((l - k : ℤ) : ℚ) ≤ 1 / 2 := by push_cast; linarith [hd.2]
  have h2 : -(1 / 2) ≤ ((l - k : ℤ) : ℚ) := by push_cast; linarith [hd.1]
  have h3 : l - k < 1 := by
    have : ((l - k : ℤ) : ℚ) < (1 : ℤ) := by push_cast at h1 ⊢; linarith
    exact_mod_cast this
  have h4 : -1 < l - k := by
    have : ((-1 : ℤ) : ℚ) < ((l - k : ℤ) : ℚ) := by push_cast at h2 ⊢; linarith
    exact_mod_cast this
  rw [show l = k by omega]

theorem shows_exactly (x : Proxy) (h : ∀ q, Num.real q ∈ x.values → Short q) (v : Val) (hv : Shows x v) : ShowsExactly x v := by
  refine ⟨fun idx hi => ?_, hv.2⟩
  obtain ⟨n, w, hn, he, hw⟩ := hv.1 idx hi
  refine ⟨n, hn, ?_⟩
  rw [he]
  cases n with
  | int n => rw [show w = .int n from hw]; rfl
  | real q =>
    obtain ⟨r, rfl, hr⟩ := hw
    rw [short_written q (h q (List.mem_of_getElem? hn)).1 r hr]
    rfl

theorem plain_list (l : List Val) (h : ∀ v ∈ l, PlainV true v) : PlainE (ofList l) := by
  induction l with
  | nil => unfold ofList PlainE; trivial
  | cons v l ih => unfold ofList PlainE; exact ⟨h v (by simp), ih (fun w hw => h w (by simp [hw]))⟩

theorem plain_nest (v : List ℕ → Val) (h : ∀ idx, PlainV true (v idx)) (p suf : List ℕ) : ∀ w ∈ nest v p suf, PlainV true w := by
  induction suf generalizing p with
  | nil => intro w hw; exact absurd hw (by simp [nest])
  | cons n rest ih =>
    intro w hw
    rw [nest] at hw
    obtain ⟨b, -, rfl⟩ := List.mem_map.1 hw
    split
    · exact h _
    · unfold PlainV; exact plain_list _ (ih _)

theorem plain_members (l : List (Str × Val)) (h : ∀ y ∈ l, PlainS y.1 ∧ PlainV false y.2) : PlainM (members l) := by
  induction l with
  | nil => unfold members PlainM; trivial
  | cons y l ih =>
    unfold members PlainM
    exact ⟨(h y (by simp)).1, (h y (by simp)).2, ih (fun z hz => h z (by simp [hz]))⟩

theorem plain_proxy (x : Proxy) (h : WellMade x) (hs : ∀ q, Num.real q ∈ x.values → Short q) (a : Bool) : PlainV a (proxyVal x) := by
  unfold proxyVal PlainV
  apply plain_list
  unfold proxyItems
  split
  · intro v hv; exact absurd hv (by simp)
  · rw [items_snd]
    apply plain_nest
    intro idx
    unfold valueAt
    have hm : x.values.getD (flatIndex x.shape idx) (.int 0) = .int 0 ∨ x.values.getD (flatIndex x.shape idx) (.int 0) ∈ x.values := by
      rw [List.getD_eq_getElem?_getD]
      cases hg : x.values[flatIndex x.shape idx]? with
      | none => exact Or.inl rfl
      | some y => exact Or.inr (List.mem_of_getElem? hg)
    generalize x.values.getD (flatIndex x.shape idx) (.int 0) = n at hm
    cases n with
    | int n =>
      unfold writtenVal PlainV
      rcases hm with hm | hm
      · rw [show n = 0 by simpa using hm]; decide
      · exact h.ints n hm
    | real q =>
      rcases hm with hm | hm
      · simp at hm
      · unfold writtenVal PlainV
        rw [short_written q (hs q hm).1 _ (fixed6_spec q)]
        exact (hs q hm).2

/-! ## Arrays -/

/-- **One section of the file.**  For every list of arrays of any shapes with any values, under plain and distinct names, the
object that is made holds each array under its name, nested as its shape says, with its values at their indices — integers as
they are and real numbers with six decimals — and with nothing else. -/
theorem arrays_show_values_partial (xs : List Proxy) (h : ∀ x ∈ xs, WellMade x ∧ PlainS x.name) (hd : (xs.map Proxy.name).Nodup) :
    ∃ ms, (∃ N, ∀ fuel ≥ N, createJsonArray fuel xs = some ms) ∧ ∀ x ∈ xs, ∃ v, ms.get x.name = some v ∧ Shows x v := by
  refine ⟨_, create_eq xs (fun x hx => (h x hx).1) (fun x hx => (h x hx).2), fun x hx => ⟨proxyVal x, ?_, proxyVal_shows x (h x hx).1⟩⟩
  apply get_members
  · rw [List.map_map]; exact hd
  · exact List.mem_map.2 ⟨x, hx, rfl⟩

/-- The document of the sections. -/
def doc (s : Named) (v e c w : Members) : List (Str × Val) :=
  summary s ++ [(sVariables, .obj v), (sExpressions, .obj e), (sConstraints, .obj c), (sViolations, .obj w)]

theorem doc_nodup (s : Named) (v e c w : Members) : ((doc s v e c w).map Prod.fst).Nodup := by
  unfold doc summary
  simp only [List.map_append, List.map_cons, List.map_nil]
  decide

/-- The object of a section. -/
def sec (xs : List Proxy) : Members := members (xs.map fun x => (x.name, proxyVal x))

theorem document_eq (s : Named) (h : GoodSections s) : ∃ N, ∀ fuel ≥ N, documentByArray fuel s =
    some (members (doc s (sec s.variables_) (sec s.expressions) (sec s.constraints) (sec s.violations))) := by
  have key : ∀ y ∈ fileSections s, ∃ N, ∀ fuel ≥ N, createJsonArray fuel y.2 = some (sec y.2) := fun y hy =>
    create_eq y.2 (fun x hx => ((h y hy).1 x hx).1) (fun x hx => ((h y hy).1 x hx).2)
  obtain ⟨N1, h1⟩ := key (sVariables, s.variables_) (by simp [fileSections])
  obtain ⟨N2, h2⟩ := key (sExpressions, s.expressions) (by simp [fileSections])
  obtain ⟨N3, h3⟩ := key (sConstraints, s.constraints) (by simp [fileSections])
  obtain ⟨N4, h4⟩ := key (sViolations, s.violations) (by simp [fileSections])
  refine ⟨N1 + N2 + N3 + N4, fun fuel hf => ?_⟩
  unfold documentByArray
  rw [h1 fuel (by omega), h2 fuel (by omega), h3 fuel (by omega), h4 fuel (by omega)]
  rfl

/-- What every document says about a solution besides the sections. -/
def Tells (d : Members) (s : Named) : Prop :=
  d.get "name".toList = some (.str s.name) ∧ d.get "number_of_variables".toList = some (.int s.numberOfVariables) ∧
  d.get "number_of_constraints".toList = some (.int s.numberOfConstraints) ∧
  d.get "is_found_feasible_solution".toList = some (.bool s.feasible) ∧ d.get "objective".toList = some (.real s.objective) ∧
  d.get "total_violation".toList = some (.real s.totalViolation)

theorem doc_tells (s : Named) (v e c w : Members) : Tells (members (doc s v e c w)) s := by
  have hd := doc_nodup s v e c w
  refine ⟨?_, ?_, ?_, ?_, ?_, ?_⟩ <;> (apply get_members _ hd; simp [doc, summary])

theorem doc_sections (s : Named) (f : List Proxy → Members) : ∀ y ∈ fileSections s,
    (members (doc s (f s.variables_) (f s.expressions) (f s.constraints) (f s.violations))).get y.1 = some (.obj (f y.2)) := by
  intro y hy
  apply get_members _ (doc_nodup _ _ _ _ _)
  simp only [fileSections, List.mem_cons, List.not_mem_nil, or_false] at hy
  rcases hy with rfl | rfl | rfl | rfl <;> simp [doc]

/-- **The document written by arrays.**  Whatever the solution, it names the solution, tells the numbers of variables and
constraints, whether it is feasible, the objective value and the total violation, and shows every array of every section. -/
theorem document_by_array_partial (s : Named) (h : GoodSections s) :
    ∃ d, (∃ N, ∀ fuel ≥ N, documentByArray fuel s = some d) ∧ Tells d s ∧
      ∀ y ∈ fileSections s, ∃ ms, d.get y.1 = some (.obj ms) ∧ ∀ x ∈ y.2, ∃ v, ms.get x.name = some v ∧ Shows x v := by
  refine ⟨_, document_eq s h, doc_tells _ _ _ _ _, fun y hy => ⟨_, doc_sections s sec y hy, fun x hx => ?_⟩⟩
  refine ⟨proxyVal x, ?_, proxyVal_shows x ((h y hy).1 x hx).1⟩
  apply get_members
  · rw [List.map_map]; exact (h y hy).2
  · exact List.mem_map.2 ⟨x, hx, rfl⟩

theorem doc_plain (s : Named) (hs : ShortSolution s) (f : List Proxy → Members) (hf : ∀ y ∈ fileSections s, PlainM (f y.2)) :
    PlainM (members (doc s (f s.variables_) (f s.expressions) (f s.constraints) (f s.violations))) := by
  have key : ∀ y ∈ fileSections s, PlainV false (.obj (f y.2)) := fun y hy => by unfold PlainV; exact hf y hy
  have k1 := key (sVariables, s.variables_) (by simp [fileSections])
  have k2 := key (sExpressions, s.expressions) (by simp [fileSections])
  have k3 := key (sConstraints, s.constraints) (by simp [fileSections])
  have k4 := key (sViolations, s.violations) (by simp [fileSections])
  have h1 : PlainV false (.str version) := by unfold PlainV; decide
  have h2 : PlainV false (.str s.name) := by unfold PlainV; exact hs.name
  have h3 : PlainV false (.int s.numberOfVariables) := by unfold PlainV; exact hs.counts.1
  have h4 : PlainV false (.int s.numberOfConstraints) := by unfold PlainV; exact hs.counts.2
  have h5 : PlainV false (.bool s.feasible) := by unfold PlainV; rfl
  have h6 : PlainV false (.real s.objective) := by unfold PlainV; exact hs.objective
  have h7 : PlainV false (.real s.totalViolation) := by unfold PlainV; exact hs.violation
  apply plain_members
  intro y hy
  simp only [doc, summary, List.cons_append, List.nil_append, List.mem_cons, List.not_mem_nil, or_false] at hy
  rcases hy with rfl | rfl | rfl | rfl | rfl | rfl | rfl | rfl | rfl | rfl | rfl
  · exact ⟨by dsimp only; decide, h1⟩
  · exact ⟨by dsimp only; decide, h2⟩
  · exact ⟨by dsimp only; decide, h3⟩
  · exact ⟨by dsimp only; decide, h4⟩
  · exact ⟨by dsimp only; decide, h5⟩
  · exact ⟨by dsimp only; decide, h6⟩
  · exact ⟨by dsimp only; decide, h7⟩
  · exact ⟨by dsimp only; decide, k1⟩
  · exact ⟨by dsimp only; decide, k2⟩
  · exact ⟨by dsimp only; decide, k3⟩
  · exact ⟨by dsimp only; decide, k4⟩

theorem mem_sections (s : Named) (y : Str × List Proxy) (hy : y ∈ fileSections s) (x : Proxy) (hx : x ∈ y.2) :
    x ∈ s.variables_ ++ s.expressions ++ s.constraints ++ s.violations := by
  simp only [fileSections, List.mem_cons, List.not_mem_nil, or_false] at hy
  simp only [List.mem_append]
  rcases hy with rfl | rfl | rfl | rfl <;> tauto

/-- **The file written by arrays.**  If the numbers are short enough for the text formats, then a reader of the file finds the
very values of the solution at their indices. -/
theorem file_by_array_partial (s : Named) (h : GoodSections s) (hs : ShortSolution s) :
    ∃ text d, (∃ N, ∀ fuel ≥ N, fileByArray fuel s = some text) ∧ (∃ N, ∀ fuel ≥ N, readObject fuel text = some d) ∧ Tells d s ∧
      ∀ y ∈ fileSections s, ∃ ms, d.get y.1 = some (.obj ms) ∧ ∀ x ∈ y.2, ∃ v, ms.get x.name = some v ∧ ShowsExactly x v := by
  obtain ⟨N, hN⟩ := document_eq s h
  refine ⟨_, _, ⟨N, fun fuel hf => by unfold fileByArray; rw [hN fuel hf]; rfl⟩,
    C46.file_round_trip_object_partial _ (doc_plain s hs sec ?_) 0, doc_tells _ _ _ _ _, ?_⟩
  · intro y hy
    apply plain_members
    intro z hz
    obtain ⟨x, hx, rfl⟩ := List.mem_map.1 hz
    exact ⟨((h y hy).1 x hx).2, plain_proxy x ((h y hy).1 x hx).1 (hs.reals x (mem_sections s y hy x hx)) false⟩
  · intro y hy
    refine ⟨_, doc_sections s sec y hy, fun x hx => ⟨proxyVal x, ?_,
      shows_exactly x (hs.reals x (mem_sections s y hy x hx)) _ (proxyVal_shows x ((h y hy).1 x hx).1)⟩⟩
    apply get_members
    · rw [List.map_map]; exact (h y hy).2
    · exact List.mem_map.2 ⟨x, hx, rfl⟩

/-! ## Names -/

/-- The names of the elements of a section. -/
def elementNames (xs : List Proxy) : List Str := xs.flatMap Proxy.names

theorem object_names (xs : List Proxy) (h : ∀ x ∈ xs, WellMade x) : (createJsonObject xs).map Prod.fst = elementNames xs := by
  unfold createJsonObject elementNames
  rw [List.map_flatMap]
  have key : ∀ x ∈ xs, (List.range (numberOfElements x.shape)).map (fun i => x.names.getD i []) = x.names := by
    intro x hx
    rw [C13.numberOfElements_eq, ← (h x hx).names]
    apply List.ext_getElem?
    intro i
    rw [List.getElem?_map]
    by_cases hi : i < x.names.length
    · rw [List.getElem?_range hi, List.getElem?_eq_getElem hi, Option.map_some, List.getD_eq_getElem?_getD, List.getElem?_eq_getElem hi]
      rfl
    · rw [List.getElem?_eq_none (by simpa using hi), List.getElem?_eq_none (by simpa using hi)]
      rfl
  induction xs with
  | nil => rfl
  | cons x xs ih =>
    rw [List.flatMap_cons, List.flatMap_cons, ih (fun y hy => h y (by simp [hy])) (fun y hy => key y (by simp [hy])), List.map_map]
    congr 1
    exact key x (by simp)

theorem object_mem (xs : List Proxy) (x : Proxy) (hx : x ∈ xs) (h : WellMade x) (i : ℕ) (k : Str) (n : Num)
    (hk : x.names[i]? = some k) (hn : x.values[i]? = some n) : (k, n.val) ∈ createJsonObject xs := by
  unfold createJsonObject
  refine List.mem_flatMap.2 ⟨x, hx, List.mem_map.2 ⟨i, ?_, ?_⟩⟩
  · rw [List.mem_range, C13.numberOfElements_eq, ← h.values]
    exact (List.getElem?_eq_some_iff.1 hn).1
  · rw [List.getD_eq_getElem?_getD, List.getD_eq_getElem?_getD, hk, hn]
    rfl

/-- **The document written by names.**  If the names of the elements are distinct within a section, then each value of the
section is found under its name — with all its digits. -/
theorem document_by_name (s : Named) (h : ∀ y ∈ fileSections s, (∀ x ∈ y.2, WellMade x) ∧ (elementNames y.2).Nodup) :
    Tells (documentByName s) s ∧ ∀ y ∈ fileSections s, ∃ ms, (documentByName s).get y.1 = some (.obj ms) ∧
      ∀ x ∈ y.2, ∀ (i : ℕ) (k : Str) (n : Num), x.names[i]? = some k → x.values[i]? = some n → ms.get k = some n.val := by
  refine ⟨doc_tells _ _ _ _ _, fun y hy => ⟨_, doc_sections s (fun xs => members (createJsonObject xs)) y hy, ?_⟩⟩
  intro x hx i k n hk hn
  apply get_members
  · rw [object_names _ (h y hy).1]; exact (h y hy).2
  · exact object_mem _ x hx ((h y hy).1 x hx) i k n hk hn

/-- **The file written by names.**  If the numbers are short enough for the text formats and the names are plain, then a reader of
the file finds the very value of each element under its name. -/
theorem file_by_name_partial (s : Named) (h : ∀ y ∈ fileSections s, (∀ x ∈ y.2, WellMade x) ∧ (elementNames y.2).Nodup)
    (hn : ∀ y ∈ fileSections s, ∀ k ∈ elementNames y.2, PlainS k) (hs : ShortSolution s) :
    ∃ d, (∃ N, ∀ fuel ≥ N, readObject fuel (write 0 (.obj (documentByName s))) = some d) ∧ Tells d s ∧
      ∀ y ∈ fileSections s, ∃ ms, d.get y.1 = some (.obj ms) ∧
        ∀ x ∈ y.2, ∀ (i : ℕ) (k : Str) (n : Num), x.names[i]? = some k → x.values[i]? = some n → ms.get k = some n.val := by
  refine ⟨documentByName s, C46.file_round_trip_object_partial _
    (doc_plain s hs (fun xs => members (createJsonObject xs)) ?_) 0, document_by_name s h⟩
  intro y hy
  apply plain_members
  intro z hz
  refine ⟨hn y hy z.1 ?_, ?_⟩
  · rw [← object_names _ (h y hy).1]
    exact List.mem_map.2 ⟨z, hz, rfl⟩
  · unfold createJsonObject at hz
    obtain ⟨x, hx, hz⟩ := List.mem_flatMap.1 hz
    obtain ⟨i, hi, rfl⟩ := List.mem_map.1 hz
    have hw := (h y hy).1 x hx
    have hi' : i < x.values.length := by
      rw [List.mem_range, C13.numberOfElements_eq, ← hw.values] at hi
      exact hi
    have hm : x.values.getD i (.int 0) ∈ x.values := by
      rw [List.getD_eq_getElem?_getD, List.getElem?_eq_getElem hi']
      exact List.getElem_mem hi'
    generalize x.values.getD i (.int 0) = n at hm
    cases n with
    | int n => unfold Num.val PlainV; exact hw.ints n hm
    | real q => unfold Num.val PlainV; exact (hs.reals x (mem_sections s y hy x hx) q hm).2

/-! ## Any names and numbers -/

theorem echo_members (l : List (Str × Val)) : echoM (members l) = members (l.map fun x => (respell x.1, echoV false x.2)) := by
  induction l with
  | nil => rfl
  | cons x l ih => rw [members, echoM, ih]; rfl

theorem clean_members (l : List (Str × Val)) (h : ∀ y ∈ l, '"' ∉ y.1 ∧ CleanV y.2) : CleanM (members l) := by
  induction l with
  | nil => unfold members CleanM; trivial
  | cons x l ih =>
    unfold members CleanM
    exact ⟨(h x (by simp)).1, (h x (by simp)).2, ih fun y hy => h y (by simp [hy])⟩

/-- The document tells, up to seven digits and the spelling of the reader, what the solution is. -/
def TellsNearly (d : Members) (s : Named) : Prop :=
  d.get "name".toList = some (.str (respell s.name)) ∧ d.get "number_of_variables".toList = some (.int s.numberOfVariables) ∧
  d.get "number_of_constraints".toList = some (.int s.numberOfConstraints) ∧
  d.get "is_found_feasible_solution".toList = some (.bool s.feasible) ∧
  (∃ q, d.get "objective".toList = some (.real q) ∧ SevenDigits s.objective q) ∧
  ∃ q, d.get "total_violation".toList = some (.real q) ∧ SevenDigits s.totalViolation q

theorem echo_num (n : Num) : ReadAs n (echoV false n.val) := by
  cases n with
  | int n => rw [Num.val, echoV]; rfl
  | real q => rw [Num.val, echoV]; exact ⟨_, rfl, formatE_close q⟩

theorem doc_echo (s : Named) (f : List Proxy → Members) :
    echoM (members (doc s (f s.variables_) (f s.expressions) (f s.constraints) (f s.violations))) =
    members ([("version".toList, .str version), ("name".toList, .str (respell s.name)), ("number_of_variables".toList, .int s.numberOfVariables),
      ("number_of_constraints".toList, .int s.numberOfConstraints), ("is_found_feasible_solution".toList, .bool s.feasible),
      ("objective".toList, .real (atof (formatE s.objective))), ("total_violation".toList, .real (atof (formatE s.totalViolation)))] ++
      [(sVariables, .obj (echoM (f s.variables_))), (sExpressions, .obj (echoM (f s.expressions))),
       (sConstraints, .obj (echoM (f s.constraints))), (sViolations, .obj (echoM (f s.violations)))]) := by
  rw [echo_members]
  unfold doc summary
  simp only [List.cons_append, List.nil_append, List.map_cons, List.map_nil, echoV]
  rfl

/-- **The file written by names, for any numbers and names**: if the names have no quotation marks and stay different in the
spelling of the reader, then a reader finds each value under its name, integers exactly and real numbers in seven digits. -/
theorem file_by_name (s : Named) (hw : ∀ y ∈ fileSections s, ∀ x ∈ y.2, WellMade x)
    (hd : ∀ y ∈ fileSections s, ((elementNames y.2).map respell).Nodup) (hq : ∀ y ∈ fileSections s, ∀ k ∈ elementNames y.2, '"' ∉ k)
    (hname : '"' ∉ s.name) (hc : (-2147483648 ≤ s.numberOfVariables ∧ s.numberOfVariables ≤ 2147483647) ∧
      (-2147483648 ≤ s.numberOfConstraints ∧ s.numberOfConstraints ≤ 2147483647)) :
    ∃ d, (∃ N, ∀ fuel ≥ N, readObject fuel (write 0 (.obj (documentByName s))) = some d) ∧ TellsNearly d s ∧
      ∀ y ∈ fileSections s, ∃ ms, d.get y.1 = some (.obj ms) ∧
        ∀ x ∈ y.2, ∀ (i : ℕ) (k : Str) (n : Num), x.names[i]? = some k → x.values[i]? = some n →
          ∃ v, ms.get (respell k) = some v ∧ ReadAs n v := by
  have hsec : ∀ y ∈ fileSections s, CleanV (.obj (members (createJsonObject y.2))) := by
    intro y hy
    unfold CleanV
    apply clean_members
    intro z hz
    refine ⟨hq y hy z.1 ?_, ?_⟩
    · rw [← object_names _ (hw y hy)]
      exact List.mem_map.2 ⟨z, hz, rfl⟩
    · unfold createJsonObject at hz
      obtain ⟨x, hx, hz⟩ := List.mem_flatMap.1 hz
      obtain ⟨i, hi, rfl⟩ := List.mem_map.1 hz
      have hw := hw y hy x hx
      have hi' : i < x.values.length := by
        rw [List.mem_range, C13.numberOfElements_eq, ← hw.values] at hi
        exact hi
      have hm : x.values.getD i (.int 0) ∈ x.values := by
        rw [List.getD_eq_getElem?_getD, List.getElem?_eq_getElem hi']
        exact List.getElem_mem hi'
      generalize x.values.getD i (.int 0) = n at hm
      cases n with
      | int n => unfold Num.val CleanV; exact hw.ints n hm
      | real q => unfold Num.val CleanV; trivial
  have hclean : CleanM (documentByName s) := by
    have k1 := hsec (sVariables, s.variables_) (by simp [fileSections])
    have k2 := hsec (sExpressions, s.expressions) (by simp [fileSections])
    have k3 := hsec (sConstraints, s.constraints) (by simp [fileSections])
    have k4 := hsec (sViolations, s.violations) (by simp [fileSections])
    have h1 : CleanV (.str version) := by unfold CleanV; decide
    have h2 : CleanV (.str s.name) := by unfold CleanV; exact hname
    have h3 : CleanV (.int s.numberOfVariables) := by unfold CleanV; exact hc.1
    have h4 : CleanV (.int s.numberOfConstraints) := by unfold CleanV; exact hc.2
    have h5 : CleanV (.bool s.feasible) := by unfold CleanV; trivial
    have h6 : CleanV (.real s.objective) := by unfold CleanV; trivial
    have h7 : CleanV (.real s.totalViolation) := by unfold CleanV; trivial
    unfold documentByName
    apply clean_members
    intro y hy
    simp only [summary, List.cons_append, List.nil_append, List.mem_cons, List.not_mem_nil, or_false] at hy
    rcases hy with rfl | rfl | rfl | rfl | rfl | rfl | rfl | rfl | rfl | rfl | rfl
    · exact ⟨by dsimp only; decide, h1⟩
    · exact ⟨by dsimp only; decide, h2⟩
    · exact ⟨by dsimp only; decide, h3⟩
    · exact ⟨by dsimp only; decide, h4⟩
    · exact ⟨by dsimp only; decide, h5⟩
    · exact ⟨by dsimp only; decide, h6⟩
    · exact ⟨by dsimp only; decide, h7⟩
    · exact ⟨by dsimp only; decide, k1⟩
    · exact ⟨by dsimp only; decide, k2⟩
    · exact ⟨by dsimp only; decide, k3⟩
    · exact ⟨by dsimp only; decide, k4⟩
  refine ⟨_, C46.file_is_echo_object _ hclean 0, ?_, ?_⟩
  all_goals
    rw [show documentByName s = members (doc s (members (createJsonObject s.variables_)) (members (createJsonObject s.expressions))
      (members (createJsonObject s.constraints)) (members (createJsonObject s.violations))) from rfl,
      doc_echo s (fun xs => members (createJsonObject xs))]
  · refine ⟨?_, ?_, ?_, ?_, ⟨_, ?_, formatE_close _⟩, ⟨_, ?_, formatE_close _⟩⟩ <;>
      (apply get_members _ (by simp only [List.cons_append, List.nil_append, List.map_cons, List.map_nil]; decide); simp)
  · intro y hy
    refine ⟨echoM (members (createJsonObject y.2)), ?_, ?_⟩
    · apply get_members _ (by simp only [List.cons_append, List.nil_append, List.map_cons, List.map_nil]; decide)
      simp only [fileSections, List.mem_cons, List.not_mem_nil, or_false] at hy
      rcases hy with rfl | rfl | rfl | rfl <;> simp
    · intro x hx i k n hk hn
      refine ⟨echoV false n.val, ?_, echo_num n⟩
      rw [echo_members]
      apply get_members
      · have := hd y hy
        rw [← object_names _ (hw y hy), List.map_map] at this
        rw [List.map_map]
        exact this
      · exact List.mem_map.2 ⟨(k, n.val), object_mem _ x hx (hw y hy x hx) i k n hk hn, rfl⟩

/-! ## Reading values in a program -/

/-- **A value is read at its index.**  For every index within the shape; an index with another number of dimensions is refused. -/
theorem value_at_index (x : Proxy) (h : WellMade x) (idx : List ℕ) :
    (Within x.shape idx → x.valuesAt idx = x.values[place x.shape idx]? ∧ (x.valuesAt idx).isSome) ∧
    (idx.length ≠ x.shape.length → x.valuesAt idx = none) := by
  constructor
  · intro hi
    have hl : idx.length = x.shape.length := hi.length_eq
    have hflat := (C13.core x.shape idx h.shape hi).1
    rw [← h.values] at hflat
    unfold Proxy.valuesAt
    rw [if_neg (by omega), place_eq x.shape idx h.shape hi, List.getElem?_eq_getElem hflat]
    exact ⟨rfl, rfl⟩
  · intro hl
    unfold Proxy.valuesAt
    rw [if_pos (by omega)]

/-- **The value of a single element.**  It is given if and only if there is exactly one. -/
theorem single_value (x : Proxy) (h : WellMade x) (n : Num) : x.value = some n ↔ x.values = [n] := by
  unfold Proxy.value
  rw [C13.numberOfElements_eq, ← h.values]
  cases hv : x.values with
  | nil => simp
  | cons a l =>
    cases l with
    | nil => simp
    | cons b l => simp

/-! ## A case -/

/-- A matrix of integers and a row of numbers. -/
def matrix : Proxy := ⟨['x'], [2, 3], [.int 1, .int 0, .int (-4), .int 0, .int 1, .int 7], [['a'], ['b'], ['c'], ['d'], ['e'], ['f']]⟩
def row : Proxy := ⟨['r'], [2], [.real (1 / 4), .real 3], [['g'], ['h']]⟩
def example_ : Named := ⟨['m'], 6, 2, true, 5 / 2, 0, [matrix], [], [row], [row]⟩

theorem matrix_made : WellMade matrix := by
  refine ⟨by decide, by decide, by decide, fun n hn => ?_⟩
  simp only [matrix, List.mem_cons, List.not_mem_nil, or_false, Num.int.injEq] at hn
  omega

theorem row_made : WellMade row := by
  refine ⟨by decide, by decide, by decide, fun n hn => ?_⟩
  simp [row] at hn

theorem example_good : GoodSections example_ := by
  intro y hy
  simp only [fileSections, example_, List.mem_cons, List.not_mem_nil, or_false] at hy
  rcases hy with rfl | rfl | rfl | rfl
  · exact ⟨fun x hx => by rw [List.mem_singleton.1 hx]; exact ⟨matrix_made, by decide⟩, by decide⟩
  · exact ⟨fun x hx => absurd hx (by simp), by decide⟩
  · exact ⟨fun x hx => by rw [List.mem_singleton.1 hx]; exact ⟨row_made, by decide⟩, by decide⟩
  · exact ⟨fun x hx => by rw [List.mem_singleton.1 hx]; exact ⟨row_made, by decide⟩, by decide⟩

theorem example_short : ShortSolution example_ := by
  refine ⟨by decide, by decide, by decide +kernel, by decide +kernel, ?_⟩
  intro x hx q hq
  have hx' : x = matrix ∨ x = row := by
    simp only [example_, List.append_nil, List.mem_append, List.mem_singleton] at hx
    tauto
  rcases hx' with rfl | rfl
  · simp [matrix] at hq
  · simp only [row, List.mem_cons, List.not_mem_nil, or_false, Num.real.injEq] at hq
    rcases hq with rfl | rfl
    · exact ⟨⟨250000, by norm_num⟩, by decide +kernel⟩
    · exact ⟨⟨3000000, by norm_num⟩, by decide +kernel⟩

/-- A two-dimensional array with the names that the library gives to its elements: the reader finds `x[1, 0] = 5` under
`x[ 1  0 ]`. -/
def square : Proxy := ⟨['x'], [2, 2], [.int 1, .int 0, .int 5, .int 0],
  ["x[0, 0]".toList, "x[0, 1]".toList, "x[1, 0]".toList, "x[1, 1]".toList]⟩

example : ∃ d ms, (∃ N, ∀ fuel ≥ N, readObject fuel (write 0 (.obj (documentByName ⟨"m".toList, 4, 0, true, 1 / 3, 0, [square], [], [], []⟩))) =
    some d) ∧ d.get sVariables = some (.obj ms) ∧ ms.get "x[ 1  0 ]".toList = some (.int 5) := by
  have hsq : WellMade square := by
    refine ⟨by decide, by decide, by decide, fun n hn => ?_⟩
    simp only [square, List.mem_cons, List.not_mem_nil, or_false, Num.int.injEq] at hn
    omega
  obtain ⟨d, h1, -, h3⟩ := file_by_name ⟨"m".toList, 4, 0, true, 1 / 3, 0, [square], [], [], []⟩
    (by
      intro y hy
      simp only [fileSections, List.mem_cons, List.not_mem_nil, or_false] at hy
      rcases hy with rfl | rfl | rfl | rfl
      · intro x hx; rw [List.mem_singleton.1 hx]; exact hsq
      all_goals exact fun x hx => absurd hx (by simp))
    (by
      intro y hy
      simp only [fileSections, List.mem_cons, List.not_mem_nil, or_false] at hy
      rcases hy with rfl | rfl | rfl | rfl <;> decide)
    (by
      intro y hy
      simp only [fileSections, List.mem_cons, List.not_mem_nil, or_false] at hy
      rcases hy with rfl | rfl | rfl | rfl <;> decide)
    (by decide) (by decide)
  obtain ⟨ms, h4, h5⟩ := h3 (sVariables, [square]) (by simp [fileSections])
  obtain ⟨v, h6, h7⟩ := h5 square (by simp) 2 "x[1, 0]".toList (.int 5) (by decide) (by decide)
  obtain rfl : v = .int 5 := h7
  exact ⟨d, ms, h1, h4, h6⟩

/-- A reader of the file finds `x[1][2] = 7`. -/
example : ∃ text d ms v, (∃ N, ∀ fuel ≥ N, fileByArray fuel example_ = some text) ∧ (∃ N, ∀ fuel ≥ N, readObject fuel text = some d) ∧
    d.get sVariables = some (.obj ms) ∧ ms.get ['x'] = some v ∧ entryAt v [1, 2] = some (.int 7) := by
  obtain ⟨text, d, h1, h2, -, h3⟩ := file_by_array_partial example_ example_good example_short
  obtain ⟨ms, h4, h5⟩ := h3 (sVariables, [matrix]) (by simp [fileSections, example_])
  obtain ⟨v, h6, h7⟩ := h5 matrix (by simp)
  obtain ⟨n, hn, he⟩ := h7.1 [1, 2] (by decide)
  have e : matrix.values[place matrix.shape [1, 2]]? = some (.int 7) := by decide
  rw [e] at hn
  obtain rfl := Option.some.inj hn
  exact ⟨text, d, ms, v, h1, h2, h4, h6, he⟩

example : ∀ y ∈ fileSections example_, (∀ x ∈ y.2, WellMade x) ∧ (elementNames y.2).Nodup := by
  intro y hy
  refine ⟨fun x hx => ((example_good y hy).1 x hx).1, ?_⟩
  simp only [fileSections, example_, List.mem_cons, List.not_mem_nil, or_false] at hy
  rcases hy with rfl | rfl | rfl | rfl <;> decide
example : ∀ y ∈ fileSections example_, ∀ k ∈ elementNames y.2, PlainS k := by
  intro y hy
  simp only [fileSections, example_, List.mem_cons, List.not_mem_nil, or_false] at hy
  rcases hy with rfl | rfl | rfl | rfl <;> decide
example : matrix.valuesAt [1, 0] = some (.int 0) ∧ matrix.valuesAt [0, 2] = some (.int (-4)) := by decide

/-! ## What the files do not say -/

/-- **Small numbers are lost.**  Any number of less than half a millionth is written as zero by arrays: a violated constraint
whose violation is small is shown with violation zero. -/
theorem small_numbers_are_lost (q : ℚ) (h : |q| < 1 / 2000000) (v : Val) (hv : Written (.real q) v) : v = .real 0 := by
  obtain ⟨r, rfl, ⟨k, rfl⟩, hd⟩ := hv
  rw [abs_lt] at h
  rw [abs_le] at hd
  have h1 : k < 1 := by
    have : (k : ℚ) < (1 : ℤ) := by push_cast; linarith [h.2, hd.2]
    exact_mod_cast this
  have h2 : -1 < k := by
    have : ((-1 : ℤ) : ℚ) < (k : ℚ) := by push_cast; linarith [h.1, hd.1]
    exact_mod_cast this
  rw [show k = 0 by omega]
  norm_num

example : |(1 / 10000000 : ℚ)| < 1 / 2000000 ∧ ∃ v, Written (.real (1 / 10000000)) v :=
  ⟨by rw [abs_of_pos] <;> norm_num, _, written _⟩

/-- **Names are changed and merged.**  Two arrays named `a,b` and `a b` are both written as `a b`: the value of the first one
cannot be found under its name, nor told from the second one. -/
theorem names_are_merged : ∀ fuel ≥ 7, ∃ ms,
    createJsonArray fuel [⟨"a,b".toList, [1], [.int 1], [['p']]⟩, ⟨"a b".toList, [1], [.int 2], [['q']]⟩] = some ms ∧
    ms.get "a,b".toList = none ∧ ms.get "a b".toList = some (.arr (.cons (.int 2) .nil)) := by
  intro fuel hf
  obtain ⟨fuel, rfl⟩ : ∃ f, fuel = f + 7 := ⟨fuel - 7, by omega⟩
  refine ⟨members [(['a', ' ', 'b'], .arr (.cons (.int 1) .nil)), (['a', ' ', 'b'], .arr (.cons (.int 2) .nil))], ?_, by decide, by
    rfl⟩
  have ht : tokenize (' ' :: '{' :: ' ' :: (([⟨"a,b".toList, [1], [.int 1], [['p']]⟩, ⟨"a b".toList, [1], [.int 2], [['q']]⟩] :
      List Proxy).flatMap proxyText ++ ['}'])) =
      [['{'], ['"', 'a', ' ', 'b', '"'], ['['], ['1'], [']'], ['"', 'a', ' ', 'b', '"'], ['['], ['2'], [']'], ['}']] := by
    decide +kernel
  unfold createJsonArray parseObject
  dsimp only
  rw [ht]
  rfl

/-- **An index outside of the shape is not refused.**  With the right number of dimensions, the value of another element may be
given: here `x(0, 5)` is `x(1, 2)`. -/
theorem index_outside_is_read : ¬ Within matrix.shape [0, 5] ∧ matrix.valuesAt [0, 5] = matrix.valuesAt [1, 2] ∧
    matrix.valuesAt [0, 5] = some (.int 7) := by
  decide

/-- **An array with an empty dimension loses its shape.**  Two empty rows are written as an empty array. -/
theorem empty_dimension_loses_shape (v : Val)
    (hv : ∃ N, ∀ fuel ≥ N, ∃ ms, createJsonArray fuel [⟨['x'], [2, 0], [], []⟩] = some ms ∧ ms.get ['x'] = some v) : v = .arr .nil := by
  obtain ⟨N, hN⟩ := hv
  obtain ⟨M, hM⟩ := create_eq [⟨['x'], [2, 0], [], []⟩] (by
    intro x hx
    rw [List.mem_singleton.1 hx]
    exact ⟨by simp, rfl, rfl, fun n hn => absurd hn (by simp)⟩) (by
    intro x hx
    rw [List.mem_singleton.1 hx]
    decide)
  obtain ⟨ms, h1, h2⟩ := hN (N + M) (by omega)
  rw [hM (N + M) (by omega)] at h1
  obtain rfl := Option.some.inj h1
  have : (members (([⟨['x'], [2, 0], [], []⟩] : List Proxy).map fun x => (x.name, proxyVal x))).get ['x'] = some (.arr .nil) := rfl
  rw [this] at h2
  exact (Option.some.inj h2).symm

/-- The keys of the four sections, letter by letter. -/
theorem section_keys (s : Named) : (fileSections s).map Prod.fst =
    ["variables".toList, "expressions".toList, "constraints".toList, "violations".toList] := rfl

end Printemps.C85
