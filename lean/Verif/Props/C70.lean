import Verif.Spec.Standalone
import Verif.Lemmas.Text
import Verif.Lemmas.MpsText
import Verif.Props.C48
import Verif.Props.C61
import Verif.Props.C44
import Verif.Props.C69
import Verif.Lemmas.Example

/-! # C70 — the command line and its files -/

namespace Printemps.C70
open Spec Json Cmd Opt Sol Text

/-! ### The arguments -/

/-- The effect of a good part. -/
def apply : Part → Args → Option Args
  | .flag k v, a =>
    if k = c!"-p" then some { a with option := v }
    else if k = c!"-i" then some { a with initial := v }
    else if k = c!"-m" then some { a with mutables := v }
    else if k = c!"-f" then some { a with fixed := v }
    else if k = c!"-s" then some { a with selection := v }
    else if k = c!"-x" then some { a with pairs := v }
    else (atoi v).map fun n => { a with common := n }
  | .switch k, a => some (Cmd.single k a)
  | .file n, a => some (Cmd.single n a)

theorem parse_flag (k v : Str) (r : List Str) (a : Args) (hk : k ∈ flags) :
    parse (k :: v :: r) a = (apply (.flag k v) a).bind (parse r) := by
  simp only [flags, List.mem_cons, List.not_mem_nil, or_false] at hk
  rcases hk with rfl | rfl | rfl | rfl | rfl | rfl | rfl
  · rfl
  · rfl
  · rfl
  · rfl
  · rfl
  · rfl
  · show (atoi v).bind _ = ((atoi v).map _).bind _
    cases atoi v <;> rfl

theorem parse_single (k : Str) (r : List Str) (a : Args) (hk : k ∉ flags) : parse (k :: r) a = parse r (Cmd.single k a) := by
  simp only [flags, List.mem_cons, List.not_mem_nil, or_false, not_or] at hk
  obtain ⟨h1, h2, h3, h4, h5, h6, h7⟩ := hk
  cases r with
  | nil =>
    unfold parse
    rw [if_neg (by simp only [not_or]; exact ⟨h1, h2, h3, h4, h5, h6, h7⟩)]
  | cons v r =>
    rw [parse, if_neg h1, if_neg h2, if_neg h3, if_neg h4, if_neg h5, if_neg h6, if_neg h7]

theorem switch_no_flag (k : Str) (h : k ∈ switches) : k ∉ flags := by
  have : ∀ k ∈ switches, k ∉ flags := by decide
  exact this k h

theorem parse_parts (ps : List Part) (h : ∀ p ∈ ps, p.Good) (r : List Str) (a : Args) :
    parse (ps.flatMap Part.args ++ r) a = (ps.foldlM (fun a p => apply p a) a).bind (parse r) := by
  induction ps generalizing a with
  | nil => rfl
  | cons p ps ih =>
    have ih := fun a => ih (fun q hq => h q (by simp [hq])) a
    have hp := h p (by simp)
    rw [List.flatMap_cons, List.append_assoc, List.foldlM_cons]
    cases p with
    | flag k v =>
      show parse (k :: v :: _) a = _
      rw [parse_flag k v _ a hp]
      show _ = (Option.bind _ _).bind _
      rw [Option.bind_assoc]
      congr 1
      funext b
      exact ih b
    | switch k =>
      show parse (k :: _) a = _
      rw [parse_single k _ a (switch_no_flag k hp)]
      exact ih _
    | file k =>
      show parse (k :: _) a = _
      rw [parse_single k _ a hp.1]
      exact ih _

/-- Every list of arguments consists of parts, and possibly a flag without value at the end. -/
theorem split (args : List Str) : ∃ ps : List Part, (∀ p ∈ ps, p.Good) ∧
    (args = ps.flatMap Part.args ∨ ∃ k ∈ flags, args = ps.flatMap Part.args ++ [k]) := by
  induction hn : args.length using Nat.strong_induction_on generalizing args with
  | _ n ih =>
    cases args with
    | nil => exact ⟨[], by simp, Or.inl rfl⟩
    | cons k r =>
      by_cases hk : k ∈ flags
      · cases r with
        | nil => exact ⟨[], by simp, Or.inr ⟨k, hk, rfl⟩⟩
        | cons v r =>
          obtain ⟨ps, h1, h2⟩ := ih r.length (by simp at hn; omega) r rfl
          refine ⟨.flag k v :: ps, ?_, ?_⟩
          · intro p hp
            rcases List.mem_cons.1 hp with rfl | hp
            · exact hk
            · exact h1 p hp
          · rcases h2 with rfl | ⟨k', hk', rfl⟩
            · exact Or.inl rfl
            · exact Or.inr ⟨k', hk', rfl⟩
      · obtain ⟨ps, h1, h2⟩ := ih r.length (by simp at hn; omega) r rfl
        refine ⟨(if k ∈ switches then .switch k else .file k) :: ps, ?_, ?_⟩
        · intro p hp
          rcases List.mem_cons.1 hp with rfl | hp
          · split
            · assumption
            · exact ⟨hk, by assumption⟩
          · exact h1 p hp
        · have e : (if k ∈ switches then Part.switch k else .file k).args = [k] := by split <;> rfl
          rcases h2 with rfl | ⟨k', hk', rfl⟩
          · exact Or.inl (by rw [List.flatMap_cons, e]; rfl)
          · exact Or.inr ⟨k', hk', by rw [List.flatMap_cons, e]; rfl⟩

theorem lastValue_append (k : Str) (ps : List Part) (p : Part) :
    lastValue k (ps ++ [p]) = match p with
      | .flag k' v => if k' = k then some v else lastValue k ps
      | _ => lastValue k ps := by
  unfold lastValue
  rw [List.filterMap_append]
  cases p with
  | flag k' v =>
    by_cases h : k' = k
    · simp [h]
    · simp [h]
  | switch k' => simp
  | file k' => simp

theorem lastFile_append (ps : List Part) (p : Part) :
    lastFile (ps ++ [p]) = match p with
      | .file n => some n
      | _ => lastFile ps := by
  unfold lastFile
  rw [List.filterMap_append]
  cases p <;> simp

/-- What the members are after the parts. -/
def Holds (ps : List Part) (a : Args) : Prop :=
  a.option = (lastValue c!"-p" ps).getD [] ∧ a.initial = (lastValue c!"-i" ps).getD [] ∧
  a.mutables = (lastValue c!"-m" ps).getD [] ∧ a.fixed = (lastValue c!"-f" ps).getD [] ∧
  a.selection = (lastValue c!"-s" ps).getD [] ∧ a.pairs = (lastValue c!"-x" ps).getD [] ∧
  some a.common = (match lastValue c!"-c" ps with | none => some 5 | some v => atoi v) ∧
  (a.accept = true ↔ Part.switch c!"--accept-continuous" ∈ ps) ∧
  (a.extract = true ↔ Part.switch c!"--extract-flippable-variable-pairs" ∈ ps) ∧
  (a.loading = true ↔ Part.switch c!"--include-mps-loading-time" ∈ ps) ∧
  (a.json = true ↔ Part.switch c!"--export-json-instance" ∈ ps) ∧
  a.mps = (lastFile ps).getD []

theorem holds_apply (ps : List Part) (p : Part) (hp : p.Good) (a b : Args) (h : Holds ps a) (hb : apply p a = some b) :
    Holds (ps ++ [p]) b := by
  obtain ⟨h1, h2, h3, h4, h5, h6, h7, h8, h9, h10, h11, h12⟩ := h
  unfold Holds
  simp only [lastValue_append, lastFile_append, List.mem_append, List.mem_singleton]
  cases p with
  | flag k v =>
    simp only [Part.Good, flags, List.mem_cons, List.not_mem_nil, or_false] at hp
    rcases hp with rfl | rfl | rfl | rfl | rfl | rfl | rfl
    case inr.inr.inr.inr.inr.inr =>
      obtain ⟨n, hn, rfl⟩ := Option.map_eq_some_iff.1 hb
      simp only [h1, h2, h3, h4, h5, h6, h8, h9, h10, h11, h12]
      simp [hn]
    all_goals
      obtain rfl := Option.some.inj hb
      simp only [h1, h2, h3, h4, h5, h6, h7, h8, h9, h10, h11, h12]
      simp
  | switch k =>
    simp only [Part.Good, switches, List.mem_cons, List.not_mem_nil, or_false] at hp
    rcases hp with rfl | rfl | rfl | rfl
    all_goals
      obtain rfl := Option.some.inj hb
      simp only [Cmd.single, h1, h2, h3, h4, h5, h6, h12]
      simp [h7, h8, h9, h10, h11]
  | file k =>
    obtain ⟨-, hs⟩ := hp
    simp only [switches, List.mem_cons, List.not_mem_nil, or_false, not_or] at hs
    obtain ⟨s1, s2, s3, s4⟩ := hs
    obtain rfl := Option.some.inj hb
    simp only [Cmd.single, if_neg s1, if_neg s2, if_neg s3, if_neg s4, h1, h2, h3, h4, h5, h6, h8, h9, h10, h11]
    simp [h7]

theorem fold_holds (ps : List Part) (h : ∀ p ∈ ps, p.Good) (done : List Part) (a b : Args) (ha : Holds done a)
    (hb : ps.foldlM (fun a p => apply p a) a = some b) : Holds (done ++ ps) b := by
  induction ps generalizing done a with
  | nil => obtain rfl := Option.some.inj hb; simpa using ha
  | cons p ps ih =>
    rw [List.foldlM_cons] at hb
    obtain ⟨c, hc, hd⟩ := Option.bind_eq_some_iff.1 hb
    have := ih (fun q hq => h q (by simp [hq])) (done ++ [p]) c (holds_apply done p (h p (by simp)) a c ha hc) hd
    simpa using this

theorem fold_some (ps : List Part) (h : ∀ v, Part.flag c!"-c" v ∈ ps → atoi v ≠ none) (hg : ∀ p ∈ ps, p.Good) (a : Args) :
    ∃ b, ps.foldlM (fun a p => apply p a) a = some b := by
  induction ps generalizing a with
  | nil => exact ⟨a, rfl⟩
  | cons p ps ih =>
    have : ∃ c, apply p a = some c := by
      cases p with
      | flag k v =>
        have hk := hg (.flag k v) (by simp)
        simp only [Part.Good, flags, List.mem_cons, List.not_mem_nil, or_false] at hk
        rcases hk with rfl | rfl | rfl | rfl | rfl | rfl | rfl
        case inr.inr.inr.inr.inr.inr =>
          obtain ⟨n, hn⟩ := Option.ne_none_iff_exists'.1 (h v (by simp))
          exact ⟨_, by show (atoi v).map _ = _; rw [hn]; rfl⟩
        all_goals exact ⟨_, rfl⟩
      | switch k => exact ⟨_, rfl⟩
      | file k => exact ⟨_, rfl⟩
    obtain ⟨c, hc⟩ := this
    rw [List.foldlM_cons, hc]
    exact ih (fun v hv => h v (by simp [hv])) (fun q hq => hg q (by simp [hq])) c

theorem fold_none (ps : List Part) (v : Str) (hv : Part.flag c!"-c" v ∈ ps) (ha : atoi v = none) (a : Args) :
    ps.foldlM (fun a p => apply p a) a = none := by
  induction ps generalizing a with
  | nil => cases hv
  | cons p ps ih =>
    rw [List.foldlM_cons]
    rcases List.mem_cons.1 hv with rfl | hv
    · show ((atoi v).map _).bind _ = _
      rw [ha]; rfl
    · show (apply p a).bind _ = _
      cases apply p a with
      | none => rfl
      | some c => exact ih hv c

/-- The command line: each flag has the value given last, each switch is set if it is given, in any order. -/
theorem arguments (ps : List Part) (h : ∀ p ∈ ps, p.Good) (hc : ∀ v, Part.flag c!"-c" v ∈ ps → atoi v ≠ none) :
    ∃ a, parse (ps.flatMap Part.args) {} = some a ∧ Holds ps a := by
  obtain ⟨b, hb⟩ := fold_some ps hc h {}
  refine ⟨b, ?_, ?_⟩
  · have := parse_parts ps h [] {}
    rw [List.append_nil, hb] at this
    exact this
  · have := fold_holds ps h [] {} b (by refine ⟨rfl, rfl, rfl, rfl, rfl, rfl, rfl, ?_, ?_, ?_, ?_, rfl⟩ <;> simp) hb
    simpa using this

/-- When the behaviour is undefined: if and only if the last argument is a flag whose value is missing, or the number for
`-c` is no `int`. -/
theorem undefined_arguments (args : List Str) : parse args {} = none ↔ ∃ ps : List Part, (∀ p ∈ ps, p.Good) ∧
    ((∃ k ∈ flags, args = ps.flatMap Part.args ++ [k]) ∨
      (args = ps.flatMap Part.args ∧ ∃ v, Part.flag c!"-c" v ∈ ps ∧ atoi v = none)) := by
  have last : ∀ k ∈ flags, ∀ a, parse [k] a = none := by
    intro k hk a
    simp only [flags, List.mem_cons, List.not_mem_nil, or_false] at hk
    rcases hk with rfl | rfl | rfl | rfl | rfl | rfl | rfl <;> rfl
  constructor
  · intro hn
    obtain ⟨ps, h1, h2⟩ := split args
    refine ⟨ps, h1, ?_⟩
    rcases h2 with rfl | h2
    · refine Or.inr ⟨rfl, ?_⟩
      by_contra hc
      push Not at hc
      obtain ⟨a, ha, -⟩ := arguments ps h1 hc
      rw [ha] at hn; cases hn
    · exact Or.inl h2
  · rintro ⟨ps, h1, ⟨k, hk, rfl⟩ | ⟨rfl, v, hv, ha⟩⟩
    · rw [parse_parts ps h1]
      cases ps.foldlM (fun a p => apply p a) {} with
      | none => rfl
      | some b => exact last k hk b
    · have := parse_parts ps h1 [] {}
      rw [List.append_nil, fold_none ps v hv ha] at this
      exact this

/-! ### Files with names and numbers -/

theorem ofList_inj {a b : List Char} (h : String.ofList a = String.ofList b) : a = b := by
  have := congrArg String.toList h
  simpa using this

theorem toInt_none (n : ℤ) (h : ¬ (-2147483648 ≤ n ∧ n ≤ 2147483647)) : toInt (n : ℚ) = none := by
  unfold toInt
  have : (if (n : ℚ) < 0 then -⌊-(n : ℚ)⌋ else ⌊(n : ℚ)⌋) = n := by
    split
    · rw [← Int.cast_neg, Int.floor_intCast]; omega
    · rw [Int.floor_intCast]
  dsimp only
  rw [this, if_neg h]

/-- The entries of a list of lines. -/
def ent (ls : List (List Char)) : List (Str × ℤ) :=
  ls.filterMap fun l => match tokens l with
    | k :: v :: _ => some (k, ⌊atof v + 1 / 2⌋)
    | _ => none

theorem ent_cons (l : List Char) (ls : List (List Char)) :
    ent (l :: ls) = (match tokens l with | k :: v :: _ => [(k, ⌊atof v + 1 / 2⌋)] | _ => []) ++ ent ls := by
  unfold ent
  rw [List.filterMap_cons]
  rcases tokens l with _ | ⟨k, _ | ⟨v, r⟩⟩ <;> rfl

theorem roundToInt_eq (v : List Char) : roundToInt v = toInt ((⌊atof v + 1 / 2⌋ : ℤ) : ℚ) := by
  unfold roundToInt
  rw [add_comm]

theorem namesAndValues_ok (ls : List (List Char)) (s0 : StrMap ℤ)
    (h : ∀ e ∈ ent ls, -2147483648 ≤ e.2 ∧ e.2 ≤ 2147483647) :
    ∃ s, namesAndValues ls s0 = .ok s ∧ ∀ n, s.get (String.ofList n) =
      (((ent ls).reverse.find? fun e => e.1 = n).map Prod.snd).or (s0.get (String.ofList n)) := by
  induction ls generalizing s0 with
  | nil => exact ⟨s0, rfl, fun n => rfl⟩
  | cons l ls ih =>
    rw [ent_cons] at h
    unfold namesAndValues
    rw [ent_cons]
    generalize tokens l = tk at h ⊢
    rcases tk with _ | ⟨k, _ | ⟨v, r⟩⟩
    · exact ih s0 h
    · exact ih s0 h
    · obtain ⟨h1, h2⟩ := h (k, ⌊atof v + 1 / 2⌋) (by simp)
      have e : roundToInt v = some ⌊atof v + 1 / 2⌋ := by rw [roundToInt_eq]; exact toInt_int _ h1 h2
      dsimp only
      rw [e]
      obtain ⟨s, hs, hn⟩ := ih (s0.put (String.ofList k) ⌊atof v + 1 / 2⌋) fun x hx => h x (by simp [hx])
      refine ⟨s, hs, fun n => ?_⟩
      rw [hn n, StrMap.get_put]
      show _ = (Option.map _ (List.find? _ ([_] ++ ent ls).reverse)).or _
      rw [List.reverse_append, List.find?_append]
      cases (ent ls).reverse.find? fun e => decide (e.1 = n) with
      | some y => rfl
      | none =>
        by_cases hk : k = n
        · subst hk; simp
        · have h2 : ¬ String.ofList n = String.ofList k := fun e => hk (ofList_inj e).symm
          simp [hk, h2]

theorem namesAndValues_undefined (ls : List (List Char)) (s0 : StrMap ℤ)
    (h : ¬ ∀ e ∈ ent ls, -2147483648 ≤ e.2 ∧ e.2 ≤ 2147483647) : namesAndValues ls s0 = .undefined := by
  induction ls generalizing s0 with
  | nil => exact absurd (by simp [ent]) h
  | cons l ls ih =>
    rw [ent_cons] at h
    unfold namesAndValues
    generalize tokens l = tk at h ⊢
    rcases tk with _ | ⟨k, _ | ⟨v, r⟩⟩
    · exact ih s0 h
    · exact ih s0 h
    · dsimp only
      rw [roundToInt_eq]
      by_cases h1 : -2147483648 ≤ ⌊atof v + 1 / 2⌋ ∧ ⌊atof v + 1 / 2⌋ ≤ 2147483647
      · rw [toInt_int _ h1.1 h1.2]
        refine ih _ fun hc => h fun e he => ?_
        rcases List.mem_append.1 he with he | he
        · rw [List.mem_singleton.1 he]; exact h1
        · exact hc e he
      · rw [toInt_none _ h1]

/-- Reading a file of names and numbers: each name gets the number of its last line.  A number that is no `int` anywhere in
the file is undefined behaviour. -/
theorem values_read (text : List Char) :
    (Fit text → ∃ s, readNamesAndValues text = .ok s ∧ ∀ n, s.get (String.ofList n) = given text n) ∧
    (¬ Fit text → readNamesAndValues text = .undefined) := by
  refine ⟨fun h => ?_, fun h => namesAndValues_undefined _ _ h⟩
  obtain ⟨s, h1, h2⟩ := namesAndValues_ok (lines text) [] h
  refine ⟨s, h1, fun n => ?_⟩
  rw [h2 n, StrMap.get_nil, Option.or_none]
  rfl

theorem names_read (text : List Char) (n : Str) : n ∈ readNames text ↔ Lists text n := by
  unfold readNames Lists
  rw [List.mem_filterMap]

theorem names_read' (text : List Char) (n : Str) : String.ofList n ∈ (readNames text).map String.ofList ↔ Lists text n := by
  rw [← names_read, List.mem_map]
  exact ⟨fun ⟨k, hk, e⟩ => ofList_inj e ▸ hk, fun h => ⟨n, h, rfl⟩⟩

/-! ### The effect of the files -/

/-- The files named on a command line can be opened and contain what they should. -/
structure Readable (fs : Str → Option (List Char)) (fuel : ℕ) (a : Args) : Prop where
  exclusive : a.mutables = [] ∨ a.fixed = []
  option : a.option ≠ [] → ∃ t o, fs a.option = some t ∧ setupFile fuel t = some o
  mutables : a.mutables ≠ [] → ∃ t, fs a.mutables = some t
  fixed : a.fixed ≠ [] → ∃ t, fs a.fixed = some t ∧ Fit t
  selection : a.selection ≠ [] → ∃ t, fs a.selection = some t
  pairs : a.pairs ≠ [] → ∃ t, fs a.pairs = some t
  initial : a.initial ≠ [] → ∃ t, fs a.initial = some t ∧ Fit t

/-- The content of a file that can be opened. -/
def content (fs : Str → Option (List Char)) (f : Str) : List Char := (fs f).getD []

/-- Is a variable fixed after `-m` and `-f`? -/
def IsFixed (fs : Str → Option (List Char)) (name : ℕ → Str) (a : Args) (m : MState) (v : ℕ) : Prop :=
  if a.mutables ≠ [] then ¬ Lists (content fs a.mutables) (name v)
  else if a.fixed ≠ [] ∧ given (content fs a.fixed) (name v) ≠ none then True else (m.var v).fixed = true

/-- The value of a variable after `-m` and `-f`. -/
def valueBefore (fs : Str → Option (List Char)) (name : ℕ → Str) (a : Args) (m : MState) (v : ℕ) : ℤ :=
  if a.mutables ≠ [] then 0
  else if a.fixed ≠ [] then (given (content fs a.fixed) (name v)).getD (m.var v).value else (m.var v).value

/-- The initial value the file gives to a variable: 0 if it is not mentioned. -/
def initialValue (fs : Str → Option (List Char)) (name : ℕ → Str) (a : Args) (v : ℕ) : ℤ :=
  (given (content fs a.initial) (name v)).getD 0

theorem withFile_none {β : Type} (fs : Str → Option (List Char)) (d : β) (g : List Char → Outcome β) :
    withFile fs [] d g = .ok d := if_pos rfl

theorem withFile_some {β : Type} (fs : Str → Option (List Char)) (f : Str) (t : List Char) (d : β) (g : List Char → Outcome β)
    (hf : f ≠ []) (ht : fs f = some t) : withFile fs f d g = g t := by
  unfold withFile
  rw [if_neg hf, ht]

theorem ok_bind {α β : Type} (x : α) (f : α → Outcome β) : (Outcome.ok x).bind f = f x := rfl

/-- The stage of `-m`. -/
theorem stage_mutable (fs : Str → Option (List Char)) (name : ℕ → Str) (f : Str) (m : MState)
    (hf : f ≠ [] → ∃ t, fs f = some t) :
    ∃ m1, withFile fs f m (fun t =>
      .ok (unfixVariables (fun v => String.ofList (name v)) ((readNames t).map String.ofList) m)) = .ok m1 ∧
      m1.varIds = m.varIds ∧ m1.conIds = m.conIds ∧ m1.con = m.con ∧
      ∀ v ∈ m.varIds, (m1.var v).lb = (m.var v).lb ∧ (m1.var v).ub = (m.var v).ub ∧
        (m1.var v).value = (if f ≠ [] then 0 else (m.var v).value) ∧
        ((m1.var v).fixed = true ↔ if f ≠ [] then ¬ Lists (content fs f) (name v) else (m.var v).fixed = true) := by
  by_cases h : f = []
  · subst h
    exact ⟨m, withFile_none _ _ _, rfl, rfl, rfl, fun v _ => ⟨rfl, rfl, by simp, by simp⟩⟩
  · obtain ⟨t, ht⟩ := hf h
    refine ⟨_, withFile_some _ _ t _ _ h ht, rfl, rfl, rfl, fun v hv => ?_⟩
    obtain ⟨h1, h2⟩ := C61.unfixing_overwrites_everything (fun v => String.ofList (name v)) ((readNames t).map String.ofList) m v hv
    have hc : content fs f = t := by unfold content; rw [ht]; rfl
    have : (unfixVariables (fun v => String.ofList (name v)) ((readNames t).map String.ofList) m).var v =
        if String.ofList (name v) ∈ (readNames t).map String.ofList then ((m.var v).fixBy 0).unfix else (m.var v).fixBy 0 := by
      unfold unfixVariables
      dsimp only
      rw [if_pos hv]
    refine ⟨?_, ?_, by rw [h1, if_pos h], by rw [h2, if_pos h, hc, names_read']⟩
    · rw [this]; split <;> rfl
    · rw [this]; split <;> rfl

/-- The stage of `-f`. -/
theorem stage_fixed (fs : Str → Option (List Char)) (name : ℕ → Str) (f : Str) (m : MState)
    (hf : f ≠ [] → ∃ t, fs f = some t ∧ Fit t) :
    ∃ m1, withFile fs f m (fun t => (readNamesAndValues t).bind fun s =>
      .ok (fixVariables (fun v => String.ofList (name v)) s m)) = .ok m1 ∧
      m1.varIds = m.varIds ∧ m1.conIds = m.conIds ∧ m1.con = m.con ∧
      ∀ v ∈ m.varIds, (m1.var v).lb = (m.var v).lb ∧ (m1.var v).ub = (m.var v).ub ∧
        (m1.var v).value = (if f ≠ [] then (given (content fs f) (name v)).getD (m.var v).value else (m.var v).value) ∧
        ((m1.var v).fixed = true ↔ if f ≠ [] ∧ given (content fs f) (name v) ≠ none then True else (m.var v).fixed = true) := by
  by_cases h : f = []
  · subst h
    exact ⟨m, withFile_none _ _ _, rfl, rfl, rfl, fun v _ => ⟨rfl, rfl, by simp, by simp⟩⟩
  · obtain ⟨t, ht, hfit⟩ := hf h
    obtain ⟨s, hs, hg⟩ := (values_read t).1 hfit
    have hc : content fs f = t := by unfold content; rw [ht]; rfl
    refine ⟨fixVariables (fun v => String.ofList (name v)) s m, by rw [withFile_some _ _ t _ _ h ht, hs]; rfl, rfl, rfl, rfl,
      fun v hv => ?_⟩
    obtain ⟨h1, h2⟩ := C61.fixing_by_name (fun v => String.ofList (name v)) s m v hv
    rw [hg] at h1 h2
    rw [hc]
    cases hgv : given t (name v) with
    | none => rw [h2 hgv]; exact ⟨rfl, rfl, by simp, by simp⟩
    | some x =>
      obtain ⟨a1, a2, a3, a4⟩ := h1 x hgv
      exact ⟨a3, a4, by rw [a2, if_pos h]; rfl, by rw [a1, if_pos (show f ≠ [] ∧ some x ≠ none from ⟨h, by simp⟩)]; simp⟩

/-- The whole setup.  If the files are as they should be, there is an exception exactly when the initial solution gives a
variable that is fixed another value than its fixed one (the value 0 when it does not mention it).  Otherwise the variables
have the values and are fixed as the files say, with the bounds of the MPS file; the constraints listed are the user-defined
selections; the pairs of variables are those listed of known variables; and the options are those of the option file, with
two-flip moves enabled if there are pairs. -/
theorem setup_effect (fs : Str → Option (List Char)) (fuel : ℕ) (name : ℕ → Str) (cname : ℕ → Str) (a : Args) (m : MState)
    (hn : m.varIds.Nodup) (hr : Readable fs fuel a) :
    ((∃ v ∈ m.varIds, a.initial ≠ [] ∧ IsFixed fs name a m v ∧ valueBefore fs name a m v ≠ initialValue fs name a v) →
      Cmd.setup fs fuel name cname a m = .thrown) ∧
    ((¬ ∃ v ∈ m.varIds, a.initial ≠ [] ∧ IsFixed fs name a m v ∧ valueBefore fs name a m v ≠ initialValue fs name a v) →
      ∃ r, Cmd.setup fs fuel name cname a m = .ok r ∧ r.model.varIds = m.varIds ∧ r.model.conIds = m.conIds ∧
        r.model.con = m.con ∧
        (∀ v ∈ m.varIds, (r.model.var v).lb = (m.var v).lb ∧ (r.model.var v).ub = (m.var v).ub ∧
          ((r.model.var v).fixed = true ↔ IsFixed fs name a m v) ∧
          (r.model.var v).value = if a.initial ≠ [] then initialValue fs name a v else valueBefore fs name a m v) ∧
        (∀ c, c ∈ r.selections ↔ c ∈ m.conIds ∧ a.selection ≠ [] ∧ Lists (content fs a.selection) (cname c)) ∧
        (r.pairs = if a.pairs = [] then [] else flippablePairs name (readNamePairs (content fs a.pairs)) m) ∧
        (∃ o, (if a.option = [] then some init else setupFile fuel (content fs a.option)) = some o ∧
          r.options = if a.pairs = [] then o else enableTwoFlip o)) := by
  obtain ⟨o, ho, ho'⟩ : ∃ o, withFile fs a.option init (fun t => .ofOption (setupFile fuel t)) = .ok o ∧
      (if a.option = [] then some init else setupFile fuel (content fs a.option)) = some o := by
    by_cases h : a.option = []
    · exact ⟨init, by rw [h]; exact withFile_none _ _ _, if_pos h⟩
    · obtain ⟨t, o, ht, e⟩ := hr.option h
      refine ⟨o, by rw [withFile_some _ _ t _ _ h ht, e]; rfl, ?_⟩
      rw [if_neg h]; unfold content; rw [ht]; exact e
  obtain ⟨m1, e1, i1, c1, k1, v1⟩ := stage_mutable fs name a.mutables m hr.mutables
  obtain ⟨m2, e2, i2, c2, k2, v2⟩ := stage_fixed fs name a.fixed m1 hr.fixed
  rw [i1] at v2
  have hv : ∀ v ∈ m.varIds, (m2.var v).lb = (m.var v).lb ∧ (m2.var v).ub = (m.var v).ub ∧
      (m2.var v).value = valueBefore fs name a m v ∧ ((m2.var v).fixed = true ↔ IsFixed fs name a m v) := by
    intro v hv
    obtain ⟨a1, a2, a3, a4⟩ := v1 v hv
    obtain ⟨b1, b2, b3, b4⟩ := v2 v hv
    refine ⟨b1.trans a1, b2.trans a2, ?_, ?_⟩
    · rw [b3, a3]
      unfold valueBefore
      rcases hr.exclusive with h | h
      · simp [h]
      · simp [h]
    · rw [b4, a4]
      unfold IsFixed
      rcases hr.exclusive with h | h
      · simp [h]
      · simp [h]
  obtain ⟨sels, e3, hs⟩ : ∃ l, withFile fs a.selection [] (fun t => .ok (markSelections cname (readNames t) m2)) = .ok l ∧
      ∀ c, c ∈ l ↔ c ∈ m.conIds ∧ a.selection ≠ [] ∧ Lists (content fs a.selection) (cname c) := by
    by_cases h : a.selection = []
    · exact ⟨[], by rw [h]; exact withFile_none _ _ _, fun c => by simp [h]⟩
    · obtain ⟨t, ht⟩ := hr.selection h
      refine ⟨_, withFile_some _ _ t _ _ h ht, fun c => ?_⟩
      unfold markSelections content
      rw [ht, List.mem_filter, c2, c1, decide_eq_true_iff, names_read]
      simp [h]
  obtain ⟨p, e4, hp1, hp2⟩ : ∃ p, withFile fs a.pairs (o, []) (fun t => .ok (enableTwoFlip o, flippablePairs name (readNamePairs t) m2)) =
      .ok p ∧ p.1 = (if a.pairs = [] then o else enableTwoFlip o) ∧
      p.2 = if a.pairs = [] then [] else flippablePairs name (readNamePairs (content fs a.pairs)) m := by
    by_cases h : a.pairs = []
    · exact ⟨(o, []), by rw [h]; exact withFile_none _ _ _, by rw [if_pos h], by rw [if_pos h]⟩
    · obtain ⟨t, ht⟩ := hr.pairs h
      refine ⟨_, withFile_some _ _ t _ _ h ht, by rw [if_neg h], ?_⟩
      rw [if_neg h]
      unfold content flippablePairs lastNamed
      rw [ht, i2, i1]; rfl
  have hset : Cmd.setup fs fuel name cname a m = (withFile fs a.initial m2 fun t => (readNamesAndValues t).bind fun s =>
      .ofOption (importMap (fun v => String.ofList (name v)) s m2)).bind fun m3 => .ok ⟨m3, p.1, sels, p.2⟩ := by
    unfold Cmd.setup
    rw [if_neg (by rintro ⟨x, y⟩; rcases hr.exclusive with h | h <;> contradiction), ho, ok_bind, e1, ok_bind, e2, ok_bind, e3,
      ok_bind, e4, ok_bind]
  rw [hset]
  by_cases h : a.initial = []
  · refine ⟨fun ⟨v, _, hc, _⟩ => absurd h hc, fun _ => ⟨⟨m2, p.1, sels, p.2⟩, ?_, i2.trans i1, c2.trans c1, k2.trans k1, ?_, hs,
      hp2, o, ho', hp1⟩⟩
    · rw [h, withFile_none]; rfl
    · intro v hv'
      obtain ⟨a1, a2, a3, a4⟩ := hv v hv'
      exact ⟨a1, a2, a4, by rw [if_neg (not_not.2 h)]; exact a3⟩
  · obtain ⟨t, ht, hfit⟩ := hr.initial h
    obtain ⟨s, hsr, hg⟩ := (values_read t).1 hfit
    have hc : content fs a.initial = t := by unfold content; rw [ht]; rfl
    have hgi : ∀ v, (s.get (String.ofList (name v))).getD 0 = initialValue fs name a v := fun v => by
      rw [hg]; unfold initialValue; rw [hc]
    have hn2 : m2.varIds.Nodup := by rw [i2, i1]; exact hn
    have hmap := C48.map_import (fun v => String.ofList (name v)) s m2 hn2
    rw [withFile_some _ _ t _ _ h ht, hsr]
    show (_ → Outcome.bind (Outcome.ofOption _) _ = _) ∧ (_ → ∃ r, Outcome.bind (Outcome.ofOption _) _ = _ ∧ _)
    constructor
    · rintro ⟨v, hv', -, h1, h2⟩
      obtain ⟨a1, a2, a3, a4⟩ := hv v hv'
      rw [hmap.1.2 ⟨v, by rw [i2, i1]; exact hv', a4.2 h1, by rw [hgi, a3]; exact h2⟩]
      rfl
    · intro hno
      have hok : ∀ v ∈ m2.varIds, (m2.var v).fixed = true → (m2.var v).value = (s.get (String.ofList (name v))).getD 0 := by
        intro v hv2 hfx
        rw [i2, i1] at hv2
        obtain ⟨a1, a2, a3, a4⟩ := hv v hv2
        rw [hgi, a3]
        by_contra hne
        exact hno ⟨v, hv2, h, a4.1 hfx, hne⟩
      have himp := assignAll_eq (fun v => String.ofList (name v)) s m2.varIds hn2 m2 hok
      obtain ⟨m3, himp, i3, c3, k3, hv3⟩ : ∃ m3, importMap (fun v => String.ofList (name v)) s m2 = some m3 ∧
          m3.varIds = m2.varIds ∧ m3.conIds = m2.conIds ∧ m3.con = m2.con ∧ ∀ v ∈ m2.varIds,
          m3.var v = { m2.var v with value := (s.get (String.ofList (name v))).getD 0 }.updateMargin :=
        ⟨_, himp, rfl, rfl, rfl, fun v hv => if_pos hv⟩
      refine ⟨⟨m3, p.1, sels, p.2⟩, by rw [himp]; rfl, i3.trans (i2.trans i1), c3.trans (c2.trans c1), k3.trans (k2.trans k1), ?_,
        hs, hp2, o, ho', hp1⟩
      intro v hv'
      obtain ⟨a1, a2, a3, a4⟩ := hv v hv'
      dsimp only
      rw [hv3 v (by rw [i2, i1]; exact hv'), if_pos h]
      exact ⟨a1, a2, a4, hgi v⟩

/-! ### The solution file as initial solution -/

theorem linesFrom_line (cur w cs : List Char) (hw : '\n' ∉ w) :
    linesFrom cur (w ++ '\n' :: cs) = (cur ++ w) :: linesFrom [] cs := by
  induction w generalizing cur with
  | nil => rw [List.nil_append, linesFrom, if_pos rfl, List.append_nil]
  | cons c w ih =>
    rw [List.cons_append, linesFrom, if_neg (fun e => hw (by simp [e])), ih _ (fun h => hw (by simp [h]))]
    simp

theorem linesFrom_last (cur w : List Char) (hw : '\n' ∉ w) :
    linesFrom cur w = if cur ++ w = [] then [] else [cur ++ w] := by
  induction w generalizing cur with
  | nil => rw [List.append_nil, linesFrom]
  | cons c w ih =>
    rw [linesFrom, if_neg (fun e => hw (by simp [e])), ih _ (fun h => hw (by simp [h]))]
    simp

/-- The lines of a file: the text between line feeds.  A last line without line feed is a line like the others; nothing
after the last line feed is no line. -/
theorem lines_of_file (ls : List (List Char)) (last : List Char) (hl : ∀ l ∈ ls, '\n' ∉ l) (hlast : '\n' ∉ last) :
    lines (ls.flatMap (fun l => l ++ ['\n']) ++ last) = ls ++ (if last = [] then [] else [last]) := by
  unfold lines
  induction ls with
  | nil => simpa using linesFrom_last [] last hlast
  | cons l ls ih =>
    rw [List.flatMap_cons, List.append_assoc, List.append_assoc, List.singleton_append,
      linesFrom_line [] l _ (hl l (by simp)), ih fun k h => hl k (by simp [h])]
    rfl

example : lines c!"a 1\n\nb 2" = [c!"a 1", [], c!"b 2"] ∧ lines c!"a 1\n" = [c!"a 1"] := by decide +kernel

theorem word_no_newline (w : List Char) (h : Word w) : '\n' ∉ w := fun hc => by
  have := h.2 _ hc
  revert this
  decide

/-- The lines of the variables. -/
theorem lines_rows (name : ℕ → Str) (value : ℕ → ℤ) (order : List ℕ) (hw : ∀ v ∈ order, Word (name v)) :
    linesFrom [] (order.flatMap fun v => name v ++ ' ' :: (intChars (value v) ++ ['\n'])) =
      order.map fun v => name v ++ ' ' :: intChars (value v) := by
  induction order with
  | nil => rfl
  | cons v l ih =>
    rw [List.flatMap_cons, List.map_cons, ← ih fun w h => hw w (by simp [h])]
    have : name v ++ ' ' :: (intChars (value v) ++ ['\n']) ++
        l.flatMap (fun v => name v ++ ' ' :: (intChars (value v) ++ ['\n'])) =
        (name v ++ ' ' :: intChars (value v)) ++ '\n' ::
          l.flatMap (fun v => name v ++ ' ' :: (intChars (value v) ++ ['\n'])) := by simp
    rw [this, linesFrom_line]
    · rfl
    · intro hc
      rcases List.mem_append.1 hc with h | h
      · exact word_no_newline _ (hw v (by simp)) h
      · rcases List.mem_cons.1 h with h | h
        · exact absurd h (by decide)
        · exact word_no_newline _ (intChars_word _) h

theorem tokens_row (n t : List Char) (hn : Word n) (ht : Word t) : tokens (n ++ ' ' :: t) = [n, t] := by
  unfold tokens
  have := tokensFrom_next n [' '] t hn (by decide) (by simp)
  rw [tokensFrom_last t ht] at this
  exact this

theorem ent_rows (name : ℕ → Str) (value : ℕ → ℤ) (order : List ℕ) (hw : ∀ v ∈ order, Word (name v)) :
    ent (order.map fun v => name v ++ ' ' :: intChars (value v)) = order.map fun v => (name v, value v) := by
  induction order with
  | nil => rfl
  | cons v l ih =>
    rw [List.map_cons, List.map_cons, ent_cons, ih fun w h => hw w (by simp [h]),
      tokens_row _ _ (hw v (by simp)) (intChars_word _)]
    dsimp only
    rw [atof_intChars]
    have : ⌊(value v : ℚ) + 1 / 2⌋ = value v := by
      rw [Int.floor_eq_iff]
      constructor <;> linarith
    rw [this]
    rfl

/-- Characters of printed numbers are no white space. -/
theorem number_char (c : Char) (h : isDigit c = true ∨ c = '.' ∨ c = 'e' ∨ c = '-' ∨ c = '+') : isSpace c = false := by
  rcases h with h | rfl | rfl | rfl | rfl
  · exact (isDigit_ne c h).2.2.1
  all_goals decide

theorem format10_word (q : ℚ) : Word (format10 q) := by
  have pos : ∀ q, Word (formatPositive10 q) := by
    intro q
    unfold formatPositive10
    dsimp only
    generalize (if roundEven _ ≥ 10 ^ 11 then 10 ^ 10 else roundEven _) = mm
    generalize (if roundEven _ ≥ 10 ^ 11 then _ else _) = ee
    refine ⟨by simp, fun c hc => ?_⟩
    rcases List.mem_append.1 hc with h | h
    · exact number_char c (Or.inl (natChars_digits _ c (List.mem_of_mem_take h)))
    · rcases List.mem_cons.1 h with rfl | h
      · decide
      · rcases List.mem_append.1 h with h | h
        · exact number_char c (Or.inl (natChars_digits _ c (List.mem_of_mem_drop h)))
        · rcases List.mem_cons.1 h with rfl | h
          · decide
          · rcases List.mem_cons.1 h with h | h
            · rw [h]; split <;> decide
            · split at h
              · rcases List.mem_cons.1 h with rfl | h
                · decide
                · exact number_char c (Or.inl (natChars_digits _ c h))
              · exact number_char c (Or.inl (natChars_digits _ c h))
  unfold format10
  split
  · exact ⟨by simp, by decide⟩
  · split
    · refine ⟨by simp, fun c hc => ?_⟩
      rcases List.mem_cons.1 hc with rfl | hc
      · decide
      · exact (pos _).2 c hc
    · exact pos _

/-- The objective as it is printed, rounded to the nearest integer. -/
def printedObjective (s : Named) : ℤ := ⌊atof (format10 s.objective) + 1 / 2⌋

/-- The entries of a solution file. -/
theorem entries_written (name : ℕ → Str) (order : List ℕ) (s : Named) (hw : ∀ v ∈ order, Word (name v)) :
    entriesOf (writeSolution name order s) =
      (if s.feasible then [(c!"=obj=", printedObjective s)] else []) ++ order.map fun v => (name v, s.values v) := by
  show ent (lines _) = _
  unfold writeSolution lines
  have hhead : '\n' ∉ (if s.feasible then c!"=obj= " ++ format10 s.objective else c!"=infeas=") := by
    split
    · intro hc
      rcases List.mem_append.1 hc with h | h
      · exact absurd h (by decide)
      · exact word_no_newline _ (format10_word _) h
    · decide
  rw [linesFrom_line _ _ _ hhead, lines_rows name s.values order hw, ent_cons, ent_rows name s.values order hw]
  congr 1
  cases hsf : s.feasible
  · rfl
  · have := tokens_row c!"=obj=" (format10 s.objective) ⟨by simp, by decide⟩ (format10_word _)
    have e : ([] : List Char) ++ (c!"=obj= " ++ format10 s.objective) = c!"=obj=" ++ ' ' :: format10 s.objective := rfl
    rw [if_pos rfl, if_pos rfl, e, this]
    rfl

theorem find_reverse {α : Type} (name : ℕ → Str) (value : ℕ → α) (order : List ℕ) (v : ℕ) (hv : v ∈ order)
    (hd : ∀ w ∈ order, name w = name v → value w = value v) :
    (((order.map fun v => (name v, value v)).reverse.find? fun e => e.1 = name v)).map Prod.snd = some (value v) := by
  cases h : (order.map fun v => (name v, value v)).reverse.find? fun e => decide (e.1 = name v) with
  | none =>
    rw [List.find?_eq_none] at h
    have := h (name v, value v) (by simp only [List.mem_reverse, List.mem_map]; exact ⟨v, hv, rfl⟩)
    simp at this
  | some e =>
    have h1 := List.mem_of_find?_eq_some h
    have h2 := List.find?_some h
    simp only [decide_eq_true_eq] at h2
    simp only [List.mem_reverse, List.mem_map] at h1
    obtain ⟨w, hw, rfl⟩ := h1
    rw [Option.map_some, hd w hw h2]

/-- Reading a solution file gives every variable its value, if the names are words and different and the values are `int`s;
and if the solution is feasible, the objective rounds to an `int`. -/
theorem solution_file_read (name : ℕ → Str) (order : List ℕ) (s : Named) (hw : ∀ v ∈ order, Word (name v))
    (hd : ∀ v ∈ order, ∀ w ∈ order, name v = name w → v = w)
    (hi : ∀ v ∈ order, -2147483648 ≤ s.values v ∧ s.values v ≤ 2147483647)
    (ho : s.feasible = true → -2147483648 ≤ printedObjective s ∧ printedObjective s ≤ 2147483647) :
    Fit (writeSolution name order s) ∧ ∀ v ∈ order, given (writeSolution name order s) (name v) = some (s.values v) := by
  constructor
  · intro e he
    rw [entries_written name order s hw] at he
    rcases List.mem_append.1 he with h | h
    · split at h
      · rw [List.mem_singleton.1 h]; exact ho ‹_›
      · cases h
    · obtain ⟨v, hv, rfl⟩ := List.mem_map.1 h
      exact hi v hv
  · intro v hv
    unfold given
    rw [entries_written name order s hw, List.reverse_append, List.find?_append]
    have := find_reverse name s.values order v hv fun w hw e => by rw [hd w hw v hv e]
    cases h : (order.map fun v => (name v, s.values v)).reverse.find? fun e => decide (e.1 = name v) with
    | none => rw [h] at this; cases this
    | some e => rw [h] at this; exact this

/-- Warm start: the solution file of one run, given as initial solution of another with the same problem, restores the values
of all variables. -/
theorem warm_start_partial (fs : Str → Option (List Char)) (fuel : ℕ) (name : ℕ → Str) (cname : ℕ → Str) (f : Str) (m : MState)
    (hn : m.varIds.Nodup) (hfree : ∀ v ∈ m.varIds, (m.var v).fixed = false) (order : List ℕ) (hp : ∀ v, v ∈ order ↔ v ∈ m.varIds)
    (s : Named) (hf : f ≠ []) (hfs : fs f = some (writeSolution name order s)) (hw : ∀ v ∈ m.varIds, Word (name v))
    (hd : ∀ v ∈ m.varIds, ∀ w ∈ m.varIds, name v = name w → v = w)
    (hi : ∀ v ∈ m.varIds, -2147483648 ≤ s.values v ∧ s.values v ≤ 2147483647)
    (ho : s.feasible = true → -2147483648 ≤ printedObjective s ∧ printedObjective s ≤ 2147483647) :
    ∃ r, Cmd.setup fs fuel name cname { initial := f } m = .ok r ∧ ∀ v ∈ m.varIds, (r.model.var v).value = s.values v ∧
      (r.model.var v).fixed = false ∧ (r.model.var v).lb = (m.var v).lb ∧ (r.model.var v).ub = (m.var v).ub := by
  obtain ⟨hfit, hg⟩ := solution_file_read name order s (fun v hv => hw v ((hp v).1 hv))
    (fun v hv w hw => hd v ((hp v).1 hv) w ((hp w).1 hw)) (fun v hv => hi v ((hp v).1 hv)) ho
  have hr : Readable fs fuel { initial := f } :=
    ⟨Or.inl rfl, fun h => absurd rfl h, fun h => absurd rfl h, fun h => absurd rfl h, fun h => absurd rfl h, fun h => absurd rfl h,
      fun _ => ⟨_, hfs, hfit⟩⟩
  have hfx : ∀ v ∈ m.varIds, ¬ IsFixed fs name { initial := f } m v := by
    intro v hv
    unfold IsFixed
    simp [hfree v hv]
  obtain ⟨r, h1, -, -, -, h2, -⟩ := (setup_effect fs fuel name cname { initial := f } m hn hr).2
    fun ⟨v, hv, _, h, _⟩ => hfx v hv h
  refine ⟨r, h1, fun v hv => ?_⟩
  obtain ⟨a1, a2, a3, a4⟩ := h2 v hv
  refine ⟨?_, ?_, a1, a2⟩
  · rw [a4, if_pos (show ({ initial := f } : Args).initial ≠ [] from hf)]
    unfold initialValue content
    dsimp only
    rw [hfs, Option.getD_some, hg v ((hp v).2 hv), Option.getD_some]
  · cases h : (r.model.var v).fixed with
    | false => rfl
    | true => exact absurd (a3.1 h) (hfx v hv)

/-! ### Where the files do not do what they should -/

/-- A solution whose objective exceeds the largest `int` cannot be used as initial solution: its file is undefined to read,
whatever the variables. -/
theorem large_objective_unreadable (name : ℕ → Str) (order : List ℕ) (s : Named) (hw : ∀ v ∈ order, Word (name v))
    (hs : s.feasible = true) (ho : s.objective = 3000000000) :
    readNamesAndValues (writeSolution name order s) = .undefined := by
  refine (values_read _).2 fun h => ?_
  have := h (c!"=obj=", printedObjective s) (by
    rw [entries_written name order s hw, hs]
    simp)
  unfold printedObjective at this
  rw [ho] at this
  revert this
  decide +kernel

/-- Fixing all but the listed variables while giving an initial solution: there is an exception as soon as one of the other
variables is not 0 in the initial solution. -/
theorem mutable_with_initial_throws (fs : Str → Option (List Char)) (fuel : ℕ) (name : ℕ → Str) (cname : ℕ → Str) (a : Args)
    (m : MState) (hn : m.varIds.Nodup) (hr : Readable fs fuel a) (hm : a.mutables ≠ []) (hi : a.initial ≠ []) (v : ℕ)
    (hv : v ∈ m.varIds) (hl : ¬ Lists (content fs a.mutables) (name v)) (h0 : initialValue fs name a v ≠ 0) :
    Cmd.setup fs fuel name cname a m = .thrown := by
  refine (setup_effect fs fuel name cname a m hn hr).1 ⟨v, hv, hi, ?_, ?_⟩
  · unfold IsFixed; rw [if_pos hm]; exact hl
  · unfold valueBefore; rw [if_pos hm]; exact h0.symm

/-- Fixing all but the listed variables ignores their bounds: they are fixed at 0. -/
theorem mutable_ignores_bounds (fs : Str → Option (List Char)) (fuel : ℕ) (name : ℕ → Str) (cname : ℕ → Str) (a : Args)
    (m : MState) (hn : m.varIds.Nodup) (hr : Readable fs fuel a) (hm : a.mutables ≠ []) (hi : a.initial = []) (v : ℕ)
    (hv : v ∈ m.varIds) (hl : ¬ Lists (content fs a.mutables) (name v)) (hb : 0 < (m.var v).lb) :
    ∃ r, Cmd.setup fs fuel name cname a m = .ok r ∧ (r.model.var v).fixed = true ∧
      (r.model.var v).value < (r.model.var v).lb := by
  obtain ⟨r, h1, -, -, -, h2, -⟩ := (setup_effect fs fuel name cname a m hn hr).2 fun ⟨_, _, h, _⟩ => h hi
  obtain ⟨a1, a2, a3, a4⟩ := h2 v hv
  refine ⟨r, h1, a3.2 (by unfold IsFixed; rw [if_pos hm]; exact hl), ?_⟩
  rw [a4, if_neg (not_not.2 hi), a1]
  unfold valueBefore
  rw [if_pos hm]
  exact hb

/-- The flags `-m` and `-f` exclude each other. -/
theorem exclusive (fs : Str → Option (List Char)) (fuel : ℕ) (name : ℕ → Str) (cname : ℕ → Str) (a : Args) (m : MState)
    (h1 : a.mutables ≠ []) (h2 : a.fixed ≠ []) : Cmd.setup fs fuel name cname a m = .thrown := if_pos ⟨h1, h2⟩

/-! ### Cases that meet the hypotheses -/

example : parse [c!"-p", c!"opt.json", c!"--accept-continuous", c!"a.mps", c!"-c", c!"7", c!"-p", c!"b.json"] {} =
    some { option := c!"b.json", accept := true, mps := c!"a.mps", common := 7 } := by decide +kernel
example : parse [c!"a.mps", c!"-i"] {} = none := by decide +kernel
example : ∀ p ∈ [Part.flag c!"-p" c!"opt.json", .switch c!"--accept-continuous", .file c!"a.mps"], p.Good := by
  intro p hp
  simp only [List.mem_cons, List.not_mem_nil, or_false] at hp
  rcases hp with rfl | rfl | rfl
  · show _ ∈ _; decide
  · show _ ∈ _; decide
  · show _ ∧ _; decide

/-- Three variables with names, the last one with bounds from 1. -/
private def nm (v : ℕ) : Str := if v = 0 then c!"a" else if v = 1 then c!"b" else c!"cc"
private def mdl : MState := { Example.model with
  var := fun v => { Example.int5 with lb := if v = 2 then 1 else 0 }, varIds := [0, 1, 2] }
private def sol : Named :=
  { values := fun v => if v = 0 then 1 else if v = 1 then -3 else 4, conValue := fun _ => 0, conViolation := fun _ => 0,
    objective := 5 / 2, totalViolation := 0, feasible := true }

example : writeSolution nm [2, 0, 1] sol = c!"=obj= 2.5000000000e+00\ncc 4\na 1\nb -3\n" := by decide +kernel

example : ∃ r, Cmd.setup (fun _ => some (writeSolution nm [2, 0, 1] sol)) 0 nm nm { initial := c!"s" } mdl = .ok r ∧
    ∀ v ∈ mdl.varIds, (r.model.var v).value = sol.values v ∧ (r.model.var v).fixed = false ∧
      (r.model.var v).lb = (mdl.var v).lb ∧ (r.model.var v).ub = (mdl.var v).ub := by
  refine warm_start_partial _ 0 nm nm c!"s" mdl (by decide) (by decide) [2, 0, 1] (fun v => ?_) sol (by simp) rfl ?_ ?_ ?_ ?_
  · show v ∈ [2, 0, 1] ↔ v ∈ [0, 1, 2]
    simp only [List.mem_cons, List.not_mem_nil, or_false]
    omega
  · intro v hv
    have : v ∈ [0, 1, 2] := hv
    simp only [List.mem_cons, List.not_mem_nil, or_false] at this
    rcases this with rfl | rfl | rfl <;> exact ⟨by decide, by decide⟩
  · decide
  · decide
  · intro _; unfold printedObjective; decide +kernel

/-- A file with a mutable variable and one with initial values. -/
private def files (f : Str) : Option (List Char) :=
  if f = c!"m" then some c!"a\n" else if f = c!"i" then some c!"a 2\nb 1\n" else none

example : Cmd.setup files 0 nm nm { mutables := c!"m", initial := c!"i" } mdl = .thrown := by
  refine mutable_with_initial_throws files 0 nm nm _ mdl (by decide)
    ⟨Or.inr rfl, fun h => absurd rfl h, fun _ => ⟨_, rfl⟩, fun h => absurd rfl h, fun h => absurd rfl h, fun h => absurd rfl h,
      fun _ => ⟨_, rfl, ?_⟩⟩ (by decide) (by decide) 1 (by decide) ?_ ?_
  · unfold Fit; decide +kernel
  · unfold Lists; decide +kernel
  · unfold initialValue; decide +kernel

example : ∃ r, Cmd.setup files 0 nm nm { mutables := c!"m" } mdl = .ok r ∧ (r.model.var 2).fixed = true ∧
    (r.model.var 2).value < (r.model.var 2).lb := by
  refine mutable_ignores_bounds files 0 nm nm _ mdl (by decide)
    ⟨Or.inr rfl, fun h => absurd rfl h, fun _ => ⟨_, rfl⟩, fun h => absurd rfl h, fun h => absurd rfl h, fun h => absurd rfl h,
      fun h => absurd rfl h⟩ (by decide) rfl 2 (by decide) ?_ (by decide)
  unfold Lists; decide +kernel

/-! ### Numbers on the command line, and the option a file of pairs switches on -/

section
open Printemps.MpsFile Printemps.MpsFile

/-- A decimal number, with or without sign, is read as the integer it denotes, if this is an `int`. -/
theorem number_read (s : Sign) (l : List (Fin 10)) (v : ℤ)
    (hv : v = match s with | .minus => -(digitsValue l : ℤ) | _ => (digitsValue l : ℤ))
    (hr : -2147483648 ≤ v ∧ v ≤ 2147483647) : atoi (s.text ++ digitsText l) = some v := by
  have h1 := readSign_text s l [] (by simp)
  have h2 := readDigits_text 0 0 l [] (by simp [Stops])
  rw [List.append_nil] at h1 h2
  unfold atoi
  rw [h1]
  dsimp only
  rw [h2]
  cases s <;> simp only at hv ⊢ <;> subst hv <;> simp at hr ⊢ <;> omega

example : atoi c!"-12" = some (-12) := number_read .minus [1, 2] (-12) (by decide) (by decide)

end

/-- A file of pairs switches the moves on, and changes no other option. -/
theorem two_flip_switched_on (o : Options) (sec key : Str) (v : OVal) :
    (∃ l, (sec, l) ∈ enableTwoFlip o ∧ (key, v) ∈ l) ↔
      if sec = c!"neighborhood" ∧ key = c!"is_enabled_two_flip_move" then
        v = .bool true ∧ ∃ l w, (sec, l) ∈ o ∧ (key, w) ∈ l
      else ∃ l, (sec, l) ∈ o ∧ (key, v) ∈ l := by
  unfold enableTwoFlip
  constructor
  · rintro ⟨l, hl, hk⟩
    obtain ⟨⟨s, l0⟩, hm, he⟩ := List.mem_map.1 hl
    by_cases hs : s = c!"neighborhood"
    · rw [if_pos hs] at he
      obtain ⟨rfl, rfl⟩ := Prod.mk.inj he
      obtain ⟨⟨k, w⟩, hq, hke⟩ := List.mem_map.1 hk
      by_cases hkk : k = c!"is_enabled_two_flip_move"
      · rw [if_pos hkk] at hke
        obtain ⟨rfl, rfl⟩ := Prod.mk.inj hke
        rw [if_pos ⟨hs, hkk⟩]
        exact ⟨rfl, l0, w, hm, hq⟩
      · rw [if_neg hkk] at hke
        obtain ⟨rfl, rfl⟩ := Prod.mk.inj hke
        rw [if_neg (fun hc => hkk hc.2)]
        exact ⟨l0, hm, hq⟩
    · rw [if_neg hs] at he
      obtain ⟨rfl, rfl⟩ := Prod.mk.inj he
      rw [if_neg (fun hc => hs hc.1)]
      exact ⟨l0, hm, hk⟩
  · intro h
    split at h
    · rename_i hc
      obtain ⟨rfl, l, w, h1, h2⟩ := h
      exact ⟨_, List.mem_map.2 ⟨(sec, l), h1, by rw [if_pos hc.1]⟩, List.mem_map.2 ⟨(key, w), h2, by rw [if_pos hc.2]⟩⟩
    · rename_i hc
      obtain ⟨l, h1, h2⟩ := h
      by_cases hs : sec = c!"neighborhood"
      · have hk : ¬ key = c!"is_enabled_two_flip_move" := fun hk => hc ⟨hs, hk⟩
        exact ⟨_, List.mem_map.2 ⟨(sec, l), h1, by rw [if_pos hs]⟩, List.mem_map.2 ⟨(key, v), h2, by rw [if_neg hk]⟩⟩
      · exact ⟨_, List.mem_map.2 ⟨(sec, l), h1, by rw [if_neg hs]⟩, h2⟩

end Printemps.C70
