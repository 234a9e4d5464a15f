import Verif.Spec.Option
import Verif.Props.C46

/-! # C69 — the option file -/

namespace Printemps.C69
open Spec Json Opt

/-- The option whose key is misspelt in the code (option/parallel_option.h:166-169). -/
def odd : Str := c!"number_of_threads_move_update"
/-- The key it is read from. -/
def oddKey : Str := c!"number_of_threads_move_update;"

theorem names_nodup : (sections.map (fun s => s.name)).Nodup := by decide +kernel
theorem fields_nodup : ∀ s ∈ sections, (s.fields.map (fun f => f.name)).Nodup := by decide +kernel
theorem keys_right : ∀ s ∈ sections, ∀ f ∈ s.fields, f.name ≠ odd → f.key = f.name := by decide +kernel
theorem keys_odd : ∀ s ∈ sections, ∀ f ∈ s.fields, f.name = odd → f.key = oddKey := by decide +kernel
theorem odd_no_name : ∀ s ∈ sections, ∀ f ∈ s.fields, f.name ≠ oddKey := by decide +kernel
theorem modes_nodup : ∀ s ∈ sections, ∀ f ∈ s.fields, ∀ names, f.kind = .mode names → names.Nodup := by
  have h : ∀ s ∈ sections, ∀ f ∈ s.fields, (match f.kind with | .mode names => decide names.Nodup | _ => true) = true := by
    decide +kernel
  intro s hs f hf names e
  have := h s hs f hf
  rw [e] at this
  simpa using this

theorem named_cons {α : Type} (k : Str) (p : Str × α) (l : List (Str × α)) :
    named (p :: l) k = if p.1 = k then some p.2 else named l k := by
  unfold named
  rw [List.find?_cons]
  by_cases h : p.1 = k
  · rw [if_pos h]; simp [h]
  · rw [if_neg h]; simp [h]

theorem collect_named {α β : Type} (g : α → Option β) (n : α → Str) (l : List α) (r : List (Str × β))
    (h : collect (fun a => (g a).map fun v => (n a, v)) l = some r) (hn : (l.map n).Nodup) :
    ∀ a ∈ l, ∃ v, g a = some v ∧ named r (n a) = some v := by
  induction l generalizing r with
  | nil => intro a ha; cases ha
  | cons b l ih =>
    unfold collect at h
    obtain ⟨p, hp, h2⟩ := Option.bind_eq_some_iff.1 h
    obtain ⟨r', hr', rfl⟩ := Option.map_eq_some_iff.1 h2
    obtain ⟨v, hv, rfl⟩ := Option.map_eq_some_iff.1 hp
    rw [List.map_cons, List.nodup_cons] at hn
    intro a ha
    rw [named_cons]
    rcases List.mem_cons.1 ha with rfl | ha
    · exact ⟨v, hv, if_pos rfl⟩
    · obtain ⟨w, h3, h4⟩ := ih r' hr' hn.2 a ha
      refine ⟨w, h3, ?_⟩
      rw [if_neg]
      · exact h4
      · intro e
        exact hn.1 (by dsimp only at e; rw [e]; exact List.mem_map.2 ⟨a, ha, rfl⟩)

theorem collect_some {α β : Type} (f : α → Option β) (l : List α) (h : ∀ a ∈ l, ∃ b, f a = some b) :
    ∃ r, collect f l = some r := by
  induction l with
  | nil => exact ⟨[], rfl⟩
  | cons a l ih =>
    obtain ⟨b, hb⟩ := h a (by simp)
    obtain ⟨r, hr⟩ := ih fun x hx => h x (by simp [hx])
    exact ⟨b :: r, by unfold collect; rw [hb, hr]; rfl⟩

theorem collect_congr {α β : Type} (f g : α → Option β) (l : List α) (h : ∀ a ∈ l, f a = g a) : collect f l = collect g l := by
  induction l with
  | nil => rfl
  | cons a l ih =>
    unfold collect
    rw [h a (by simp), ih fun x hx => h x (by simp [hx])]

/-- What the entry of the key means is what the conversion gives. -/
theorem convert_means (k : Kind) (d : OVal) (v : Val) (y : OVal) (hk : ∀ names, k = .mode names → names.Nodup)
    (h : Means k v y) : convert k d v = some y := by
  cases h with
  | bool b => rfl
  | int n => rfl
  | real q => rfl
  | whole n => rfl
  | number names n _ _ => rfl
  | name names s i hi =>
    have hn := hk names rfl
    have hf : names.findIdx? (fun x => x = s) = some i := by
      obtain ⟨hlt, he⟩ := List.getElem?_eq_some_iff.1 hi
      rw [List.findIdx?_eq_some_iff_getElem]
      refine ⟨hlt, by simp [he], fun j hj => ?_⟩
      simp only [decide_eq_true_eq]
      intro e
      have := (List.getElem_inj hn).1 (e.trans he.symm)
      omega
    simp only [convert, hf, Option.map_some]

/-- Values of plain types are converted only if they have the type. -/
theorem means_of_convert (k : Kind) (d : OVal) (v : Val) (y : OVal) (hk : ∀ names, k ≠ .mode names)
    (h : convert k d v = some y) : Means k v y := by
  cases k with
  | mode names => exact absurd rfl (hk names)
  | bool => cases v <;> simp [convert] at h; subst h; exact .bool _
  | int => cases v <;> simp [convert] at h; subst h; exact .int _
  | double =>
    cases v <;> simp [convert] at h
    · subst h; exact .whole _
    · subst h; exact .real _

/-- The section of the file. -/
theorem setup_section (ms : Members) (o : Options) (h : setup ms = some o) (s : Opt.Section) (hs : s ∈ sections) :
    ∃ l, setupSection s ms = some l ∧ named o s.name = some l := by
  exact collect_named (fun s => setupSection s ms) (fun s => s.name) sections o h names_nodup s hs

theorem setup_field (ms : Members) (o : Options) (h : setup ms = some o) (s : Opt.Section) (hs : s ∈ sections)
    (f : Field) (hf : f ∈ s.fields) : ∃ x, option o s.name f.name = some x ∧
      ((entry ms s.name f.key = none ∧ x = f.default) ∨
        ∃ v, entry ms s.name f.key = some v ∧ convert f.kind f.default v = some x) := by
  obtain ⟨l, h1, h2⟩ := setup_section ms o h s hs
  unfold option
  rw [h2]
  show ∃ x, named l f.name = some x ∧ _
  unfold entry
  unfold setupSection at h1
  split at h1
  · rename_i e
    rw [e]
    refine ⟨f.default, ?_, Or.inl ⟨rfl, rfl⟩⟩
    obtain rfl := Option.some.inj h1
    have hc : ∀ fs : List Field, collect (fun f => (some f.default).map fun v => (f.name, v)) fs =
        some (fs.map fun f => (f.name, f.default)) := by
      intro fs
      induction fs with
      | nil => rfl
      | cons a fs ih => unfold collect; rw [ih]; rfl
    obtain ⟨v, hv, hn⟩ := collect_named (fun f : Field => some f.default) (fun f => f.name) s.fields _ (hc s.fields)
      (fields_nodup s hs) f hf
    rw [show initSection s = s.fields.map (fun f => (f.name, f.default)) from rfl, hn, hv]
  · rename_i m e
    rw [e]
    obtain ⟨v, hv, hn⟩ := collect_named (fun f => readField f m) (fun f => f.name) s.fields l h1 (fields_nodup s hs) f hf
    refine ⟨v, hn, ?_⟩
    dsimp only
    unfold readField at hv
    split at hv
    · rename_i e2
      exact Or.inl ⟨e2, (Option.some.inj hv).symm⟩
    · rename_i w e2
      exact Or.inr ⟨w, e2, hv⟩
  · exact absurd h1 (by simp)

/-- After an option file is read, every option has the value the file says, or its default value if the file does not
mention it — except for `parallel.number_of_threads_move_update`, see `threads_are_ignored`. -/
theorem file_decides_partial (ms : Members) (o : Options) (h : setup ms = some o) :
    ∀ s ∈ sections, ∀ f ∈ s.fields, f.name ≠ odd →
      (entry ms s.name f.name = none → option o s.name f.name = some f.default) ∧
      (∀ v y, entry ms s.name f.name = some v → Means f.kind v y → option o s.name f.name = some y) ∧
      (∀ v, entry ms s.name f.name = some v → (∀ names, f.kind ≠ .mode names) ∨ (∃ x, v = .str x) →
        ∃ y, Means f.kind v y) := by
  intro s hs f hf hodd
  obtain ⟨x, hx, hc⟩ := setup_field ms o h s hs f hf
  rw [keys_right s hs f hf hodd] at hc
  rw [hx]
  refine ⟨fun he => ?_, fun v y he hm => ?_, fun v he hk => ?_⟩
  · rcases hc with ⟨-, rfl⟩ | ⟨v, hv, -⟩
    · rfl
    · rw [he] at hv; cases hv
  · rcases hc with ⟨hn, -⟩ | ⟨w, hw, hcw⟩
    · rw [he] at hn; cases hn
    · rw [he] at hw; obtain rfl := Option.some.inj hw
      rw [convert_means _ _ _ _ (modes_nodup s hs f hf) hm] at hcw
      rw [Option.some.inj hcw]
  · rcases hc with ⟨hn, -⟩ | ⟨w, hw, hcw⟩
    · rw [he] at hn; cases hn
    · rw [he] at hw; obtain rfl := Option.some.inj hw
      rcases hk with hk | ⟨t, rfl⟩
      · exact ⟨x, means_of_convert _ _ _ _ hk hcw⟩
      · cases hkk : f.kind with
        | mode names =>
          rw [hkk] at hcw
          obtain ⟨i, hi, -⟩ := Option.map_eq_some_iff.1 hcw
          obtain ⟨hlt, hp, -⟩ := List.findIdx?_eq_some_iff_getElem.1 hi
          refine ⟨.mode names i, .name _ _ i ?_⟩
          rw [List.getElem?_eq_getElem hlt]
          simpa using hp
        | _ => rw [hkk] at hcw; cases hcw

/-- A file is accepted if its sections are objects and its entries have the right types (the misspelt key being
absent). -/
theorem good_file_accepted (ms : Members) (hsec : ∀ s ∈ sections, ms.get s.name = none ∨ ∃ m, ms.get s.name = some (.obj m))
    (hodd : ∀ s ∈ sections, entry ms s.name oddKey = none)
    (hent : ∀ s ∈ sections, ∀ f ∈ s.fields, ∀ v, entry ms s.name f.name = some v → ∃ y, Means f.kind v y) :
    ∃ o, setup ms = some o := by
  refine collect_some _ _ fun s hs => ?_
  suffices h : ∃ l, setupSection s ms = some l by
    obtain ⟨l, hl⟩ := h
    exact ⟨(s.name, l), by rw [hl]; rfl⟩
  unfold setupSection
  rcases hsec s hs with e | ⟨m, e⟩
  · rw [e]; exact ⟨_, rfl⟩
  · rw [e]
    refine collect_some _ _ fun f hf => ?_
    suffices h : ∃ v, readField f m = some v by
      obtain ⟨v, hv⟩ := h
      exact ⟨(f.name, v), by rw [hv]; rfl⟩
    unfold readField
    have he : ∀ k, entry ms s.name k = m.get k := fun k => by unfold entry; rw [e]
    by_cases h : f.name = odd
    · rw [keys_odd s hs f hf h, ← he, hodd s hs]; exact ⟨_, rfl⟩
    · rw [keys_right s hs f hf h]
      cases hg : m.get f.name with
      | none => exact ⟨_, rfl⟩
      | some v =>
        obtain ⟨y, hy⟩ := hent s hs f hf v (by rw [he]; exact hg)
        exact ⟨y, convert_means _ _ _ _ (modes_nodup s hs f hf) hy⟩

/-- Only the sections and keys of the options matter: two files that say the same about them give the same result. -/
theorem other_entries_ignored (a b : Members)
    (h : ∀ s ∈ sections, (a.get s.name = none ↔ b.get s.name = none) ∧
      ((∃ m, a.get s.name = some (.obj m)) ↔ ∃ m, b.get s.name = some (.obj m)) ∧
      ∀ k, (∃ f ∈ s.fields, k = f.name) ∨ k = oddKey → entry a s.name k = entry b s.name k) : setup a = setup b := by
  refine collect_congr _ _ _ fun s hs => ?_
  obtain ⟨h1, h2, h3⟩ := h s hs
  suffices e : setupSection s a = setupSection s b by rw [e]
  unfold setupSection
  unfold entry at h3
  cases ha : a.get s.name with
  | none => rw [h1.1 ha]
  | some v =>
    cases hb : b.get s.name with
    | none => rw [h1.2 hb] at ha; cases ha
    | some w =>
      have hobj : ∀ (u : Val), (∃ m, some u = some (Val.obj m)) ∨ ∀ m, u ≠ .obj m := by
        intro u
        cases u with
        | obj m => exact Or.inl ⟨m, rfl⟩
        | _ => exact Or.inr (by intro m; simp)
      rw [ha, hb] at h2 h3
      rcases hobj v with hv | hv
      · obtain ⟨m', hm'⟩ := h2.1 hv
        obtain ⟨m, hm⟩ := hv
        obtain rfl := Option.some.inj hm
        obtain rfl := Option.some.inj hm'
        refine collect_congr _ _ _ fun f hf => ?_
        suffices e : readField f m = readField f m' by rw [e]
        unfold readField
        have : m.get f.key = m'.get f.key := by
          by_cases hn : f.name = odd
          · rw [keys_odd s hs f hf hn]; exact h3 _ (Or.inr rfl)
          · rw [keys_right s hs f hf hn]; exact h3 _ (Or.inl ⟨f, hf, rfl⟩)
        rw [this]
      · rcases hobj w with hw | hw
        · obtain ⟨m, hm⟩ := h2.2 hw
          exact absurd (Option.some.inj hm) (hv m)
        · cases v with
          | obj m => exact absurd rfl (hv m)
          | _ => cases w with
            | obj m => exact absurd rfl (hw m)
            | _ => rfl

/-! ### Writing and reading -/

theorem sectionJson_get (l : List (Str × OVal)) (ms : Members) (h : sectionJson l = some ms) (hn : (l.map Prod.fst).Nodup)
    (k : Str) : ms.get k = (named l k).bind toVal := by
  induction l generalizing ms with
  | nil => obtain rfl := Option.some.inj h; rfl
  | cons p l ih =>
    obtain ⟨k', v⟩ := p
    unfold sectionJson at h
    obtain ⟨x, hx, h2⟩ := Option.bind_eq_some_iff.1 h
    obtain ⟨r, hr, rfl⟩ := Option.map_eq_some_iff.1 h2
    rw [List.map_cons, List.nodup_cons] at hn
    rw [Members.get, ih r hr hn.2, named_cons]
    dsimp only
    by_cases hk : k' = k
    · subst hk
      have : named l k' = none := by
        unfold named
        rw [Option.map_eq_none_iff, List.find?_eq_none]
        intro p hp
        simp only [decide_eq_true_eq]
        intro e
        exact hn.1 (by dsimp only; rw [← e]; exact List.mem_map.2 ⟨p, hp, rfl⟩)
      rw [this, if_pos rfl, if_pos rfl]
      exact hx.symm
    · rw [if_neg hk, if_neg hk]
      cases (named l k).bind toVal <;> rfl

theorem toJson_get (o : Options) (ms : Members) (h : toJson o = some ms) (hn : (o.map Prod.fst).Nodup) (k : Str) :
    ms.get k = (named o k).bind fun l => (sectionJson l).map Val.obj := by
  induction o generalizing ms with
  | nil => obtain rfl := Option.some.inj h; rfl
  | cons p l ih =>
    obtain ⟨k', v⟩ := p
    unfold toJson at h
    obtain ⟨x, hx, h2⟩ := Option.bind_eq_some_iff.1 h
    obtain ⟨r, hr, rfl⟩ := Option.map_eq_some_iff.1 h2
    rw [List.map_cons, List.nodup_cons] at hn
    rw [Members.get, ih r hr hn.2, named_cons]
    dsimp only
    by_cases hk : k' = k
    · subst hk
      have : named l k' = none := by
        unfold named
        rw [Option.map_eq_none_iff, List.find?_eq_none]
        intro p hp
        simp only [decide_eq_true_eq]
        intro e
        exact hn.1 (by dsimp only; rw [← e]; exact List.mem_map.2 ⟨p, hp, rfl⟩)
      rw [this, if_pos rfl, if_pos rfl]
      show some (Val.obj x) = Option.map Val.obj (sectionJson v)
      rw [hx]; rfl
    · rw [if_neg hk, if_neg hk]
      cases (named l k).bind fun l => (sectionJson l).map Val.obj <;> rfl

theorem toVal_means (k : Kind) (x : OVal) (h : HasKind k x) : ∃ v, toVal x = some v ∧ Means k v x := by
  cases k with
  | bool =>
    cases x <;> try exact absurd h id
    exact ⟨_, rfl, .bool _⟩
  | int =>
    cases x <;> try exact absurd h id
    exact ⟨_, rfl, .int _⟩
  | double =>
    cases x <;> try exact absurd h id
    exact ⟨_, rfl, .real _⟩
  | mode names =>
    cases x <;> try exact absurd h id
    rename_i names' n
    obtain ⟨rfl, h0, h1⟩ := h
    obtain ⟨i, rfl⟩ := Int.eq_ofNat_of_zero_le h0
    have hi : i < names'.length := by exact_mod_cast h1
    refine ⟨.str names'[i], ?_, .name _ _ i (List.getElem?_eq_getElem hi)⟩
    simp only [toVal, if_pos h0]
    simp [hi]

theorem forall2_collect {α β : Type} (f : α → Option β) (R : α → β → Prop) (l : List α) (r : List β)
    (h : List.Forall₂ R l r) (hf : ∀ a ∈ l, ∀ b ∈ r, R a b → f a = some b) : collect f l = some r := by
  induction h with
  | nil => rfl
  | cons h1 h2 ih =>
    unfold collect
    rw [hf _ (by simp) _ (by simp) h1, ih fun a ha b hb => hf a (by simp [ha]) b (by simp [hb])]
    rfl

theorem forall2_names {α β : Type} (n : α → Str) (R : α → Str × β → Prop) (hR : ∀ a b, R a b → b.1 = n a) (l : List α)
    (r : List (Str × β)) (h : List.Forall₂ R l r) : r.map Prod.fst = l.map n := by
  induction h with
  | nil => rfl
  | cons h1 _ ih => rw [List.map_cons, List.map_cons, ih, hR _ _ h1]

theorem named_of_mem {α : Type} (l : List (Str × α)) (hn : (l.map Prod.fst).Nodup) (p : Str × α) (hp : p ∈ l) :
    named l p.1 = some p.2 := by
  induction l with
  | nil => cases hp
  | cons q l ih =>
    rw [named_cons]
    rw [List.map_cons, List.nodup_cons] at hn
    rcases List.mem_cons.1 hp with rfl | hp
    · exact if_pos rfl
    · rw [if_neg, ih hn.2 hp]
      intro e
      exact hn.1 (by rw [e]; exact List.mem_map.2 ⟨p, hp, rfl⟩)

theorem named_none {α : Type} (l : List (Str × α)) (k : Str) (h : k ∉ l.map Prod.fst) : named l k = none := by
  unfold named
  rw [Option.map_eq_none_iff, List.find?_eq_none]
  intro p hp
  simp only [decide_eq_true_eq]
  intro e
  exact h (by rw [← e]; exact List.mem_map.2 ⟨p, hp, rfl⟩)

theorem sectionJson_some (l : List (Str × OVal)) (h : ∀ p ∈ l, ∃ v, toVal p.2 = some v) : ∃ ms, sectionJson l = some ms := by
  induction l with
  | nil => exact ⟨_, rfl⟩
  | cons p l ih =>
    obtain ⟨k, v⟩ := p
    obtain ⟨x, hx⟩ := h (k, v) (by simp)
    obtain ⟨r, hr⟩ := ih fun q hq => h q (by simp [hq])
    exact ⟨.cons k x r, by unfold sectionJson; dsimp only at hx; rw [hx, hr]; rfl⟩

theorem toJson_some (o : Options) (h : ∀ p ∈ o, ∃ ms, sectionJson p.2 = some ms) : ∃ ms, toJson o = some ms := by
  induction o with
  | nil => exact ⟨_, rfl⟩
  | cons p l ih =>
    obtain ⟨k, v⟩ := p
    obtain ⟨x, hx⟩ := h (k, v) (by simp)
    obtain ⟨r, hr⟩ := ih fun q hq => h q (by simp [hq])
    exact ⟨.cons k (.obj x) r, by unfold toJson; dsimp only at hx; rw [hx, hr]; rfl⟩

theorem forall2_right {α β : Type} {R : α → β → Prop} {l : List α} {r : List β} (h : List.Forall₂ R l r) (b : β) (hb : b ∈ r) :
    ∃ a ∈ l, R a b := by
  induction h with
  | nil => cases hb
  | cons h1 _ ih =>
    rcases List.mem_cons.1 hb with rfl | hb
    · exact ⟨_, by simp, h1⟩
    · obtain ⟨a, ha, hr⟩ := ih hb
      exact ⟨a, by simp [ha], hr⟩

/-- All options can be written as an object. -/
theorem written (o : Options) (ht : Typed o) : ∃ ms, toJson o = some ms := by
  refine toJson_some o fun p hp => sectionJson_some p.2 fun q hq => ?_
  obtain ⟨s, -, -, h2⟩ := forall2_right ht p hp
  obtain ⟨f, -, -, h3⟩ := forall2_right h2 q hq
  obtain ⟨v, hv, -⟩ := toVal_means f.kind q.2 h3
  exact ⟨v, hv⟩

/-- Options that are written as an object and read again are the same — if `parallel.number_of_threads_move_update` has
its default value. -/
theorem object_round_trip_partial (o : Options) (ht : Typed o)
    (hodd : ∀ p ∈ o, ∀ q ∈ p.2, q.1 = odd → q.2 = .int (-1)) (ms : Members) (h : toJson o = some ms) : setup ms = some o := by
  have hn : (o.map Prod.fst).Nodup := by
    rw [forall2_names (fun s : Opt.Section => s.name) _ (fun a b hab => hab.1) _ _ ht]; exact names_nodup
  refine forall2_collect _ _ _ _ ht fun s hs p hp hsp => ?_
  obtain ⟨h1, h2⟩ := hsp
  have hn2 : (p.2.map Prod.fst).Nodup := by
    rw [forall2_names (fun f : Field => f.name) _ (fun a b hab => hab.1) _ _ h2]; exact fields_nodup s hs
  have hsec : ∃ m, ms.get s.name = some (.obj m) ∧ sectionJson p.2 = some m := by
    rw [toJson_get o ms h hn, ← h1, named_of_mem o hn p hp]
    obtain ⟨m, hm⟩ := sectionJson_some p.2 fun q hq => by
      obtain ⟨f, -, -, h3⟩ := forall2_right h2 q hq
      obtain ⟨v, hv, -⟩ := toVal_means f.kind q.2 h3
      exact ⟨v, hv⟩
    exact ⟨m, by show (sectionJson p.2).map Val.obj = _; rw [hm]; rfl, hm⟩
  obtain ⟨m, hm1, hm2⟩ := hsec
  have : setupSection s ms = some p.2 := by
    unfold setupSection
    rw [hm1]
    refine forall2_collect _ _ _ _ h2 fun f hf q hq hfq => ?_
    obtain ⟨e1, e2⟩ := hfq
    have : readField f m = some q.2 := by
      unfold readField
      by_cases hk : f.name = odd
      · rw [keys_odd s hs f hf hk, sectionJson_get _ _ hm2 hn2, named_none]
        · show some f.default = _
          rw [hodd p hp q hq (e1.trans hk)]
          have hd : ∀ s ∈ sections, ∀ f ∈ s.fields, f.name = odd → f.default = .int (-1) := by decide +kernel
          rw [hd s hs f hf hk]
        · rw [forall2_names (fun f : Field => f.name) _ (fun a b hab => hab.1) _ _ h2]
          intro hmem
          obtain ⟨g, hg, e⟩ := List.mem_map.1 hmem
          exact odd_no_name s hs g hg e
      · rw [keys_right s hs f hf hk, sectionJson_get _ _ hm2 hn2, ← e1, named_of_mem _ hn2 q hq]
        obtain ⟨v, hv, hmn⟩ := toVal_means f.kind q.2 e2
        show (match toVal q.2 with | none => _ | some v => _) = _
        rw [hv]
        exact convert_means _ _ _ _ (modes_nodup s hs f hf) hmn
    rw [this, ← e1]; rfl
  rw [this, ← h1]; rfl

/-- Names and keys contain no special characters. -/
theorem names_plain : ∀ s ∈ sections, PlainS s.name ∧ ∀ f ∈ s.fields, PlainS f.name ∧
    (match f.kind with | .mode names => ∀ x ∈ names, PlainS x | _ => True) := by
  have h : ∀ s ∈ sections, PlainS s.name ∧ ∀ f ∈ s.fields, PlainS f.name ∧
    (match f.kind with | .mode names => decide (∀ x ∈ names, PlainS x) | _ => true) = true := by decide +kernel
  intro s hs
  refine ⟨(h s hs).1, fun f hf => ⟨((h s hs).2 f hf).1, ?_⟩⟩
  have := ((h s hs).2 f hf).2
  split
  · rename_i e; rw [e] at this; simpa using this
  · trivial

theorem plain_section (l : List (Str × OVal)) (ms : Members) (h : sectionJson l = some ms)
    (hk : ∀ p ∈ l, PlainS p.1 ∧ ∀ v, toVal p.2 = some v → PlainV false v) : PlainM ms := by
  induction l generalizing ms with
  | nil => obtain rfl := Option.some.inj h; trivial
  | cons p l ih =>
    obtain ⟨k', v⟩ := p
    unfold sectionJson at h
    obtain ⟨x, hx, h2⟩ := Option.bind_eq_some_iff.1 h
    obtain ⟨r, hr, rfl⟩ := Option.map_eq_some_iff.1 h2
    unfold PlainM
    exact ⟨(hk (k', v) (by simp)).1, (hk (k', v) (by simp)).2 x hx, ih r hr fun q hq => hk q (by simp [hq])⟩

theorem plain_options (o : Options) (ms : Members) (h : toJson o = some ms)
    (hk : ∀ p ∈ o, PlainS p.1 ∧ ∀ m, sectionJson p.2 = some m → PlainM m) : PlainM ms := by
  induction o generalizing ms with
  | nil => obtain rfl := Option.some.inj h; trivial
  | cons p l ih =>
    obtain ⟨k', v⟩ := p
    unfold toJson at h
    obtain ⟨x, hx, h2⟩ := Option.bind_eq_some_iff.1 h
    obtain ⟨r, hr, rfl⟩ := Option.map_eq_some_iff.1 h2
    unfold PlainM
    refine ⟨(hk (k', v) (by simp)).1, ?_, ih r hr fun q hq => hk q (by simp [hq])⟩
    unfold PlainV
    exact (hk (k', v) (by simp)).2 x hx

/-- Options written to a file and read again are the same, if all numbers are printed exactly and
`parallel.number_of_threads_move_update` has its default value. -/
theorem file_round_trip_partial (o : Options) (ht : Typed o) (he : ∀ p ∈ o, ∀ q ∈ p.2, Exact q.2)
    (hodd : ∀ p ∈ o, ∀ q ∈ p.2, q.1 = odd → q.2 = .int (-1)) (n : ℕ) :
    ∃ ms, toJson o = some ms ∧ ∃ N, ∀ fuel ≥ N, setupFile fuel (write n (.obj ms)) = some o := by
  obtain ⟨ms, h⟩ := written o ht
  refine ⟨ms, h, ?_⟩
  have hp : PlainM ms := by
    refine plain_options o ms h fun p hp => ?_
    obtain ⟨s, hs, h1, h2⟩ := forall2_right ht p hp
    obtain ⟨n1, n2⟩ := names_plain s hs
    refine ⟨by rw [h1]; exact n1, fun m hm => plain_section _ _ hm fun q hq => ?_⟩
    obtain ⟨f, hf, h3, h4⟩ := forall2_right h2 q hq
    obtain ⟨n3, n4⟩ := n2 f hf
    refine ⟨by rw [h3]; exact n3, fun v hv => ?_⟩
    have hx := he p hp q hq
    cases hq2 : q.2 with
    | bool b => rw [hq2] at hv; obtain rfl := Option.some.inj hv; unfold PlainV; rfl
    | int k => rw [hq2] at hv hx; obtain rfl := Option.some.inj hv; unfold PlainV; exact hx
    | real k => rw [hq2] at hv hx; obtain rfl := Option.some.inj hv; unfold PlainV; exact hx
    | mode names k =>
      rw [hq2] at hv h4
      have hk : f.kind = .mode names := by
        cases hfk : f.kind with
        | mode nm => rw [hfk] at h4; rw [h4.1]
        | _ => rw [hfk] at h4; exact absurd h4 id
      rw [hk] at n4
      simp only [toVal] at hv
      split at hv
      · obtain ⟨x, hx1, rfl⟩ := Option.map_eq_some_iff.1 hv
        unfold PlainV
        exact n4 x (List.mem_of_getElem? hx1)
      · cases hv
  obtain ⟨N, hN⟩ := C46.file_round_trip_object_partial ms hp n
  refine ⟨N, fun fuel hf => ?_⟩
  unfold setupFile
  rw [hN fuel hf]
  exact object_round_trip_partial o ht hodd ms h

/-! ### Where the file is not followed -/

/-- A file with the only entry `s.f : v`. -/
def single (s f : Str) (v : Val) : Members := .cons s (.obj (.cons f v .nil)) .nil

/-- The number of threads for the updates of the moves cannot be set in a file: whatever integer the file gives, the value
is the default value −1. -/
theorem threads_are_ignored (n : ℤ) :
    ∃ o, setup (single c!"parallel" odd (.int n)) = some o ∧ option o c!"parallel" odd = some (.int (-1)) := by
  have h0 : setup .nil = some init := by decide +kernel
  have h : setup (single c!"parallel" odd (.int n)) = setup .nil := by
    refine collect_congr _ _ _ fun s hs => ?_
    unfold setupSection
    by_cases hk : s.name = c!"parallel"
    · have e1 : (single c!"parallel" odd (.int n)).get s.name = some (.obj (.cons odd (.int n) .nil)) := by
        rw [hk]; rfl
      rw [e1]
      show Option.map _ (readSection s _) = Option.map _ (some (initSection s))
      have : readSection s (.cons odd (.int n) .nil) = readSection s .nil := by
        refine collect_congr _ _ _ fun f hf => ?_
        unfold readField
        have : (Members.cons odd (.int n) .nil).get f.key = none := by
          unfold Members.get
          dsimp only [Members.get]
          have : ¬ odd = f.key := by
            intro e
            by_cases ho : f.name = odd
            · rw [keys_odd s hs f hf ho] at e; revert e; decide
            · rw [keys_right s hs f hf ho] at e; exact ho e.symm
          rw [if_neg this]
        rw [this]; rfl
      rw [this]
      have : ∀ s ∈ sections, readSection s .nil = some (initSection s) := by decide +kernel
      rw [this s hs]
    · have : (single c!"parallel" odd (.int n)).get s.name = none := by
        unfold single Members.get
        dsimp only [Members.get]
        rw [if_neg (fun e => hk e.symm)]
      rw [this]; rfl
  exact ⟨init, h.trans h0, by decide +kernel⟩

/-- So the file is not always followed. -/
theorem file_does_not_decide : ¬ ∀ (ms : Members) (o : Options), setup ms = some o → ∀ s ∈ sections, ∀ f ∈ s.fields,
    ∀ v y, entry ms s.name f.name = some v → Means f.kind v y → option o s.name f.name = some y := by
  intro h
  obtain ⟨o, h1, h2⟩ := threads_are_ignored 4
  have hs : ∃ s ∈ sections, s.name = c!"parallel" ∧ ∃ f ∈ s.fields, f.name = odd ∧ f.kind = .int := by decide +kernel
  obtain ⟨s, hs, e1, f, hf, e2, e3⟩ := hs
  have := h _ _ h1 s hs f hf (.int 4) (.int 4) (by rw [e1, e2]; rfl) (by rw [e3]; exact .int 4)
  rw [e1, e2, h2] at this
  exact absurd this (by decide)

/-- For an enumeration a value of a wrong type is not reported: it is ignored. -/
theorem mode_of_wrong_type_ignored (q : ℚ) (b : Bool) :
    (∀ s ∈ sections, ∀ f ∈ s.fields, ∀ names, f.kind = .mode names →
      convert f.kind f.default (.real q) = some f.default ∧ convert f.kind f.default (.bool b) = some f.default) ∧
    setup (single c!"restart" c!"restart_mode" (.bool true)) = some init := by
  refine ⟨fun s hs f hf names e => ?_, by decide +kernel⟩
  rw [e]
  exact ⟨rfl, rfl⟩

/-- For an enumeration a number out of range is not reported either: the options are then of no use, since `to_json`
throws. -/
theorem mode_out_of_range_accepted :
    ∃ o, setup (single c!"restart" c!"restart_mode" (.int 7)) = some o ∧ toJson o = none := by
  have h : (match setup (single c!"restart" c!"restart_mode" (.int 7)) with
    | some o => (match toJson o with | none => true | some _ => false) | none => false) = true := by decide +kernel
  split at h
  · rename_i o ho
    refine ⟨o, ho, ?_⟩
    split at h
    · assumption
    · cases h
  · cases h

/-! ### Cases that meet the hypotheses -/

/-- A file as in the documentation: a number written as an integer, an enumeration by name, a section with a key that is
not known, and a section that is not known. -/
private def file : Members :=
  .cons c!"general" (.obj (.cons c!"iteration_max" (.int 20) (.cons c!"time_max" (.int 7) .nil)))
    (.cons c!"neighborhood" (.obj (.cons c!"selection_mode" (.str c!"Larger") (.cons c!"other" .null .nil)))
      (.cons c!"unknown" (.int 3) .nil))

example : ∃ o, setup file = some o ∧ option o c!"general" c!"iteration_max" = some (.int 20) ∧
    option o c!"general" c!"time_max" = some (.real 7) ∧
    option o c!"neighborhood" c!"selection_mode" = some (.mode selectionModeNames 3) ∧
    option o c!"tabu_search" c!"tabu_mode" = some (.mode tabuModeNames 0) := by
  obtain ⟨o, ho⟩ : ∃ o, setup file = some o := by
    refine good_file_accepted file ?_ ?_ ?_
    · have : ∀ s ∈ sections, (match file.get s.name with | none => true | some (.obj _) => true | _ => false) = true := by
        decide +kernel
      intro s hs
      have := this s hs
      split at this
      · exact Or.inl ‹_›
      · exact Or.inr ⟨_, ‹_›⟩
      · cases this
    · have : ∀ s ∈ sections, (match entry file s.name oddKey with | none => true | some _ => false) = true := by
        decide +kernel
      intro s hs
      have := this s hs
      split at this
      · assumption
      · cases this
    · have : ∀ s ∈ sections, ∀ f ∈ s.fields, (match entry file s.name f.name with
          | none => true
          | some v => match f.kind, v with
            | .int, .int _ => true
            | .double, .int _ => true
            | .mode names, .str x => decide (names[3]? = some x)
            | _, _ => false) = true := by decide +kernel
      intro s hs f hf v hv
      have := this s hs f hf
      rw [hv] at this
      dsimp only at this
      split at this
      · rename_i e; rw [e]; exact ⟨_, .int _⟩
      · rename_i e; rw [e]; exact ⟨_, .whole _⟩
      · rename_i e; rw [e]; exact ⟨_, .name _ _ 3 (of_decide_eq_true this)⟩
      · cases this
  have hg : ∃ s ∈ sections, s.name = c!"general" ∧ (∃ f ∈ s.fields, f.name = c!"iteration_max" ∧ f.kind = .int) ∧
      (∃ f ∈ s.fields, f.name = c!"time_max" ∧ f.kind = .double) := by decide +kernel
  have hn : ∃ s ∈ sections, s.name = c!"neighborhood" ∧ ∃ f ∈ s.fields, f.name = c!"selection_mode" ∧
      f.kind = .mode selectionModeNames := by decide +kernel
  have ht : ∃ s ∈ sections, s.name = c!"tabu_search" ∧ ∃ f ∈ s.fields, f.name = c!"tabu_mode" ∧
      f.default = .mode tabuModeNames 0 := by decide +kernel
  have key := file_decides_partial file o ho
  refine ⟨o, ho, ?_, ?_, ?_, ?_⟩
  · obtain ⟨s, hs, e, ⟨f, hf, e1, e2⟩, -⟩ := hg
    have := (key s hs f hf (by rw [e1]; decide)).2.1 (.int 20) (.int 20) (by rw [e, e1]; rfl) (by rw [e2]; exact .int _)
    rwa [e, e1] at this
  · obtain ⟨s, hs, e, -, ⟨f, hf, e1, e2⟩⟩ := hg
    have := (key s hs f hf (by rw [e1]; decide)).2.1 (.int 7) (.real 7) (by rw [e, e1]; rfl) (by rw [e2]; exact .whole 7)
    rwa [e, e1] at this
  · obtain ⟨s, hs, e, f, hf, e1, e2⟩ := hn
    have := (key s hs f hf (by rw [e1]; decide)).2.1 (.str c!"Larger") (.mode selectionModeNames 3) (by rw [e, e1]; rfl)
      (by rw [e2]; exact .name _ _ 3 rfl)
    rwa [e, e1] at this
  · obtain ⟨s, hs, e, f, hf, e1, e2⟩ := ht
    have := (key s hs f hf (by rw [e1]; decide)).1 (by rw [e, e1]; rfl)
    rwa [e, e1, e2] at this

/-- The default options meet the hypotheses of the round trip. -/
private theorem typed_init : Typed init := by
  unfold Typed init
  rw [List.forall₂_map_right_iff]
  rw [List.forall₂_same]
  intro s hs
  refine ⟨rfl, ?_⟩
  unfold initSection
  rw [List.forall₂_map_right_iff, List.forall₂_same]
  intro f hf
  refine ⟨rfl, ?_⟩
  have h : ∀ s ∈ sections, ∀ f ∈ s.fields, (match f.kind, f.default with
    | .bool, .bool _ => true
    | .int, .int _ => true
    | .double, .real _ => true
    | .mode names, .mode names' n => decide (names' = names ∧ 0 ≤ n ∧ n < names.length)
    | _, _ => false) = true := by decide +kernel
  have := h s hs f hf
  unfold HasKind
  split at this
  · rename_i e1 e2; rw [e1, e2]; trivial
  · rename_i e1 e2; rw [e1, e2]; trivial
  · rename_i e1 e2; rw [e1, e2]; trivial
  · rename_i e1 e2; rw [e1, e2]; exact of_decide_eq_true this
  · cases this

example : ∃ ms, toJson init = some ms ∧ ∃ N, ∀ fuel ≥ N, setupFile fuel (write 0 (.obj ms)) = some init := by
  refine file_round_trip_partial init typed_init ?_ ?_ 0
  · have h : ∀ p ∈ init, ∀ q ∈ p.2, (match q.2 with
      | .int n => decide (-2147483648 ≤ n ∧ n ≤ 2147483647)
      | .real x => decide (Text.atof (Text.formatE x) = x)
      | _ => true) = true := by decide +kernel
    intro p hp q hq
    have := h p hp q hq
    unfold Exact
    split at this
    · rename_i e; rw [e]; exact of_decide_eq_true this
    · rename_i e; rw [e]; exact of_decide_eq_true this
    · split <;> simp_all
  · decide +kernel

end Printemps.C69
