import Verif.Lemmas.BoundedReturns
import Verif.Lemmas.Laps

/-! Lemmas about the moves that the neighbourhood offers after variables have been fixed by the bounding: the generators of 0/1
and integer moves have been set up again, those of the special moves and the stored chain moves are the old ones. -/

namespace Printemps.Ctl
open Spec Sol Search Presolve Nbhd Moves Chain

set_option linter.unusedSectionVars false

variable {ν μ : Type} [LinearOrder ν] [LinearOrder μ] {C : Nbhd.Config ν μ} {cfg : Cfg} {m0 B m : MState}

/-- A variable with values 0 and 1 at most. -/
def Bit (x : Var) : Prop := 0 ≤ x.lb ∧ x.ub ≤ 1

/-- The neighbourhood of a model without selections and dependent variables, some of whose variables have been fixed since. -/
structure Suits (C : Nbhd.Config ν μ) (cfg : Cfg) (B : MState) : Prop where
  sels : cfg.sels = []
  deps : B.dependents = []
  varIds : C.setup.varIds = B.varIds
  conIds : C.setup.conIds = B.conIds
  terms : ∀ c, (C.setup.con c).expr.terms = (B.con c).expr.terms
  enabled : ∀ c, (C.setup.con c).enabled = (B.con c).enabled
  names : ∀ c ∈ B.conIds, ∀ d ∈ B.conIds, C.name c = C.name d → c = d
  vars : ∀ c ∈ B.conIds, (B.con c).enabled = true → ∀ v ∈ (B.con c).expr.vars, v ∈ B.varIds
  typed : ∀ v ∈ B.varIds, Typed (B.var v)
  ne : ∀ v ∈ B.varIds, (B.var v).fixed = false → (B.var v).lb ≠ (B.var v).ub
  recentFixed : ∀ v ∈ B.varIds, (B.var v).fixed = true → (C.recent v).fixed = true
  recentBit : ∀ v ∈ B.varIds, (C.recent v).sense = .binary → Bit (B.var v)
  setupBit : ∀ v ∈ B.varIds, (C.setup.var v).sense = .binary → Bit (B.var v)
  noSelection : ∀ v ∈ B.varIds, (C.setup.var v).sense ≠ .selection ∧ (C.recent v).sense ≠ .selection
  pairs : ∀ p ∈ C.pairs, p.1 ≠ p.2 ∧ (p.1 ∈ B.varIds ∧ p.2 ∈ B.varIds) ∧
    (C.setup.var p.1).sense = .binary ∧ (C.setup.var p.2).sense = .binary

/-- A move that flips variables with values 0 and 1. -/
structure Flips (B : MState) (mv : Move) : Prop where
  covers : Covers B mv.alterations mv.related
  vars : ∀ a ∈ mv.alterations, a.1 ∈ B.varIds ∧ Bit (B.var a.1) ∧ (a.2 = 0 ∨ a.2 = 1)
  notSel : mv.isSelection = false

theorem Suits.unit (h : Suits C cfg B) {v : ℕ} (hv : v ∈ B.varIds) (hf : (B.var v).fixed = false) (hb : Bit (B.var v)) :
    (B.var v).lb = 0 ∧ (B.var v).ub = 1 := by
  have h1 := (h.typed v hv).1
  have h2 := h.ne v hv hf
  obtain ⟨b1, b2⟩ := hb
  omega

theorem Suits.noDep (h : Suits C cfg B) (v : ℕ) : v ∉ B.dependents.map Prod.fst := by rw [h.deps]; simp

theorem Suits.related (h : Suits C cfg B) (v c : ℕ) :
    c ∈ Nbhd.related C.name C.setup v ↔ c ∈ B.conIds ∧ v ∈ (B.con c).expr.terms.map Prod.fst := by
  rw [mem_related, h.conIds, h.terms]

theorem Suits.offered (h : Suits C cfg B) {v : ℕ} {s : VarSense} (hv : v ∈ Nbhd.offered C s) :
    v ∈ B.varIds ∧ (C.recent v).sense = s ∧ (B.var v).fixed = false := by
  unfold Nbhd.offered at hv
  obtain ⟨h1, h2⟩ := C74.mem_mutables hv
  rw [List.mem_filter, decide_eq_true_eq, h.varIds] at h1
  refine ⟨h1.1, h1.2, ?_⟩
  cases hf : (B.var v).fixed
  · rfl
  · rw [h.recentFixed v h1.1 hf] at h2; exact absurd h2 (by decide)

theorem Suits.single_covers (h : Suits C cfg B) (hs : C66.Setting cfg B) (v : ℕ) (x : ℤ) :
    Covers B [(v, x)] (Nbhd.related C.name C.setup v) where
  nodup := (related_nodup _ _ (by rw [h.conIds]; exact hs.wf.conIds) v).filter _
  mem c hc := ((h.related v c).1 hc).1
  covers c hc _ hex := by
    obtain ⟨a, ha, hm⟩ := hex
    rw [List.mem_singleton] at ha
    subst ha
    exact (h.related v c).2 ⟨hc, hm⟩

theorem Suits.special_covers (h : Suits C cfg B) (sense : MoveSense) (alts : List (ℕ × ℤ)) :
    Covers B (specialMove C sense alts).alterations (specialMove C sense alts).related := by
  have hm : ∀ c, c ∈ (specialMove C sense alts).related ↔ ∃ a ∈ alts, c ∈ B.conIds ∧ a.1 ∈ (B.con c).expr.terms.map Prod.fst := by
    intro c
    show c ∈ sortUnique C.name _ ↔ _
    rw [C64.mem_sortUnique, List.mem_flatMap]
    constructor
    · rintro ⟨a, ha, hc⟩; exact ⟨a, ha, (h.related a.1 c).1 hc⟩
    · rintro ⟨a, ha, hc⟩; exact ⟨a, ha, (h.related a.1 c).2 hc⟩
  refine ⟨List.Nodup.filter _ (C64.sortUnique_nodup _ _ fun c hc d hd e => ?_), fun c hc => ?_, fun c hc _ hex => ?_⟩
  · obtain ⟨a, -, h1, -⟩ := (hm c).1 ((C64.mem_sortUnique _ _ _).2 hc)
    obtain ⟨b, -, h2, -⟩ := (hm d).1 ((C64.mem_sortUnique _ _ _).2 hd)
    exact h.names c h1 d h2 e
  · obtain ⟨a, -, h1, -⟩ := (hm c).1 hc
    exact h1
  · obtain ⟨a, ha, h'⟩ := hex
    exact (hm c).2 ⟨a, ha, hc, h'⟩

theorem Flips.fine (h : Suits C cfg B) {mv : Move} (hm : Flips B mv) (hd : (mv.alterations.map Prod.fst).Nodup)
    (hfix : ∀ a ∈ mv.alterations, (B.var a.1).fixed = false) (hu : mv.isUnivariable = false)
    (hk : mv.sense = .chain ∨ mv.sense = .twoFlip) : C74.Fine (Flips B) cfg B m mv := by
  refine ⟨⟨hd, fun a ha => ?_, hm.covers, fun h => by rw [hu] at h; exact absurd h (by simp),
    fun _ hh => by rw [hm.notSel] at hh; exact absurd hh (by simp)⟩, fun _ => hm, fun e => ?_, fun e => ?_⟩
  · obtain ⟨h1, h2, h3⟩ := hm.vars a ha
    obtain ⟨u1, u2⟩ := h.unit h1 (hfix a ha) h2
    exact ⟨h1, h.noDep _, hfix a ha, by omega⟩
  · rw [e] at hk; exact absurd hk (by decide)
  · rw [e] at hk; exact absurd hk (by decide)

theorem late_binary (hs : C66.Setting cfg B) (h : Suits C cfg B) (hr : C74.Standing B m) (v : ℕ) (hv : v ∈ Nbhd.offered C .binary) :
    C74.Fine (Flips B) cfg B m (binaryMove (Nbhd.related C.name C.setup) m.var v) := by
  obtain ⟨h1, h2, h3⟩ := h.offered hv
  have hb := h.recentBit v h1 h2
  obtain ⟨u1, u2⟩ := h.unit h1 h3 hb
  have hx : (1 - (m.var v).value = 0 ∨ 1 - (m.var v).value = 1) := by
    have := hr.range v h1 (h.noDep v) h3
    omega
  have cov := h.single_covers hs v (1 - (m.var v).value)
  refine ⟨⟨by simp [binaryMove], fun a ha => ?_, cov, fun _ => ⟨v, _, rfl⟩, fun h => absurd h (by simp [binaryMove])⟩,
    fun _ => ⟨cov, fun a ha => ?_, rfl⟩, fun h => absurd h (by simp [binaryMove]), by simp [binaryMove]⟩
  · obtain rfl := List.mem_singleton.1 ha
    exact ⟨h1, h.noDep _, h3, by dsimp only; omega⟩
  · obtain rfl := List.mem_singleton.1 ha
    exact ⟨h1, hb, hx⟩

theorem late_integer (hs : C66.Setting cfg B) (h : Suits C cfg B) (hr : C74.Standing B m) (acc : Accept) (v : ℕ)
    (hv : v ∈ Nbhd.offered C .integer) (mv : Move) (hmv : mv ∈ integerMovesOf (Nbhd.related C.name C.setup) acc m.var v) :
    C74.Fine (Flips B) cfg B m mv := by
  obtain ⟨h1, h2, h3⟩ := h.offered hv
  obtain ⟨l, g, st⟩ := hr.stat
  have hb := hr.range v h1 (h.noDep v) h3
  have hfix : (m.var v).fixed = false := by rw [C66.stat_fixed st]; exact h3
  have hin : mv ∈ integerMoves (Nbhd.related C.name C.setup) acc m.var [v] := by
    unfold integerMoves mutables
    simp [hfix, hmv]
  obtain ⟨w, hw, x, e, -, hx⟩ := C32.integer_moves_stay_inside _ acc m.var [v]
    (fun w hw _ => by obtain rfl := List.mem_singleton.1 hw; rw [st.lb, st.ub]; exact hb) mv hin
  obtain rfl := List.mem_singleton.1 hw
  unfold integerMovesOf at hmv
  split at hmv
  · obtain ⟨t, -, ht⟩ := List.mem_filterMap.1 hmv
    obtain ⟨y, -, rfl⟩ := Option.map_eq_some_iff.1 ht
    simp only [List.cons.injEq, Prod.mk.injEq, true_and, and_true] at e
    subst e
    rw [st.lb, st.ub] at hx
    have cov := h.single_covers hs w y
    refine ⟨⟨by simp, fun a ha => ?_, cov, fun _ => ⟨w, _, rfl⟩, fun h => absurd h (by simp)⟩, fun h => absurd h (by simp),
      fun _ => ⟨rfl, w, y, rfl, ?_⟩, by simp⟩
    · obtain rfl := List.mem_singleton.1 ha
      exact ⟨h1, h.noDep _, h3, by tauto, by tauto⟩
    · tauto
  · exact absurd hmv (by simp)

theorem flag_fixed (t : ConType) (acc : Accept) (var : ℕ → Var) (av : Bool) (alts : List (ℕ × ℤ))
    (h : flagOf t acc var av alts = true) : ∀ a ∈ alts, (var a.1).fixed = false := by
  by_cases ht : t = .softSelection
  · subst ht
    have h : softFlag acc var av alts = true := h
    unfold softFlag at h
    simp only [Bool.and_eq_true, Bool.not_eq_true'] at h
    intro a ha
    have := List.any_eq_false.1 h.1.1.2 a ha
    simpa using this
  · obtain ⟨h1, -⟩ := C36.enabled_moves_respect_fixings_and_bounds t ht acc var av alts h
    exact h1

theorem late_special (hs : C66.Setting cfg B) (h : Suits C cfg B) (hr : C74.Standing B m) (acc : Accept) (st : Status)
    (t : ConType × MoveSense) (ht : t ∈ classes) (l : List Move) (hl : Nbhd.ofType C st acc m t = some l)
    (mv : Move) (hmv : mv ∈ l) : C74.Fine (Flips B) cfg B m mv := by
  unfold Nbhd.ofType at hl
  obtain ⟨k, hk, rfl⟩ := Option.map_eq_some_iff.1 hl
  obtain ⟨alts, halts, rfl⟩ := List.mem_map.1 hmv
  rw [List.mem_filter] at halts
  obtain ⟨hin, hflag⟩ := halts
  obtain ⟨i, hi, he, hty, hvars, lc, hlc, hal⟩ := ofModel_mem _ _ _ _ _ hk alts hin
  obtain ⟨l', g', stt⟩ := hr.stat
  rw [h.conIds] at hi
  rw [h.enabled] at he
  have hsame : (C.setup.con i).expr.vars = (B.con i).expr.vars := by unfold Expr.vars; rw [h.terms]
  obtain ⟨n1, n2, n3⟩ := ofClass_vars _ _ _ (by rw [h.terms]; exact hs.wf.con i hi) t.1 lc hlc
    (fun e k' hk' => by
      have := classify_soft C.setup.var C.lt (C.setup.con i) (hty.trans e)
      obtain ⟨-, x, hx, hxe⟩ := flow_soft C.setup.var (C.setup.con i) (ConType.classify C.setup.var C.lt (C.setup.con i)).2
        (by rw [this, ← hty.trans e])
      rw [hk'] at hxe
      rw [Option.some.inj hxe]; exact hx) alts hal
  rw [hsame] at n2
  have hfix : ∀ a ∈ alts, (B.var a.1).fixed = false := fun a ha => by
    rw [← C66.stat_fixed stt]; exact flag_fixed t.1 acc m.var _ alts hflag a ha
  have hids : ∀ a ∈ alts, a.1 ∈ B.varIds := fun a ha => h.vars i hi he a.1 (n2 a ha)
  have hbounds : ∀ a ∈ alts, (B.var a.1).lb ≤ a.2 ∧ a.2 ≤ (B.var a.1).ub := by
    intro a ha
    by_cases hsoft : t.1 = .softSelection
    · have hc := classify_soft C.setup.var C.lt (C.setup.con i) (hty.trans hsoft)
      obtain ⟨hb, -⟩ := flow_soft C.setup.var (C.setup.con i) (ConType.classify C.setup.var C.lt (C.setup.con i)).2
        (by rw [hc, ← hty.trans hsoft])
      have ha' := n2 a ha
      rw [← hsame] at ha'
      obtain ⟨y, hy, hye⟩ := List.mem_map.1 ha'
      have hb' := hb y hy
      rw [hye] at hb'
      unfold ConType.isBinSel at hb'
      have hb2 : (C.setup.var a.1).sense = .binary ∨ (C.setup.var a.1).sense = .selection := by simpa using hb'
      have hb3 := hb2.resolve_right (h.noSelection a.1 (hids a ha)).1
      obtain ⟨u1, u2⟩ := h.unit (hids a ha) (hfix a ha) (h.setupBit a.1 (hids a ha) hb3)
      have := n3 hsoft a ha
      omega
    · obtain ⟨-, h2⟩ := C36.enabled_moves_respect_fixings_and_bounds t.1 hsoft acc m.var _ alts hflag
      have := h2 a ha
      rw [stt.lb, stt.ub] at this
      exact this
  have hkind : ∀ t ∈ classes, t.2 ≠ .binary ∧ t.2 ≠ .chain ∧ t.2 ≠ .twoFlip ∧ t.2 ≠ .integer ∧ t.2 ≠ .general := by decide
  obtain ⟨k1, k2, k3, k4, k5⟩ := hkind t ht
  exact ⟨⟨n1, fun a ha => ⟨hids a ha, h.noDep _, hfix a ha, hbounds a ha⟩, h.special_covers _ _,
    fun h => absurd h (by simp [specialMove]), fun _ h => absurd h (by simp [specialMove])⟩,
    fun h => by rcases h with h | h | h; exacts [absurd h k1, absurd h k2, absurd h k3],
    fun h => absurd h k4, k5⟩

theorem late_twoFlip (h : Suits C cfg B) (hr : C74.Standing B m) (acc : Accept) (st : Status)
    (mv : Move) (hmv : mv ∈ twoFlipMoves C st acc m) : C74.Fine (Flips B) cfg B m mv := by
  unfold twoFlipMoves at hmv
  obtain ⟨alts, halts, rfl⟩ := List.mem_map.1 hmv
  rw [List.mem_filter] at halts
  obtain ⟨hin, hflag⟩ := halts
  obtain ⟨p, hp, ha⟩ := List.mem_flatMap.1 hin
  obtain ⟨p1, p2, p3, p4⟩ := h.pairs p hp
  have b3 := h.setupBit p.1 p2.1 p3
  have b4 := h.setupBit p.2 p2.2 p4
  obtain ⟨l', g', stt⟩ := hr.stat
  unfold twoFlipFlag at hflag
  simp only [Bool.and_eq_true, Bool.not_eq_true'] at hflag
  obtain ⟨⟨⟨⟨-, -⟩, f2⟩, -⟩, -⟩ := hflag
  have g2 : ∀ a ∈ alts, (B.var a.1).fixed = false := by
    intro a ha
    have := List.any_eq_false.1 f2 a ha
    rw [C66.stat_fixed stt] at this
    simpa using this
  unfold twoFlip at ha
  simp only [List.mem_cons, List.not_mem_nil, or_false] at ha
  have hshape : (alts.map Prod.fst).Nodup ∧ ∀ a ∈ alts, a.1 ∈ B.varIds ∧ Bit (B.var a.1) ∧ (a.2 = 0 ∨ a.2 = 1) := by
    rcases ha with rfl | rfl
    · refine ⟨by simpa using p1, fun a ha => ?_⟩
      simp only [List.mem_cons, List.not_mem_nil, or_false] at ha
      rcases ha with rfl | rfl
      · exact ⟨p2.1, b3, Or.inr rfl⟩
      · exact ⟨p2.2, b4, Or.inl rfl⟩
    · refine ⟨by simpa using p1, fun a ha => ?_⟩
      simp only [List.mem_cons, List.not_mem_nil, or_false] at ha
      rcases ha with rfl | rfl
      · exact ⟨p2.1, b3, Or.inl rfl⟩
      · exact ⟨p2.2, b4, Or.inr rfl⟩
  have flip : Flips B (specialMove C .twoFlip alts) := ⟨h.special_covers _ _, hshape.2, rfl⟩
  exact flip.fine h hshape.1 g2 rfl (Or.inr rfl)

theorem late_woven {past : List Move} (h : Suits C cfg B)
    (hpast : ∀ mv ∈ past, mv.sense = .binary ∨ mv.sense = .chain ∨ mv.sense = .twoFlip → Flips B mv)
    (x : CMove) (hx : Woven C.name past x) :
    Flips B x.move ∧ (x.move.alterations.map Prod.fst).Nodup ∧ x.move.isUnivariable = false ∧ x.move.sense = .chain := by
  induction hx with
  | register env t p c l x henv hp hc hl hx =>
    have hdist := C64.registered_distinct env t p c l hl x hx
    unfold registered at hl
    obtain ⟨ok, h1, h2⟩ := Option.bind_eq_some_iff.1 hl
    cases ok with
    | false => simp at h2; subst h2; simp at hx
    | true =>
      rw [if_pos rfl] at h2
      obtain ⟨y, hy, h3⟩ := Option.bind_eq_some_iff.1 h2
      obtain ⟨z, hz, h4⟩ := Option.bind_eq_some_iff.1 h3
      obtain ⟨g, hg, h5⟩ := Option.map_eq_some_iff.1 h4
      have hkinds : (p.move.sense = .binary ∨ p.move.sense = .chain ∨ p.move.sense = .twoFlip) ∧
          (c.move.sense = .binary ∨ c.move.sense = .chain ∨ c.move.sense = .twoFlip) := by
        unfold chainable at h1
        split at h1
        · rename_i hb
          exact ⟨Or.inl hb.1, Or.inl hb.2⟩
        · have := Option.some.inj h1
          simp only [Bool.or_eq_true, decide_eq_true_eq] at this
          rcases this with h | h
          · exact ⟨Or.inr (Or.inl h.1), Or.inr (Or.inl h.2)⟩
          · exact ⟨Or.inr (Or.inr h.1), Or.inr (Or.inr h.2)⟩
      have fp := hpast _ hp hkinds.1
      have fc := hpast _ hc hkinds.2
      have base : ∀ a b : CMove, Flips B a.move → Flips B b.move → add env a b = some g →
          Flips B g.move ∧ g.move.isUnivariable = false ∧ g.move.sense = .chain := by
        intro a b ha hb hab
        have cov := C64.combined_covers env B a b g hab (by rw [henv]; exact h.names) ha.covers hb.covers
        obtain ⟨r, -, rfl⟩ := Option.map_eq_some_iff.1 hab
        refine ⟨⟨cov, fun v hv => ?_, ha.notSel⟩, rfl, rfl⟩
        rcases List.mem_append.1 hv with hv | hv
        · exact ha.vars v hv
        · exact hb.vars v hv
      have hgf : Flips B g.move ∧ g.move.isUnivariable = false ∧ g.move.sense = .chain := by
        split at hg
        · exact base p c fp fc hg
        · exact base c p fc fp hg
      subst h5
      split at hx
      · simp only [List.mem_cons, List.not_mem_nil, or_false] at hx
        rcases hx with rfl | rfl
        · exact ⟨hgf.1, hdist, hgf.2⟩
        · refine ⟨⟨⟨hgf.1.covers.nodup, hgf.1.covers.mem, fun c hc he hex => ?_⟩, fun a ha => ?_, hgf.1.notSel⟩, hdist, hgf.2⟩
          · obtain ⟨a, ha, hm⟩ := hex
            obtain ⟨b, hb, rfl⟩ := List.mem_map.1 ha
            exact hgf.1.covers.covers c hc he ⟨b, hb, hm⟩
          · obtain ⟨b, hb, rfl⟩ := List.mem_map.1 ha
            obtain ⟨b1, b2, b3⟩ := hgf.1.vars b hb
            exact ⟨b1, b2, by dsimp only; omega⟩
      · simp at hx
  | mark x b _ ih => exact ⟨⟨ih.1.covers, ih.1.vars, ih.1.notSel⟩, ih.2⟩

theorem late_candidates {past : List Move} (hs : C66.Setting cfg B) (h : Suits C cfg B) (hr : C74.Standing B m) (acc : Accept)
    (st : Status) (hpast : ∀ mv ∈ past, mv.sense = .binary ∨ mv.sense = .chain ∨ mv.sense = .twoFlip → Flips B mv)
    (hw : ∀ x ∈ st.chain, Woven C.name past x) (l : List Move) (hl : candidates C st acc m = some l)
    (mv : Move) (hmv : mv ∈ l) : C74.Fine (Flips B) cfg B m mv := by
  unfold candidates at hl
  obtain ⟨sel, h1, h2⟩ := Option.bind_eq_some_iff.1 hl
  obtain ⟨special, h3, rfl⟩ := Option.map_eq_some_iff.1 h2
  simp only [List.mem_append] at hmv
  rcases hmv with ((((hmv | hmv) | hmv) | hmv) | hmv) | hmv
  · split at hmv
    · obtain ⟨v, hv, rfl⟩ := List.mem_map.1 hmv
      exact late_binary hs h hr v (List.mem_filter.1 hv).1
    · exact absurd hmv (by simp)
  · split at hmv
    · obtain ⟨v, hv, hm⟩ := List.mem_flatMap.1 hmv
      exact late_integer hs h hr acc v hv mv hm
    · exact absurd hmv (by simp)
  · have := C74.ifOn_mem h1 hmv
    unfold selectionMoves at this
    obtain ⟨k, hk, rfl⟩ := Option.map_eq_some_iff.1 this
    rw [List.mem_filter] at hmv
    obtain ⟨v, hv, e⟩ := mapM_mem _ _ k hk mv hmv.1
    obtain ⟨o1, o2, -⟩ := h.offered hv
    exact absurd o2 (h.noSelection v o1).2
  · obtain ⟨r, hr', hm⟩ := List.mem_flatten.1 hmv
    obtain ⟨t, ht, e⟩ := mapM_mem _ _ _ h3 r hr'
    exact late_special hs h hr acc st t ht r (C74.ifOn_mem e hm) mv hm
  · split at hmv
    · unfold chainMoves at hmv
      rw [List.mem_filter] at hmv
      obtain ⟨hin, hflag⟩ := hmv
      obtain ⟨x, hx, rfl⟩ := List.mem_map.1 hin
      obtain ⟨w1, w2, w3, w4⟩ := late_woven h hpast x (hw x hx)
      obtain ⟨l', g', stt⟩ := hr.stat
      obtain ⟨gm, -⟩ := C64.proposed_moves acc m _ _ w2 hflag
      exact w1.fine h w2 (fun a ha => by rw [← C66.stat_fixed stt]; exact gm.mutable a ha) w3 (Or.inl w4)
    · exact absurd hmv (by simp)
  · split at hmv
    · exact late_twoFlip h hr acc st mv hmv
    · exact absurd hmv (by simp)

theorem late_chosen {past : List Move} (hs : C66.Setting cfg B) (h : Suits C cfg B) (hcon : C74.Constrained B) (s : St)
    (hr : C74.Standing B s.model) (acc : Accept) (st : Status)
    (hpast : ∀ mv ∈ past, mv.sense = .binary ∨ mv.sense = .chain ∨ mv.sense = .twoFlip → Flips B mv)
    (hw : ∀ x ∈ st.chain, Woven C.name past x) (mv : Move) (b : Bool) (hc : Chosen C cfg st acc s mv b) :
    C66.Legal cfg B mv ∧ (mv.sense = .binary ∨ mv.sense = .chain ∨ mv.sense = .twoFlip → Flips B mv) := by
  cases hc with
  | plain l mv hl hmv =>
    have := late_candidates hs h hr acc st hpast hw l hl mv hmv
    exact ⟨this.legal, this.flip⟩
  | adjusted l mv0 mv fuel hl hmv hi ha =>
    obtain ⟨h1, h2⟩ := C74.fine_adjusted hr s.cur fuel mv0 mv (late_candidates hs h hr acc st hpast hw l hl mv0 hmv) hi ha
    refine ⟨h1, fun hh => ?_⟩
    rw [h2] at hh; exact absurd hh (by decide)
  | merged l adj fuel r hl hr' =>
    obtain ⟨h1, h2⟩ := C74.fine_merged hr hcon s.cur adj fuel _ (fun t ht => by
      obtain ⟨mv, hmv, rfl⟩ := List.mem_map.1 ht
      exact late_candidates hs h hr acc st hpast hw l hl mv hmv) r hr'
    refine ⟨h1, fun hh => ?_⟩
    rw [h2] at hh; exact absurd hh (by decide)

/-- The moves accepted so far that flip 0/1 variables. -/
def PastFlips (B : MState) (past : List Move) : Prop :=
  ∀ mv ∈ past, mv.sense = .binary ∨ mv.sense = .chain ∨ mv.sense = .twoFlip → Flips B mv

theorem late_follows {e : ℚ} (hs : C66.Setting cfg B) (he : Err B e) (h : Suits C cfg B) (hcon : C74.Constrained B) (es : List Event)
    (hom : OnlyMoves es) (past : List Move) (s : St) (q : (ℕ → ℤ) × ℕ) (hi : C66.Inv B e s q)
    (hpast : PastFlips B past) (hf : Follows C cfg past s es) :
    (∀ ev ∈ es, C66.LegalEvent cfg B ev) ∧ PastFlips B (es.foldl (fun p e => movesOf e ++ p) past) := by
  induction es generalizing past s q with
  | nil => exact ⟨by simp, hpast⟩
  | cons ev es ih =>
    obtain ⟨h1, h2⟩ := hf
    obtain ⟨mv, b, rfl⟩ := hom ev (by simp)
    obtain ⟨s1, e1⟩ : ∃ s1, step cfg s (.move mv b) = some s1 := ⟨_, rfl⟩
    obtain ⟨l, g, hn, stt⟩ := hi.stat
    have hreach : C74.Standing B s.model := ⟨⟨l, g, stt⟩, fun v hv hd hfx => by
      have := hi.range.range v hv hd hfx
      rw [← hi.agree v hd] at this; exact this⟩
    obtain ⟨st, acc, hw, hc⟩ := h1
    obtain ⟨k1, k2⟩ := late_chosen hs h hcon s hreach acc st hpast hw mv b hc
    obtain ⟨i1, -⟩ := C66.step_inv hs he s s1 q hi (.move mv b) k1 e1
    have hp' : PastFlips B (movesOf (.move mv b) ++ past) := fun mv' hm => by
      rcases List.mem_append.1 hm with hm | hm
      · obtain rfl := List.mem_singleton.1 hm
        exact k2
      · exact hpast mv' hm
    obtain ⟨j1, j2⟩ := ih (fun e he => hom e (by simp [he])) _ s1 _ i1 hp' (h2 s1 e1)
    refine ⟨fun ev' hev => ?_, j2⟩
    rcases List.mem_cons.1 hev with rfl | hev
    · exact k1
    · exact j1 ev' hev

/-! ### From one search to the next -/

/-- The ranges of `m'` are smaller than those of `m`. -/
structure Within (m m' : MState) : Prop where
  varIds : m'.varIds = m.varIds
  box : ∀ v, (m.var v).lb ≤ (m'.var v).lb ∧ (m'.var v).ub ≤ (m.var v).ub

theorem within_closed (m : MState) : Setup.Closed (fun v x => (m.var v).lb ≤ x.lb ∧ x.ub ≤ (m.var v).ub) where
  fix := fun _ _ _ h => h
  bound := fun i v old w l u _ ho _ h1 h2 h => by
    obtain ⟨-, b2, b3, -⟩ := setBound_bounds h
    rw [b2, b3]; exact ⟨ho.1.trans h1, h2.trans ho.2⟩

theorem bound_within {o : Opt} {c : State} {s b : St} (h : Ctl.bound o c s = some b) : Within s.model b.model := by
  unfold Ctl.bound at h
  split at h
  · rename_i m hm
    obtain rfl := Option.some.inj h
    unfold Online.onlineBounding at hm
    split at hm
    · unfold Online.updateBounds at hm
      obtain ⟨r, h1, h2⟩ := Setup.bind_ok hm
      have i1 := Setup.tightenConstraint_closed (within_closed s.model) _ _ r (fun _ => ⟨le_refl _, le_refl _⟩) h1
      split at h2
      · simp only [Outcome.ok.injEq] at h2
        subst h2
        exact ⟨rfl, fun v => Setup.fixImplicitAll_closed (within_closed s.model).fix _ _ i1 v⟩
      · simp only [Outcome.ok.injEq] at h2
        subst h2
        exact ⟨rfl, i1⟩
    · simp only [Outcome.ok.injEq] at hm
      subst hm
      exact ⟨rfl, fun _ => ⟨le_refl _, le_refl _⟩⟩
  · exact absurd h (by simp)

/-- The neighbourhood belongs to the model with which the searches begin, apart from the variables at its last setup. -/
structure Rooted (C : Nbhd.Config ν μ) (m0 : MState) : Prop where
  varIds : C.setup.varIds = m0.varIds
  conIds : C.setup.conIds = m0.conIds
  terms : ∀ c, (C.setup.con c).expr.terms = (m0.con c).expr.terms
  enabled : ∀ c, (C.setup.con c).enabled = (m0.con c).enabled
  sense : ∀ v, (C.setup.var v).sense = (m0.var v).sense
  names : ∀ c ∈ m0.conIds, ∀ d ∈ m0.conIds, C.name c = C.name d → c = d
  vars : ∀ c ∈ m0.conIds, (m0.con c).enabled = true → ∀ v ∈ (m0.con c).expr.vars, v ∈ m0.varIds
  pairs : ∀ p ∈ C.pairs, p.1 ≠ p.2 ∧ (p.1 ∈ m0.varIds ∧ p.2 ∈ m0.varIds) ∧
    ((m0.var p.1).sense = .binary ∨ (m0.var p.1).sense = .selection) ∧
    ((m0.var p.2).sense = .binary ∨ (m0.var p.2).sense = .selection)

/-- The variables at the last setup of the neighbourhood, and those now. -/
structure Fresh (recent : ℕ → Var) (m : MState) : Prop where
  fixed : ∀ v ∈ m.varIds, (m.var v).fixed = true → (recent v).fixed = true
  bit : ∀ v ∈ m.varIds, (recent v).sense = .binary → Bit (m.var v)
  noSelection : ∀ v ∈ m.varIds, (recent v).sense ≠ .selection

theorem fresh_renew {recent : ℕ → Var} {m m' : MState} (w : Within m m') (h : Fresh recent m)
    (ht : ∀ v ∈ m'.varIds, Typed (m'.var v)) : Fresh (renew recent m') m' := by
  unfold renew
  split
  · refine ⟨fun _ _ h => h, fun v hv hs => ?_, fun v hv hs => ?_⟩
    · rcases (ht v hv).2 with k | k
      · exact k.2
      · rw [hs] at k; exact absurd k (by decide)
    · rcases (ht v hv).2 with k | k
      · rw [hs] at k; exact absurd k.1 (by decide)
      · rw [hs] at k; exact absurd k (by decide)
  · rename_i hn
    refine ⟨fun v hv hf => ?_, fun v hv hs => ?_, fun v hv => ?_⟩
    · have hn' : ∀ v ∈ m'.varIds, (m'.var v).fixed = true → (recent v).fixed = true := by simpa using hn
      exact hn' v hv hf
    · rw [w.varIds] at hv
      have := h.bit v hv hs
      exact ⟨this.1.trans (w.box v).1, (w.box v).2.trans this.2⟩
    · rw [w.varIds] at hv
      exact h.noSelection v hv

theorem Rooted.suits {m : MState} {l gg : ℕ → ℚ} (r : Rooted C m0) (g : Ground cfg m0) (n : Narrow m0 B) (st : Stat B l gg m)
    (f : Fresh C.recent m) : Suits C cfg B := by
  have hv : B.varIds = m0.varIds := by rw [n.frame]
  have hc : B.conIds = m0.conIds := by rw [n.frame]
  have hk : ∀ c, B.con c = m0.con c := fun c => by rw [n.frame]
  have hbit : ∀ v ∈ m0.varIds, (m0.var v).sense = .binary → Bit (B.var v) := by
    intro v hm hs
    have b := n.box v
    rcases (g.sort v hm).2 with k | k
    · exact ⟨k.2.1.trans b.1, b.2.trans k.2.2⟩
    · rw [hs] at k; exact absurd k (by decide)
  have hno : ∀ v ∈ m0.varIds, (m0.var v).sense ≠ .selection := by
    intro v hm hs
    rcases (g.sort v hm).2 with k | k
    · rw [hs] at k; exact absurd k.1 (by decide)
    · rw [hs] at k; exact absurd k (by decide)
  exact
    { sels := g.sels
      deps := by rw [n.frame]; exact g.deps
      varIds := by rw [hv]; exact r.varIds
      conIds := by rw [hc]; exact r.conIds
      terms := fun c => by rw [hk]; exact r.terms c
      enabled := fun c => by rw [hk]; exact r.enabled c
      names := by rw [hc]; exact r.names
      vars := fun c hcm he v hm => by rw [hk] at he hm; rw [hc] at hcm; rw [hv]; exact r.vars c hcm he v hm
      typed := by rw [hv]; exact n.sort
      ne := by rw [hv]; exact n.ne
      recentFixed := fun v hm hf => f.fixed v (by rw [st.varIds]; exact hm) (by rw [C66.stat_fixed st]; exact hf)
      recentBit := fun v hm hs => by
        have := f.bit v (by rw [st.varIds]; exact hm) hs
        unfold Bit at this
        rw [st.lb, st.ub] at this; exact this
      setupBit := fun v hm hs => hbit v (by rw [← hv]; exact hm) (by rw [← r.sense]; exact hs)
      noSelection := fun v hm => ⟨by rw [r.sense]; exact hno v (by rw [← hv]; exact hm),
        f.noSelection v (by rw [st.varIds]; exact hm)⟩
      pairs := fun p hp => by
        obtain ⟨a, b, c, d⟩ := r.pairs p hp
        exact ⟨a, by rw [hv]; exact b, by rw [r.sense]; exact c.resolve_right (hno _ b.1),
          by rw [r.sense]; exact d.resolve_right (hno _ b.2)⟩ }

theorem constrained_narrow (n : Narrow m0 B) (h : C74.Constrained m0) : C74.Constrained B := by
  have hk : ∀ c, B.con c = m0.con c := fun c => by rw [n.frame]
  have hv : B.varIds = m0.varIds := by rw [n.frame]
  have hc : B.conIds = m0.conIds := by rw [n.frame]
  have hd : B.dependents = m0.dependents := by rw [n.frame]
  intro v hm hno hf
  rw [hv] at hm
  rw [hd] at hno
  obtain ⟨c, c1, c2, c3⟩ := h v hm hno (by
    cases hq : (m0.var v).fixed
    · rfl
    · rw [(n.fixed v hq).1] at hf; exact absurd hf (by decide))
  exact ⟨c, by rw [hc]; exact c1, by rw [hk]; exact c2, by rw [hk]; exact c3⟩

theorem legal_forth {m : MState} {l gg : ℕ → ℚ} (st : Stat B l gg m) (ev : Event) (h : C66.LegalEvent cfg B ev) : C66.LegalEvent cfg m ev := by
  have hids : m.conIds = B.conIds := st.shape.conIds
  have hterms : ∀ c, (m.con c).expr.terms = (B.con c).expr.terms := st.shape.conTerms
  have hen : ∀ c, (m.con c).enabled = (B.con c).enabled := st.shape.conEnabled
  cases ev with
  | start d => trivial
  | relax low => trivial
  | penalties l' g' => exact h
  | move mv r =>
    have h : C66.Legal cfg B mv := h
    refine ⟨h.distinct, fun a ha => ?_, (C74.covers_stat st _ _).2 h.related, h.single, fun h1 h2 => ?_⟩
    · have := h.listed a ha
      rw [st.varIds, st.dependents, C66.stat_fixed st, st.lb, st.ub]; exact this
    · obtain ⟨v, w, x, y, e1, r⟩ := h.selection h1 h2
      exact ⟨v, w, x, y, e1, by simpa only [hen] using r.nodup, fun c hc => by rw [hids]; exact r.mem c hc, fun c hc he hex =>
        r.covers c (by rw [← hids]; exact hc) (by rw [← hen]; exact he) (by rw [← hterms]; exact hex)⟩

theorem Flips.narrow {B' : MState} {mv : Move} (h : Flips B mv) (n : Narrow m0 B) (n' : Narrow m0 B')
    (hw : ∀ v, (B.var v).lb ≤ (B'.var v).lb ∧ (B'.var v).ub ≤ (B.var v).ub) : Flips B' mv := by
  have hk : ∀ c, B'.con c = B.con c := fun c => by rw [n.frame, n'.frame]
  have hv : B'.varIds = B.varIds := by rw [n.frame, n'.frame]
  have hc : B'.conIds = B.conIds := by rw [n.frame, n'.frame]
  refine ⟨⟨by simpa only [hk] using h.covers.nodup, by rw [hc]; exact h.covers.mem, fun c hm he hex => ?_⟩, fun a ha => ?_, h.notSel⟩
  · rw [hc] at hm; rw [hk] at he; simp only [hk] at hex
    exact h.covers.covers c hm he hex
  · obtain ⟨h1, h2, h3⟩ := h.vars a ha
    exact ⟨by rw [hv]; exact h1, ⟨h2.1.trans (hw a.1).1, (hw a.1).2.trans h2.2⟩, h3⟩

theorem Fresh.stat {recent : ℕ → Var} {m m' : MState} {l gg l' gg' : ℕ → ℚ} (f : Fresh recent m) (st : Stat B l gg m)
    (st' : Stat B l' gg' m') : Fresh recent m' := by
  have hv : m'.varIds = m.varIds := st'.varIds.trans st.varIds.symm
  refine ⟨fun v hm hf => ?_, fun v hm hs => ?_, fun v hm => ?_⟩
  · rw [hv] at hm
    exact f.fixed v hm (by rw [C66.stat_fixed st]; rw [C66.stat_fixed st'] at hf; exact hf)
  · rw [hv] at hm
    have := f.bit v hm hs
    unfold Bit at this ⊢
    rw [st.lb, st.ub] at this
    rw [st'.lb, st'.ub]; exact this
  · rw [hv] at hm
    exact f.noSelection v hm

theorem pastOf_append (a b : List Event) : pastOf (a ++ b) = b.foldl (fun p e => movesOf e ++ p) (pastOf a) := by
  unfold pastOf; rw [List.foldl_append]

theorem pastOf_relaxes (b : List Event) (h : OnlyRelaxes b) : ∀ p, b.foldl (fun p e => movesOf e ++ p) p = p := by
  induction b with
  | nil => intro p; rfl
  | cons e b ih =>
    intro p
    obtain ⟨low, rfl⟩ := h e (by simp)
    rw [List.foldl_cons]
    exact ih (fun e he => h e (by simp [he])) _

/-- A search that takes its moves from the neighbourhood takes legal ones. -/
theorem Held.obeys {e : ℚ} {x : Sofar} {name : ℕ → String} {cur : Sparse} {body : List Event} {d : Dense} {s : St} (g : Ground cfg m0)
    (he : Err m0 e) (hcon : C74.Constrained m0) (h : Held m0 B e x) (r : Rooted C m0) (f : Fresh C.recent x.st.model)
    (hp : PastFlips B (pastOf x.done)) (hom : OnlyMoves body) (hob : PhaseObeys C name cfg cur body x)
    (h1 : startFrom name cfg cur x.st = some (d, s)) :
    (∀ ev ∈ body, C66.LegalEvent cfg B ev) ∧ PastFlips B (pastOf (x.done ++ (.start d :: body))) := by
  obtain ⟨l, gg, hn, st⟩ := h.stat
  obtain ⟨q, -, i1, -⟩ := start_inv (e := e) g h.narrow hn st h.fixes h1
  obtain ⟨k1, k2⟩ := late_follows (h.narrow.setting g) (err_narrow h.narrow he) (r.suits g h.narrow st f)
    (constrained_narrow h.narrow hcon) body hom _ s q i1 hp (hob d s h1)
  refine ⟨k1, ?_⟩
  rw [pastOf_append]
  exact k2

theorem Held.next {e : ℚ} {x : Sofar} {name : ℕ → String} {o : Opt} {c : State} {lap : Lap} {y : State × Sofar} (g : Ground cfg m0)
    (he : Err m0 e) (hcon : C74.Constrained m0) (h : Held m0 B e x) (hc : c.feasNow = true → x.st.holder.found = true)
    (r : Rooted C m0) (f : Fresh C.recent x.st.model)
    (hp : PastFlips B (pastOf x.done)) (hom : OnlyMoves lap.body) (hpen : ∀ i, 0 ≤ lap.less i ∧ 0 ≤ lap.greater i)
    (hob : PhaseObeys C name cfg c.current lap.body x) (hr : lapStep name cfg o lap c x = some y) :
    (∃ B', Held m0 B' e y.2 ∧ Fresh (renew C.recent y.2.st.model) y.2.st.model ∧ PastFlips B' (pastOf y.2.done)) ∧
      (y.1.feasNow = true → y.2.st.holder.found = true) := by
  obtain ⟨l, gg, hn, st⟩ := h.stat
  have hleg : (startFrom name cfg c.current x.st).isSome = true → ∀ ev ∈ lap.body, C66.LegalEvent cfg x.st.model ev := by
    intro hs ev hev
    obtain ⟨⟨d, s⟩, h1⟩ := Option.isSome_iff_exists.1 hs
    exact legal_forth st ev ((h.obeys g he hcon r f hp hom hob h1).1 ev hev)
  obtain ⟨⟨B', hB⟩, hf⟩ := h.lap g he hc hom hpen hleg hr
  refine ⟨⟨B', hB, ?_⟩, hf⟩
  unfold lapStep at hr
  obtain ⟨⟨d, s⟩, h1, hr⟩ := Option.bind_eq_some_iff.1 hr
  obtain ⟨⟨s', t⟩, h2, hr⟩ := Option.bind_eq_some_iff.1 hr
  obtain ⟨b, h3, hr⟩ := Option.bind_eq_some_iff.1 hr
  obtain ⟨u, h4, hr⟩ := Option.bind_eq_some_iff.1 hr
  obtain ⟨s2, h5, rfl⟩ := Option.map_eq_some_iff.1 hr
  obtain rfl := Option.some.inj h5
  dsimp only at h1 h2 h3 h4 hB ⊢
  obtain ⟨k1, -, -⟩ := runStatus_back _ _ _ _ _ h2
  obtain ⟨kl, kp⟩ := h.obeys g he hcon r f hp hom hob h1
  have hh := h.search g he lap.body kl (visited_moves B m0 lap.body hom) d s s' h1 k1
  obtain ⟨l1, g1, -, st1⟩ := hh.stat
  have w0 := bound_within h3
  have w : Within x.st.model (setPenalties b.model lap.less lap.greater) := by
    refine ⟨w0.varIds.trans (st1.varIds.trans st.varIds.symm), fun v => ?_⟩
    have := w0.box v
    rw [show (s'.model.var v).lb = _ from st1.lb v, show (s'.model.var v).ub = _ from st1.ub v] at this
    rw [st.lb, st.ub]; exact this
  obtain ⟨l2, g2, -, st2⟩ := hB.stat
  refine ⟨fresh_renew w f fun v hv => ?_, fun mv hm hk => ?_⟩
  · have hv' : v ∈ m0.varIds := by
      have hvv := st2.varIds
      rw [show B'.varIds = m0.varIds by rw [hB.narrow.frame]] at hvv
      rw [← hvv]; exact hv
    have := hB.narrow.sort v hv'
    unfold Typed at this ⊢
    rw [st2.lb, st2.ub, st2.sense]; exact this
  · refine (kp mv ?_ hk).narrow h.narrow hB.narrow fun v => ?_
    · rw [pastOf_append] at hm; exact hm
    · have := w.box v
      rw [st.lb, st.ub, st2.lb, st2.ub] at this; exact this

theorem laps_legal {e : ℚ} {name : ℕ → String} {o : Opt} (g : Ground cfg m0) (he : Err m0 e) (hcon : C74.Constrained m0) (ls : List Lap) :
    ∀ (C : Nbhd.Config ν μ) (B : MState) (c : State) (x : Sofar), Held m0 B e x → (c.feasNow = true → x.st.holder.found = true) →
      Rooted C m0 → Fresh C.recent x.st.model → PastFlips B (pastOf x.done) → LapsObey name cfg o C ls c x →
      LapsLegal name cfg o ls c x := by
  induction ls with
  | nil => intros; trivial
  | cons lap ls ih =>
    intro C B c x h hc r f hp hob
    obtain ⟨o1, o2, o3, o4⟩ := hob
    obtain ⟨l, gg, hn, st⟩ := h.stat
    refine ⟨o1, o2, fun hs ev hev => ?_, fun y hy => ?_⟩
    · obtain ⟨⟨d, s⟩, h1⟩ := Option.isSome_iff_exists.1 hs
      exact legal_forth st ev ((h.obeys g he hcon r f hp o1 o3 h1).1 ev hev)
    · obtain ⟨⟨B', hB, f', hp'⟩, hc'⟩ := h.next g he hcon hc r f hp o1 o2 o3 hy
      exact ih { C with recent := renew C.recent y.2.st.model } B' y.1 y.2 hB hc'
        ⟨r.varIds, r.conIds, r.terms, r.enabled, r.sense, r.names, r.vars, r.pairs⟩ f' hp' (o4 y hy)

/-- The searches of a call that take their moves from the neighbourhood take legal ones. -/
theorem plan_legal {e : ℚ} {name : ℕ → String} {o : Opt} {pl : Plan} (g : Ground cfg m0) (he : Err m0 e)
    (hcon : C74.Constrained m0) (ft : C74.Fits C cfg m0) (hob : Obeys C name cfg o m0 pl) : PlanLegal name cfg o m0 pl := by
  obtain ⟨o1, o2⟩ := hob
  have r : Rooted C m0 := ⟨ft.varIds, ft.conIds, ft.terms, ft.enabled, ft.sense, ft.names, ft.vars, ft.pairs⟩
  have f0 : Fresh C.recent m0 := by
    refine ⟨fun v _ hf => ?_, fun v hv hs => ?_, fun v hv hs => ?_⟩
    · rw [ft.recent, ft.fixed]; exact hf
    · rw [ft.recent, ft.sense] at hs
      rcases (g.sort v hv).2 with k | k
      · exact k.2
      · rw [hs] at k; exact absurd k (by decide)
    · rw [ft.recent, ft.sense] at hs
      rcases (g.sort v hv).2 with k | k
      · rw [hs] at k; exact absurd k.1 (by decide)
      · rw [hs] at k; exact absurd k (by decide)
  have s0 := C66.stat_refl m0
  refine ⟨o1, fun p hp => ?_⟩
  have hlag : ∀ b, (if applicable m0 then pl.lagrange else none) = some b → OnlyRelaxes b := fun b hb => by
    split at hb
    · exact o1 b hb
    · exact absurd hb (by simp)
  have a1 : Held m0 m0 e p.2 := Held.optional g he _ _ _ (Held.begin g) (fun b hb _ ev hev => by
    obtain ⟨low, rfl⟩ := hlag b hb ev hev
    trivial) p hp
  obtain ⟨l1, g1, -, st1⟩ := a1.stat
  have f1 : Fresh C.recent p.2.st.model := f0.stat s0 st1
  have p1 : PastFlips m0 (pastOf p.2.done) := by
    have : pastOf p.2.done = [] := by
      cases hb : (if applicable m0 then pl.lagrange else none) with
      | none => rw [hb] at hp; obtain rfl := Option.some.inj hp; rfl
      | some b =>
        rw [hb] at hp
        have hp : phase name cfg (firstSolution name m0) b ⟨Search.begin m0, []⟩ = some p := hp
        unfold phase at hp
        obtain ⟨⟨d, s⟩, h1, hp⟩ := Option.bind_eq_some_iff.1 hp
        obtain ⟨s', h2, hp⟩ := Option.bind_eq_some_iff.1 hp
        obtain ⟨d', -, rfl⟩ := Option.map_eq_some_iff.1 hp
        show pastOf ([] ++ (.start d :: b)) = []
        rw [pastOf_append, List.foldl_cons]
        exact pastOf_relaxes b (hlag b hb) _
    rw [this]
    intro mv hm; exact absurd hm (by simp)
  obtain ⟨o3, o4⟩ := o2 p hp
  have hls : ∀ b, pl.localSearch = some b → (startFrom name cfg p.1 p.2.st).isSome = true → ∀ ev ∈ b, C66.LegalEvent cfg m0 ev := by
    intro b hb hs ev hev
    obtain ⟨⟨d, s⟩, h1⟩ := Option.isSome_iff_exists.1 hs
    exact (a1.obeys g he hcon r f1 p1 (o3 b hb).1 (o3 b hb).2 h1).1 ev hev
  refine ⟨fun b hb => ⟨(o3 b hb).1, hls b hb⟩, fun q hq => ?_⟩
  have a2 : Held m0 m0 e q.2 := Held.optional g he _ _ _ a1 hls q hq
  obtain ⟨l2, g2, -, st2⟩ := a2.stat
  refine laps_legal g he hcon pl.laps C m0 _ q.2 a2 (fun hf => absurd hf (by simp)) r (f1.stat st1 st2) ?_ (o4 q hq)
  cases hb : pl.localSearch with
  | none => rw [hb] at hq; obtain rfl := Option.some.inj hq; exact p1
  | some b =>
    rw [hb] at hq
    have hq : phase name cfg p.1 b p.2 = some q := hq
    unfold phase at hq
    obtain ⟨⟨d, s⟩, h1, hq⟩ := Option.bind_eq_some_iff.1 hq
    obtain ⟨s', h2, hq⟩ := Option.bind_eq_some_iff.1 hq
    obtain ⟨d', -, rfl⟩ := Option.map_eq_some_iff.1 hq
    exact (a1.obeys g he hcon r f1 p1 (o3 b hb).1 (o3 b hb).2 h1).2

end Printemps.Ctl
