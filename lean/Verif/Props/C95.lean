import Verif.Lemmas.SearchTree
import Verif.Props.C12
import Verif.Props.C62
import Verif.Props.C84

/-! # C95: the frontier and the locally optimal solutions shown are those of a shortest tree of the solutions found

The specification of the tree is in Spec/SearchTree.lean. -/

namespace Printemps.C95
open Printemps.Tree Report Spec Sol C62

set_option linter.unusedSectionVars false

section
variable {V : Type} [DecidableEq V]

/-! ## The archive -/

theorem uniq_keeps (l : List (ArchSol V)) (k : V) (h : (k :: l.map (·.vars)).Nodup) : uniqFrom k l = l := by
  induction l generalizing k with
  | nil => rfl
  | cons a l ih =>
    rw [List.map_cons] at h
    have h1 : k ≠ a.vars := fun hc => (List.nodup_cons.1 h).1 (by simp [hc])
    rw [uniqFrom, if_neg h1, ih _ (List.nodup_cons.1 h).2]

theorem push_keeps (A B : List (ArchSol V)) (h : ((A ++ B).map (·.vars)).Nodup) : archPush .off (-1) A B = A ++ B := by
  unfold archPush archCut archSort
  simp only [show ¬ ((-1 : ℤ) > 0 ∧ ((uniqAdj (A ++ B)).length : ℤ) > -1) by omega, if_false]
  generalize A ++ B = l at h
  cases l with
  | nil => rfl
  | cons a l => rw [uniqAdj, uniq_keeps l _ (by simpa using h)]

/-! ## What a search stores -/

theorem slot_better {α : Type} (key : Score → Option ℚ) (s0 : C84.Slot α) (h0 : s0.last = -1) (hu : s0.updated = false)
    (o : ℚ) (ho : s0.obj = some o) (l : List (ℤ × Visit α)) :
    (l.foldl (C84.Slot.step key) s0).updated = true → ∃ x, (l.foldl (C84.Slot.step key) s0).obj = some x ∧ x < o := by
  induction l using List.reverseRecOn with
  | nil => intro h; rw [List.foldl_nil, hu] at h; exact absurd h (by decide)
  | append_singleton l v ih =>
    have ht := (C84.slot_truth key s0 h0 hu l).1
    rw [List.foldl_append, List.foldl_cons, List.foldl_nil]
    generalize l.foldl (C84.Slot.step key) s0 = s at ih ht
    unfold C84.Slot.step
    cases key v.2.score with
    | none => exact ih
    | some x =>
      dsimp only
      by_cases hb : beats x s.obj = true
      · rw [if_pos hb]
        intro _
        refine ⟨x, rfl, ?_⟩
        rw [C84.beats_iff] at hb
        have he : (0 : ℚ) ≤ EPSILON := by norm_num [EPSILON]
        cases hs : s.updated with
        | true =>
          obtain ⟨y, hy, hlt⟩ := ih hs
          have := hb y hy
          linarith
        | false =>
          have := hb o ((ht.unchanged hs).2.1.trans ho)
          linarith
      · rw [if_neg hb]; exact ih

/-- A search that stores a solution stores one that is better than everything known before. -/
theorem stored_is_better {α : Type} (log : ℤ) (h : Holder α) (s : Search α) (o : ℚ)
    (ho : (h.resetLocal.tryUpdate s.start s.startScore).1.globalObj = some o) (hb : bit 2 (tally log h s).total = true) :
    ∃ x, (tally log h s).holder.globalObj = some x ∧ x < o := by
  have e := C84.tally_core log h s
  have g : C84.globalSlot (tally log h s) =
      C84.globalSlot ((visits s).foldl (C84.stepAt log) (begin_ h s.start s.startScore)) := by
    show C84.globalSlot (C84.core _) = C84.globalSlot (C84.core _)
    rw [e]
  rw [C84.fold_slot log C84.globalSlot C84.globalKey (C84.globalSlot_step log)] at g
  have := slot_better C84.globalKey (C84.globalSlot (begin_ h s.start s.startScore)) rfl
    (by simp [C84.globalSlot, begin_, bit]) o ho (visits s)
  rw [← g] at this
  exact this hb

/-! ## Histories -/

/-- The lists are those of a shortest tree of the archived solutions; distances are to the last one archived. -/
def Shown (dist : V → V → ℤ) (g : ℚ) (r : Record V) : Prop :=
  ∃ T last, r.archive.getLast? = some last ∧ ShortestTree r.archive.length (between dist r.archive) T ∧
    r.tree.frontier = (pointsWith (Leaf T) r.archive.length).filterMap (entry dist r.archive last) ∧
    r.tree.optimal = (pointsWith (Lowest (height g r.archive) T) r.archive.length).filterMap (entry dist r.archive last)

/-- What is kept of the initial solution and the incumbents stored: everything until a feasible one is stored; then the initial
solution only if it is feasible, and the incumbents from the first feasible one on. -/
def kept (initial : ArchSol V) (pushed : List (ArchSol V)) : List (ArchSol V) :=
  if pushed.any (·.feasible) then [initial].filter (·.feasible) ++ pushed.dropWhile (fun s => !s.feasible) else initial :: pushed

theorem kept_snoc (initial : ArchSol V) (pushed : List (ArchSol V)) (y : ArchSol V) :
    kept initial (pushed ++ [y]) =
      if (!pushed.any (·.feasible) && y.feasible) = true then archRemoveInfeasible (kept initial pushed ++ [y])
      else kept initial pushed ++ [y] := by
  have hdrop : ∀ (l : List (ArchSol V)), l.any (·.feasible) = true →
      (l ++ [y]).dropWhile (fun s => !s.feasible) = l.dropWhile (fun s => !s.feasible) ++ [y] := by
    intro l
    induction l with
    | nil => intro h; exact absurd h (by simp)
    | cons a l ih =>
      intro h
      rw [List.cons_append, List.dropWhile_cons, List.dropWhile_cons]
      cases ha : a.feasible with
      | true => simp
      | false =>
        simp only [Bool.not_false, if_true]
        apply ih
        simpa [ha] using h
  have hno : ∀ (l : List (ArchSol V)), l.any (·.feasible) = false →
      (l ++ [y]).dropWhile (fun s => !s.feasible) = [y].dropWhile (fun s => !s.feasible) ∧ l.filter (·.feasible) = [] := by
    intro l
    induction l with
    | nil => intro _; exact ⟨rfl, rfl⟩
    | cons a l ih =>
      intro h
      simp only [List.any_cons, Bool.or_eq_false_iff] at h
      obtain ⟨i1, i2⟩ := ih h.2
      rw [List.cons_append, List.dropWhile_cons, List.filter_cons, h.1]
      exact ⟨by simpa using i1, by simpa using i2⟩
  unfold kept
  cases hp : pushed.any (·.feasible) with
  | true =>
    simp only [List.any_append, hp, Bool.true_or, if_true, Bool.not_true, Bool.false_and, Bool.false_eq_true, if_false,
      hdrop pushed hp, List.append_assoc]
  | false =>
    obtain ⟨h1, h2⟩ := hno pushed hp
    cases hy : y.feasible with
    | true =>
      simp only [List.any_append, hp, hy, List.any_cons, List.any_nil, Bool.or_false, Bool.false_or, if_true, Bool.not_false,
        Bool.and_self, Bool.false_eq_true, if_false, h1]
      unfold archRemoveInfeasible
      cases hi : initial.feasible <;> simp [hi, hy, h2]
    | false =>
      simp [hp, hy]

/-- The invariant: `f` is the value the holder compares; `pushed` are the incumbents stored so far. -/
structure Sound (dist : V → V → ℤ) (f : V → ℚ) (P : ArchSol V → Prop) (initial : ArchSol V) (pushed : List (ArchSol V))
    (h : Holder (ArchSol V)) (r : Record V) : Prop where
  content : r.archive = kept initial pushed
  has : r.has = pushed.any (·.feasible)
  known : ∃ o, h.globalObj = some o ∧ ∀ s ∈ r.archive, o ≤ f s.vars
  some_ : h.globalSol.isSome = true
  falling : r.archive.Pairwise (fun a b => f b.vars < f a.vars)
  fine : ∀ s ∈ r.archive, P s
  graph : ∃ n, Complete dist r.archive n r.tree.tree

/-- What is required of a solution that is offered with a score. -/
def Fits (f : V → ℚ) (P : ArchSol V → Prop) (s : ArchSol V) (sc : Score) : Prop := P s ∧ sc.globalAug = f s.vars

/-- The same for all solutions of a search. -/
def SearchFits (f : V → ℚ) (P : ArchSol V → Prop) (s : Search (ArchSol V)) : Prop :=
  Fits f P s.start s.startScore ∧ ∀ v ∈ visits s, Fits f P v.2.sol v.2.score

theorem between_symm {dist : V → V → ℤ} {P : ArchSol V → Prop} (hd : ∀ a b, P a → P b → dist a.vars b.vars = dist b.vars a.vars)
    (l : List (ArchSol V)) (hP : ∀ s ∈ l, P s) (i j : ℕ) (hi : i < l.length) (hj : j < l.length) :
    between dist l i j = between dist l j i := by
  rw [between_eq _ _ _ _ hi hj, between_eq _ _ _ _ hj hi]
  exact hd _ _ (hP _ (List.getElem_mem _)) (hP _ (List.getElem_mem _))

theorem search_step {dist : V → V → ℤ} {f : V → ℚ} {P : ArchSol V → Prop} (g : ℚ) (log : ℤ)
    (hd : ∀ a b, P a → P b → dist a.vars b.vars = dist b.vars a.vars)
    {initial : ArchSol V} {pushed : List (ArchSol V)} {h : Holder (ArchSol V)} {r : Record V}
    (hs : Sound dist f P initial pushed h r) (s : Search (ArchSol V)) (hf : SearchFits f P s) :
    ∃ h' r', Record.search dist g log s (h, r) = some (h', r') ∧ h' = (tally log h s).holder ∧
      Sound dist f P initial (pushed ++ incumbentSolutions (tally log h s)) h' r' ∧
      ((r' = r ∧ incumbentSolutions (tally log h s) = []) ∨ (Shown dist g r' ∧ h'.globalSol = r'.archive.getLast?)) := by
  obtain ⟨o, ho, hle⟩ := hs.known
  obtain ⟨o1, ho1, hle1⟩ : ∃ o1, (h.resetLocal.tryUpdate s.start s.startScore).1.globalObj = some o1 ∧ o1 ≤ o := by
    unfold Holder.tryUpdate Holder.resetLocal
    dsimp only
    by_cases hb : beats s.startScore.globalAug h.globalObj = true
    · rw [if_pos hb]
      refine ⟨_, rfl, ?_⟩
      rw [C84.beats_iff] at hb
      have := hb o ho
      have he : (0 : ℚ) ≤ EPSILON := by norm_num [EPSILON]
      linarith
    · rw [if_neg hb]; exact ⟨o, ho, le_rfl⟩
  have hsol1 : (h.resetLocal.tryUpdate s.start s.startScore).1.globalSol.isSome = true := by
    unfold Holder.tryUpdate Holder.resetLocal
    dsimp only
    by_cases hb : beats s.startScore.globalAug h.globalObj = true
    · rw [if_pos hb]; rfl
    · rw [if_neg hb]; exact hs.some_
  obtain ⟨tg, -, -⟩ := C84.updates_are_reported_truly log h s
  unfold Record.search
  dsimp only
  cases hb : bit 2 (tally log h s).total with
  | false =>
    obtain ⟨-, e1, e2⟩ := tg.unchanged hb
    rw [← e2] at hsol1
    obtain ⟨x, hx⟩ := Option.isSome_iff_exists.1 hsol1
    have hinc : incumbentSolutions (tally log h s) = [] := by
      unfold incumbentSolutions; rw [hb]; rfl
    rw [hx, hinc]
    refine ⟨(tally log h s).holder, r, rfl, rfl, ⟨by rw [List.append_nil]; exact hs.content,
      by rw [List.append_nil]; exact hs.has, ⟨o1, e1.trans ho1, fun t ht => hle1.trans (hle t ht)⟩, ?_, hs.falling, hs.fine,
      hs.graph⟩, Or.inl ⟨rfl, rfl⟩⟩
    rw [hx]; rfl
  | true =>
    obtain ⟨pre, v, post, x, hv, hk, -, hobj, hsol, -⟩ := tg.changed hb
    obtain ⟨x', hx', hlt⟩ := stored_is_better log h s o1 ho1 hb
    have hxx : x' = x := Option.some.inj (hx'.symm.trans hobj)
    rw [hxx] at hlt
    have hvm : v ∈ visits s := by rw [hv]; simp
    obtain ⟨hPx, hfx⟩ := hf.2 v hvm
    have hxv : f v.2.sol.vars = x := by
      have : some v.2.score.globalAug = some x := hk
      rw [← hfx]; exact Option.some.inj this
    have hinc : incumbentSolutions (tally log h s) = [v.2.sol] := by
      unfold incumbentSolutions; rw [hb, hsol]; rfl
    rw [hsol, hinc]
    dsimp only
    generalize v.2.sol = y at hPx hfx hxv hinc hsol
    have hbelow : ∀ t ∈ r.archive, f y.vars < f t.vars := fun t ht => by
      have := hle t ht
      rw [hxv]; linarith
    have hfall : (r.archive ++ [y]).Pairwise (fun a b => f b.vars < f a.vars) := by
      rw [List.pairwise_append]
      exact ⟨hs.falling, by simp, fun a ha b hb' => by rw [List.mem_singleton] at hb'; subst hb'; exact hbelow a ha⟩
    have hnd : ((r.archive ++ [y]).map (·.vars)).Nodup := by
      rw [List.Nodup, List.pairwise_map]
      exact hfall.imp fun hab hc => by rw [hc] at hab; exact lt_irrefl _ hab
    have hpush := push_keeps r.archive [y] hnd
    unfold Record.update
    rw [hpush]
    dsimp only [List.isEmpty_cons]
    simp only [Bool.false_eq_true, if_false, List.any_cons, List.any_nil, Bool.or_false]
    have hPall : ∀ t ∈ r.archive ++ [y], P t := by
      intro t ht
      rcases List.mem_append.1 ht with ht | ht
      · exact hs.fine t ht
      · rw [List.mem_singleton] at ht; rw [ht]; exact hPx
    -- the archive and the graph that are used
    have hkept : kept initial (pushed ++ [y]) = if (!r.has && y.feasible) = true then
        archRemoveInfeasible (r.archive ++ [y]) else r.archive ++ [y] := by
      rw [kept_snoc, hs.content, hs.has]
    obtain ⟨arch, tree, ha, htr, hsub, hlast, n, hcomp⟩ : ∃ (arch : List (ArchSol V)) (tree : State V),
        (if (!r.has && y.feasible) = true then archRemoveInfeasible (r.archive ++ [y]) else r.archive ++ [y]) = arch ∧
        (if (!r.has && y.feasible) = true then ({} : State V) else r.tree) = tree ∧
        arch.Sublist (r.archive ++ [y]) ∧ arch.getLast? = some y ∧ ∃ n, Complete dist arch n tree.tree := by
      by_cases hc : (!r.has && y.feasible) = true
      · rw [if_pos hc, if_pos hc]
        have hfe : y.feasible = true := by
          rw [Bool.and_eq_true] at hc; exact hc.2
        refine ⟨_, _, rfl, rfl, List.filter_sublist, ?_, 0, complete_empty _ _⟩
        unfold archRemoveInfeasible
        rw [List.filter_append, List.filter_cons, if_pos hfe]
        simp
      · rw [if_neg hc, if_neg hc]
        obtain ⟨n, hn⟩ := hs.graph
        exact ⟨_, _, rfl, rfl, List.Sublist.refl _, by simp, n, hn.append [y]⟩
    rw [ha] at hkept
    rw [ha, htr]
    have hPa : ∀ t ∈ arch, P t := fun t ht => hPall t (hsub.subset ht)
    obtain ⟨st, T, hup, hcmp, hT, hfr, hop⟩ := update_shows (g := g) (inc := y) hcomp (between_symm hd arch hPa)
    rw [hup]
    refine ⟨(tally log h s).holder, ⟨arch, r.has || y.feasible, st⟩, rfl, rfl, ⟨hkept.symm, by simp [hs.has], ⟨x, hobj, ?_⟩,
      by rw [hsol]; rfl, hfall.sublist hsub, hPa, _, hcmp⟩, Or.inr ⟨⟨T, y, hlast, hT, hfr, hop⟩, by rw [hsol, hlast]⟩⟩
    · intro t ht
      rcases List.mem_append.1 (hsub.subset ht) with ht | ht
      · have := hbelow t ht
        linarith
      · rw [List.mem_singleton] at ht; rw [ht, hxv]

/-- The incumbents stored by the searches of a call. -/
def stored (log : ℤ) : Holder (ArchSol V) → List (Search (ArchSol V)) → List (ArchSol V)
  | _, [] => []
  | h, s :: ss => incumbentSolutions (tally log h s) ++ stored log (tally log h s).holder ss

theorem searches_shown {dist : V → V → ℤ} {f : V → ℚ} {P : ArchSol V → Prop} (g : ℚ) (log : ℤ)
    (hd : ∀ a b, P a → P b → dist a.vars b.vars = dist b.vars a.vars) (initial : ArchSol V) (ss : List (Search (ArchSol V))) :
    ∀ (pushed : List (ArchSol V)) (h : Holder (ArchSol V)) (r : Record V), Sound dist f P initial pushed h r →
      (∀ s ∈ ss, SearchFits f P s) → (pushed = [] ∧ r = Record.start initial ∨ Shown dist g r) →
      ∃ h' r', Record.searches dist g log ss (h, r) = some (h', r') ∧ Sound dist f P initial (pushed ++ stored log h ss) h' r' ∧
        (pushed ++ stored log h ss = [] ∧ r' = Record.start initial ∨ Shown dist g r') := by
  induction ss with
  | nil =>
    intro pushed h r hs _ hsh
    exact ⟨h, r, rfl, by simpa [stored] using hs, by simpa [stored] using hsh⟩
  | cons s ss ih =>
    intro pushed h r hs hf hsh
    obtain ⟨h', r', e, eh, hs', hc⟩ := search_step g log hd hs s (hf s List.mem_cons_self)
    have hsh' : (pushed ++ incumbentSolutions (tally log h s) = [] ∧ r' = Record.start initial) ∨ Shown dist g r' := by
      rcases hc with ⟨rfl, h0⟩ | ⟨hc, -⟩
      · rcases hsh with ⟨h1, h2⟩ | hsh
        · exact Or.inl ⟨by rw [h0, h1]; rfl, h2⟩
        · exact Or.inr hsh
      · exact Or.inr hc
    obtain ⟨h'', r'', e2, hs2, hc2⟩ := ih _ h' r' hs' (fun t ht => hf t (List.mem_cons_of_mem _ ht)) hsh'
    refine ⟨h'', r'', ?_, ?_, ?_⟩
    · rw [Record.searches, e]; exact e2
    · rw [stored, ← List.append_assoc, ← eh]; exact hs2
    · rw [stored, ← List.append_assoc, ← eh]; exact hc2

theorem start_sound {dist : V → V → ℤ} {f : V → ℚ} {P : ArchSol V → Prop} (initial : ArchSol V) (sc : Score)
    (hf : Fits f P initial sc) :
    Sound dist f P initial [] ((Holder.init : Holder (ArchSol V)).tryUpdate initial sc).1 (Record.start initial) := by
  have ha : (Record.start initial).archive = [initial] := rfl
  refine ⟨rfl, rfl, ⟨sc.globalAug, rfl, ?_⟩, rfl, ?_, ?_, 0, complete_empty _ _⟩
  · intro s hs
    rw [ha, List.mem_singleton] at hs
    rw [hs, hf.2]
  · rw [ha]; simp
  · intro s hs
    rw [ha, List.mem_singleton] at hs
    rw [hs]; exact hf.1

end

/-! ## Solutions of a problem -/

/-- A solution as stored: the variables that are not 0 by name. -/
abbrev Sol_ := ArchSol (StrMap ℤ)

/-- The value of a variable. -/
def valueIn (name : ℕ → String) (s : Sol_) (v : ℕ) : ℤ := (s.vars.get (name v)).getD 0

/-- The number of variables in which two of the solutions differ. -/
def apart (name : ℕ → String) (vs : List ℕ) (sols : List Sol_) (i j : ℕ) : ℤ :=
  match sols[i]?, sols[j]? with
  | some a, some b => differing vs (valueIn name a) (valueIn name b)
  | _, _ => 0

/-- Objective plus penalty of one of the solutions, as stored. -/
def storedHeight (g : ℚ) (sols : List Sol_) (i : ℕ) : ℚ :=
  match sols[i]? with | some s => s.objective + g * s.violation | none => 0

/-- What is listed: the solutions at these positions, each with the number of variables in which it differs from `last`. -/
def listed (name : ℕ → String) (vs : List ℕ) (sols : List Sol_) (last : Sol_) (points : List ℕ) : List (Sol_ × ℤ) :=
  points.filterMap fun i => (sols[i]?).map fun s => (s, differing vs (valueIn name s) (valueIn name last))

/-- The problem: names of the variables, objective and violation as functions of the values, the penalty coefficient, and 1 or -1
for minimization or maximization. -/
structure Problem where
  name : ℕ → String
  vs : List ℕ
  nodup : vs.Nodup
  distinct : ∀ v ∈ vs, ∀ w ∈ vs, name v = name w → v = w
  objective : StrMap ℤ → ℚ
  violation : StrMap ℤ → ℚ
  penalty : ℚ
  sense : ℚ

/-- What the searches compare. -/
def Problem.augmented (p : Problem) (m : StrMap ℤ) : ℚ := p.sense * p.objective m + p.penalty * p.violation m

/-- The solution gives values to the variables of the problem, with their objective and violation. -/
structure Problem.Solution (p : Problem) (s : Sol_) : Prop where
  values : ∃ σ : ℕ → ℤ, s.vars = sparseVars p.name σ p.vs
  objective : s.objective = p.objective s.vars
  violation : s.violation = p.violation s.vars

/-- The searches start from and visit solutions of the problem, with their scores. -/
def Problem.Searched (p : Problem) (initial : Sol_) (sc : Score) (ss : List (Search Sol_)) : Prop :=
  Fits p.augmented p.Solution initial sc ∧ ∀ s ∈ ss, SearchFits p.augmented p.Solution s

theorem distance_counts (p : Problem) (a b : Sol_) (ha : p.Solution a) (hb : p.Solution b) :
    distanceL0 a.vars b.vars = differing p.vs (valueIn p.name a) (valueIn p.name b) := by
  obtain ⟨σ, hσ⟩ := ha.values
  obtain ⟨τ, hτ⟩ := hb.values
  have hv : ∀ (s : Sol_) (ρ : ℕ → ℤ), s.vars = sparseVars p.name ρ p.vs → ∀ v ∈ p.vs, valueIn p.name s v = ρ v := by
    intro s ρ hs v hv
    unfold valueIn
    rw [hs, (sparseVars_get p.name ρ p.vs p.distinct).1 v hv]
    by_cases h : ρ v = 0
    · simp [h]
    · simp [h]
  have := (sparse_distance p.name p.vs p.nodup p.distinct ⟨σ, 0, 0, 0, false⟩ ⟨τ, 0, 0, 0, false⟩).1
  unfold Dense.toSparse at this
  dsimp only at this
  rw [hσ, hτ, this]
  unfold differing
  congr 2
  refine List.filter_congr fun v hvm => ?_
  rw [hv a σ hσ v hvm, hv b τ hτ v hvm]

theorem distance_symm (p : Problem) (a b : Sol_) (ha : p.Solution a) (hb : p.Solution b) :
    distanceL0 a.vars b.vars = distanceL0 b.vars a.vars := by
  rw [distance_counts p a b ha hb, distance_counts p b a hb ha, differing_comm]

theorem shortest_congr {n : ℕ} {d d' : ℕ → ℕ → ℤ} {T : List (ℕ × ℕ)} (h : ∀ i j, i < n → j < n → d i j = d' i j)
    (hT : ShortestTree n d T) : ShortestTree n d' T := by
  have e : ∀ T', SpanningTree n T' → treeLength d T' = treeLength d' T' := by
    intro T' h'
    unfold treeLength
    congr 1
    exact List.map_congr_left fun x hx => h _ _ (h'.inside x hx).1 (h'.inside x hx).2
  refine ⟨hT.toSpanningTree, fun T' hT' => ?_⟩
  rw [← e T hT.toSpanningTree, ← e T' hT']
  exact hT.shortest T' hT'

/-- What is shown: `archive` are the solutions kept; the frontier solutions are the ends of a shortest tree that joins them
(distance: the number of variables in which two solutions differ), the locally optimal solutions those that are not worse, as
stored, than any solution they are joined to in the same tree; beside each its distance to the last solution kept. -/
structure Displays (p : Problem) (archive : List Sol_) (frontier optimal : List (Sol_ × ℤ)) (T : List (ℕ × ℕ)) (last : Sol_) :
    Prop where
  last_ : archive.getLast? = some last
  tree : ShortestTree archive.length (apart p.name p.vs archive) T
  frontier_ : frontier = listed p.name p.vs archive last (pointsWith (Leaf T) archive.length)
  optimal_ : optimal = listed p.name p.vs archive last (pointsWith (Lowest (storedHeight p.penalty archive) T) archive.length)

/-- After any searches: no index is out of range; the archive holds the initial solution and the incumbents stored, without the
infeasible ones found before the first feasible one; each is strictly better than the one before; and once an incumbent is stored,
the lists shown are those of a shortest tree of the archive. -/
theorem lists_are_those_of_a_shortest_tree (p : Problem) (log : ℤ) (initial : Sol_) (sc : Score) (ss : List (Search Sol_))
    (h : p.Searched initial sc ss) :
    ∃ holder r, record distanceL0 p.penalty log initial sc ss = some (holder, r) ∧
      r.archive = kept initial (stored log ((Holder.init : Holder Sol_).tryUpdate initial sc).1 ss) ∧
      r.archive.Pairwise (fun a b => p.augmented b.vars < p.augmented a.vars) ∧
      (stored log ((Holder.init : Holder Sol_).tryUpdate initial sc).1 ss = [] ∧ r.tree.frontier = [] ∧ r.tree.optimal = [] ∨
        ∃ T last, Displays p r.archive r.tree.frontier r.tree.optimal T last) := by
  obtain ⟨holder, r, e, hs, hc⟩ := searches_shown (dist := distanceL0) (f := p.augmented) (P := p.Solution) p.penalty log
    (distance_symm p) initial ss [] _ (Record.start initial) (start_sound initial sc h.1) h.2 (Or.inl ⟨rfl, rfl⟩)
  rw [List.nil_append] at hs hc
  refine ⟨holder, r, e, hs.content, hs.falling, ?_⟩
  rcases hc with ⟨h1, h2⟩ | ⟨T, last, hl, hT, hf, ho⟩
  · exact Or.inl ⟨h1, by rw [h2]; rfl, by rw [h2]; rfl⟩
  · have hlm : p.Solution last := hs.fine _ (List.mem_of_getLast? hl)
    have hent : ∀ (l : List ℕ), l.filterMap (entry distanceL0 r.archive last) = listed p.name p.vs r.archive last l := by
      intro l
      unfold listed
      congr 1
      funext i
      unfold entry
      cases hi : r.archive[i]? with
      | none => rfl
      | some s =>
        have hsm : p.Solution s := hs.fine _ (List.mem_of_getElem? hi)
        simp only [Option.map_some]
        rw [distance_counts p s last hsm hlm]
    have hheight : height p.penalty r.archive = storedHeight p.penalty r.archive := by
      funext i
      unfold height storedHeight
      cases r.archive[i]? <;> rfl
    refine Or.inr ⟨T, last, hl, shortest_congr (fun i j hi hj => ?_) hT, by rw [hf, hent], by rw [ho, hent, hheight]⟩
    rw [between_eq _ _ _ _ hi hj, distance_counts p _ _ (hs.fine _ (List.getElem_mem _)) (hs.fine _ (List.getElem_mem _))]
    unfold apart
    rw [List.getElem?_eq_getElem hi, List.getElem?_eq_getElem hj]

/-! ## The best solution found in the list of locally optimal ones -/

theorem last_at {l : List Sol_} {x : Sol_} (h : l.getLast? = some x) :
    ∃ hn : l.length - 1 < l.length, l[l.length - 1] = x := by
  rw [List.getLast?_eq_getElem?] at h
  exact List.getElem?_eq_some_iff.1 h

theorem falls {p : Problem} {l : List Sol_} (hp : l.Pairwise (fun a b => p.augmented b.vars < p.augmented a.vars))
    (j : ℕ) (hj : j < l.length - 1) (hn : l.length - 1 < l.length) :
    p.augmented l[l.length - 1].vars < p.augmented (l[j]'(by omega)).vars :=
  List.pairwise_iff_getElem.1 hp j (l.length - 1) (by omega) hn hj

theorem storedHeight_eq (g : ℚ) (l : List Sol_) (i : ℕ) (hi : i < l.length) :
    storedHeight g l i = l[i].objective + g * l[i].violation := by
  unfold storedHeight
  rw [List.getElem?_eq_getElem hi]

theorem mem_pointsWith (P : ℕ → Prop) (n i : ℕ) : i ∈ pointsWith P n ↔ i < n ∧ P i := by
  classical
  unfold pointsWith
  rw [List.mem_filter, List.mem_range]
  simp only [decide_eq_true_eq]

theorem joined_inside {n : ℕ} {T : List (ℕ × ℕ)} (hT : SpanningTree n T) (i j : ℕ) (h : Joined T i j) : j < n := by
  rcases h with h | h
  · exact (hT.inside _ h).2
  · exact (hT.inside _ h).1

/-- In a minimization the best solution found is always listed as locally optimal, at distance 0. -/
theorem best_solution_is_listed_when_minimizing_partial (p : Problem) (hmin : p.sense = 1) (log : ℤ) (initial : Sol_) (sc : Score)
    (ss : List (Search Sol_)) (h : p.Searched initial sc ss)
    (hst : stored log ((Holder.init : Holder Sol_).tryUpdate initial sc).1 ss ≠ []) :
    ∃ holder r x, record distanceL0 p.penalty log initial sc ss = some (holder, r) ∧ r.archive.getLast? = some x ∧
      (∀ s ∈ r.archive, p.augmented x.vars ≤ p.augmented s.vars) ∧ (x, 0) ∈ r.tree.optimal := by
  obtain ⟨holder, r, e, hs, hc⟩ := searches_shown (dist := distanceL0) (f := p.augmented) (P := p.Solution) p.penalty log
    (distance_symm p) initial ss [] _ (Record.start initial) (start_sound initial sc h.1) h.2 (Or.inl ⟨rfl, rfl⟩)
  obtain ⟨holder', r', e', -, hp, hd⟩ := lists_are_those_of_a_shortest_tree p log initial sc ss h
  have herr : (holder', r') = (holder, r) := Option.some.inj (e'.symm.trans e)
  obtain ⟨rfl, rfl⟩ := Prod.mk.inj herr
  rcases hd with ⟨hd, -, -⟩ | ⟨T, x, hd⟩
  · exact absurd hd hst
  obtain ⟨hn, hx⟩ := last_at hd.last_
  refine ⟨holder', r', x, e', hd.last_, ?_, ?_⟩
  · intro s hsm
    obtain ⟨j, hj, rfl⟩ := List.mem_iff_getElem.1 hsm
    rcases Nat.lt_or_ge j (r'.archive.length - 1) with hlt | hge
    · have := falls hp j hlt hn
      rw [hx] at this
      exact this.le
    · have : j = r'.archive.length - 1 := by omega
      subst this
      rw [hx]
  · rw [hd.optimal_]
    unfold listed
    rw [List.mem_filterMap]
    refine ⟨r'.archive.length - 1, ?_, ?_⟩
    · refine (mem_pointsWith _ _ _).2 ⟨hn, ?_⟩
      intro j hj
      have hjn := joined_inside hd.tree.toSpanningTree _ _ hj
      have aug_eq : ∀ i (hi : i < r'.archive.length), storedHeight p.penalty r'.archive i = p.augmented r'.archive[i].vars := by
        intro i hi
        have hsol := hs.fine _ (List.getElem_mem hi)
        rw [storedHeight_eq _ _ _ hi, hsol.objective, hsol.violation]
        unfold Problem.augmented
        rw [hmin]; ring
      rw [aug_eq _ hn, aug_eq _ hjn]
      rcases Nat.lt_or_ge j (r'.archive.length - 1) with hlt | hge
      · exact (falls hp j hlt hn).le
      · have : j = r'.archive.length - 1 := by omega
        subst this
        exact le_rfl
    · rw [List.getElem?_eq_getElem hn, hx, Option.map_some]
      unfold differing
      simp

/-- In a maximization whose solutions kept are all feasible, the best solution found is never listed as locally optimal once two
solutions are kept: the objective is stored without the sign of the sense. -/
theorem best_solution_is_missing_when_maximizing (p : Problem) (hmax : p.sense = -1) (log : ℤ) (initial : Sol_) (sc : Score)
    (ss : List (Search Sol_)) (h : p.Searched initial sc ss)
    (hst : stored log ((Holder.init : Holder Sol_).tryUpdate initial sc).1 ss ≠ []) :
    ∃ holder r x, record distanceL0 p.penalty log initial sc ss = some (holder, r) ∧ r.archive.getLast? = some x ∧
      (2 ≤ r.archive.length → (∀ s ∈ r.archive, s.violation = 0) → ∀ d, (x, d) ∉ r.tree.optimal) := by
  obtain ⟨holder, r, e, hs, hc⟩ := searches_shown (dist := distanceL0) (f := p.augmented) (P := p.Solution) p.penalty log
    (distance_symm p) initial ss [] _ (Record.start initial) (start_sound initial sc h.1) h.2 (Or.inl ⟨rfl, rfl⟩)
  obtain ⟨holder', r', e', -, hp, hd⟩ := lists_are_those_of_a_shortest_tree p log initial sc ss h
  have herr : (holder', r') = (holder, r) := Option.some.inj (e'.symm.trans e)
  obtain ⟨rfl, rfl⟩ := Prod.mk.inj herr
  rcases hd with ⟨hd, -, -⟩ | ⟨T, x, hd⟩
  · exact absurd hd hst
  obtain ⟨hn, hx⟩ := last_at hd.last_
  refine ⟨holder', r', x, e', hd.last_, fun h2 hv d hmem => ?_⟩
  rw [hd.optimal_] at hmem
  unfold listed at hmem
  obtain ⟨i, hi, hix⟩ := List.mem_filterMap.1 hmem
  obtain ⟨hin, hlow⟩ := (mem_pointsWith _ _ _).1 hi
  rw [List.getElem?_eq_getElem hin, Option.map_some] at hix
  have hxi : r'.archive[i] = x := congrArg Prod.fst (Option.some.inj hix)
  -- the solutions differ, so this is the last position
  have hi' : i = r'.archive.length - 1 := by
    rcases Nat.lt_or_ge i (r'.archive.length - 1) with hlt | hge
    · have := falls hp i hlt hn
      rw [hx, hxi] at this
      exact absurd this (lt_irrefl _)
    · omega
  -- it is joined to some other
  obtain ⟨j, hj⟩ : ∃ j, Joined T i j := by
    have hcn := (hd.tree.joins 0 i (by omega) hin)
    cases hcn with
    | refl => omega
    | step _ he => exact ⟨_, he.symm⟩
  have hjn := joined_inside hd.tree.toSpanningTree _ _ hj
  have hji : j ≠ i := by
    rintro rfl
    rcases hj with hj | hj <;> exact forest_no_loop hd.tree.acyclic _ hj rfl
  have hle := hlow j hj
  have hlt := falls hp j (by omega) hn
  have aug_eq : ∀ i (hi : i < r'.archive.length), storedHeight p.penalty r'.archive i = - p.augmented r'.archive[i].vars := by
    intro i hi
    have hsol := hs.fine _ (List.getElem_mem hi)
    have hv0 := hv _ (List.getElem_mem hi)
    rw [storedHeight_eq _ _ _ hi, hv0]
    unfold Problem.augmented
    rw [hmax, ← hsol.objective, ← hsol.violation, hv0]; ring
  rw [aug_eq _ hin, aug_eq _ hjn] at hle
  subst hi'
  linarith

/-! ## Concrete calls -/

namespace Sample

/-- Two variables `x`, `y`. -/
def name (v : ℕ) : String := if v = 0 then "x" else "y"

theorem distinct : ∀ v ∈ [0, 1], ∀ w ∈ [0, 1], name v = name w → v = w := by decide

/-- Values by name. -/
def at_ (m : StrMap ℤ) (k : String) : ℚ := ((m.get k).getD 0 : ℤ)

/-- Minimize `x + 2 y` subject to `x + y ≥ 1`, penalty 10. -/
def small : Problem :=
  { name := name, vs := [0, 1], nodup := by decide, distinct := distinct, objective := fun m => at_ m "x" + 2 * at_ m "y"
    violation := fun m => max 0 (1 - at_ m "x" - at_ m "y"), penalty := 10, sense := 1 }

/-- Maximize `x + 2 y`. -/
def large : Problem := { small with violation := fun _ => 0, sense := -1 }

/-- The solution with these values. -/
def sol (p : Problem) (x y : ℤ) : Sol_ :=
  let m := sparseVars p.name (fun v => if v = 0 then x else y) p.vs
  { vars := m, objective := p.objective m, violation := p.violation m, feasible := decide (p.violation m = 0) }

/-- Its score. -/
def score (p : Problem) (x y : ℤ) : Score :=
  { objective := p.sense * (sol p x y).objective, totalViolation := (sol p x y).violation,
    globalAug := p.sense * (sol p x y).objective + p.penalty * (sol p x y).violation, isFeasible := (sol p x y).feasible }

/-- A visit. -/
def visit_ (p : Problem) (x y : ℤ) : Visit Sol_ := ⟨sol p x y, score p x y, [true], [score p x y]⟩

/-- A search that starts from the first and visits the others. -/
def search (p : Problem) (x y : ℤ) (l : List (ℤ × ℤ)) : Search Sol_ :=
  ⟨sol p x y, score p x y, [], l.map (fun q => visit_ p q.1 q.2), false⟩

theorem fits (p : Problem) (x y : ℤ) : Fits p.augmented p.Solution (sol p x y) (score p x y) :=
  ⟨⟨⟨_, rfl⟩, rfl, rfl⟩, rfl⟩

theorem search_fits (p : Problem) (x y : ℤ) (l : List (ℤ × ℤ)) : SearchFits p.augmented p.Solution (search p x y l) := by
  refine ⟨fits p x y, fun v hv => ?_⟩
  unfold visits search at hv
  simp only [List.map_nil, List.nil_append, List.mem_map] at hv
  obtain ⟨a, ha, rfl⟩ := hv
  obtain ⟨-, -, ha⟩ := List.mem_zipIdx ha
  have : a.1 ∈ l.map (fun q => visit_ p q.1 q.2) := by rw [ha]; exact List.getElem_mem _
  obtain ⟨q, -, hq⟩ := List.mem_map.1 this
  simp only
  rw [← hq]
  exact fits p _ _

/-- Two searches of the minimization. -/
def runs : List (Search Sol_) := [search small 0 0 [(1, 1)], search small 1 1 [(0, 1), (1, 0)]]

/-- Two searches of the maximization. -/
def climbs : List (Search Sol_) := [search large 0 0 [(1, 0)], search large 1 0 [(0, 0), (1, 1)]]

end Sample

open Sample

/-- The hypotheses of `lists_are_those_of_a_shortest_tree` and `best_solution_is_listed_when_minimizing_partial`; the infeasible
start is dropped. -/
example : small.Searched (sol small 0 0) (score small 0 0) runs ∧ small.sense = 1 ∧
    kept (sol small 0 0) (stored 10 ((Holder.init : Holder Sol_).tryUpdate (sol small 0 0) (score small 0 0)).1 runs) =
      [sol small 1 1, sol small 1 0] ∧
    stored 10 ((Holder.init : Holder Sol_).tryUpdate (sol small 0 0) (score small 0 0)).1 runs ≠ [] := by
  refine ⟨⟨fits _ _ _, fun s hs => ?_⟩, rfl, by decide +kernel, by decide +kernel⟩
  simp only [runs, List.mem_cons, List.not_mem_nil, or_false] at hs
  rcases hs with rfl | rfl <;> exact search_fits _ _ _ _

theorem climbs_fit : large.Searched (sol large 0 0) (score large 0 0) climbs := by
  refine ⟨fits _ _ _, fun s hs => ?_⟩
  simp only [climbs, List.mem_cons, List.not_mem_nil, or_false] at hs
  rcases hs with rfl | rfl <;> exact search_fits _ _ _ _

/-- A maximization whose best solution is not listed as locally optimal. -/
theorem best_solution_may_be_missing : ∃ (p : Problem) (log : ℤ) (initial : Sol_) (sc : Score) (ss : List (Search Sol_)),
    p.Searched initial sc ss ∧ ∃ holder r x, record distanceL0 p.penalty log initial sc ss = some (holder, r) ∧
      r.archive.getLast? = some x ∧ (∀ s ∈ r.archive, s ≠ x → s.objective < x.objective) ∧ p.sense = -1 ∧
      (∀ s ∈ r.archive, s.feasible = true) ∧ ∀ d, (x, d) ∉ r.tree.optimal := by
  refine ⟨large, 10, sol large 0 0, score large 0 0, climbs, climbs_fit, ?_⟩
  have hk : kept (sol large 0 0) (stored 10 ((Holder.init : Holder Sol_).tryUpdate (sol large 0 0) (score large 0 0)).1 climbs) =
      [sol large 0 0, sol large 1 0, sol large 1 1] := by decide +kernel
  obtain ⟨holder, r, x, e, hl, hmiss⟩ := best_solution_is_missing_when_maximizing large rfl 10 (sol large 0 0) (score large 0 0)
    climbs climbs_fit (by decide +kernel)
  obtain ⟨holder', r', e', hc, -, -⟩ := lists_are_those_of_a_shortest_tree large 10 (sol large 0 0) (score large 0 0) climbs climbs_fit
  obtain ⟨rfl, rfl⟩ := Prod.mk.inj (Option.some.inj (e'.symm.trans e))
  rw [hk] at hc
  rw [hc] at hl hmiss
  have hx : x = sol large 1 1 := (Option.some.inj hl).symm
  refine ⟨holder', r', x, e', by rw [hc]; exact hl, ?_, rfl, ?_, hmiss (by simp) (by decide +kernel)⟩
  · rw [hc, hx]; decide +kernel
  · rw [hc]; decide +kernel

end Printemps.C95
