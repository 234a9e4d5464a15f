import Verif.Model.Trend
import Verif.Props.C97

/-! # C103 — the file `trend.txt`

A call makes the events `before` and then the passes `laps`; each pass is the list of its events. -/

namespace Printemps.C103
open Spec Search Sol Trend
open C66 (Setting LegalEvent visitOf Describes Inv next added)
open C97 (Known userObjective augmented)

/-! ## Specification -/

/-- The assignments met until the end of a list of events, the initial one included. -/
def met (m : MState) (es : List Event) : List (ℕ → ℤ) := (C66.all m es).map Prod.fst

/-- The events until the end of the pass `k`. -/
def eventsTo (before : List Event) (laps : List (List Event)) (k : ℕ) : List Event := before ++ (laps.take (k + 1)).flatten

/-- The pass changes coefficients (`first`), then starts its search from `d` and makes the events `rest`. -/
structure Pass (lap : List Event) (first : List Event) (d : Dense) (rest : List Event) : Prop where
  eq : lap = first ++ .start d :: rest
  one : ∀ e ∈ rest, ∀ d', e ≠ .start d'

/-- The assignments met since the events `done`. -/
def metSince (m : MState) (done es : List Event) : List (ℕ → ℤ) := (met m (done ++ es)).drop (met m done).length

/-- The full property of the row `k` (it fails for maximizations): it bears the number of the search; its global objective and
violation are those of an assignment met so far with the best augmented objective, its local ones those of an assignment
met in this search. -/
def ShowsTruth (m : MState) (before : List Event) (laps : List (List Event)) (k : ℕ) (r : Row) : Prop :=
  r.iteration = k ∧
  (∃ ρ ∈ met m (eventsTo before laps k), r.globalObjective = userObjective m ρ ∧ r.globalViolation = totalViolation m ρ ∧
    ∀ τ ∈ met m (eventsTo before laps k), augmented m ρ ≤ augmented m τ + 1e-5) ∧
  ∀ lap first d rest, laps[k]? = some lap → Pass lap first d rest →
    ∃ ρ ∈ metSince m (before ++ (laps.take k).flatten ++ first) (.start d :: rest),
      r.localObjective = userObjective m ρ ∧ r.localViolation = totalViolation m ρ

/-! ## Proof -/

theorem rows_length (cfg : Cfg) (laps : List (List Event)) : ∀ k s rs, rows cfg k laps s = some rs → rs.length = laps.length := by
  induction laps with
  | nil => intro k s rs h; obtain rfl := Option.some.inj h; rfl
  | cons lap laps ih =>
    intro k s rs h
    obtain ⟨s', -, h2⟩ := Option.bind_eq_some_iff.1 h
    obtain ⟨rs', h3, rfl⟩ := Option.map_eq_some_iff.1 h2
    simp [ih _ _ _ h3]

theorem run_two (cfg : Cfg) (a b : List Event) (s : St) : run cfg (a ++ b) s = (run cfg a s).bind (run cfg b) := by
  induction a generalizing s with
  | nil => rfl
  | cons e a ih =>
    simp only [List.cons_append, run, Option.bind_assoc]
    cases step cfg s e with
    | none => rfl
    | some s1 => exact ih s1

theorem rows_at (cfg : Cfg) (laps : List (List Event)) : ∀ n s rs, rows cfg n laps s = some rs → ∀ k r, rs[k]? = some r →
    ∃ s', run cfg (laps.take (k + 1)).flatten s = some s' ∧ r = row (n + k) s' := by
  induction laps with
  | nil => intro n s rs h k r hr; obtain rfl := Option.some.inj h; simp at hr
  | cons lap laps ih =>
    intro n s rs h k r hr
    obtain ⟨s', h1, h2⟩ := Option.bind_eq_some_iff.1 h
    obtain ⟨rs', h3, rfl⟩ := Option.map_eq_some_iff.1 h2
    cases k with
    | zero =>
      simp only [List.getElem?_cons_zero, Option.some.injEq] at hr
      refine ⟨s', ?_, hr.symm⟩
      simpa using h1
    | succ k =>
      rw [List.getElem?_cons_succ] at hr
      obtain ⟨s2, e1, e2⟩ := ih _ _ _ h3 k r hr
      refine ⟨s2, ?_, by rw [e2]; congr 1; omega⟩
      rw [List.take_succ_cons, List.flatten_cons, run_two, h1]
      exact e1

theorem offer_local (h : Holder Dense) (m : MState) (sc : Score) :
    (offer h m sc).holder.localScore = (if beats sc.localAug h.localObj then some sc else h.localScore) := by
  unfold offer Holder.tryUpdateModel
  dsimp only
  cases beats sc.localAug h.localObj <;> cases beats sc.globalAug h.globalObj <;> cases sc.isFeasible <;>
    cases beats sc.objective h.feasObj <;> simp <;> (repeat' split) <;> simp_all

/-- After an event the local score is that of the assignment reached, or the one before (not if a search was started). -/
theorem step_local (cfg : Cfg) (s s' : St) (ev : Event) (h : step cfg s ev = some s') :
    (s'.holder.localScore = some s'.cur ∧ ∀ l g, ev ≠ .penalties l g) ∨
      (s'.holder.localScore = s.holder.localScore ∧ ∀ d, ev ≠ .start d) := by
  cases ev with
  | start d =>
    obtain ⟨m1, -, rfl⟩ := Option.map_eq_some_iff.1 h
    exact Or.inl ⟨by rw [offer_local]; rfl, fun _ _ => by simp⟩
  | move mv ren =>
    obtain rfl := Option.some.inj h
    rw [offer_local]
    split
    · exact Or.inl ⟨rfl, fun _ _ => by simp⟩
    · exact Or.inr ⟨rfl, fun _ => by simp⟩
  | relax low =>
    obtain rfl := Option.some.inj h
    rw [offer_local]
    split
    · exact Or.inl ⟨rfl, fun _ _ => by simp⟩
    · exact Or.inr ⟨rfl, fun _ => by simp⟩
  | penalties l g =>
    obtain rfl := Option.some.inj h
    exact Or.inr ⟨rfl, fun _ => by simp⟩

theorem added_next (m0 : MState) (q) (ev : Event) (h : ∀ l g, ev ≠ .penalties l g) :
    added m0 q (visitOf ev) = [next m0 q (visitOf ev)] := by
  cases ev with
  | penalties l g => exact absurd rfl (h l g)
  | start d => rfl
  | move mv ren => rfl
  | relax low => rfl

/-- The local score describes an assignment met since the start of the search. -/
theorem local_since {m0 : MState} {cfg : Cfg} (hs : Setting cfg m0) (he : Err m0 0) (done : List Event) (d : Dense)
    (rest : List Event) :
    (∀ ev ∈ done ++ .start d :: rest, LegalEvent cfg m0 ev) → (∀ e ∈ rest, ∀ d', e ≠ .start d') →
    ∀ s, run cfg (done ++ .start d :: rest) (begin m0) = some s →
      ∃ p ∈ (C66.all m0 (done ++ .start d :: rest)).drop (C66.all m0 done).length, ∃ sc, s.holder.localScore = some sc ∧
        sc.objective = minObjective m0 p.1 ∧ sc.totalViolation = totalViolation m0 p.1 := by
  induction rest using List.reverseRecOn with
  | nil =>
    intro hle _ s h
    rw [C97.run_append] at h
    obtain ⟨s1, h1, h2⟩ := Option.bind_eq_some_iff.1 h
    obtain ⟨q, hk⟩ := C97.run_known hs he done s1 (fun e he => hle e (by simp [he])) h1
    have hk2 := C97.step_known hs he s1 s _ q hk (.start d) (hle _ (by simp)) h2
    rw [C97.all_append m0 done (.start d) q hk.last, List.drop_left]
    refine ⟨next m0 q (visitOf (.start d)), by simp [added, visitOf], s.cur, ?_, hk2.inv.objective, C97.tv_exact hk2.inv.violation⟩
    rcases step_local cfg s1 s _ h2 with h3 | h3
    · exact h3.1
    · exact absurd rfl (h3.2 d)
  | append_singleton rest ev ih =>
    intro hle hno s h
    have e : done ++ .start d :: (rest ++ [ev]) = (done ++ .start d :: rest) ++ [ev] := by simp
    rw [e] at h hle ⊢
    rw [C97.run_append] at h
    obtain ⟨s1, h1, h2⟩ := Option.bind_eq_some_iff.1 h
    obtain ⟨p, hp, sc, a1, a2, a3⟩ := ih (fun e he => hle e (by simp only [List.mem_append] at he ⊢; exact Or.inl he))
      (fun e he => hno e (by simp [he])) s1 h1
    obtain ⟨q, hk⟩ := C97.run_known hs he _ s1 (fun e he => hle e (List.mem_append_left _ he)) h1
    have hk2 := C97.step_known hs he s1 s _ q hk ev (hle _ (by simp)) h2
    have hall := C97.all_append m0 _ ev q hk.last
    have hlen : (C66.all m0 done).length ≤ (C66.all m0 (done ++ .start d :: rest)).length := by
      by_contra hc
      rw [List.drop_eq_nil_of_le (by omega)] at hp
      cases hp
    rw [hall, List.drop_append_of_le_length hlen]
    rcases step_local cfg s1 s _ h2 with h3 | h3
    · exact ⟨next m0 q (visitOf ev), by rw [added_next m0 q ev h3.2]; simp, s.cur, h3.1, hk2.inv.objective,
        C97.tv_exact hk2.inv.violation⟩
    · exact ⟨p, List.mem_append_left _ hp, sc, h3.1.trans a1, a2, a3⟩

/-- The sign with which objectives are written. -/
theorem min_eq (m : MState) (σ : ℕ → ℤ) : minObjective m σ = if m.isMin then userObjective m σ else - userObjective m σ := by
  unfold minObjective userObjective
  cases m.objDefined <;> cases m.isMin <;> simp

/-- **Every row** of the file: one for each search, with its number; the global columns are those of an assignment met so far
with the best augmented objective, the local ones those of an assignment met in this search.  In maximizations the
objectives are written with the opposite sign. -/
theorem rows_right {m0 : MState} {cfg : Cfg} (hs : Setting cfg m0) (g : ℚ) (hg : 1e-10 < g) (hgrid : OnGrid m0 g)
    (before : List Event) (laps : List (List Event)) (hle : ∀ ev ∈ before ++ laps.flatten, LegalEvent cfg m0 ev)
    (rs : List Row) (h : file cfg m0 before laps = some rs) :
    rs.length = laps.length ∧ ∀ k r, rs[k]? = some r → r.iteration = k ∧
      (∃ ρ ∈ met m0 (eventsTo before laps k),
        r.globalObjective = (if m0.isMin then userObjective m0 ρ else - userObjective m0 ρ) ∧
        r.globalViolation = totalViolation m0 ρ ∧
        ∀ τ ∈ met m0 (eventsTo before laps k), augmented m0 ρ ≤ augmented m0 τ + 1e-5) ∧
      ∀ lap first d rest, laps[k]? = some lap → Pass lap first d rest →
        ∃ ρ ∈ metSince m0 (before ++ (laps.take k).flatten ++ first) (.start d :: rest),
          r.localObjective = (if m0.isMin then userObjective m0 ρ else - userObjective m0 ρ) ∧
          r.localViolation = totalViolation m0 ρ := by
  have he : Err m0 0 := Or.inr ⟨rfl, g, hg, hgrid⟩
  obtain ⟨s0, h0, h1⟩ := Option.bind_eq_some_iff.1 h
  refine ⟨rows_length cfg laps 0 s0 rs h1, fun k r hr => ?_⟩
  obtain ⟨s, h2, rfl⟩ := rows_at cfg laps 0 s0 rs h1 k r hr
  have hrun : run cfg (eventsTo before laps k) (begin m0) = some s := by
    unfold eventsTo
    rw [run_two, h0]
    exact h2
  have hle' : ∀ ev ∈ eventsTo before laps k, LegalEvent cfg m0 ev := by
    intro ev hev
    refine hle ev ?_
    rcases List.mem_append.1 hev with hev | hev
    · exact List.mem_append_left _ hev
    · obtain ⟨l, hl, hm⟩ := List.mem_flatten.1 hev
      exact List.mem_append_right _ (List.mem_flatten.2 ⟨l, List.mem_of_mem_take hl, hm⟩)
  obtain ⟨q, hk⟩ := C97.run_known hs he _ s hle' hrun
  refine ⟨by simp [row], ?_, ?_⟩
  · obtain ⟨calls, e1, f1⟩ := hk.hist
    have hb := C11.global_incumbent_is_best calls
    dsimp only at hb
    rcases hb with ⟨-, hnil⟩ | ⟨d, sc, hm, -, -, hsc, hbest⟩
    · rw [hnil] at f1; cases f1
    · have aug : ∀ a b, Describes m0 0 a b → a.2.globalAug = augmented m0 b.1 := by
        intro a b hd
        rw [hd.augmented, hd.objective, C97.tv_exact hd.violation]; rfl
      obtain ⟨p, hp, hd⟩ := C66.forall₂_left f1 _ hm
      have hgl : s.holder.globalScore.getD {} = sc := by rw [e1, hsc]; rfl
      refine ⟨p.1, List.mem_map_of_mem hp, ?_, ?_, fun τ hτ => ?_⟩
      · show (s.holder.globalScore.getD {}).objective = _
        rw [hgl, hd.objective, min_eq]
      · show (s.holder.globalScore.getD {}).totalViolation = _
        rw [hgl, C97.tv_exact hd.violation]
      · obtain ⟨p', hp', rfl⟩ := List.mem_map.1 hτ
        obtain ⟨a, ha, hda⟩ := C66.forall₂_right f1 _ hp'
        have := hbest a ha
        rw [← aug _ _ hd, ← aug _ _ hda]; exact this
  · intro lap first d rest hlap hpass
    have hev : eventsTo before laps k = (before ++ (laps.take k).flatten ++ first) ++ .start d :: rest := by
      unfold eventsTo
      rw [List.take_add_one, hlap, hpass.eq]
      simp
    rw [hev] at hle' hrun
    obtain ⟨p, hp, sc, a1, a2, a3⟩ := local_since hs he _ d rest hle' hpass.one s hrun
    refine ⟨p.1, ?_, ?_, ?_⟩
    · unfold metSince met
      rw [List.length_map, ← List.map_drop]
      exact List.mem_map_of_mem hp
    · show (s.holder.localScore.getD {}).objective = _
      rw [a1, Option.getD_some, a2, min_eq]
    · show (s.holder.localScore.getD {}).totalViolation = _
      rw [a1, Option.getD_some, a3]

/-- In minimizations every row tells the truth. -/
theorem rows_show_the_truth_partial {m0 : MState} {cfg : Cfg} (hs : Setting cfg m0) (g : ℚ) (hg : 1e-10 < g)
    (hgrid : OnGrid m0 g) (hmin : m0.isMin = true) (before : List Event) (laps : List (List Event))
    (hle : ∀ ev ∈ before ++ laps.flatten, LegalEvent cfg m0 ev) (rs : List Row) (h : file cfg m0 before laps = some rs)
    (k : ℕ) (r : Row) (hr : rs[k]? = some r) : ShowsTruth m0 before laps k r := by
  have := (rows_right hs g hg hgrid before laps hle rs h).2 k r hr
  simp only [hmin, if_true] at this
  exact this

/-! ## Findings and non-vacuity

One integer variable `x` in `[0, 5]`, the constraint `x <= 1`, the objective `20000000 x`, to be maximized (or its negation, to
be minimized), the penalty coefficient `10000000`, the start `x = 3`. -/

private def m0 (minimize : Bool) : MState := MState.setupSens { Example.raw with
  var := fun _ => { Example.int5 with value := 3 }.updateMargin
  varIds := [0]
  conIds := [0]
  con := fun _ => { Con.setup ⟨[(0, 1)], -1, 0⟩ .less (fun _ => .integer) with penLess := 10000000, penGreater := 10000000 }
  uexprIds := []
  dependents := []
  globalPen := 10000000
  isMin := minimize
  objDefined := true
  obj := ⟨[(0, if minimize then -20000000 else 20000000)], 0, 0⟩ }
private def cfg : Cfg := { fast := true, sels := [], selRel := fun _ => [] }
private def goTo (x : ℤ) : Move := { alterations := [(0, x)], related := [0], isUnivariable := true }
private def laps : List (List Event) := [
  [.start ⟨fun _ => 3, 0, 0, 0, false⟩, .move (goTo 2) false, .move (goTo 1) false],
  [.penalties (fun _ => 30000000) (fun _ => 30000000), .start ⟨fun _ => 2, 0, 0, 0, false⟩, .move (goTo 1) false]]

private theorem m0_wf (b : Bool) : WellFormed (m0 b) where
  conIds := by cases b <;> decide
  con c hc := by cases b <;> exact (show ((([(0, (1 : ℚ))] : List (ℕ × ℚ)).map Prod.fst).Nodup) by decide)
  obj := by cases b <;> decide
  uexpr i hi := by cases b <;> exact absurd hi (by simp [m0, MState.setupSens])

private theorem setting (b : Bool) : Setting cfg (m0 b) where
  wf := m0_wf b
  ready := by cases b <;> exact ⟨by decide, by decide, by decide, by decide, by decide, by decide, by decide⟩
  unit := by cases b <;> decide
  kinds := by cases b <;> decide
  start := by cases b <;> decide
  sens v := C07.setupSens_ok _ ⟨(m0_wf b).conIds, (m0_wf b).con, (m0_wf b).obj, (m0_wf b).uexpr⟩ v
  maxLe := by cases b <;> decide +kernel
  maxEq := by cases b <;> decide +kernel
  onlyBin := by cases b <;> decide +kernel
  noDep := by cases b <;> exact ⟨by decide, by decide +kernel, by decide +kernel⟩
  pen c := by
    cases b <;> exact (show (0 : ℚ) ≤ 10000000 ∧ (0 : ℚ) ≤ 10000000 by norm_num)

private theorem grid (b : Bool) : OnGrid (m0 b) 1 := by
  have h1 : ∀ c ∈ (m0 b).conIds, (m0 b).con c = (m0 b).con 0 := fun _ _ => by cases b <;> rfl
  refine ⟨fun c hc _ => ⟨-1, ?_⟩, fun c hc _ t ht => ⟨1, ?_⟩⟩
  · rw [h1 c hc]; cases b <;> decide +kernel
  · rw [h1 c hc] at ht
    have : ∀ t ∈ ((m0 b).con 0).expr.terms, t.2 = 1 := by cases b <;> decide +kernel
    rw [this t ht]; norm_num

private theorem legal (b : Bool) : ∀ e ∈ [] ++ laps.flatten, LegalEvent cfg (m0 b) e := by
  have cov : ∀ alts, Covers (m0 b) alts [0] := fun alts =>
    ⟨List.Nodup.filter _ (by decide), by cases b <;> decide, fun c hc _ _ => by
      have : c ∈ [0] := by cases b <;> exact hc
      exact this⟩
  have key : ∀ x : ℤ, 0 ≤ x → x ≤ 5 → C66.Legal cfg (m0 b) (goTo x) := fun x h1 h2 =>
    ⟨by simp [goTo], fun a ha => by
      obtain rfl : a = (0, x) := by simpa [goTo] using ha
      have hx : (0 : ℕ) ∈ (m0 b).varIds ∧ (0 : ℕ) ∉ (m0 b).dependents.map Prod.fst ∧ ((m0 b).var 0).fixed = false := by
        cases b <;> decide
      exact ⟨hx.1, hx.2.1, hx.2.2, by cases b <;> exact ⟨h1, h2⟩⟩,
      cov _, fun _ => ⟨0, x, rfl⟩, fun h => absurd h (by simp [goTo])⟩
  intro e he
  simp only [laps, List.nil_append, List.flatten_cons, List.flatten_nil, List.append_nil, List.cons_append, List.mem_cons,
    List.not_mem_nil, or_false] at he
  rcases he with rfl | rfl | rfl | rfl | rfl | rfl
  · trivial
  · exact key 2 (by decide) (by decide)
  · exact key 1 (by decide) (by decide)
  · intro c; norm_num
  · trivial
  · exact key 1 (by decide) (by decide)

/-- The file of the example in the minimization: the best solution of all is that of the first search. -/
private theorem sample : file cfg (m0 true) [] laps = some [
    ⟨0, -60000000, 2, -60000000, 2⟩, ⟨1, -20000000, 0, -60000000, 2⟩] := by decide +kernel

example : Setting cfg (m0 true) ∧ OnGrid (m0 true) 1 ∧ (∀ ev ∈ [] ++ laps.flatten, LegalEvent cfg (m0 true) ev) ∧
    (m0 true).isMin = true ∧ ∃ rs, file cfg (m0 true) [] laps = some rs :=
  ⟨setting _, grid _, legal _, rfl, _, sample⟩

/-- The second pass changes coefficients before its search starts. -/
example : Pass [.penalties (fun _ => 30000000) (fun _ => 30000000), .start ⟨fun _ => 2, 0, 0, 0, false⟩, .move (goTo 1) false]
    [.penalties (fun _ => 30000000) (fun _ => 30000000)] ⟨fun _ => 2, 0, 0, 0, false⟩ [.move (goTo 1) false] :=
  ⟨rfl, fun e he d' => by
    obtain rfl : e = .move (goTo 1) false := by simpa using he
    simp⟩

/-- Finding: in a maximization the objectives are written with the opposite sign. -/
theorem objective_is_written_negated :
    ∃ (cfg : Cfg) (m0 : MState) (laps : List (List Event)) (rs : List Row) (r : Row), Setting cfg m0 ∧ OnGrid m0 1 ∧
      (∀ ev ∈ [] ++ laps.flatten, LegalEvent cfg m0 ev) ∧ file cfg m0 [] laps = some rs ∧ rs[0]? = some r ∧
      r.globalObjective = -60000000 ∧ (∀ σ ∈ met m0 laps.flatten, 0 ≤ userObjective m0 σ) ∧ ¬ ShowsTruth m0 [] laps 0 r := by
  have hrow : (file cfg (m0 false) [] laps).map (fun rows => rows[0]?) = some (some ⟨0, -60000000, 2, -60000000, 2⟩) := by
    decide +kernel
  have hpos : ∀ σ ∈ met (m0 false) laps.flatten, 0 ≤ userObjective (m0 false) σ := by decide +kernel
  have hpos' : ∀ σ ∈ met (m0 false) (eventsTo [] laps 0), 0 ≤ userObjective (m0 false) σ := by decide +kernel
  obtain ⟨rows, h1, h2⟩ := Option.map_eq_some_iff.1 hrow
  refine ⟨cfg, m0 false, laps, rows, _, setting _, grid _, legal _, h1, h2, rfl, hpos, ?_⟩
  rintro ⟨-, ⟨ρ, hρ, hv, -⟩, -⟩
  have := hpos' ρ hρ
  rw [← hv] at this
  norm_num at this

end Printemps.C103
