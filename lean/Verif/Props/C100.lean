import Verif.Model.Callback
import Verif.Props.C94

/-! # C100: the function called back after each tabu search

A function set with `set_callback` is called exactly once after each tabu search, in order; what it reads are the best solutions
met so far, judged rightly; if it only reads, the call goes on as without it.  What it writes into the options it is given has
no effect. -/

namespace Printemps.C100
open Spec Setup Whole Search Sol Nbhd Callback
open Ctl hiding call searches solve

variable {ν μ : Type} [LinearOrder ν] [LinearOrder μ]

/-! ## Specification -/

/-- The function only reads the incumbents. -/
def OnlyReads {κ Ω : Type} (cb : Fn κ Ω) : Prop := ∀ mem op h, (cb mem op h).2.2 = h

/-- The incumbents `h` tell the truth about the assignments met in the history `done`: a feasible solution is known exactly if a
solution of the user's model was met, and then the one known is such a solution, with its own objective, and at most `1e-5`
worse than any met. -/
structure Truthful (O m0 : MState) (done : List Event) (h : Holder Dense) : Prop where
  found : h.found = true ↔ ∃ q ∈ C66.all m0 done, Solves O q.1
  best : h.found = true → ∃ d, h.feasSol = some d ∧ Solves O d.values ∧ (∃ q ∈ C66.all m0 done, d.values = q.1) ∧
    h.feasObj = some (minObjective O d.values) ∧
    ∀ q ∈ C66.all m0 done, Solves O q.1 → minObjective O d.values ≤ minObjective O q.1 + 1e-5

/-- The reasons to end before another search: the time is over, the maximal number of searches is reached, the best feasible
solution reaches the target, or the last search found that its incumbent is optimal. -/
def Reason (lim : Limits) (elapsed : ℚ) (searches : ℕ) (h : Holder Dense) (optimal : Bool) : Prop :=
  lim.timeMax < elapsed ∨ lim.iterationMax ≤ searches ∨ (∃ f, h.feasObj = some f ∧ f ≤ lim.target) ∨
    (0 < searches ∧ optimal = true)

/-- The states in which a round may begin, if the function called back only reads. -/
inductive Reached {Ω : Type} (w : World Ω) (name : ℕ → String) (cfg : Cfg) (o : Opt) (lim : Limits) (c0 : State) (x0 : Sofar) :
    ℕ → Bool → State → Sofar → Prop
  | start : Reached w name cfg o lim c0 x0 0 false c0 x0
  | next {k b c x r} : Reached w name cfg o lim c0 x0 k b c x → ends lim (w.clock k c x) k x.st.holder b = false →
      lapStep name cfg o (w.search (w.option k c x) k c x).1 c x = some r →
      Reached w name cfg o lim c0 x0 (k + 1) (w.search (w.option k c x) k c x).2 r.1 r.2

/-- The tabu searches of such a call take their moves from the neighbourhood; penalty coefficients are not negative. -/
def TabuObeys {Ω : Type} (C : Nbhd.Config ν μ) (w : World Ω) (name : ℕ → String) (cfg : Cfg) (o : Opt) (lim : Limits) (c0 : State)
    (x0 : Sofar) : Prop :=
  ∀ k b c x, Reached w name cfg o lim c0 x0 k b c x → ends lim (w.clock k c x) k x.st.holder b = false →
    OnlyMoves (w.search (w.option k c x) k c x).1.body ∧
    (∀ i, 0 ≤ (w.search (w.option k c x) k c x).1.less i ∧ 0 ≤ (w.search (w.option k c x) k c x).1.greater i) ∧
    PhaseObeys C name cfg c.current (w.search (w.option k c x) k c x).1.body x

/-- All searches of such a call take their moves from the neighbourhood. -/
def AllObey {Ω : Type} (C : Nbhd.Config ν μ) (w : World Ω) (name : ℕ → String) (cfg : Cfg) (o : Opt) (lim : Limits) (m : MState)
    (b : Before) : Prop :=
  (∀ es, b.lagrange = some es → OnlyRelaxes es) ∧
  ∀ p, optional name cfg (firstSolution name m) (if applicable m then b.lagrange else none) ⟨begin m, []⟩ = some p →
    (∀ es, b.localSearch = some es → OnlyMoves es ∧ PhaseObeys C name cfg p.1 es p.2) ∧
    ∀ q, optional name cfg p.1 b.localSearch p.2 = some q → TabuObeys C w name cfg o lim { current := q.1 } q.2

/-- The states in which a round may begin, with the neighbourhood of the moment, which a bounding that fixes variables sets up again. -/
inductive Arrived {Ω : Type} (C0 : Nbhd.Config ν μ) (w : World Ω) (name : ℕ → String) (cfg : Cfg) (o : Opt) (lim : Limits)
    (c0 : State) (x0 : Sofar) : Nbhd.Config ν μ → ℕ → Bool → State → Sofar → Prop
  | start : Arrived C0 w name cfg o lim c0 x0 C0 0 false c0 x0
  | next {C k b c x r} : Arrived C0 w name cfg o lim c0 x0 C k b c x → ends lim (w.clock k c x) k x.st.holder b = false →
      lapStep name cfg o (w.search (w.option k c x) k c x).1 c x = some r →
      Arrived C0 w name cfg o lim c0 x0 { C with recent := renew C.recent r.2.st.model } (k + 1)
        (w.search (w.option k c x) k c x).2 r.1 r.2

/-- All searches of such a call take their moves from the neighbourhood of the moment; penalty coefficients are not negative. -/
def AllObeyNow {Ω : Type} (C0 : Nbhd.Config ν μ) (w : World Ω) (name : ℕ → String) (cfg : Cfg) (o : Opt) (lim : Limits) (m : MState)
    (b : Before) : Prop :=
  (∀ es, b.lagrange = some es → OnlyRelaxes es) ∧
  ∀ p, optional name cfg (firstSolution name m) (if applicable m then b.lagrange else none) ⟨begin m, []⟩ = some p →
    (∀ es, b.localSearch = some es → OnlyMoves es ∧ PhaseObeys C0 name cfg p.1 es p.2) ∧
    ∀ q, optional name cfg p.1 b.localSearch p.2 = some q →
      ∀ C k st c x, Arrived C0 w name cfg o lim { current := q.1 } q.2 C k st c x → ends lim (w.clock k c x) k x.st.holder st = false →
        OnlyMoves (w.search (w.option k c x) k c x).1.body ∧
        (∀ i, 0 ≤ (w.search (w.option k c x) k c x).1.less i ∧ 0 ≤ (w.search (w.option k c x) k c x).1.greater i) ∧
        PhaseObeys C name cfg c.current (w.search (w.option k c x) k c x).1.body x

/-! ## Without assumptions about the searches -/

section
variable {κ κ' Ω : Type} (w : World Ω) (name : ℕ → String) (cfg : Cfg) (o : Opt) (lim : Limits)

theorem put_back (x : Sofar) (h : Holder Dense) (e : h = x.st.holder) : { x with st := { x.st with holder := h } } = x := by
  subst e; rfl

theorem loop_written (cb cb' : Fn κ Ω) (h : ∀ mem op inc, (cb mem op inc).1 = (cb' mem op inc).1 ∧
    (cb mem op inc).2.2 = (cb' mem op inc).2.2) (fuel : ℕ) : ∀ k b mem c x,
    loop w name cfg o lim cb fuel k b mem c x = loop w name cfg o lim cb' fuel k b mem c x := by
  induction fuel with
  | zero => intros; rfl
  | succ n ih =>
    intro k b mem c x
    unfold loop
    split
    · rfl
    · dsimp only
      congr 1
      funext r
      rw [(h _ _ _).1, (h _ _ _).2, ih]

/-- Finding.  Whatever the function writes into the options it is given, the call takes the same course and ends with the same
report: two functions that differ only in what they write there cannot be told apart.  So a function cannot, for example,
end the call or limit the next searches by setting options. -/
theorem written_options_have_no_effect (cb cb' : Fn κ Ω) (h : ∀ mem op inc, (cb mem op inc).1 = (cb' mem op inc).1 ∧
    (cb mem op inc).2.2 = (cb' mem op inc).2.2) (i : Input) (fast : Bool) (selRel : ℕ → List ℕ) (mem : κ) (O : MState)
    (b : Before) :
    call w i fast selRel name o lim cb mem O b = call w i fast selRel name o lim cb' mem O b := by
  unfold call searches
  simp only [loop_written w name _ o lim cb cb' h]

theorem loop_reading (cb : Fn κ Ω) (cb' : Fn κ' Ω) (h : OnlyReads cb) (h' : OnlyReads cb') (fuel : ℕ) : ∀ k b mem mem' c x,
    (loop w name cfg o lim cb fuel k b mem c x).map (fun r => (r.1, r.2.2)) =
    (loop w name cfg o lim cb' fuel k b mem' c x).map (fun r => (r.1, r.2.2)) := by
  induction fuel with
  | zero => intros; rfl
  | succ n ih =>
    intro k b mem mem' c x
    rw [loop, loop]
    split
    · rfl
    · dsimp only
      rw [Option.map_bind, Option.map_bind]
      congr 1
      funext r
      have e1 := put_back r.2 _ (h mem (w.option k c x) r.2.st.holder)
      have e2 := put_back r.2 _ (h' mem' (w.option k c x) r.2.st.holder)
      show Option.map _ (loop w name cfg o lim cb n (k + 1) _ _ r.1 { r.2 with st := { r.2.st with holder := _ } }) =
        Option.map _ (loop w name cfg o lim cb' n (k + 1) _ _ r.1 { r.2 with st := { r.2.st with holder := _ } })
      rw [e1, e2]
      exact ih _ _ _ _ _ _

/-- A function that only reads the incumbents changes neither the number of searches nor the report: the call ends as if no
function had been set. -/
theorem reading_changes_nothing (cb : Fn κ Ω) (h : OnlyReads cb) (i : Input) (fast : Bool) (selRel : ℕ → List ℕ) (mem : κ)
    (O : MState) (b : Before) :
    (call w i fast selRel name o lim cb mem O b).map (fun r => (r.1, r.2.2)) =
    (call w i fast selRel name o lim idle () O b).map (fun r => (r.1, r.2.2)) := by
  unfold call searches
  cases started i O with
  | none => rfl
  | some m =>
  simp only [Option.bind_some]
  cases before name (Whole.cfg i fast selRel O) m b with
  | none => rfl
  | some q =>
    simp only [Option.bind_some]
    have := loop_reading w name (Whole.cfg i fast selRel O) o lim cb (idle (κ := Unit)) h (fun _ _ _ => rfl)
      (lim.iterationMax.toNat + 1) 0 false mem () { current := q.1 } q.2
    revert this
    generalize loop w name (Whole.cfg i fast selRel O) o lim cb _ 0 false mem _ _ = A
    generalize loop w name (Whole.cfg i fast selRel O) o lim idle _ 0 false () _ _ = B
    intro this
    cases A with
    | none =>
      cases B with
      | none => rfl
      | some b => simp at this
    | some a =>
      cases B with
      | none => simp at this
      | some b =>
        simp only [Option.map_some, Option.some.injEq, Prod.mk.injEq] at this
        obtain ⟨e1, e2⟩ := this
        simp only [Option.bind_some, Option.map_map]
        rw [e2]
        congr 1
        funext p
        simp [e1]

theorem ends_iff (e : ℚ) (k : ℕ) (h : Holder Dense) (b : Bool) : ends lim e k h b = true ↔ Reason lim e k h b := by
  unfold ends Reason
  cases hf : h.feasObj with
  | none => simp [or_assoc]
  | some f => simp [or_assoc]

/-- The searches go on exactly until there is a reason to end, whatever the function does: with a reason there is no further
search and no further call of the function; and if the searches end, there is a reason in the state they leave behind (after at
least one search, `optimal` is the outcome of the last one). -/
theorem searches_end_for_a_reason (cb : Fn κ Ω) (fuel : ℕ) : ∀ k b mem c x,
    (Reason lim (w.clock k c x) k x.st.holder b → loop w name cfg o lim cb (fuel + 1) k b mem c x = some (k, mem, x)) ∧
    ∀ n mem' x', loop w name cfg o lim cb fuel k b mem c x = some (n, mem', x') →
      (n = k ∧ mem' = mem ∧ x' = x ∧ Reason lim (w.clock k c x) k x.st.holder b) ∨
      (k < n ∧ ∃ c' c'' x'', Reason lim (w.clock n c' x') n x'.st.holder
        (w.search (w.option (n - 1) c'' x'') (n - 1) c'' x'').2) := by
  induction fuel with
  | zero =>
    intro k b mem c x
    refine ⟨fun h => ?_, fun n mem' x' e => by cases e⟩
    rw [loop, if_pos ((ends_iff lim _ _ _ _).2 h)]
  | succ f ih =>
    intro k b mem c x
    refine ⟨fun h => ?_, fun n mem' x' e => ?_⟩
    · rw [loop, if_pos ((ends_iff lim _ _ _ _).2 h)]
    · rw [loop] at e
      split at e
      · rename_i he
        simp only [Option.some.injEq, Prod.mk.injEq] at e
        obtain ⟨rfl, rfl, rfl⟩ := e
        exact Or.inl ⟨rfl, rfl, rfl, (ends_iff lim _ _ _ _).1 he⟩
      · dsimp only at e
        obtain ⟨r, e1, e2⟩ := Option.bind_eq_some_iff.1 e
        rcases (ih _ _ _ _ _).2 _ _ _ e2 with ⟨rfl, -, rfl, h⟩ | ⟨h1, h2⟩
        · exact Or.inr ⟨by omega, _, c, x, h⟩
        · exact Or.inr ⟨by omega, h2⟩

/-- A function that only reads is called once after each tabu search, in order: the calls are those in the list `seen`, whose
entry `i` holds the options of search `i`, made from the state before it, and the state after the searches up to `i`. -/
theorem called_once_after_each_search (cb : Fn κ Ω) (h : OnlyReads cb) (fuel : ℕ) : ∀ k b mem c x n mem' x',
    loop w name cfg o lim cb fuel k b mem c x = some (n, mem', x') →
    ∃ (ls : List Lap) (seen : List (Ω × Sofar)), n = k + ls.length ∧ seen.length = ls.length ∧
      laps name cfg o ls c x = some x' ∧
      mem' = seen.foldl (fun m p => (cb m p.1 p.2.st.holder).1) mem ∧
      ∀ i (hi : i < seen.length), laps name cfg o (ls.take (i + 1)) c x = some (seen[i].2) ∧
        ∃ c' y, (x :: seen.map Prod.snd)[i]? = some y ∧ seen[i].1 = w.option (k + i) c' y ∧
          ls[i]? = some (w.search seen[i].1 (k + i) c' y).1 := by
  induction fuel with
  | zero => intro k b mem c x n mem' x' e; cases e
  | succ f ih =>
    intro k b mem c x n mem' x' e
    rw [loop] at e
    split at e
    · simp only [Option.some.injEq, Prod.mk.injEq] at e
      obtain ⟨rfl, rfl, rfl⟩ := e
      exact ⟨[], [], rfl, rfl, rfl, rfl, fun i hi => absurd hi (by simp)⟩
    · dsimp only at e
      obtain ⟨r, e1, e2⟩ := Option.bind_eq_some_iff.1 e
      rw [put_back r.2 _ (h mem (w.option k c x) r.2.st.holder)] at e2
      obtain ⟨ls, seen, h1, h2, h3, h4, h5⟩ := ih _ _ _ _ _ _ _ _ e2
      refine ⟨(w.search (w.option k c x) k c x).1 :: ls, (w.option k c x, r.2) :: seen, ?_, by simp [h2], ?_, ?_, ?_⟩
      · rw [h1, List.length_cons]; omega
      · rw [laps, e1]; exact h3
      · rw [h4]; rfl
      · intro i hi
        cases i with
        | zero => exact ⟨by rw [List.take_succ_cons, laps, e1]; rfl, c, x, rfl, rfl, rfl⟩
        | succ j =>
          obtain ⟨g1, c', y, g2, g3, g4⟩ := h5 j (by simpa using hi)
          refine ⟨by rw [List.take_succ_cons, laps, e1]; exact g1, c', y, by simpa using g2, ?_, ?_⟩
          · rw [show k + (j + 1) = k + 1 + j by omega]; exact g3
          · rw [show k + (j + 1) = k + 1 + j by omega]; exact g4

end

/-! ## What is read -/

/-- A search extends the history. -/
theorem lap_extends {name : ℕ → String} {cfg : Cfg} {o : Opt} {lap : Lap} {c : State} {x : Sofar} {r : State × Sofar}
    (e : lapStep name cfg o lap c x = some r) : x.done <+: r.2.done := by
  unfold lapStep at e
  obtain ⟨p1, -, e⟩ := Option.bind_eq_some_iff.1 e
  obtain ⟨p2, -, e⟩ := Option.bind_eq_some_iff.1 e
  obtain ⟨p3, -, e⟩ := Option.bind_eq_some_iff.1 e
  obtain ⟨p4, -, e⟩ := Option.bind_eq_some_iff.1 e
  obtain ⟨p5, -, e⟩ := Option.map_eq_some_iff.1 e
  rw [← e, List.append_assoc]
  exact List.prefix_append _ _

section
variable {C : Nbhd.Config ν μ} {cfg : Cfg} {m0 : MState} {name : ℕ → String} {Ω κ : Type}

/-- The loop with a function that only reads. -/
theorem loop_ok (b : Base C cfg m0 name) (o : Opt) (ho : o.bounding = false) (w : World Ω) (lim : Limits) (cb : Fn κ Ω)
    (hcb : OnlyReads cb) (c0 : State) (x0 : Sofar) (hob : TabuObeys C w name cfg o lim c0 x0) (fuel : ℕ) : ∀ k st mem c x,
    Reached w name cfg o lim c0 x0 k st c x → Ok C cfg m0 x → Known m0 name x.done c.current →
    (lim.iterationMax - k).toNat < fuel →
    ∃ (n : ℕ) (mem' : κ) (x' : Sofar) (seen : List (Ω × Sofar)), loop w name cfg o lim cb fuel k st mem c x = some (n, mem', x') ∧ n = k + seen.length ∧
      (n = k ∨ (n : ℤ) ≤ lim.iterationMax) ∧
      mem' = seen.foldl (fun m p => (cb m p.1 p.2.st.holder).1) mem ∧ Ok C cfg m0 x' ∧ (∀ p ∈ seen, Ok C cfg m0 p.2) ∧
      (x :: seen.map Prod.snd).getLast? = some x' ∧
      (x.done :: seen.map (fun p => p.2.done)).IsChain (· <+: ·) := by
  induction fuel with
  | zero => intro k st mem c x _ _ _ h; omega
  | succ f ih =>
    intro k st mem c x hr hk hn hfuel
    rw [loop]
    by_cases he : ends lim (w.clock k c x) k x.st.holder st = true
    · rw [if_pos he]
      exact ⟨k, mem, x, [], rfl, rfl, Or.inl rfl, rfl, hk, by simp, rfl, by simp⟩
    · rw [if_neg he]
      have he' : ends lim (w.clock k c x) k x.st.holder st = false := by simpa using he
      have hlt : (k : ℤ) < lim.iterationMax := by
        by_contra hge
        apply he
        unfold ends
        have : decide ((k : ℤ) ≥ lim.iterationMax) = true := by simp; omega
        rw [this]; simp
      obtain ⟨g1, g2, g3⟩ := hob k st c x hr he'
      obtain ⟨r, e, k1, k2⟩ := hk.lap b o ho c hn _ g1 g2 g3
      dsimp only
      rw [e, Option.bind_some]
      rw [put_back r.2 _ (hcb mem (w.option k c x) r.2.st.holder)]
      obtain ⟨n, mem', x', seen, h1, h2, h3, h4, h5, h6, h7, h8⟩ := ih (k + 1) _
        (cb mem (w.option k c x) r.2.st.holder).1 r.1 r.2 (hr.next he' e) k1 k2 (by omega)
      refine ⟨n, mem', x', (w.option k c x, r.2) :: seen, h1, by rw [h2, List.length_cons]; omega, Or.inr ?_, by rw [h4]; rfl,
        h5, ?_, ?_, ?_⟩
      · rcases h3 with h3 | h3
        · omega
        · exact h3
      · intro p hp
        rcases List.mem_cons.1 hp with rfl | hp
        · exact k1
        · exact h6 p hp
      · simpa using h7
      · simp only [List.map_cons]
        exact List.IsChain.cons_cons (lap_extends e) h8

end

/-- The incumbents tell the truth, if the solutions offered describe the assignments met. -/
theorem truthful_of (i : Input) (O m1 m0 : MState) (p : Ordinary i.options O) (hf : ∃ σ, Feasible O σ)
    (hprep : prepare i.options i.lt i.user O = some (.ok m1)) (hgf : ofType i.lt m1 .gf2 = [])
    (h0 : started i O = some m0) (hdep : m0.dependents = []) (x : Sofar) (calls : List (HolderCall Dense))
    (ec : x.st.holder = C11.after calls) (fa : List.Forall₂ (C66.Describes m0 0) (C11.offers calls) (C66.all m0 x.done))
    (hgood : ∀ q ∈ C66.all m0 x.done, ∀ s ∈ selections i.options i.lt i.user O,
      (∀ v ∈ (m0.con s).expr.vars, q.1 v = 0 ∨ q.1 v = 1) ∧ ((m0.con s).expr.vars.filter (fun v => q.1 v = 1)).length = 1) :
    Truthful O m0 x.done x.st.holder := by
  have hl : launch i (selections i.options i.lt i.user O) m1 = some m0 := by
    unfold started at h0; rw [hprep] at h0; exact h0
  have pr := prepared i.options i.lt i.user O m1 p hf hprep
  obtain ⟨l, -, -, -⟩ := C68.launched p pr i hgf hl
  obtain ⟨r1, r2, r3, r4, r5, -, -, r8, r9⟩ := l.rest
  have hint : ∀ c ∈ m1.conIds, (∃ k : ℤ, (m1.con c).expr.const = k) ∧ ∀ t ∈ (m1.con c).expr.terms, ∃ k : ℤ, t.2 = k := by
    intro c hc
    refine ⟨(pr.plain c hc).2.2, fun t ht => ?_⟩
    obtain ⟨j, hj, e⟩ := pr.terms c hc
    rw [e] at ht
    exact (p.integral j hj t ht).2
  have tv : ∀ a q, C66.Describes m0 0 a q → a.2.totalViolation = totalViolation m0 q.1 := by
    intro a q hd
    have := hd.violation
    rw [mul_zero] at this
    have := abs_nonpos_iff.1 this
    linarith
  have hobj : ∀ σ, minObjective m0 σ = minObjective O σ := by
    intro σ
    unfold minObjective
    rw [r3, r4, r5, pr.obj, pr.isMin, pr.objDefined]
  -- an assignment met is feasible for the search exactly if it solves the user's model
  have key : ∀ q ∈ C66.all m0 x.done, InRange m0 q.1 → (totalViolation m0 q.1 ≤ 1e-5 ↔ Solves O q.1) := by
    intro q hq hr
    let r : Named :=
      { values := q.1
        conValue := fun c => exprValue (m0.con c).expr q.1
        conViolation := fun c => violation (m0.con c) q.1
        objective := exprValue m0.obj q.1
        totalViolation := (m0.conIds.map (fun c => violation (m0.con c) q.1)).sum
        feasible := decide (∀ c ∈ m0.conIds, (m0.con c).enabled = true → violation (m0.con c) q.1 < 1e-5) }
    have hcons : C59.Consistent m0 r := ⟨fun c _ => ⟨rfl, rfl⟩, fun _ => rfl, rfl, by simp [r]⟩
    have hsel : ∀ s ∈ selections i.options i.lt i.user O, ∃ v ∈ (m0.con s).expr.vars, r.values v = 1 ∧
        ∀ u ∈ (m0.con s).expr.vars, u ≠ v → r.values u = 0 := by
      intro s hs
      obtain ⟨h1, h2⟩ := hgood q hq s hs
      obtain ⟨v, hv⟩ := List.length_eq_one_iff.1 h2
      have hmem : v ∈ (m0.con s).expr.vars.filter (fun v => q.1 v = 1) := by rw [hv]; simp
      obtain ⟨hv1, hv2⟩ := List.mem_filter.1 hmem
      refine ⟨v, hv1, by simpa using hv2, fun u hu huv => ?_⟩
      rcases h1 u hu with h | h
      · exact h
      · have : u ∈ (m0.con s).expr.vars.filter (fun v => q.1 v = 1) := List.mem_filter.2 ⟨hu, by simpa using h⟩
        rw [hv] at this
        exact absurd (List.mem_singleton.1 this) huv
    obtain ⟨c1, -, c3⟩ := C68.concluded p hf pr l r [] q (fun _ _ => rfl) hr hcons (fun ⟨_, h, _⟩ => absurd h (by simp)) hsel
    have nonneg : ∀ y ∈ (enabledCons m0).map (fun c => violation c q.1), 0 ≤ y := by
      intro y hy
      obtain ⟨c, -, rfl⟩ := List.mem_map.1 hy
      exact C68.violation_nonneg _ _
    refine Iff.trans ?_ c1
    show _ ↔ decide _ = true
    rw [decide_eq_true_eq]
    constructor
    · intro ht c hc he
      have hle : violation (m0.con c) q.1 ≤ 1e-5 := by
        refine le_trans ?_ ht
        unfold totalViolation
        refine List.single_le_sum nonneg _ (List.mem_map.2 ⟨m0.con c, ?_, rfl⟩)
        unfold enabledCons
        exact List.mem_filter.2 ⟨List.mem_map.2 ⟨c, hc, rfl⟩, he⟩
      have hh : Holds (m0.con c) q.1 := by
        rw [l.con] at hle ⊢
        exact C68.holds_of_small _ _ (hint c (by rw [← r1]; exact hc)).1 (hint c (by rw [← r1]; exact hc)).2 hle
      rw [(C68.holds_iff_violation _ _).1 hh]; norm_num
    · intro hh
      have : totalViolation m0 q.1 = 0 := by
        unfold totalViolation
        refine List.sum_eq_zero fun y hy => ?_
        obtain ⟨c, hc, rfl⟩ := List.mem_map.1 hy
        unfold enabledCons at hc
        obtain ⟨hc1, he⟩ := List.mem_filter.1 hc
        obtain ⟨j, hj, rfl⟩ := List.mem_map.1 hc1
        refine (C68.holds_iff_violation _ _).1 ?_
        have hlt := (hh j hj he).le
        rw [l.con] at hlt ⊢
        exact C68.holds_of_small _ _ (hint j (by rw [← r1]; exact hj)).1 (hint j (by rw [← r1]; exact hj)).2 hlt
      rw [this]; norm_num
  obtain ⟨f1, f2⟩ := C11.feasible_incumbent_is_best calls
  rw [← ec] at f1 f2
  have feasOf : ∀ a q, C66.Describes m0 0 a q → q ∈ C66.all m0 x.done → (a.2.isFeasible = true ↔ Solves O q.1) := by
    intro a q hd hq
    rw [hd.feasible, tv a q hd]
    exact key q hq hd.range
  refine ⟨?_, fun hfd => ?_⟩
  · rw [f1]
    constructor
    · intro hne
      obtain ⟨a, ha⟩ := List.exists_mem_of_ne_nil _ hne
      obtain ⟨ha1, ha2⟩ := List.mem_filter.1 ha
      obtain ⟨q, hq, hd⟩ := C66.forall₂_left fa a ha1
      exact ⟨q, hq, (feasOf a q hd hq).1 ha2⟩
    · rintro ⟨q, hq, hs⟩
      obtain ⟨a, ha, hd⟩ := C66.forall₂_right fa q hq
      exact List.ne_nil_of_mem (List.mem_filter.2 ⟨ha, (feasOf a q hd hq).2 hs⟩)
  · rcases f2 with ⟨-, f2⟩ | ⟨d, sc, hmem, e1, e2, -, hb⟩
    · exact absurd f2 (f1.1 hfd)
    · obtain ⟨hm1, hm2⟩ := List.mem_filter.1 hmem
      obtain ⟨q, hq, hd⟩ := C66.forall₂_left fa _ hm1
      have hval : d.values = q.1 := funext fun v => hd.values v (by rw [hdep]; simp)
      have ho : sc.objective = minObjective O d.values := by
        rw [hval, ← hobj]; exact hd.objective
      refine ⟨d, e2, ?_, ⟨q, hq, hval⟩, e1.trans (congrArg some ho), fun q' hq' hs => ?_⟩
      · rw [hval]; exact (feasOf _ q hd hq).1 hm2
      · obtain ⟨a, ha, hd'⟩ := C66.forall₂_right fa q' hq'
        have := hb a (List.mem_filter.2 ⟨ha, (feasOf a q' hd' hq').2 hs⟩)
        dsimp only at this
        rw [ho, hd'.objective, hobj] at this
        exact this

/-- The incumbents tell the truth. -/
theorem truthful (i : Input) (O m1 m0 : MState) (fast : Bool) (selRel : ℕ → List ℕ)
    (name : ℕ → String) (C : Nbhd.Config ν μ) (p : Ordinary i.options O) (hu : C76.Unselected O)
    (hm : ∀ v, (O.var v).updateMargin = O.var v) (hname : C48.Distinct name O)
    (hf : ∃ σ, Feasible O σ) (hpen : 0 ≤ i.pen)
    (hprep : prepare i.options i.lt i.user O = some (.ok m1)) (hgf : ofType i.lt m1 .gf2 = [])
    (h0 : started i O = some m0) (hC : C76.SetUp C selRel m1) (hcon : C74.Constrained m0)
    (x : Sofar) (k : Ok C (Whole.cfg i fast selRel O) m0 x) : Truthful O m0 x.done x.st.holder := by
  obtain ⟨b, ft, gd, hdep⟩ := C78.base i O m1 m0 fast selRel name C p hu hm hname hf hpen hprep hgf h0 hC hcon
  have hl : launch i (selections i.options i.lt i.user O) m1 = some m0 := by
    unfold started at h0; rw [hprep] at h0; exact h0
  obtain ⟨hgrid, -⟩ := C94.grid p (prepared i.options i.lt i.user O m1 p hf hprep) hgf hl
  obtain ⟨-, hgood⟩ := Ok.ends b x.done k.follows k.starts k.relaxes
  obtain ⟨calls, ec, fa⟩ := C66.history b.setting (Or.inr ⟨rfl, 1, by norm_num, hgrid⟩) x.done x.st (k.legal b) k.ran
  exact truthful_of i O m1 m0 p hf hprep hgf h0 hdep x calls ec fa (fun q hq => (hgood q hq).sel)

/-- A whole call with a function that only reads the incumbents.  Under the conditions of C78: the call ends after at most
`iteration_max` tabu searches; the function was called once after each of them (the calls are listed in `seen`, with the
options and the state of the moment), each time the incumbents told the truth about everything met until then; the
histories are extensions of each other and the last one is that of the whole call; and the report is right.

Missing: functions that change the incumbents; what is missing in C78.  The bounding of variables during the search: see below. -/
theorem what_is_read_is_right_partial (i : Input) (O m1 m0 : MState) (fast : Bool) (selRel : ℕ → List ℕ)
    (name : ℕ → String) (o : Opt) (C : Nbhd.Config ν μ) (p : Ordinary i.options O) (hu : C76.Unselected O)
    (hm : ∀ v, (O.var v).updateMargin = O.var v) (hname : C48.Distinct name O)
    (hf : ∃ σ, Feasible O σ) (hpen : 0 ≤ i.pen)
    (hprep : prepare i.options i.lt i.user O = some (.ok m1)) (hgf : ofType i.lt m1 .gf2 = [])
    (h0 : started i O = some m0) (hC : C76.SetUp C selRel m1) (hcon : C74.Constrained m0)
    (ho : o.bounding = false) {Ω κ : Type} (w : World Ω) (lim : Limits) (cb : Fn κ Ω) (hcb : OnlyReads cb) (mem : κ) (b : Before)
    (hob : AllObey C w name (Whole.cfg i fast selRel O) o lim m0 b) :
    ∃ (n : ℕ) (mem' : κ) (r : Named) (m' : MState) (seen : List (Ω × Sofar)) (es : List Event),
      call w i fast selRel name o lim cb mem O b = some (n, mem', r, m') ∧
      n ≤ lim.iterationMax.toNat ∧ seen.length = n ∧
      mem' = seen.foldl (fun m p => (cb m p.1 p.2.st.holder).1) mem ∧
      (∀ p ∈ seen, Truthful O m0 p.2.done p.2.st.holder) ∧
      (seen.map (fun p => p.2.done)).IsChain (· <+: ·) ∧
      (∀ p, seen.getLast? = some p → p.2.done = es) ∧
      (r.feasible = true ↔ Solves O r.values) ∧
      (O.objDefined = true → r.objective = exprValue O.obj r.values) ∧
      ∀ q ∈ C66.all m0 es, Solves O q.1 →
        Solves O r.values ∧ minObjective O r.values ≤ minObjective O q.1 + 1e-5 := by
  obtain ⟨bs, ft, gd, hdep⟩ := C78.base i O m1 m0 fast selRel name C p hu hm hname hf hpen hprep hgf h0 hC hcon
  have k0 : Ok C (Whole.cfg i fast selRel O) m0 ⟨begin m0, []⟩ := ⟨rfl, trivial, by simp, by simp⟩
  have n0 : Known m0 name [] (firstSolution name m0) :=
    Known.ofDense bs.names ⟨(assignment m0, 0), by simp [C66.all], update_agree (C66.stat_refl m0)⟩
  have hsel := C78.no_selections ft gd
  obtain ⟨h1, h2⟩ := hob
  obtain ⟨q1, e1, k1, n1⟩ := k0.optional bs _ n0 (if applicable m0 then b.lagrange else none) (fun es h => by
    split at h
    · rename_i ha
      exact ⟨fun d s _ => (h1 es h).follows _ _, (h1 es h).noStart, fun _ _ => hsel ha⟩
    · exact absurd h (by simp))
  obtain ⟨h3, h4⟩ := h2 q1 e1
  obtain ⟨q2, e2, k2, n2⟩ := k1.optional bs _ n1 b.localSearch (fun es h =>
    ⟨(h3 es h).2, (h3 es h).1.noStart, fun low hl => absurd hl ((h3 es h).1.noRelax low)⟩)
  obtain ⟨n, mem', x', seen, g1, g2, g3, g4, g5, g6, g7, g8⟩ := loop_ok bs o ho w lim cb hcb { current := q2.1 } q2.2 (h4 q2 e2)
    (lim.iterationMax.toNat + 1) 0 false mem _ _ .start k2 n2 (by simp)
  obtain ⟨⟨r, m', hs⟩, -⟩ := Ok.ends bs x'.done g5.follows g5.starts g5.relaxes
  have hpost : postprocess (Whole.cfg i fast selRel O).sels x'.st.holder x'.st.model = some (r, m') := by
    unfold Search.solve at hs
    rw [g5.ran, Option.bind_some] at hs
    exact hs
  refine ⟨n, mem', r, m', seen, x'.done, ?_, ?_, by omega, g4, fun q hq => ?_, ?_, fun q hq => ?_, ?_⟩
  · unfold call
    rw [h0, Option.bind_some]
    unfold searches before
    rw [e1, Option.bind_some, e2, Option.bind_some, g1, Option.bind_some]
    dsimp only
    rw [hpost]
    rfl
  · rcases g3 with g3 | g3 <;> omega
  · exact truthful i O m1 m0 fast selRel name C p hu hm hname hf hpen hprep hgf h0 hC hcon q.2 (g6 q hq)
  · exact g8.tail
  · rw [List.getLast?_cons, List.getLast?_map, hq] at g7
    simp at g7
    rw [← g7]
  · exact C68.report_solves_user_model_partial i O m0 fast selRel p hf hpen
      (fun m hm => by
        rw [hprep] at hm
        simp only [Option.some.injEq, Outcome.ok.injEq] at hm
        rw [← hm]; exact hgf) h0 x'.done (g5.legal bs) r m' (by unfold Whole.solve; rw [h0]; exact hs)

/-! ## With the bounding of variables during the search, which is on by default -/

section
variable {C0 : Nbhd.Config ν μ} {cfg : Cfg} {m0 : MState} {name : ℕ → String} {Ω κ : Type}

/-- What holds between two searches. -/
structure Kept (m0 : MState) (name : ℕ → String) (C : Nbhd.Config ν μ) (c : State) (x : Sofar) : Prop where
  sound : ∃ B, Sound m0 B name c.current x
  held : ∃ B, Held m0 B 0 x ∧ PastFlips B (pastOf x.done)
  rooted : Rooted C m0
  fresh : Fresh C.recent x.st.model
  found : c.feasNow = true → x.st.holder.found = true

theorem Kept.lap {C : Nbhd.Config ν μ} {o : Opt} {c : State} {x : Sofar} {lap : Lap} (g : Ground cfg m0) (hgrid : OnGrid m0 1)
    (hpen : 0 ≤ m0.globalPen) (hname : C48.Distinct name m0) (hcon : C74.Constrained m0) (ho : o.mode = .smart)
    (h : Kept m0 name C c x) (hom : OnlyMoves lap.body) (hp : ∀ i, 0 ≤ lap.less i ∧ 0 ≤ lap.greater i)
    (hob : PhaseObeys C name cfg c.current lap.body x) :
    ∃ r, lapStep name cfg o lap c x = some r ∧ Kept m0 name { C with recent := renew C.recent r.2.st.model } r.1 r.2 := by
  have he : Err m0 0 := Or.inr ⟨rfl, 1, by norm_num, hgrid⟩
  obtain ⟨B, hB, hpf⟩ := h.held
  obtain ⟨B1, hS⟩ := h.sound
  have r := h.rooted
  obtain ⟨y, hy, B2, hS'⟩ := hS.lap g hgrid hpen hname ho h.found hom hp (fun hs ev hev => by
    obtain ⟨⟨d, s⟩, h1⟩ := Option.isSome_iff_exists.1 hs
    obtain ⟨l, gg, hn, st⟩ := hB.stat
    exact legal_forth st ev ((hB.obeys g he hcon h.rooted h.fresh hpf hom hob h1).1 ev hev))
  obtain ⟨⟨B3, hB3, f', hp'⟩, hc'⟩ := hB.next g he hcon h.found h.rooted h.fresh hpf hom hp hob hy
  exact ⟨y, hy, ⟨B2, hS'⟩, ⟨B3, hB3, hp'⟩,
    ⟨r.varIds, r.conIds, r.terms, r.enabled, r.sense, r.names, r.vars, r.pairs⟩, f', hc'⟩

/-- The loop with a function that only reads. -/
theorem loop_kept (g : Ground cfg m0) (hgrid : OnGrid m0 1) (hpen : 0 ≤ m0.globalPen) (hname : C48.Distinct name m0)
    (hcon : C74.Constrained m0) (o : Opt) (ho : o.mode = .smart) (w : World Ω) (lim : Limits) (cb : Fn κ Ω)
    (hcb : OnlyReads cb) (c0 : State) (x0 : Sofar)
    (hob : ∀ C k st c x, Arrived C0 w name cfg o lim c0 x0 C k st c x → ends lim (w.clock k c x) k x.st.holder st = false →
        OnlyMoves (w.search (w.option k c x) k c x).1.body ∧
        (∀ i, 0 ≤ (w.search (w.option k c x) k c x).1.less i ∧ 0 ≤ (w.search (w.option k c x) k c x).1.greater i) ∧
        PhaseObeys C name cfg c.current (w.search (w.option k c x) k c x).1.body x) (fuel : ℕ) : ∀ C k st mem c x,
    Arrived C0 w name cfg o lim c0 x0 C k st c x → Kept m0 name C c x →
    (lim.iterationMax - k).toNat < fuel →
    ∃ (n : ℕ) (mem' : κ) (x' : Sofar) (seen : List (Ω × Sofar)), loop w name cfg o lim cb fuel k st mem c x = some (n, mem', x') ∧ n = k + seen.length ∧
      (n = k ∨ (n : ℤ) ≤ lim.iterationMax) ∧
      mem' = seen.foldl (fun m p => (cb m p.1 p.2.st.holder).1) mem ∧ (∃ B cur, Sound m0 B name cur x') ∧
      (∀ p ∈ seen, ∃ B, Held m0 B 0 p.2) ∧
      (x :: seen.map Prod.snd).getLast? = some x' ∧
      (x.done :: seen.map (fun p => p.2.done)).IsChain (· <+: ·) := by
  induction fuel with
  | zero => intro C k st mem c x _ _ h; omega
  | succ f ih =>
    intro C k st mem c x hr hk hfuel
    rw [loop]
    by_cases he : ends lim (w.clock k c x) k x.st.holder st = true
    · rw [if_pos he]
      obtain ⟨B, hB⟩ := hk.sound
      exact ⟨k, mem, x, [], rfl, rfl, Or.inl rfl, rfl, ⟨B, _, hB⟩, by simp, rfl, by simp⟩
    · rw [if_neg he]
      have he' : ends lim (w.clock k c x) k x.st.holder st = false := by simpa using he
      have hlt : (k : ℤ) < lim.iterationMax := by
        by_contra hge
        apply he
        unfold ends
        have : decide ((k : ℤ) ≥ lim.iterationMax) = true := by simp; omega
        rw [this]; simp
      obtain ⟨g1, g2, g3⟩ := hob C k st c x hr he'
      obtain ⟨r, e, k1⟩ := hk.lap g hgrid hpen hname hcon ho g1 g2 g3
      dsimp only
      rw [e, Option.bind_some]
      rw [put_back r.2 _ (hcb mem (w.option k c x) r.2.st.holder)]
      obtain ⟨n, mem', x', seen, h1, h2, h3, h4, h5, h6, h7, h8⟩ := ih _ (k + 1) _
        (cb mem (w.option k c x) r.2.st.holder).1 r.1 r.2 (hr.next he' e) k1 (by omega)
      refine ⟨n, mem', x', (w.option k c x, r.2) :: seen, h1, by rw [h2, List.length_cons]; omega, Or.inr ?_, by rw [h4]; rfl,
        h5, ?_, ?_, ?_⟩
      · rcases h3 with h3 | h3
        · omega
        · exact h3
      · intro p hp
        rcases List.mem_cons.1 hp with rfl | hp
        · obtain ⟨B, hB, -⟩ := k1.held
          exact ⟨B, hB⟩
        · exact h6 p hp
      · simpa using h7
      · simp only [List.map_cons]
        exact List.IsChain.cons_cons (lap_extends e) h8

/-- The state with which the tabu searches begin. -/
theorem before_kept (g : Ground cfg m0) (hgrid : OnGrid m0 1) (hpen : 0 ≤ m0.globalPen) (hname : C48.Distinct name m0)
    (hcon : C74.Constrained m0) (ft : C74.Fits C0 cfg m0) (o : Opt) (w : World Ω) (lim : Limits) (b : Before)
    (hob : AllObeyNow C0 w name cfg o lim m0 b) :
    ∃ p q, optional name cfg (firstSolution name m0) (if applicable m0 then b.lagrange else none) ⟨begin m0, []⟩ = some p ∧
      optional name cfg p.1 b.localSearch p.2 = some q ∧ Kept m0 name C0 { current := q.1 } q.2 := by
  have he : Err m0 0 := Or.inr ⟨rfl, 1, by norm_num, hgrid⟩
  obtain ⟨o1, o2⟩ := hob
  have r : Rooted C0 m0 := ⟨ft.varIds, ft.conIds, ft.terms, ft.enabled, ft.sense, ft.names, ft.vars, ft.pairs⟩
  have f0 : Fresh C0.recent m0 := by
    refine ⟨fun v _ hf => ?_, fun v hv hs => ?_, fun v hv hs => ?_⟩
    · rw [ft.recent, ft.fixed]; exact hf
    · rw [ft.recent, ft.sense] at hs
      rcases (g.sort v hv).2 with k | k
      · exact k.2
      · rw [hs] at k; exact absurd k (by decide)
    · rw [ft.recent, ft.sense] at hs
      rcases (g.sort v hv).2 with k | k
      · rw [hs] at k; exact absurd k.1 (by decide)
      · rw [hs] at k; exact absurd k (by decide)
  have s0 := C66.stat_refl m0
  have hlag : ∀ es, (if applicable m0 then b.lagrange else none) = some es → OnlyRelaxes es := fun es hb => by
    split at hb
    · exact o1 es hb
    · exact absurd hb (by simp)
  obtain ⟨p, e1, h1⟩ := Sound.optional g hgrid hpen hname _ (if applicable m0 then b.lagrange else none) _
    (Sound.begin g hgrid hpen hname) (fun es hb => by
      refine ⟨fun _ ev hev => ?_, fun ev hev => Or.inr (hlag es hb ev hev)⟩
      obtain ⟨low, rfl⟩ := hlag es hb ev hev
      trivial)
  have a1 := h1.held
  obtain ⟨l1, g1, -, st1⟩ := a1.stat
  have f1 : Fresh C0.recent p.2.st.model := f0.stat s0 st1
  have p1 : PastFlips m0 (pastOf p.2.done) := by
    have : pastOf p.2.done = [] := by
      cases hb : (if applicable m0 then b.lagrange else none) with
      | none => rw [hb] at e1; obtain rfl := Option.some.inj e1; rfl
      | some es =>
        rw [hb] at e1
        have hp : phase name cfg (firstSolution name m0) es ⟨Search.begin m0, []⟩ = some p := e1
        unfold phase at hp
        obtain ⟨⟨d, s⟩, h1, hp⟩ := Option.bind_eq_some_iff.1 hp
        obtain ⟨s', h2, hp⟩ := Option.bind_eq_some_iff.1 hp
        obtain ⟨d', -, rfl⟩ := Option.map_eq_some_iff.1 hp
        show pastOf ([] ++ (.start d :: es)) = []
        rw [pastOf_append, List.foldl_cons]
        exact pastOf_relaxes es (hlag es hb) _
    rw [this]
    intro mv hm; exact absurd hm (by simp)
  obtain ⟨o3, -⟩ := o2 p e1
  have hls : ∀ es, b.localSearch = some es → (startFrom name cfg p.1 p.2.st).isSome = true → ∀ ev ∈ es, C66.LegalEvent cfg m0 ev := by
    intro es hb hs ev hev
    obtain ⟨⟨d, s⟩, h1⟩ := Option.isSome_iff_exists.1 hs
    exact (a1.obeys g he hcon r f1 p1 (o3 es hb).1 (o3 es hb).2 h1).1 ev hev
  obtain ⟨q, e2, h2⟩ := Sound.optional g hgrid hpen hname p.1 b.localSearch p.2 h1
    (fun es hb => ⟨hls es hb, fun ev hev => Or.inl ((o3 es hb).1 ev hev)⟩)
  obtain ⟨l2, g2, -, st2⟩ := h2.held.stat
  refine ⟨p, q, e1, e2, ⟨m0, h2⟩, ⟨m0, h2.held, ?_⟩, r, f1.stat st1 st2, fun hf => absurd hf (by simp)⟩
  cases hb : b.localSearch with
  | none => rw [hb] at e2; obtain rfl := Option.some.inj e2; exact p1
  | some es =>
    rw [hb] at e2
    have hq : phase name cfg p.1 es p.2 = some q := e2
    unfold phase at hq
    obtain ⟨⟨d, s⟩, h1, hq⟩ := Option.bind_eq_some_iff.1 hq
    obtain ⟨s', h2, hq⟩ := Option.bind_eq_some_iff.1 hq
    obtain ⟨d', -, rfl⟩ := Option.map_eq_some_iff.1 hq
    exact (a1.obeys g he hcon r f1 p1 (o3 es hb).1 (o3 es hb).2 h1).2

end

/-- The same with the bounding of variables during the search, under the conditions of C94 and with the restarts of the mode
"smart" (both are on by default): the call returns after at most `iteration_max` tabu searches, the function was called once
after each of them, each time the incumbents told the truth about everything met until then, and the report is right.

Missing: functions that change the incumbents; what is missing in C94. -/
theorem what_is_read_is_right_with_bounding_partial (i : Input) (O m1 m0 : MState) (fast : Bool) (selRel : ℕ → List ℕ)
    (name : ℕ → String) (o : Opt) (C : Nbhd.Config ν μ) (p : Ordinary i.options O) (ob : PlainObjective O) (hu : C76.Unselected O)
    (hno : selections i.options i.lt i.user O = []) (hname : C48.Distinct name O)
    (hf : ∃ σ, Feasible O σ) (hpen : 0 ≤ i.pen)
    (hprep : prepare i.options i.lt i.user O = some (.ok m1)) (hgf : ofType i.lt m1 .gf2 = [])
    (h0 : started i O = some m0) (hC : C76.SetUp C selRel m1) (hcon : C74.Constrained m0)
    (ho : o.mode = .smart) {Ω κ : Type} (w : World Ω) (lim : Limits) (cb : Fn κ Ω) (hcb : OnlyReads cb) (mem : κ) (b : Before)
    (hob : AllObeyNow C w name (Whole.cfg i fast selRel O) o lim m0 b) :
    ∃ (n : ℕ) (mem' : κ) (r : Named) (m' : MState) (seen : List (Ω × Sofar)) (es : List Event),
      call w i fast selRel name o lim cb mem O b = some (n, mem', r, m') ∧
      n ≤ lim.iterationMax.toNat ∧ seen.length = n ∧
      mem' = seen.foldl (fun m p => (cb m p.1 p.2.st.holder).1) mem ∧
      (∀ p ∈ seen, Truthful O m0 p.2.done p.2.st.holder) ∧
      (seen.map (fun p => p.2.done)).IsChain (· <+: ·) ∧
      (∀ p, seen.getLast? = some p → p.2.done = es) ∧
      (r.feasible = true ↔ Solves O r.values) ∧
      (O.objDefined = true → r.objective = exprValue O.obj r.values) ∧
      (∀ q ∈ C66.all m0 es, Solves O q.1 →
        Solves O r.values ∧ minObjective O r.values ≤ minObjective O q.1 + 1e-5) := by
  have hl : launch i (selections i.options i.lt i.user O) m1 = some m0 := by
    unfold started at h0; rw [hprep] at h0; exact h0
  have pr := prepared i.options i.lt i.user O m1 p hf hprep
  have pt := C76.pointers i.options i.lt i.user O m1 p hf hu hprep
  have ft : C74.Fits C (Whole.cfg i fast selRel O) m0 := C76.fits p pr pt hC i hgf hl
  have g := C94.ground fast selRel p ob hno hf hpen pr hgf hl
  obtain ⟨hgrid, -⟩ := C94.grid p pr hgf hl
  obtain ⟨l, -, -, -⟩ := C68.launched p pr i hgf hl
  obtain ⟨r1, r2, r3, r4, r5, -, -, r8, r9⟩ := l.rest
  have hgp : 0 ≤ m0.globalPen := by rw [r9]; exact hpen
  have hname' : C48.Distinct name m0 := by
    intro v hv w hw
    rw [r2, pr.varIds] at hv hw
    exact hname v hv w hw
  obtain ⟨q1, q2, e1, e2, k⟩ := before_kept g hgrid hgp hname' hcon ft o w lim b hob
  obtain ⟨n, mem', x', seen, g1, g2, g3, g4, ⟨B, cur, g5⟩, g6, g7, g8⟩ := loop_kept g hgrid hgp hname' hcon o ho w lim cb hcb _ _
    ((hob.2 q1 e1).2 q2 e2) (lim.iterationMax.toNat + 1) C 0 false mem _ _ .start k (by simp)
  obtain ⟨r, m', hpost⟩ := g5.report g
  obtain ⟨q, hq, hag, hr, hcons, hbest, -, -⟩ := g5.held.report g hgp hpost
  simp only [mul_zero, add_zero] at hbest
  obtain ⟨c1, c2, c3⟩ := C68.concluded p hf pr l r (C66.all m0 x'.done) q hag hr hcons hbest (by rw [hno]; simp)
  refine ⟨n, mem', r, m', seen, x'.done, ?_, ?_, by omega, g4, fun q hq => ?_, ?_, fun q hq => ?_, c1, c2, c3⟩
  · unfold call
    rw [h0, Option.bind_some]
    unfold searches before
    rw [e1, Option.bind_some, e2, Option.bind_some, g1, Option.bind_some]
    dsimp only
    rw [hpost]
    rfl
  · rcases g3 with g3 | g3 <;> omega
  · obtain ⟨B', hB'⟩ := g6 q hq
    obtain ⟨calls, ec, fa⟩ := hB'.calls
    exact truthful_of i O m1 m0 p hf hprep hgf h0 g.deps q.2 calls ec fa (by rw [hno]; simp)
  · exact g8.tail
  · rw [List.getLast?_cons, List.getLast?_map, hq] at g7
    simp at g7
    rw [← g7]

/-! ### A call meeting the conditions: the model and the searches of C78, with at most two tabu searches and a function that
notes the number it finds in the options and the objective of the best feasible solution. -/

namespace Sample
open C76.Sample C78.Sample

def world : World ℕ := ⟨fun k _ _ => k, fun k _ _ => 10 * k, fun _ k _ _ => (if k = 0 then lap1 else lap2, false)⟩
def lim : Limits := ⟨60, 2, -1000⟩
def pre : Before := ⟨some [.relax (fun _ => true)], some [.move inc false]⟩
def note : Fn (List (ℕ × Option ℚ)) ℕ := fun mem op h => (mem ++ [(op, h.feasObj)], 77, h)

theorem reads : OnlyReads note := fun _ _ _ => rfl

theorem late (k : ℕ) (e : ℚ) (h : Holder Dense) (b : Bool) : ends lim e (k + 1 + 1) h b = true := by
  have : decide (((k + 1 + 1 : ℕ) : ℤ) ≥ lim.iterationMax) = true := by
    rw [decide_eq_true_eq]; show (2 : ℤ) ≤ _; push_cast; omega
  unfold ends
  rw [this]; simp

theorem obeys : AllObey conf world name (Whole.cfg inp true selRel ex) opt lim m0 pre := by
  refine ⟨fun b hb e he => ?_, fun p hp => ?_⟩
  · obtain rfl := Option.some.inj hb
    exact ⟨_, List.mem_singleton.1 he⟩
  have hp' : p = p1 := by
    rw [if_neg (by rw [skipped]; decide)] at hp
    exact (Option.some.inj hp).symm
  subst hp'
  refine ⟨fun b hb => ?_, fun q hq => ?_⟩
  · obtain rfl := Option.some.inj hb
    refine ⟨fun e he => ⟨_, _, List.mem_singleton.1 he⟩, fun d s hs => ⟨?_, fun _ _ => trivial⟩⟩
    have e : (d, s) = t1 := by unfold t1 C76.Sample.cfg; rw [hs]; rfl
    obtain rfl : s = t1.2 := by rw [← e]
    exact ⟨on, C74.Sample.every, by simp [on], .plain (cands t1.2) inc (by decide +kernel) (by decide +kernel)⟩
  · have hq' : q = p2 := by unfold p2 C76.Sample.cfg; rw [show plan.localSearch = pre.localSearch from rfl, hq]; rfl
    subst hq'
    intro k b c x hr he
    cases hr with
    | start =>
      refine ⟨fun e he => ⟨_, _, List.mem_singleton.1 he⟩, fun c => by show 0 ≤ lap1.less c ∧ 0 ≤ lap1.greater c; unfold lap1; norm_num,
        fun d s hs => ⟨?_, fun _ _ => trivial⟩⟩
      have e : (d, s) = t2 := by unfold t2 C76.Sample.cfg; rw [hs]; rfl
      obtain rfl : s = t2.2 := by rw [← e]
      exact ⟨on, C74.Sample.every, by simp [on], .plain (cands t2.2) swap (by decide +kernel) (by decide +kernel)⟩
    | next h1 h2 h3 =>
      cases h1 with
      | start =>
        rename_i r
        have hr' : r = p3 := by
          unfold p3 c2 C76.Sample.cfg
          rw [show lap1 = (world.search (world.option 0 { current := p2.1 } p2.2) 0 { current := p2.1 } p2.2).1 from rfl, h3]; rfl
        subst hr'
        refine ⟨fun e he => ⟨_, _, List.mem_singleton.1 he⟩, fun c => by show 0 ≤ lap2.less c ∧ 0 ≤ lap2.greater c; unfold lap2; norm_num,
          fun d s hs => ⟨?_, fun _ _ => trivial⟩⟩
        have e : (d, s) = t3 := by unfold t3 C76.Sample.cfg; rw [hs]; rfl
        obtain rfl : s = t3.2 := by rw [← e]
        exact ⟨on, C74.Sample.every, by simp [on], .plain (cands t3.2) swap (by decide +kernel) (by decide +kernel)⟩
      | next h1 h2 h3 =>
        rw [late] at he; cases he

/-- The hypotheses of the theorem above (those about the model are shown in C78). -/
example : lim.iterationMax = 2 ∧ opt.bounding = false ∧ OnlyReads note ∧
    AllObey conf world name (Whole.cfg inp true selRel ex) opt lim m0 pre := ⟨rfl, rfl, reads, obeys⟩

/-- The function was called twice, with the options of the two searches (not with the number 77 it had written there), and
found the objective of the best solution of the moment. -/
example : (call world inp true selRel name opt lim note [] ex pre).map
    (fun p => (p.1, p.2.1, [0, 1, 2, 3, 4].map p.2.2.1.values, p.2.2.1.objective)) =
    some (2, [(0, some (-5)), (10, some (-5))], [1, 0, 0, 2, 1], -5) := by
  decide +kernel

/-- A function that writes the incumbents can end the call: here it is called once only, as it pretends that the target was
reached. -/
example : (call world inp true selRel name opt lim (fun (n : ℕ) op h => (n + 1, op, { h with feasObj := some (-2000) })) 0 ex pre).map
    (fun p => (p.1, p.2.1)) = some (1, 1) := by
  decide +kernel

end Sample

/-! ### A call with bounding meeting the conditions: the model and the searches of C94, with at most three tabu searches.  After
the second one `x0` is fixed. -/

namespace Bounding
open C94.Renewed

def world : World ℕ := ⟨fun k _ _ => k, fun k _ _ => 10 * k, fun _ k _ _ => (if k = 0 then lap1 else if k = 1 then lap2 else lap3, false)⟩
def lim : Limits := ⟨60, 3, -1000⟩
def pre : Before := ⟨some [.relax (fun _ => true)], none⟩

theorem late (k : ℕ) (e : ℚ) (h : Holder Dense) (b : Bool) : ends lim e (k + 1 + 1 + 1) h b = true := by
  have : decide (((k + 1 + 1 + 1 : ℕ) : ℤ) ≥ lim.iterationMax) = true := by
    rw [decide_eq_true_eq]; show (3 : ℤ) ≤ _; push_cast; omega
  unfold ends
  rw [this]; simp

theorem obeys : AllObeyNow conf world name (Whole.cfg inp true selRel ex) opt lim m0 pre := by
  refine ⟨fun b hb e he => ?_, fun p hp => ⟨fun b hb => absurd hb (by simp [pre]), fun q hq C k b c x hr he => ?_⟩⟩
  · obtain rfl := Option.some.inj hb
    exact ⟨_, List.mem_singleton.1 he⟩
  have hp' : p = p1 := by unfold p1 x0 C94.Renewed.cfg; rw [show plan.lagrange = pre.lagrange from rfl, hp]; rfl
  obtain rfl : q = (p.1, p.2) := (Option.some.inj hq).symm
  rw [hp'] at hr
  cases hr with
  | start =>
    refine ⟨fun e he => ⟨_, _, List.mem_singleton.1 he⟩, fun c => by show 0 ≤ lap1.less c ∧ 0 ≤ lap1.greater c; unfold lap1; norm_num,
      fun d s hs => ⟨?_, fun _ _ => trivial⟩⟩
    have e : (d, s) = t1 := by unfold t1 C94.Renewed.cfg; rw [hs]; rfl
    obtain rfl : s = t1.2 := by rw [← e]
    exact ⟨on, C74.Sample.every, by simp [on], .plain (cands conf.recent t1.2) (flip 1) (by decide +kernel) (by decide +kernel)⟩
  | next h1 h2 h3 =>
    cases h1 with
    | start =>
      rename_i r
      have hr' : r = p2 := by
        unfold p2 c1 C94.Renewed.cfg
        rw [show lap1 = (world.search (world.option 0 { current := p1.1 } p1.2) 0 { current := p1.1 } p1.2).1 from rfl, h3]; rfl
      subst hr'
      refine ⟨fun e he => ?_, fun c => by show 0 ≤ lap2.less c ∧ 0 ≤ lap2.greater c; unfold lap2; norm_num, fun d s hs => ⟨?_, fun s' hs' => ⟨?_, fun _ _ => trivial⟩⟩⟩
      · change e ∈ lap2.body at he
        simp only [lap2, List.mem_cons, List.not_mem_nil, or_false] at he
        rcases he with rfl | rfl <;> exact ⟨_, _, rfl⟩
      · have e : (d, s) = t2 := by unfold t2 C94.Renewed.cfg; rw [hs]; rfl
        obtain rfl : s = t2.2 := by rw [← e]
        exact ⟨on, C74.Sample.every, by simp [on], .plain (cands r2 t2.2) (inc 1) (by decide +kernel) (by decide +kernel)⟩
      · have e : (d, s) = t2 := by unfold t2 C94.Renewed.cfg; rw [hs]; rfl
        obtain rfl : s = t2.2 := by rw [← e]
        obtain rfl : s' = s2 := by unfold s2 C94.Renewed.cfg; rw [hs']; rfl
        exact ⟨on, C74.Sample.every, by simp [on], .plain (cands r2 s2) (flip 0) (by decide +kernel) (by decide +kernel)⟩
    | next h1 h2' h3' =>
      cases h1 with
      | start =>
        rename_i r' r
        have hr' : r = p2 := by
          unfold p2 c1 C94.Renewed.cfg
          rw [show lap1 = (world.search (world.option 0 { current := p1.1 } p1.2) 0 { current := p1.1 } p1.2).1 from rfl, h3']; rfl
        subst hr'
        have hr' : r' = p3 := by
          unfold p3 C94.Renewed.cfg
          rw [show lap2 = (world.search (world.option 1 p2.1 p2.2) 1 p2.1 p2.2).1 from rfl]
          have h3 : lapStep name (Whole.cfg inp true selRel ex) opt (world.search (world.option 1 p2.1 p2.2) 1 p2.1 p2.2).1 p2.1 p2.2 = some r' := h3
          rw [h3]; rfl
        subst hr'
        refine ⟨fun e he => ⟨_, _, List.mem_singleton.1 he⟩, fun c => by show 0 ≤ lap3.less c ∧ 0 ≤ lap3.greater c; unfold lap3; norm_num,
          fun d s hs => ⟨?_, fun _ _ => trivial⟩⟩
        have e : (d, s) = t3 := by unfold t3 C94.Renewed.cfg; rw [hs]; rfl
        obtain rfl : s = t3.2 := by rw [← e]
        exact ⟨on, C74.Sample.every, by simp [on], .plain (cands r3 t3.2) (flip' 0) (by decide +kernel) (by decide +kernel)⟩
      | next h1 h2 h3 => rw [late] at he; cases he

/-- The hypotheses of the theorem with bounding (those about the model are shown in C94). -/
example : lim.iterationMax = 3 ∧ opt.mode = .smart ∧ opt.bounding = true ∧ OnlyReads Sample.note ∧ C48.Distinct name ex ∧
    AllObeyNow conf world name (Whole.cfg inp true selRel ex) opt lim m0 pre :=
  ⟨rfl, rfl, rfl, Sample.reads, (by unfold C48.Distinct; decide +kernel), obeys⟩

/-- What the function noted, the report, and the bounds of the variables at the end. -/
example : (call world inp true selRel name opt lim Sample.note [] ex pre).map (fun p => (p.1, p.2.1)) =
    some (3, [(0, some 3), (10, some 1), (20, some 1)]) := by decide +kernel
example : (call world inp true selRel name opt lim Sample.note [] ex pre).map
    (fun p => ([0, 1].map p.2.2.1.values, p.2.2.1.objective, [0, 1].map fun v => ((p.2.2.2.var v).lb, (p.2.2.2.var v).ub))) =
    some ([0, 1], 1, [(0, 0), (0, 1)]) := by decide +kernel

end Bounding

end Printemps.C100
