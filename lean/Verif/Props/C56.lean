import Verif.Props.C57
import Verif.Props.C40

/-! # C56 — an OPTIMAL verdict is right

`tabuVerdict moves m incumbent bound` is the verdict of tabu search before it picks a move, `localVerdict` that
of local search.  `trace` and `localTrace` are the searches seen by the flags (any moves, any number). -/

namespace Printemps.C56
open Spec MState Screen C57

/-- The current values are optimal: no admissible values have a better objective. -/
def Optimal (m : MState) : Prop := ∀ τ, InBounds m.var τ → minObjective m (assignment m) ≤ minObjective m τ

theorem minObjective_congr (m : MState) (ht : Tidy m) (σ τ : ℕ → ℤ) (h : ∀ v ∈ m.varIds, σ v = τ v) :
    minObjective m σ = minObjective m τ := by
  have : exprValue m.obj σ = exprValue m.obj τ := by
    unfold exprValue
    congr 2
    refine List.map_congr_left fun t htm => ?_
    rw [h t.1 (ht.objListed t htm)]
  unfold minObjective
  rw [this]

/-- With right flags, no flag means optimal. -/
theorem no_flag_optimal (m : MState) (ht : Tidy m) (hd : m.objDefined = true) (hr : ∀ v ∈ m.mutableIds, FlagRight m v)
    (hno : m.varIds.any (fun v => (m.var v).objImprovable) = false) : Optimal m := by
  intro τ hτ
  have e : minObjective m τ = minObjective m (fun v => if v ∈ m.varIds then τ v else (m.var v).value) :=
    minObjective_congr m ht _ _ fun v hv => by simp [hv]
  rw [e]
  refine objective_screening_hides_nothing m ht hd hr _ fun v hv => ?_
  by_cases hl : v ∈ m.varIds
  · simp only [hl, if_true] at hv ⊢
    have hf : (m.var v).fixed = false := by
      by_contra hc
      exact hv ((hτ v).1 (by simpa using hc))
    obtain ⟨h1, h2⟩ := (hτ v).2 hf
    refine ⟨List.mem_filter.2 ⟨hl, by simp [hf]⟩, h1, h2, ?_⟩
    simpa using List.any_eq_false.1 hno v hl
  · exact absurd (by simp [hl]) hv

/-- Tabu search with screening, after any history: OPTIMAL without moves means that the current values are
feasible (flag) and optimal among all admissible values. -/
theorem no_move_verdict_right (mode : Mode) (hm : mode ≠ .off) (m : MState) (ht : Tidy m) (hd : m.objDefined = true)
    (last : Move) (prev : Bool) (mvs : List Move) (hin : ∀ mv ∈ mvs, Inside m mv) (n : MState)
    (hn : n = trace mode 0 prev last m mvs) (moves : ℤ) (hmv : moves ≤ 0) (f d : Option ℚ)
    (hv : tabuVerdict moves n f d = some .optimal) : n.feasible = true ∧ Optimal n := by
  have hmain := objective_flags_exact mode hm m ht hd last prev mvs hin
  have hdn := trace_objDefined mode 0 prev last m mvs
  rw [← hn] at hmain hdn
  obtain ⟨h1, h2⟩ := hmain
  unfold tabuVerdict at hv
  rw [if_neg (by omega)] at hv
  split at hv
  · next hf =>
    split at hv
    · cases hv
    · next hno => exact ⟨hf, no_flag_optimal n h1 (by rw [hdn]; exact hd) h2 (by simpa using hno)⟩
  · cases hv

/-- Local search, after any history: the same. -/
theorem local_verdict_right (m : MState) (ht : Tidy m) (hd : m.objDefined = true) (last : Move) (mvs : List Move)
    (hin : ∀ mv ∈ mvs, Inside m mv) (n : MState) (hn : n = localTrace 0 last m mvs) (moves : ℤ)
    (hv : localVerdict moves n = some .optimal) : n.feasible = true ∧ Optimal n := by
  have hmain := local_objective_flags_exact m ht hd last mvs hin
  rw [← hn] at hmain
  obtain ⟨h1, h2, h3⟩ := hmain
  unfold localVerdict at hv
  split at hv
  · cases hv
  · split at hv
    · next hf =>
      split at hv
      · cases hv
      · next hno => exact ⟨hf, no_flag_optimal n h1 h2 h3 (by simpa using hno)⟩
    · cases hv

/-- The other branch: OPTIMAL while there are moves, with a bound `d` that is below every feasible objective
(as minimised), means that no feasible assignment is better than the incumbent by the tolerance or more. -/
theorem bound_verdict_right (moves : ℤ) (m : MState) (f : Option ℚ) (d : Option ℚ) (hmv : 0 < moves)
    (hd : ∀ x, d = some x → ∀ τ, Feasible m τ → x ≤ minObjective m τ)
    (hv : tabuVerdict moves m f d = some .optimal) :
    ∃ z, f = some z ∧ ∀ τ, Feasible m τ → z < minObjective m τ + EPSILON := by
  unfold tabuVerdict at hv
  rw [if_pos hmv] at hv
  match f, d, hv with
  | some f, some d, hv =>
    dsimp only at hv
    split at hv
    · next hlt =>
      refine ⟨f, rfl, fun τ hτ => ?_⟩
      have h1 := hd d rfl τ hτ
      have h2 := (abs_lt.1 hlt).2
      linarith
    · cases hv

/-- With the naive bound of the start of the solver, for minimisation. -/
theorem naive_bound_verdict_right_partial (moves : ℤ) (m : MState) (f : ℚ) (hmv : 0 < moves) (hmin : m.isMin = true)
    (hobj : m.objDefined = true) (hv : tabuVerdict moves m (some f) (some m.naiveDualBound) = some .optimal) :
    ∀ τ, Feasible m τ → f < exprValue m.obj τ + EPSILON := by
  obtain ⟨z, hz, h⟩ := bound_verdict_right moves m (some f) (some m.naiveDualBound) hmv (fun x hx τ hτ => by
    cases hx
    have := C40.naive_bound_below_feasible m hobj τ hτ
    rwa [if_pos hmin] at this) hv
  cases hz
  intro τ hτ
  have := h τ hτ
  unfold minObjective at this
  rwa [if_pos hobj, if_pos hmin] at this

/-! ## Witnesses of wrong verdicts -/

private def line (lb ub x : ℤ) (isMin : Bool) : MState :=
  { Example.raw with
    var := fun _ => { Var.init with value := x, lb := lb, ub := ub, hasBounds := true }.updateMargin
    varIds := [0]
    con := fun _ => Con.setup ⟨[], 0, 0⟩ .less (fun _ => .integer)
    conIds := []
    obj := ⟨[(0, 1)], 0, 0⟩
    isMin := isMin
    objSens := fun v => if v = 0 then 1 else 0 }

/-- `max x`, `x` in [-3, 3]: incumbents are stored as minimised and the dual bound is not, so the worst solution
`x = -3` meets the naive bound 3 and is declared optimal. -/
theorem maximisation_verdict_wrong :
    let m := (line (-3) 3 (-3) false).update
    tabuVerdict 1 m (some (minObjective m (assignment m))) (some m.naiveDualBound) = some .optimal ∧
    (m.var 0).lb ≤ 3 ∧ 3 ≤ (m.var 0).ub ∧
    minObjective m (fun _ => 3) + 6 = minObjective m (assignment m) := by
  decide +kernel

/-- `min x`, `x` in [0, 5] at 5: with the screening mode Off the flags are never computed.  If the moves are
curtailed to half, the one or two moves of a small neighborhood can vanish and the worst solution is declared
optimal. -/
theorem off_mode_verdict_wrong :
    let m := trace .off 0 false { alterations := [], related := [] } (reset (line 0 5 5 true).update) []
    curtail (1 / 2) 1 = 0 ∧ tabuVerdict (curtail (1 / 2) 1) m (some 5) (some 0) = some .optimal ∧
    minObjective m (fun _ => 0) + 5 = minObjective m (assignment m) := by
  decide +kernel

/-! Non-vacuity. -/
theorem line_tidy (lb ub x : ℤ) (isMin : Bool) (h1 : lb ≤ x) (h2 : x ≤ ub) : Tidy (reset (line lb ub x isMin).update) := by
  have hfl : FlagsOnly (line lb ub x isMin).update (reset (line lb ub x isMin).update) :=
    (resetObjFlags_flags _).trans (resetFeasFlags_flags _)
  refine Tidy.of_flags hfl ?_
  have hwf : WellFormed (line lb ub x isMin) :=
    ⟨List.nodup_nil, fun c hc => by simp [line] at hc, by simp [line], fun i hi => by simp [line, Example.raw] at hi⟩
  have hvar : ∀ v, (line lb ub x isMin).update.var v =
    { Var.init with value := x, lb := lb, ub := ub, hasBounds := true }.updateMargin := fun _ => rfl
  have hobj : ∀ t ∈ (line lb ub x isMin).update.obj.terms, t = (0, 1) := by
    intro t htm
    rw [(update_shape _).objTerms] at htm
    simpa [line] using htm
  refine ⟨(update_shape _).wellFormed hwf, update_current _ (by intro i hi; simp [line, Example.raw] at hi),
    ?_, ?_, ?_, ?_, ?_, ?_, ?_, rfl⟩
  · intro v _; rw [hvar]; simp [Var.updateMargin]
  · intro v _; rw [hvar]; simp [Var.updateMargin]
  · intro v _; rw [hvar]; exact ⟨h1, h2⟩
  · intro t htm; rw [hobj t htm]; rfl
  · intro v hv
    show (if v = 0 then (1 : ℚ) else 0) = 0
    rw [if_neg]
    rintro rfl
    apply hv
    rw [(update_shape _).objTerms]
    simp [line]
  · intro t htm; rw [hobj t htm, show (line lb ub x isMin).update.varIds = [0] from rfl]; simp
  · intro c hc
    rw [(update_shape _).conIds] at hc
    simp [line] at hc

example : tabuVerdict 0 (trace .soft 0 false { alterations := [], related := [] } (reset (line 0 5 0 true).update) [])
    none none = some .optimal := by decide +kernel

private def toZero : Move := { alterations := [(0, 0)], related := [], isUnivariable := true }

example : Inside (reset (line 0 5 5 true).update) toZero where
  good := ⟨by decide, by decide⟩
  covers := Or.inr ⟨by decide, by decide, fun c hc => by
    rw [show (reset (line 0 5 5 true).update).conIds = [] from rfl] at hc; simp at hc⟩
  bounds := by decide

/-- After the move to 0 the verdict is OPTIMAL, before it is not. -/
example :
    tabuVerdict 0 (trace .intensive 0 false toZero (reset (line 0 5 5 true).update) [toZero]) none none = some .optimal ∧
    tabuVerdict 0 (trace .intensive 0 false toZero (reset (line 0 5 5 true).update) []) none none = some .noMove ∧
    localVerdict 0 (localTrace 0 toZero (reset (line 0 5 5 true).update) [toZero]) = some .optimal ∧
    tabuVerdict 1 (line 0 5 5 true).update (some 0) (some (line 0 5 5 true).update.naiveDualBound) = some .optimal := by
  decide +kernel

end Printemps.C56
