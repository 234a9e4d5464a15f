import Verif.Model.RestartRun
import Verif.Props.C107

/-! # The runs of PDLP with the restarts its gaps lead to -/

namespace Printemps.Pdlp
open Lp Sparse

theorem search_counters (f : Fn) (o : Opt) (lp : LP) (lhs : List ℚ) (fuel : ℕ) : ∀ (st : State) (s : ℚ) (st' : State),
    search f o lp lhs fuel st s = some st' → st'.iteration = st.iteration ∧ st'.inner = st.inner := by
  induction fuel with
  | zero => intro st s st' h; cases h
  | succ fuel ih =>
    intro st s st' h
    unfold search at h
    obtain ⟨t, -, h2⟩ := Option.bind_eq_some_iff.1 h
    dsimp only at h2
    split at h2
    · obtain rfl := Option.some.inj h2
      exact ⟨rfl, rfl⟩
    · have := ih _ _ _ h2
      exact this

theorem average_counters (f : Fn) (o : Opt) (lp : LP) (fuel : ℕ) (st st1 : State)
    (h : updateSolution f o lp fuel st = some st1) :
    (updateAverage st1).iteration = st.iteration ∧ (updateAverage st1).inner = st.inner := by
  unfold updateSolution at h
  obtain ⟨lhs, -, h2⟩ := Option.bind_eq_some_iff.1 h
  have := search_counters f o lp lhs fuel _ _ _ h2
  exact this

theorem finish_counters (f : Fn) (d : Option Bool) (st : State) : (finishIteration f d st).iteration = st.iteration ∧
    (finishIteration f d st).inner = if d.isSome then 0 else st.inner + 1 := by
  cases d with
  | none => exact ⟨rfl, rfl⟩
  | some c =>
    unfold finishIteration newInnerLoop
    dsimp only
    constructor
    · generalize hz : (if c = true then st else { st with x := st.xAvg, y := st.yAvg }) = z
      have hi : z.iteration = st.iteration := by rw [← hz]; cases c <;> rfl
      split <;> exact hi
    · generalize (if c = true then st else { st with x := st.xAvg, y := st.yAvg }) = z
      rfl

/-- The counters kept twice agree. -/
structure Same (st : State) (rs : Restart.State) : Prop where
  total : rs.total = st.iteration
  inner : rs.inner = st.inner

/-- An iteration is one of `Model/Pdlp` for every plan with the same decision. -/
theorem iterate_planned (f : Fn) (o : Opt) (ro : Restart.Opt) (hro : ro.interval = o.restartInterval.natAbs) (big : ℚ) (lp : LP)
    (fuel : ℕ) (st : State) (rs : Restart.State) (hs : Same st rs) (q : (State × Restart.State) × (ℚ × ℚ) × Option Bool)
    (h : iterateGaps f o ro big lp fuel st rs = some q) :
    (∀ D : ℕ → Option Bool, D st.iteration = q.2.2 → iterate f o (fun s => D s.iteration) lp fuel st = some q.1.1) ∧
    q.1.1.iteration = st.iteration + 1 ∧ Same q.1.1 q.1.2 ∧ q.2.2 = (Restart.check ro q.2.1.1 q.2.1.2 rs).2 ∧
    q.1.2 = Restart.finish big (Restart.check ro q.2.1.1 q.2.1.2 rs) := by
  unfold iterateGaps at h
  obtain ⟨st1, h1, h⟩ := Option.bind_eq_some_iff.1 h
  obtain ⟨c1, c2⟩ := average_counters f o lp fuel st st1 h1
  dsimp only at h
  split at h
  · cases h
  rename_i hz
  obtain ⟨g, -, h⟩ := Option.bind_eq_some_iff.1 h
  obtain ⟨st3, h3, rfl⟩ := Option.map_eq_some_iff.1 h
  have c3 : st3.iteration = st.iteration ∧ st3.inner = st.inner := by
    split at h3
    · obtain ⟨i, -, rfl⟩ := Option.map_eq_some_iff.1 h3
      exact ⟨c1, c2⟩
    · obtain rfl := Option.some.inj h3
      exact ⟨c1, c2⟩
  have hfin := finish_counters f (Restart.check ro g.1 g.2 rs).2 st3
  have hk := C107.check_keeps ro g.1 g.2 rs
  refine ⟨fun D hD => ?_, ?_, ⟨?_, ?_⟩, rfl, rfl⟩
  · unfold iterate
    rw [h1, Option.bind_some]
    dsimp only
    rw [if_neg hz]
    have hd : restartDecision o (fun s => D s.iteration) (updateAverage st1) = (Restart.check ro g.1 g.2 rs).2 := by
      unfold restartDecision
      dsimp only
      rw [c1, c2, hD]
      have hdiv : ((st.iteration : ℤ) % o.restartInterval = 0) ↔ ro.interval ∣ rs.total := by
        rw [hro, hs.total, ← Int.dvd_iff_emod_eq_zero, ← Int.natAbs_dvd_natAbs]
        rfl
      have hn := (C107.check_notes ro g rs).2
      by_cases hc : (st.iteration : ℤ) % o.restartInterval = 0
      · rw [if_pos hc]
        by_cases hi : st.inner ≤ 1
        · rw [if_pos hi, hn (fun hh => by rw [hs.inner] at hh; omega)]
        · rw [if_neg hi]
      · rw [if_neg hc, hn (fun hh => hc (hdiv.2 hh.1))]
    rw [hd, h3]
    rfl
  · show (finishIteration f _ st3).iteration + 1 = _
    rw [hfin.1, c3.1]
  · show (Restart.finish big _).total = (finishIteration f _ st3).iteration + 1
    rw [hfin.1, c3.1, ← hs.total]
    unfold Restart.finish
    dsimp only
    split
    · show _ + 1 = _; rw [← hk.2.2.1]; rfl
    · show _ + 1 = _; rw [← hk.2.2.1]
  · show (Restart.finish big _).inner = (finishIteration f _ st3).inner
    rw [hfin.2, c3.2, ← hs.inner]
    unfold Restart.finish
    dsimp only
    split
    · rfl
    · show _ + 1 = _; rw [hk.1]

/-- A loop is one of `Model/Pdlp` for every plan with the same decisions, and the decisions are those of `Model/Restart` for every
sequence with the same gaps. -/
theorem loop_planned (f : Fn) (o : Opt) (ro : Restart.Opt) (hro : ro.interval = o.restartInterval.natAbs) (big : ℚ) (lp : LP)
    (clock : ℕ → ℚ) (attempts : ℕ → ℕ) (fuel : ℕ) : ∀ (st : State) (rs : Restart.State), Same st rs →
    ∀ (v : Verdict) (st' : State) (ds : List ((ℚ × ℚ) × Option Bool)),
    loopGaps f o ro big lp clock attempts fuel st rs = some (v, st', ds) →
    st'.iteration = st.iteration + ds.length ∧
    (∀ D : ℕ → Option Bool, (∀ k (hk : k < ds.length), D (st.iteration + k) = ds[k].2) →
      loop f o (fun s => D s.iteration) lp clock attempts fuel st = some (v, st')) ∧
    ∀ G : ℕ → ℚ × ℚ, rs = Restart.run ro big G st.iteration → (∀ k (hk : k < ds.length), G (st.iteration + k) = ds[k].1) →
      ∀ k (hk : k < ds.length), ds[k].2 = Restart.decision ro big G (st.iteration + k) := by
  induction fuel with
  | zero => intro st rs _ v st' ds h; cases h
  | succ fuel ih =>
    intro st rs hs v st' ds h
    unfold loopGaps at h
    cases ht : test o (clock st.iteration) st with
    | some w =>
      rw [ht] at h
      simp only [Option.some.injEq, Prod.mk.injEq] at h
      obtain ⟨rfl, rfl, rfl⟩ := h
      refine ⟨rfl, fun D _ => ?_, fun G _ _ k hk => absurd hk (by simp)⟩
      unfold loop
      rw [ht]
    | none =>
      rw [ht] at h
      dsimp only at h
      obtain ⟨q, h1, h⟩ := Option.bind_eq_some_iff.1 h
      obtain ⟨r, h2, h⟩ := Option.map_eq_some_iff.1 h
      simp only [Prod.mk.injEq] at h
      obtain ⟨rfl, rfl, rfl⟩ := h
      obtain ⟨p1, p2, p3, p4, p5⟩ := iterate_planned f o ro hro big lp _ st rs hs q h1
      obtain ⟨i1, i2, i3⟩ := ih q.1.1 q.1.2 p3 r.1 r.2.1 r.2.2 h2
      refine ⟨by rw [i1, p2, List.length_cons]; omega, fun D hD => ?_, fun G hG hgs k hk => ?_⟩
      · unfold loop
        rw [ht]
        dsimp only
        rw [p1 D (hD 0 (by simp)), Option.bind_some]
        refine i2 D fun k hk => ?_
        have hk' := hD (k + 1) (by simpa using hk)
        rw [p2]
        have e : st.iteration + (k + 1) = st.iteration + 1 + k := by omega
        rw [e] at hk'
        exact hk'
      · have hg0 : G st.iteration = q.2.1 := hgs 0 (by simp)
        cases k with
        | zero =>
          show q.2.2 = _
          unfold Restart.decision
          rw [Nat.add_zero, ← hG, hg0]
          exact p4
        | succ k =>
          have := i3 G (by rw [p2, p5, hG]; show _ = Restart.finish _ _; rw [hg0]) (fun j hj => by
            have hj' := hgs (j + 1) (by simpa using hj)
            have e : st.iteration + (j + 1) = st.iteration + 1 + j := by omega
            rw [e] at hj'
            rw [p2]
            exact hj') k (by simpa using hk)
          rw [p2] at this
          have e : st.iteration + (k + 1) = st.iteration + 1 + k := by omega
          rw [e]
          exact this

end Printemps.Pdlp
