import Verif.Lemmas.Verifier
import Verif.Lemmas.Solution

/-! # The selected variables recorded by the verification of the initial values -/

namespace Printemps.Verifier

/-- `x` was recorded for the selection `s`: it belongs to it, is not fixed and has the value 1. -/
def Recorded (m : MState) (s x : ℕ) : Prop :=
  x ∈ SelectionExtract.members m s ∧ (m.var x).fixed = false ∧ (m.var x).value = 1

theorem selectionStep_recorded (correct : Bool) (m : MState) (rel : ℕ → ℚ) (s : ℕ) (r : MState × (ℕ → ℚ))
    (hr : selectionStep correct m rel s = some r) (x : ℕ) (hx : r.1.selected s = some x) :
    m.selected s = some x ∨ Recorded r.1 s x := by
  obtain ⟨a1, -⟩ := selectionStep_spec correct m rel s r hr
  have hmem := a1.members s
  unfold selectionStep at hr
  simp only [] at hr
  split at hr
  · exact absurd hr (by simp)
  split at hr
  · exact absurd hr (by simp)
  rename_i hle
  split at hr
  · exact absurd hr (by simp)
  generalize hin : (SelectionExtract.members m s).filter (fun v => decide ((m.var v).value ≠ 0 ∧ (m.var v).value ≠ 1)) = invalid at *
  obtain ⟨-, s2, s3⟩ := setAll_spec invalid 0 m
  have keep : ∀ vs x y z, (setVar (setAll (setAll m invalid 0) vs x) y z).selected = m.selected := by
    intro vs x y z
    show (setAll (setAll m invalid 0) vs x).selected = _
    rw [(setAll_spec vs x _).2.1, s2]
  unfold settle at hr
  split at hr
  · split at hr
    · split at hr
      · exact absurd hr (by simp)
      · simp only [Option.some.injEq] at hr
        subst hr
        left; rw [← hx]; exact congrFun (keep _ _ _ _).symm s
    · exact absurd hr (by simp)
  · rename_i hne
    split at hr
    · split at hr
      · exact absurd hr (by simp)
      · split at hr
        · exact absurd hr (by simp)
        · simp only [Option.some.injEq] at hr
          subst hr
          left; rw [← hx]; exact congrFun (keep _ _ _ _).symm s
    · rename_i hgt
      split at hr
      · split at hr
        · exact absurd hr (by simp)
        · split at hr
          · exact absurd hr (by simp)
          · simp only [Option.some.injEq] at hr
            subst hr
            left; rw [← hx]
            show _ = (setAll m invalid 0).selected s
            rw [s2]
      · rename_i h0
        simp only [Option.some.injEq] at hr
        subst hr
        right
        dsimp only at hx
        rw [Function.update_self] at hx
        have hxo := List.mem_of_mem_head? hx
        rw [List.mem_filter, decide_eq_true_eq] at hxo
        have hnot : x ∉ invalid := by
          rw [← hin, List.mem_filter]
          rintro ⟨-, h⟩
          exact (of_decide_eq_true h).2 hxo.2
        have hvar : (setAll m invalid 0).var x = m.var x := by rw [s3, if_neg hnot]
        refine ⟨by rw [hmem]; exact hxo.1, ?_, ?_⟩
        · show ((setAll m invalid 0).var x).fixed = false
          rw [hvar]
          cases hf : (m.var x).fixed
          · rfl
          · exfalso
            have : x ∈ ((SelectionExtract.members m s).filter (fun v => (m.var v).value = 1)).filter (fun v => (m.var v).fixed) := by
              rw [List.mem_filter, List.mem_filter, decide_eq_true_eq]; exact ⟨hxo, hf⟩
            have := List.length_pos_of_mem this
            omega
        · show ((setAll m invalid 0).var x).value = 1
          rw [hvar]; exact hxo.2

theorem selections_recorded (correct : Bool) (ss : List ℕ) : ∀ (rel : ℕ → ℚ) (m m' : MState),
    ss.Nodup → ss.Pairwise (SelectionExtract.Apart m) → selections correct ss rel m = some m' →
    ∀ s x, m'.selected s = some x → m.selected s = some x ∨ (s ∈ ss ∧ Recorded m' s x) := by
  induction ss with
  | nil =>
    intro rel m m' _ _ h s x hx
    simp only [selections, Option.some.injEq] at h
    subst h
    exact Or.inl hx
  | cons s ss ih =>
    intro rel m m' hn hp h q x hx
    unfold selections at h
    simp only [Option.bind_eq_bind] at h
    obtain ⟨r, h1, h⟩ := Option.bind_eq_some_iff.1 h
    obtain ⟨a1, -, -, a4, -⟩ := selectionStep_spec correct m rel s r h1
    obtain ⟨p1, p2⟩ := List.pairwise_cons.1 hp
    obtain ⟨n1, n2⟩ := List.nodup_cons.1 hn
    have hmem : ∀ q, SelectionExtract.members r.1 q = SelectionExtract.members m q := a1.members
    have p2' : ss.Pairwise (SelectionExtract.Apart r.1) := p2.imp (by
      intro x y hxy v h1 h2; rw [hmem] at h1 h2; exact hxy v h1 h2)
    obtain ⟨b1, -, b3, -⟩ := selections_spec correct ss r.2 r.1 m' n2 p2' h
    rcases ih r.2 r.1 m' n2 p2' h q x hx with k | ⟨k1, k2⟩
    · by_cases hq : q = s
      · subst hq
        rcases selectionStep_recorded correct m rel q r h1 x k with k | ⟨k1, k2, k3⟩
        · exact Or.inl k
        · refine Or.inr ⟨by simp, ?_⟩
          have e : m'.var x = r.1.var x := b3 x (fun t ht hm => p1 t ht x (by rw [← hmem]; exact k1) (by rw [← hmem]; exact hm))
          exact ⟨by rw [b1.members]; exact k1, by rw [e]; exact k2, by rw [e]; exact k3⟩
      · left; rw [← a4 q hq]; exact k
    · exact Or.inr ⟨by simp [k1], k2⟩

theorem verifyAll_recorded (correct : Bool) (sels : List ℕ) (m m' : MState) (hn : sels.Nodup) (hv : m.varIds.Nodup)
    (hp : sels.Pairwise (SelectionExtract.Apart m))
    (hsense : ∀ s ∈ sels, ∀ v ∈ SelectionExtract.members m s, (m.var v).sense = .selection)
    (h : verifyAll correct sels m = some m') (s x : ℕ) (hx : m'.selected s = some x) :
    m.selected s = some x ∨ (s ∈ sels ∧ Recorded m' s x) := by
  unfold verifyAll at h
  simp only [Option.bind_eq_bind] at h
  obtain ⟨m1, h1, h⟩ := Option.bind_eq_some_iff.1 h
  obtain ⟨m2, h2, h3⟩ := Option.bind_eq_some_iff.1 h
  obtain ⟨a1, -⟩ := selections_spec correct sels _ m m1 hn hp h1
  obtain ⟨b1, b2, b3, b4, b5⟩ := overVars_spec _ _ correct (fun x y hxy => step_keeps correct x y (Or.inl hxy))
    m1.varIds m1 m2 (by rw [a1.varIds]; exact hv) h2
  obtain ⟨c1, c2, c3, c4, c5⟩ := overVars_spec _ _ correct (fun x y hxy => step_keeps correct x y (Or.inr hxy))
    m2.varIds m2 m' (by rw [b1.varIds, a1.varIds]; exact hv) h3
  rw [c2, b2] at hx
  rcases selections_recorded correct sels _ m m1 hn hp h1 s x hx with k | ⟨k1, k2, k3, k4⟩
  · exact Or.inl k
  · refine Or.inr ⟨k1, ?_⟩
    have hs : (m1.var x).sense = .selection := by
      rw [(a1.keeps x).sense]; exact hsense s k1 x (by rw [← a1.members]; exact k2)
    have e2 : m2.var x = m1.var x := b4 x (fun hh => by have := hh.2; simp [hs] at this)
    have e3 : m'.var x = m1.var x := by
      rw [c4 x (fun hh => by have := hh.2; simp [e2, hs] at this), e2]
    exact ⟨by rw [c1.members, b1.members]; exact k2, by rw [e3]; exact k3, by rw [e3]; exact k4⟩

theorem verifyAll_rest (correct : Bool) (sels : List ℕ) (m m' : MState) (hn : sels.Nodup) (hv : m.varIds.Nodup)
    (hp : sels.Pairwise (SelectionExtract.Apart m)) (h : verifyAll correct sels m = some m') : SameRest m m' := by
  unfold verifyAll at h
  simp only [Option.bind_eq_bind] at h
  obtain ⟨m1, h1, h⟩ := Option.bind_eq_some_iff.1 h
  obtain ⟨m2, h2, h3⟩ := Option.bind_eq_some_iff.1 h
  obtain ⟨a1, -⟩ := selections_spec correct sels _ m m1 hn hp h1
  obtain ⟨b1, -⟩ := overVars_spec _ _ correct (fun x y hxy => step_keeps correct x y (Or.inl hxy))
    m1.varIds m1 m2 (by rw [a1.varIds]; exact hv) h2
  obtain ⟨c1, -⟩ := overVars_spec _ _ correct (fun x y hxy => step_keeps correct x y (Or.inr hxy))
    m2.varIds m2 m' (by rw [b1.varIds, a1.varIds]; exact hv) h3
  exact (a1.trans b1).trans c1

end Printemps.Verifier
