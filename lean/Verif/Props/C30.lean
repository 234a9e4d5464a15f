import Verif.Lemmas.SelectionExtract
import Verif.Lemmas.Example

/-! # C30 — extracted selections do not overlap -/

namespace Printemps.C30
open Spec SelectionExtract

/-- In every mode the chosen constraints are different, enabled constraints of the model, all their variables
are 0/1 variables, and no variable occurs in two of them. -/
theorem selections_do_not_overlap (lt : ℕ → ℕ → Bool) (user : ℕ → Bool) (mode : Mode) (m : MState)
    (hn : m.conIds.Nodup) :
    (chosen lt user mode m).Nodup ∧
    (∀ c ∈ chosen lt user mode m, c ∈ m.conIds ∧ (m.con c).enabled = true ∧
      ∀ v ∈ (m.con c).expr.vars, (m.var v).sense = .binary) ∧
    (∀ c ∈ chosen lt user mode m, ∀ d ∈ chosen lt user mode m, c ≠ d →
      ∀ v ∈ (m.con c).expr.vars, v ∉ (m.con d).expr.vars) := by
  refine ⟨chosen_nodup lt user mode m hn, fun c hc => ?_, fun c hc d hd hcd v hv => ?_⟩
  · obtain ⟨h1, h2⟩ := chosen_raw lt user mode m c hc
    rw [isRaw_iff] at h2
    exact ⟨h1, h2.2⟩
  · have : Std.Symm (fun a b => a ≠ b → Apart m a b) := ⟨fun a b h hba => (h (Ne.symm hba)).symm⟩
    exact List.Pairwise.forall_of_forall (R := fun a b => a ≠ b → Apart m a b) (fun a _ h => absurd rfl h)
      (List.Pairwise.imp (S := fun a b => a ≠ b → Apart m a b) (fun h _ => h) (chosen_apart lt user mode m hn)) hc hd hcd v hv

/-- A chosen constraint is satisfied by a 0/1 assignment exactly when exactly one of its variables is 1.
Needed: the stored flag "all coefficients are 1" is still true of the expression (it is not refreshed by
substitutions, see `selection_of_a_stale_constraint`), variables occur once and coefficients are not zero. -/
theorem selections_mean_exactly_one_partial (lt : ℕ → ℕ → Bool) (user : ℕ → Bool) (mode : Mode) (m : MState)
    (c : ℕ) (hc : c ∈ chosen lt user mode m) (hw : ((m.con c).expr.terms.map Prod.fst).Nodup)
    (hnz : ∀ t ∈ (m.con c).expr.terms, t.2 ≠ 0) (hlen : (m.con c).expr.terms.length ≤ 1000000000)
    (hcoef : (m.con c).onlyBinaryCoef = true → ∀ t ∈ (m.con c).expr.terms, t.2 = 1)
    (σ : ℕ → ℤ) (hσ : ∀ v ∈ (m.con c).expr.vars, σ v = 0 ∨ σ v = 1) :
    Holds (m.con c) σ ↔ ((m.con c).expr.vars.filter (fun v => σ v = 1)).length = 1 := by
  obtain ⟨_, h⟩ := chosen_raw lt user mode m c hc
  obtain ⟨ht, _, hb⟩ := (isRaw_iff _ _ _).1 h
  have hm := ConType.classify_meaning m.var lt (m.con c) hw
    ⟨hcoef, fun _ t htm => Or.inl (hb t.1 (List.mem_map.2 ⟨t, htm, rfl⟩))⟩ hlen hnz
    (fun e => by rw [ht] at e; exact absurd e (by simp))
  generalize ConType.classify m.var lt (m.con c) = r at ht hm
  obtain ⟨r1, r2⟩ := r
  subst ht
  exact hm σ (fun v hv _ => hσ v hv)

/-- The modes other than "independent" take as much as possible: a candidate that is not chosen shares a
variable with a chosen one.  The mode "independent" chooses exactly the candidates sharing no variable with
another candidate. -/
theorem choice_is_maximal (lt : ℕ → ℕ → Bool) (user : ℕ → Bool) (mode : Mode) (m : MState)
    (c : ℕ) (hc : c ∈ m.conIds) (hraw : isRaw lt m c = true) :
    (mode = .defined ∨ mode = .smaller ∨ mode = .larger ∨ (mode = .userDefined ∧ user c = true) →
      c ∉ chosen lt user mode m →
      ∃ v ∈ (m.con c).expr.vars, ∃ d ∈ chosen lt user mode m, v ∈ (m.con d).expr.vars) ∧
    (mode = .independent → (c ∈ chosen lt user mode m ↔
      ∀ d ∈ m.conIds, isRaw lt m d = true → d ≠ c → ∀ v ∈ (m.con c).expr.vars, v ∉ (m.con d).expr.vars)) := by
  have hr : c ∈ raws lt m := List.mem_filter.2 ⟨hc, hraw⟩
  constructor
  · intro hm hn
    have key : ∀ l, c ∈ l → c ∉ greedy m [] l →
        ∃ v ∈ (m.con c).expr.vars, ∃ d ∈ greedy m [] l, v ∈ (m.con d).expr.vars := by
      intro l hl hng
      obtain ⟨v, hv, h⟩ := greedy_maximal m l [] c hl hng
      rcases h with h | ⟨d, hd, hvd⟩
      · exact absurd h (by simp)
      · exact ⟨v, hv, d, hd, hvd⟩
    rcases hm with rfl | rfl | rfl | ⟨rfl, hu⟩
    · exact key _ hr hn
    · exact key _ (List.mem_mergeSort.2 hr) hn
    · exact key _ (List.mem_mergeSort.2 hr) hn
    · exact key _ (List.mem_filter.2 ⟨hr, hu⟩) hn
  · rintro rfl
    show c ∈ independent m (raws lt m) ↔ _
    unfold independent
    rw [List.mem_filter]
    constructor
    · rintro ⟨_, h⟩ d hd hdr hdc v hv hvd
      rw [Bool.not_eq_true', ← Bool.not_eq_true] at h
      refine h (List.any_eq_true.2 ⟨v, hv, List.any_eq_true.2 ⟨d, List.mem_filter.2 ⟨hd, hdr⟩, ?_⟩⟩)
      simp only [Bool.and_eq_true, decide_eq_true_eq, List.contains_iff_mem]
      exact ⟨hdc, hvd⟩
    · intro h
      refine ⟨hr, ?_⟩
      rw [Bool.not_eq_true', ← Bool.not_eq_true]
      intro ha
      obtain ⟨v, hv, ha⟩ := List.any_eq_true.1 ha
      obtain ⟨d, hd, ha⟩ := List.any_eq_true.1 ha
      simp only [Bool.and_eq_true, decide_eq_true_eq, List.contains_iff_mem] at ha
      obtain ⟨h1, h2⟩ := List.mem_filter.1 hd
      exact h d h1 h2 ha.1 v hv ha.2

/-- The effect on the model: exactly the chosen constraints are disabled, their variables become selection
variables pointing to the group of their constraint, and nothing else of variables or constraints changes;
in particular no value. -/
theorem extraction_effect (lt : ℕ → ℕ → Bool) (user : ℕ → Bool) (mode : Mode) (m : MState) (hn : m.conIds.Nodup) :
    (∀ c, (extract lt user mode m).con c =
      if c ∈ chosen lt user mode m then { m.con c with enabled := false } else m.con c) ∧
    (∀ c ∈ chosen lt user mode m, ∀ v ∈ (m.con c).expr.vars, (extract lt user mode m).var v =
      { m.var v with selection := some c, sense := .selection }) ∧
    (∀ v, (∀ c ∈ chosen lt user mode m, v ∉ (m.con c).expr.vars) → (extract lt user mode m).var v = m.var v) := by
  have hp := apart_disable m (chosen lt user mode m) (chosen_apart lt user mode m hn)
  refine ⟨fun c => rfl, fun c hc v hv => ?_, fun v h => ?_⟩
  · exact outer_mem (disableAll m (chosen lt user mode m)) c v (by rw [members_disable]; exact hv) _ _ hp hc
  · exact outer_not (disableAll m (chosen lt user mode m)) v _ _ (fun c hc => by rw [members_disable]; exact h c hc)

/-- Three set partitioning constraints over 0/1 variables, the second overlapping both others. -/
private def ex : MState := { Example.model with
  var := fun _ => Example.bin0
  con := fun c => match c with
    | 0 => Con.setup { terms := [(0, 1), (1, 1), (2, 1)], const := -1 } .equal (fun _ => .binary)
    | 1 => Con.setup { terms := [(2, 1), (3, 1), (4, 1), (5, 1)], const := -1 } .equal (fun _ => .binary)
    | _ => Con.setup { terms := [(5, 1), (6, 1), (7, 1)], const := -1 } .equal (fun _ => .binary)
  conIds := [0, 1, 2] }
private def lt' (x y : ℕ) : Bool := decide (x < y)

example : ex.conIds.Nodup ∧ chosen lt' (fun _ => true) .defined ex = [0, 2] ∧
    chosen lt' (fun _ => true) .independent ex = [] ∧
    chosen lt' (fun c => c == 2) .userDefined ex = [2] ∧ isRaw lt' ex 1 = true := by
  have h : raws lt' ex = [0, 1, 2] := by decide +kernel
  refine ⟨by decide +kernel, ?_, ?_, ?_, by decide +kernel⟩
  · show greedy ex [] (raws lt' ex) = _
    rw [h]; decide +kernel
  · show independent ex (raws lt' ex) = _
    rw [h]; decide +kernel
  · show greedy ex [] ((raws lt' ex).filter _) = _
    rw [h]; decide +kernel

/-- Because the flags are not refreshed after substitutions, a constraint that does not mean "exactly one" can
become a selection: `x₀ + 2 x₁ + x₃ = 1`, where `x₁ = 1` alone is a legal state of the selection and violates
the (now disabled) constraint. -/
theorem selection_of_a_stale_constraint : ∃ (lt : ℕ → ℕ → Bool) (m : MState) (f : Expr) (σ : ℕ → ℤ),
    (m.con 0) = { Con.setup { terms := [(0, 1), (1, 1), (2, 1), (3, 1)], const := -1 } .equal (fun v => (m.var v).sense)
      with expr := Expr.substitute { terms := [(0, 1), (1, 1), (2, 1), (3, 1)], const := -1 } 2 f } ∧
    (0 ∈ chosen lt (fun _ => false) .defined m) ∧ (∀ v, σ v = 0 ∨ σ v = 1) ∧
    ((m.con 0).expr.vars.filter (fun v => σ v = 1)).length = 1 ∧ ¬ Holds (m.con 0) σ := by
  let f : Expr := { terms := [(1, 1)], const := 0 }
  let e : Expr := Expr.substitute { terms := [(0, 1), (1, 1), (2, 1), (3, 1)], const := -1 } 2 f
  let k : Con := { Con.setup { terms := [(0, 1), (1, 1), (2, 1), (3, 1)], const := -1 } .equal (fun _ => .binary) with expr := e }
  refine ⟨lt', { ex with con := fun _ => k, conIds := [0] }, f, fun v => if v = 1 then 1 else 0, rfl, ?_, ?_, ?_, ?_⟩
  · have h : raws lt' { ex with con := fun _ => k, conIds := [0] } = [0] := by decide +kernel
    show 0 ∈ greedy _ [] (raws lt' _)
    rw [h]; decide +kernel
  · intro v; simp only []; split <;> simp
  · decide +kernel
  · rw [ConType.holds_iff]
    show ¬ (e.const + Expr.lin e.terms (fun v => if v = 1 then 1 else 0) = 0)
    decide +kernel

end Printemps.C30
