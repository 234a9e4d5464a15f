import Verif.Model.Rounded
import Verif.Lemmas.Fast
import Verif.Lemmas.Example
import Verif.Props.C07
import Mathlib.Tactic.Linarith
import Mathlib.Tactic.Positivity

/-! # C65 — floating-point arithmetic -/

namespace Printemps.C65
open Spec Rounded

/-! ## Rounding -/

theorem roundEven_error (x : ℚ) : |(roundEven x : ℚ) - x| ≤ 1 / 2 := by
  have h1 := Int.floor_le x
  have h2 := Int.lt_floor_add_one x
  unfold roundEven
  split
  · rw [abs_le]; constructor <;> linarith
  · split
    · push_cast; rw [abs_le]; constructor <;> linarith
    · split
      · rw [abs_le]; constructor <;> linarith
      · push_cast; rw [abs_le]; constructor <;> linarith

theorem roundEven_int (n : ℤ) : roundEven (n : ℚ) = n := by
  unfold roundEven
  simp

/-- `double` arithmetic: the relative error of an operation is at most 2^-53. -/
theorem fl53_error (q : ℚ) : |fl53 q - q| ≤ (1 / 2 ^ 53) * |q| := by
  unfold fl53
  by_cases h : q = 0
  · rw [if_pos h, h]; simp
  · rw [if_neg h]
    have hpos : 0 < |q| := abs_pos.2 h
    have hlog := Int.zpow_log_le_self (b := 2) (by norm_num) hpos
    set L := Int.log 2 |q| with hL
    have h2 : (0 : ℚ) < 2 ^ (L - 52) := zpow_pos (by norm_num) _
    have e : (roundEven (q / 2 ^ (L - 52)) : ℚ) * 2 ^ (L - 52) - q =
        ((roundEven (q / 2 ^ (L - 52)) : ℚ) - q / 2 ^ (L - 52)) * 2 ^ (L - 52) := by
      rw [sub_mul, div_mul_cancel₀ _ (ne_of_gt h2)]
    rw [e, abs_mul, abs_of_pos h2]
    have h3 := roundEven_error (q / 2 ^ (L - 52))
    have h4 : (2 : ℚ) ^ (L - 52) = 2 ^ L / 2 ^ 52 := by
      rw [zpow_sub₀ (by norm_num)]; norm_num
    have h5 : ((2 : ℕ) : ℚ) ^ L ≤ |q| := hlog
    push_cast at h5
    calc _ ≤ 1 / 2 * 2 ^ (L - 52) := mul_le_mul_of_nonneg_right h3 (le_of_lt h2)
      _ = (1 / 2 ^ 53) * 2 ^ L := by rw [h4]; ring
      _ ≤ _ := mul_le_mul_of_nonneg_left h5 (by norm_num)

/-- Multiples of a power of two with a factor of at most 2^53 are represented exactly. -/
theorem fl53_exact (k : ℤ) (n : ℤ) (hn : |n| ≤ 2 ^ 53) : fl53 ((n : ℚ) * 2 ^ k) = (n : ℚ) * 2 ^ k := by
  unfold fl53
  by_cases h : (n : ℚ) * 2 ^ k = 0
  · rw [if_pos h, h]
  · rw [if_neg h]
    have hk : (0 : ℚ) < 2 ^ k := zpow_pos (by norm_num) _
    have hpos : 0 < |(n : ℚ) * 2 ^ k| := abs_pos.2 h
    have hlog := Int.zpow_log_le_self (b := 2) (by norm_num) hpos
    set L := Int.log 2 |(n : ℚ) * 2 ^ k| with hL
    push_cast at hlog
    have habs : |(n : ℚ) * 2 ^ k| = |(n : ℚ)| * 2 ^ k := by rw [abs_mul, abs_of_pos hk]
    rw [habs] at hlog
    have hnq : |(n : ℚ)| ≤ 2 ^ 53 := by exact_mod_cast hn
    have hle : (2 : ℚ) ^ L ≤ 2 ^ (53 + k) := by
      rw [zpow_add₀ (by norm_num)]
      refine le_trans hlog ?_
      exact mul_le_mul_of_nonneg_right (by exact_mod_cast hnq) (le_of_lt hk)
    have hL53 : L ≤ 53 + k := (zpow_le_zpow_iff_right₀ (by norm_num : (1 : ℚ) < 2)).1 hle
    have h2 : (2 : ℚ) ^ (L - 52) ≠ 0 := ne_of_gt (zpow_pos (by norm_num) _)
    have hint : ∃ z : ℤ, (n : ℚ) * 2 ^ k / 2 ^ (L - 52) = z := by
      rcases lt_or_eq_of_le hL53 with hlt | heq
      · refine ⟨n * 2 ^ (k - (L - 52)).toNat, ?_⟩
        rw [mul_div_assoc, ← zpow_sub₀ (by norm_num)]
        push_cast
        congr 1
        rw [← zpow_natCast]
        congr 1
        omega
      · rw [heq] at hlog
        rw [zpow_add₀ (by norm_num)] at hlog
        have hge : (2 : ℚ) ^ (53 : ℤ) ≤ |(n : ℚ)| := le_of_mul_le_mul_right hlog hk
        have hge' : (2 : ℤ) ^ 53 ≤ |n| := by exact_mod_cast hge
        have habs' : |n| = 2 ^ 53 := le_antisymm hn hge'
        have hn2 : n = 2 * (n / 2) := by
          rcases abs_eq (by norm_num : (0:ℤ) ≤ 2 ^ 53) |>.1 habs' with e | e <;> omega
        refine ⟨n / 2, ?_⟩
        rw [heq, show (53 + k - 52 : ℤ) = k + 1 by ring, zpow_add₀ (by norm_num), zpow_one]
        have : (n : ℚ) = 2 * ((n / 2 : ℤ) : ℚ) := by exact_mod_cast hn2
        rw [this]
        have hk' := ne_of_gt hk
        field_simp
    obtain ⟨z, hz⟩ := hint
    rw [hz, roundEven_int, ← hz, div_mul_cancel₀ _ h2]

/-! ## Exact results on a binary grid -/

/-- Representable multiples of the grid width are not changed by rounding. -/
def ExactOn (fl : ℚ → ℚ) (g : ℚ) : Prop := ∀ n : ℤ, |n| ≤ 2 ^ 53 → fl ((n : ℚ) * g) = (n : ℚ) * g

/-- An integer multiple of the grid width. -/
def OnGrid (g q : ℚ) : Prop := ∃ n : ℤ, q = (n : ℚ) * g

theorem OnGrid.zero (g : ℚ) : OnGrid g 0 := ⟨0, by simp⟩
theorem OnGrid.add {g x y : ℚ} (hx : OnGrid g x) (hy : OnGrid g y) : OnGrid g (x + y) := by
  obtain ⟨n, rfl⟩ := hx; obtain ⟨k, rfl⟩ := hy; exact ⟨n + k, by push_cast; ring⟩
theorem OnGrid.sub {g x y : ℚ} (hx : OnGrid g x) (hy : OnGrid g y) : OnGrid g (x - y) := by
  obtain ⟨n, rfl⟩ := hx; obtain ⟨k, rfl⟩ := hy; exact ⟨n - k, by push_cast; ring⟩
theorem OnGrid.neg {g x : ℚ} (hx : OnGrid g x) : OnGrid g (-x) := by
  obtain ⟨n, rfl⟩ := hx; exact ⟨-n, by push_cast; ring⟩
theorem OnGrid.mul_int {g x : ℚ} (hx : OnGrid g x) (k : ℤ) : OnGrid g (x * k) := by
  obtain ⟨n, rfl⟩ := hx; exact ⟨n * k, by push_cast; ring⟩
theorem OnGrid.int_mul {g x : ℚ} (hx : OnGrid g x) (k : ℤ) : OnGrid g (k * x) := by
  rw [mul_comm]; exact hx.mul_int k
theorem OnGrid.max0 {g x : ℚ} (hx : OnGrid g x) : OnGrid g (max x 0) := by
  rcases max_choice x 0 with h | h <;> rw [h]
  · exact hx
  · exact OnGrid.zero g
theorem OnGrid.min0 {g x : ℚ} (hx : OnGrid g x) : OnGrid g (min x 0) := by
  rcases min_choice x 0 with h | h <;> rw [h]
  · exact hx
  · exact OnGrid.zero g

theorem ExactOn.eq {fl : ℚ → ℚ} {g : ℚ} (h : ExactOn fl g) (hg : 0 < g) {q : ℚ} (hq : OnGrid g q) (hb : |q| ≤ 2 ^ 53 * g) :
    fl q = q := by
  obtain ⟨n, rfl⟩ := hq
  apply h
  rw [abs_mul, abs_of_pos hg] at hb
  have := le_of_mul_le_mul_right hb hg
  exact_mod_cast this

/-- `double` is exact on every grid of width `2^k`. -/
theorem fl53_exactOn (k : ℤ) : ExactOn fl53 (2 ^ k) := fun n hn => fl53_exact k n hn

/-- A rounded fold equals the exact fold while the accumulated magnitudes stay in range. -/
theorem fold_exact {α : Type} (f f' : ℚ → α → ℚ) (w : α → ℚ) (g N : ℚ) (l : List α) (hw : ∀ t ∈ l, 0 ≤ w t)
    (hf : ∀ acc, ∀ t ∈ l, OnGrid g acc → |acc| + w t ≤ N → f' acc t = f acc t ∧ OnGrid g (f acc t) ∧ |f acc t| ≤ |acc| + w t) :
    ∀ acc, OnGrid g acc → |acc| + (l.map w).sum ≤ N → l.foldl f' acc = l.foldl f acc := by
  induction l with
  | nil => intro acc _ _; rfl
  | cons t l ih =>
    intro acc hacc hb
    rw [List.map_cons, List.sum_cons] at hb
    have hs : 0 ≤ (l.map w).sum := sum_map_nonneg l w (fun a ha => hw a (by simp [ha]))
    obtain ⟨h1, h2, h3⟩ := hf acc t (by simp) hacc (by linarith)
    rw [List.foldl_cons, List.foldl_cons, h1]
    exact ih (fun a ha => hw a (by simp [ha])) (fun acc a ha => hf acc a (by simp [ha])) _ h2 (by linarith)

theorem sum_exact (fl : ℚ → ℚ) (g : ℚ) (hg : 0 < g) (h : ExactOn fl g) (v : ℚ) (l : List ℚ) (hv : OnGrid g v)
    (hl : ∀ t ∈ l, OnGrid g t) (hb : |v| + (l.map (fun t => |t|)).sum ≤ 2 ^ 53 * g) : Rounded.sum fl v l = v + l.sum := by
  have e : Rounded.sum fl v l = l.foldl (fun v t => v + t) v := by
    refine fold_exact (fun v t => v + t) (fun v t => fl (v + fl t)) (fun t => |t|) g (2 ^ 53 * g) l (fun t _ => abs_nonneg t) ?_ v hv hb
    intro acc t ht hacc hle
    have ht1 : fl t = t := h.eq hg (hl t ht) (by linarith [abs_nonneg acc])
    refine ⟨?_, hacc.add (hl t ht), abs_add_le _ _⟩
    show fl (acc + fl t) = acc + t
    rw [ht1]
    exact h.eq hg (hacc.add (hl t ht)) (le_trans (abs_add_le _ _) hle)
  rw [e]
  clear e hb hl hv
  induction l generalizing v with
  | nil => simp
  | cons a l ih => rw [List.foldl_cons, ih, List.sum_cons]; ring

/-- The largest value the terms of an expression can add up to when the values of the variables are bounded by `B`. -/
def magnitude (e : Expr) (B : ℕ → ℚ) : ℚ := |e.const| + (e.terms.map (fun t => |t.2| * B t.1)).sum

/-- The data of an expression are multiples of `g`. -/
structure Grid (g : ℚ) (e : Expr) : Prop where
  const : OnGrid g e.const
  coef : ∀ t ∈ e.terms, OnGrid g t.2

theorem grid_value {g : ℚ} {e : Expr} (h : Grid g e) (σ : ℕ → ℤ) : OnGrid g (exprValue e σ) := by
  unfold exprValue
  refine h.const.add ?_
  have := h.coef
  generalize e.terms = l at this
  induction l with
  | nil => exact OnGrid.zero g
  | cons t l ih =>
    rw [List.map_cons, List.sum_cons]
    exact ((this t (by simp)).mul_int _).add (ih (fun t ht => this t (by simp [ht])))

theorem value_bound (e : Expr) (B : ℕ → ℚ) (σ : ℕ → ℤ) (hσ : ∀ v, |(σ v : ℚ)| ≤ B v) : |exprValue e σ| ≤ magnitude e B := by
  unfold exprValue magnitude
  refine le_trans (abs_add_le _ _) (add_le_add_right (abs_sum_le _ _ _ fun t _ => ?_) _)
  rw [abs_mul]
  exact mul_le_mul_of_nonneg_left (hσ t.1) (abs_nonneg _)

/-- Recomputing an expression gives the exact value. -/
theorem evaluation_exact (fl : ℚ → ℚ) (g : ℚ) (hg : 0 < g) (h : ExactOn fl g) (e : Expr) (he : Grid g e) (B : ℕ → ℚ)
    (σ : ℕ → ℤ) (hσ : ∀ v, |(σ v : ℚ)| ≤ B v) (hb : magnitude e B ≤ 2 ^ 53 * g) :
    Rounded.evaluate fl e σ = exprValue e σ := by
  unfold Rounded.evaluate
  rw [sum_exact fl g hg h _ _ he.const]
  · unfold exprValue
    congr 1
    exact sum_map_congr _ _ _ fun t _ => mul_comm _ _
  · intro t ht
    obtain ⟨x, hx, rfl⟩ := List.mem_map.1 ht
    exact (he.coef x hx).int_mul _
  · refine le_trans ?_ hb
    unfold magnitude
    rw [List.map_map]
    refine add_le_add_right (sum_map_le _ _ _ fun t _ => ?_) _
    show |(σ t.1 : ℚ) * t.2| ≤ _
    rw [abs_mul, mul_comm]
    exact mul_le_mul_of_nonneg_left (hσ t.1) (abs_nonneg _)

theorem lookup_grid {g : ℚ} (ts : List (ℕ × ℚ)) (h : ∀ t ∈ ts, OnGrid g t.2) (v : ℕ) : OnGrid g (Expr.lookup ts v) := by
  induction ts with
  | nil => exact OnGrid.zero g
  | cons t ts ih =>
    unfold Expr.lookup
    split
    · exact h t (by simp)
    · exact ih (fun t ht => h t (by simp [ht]))

theorem lookup_not_mem (ts : List (ℕ × ℚ)) (v : ℕ) (h : v ∉ ts.map Prod.fst) : Expr.lookup ts v = 0 := by
  induction ts with
  | nil => rfl
  | cons t ts ih =>
    simp only [List.map_cons, List.mem_cons, not_or] at h
    unfold Expr.lookup
    rw [if_neg (fun e => h.1 e.symm)]
    exact ih h.2

/-- Coefficients looked up for distinct variables weigh no more than all coefficients. -/
theorem lookup_sum_le (ts : List (ℕ × ℚ)) (hts : (ts.map Prod.fst).Nodup) (B : ℕ → ℚ) (hB : ∀ v, 0 ≤ B v) (vs : List ℕ)
    (hvs : vs.Nodup) : (vs.map (fun v => |Expr.lookup ts v| * B v)).sum ≤ (ts.map (fun t => |t.2| * B t.1)).sum := by
  have e1 : (ts.map (fun t => |t.2| * B t.1)).sum = ((ts.map Prod.fst).map (fun v => |Expr.lookup ts v| * B v)).sum := by
    rw [List.map_map]
    refine sum_map_congr _ _ _ fun t ht => ?_
    show _ = |Expr.lookup ts t.1| * B t.1
    rw [Expr.lookup_of_mem ts hts t.1 t.2 ht]
  rw [e1, ← List.sum_toFinset _ hvs, ← List.sum_toFinset _ hts]
  have hsub : ∑ v ∈ vs.toFinset, |Expr.lookup ts v| * B v = ∑ v ∈ vs.toFinset ∩ (ts.map Prod.fst).toFinset, |Expr.lookup ts v| * B v := by
    symm
    refine Finset.sum_subset Finset.inter_subset_left fun v hv hn => ?_
    have : v ∉ ts.map Prod.fst := fun hm => hn (Finset.mem_inter.2 ⟨hv, List.mem_toFinset.2 hm⟩)
    rw [lookup_not_mem ts v this]; simp
  rw [hsub]
  exact Finset.sum_le_sum_of_subset_of_nonneg Finset.inter_subset_right fun v _ _ => mul_nonneg (abs_nonneg _) (hB v)

/-- The exact counterpart of the incremental evaluation. -/
theorem exact_move (e : Expr) (hw : (e.terms.map Prod.fst).Nodup) (σ : ℕ → ℤ) (alts : List (ℕ × ℤ)) (hd : (alts.map Prod.fst).Nodup) :
    exprValue e σ + (alts.map (fun a => Expr.lookup e.terms a.1 * (((a.2 - σ a.1 : ℤ)) : ℚ))).sum = exprValue e (applyMove σ alts) := by
  have h := Expr.lin_applyMove e.terms hw σ alts hd
  rw [exprValue_eq, exprValue_eq, Expr.evaluate_eq, Expr.evaluate_eq, h]; ring

theorem assign_eq (σ : ℕ → ℤ) (alts : List (ℕ × ℤ)) : assign σ alts = applyMove σ alts := by
  unfold assign
  induction alts generalizing σ with
  | nil => rfl
  | cons a l ih => rw [List.foldl_cons, ih]; rfl

theorem abs_diff_le (B : ℚ) (x y : ℤ) (hx : |(x : ℚ)| ≤ B) (hy : |(y : ℚ)| ≤ B) : |((x - y : ℤ) : ℚ)| ≤ 2 * B := by
  push_cast
  have := abs_sub (x : ℚ) (y : ℚ)
  linarith

theorem magnitude_parts (e : Expr) (B : ℕ → ℚ) (hw : (e.terms.map Prod.fst).Nodup) (σ : ℕ → ℤ) (hσ : ∀ v, |(σ v : ℚ)| ≤ B v)
    (alts : List (ℕ × ℤ)) (hd : (alts.map Prod.fst).Nodup) (ha : ∀ a ∈ alts, |(a.2 : ℚ)| ≤ B a.1) :
    (alts.map (fun a => |Expr.lookup e.terms a.1 * (((a.2 - σ a.1 : ℤ)) : ℚ)|)).sum ≤ 2 * magnitude e B := by
  have hB : ∀ v, 0 ≤ B v := fun v => le_trans (abs_nonneg _) (hσ v)
  have h1 : (alts.map (fun a => |Expr.lookup e.terms a.1 * (((a.2 - σ a.1 : ℤ)) : ℚ)|)).sum ≤
      (alts.map (fun a => |Expr.lookup e.terms a.1| * (2 * B a.1))).sum := by
    refine sum_map_le _ _ _ fun a h => ?_
    rw [abs_mul]
    exact mul_le_mul_of_nonneg_left (abs_diff_le _ _ _ (ha a h) (hσ a.1)) (abs_nonneg _)
  have h2 := lookup_sum_le e.terms hw (fun v => 2 * B v) (fun v => mul_nonneg (by norm_num) (hB v)) (alts.map Prod.fst) hd
  rw [List.map_map] at h2
  have h3 : (e.terms.map (fun t => |t.2| * (2 * B t.1))).sum = (e.terms.map (fun t => |t.2| * B t.1)).sum * 2 := by
    rw [← sum_map_mul_right]
    exact sum_map_congr _ _ _ fun t _ => by ring
  have h4 : (alts.map (fun a => |Expr.lookup e.terms a.1| * (2 * B a.1))).sum ≤ (e.terms.map (fun t => |t.2| * (2 * B t.1))).sum := h2
  unfold magnitude
  have := abs_nonneg e.const
  linarith

/-- Updating a stored value by a move gives the exact value of the moved assignment. -/
theorem move_exact (fl : ℚ → ℚ) (g : ℚ) (hg : 0 < g) (h : ExactOn fl g) (e : Expr) (he : Grid g e)
    (hw : (e.terms.map Prod.fst).Nodup) (B : ℕ → ℚ) (σ : ℕ → ℤ) (hσ : ∀ v, |(σ v : ℚ)| ≤ B v) (alts : List (ℕ × ℤ))
    (hd : (alts.map Prod.fst).Nodup) (ha : ∀ a ∈ alts, |(a.2 : ℚ)| ≤ B a.1) (hb : 3 * magnitude e B ≤ 2 ^ 53 * g) :
    Rounded.evaluateMove fl e (exprValue e σ) σ alts = exprValue e (applyMove σ alts) := by
  unfold Rounded.evaluateMove
  rw [sum_exact fl g hg h _ _ (grid_value he σ), exact_move e hw σ alts hd]
  · intro t ht
    obtain ⟨a, _, rfl⟩ := List.mem_map.1 ht
    exact (lookup_grid _ he.coef _).mul_int _
  · rw [List.map_map]
    have h1 := value_bound e B σ hσ
    have h2 := magnitude_parts e B hw σ hσ alts hd ha
    have h3 : (alts.map ((fun t => |t|) ∘ fun a => Expr.lookup e.terms a.1 * (((a.2 - σ a.1 : ℤ)) : ℚ))).sum ≤ 2 * magnitude e B := h2
    linarith

theorem applyMove_bound (B : ℕ → ℚ) (σ : ℕ → ℤ) (hσ : ∀ v, |(σ v : ℚ)| ≤ B v) (alts : List (ℕ × ℤ))
    (ha : ∀ a ∈ alts, |(a.2 : ℚ)| ≤ B a.1) : ∀ v, |(applyMove σ alts v : ℚ)| ≤ B v := by
  induction alts generalizing σ with
  | nil => exact hσ
  | cons a l ih =>
    apply ih
    · intro v
      by_cases e : v = a.1
      · subst e; rw [Function.update_self]; exact ha a (by simp)
      · rw [Function.update_of_ne e]; exact hσ v
    · exact fun b hb => ha b (by simp [hb])

/-- **Any number of moves**: the stored value of an expression is the exact value of the current assignment. -/
theorem history_exact (fl : ℚ → ℚ) (g : ℚ) (hg : 0 < g) (h : ExactOn fl g) (e : Expr) (he : Grid g e)
    (hw : (e.terms.map Prod.fst).Nodup) (B : ℕ → ℚ) (moves : List (List (ℕ × ℤ))) (σ : ℕ → ℤ) (hσ : ∀ v, |(σ v : ℚ)| ≤ B v)
    (hd : ∀ alts ∈ moves, (alts.map Prod.fst).Nodup) (ha : ∀ alts ∈ moves, ∀ a ∈ alts, |(a.2 : ℚ)| ≤ B a.1)
    (hb : 3 * magnitude e B ≤ 2 ^ 53 * g) :
    afterMoves fl e σ (Rounded.evaluate fl e σ) moves = (moves.foldl applyMove σ, exprValue e (moves.foldl applyMove σ)) := by
  have hm : 0 ≤ magnitude e B := le_trans (abs_nonneg _) (value_bound e B σ hσ)
  rw [evaluation_exact fl g hg h e he B σ hσ (by linarith)]
  induction moves generalizing σ with
  | nil => rfl
  | cons alts rest ih =>
    unfold afterMoves
    rw [assign_eq, move_exact fl g hg h e he hw B σ hσ alts (hd alts (by simp)) (ha alts (by simp)) hb]
    exact ih _ (applyMove_bound B σ hσ alts (ha alts (by simp))) (fun x hx => hd x (by simp [hx])) (fun x hx => ha x (by simp [hx]))

/-! ## Scores of moves -/

/-- The sum of the magnitudes of the enabled constraints of a model. -/
def modelMagnitude (m : MState) (B : ℕ → ℚ) : ℚ :=
  (m.conIds.map (fun c => if (m.con c).enabled then magnitude (m.con c).expr B else 0)).sum

/-- A model whose data are multiples of `g`, whose values are bounded by `B`, and whose magnitudes fit the 53 digits. -/
structure Fits (g : ℚ) (B : ℕ → ℚ) (m : MState) (alts : List (ℕ × ℤ)) : Prop where
  grid : ∀ c ∈ m.conIds, (m.con c).enabled = true → Grid g (m.con c).expr
  current : ∀ v, |(assignment m v : ℚ)| ≤ B v
  new : ∀ a ∈ alts, |(a.2 : ℚ)| ≤ B a.1
  distinct : (alts.map Prod.fst).Nodup
  range : 3 * modelMagnitude m B ≤ 2 ^ 53 * g

section
variable {fl : ℚ → ℚ} {g : ℚ} {B : ℕ → ℚ} {m : MState} {alts : List (ℕ × ℤ)}

theorem Fits.nonneg (h : Fits g B m alts) (c : ℕ) : 0 ≤ magnitude (m.con c).expr B :=
  le_trans (abs_nonneg _) (value_bound _ B _ h.current)

theorem Fits.part_nonneg (h : Fits g B m alts) (c : ℕ) : 0 ≤ (if (m.con c).enabled then magnitude (m.con c).expr B else 0) := by
  split
  · exact h.nonneg c
  · exact le_rfl

theorem Fits.le (h : Fits g B m alts) (c : ℕ) (hc : c ∈ m.conIds) (he : (m.con c).enabled = true) :
    magnitude (m.con c).expr B ≤ modelMagnitude m B := by
  have := List.single_le_sum (l := m.conIds.map (fun c => if (m.con c).enabled then magnitude (m.con c).expr B else 0))
    (by intro x hx; obtain ⟨d, _, rfl⟩ := List.mem_map.1 hx; exact h.part_nonneg d)
    _ (List.mem_map.2 ⟨c, hc, rfl⟩)
  rw [if_pos he] at this
  exact this

theorem Fits.moved (h : Fits g B m alts) : ∀ v, |(applyMove (assignment m) alts v : ℚ)| ≤ B v :=
  applyMove_bound B _ h.current alts h.new

theorem Fits.value (h : Fits g B m alts) (hg : 0 < g) (hx : ExactOn fl g) (hw : WellFormed m) (hc : Current m) (c : ℕ)
    (hm : c ∈ m.conIds) (he : (m.con c).enabled = true) :
    Rounded.evaluateMove fl (m.con c).expr (m.con c).expr.value m.vals alts =
      exprValue (m.con c).expr (applyMove (assignment m) alts) := by
  rw [(hc.con c hm he).expr]
  refine move_exact fl g hg hx _ (h.grid c hm he) (hw.con c hm) B _ h.current alts h.distinct h.new ?_
  have := h.le c hm he
  have := h.range
  linarith

theorem parts_bound (x M : ℚ) (h : |x| ≤ M) : 0 ≤ max x 0 ∧ 0 ≤ max (-x) 0 ∧ max x 0 + max (-x) 0 ≤ M := by
  refine ⟨le_max_right _ _, le_max_right _ _, ?_⟩
  rw [← Con.abs_eq_parts]; exact h

theorem foldl_sum {α : Type} (l : List α) (f : α → ℚ) (a : ℚ) : l.foldl (fun acc c => acc + f c) a = a + (l.map f).sum := by
  induction l generalizing a with
  | nil => simp
  | cons t l ih => rw [List.foldl_cons, ih, List.map_cons, List.sum_cons]; ring

/-- **Full evaluation**: the total violation is exact. -/
theorem full_violation_exact (hg : 0 < g) (hx : ExactOn fl g) (mv : Move) (hw : WellFormed m) (hc : Current m)
    (h : Fits g B m mv.alterations) :
    fullViolation fl m mv = totalViolation m (applyMove (assignment m) mv.alterations) := by
  have e : fullViolation fl m mv = m.conIds.foldl (fun acc c => acc + (if (m.con c).enabled then
      violation (m.con c) (applyMove (assignment m) mv.alterations) else 0)) 0 := by
    unfold fullViolation
    refine fold_exact _ _ (fun c => if (m.con c).enabled then magnitude (m.con c).expr B else 0) g (2 ^ 53 * g) _
      (fun c _ => h.part_nonneg c) ?_ 0 (OnGrid.zero g) ?_
    · intro acc c hcm hacc hle
      by_cases he : (m.con c).enabled = true
      · rw [if_pos he] at hle ⊢
        have hv := h.value hg hx hw hc c hcm he
        have hgr := grid_value (h.grid c hcm he) (applyMove (assignment m) mv.alterations)
        have hbd := value_bound (m.con c).expr B _ h.moved
        rw [if_pos he, Con.violation_eq]
        unfold fullStep
        dsimp only
        rw [hv]
        simp only [he, Bool.not_true, Bool.false_eq_true, if_false]
        generalize exprValue (m.con c).expr (applyMove (assignment m) mv.alterations) = x at hgr hbd
        obtain ⟨p1, p2, p3⟩ := parts_bound x _ hbd
        have hab : ∀ y : ℚ, 0 ≤ y → |acc + y| ≤ |acc| + y := fun y hy => by
          have := abs_add_le acc y; rwa [abs_of_nonneg hy] at this
        have q1 : OnGrid g (acc + max x 0) := hacc.add hgr.max0
        have q2 : OnGrid g (acc + max (-x) 0) := hacc.add hgr.neg.max0
        have q3 : OnGrid g (acc + max x 0 + max (-x) 0) := q1.add hgr.neg.max0
        have r1 := hab _ p1
        have r2 := hab _ p2
        have r3 : |acc + max x 0 + max (-x) 0| ≤ |acc| + (max x 0 + max (-x) 0) := by
          rw [add_assoc]; exact hab _ (add_nonneg p1 p2)
        have f1 : fl (acc + max x 0) = acc + max x 0 := hx.eq hg q1 (by linarith)
        have f2 : fl (acc + max (-x) 0) = acc + max (-x) 0 := hx.eq hg q2 (by linarith)
        have f3 : fl (acc + max x 0 + max (-x) 0) = acc + max x 0 + max (-x) 0 := hx.eq hg q3 (by linarith)
        unfold Con.tvPart
        by_cases l1 : (m.con c).isLe = true <;> by_cases l2 : (m.con c).isGe = true
        · simp only [l1, l2, if_true, f1, f3]
          rw [← add_assoc]
          exact ⟨rfl, q3, by linarith⟩
        · simp only [l1, l2, if_true, f1, if_false, add_zero, Bool.false_eq_true]
          exact ⟨trivial, q1, by linarith⟩
        · simp only [l1, l2, if_true, f2, if_false, zero_add, Bool.false_eq_true]
          exact ⟨trivial, q2, by linarith⟩
        · simp only [l1, l2, if_false, add_zero, Bool.false_eq_true]
          exact ⟨trivial, hacc, by linarith [h.nonneg c]⟩
      · rw [if_neg he] at hle ⊢
        refine ⟨?_, ?_, ?_⟩
        · unfold fullStep; simp [he]
        · simpa [he] using hacc
        · simp [he]
    · have h1 := h.range
      have h2 : 0 ≤ modelMagnitude m B := sum_map_nonneg _ _ fun c _ => h.part_nonneg c
      show |(0 : ℚ)| + modelMagnitude m B ≤ _
      rw [abs_zero]; linarith
  rw [e, MState.totalViolation_eq, foldl_sum, zero_add]

theorem max0_diff (x y M : ℚ) (hx : |x| ≤ M) (hy : |y| ≤ M) : |max x 0 - max y 0| ≤ M := by
  obtain ⟨a1, a2, a3⟩ := parts_bound x M hx
  obtain ⟨b1, b2, b3⟩ := parts_bound y M hy
  rw [abs_le]; constructor <;> linarith

theorem total_bound (h : Fits g B m alts) : |totalViolation m (assignment m)| ≤ modelMagnitude m B := by
  rw [MState.totalViolation_eq]
  refine abs_sum_le _ _ _ fun c _ => ?_
  split
  · rw [Con.violation_eq]
    obtain ⟨a1, a2, a3⟩ := parts_bound _ _ (value_bound (m.con c).expr B _ h.current)
    unfold Con.tvPart
    split <;> split <;> rw [abs_of_nonneg (by linarith)] <;> linarith
  · simp

theorem violation_grid (h : Fits g B m alts) : OnGrid g (totalViolation m (assignment m)) := by
  rw [MState.totalViolation_eq]
  have : ∀ l : List ℕ, (∀ c ∈ l, c ∈ m.conIds) →
      OnGrid g (l.map (fun c => if (m.con c).enabled then violation (m.con c) (assignment m) else 0)).sum := by
    intro l
    induction l with
    | nil => intro _; exact OnGrid.zero g
    | cons c l ih =>
      intro hl
      rw [List.map_cons, List.sum_cons]
      refine OnGrid.add ?_ (ih fun d hd => hl d (by simp [hd]))
      by_cases he : (m.con c).enabled = true
      · rw [if_pos he, Con.violation_eq]
        have hgr := grid_value (h.grid c (hl c (by simp)) he) (assignment m)
        unfold Con.tvPart
        refine OnGrid.add ?_ ?_ <;> split
        · exact hgr.max0
        · exact OnGrid.zero g
        · exact hgr.neg.max0
        · exact OnGrid.zero g
      · rw [if_neg he]; exact OnGrid.zero g
  exact this _ fun c hc => hc

theorem sub_magnitude (h : Fits g B m alts) (l0 : List ℕ) (hn : (l0.filter (fun c => (m.con c).enabled)).Nodup) (hs0 : ∀ c ∈ l0, c ∈ m.conIds) :
    (l0.map (fun c => if (m.con c).enabled then 2 * magnitude (m.con c).expr B else 0)).sum ≤ 2 * modelMagnitude m B := by
  rw [sum_filter_zero l0 (fun c => (m.con c).enabled) _ (fun c _ hc => by simp [hc])]
  have hs : ∀ c ∈ l0.filter (fun c => (m.con c).enabled), c ∈ m.conIds := fun c hc => hs0 c (List.mem_filter.1 hc).1
  generalize l0.filter (fun c => (m.con c).enabled) = l at hn hs
  have e : (l.map (fun c => if (m.con c).enabled then 2 * magnitude (m.con c).expr B else 0)).sum =
      (l.map (fun c => if (m.con c).enabled then magnitude (m.con c).expr B else 0)).sum * 2 := by
    rw [← sum_map_mul_right]
    refine sum_map_congr _ _ _ fun c _ => ?_
    split <;> ring
  rw [e, mul_comm]
  refine mul_le_mul_of_nonneg_left ?_ (by norm_num)
  obtain ⟨l', hp, hsub⟩ : List.Subperm l m.conIds := List.Nodup.subperm hn hs
  rw [← (hp.map _).sum_eq]
  refine List.Sublist.sum_le_sum (hsub.map _) ?_
  intro x hx
  obtain ⟨d, _, rfl⟩ := List.mem_map.1 hx
  exact h.part_nonneg d

/-- **Fast evaluation of several variables**: the total violation is exact on grids not finer than the skipping tolerance. -/
theorem multi_violation_exact (hg : EPSILON_10 ≤ g) (hx : ExactOn fl g) (mv : Move) (cur : Score) (hw : WellFormed m)
    (hc : Current m) (h : Fits g B m mv.alterations) (hcov : Covers m mv.alterations mv.related)
    (hcur : cur.totalViolation = totalViolation m (assignment m)) :
    multiViolation fl m mv cur = totalViolation m (applyMove (assignment m) mv.alterations) := by
  have hg0 : 0 < g := lt_of_lt_of_le (by norm_num [EPSILON_10]) hg
  have e : multiViolation fl m mv cur = mv.related.foldl (fun acc c => acc +
      m.dTV (assignment m) (applyMove (assignment m) mv.alterations) c) cur.totalViolation := by
    unfold multiViolation
    refine fold_exact _ _ (fun c => if (m.con c).enabled then 2 * magnitude (m.con c).expr B else 0) g (2 ^ 53 * g) _
      (fun c _ => ?_) ?_ _ ?_ ?_
    · have := h.nonneg c
      split <;> linarith
    · intro acc c hcr hacc hle
      have hcm := hcov.mem c hcr
      unfold MState.dTV
      by_cases he : (m.con c).enabled = true
      · rw [if_pos he] at hle ⊢
        have hv := h.value hg0 hx hw hc c hcm he
        have hcc := hc.con c hcm he
        have hgr := grid_value (h.grid c hcm he) (applyMove (assignment m) mv.alterations)
        have hgs := grid_value (h.grid c hcm he) (assignment m)
        have hbd := value_bound (m.con c).expr B _ h.moved
        have hbs := value_bound (m.con c).expr B _ h.current
        rw [if_pos he, Con.violation_eq, Con.violation_eq]
        unfold multiStep
        dsimp only
        rw [hv, hcc.value, hcc.pos, hcc.neg]
        simp only [he, Bool.not_true, Bool.false_eq_true, if_false]
        have hrange := h.range
        have hmc := h.le c hcm he
        have hnn := h.nonneg c
        generalize exprValue (m.con c).expr (applyMove (assignment m) mv.alterations) = x at hgr hbd
        generalize exprValue (m.con c).expr (assignment m) = y at hgs hbs
        generalize magnitude (m.con c).expr B = M at hbd hbs hle hmc hnn
        have hxy : fl (x - y) = x - y := hx.eq hg0 (hgr.sub hgs) (by have := abs_sub x y; linarith)
        rw [hxy]
        by_cases hsk : |x - y| < EPSILON_10
        · rw [if_pos hsk]
          have : x = y := by
            obtain ⟨n, hn⟩ := hgr.sub hgs
            rw [hn, abs_mul, abs_of_pos hg0] at hsk
            have h1 : |(n : ℚ)| * g < 1 * g := by linarith
            have h2 : |(n : ℚ)| < 1 := lt_of_mul_lt_mul_right h1 (le_of_lt hg0)
            have h3 : |n| < 1 := by exact_mod_cast h2
            have h4 : n = 0 := Int.abs_lt_one_iff.1 h3
            rw [h4] at hn
            push_cast at hn
            linarith
          rw [this, sub_self, add_zero]
          exact ⟨rfl, hacc, by linarith⟩
        · rw [if_neg hsk]
          have d1 := max0_diff x y M hbd hbs
          have d2 := max0_diff (-x) (-y) M (by rwa [abs_neg]) (by rwa [abs_neg])
          have g1 : OnGrid g (max x 0 - max y 0) := hgr.max0.sub hgs.max0
          have g2 : OnGrid g (max (-x) 0 - max (-y) 0) := hgr.neg.max0.sub hgs.neg.max0
          have hacc0 := abs_nonneg acc
          have f1 : fl (max x 0 - max y 0) = max x 0 - max y 0 := hx.eq hg0 g1 (by linarith)
          have f2 : fl (max (-x) 0 - max (-y) 0) = max (-x) 0 - max (-y) 0 := hx.eq hg0 g2 (by linarith)
          rw [f1, f2]
          have key : ∀ p q : ℚ, OnGrid g p → OnGrid g q → |p| ≤ M → |q| ≤ M →
              fl (acc + fl (p + q)) = acc + (p + q) ∧ OnGrid g (acc + (p + q)) ∧ |acc + (p + q)| ≤ |acc| + 2 * M := by
            intro p q hp hq bp bq
            have b1 := abs_add_le p q
            have b2 := abs_add_le acc (p + q)
            rw [hx.eq hg0 (hp.add hq) (by linarith), hx.eq hg0 (hacc.add (hp.add hq)) (by linarith)]
            exact ⟨rfl, hacc.add (hp.add hq), by linarith⟩
          have z1 : |(0 : ℚ)| ≤ M := by rw [abs_zero]; exact hnn
          unfold Con.tvPart
          have e2 : ∀ a b c d : ℚ, a + b - (c + d) = a - c + (b - d) := fun a b c d => by ring
          rw [e2]
          by_cases l1 : (m.con c).isLe = true <;> by_cases l2 : (m.con c).isGe = true
          · simp only [l1, l2, if_true]
            exact key _ _ g1 g2 d1 d2
          · simp only [l1, l2, if_true, if_false, Bool.false_eq_true, sub_self]
            exact key _ _ g1 (OnGrid.zero g) d1 z1
          · simp only [l1, l2, if_true, if_false, Bool.false_eq_true, sub_self]
            exact key _ _ (OnGrid.zero g) g2 z1 d2
          · simp only [l1, l2, if_false, Bool.false_eq_true, sub_self]
            exact key _ _ (OnGrid.zero g) (OnGrid.zero g) z1 z1
      · rw [if_neg he] at hle ⊢
        unfold multiStep
        simp [he, hacc]
    · rw [hcur]; exact violation_grid h
    · have h1 := h.range
      have h2 := sub_magnitude h mv.related hcov.nodup hcov.mem
      have h3 := total_bound h
      rw [hcur]
      exact le_trans (add_le_add h3 h2) (by linarith)
  rw [e, foldl_sum, hcur]
  have hdiff := MState.totalViolation_diff m (assignment m) (applyMove (assignment m) mv.alterations)
  have hs : (m.conIds.map (m.dTV (assignment m) (applyMove (assignment m) mv.alterations))).sum =
      (mv.related.map (m.dTV (assignment m) (applyMove (assignment m) mv.alterations))).sum := by
    refine (sum_subset_filter _ _ _ _ hw.conIds hcov.nodup hcov.mem ?_ (fun c _ h => by simp [MState.dTV, h]))
    intro c hcm hn
    by_cases he : (m.con c).enabled = true
    · exact (MState.d_zero_of_untouched m _ mv.alterations c fun hex => hn (hcov.covers c hcm he hex)).1
    · simp [MState.dTV, he]
  rw [← hs]
  linarith

/-- **Fast evaluation of one variable**: rounding changes nothing, so everything shown for exact arithmetic holds. -/
theorem single_violation_exact (hg : 0 < g) (hx : ExactOn fl g) (mv : Move) (v : ℕ) (x : ℤ) (hmv : mv.alterations = [(v, x)])
    (cur : Score) (hw : WellFormed m) (hc : Current m) (h : Fits g B m mv.alterations) (hs : C07.SensOK m v)
    (hcur : cur.totalViolation = totalViolation m (assignment m)) :
    singleViolation fl m (v, x) cur = (m.evaluateSingle mv cur).totalViolation := by
  have hsingle : (m.evaluateSingle mv cur).totalViolation =
      ((m.sens v).foldl (m.evalSensStep Con.ignorable (x - m.vals v)) (cur.totalViolation, cur.localPenalty)).1 := by
    unfold MState.evaluateSingle; rw [hmv]; rfl
  rw [hsingle, MState.foldl_add2 _ _ _ _ (MState.evalSensStep_eq m Con.ignorable (x - m.vals v)), ← foldl_sum]
  unfold singleViolation
  dsimp only
  refine fold_exact _ _ (fun s => if (m.con s.1).enabled then 2 * magnitude (m.con s.1).expr B else 0) g (2 ^ 53 * g) _
      (fun s _ => ?_) ?_ _ ?_ ?_
  · have := h.nonneg s.1
    split <;> linarith
  · intro acc s hsm hacc hle
    obtain ⟨c, q⟩ := s
    obtain ⟨hcm, hq⟩ := (hs.2 c q).1 hsm
    dsimp only at hle ⊢
    unfold singleStep MState.sensTV
    dsimp only
    by_cases hi : (m.con c).ignorable = true
    · rw [if_pos hi, if_pos hi, add_zero]
      refine ⟨rfl, hacc, ?_⟩
      have := h.nonneg c
      split <;> linarith
    · rw [if_neg hi, if_neg hi]
      have he : (m.con c).enabled = true := by
        unfold Con.ignorable at hi
        by_contra hn
        simp [hn] at hi
      rw [if_pos he] at hle ⊢
      have hcc := hc.con c hcm he
      have hlk := Expr.lookup_of_mem _ (hw.con c hcm) _ _ hq
      have hτ := MState.exprValue_single (m.con c).expr (hw.con c hcm) (assignment m) v x
      rw [hlk] at hτ
      have hgs := grid_value (h.grid c hcm he) (assignment m)
      have hbs := value_bound (m.con c).expr B _ h.current
      have hgq : OnGrid g (q * ((x - m.vals v : ℤ) : ℚ)) := ((h.grid c hcm he).coef _ hq).mul_int _
      have hmoved := h.moved
      rw [hmv] at hmoved
      have hbd := value_bound (m.con c).expr B _ hmoved
      rw [hτ] at hbd
      rw [hcc.value, hcc.pos, hcc.neg]
      have hrange := h.range
      have hmc := h.le c hcm he
      have hnn := h.nonneg c
      rw [vals_eq] at hgq ⊢
      generalize exprValue (m.con c).expr (assignment m) = y at hgs hbs hbd
      generalize q * ((x - assignment m v : ℤ) : ℚ) = d at hgq hbd
      generalize magnitude (m.con c).expr B = M at hbd hbs hle hmc hnn
      have hd : |d| ≤ 2 * M := by
        have := abs_sub (y + d) y
        rw [show y + d - y = d by ring] at this
        linarith
      have fd : fl d = d := hx.eq hg hgq (by linarith)
      have fz : fl (y + d) = y + d := hx.eq hg (hgs.add hgq) (by linarith)
      rw [fd, fz]
      have hgz : OnGrid g (y + d) := hgs.add hgq
      generalize y + d = z at hbd hgz
      have hmin : min z 0 = -max (-z) 0 := by rw [← Con.neg_min_eq]; ring
      have d1 := max0_diff z y M hbd hbs
      have d2 := max0_diff (-y) (-z) M (by rwa [abs_neg]) (by rwa [abs_neg])
      have g1 : OnGrid g (max z 0 - max y 0) := hgz.max0.sub hgs.max0
      have g2 : OnGrid g (max (-y) 0 - max (-z) 0) := hgs.neg.max0.sub hgz.neg.max0
      have e2 : min z 0 + max (-y) 0 = max (-y) 0 - max (-z) 0 := by rw [hmin]; ring
      rw [e2]
      generalize max z 0 - max y 0 = p at d1 g1
      generalize max (-y) 0 - max (-z) 0 = r at d2 g2
      have hacc0 := abs_nonneg acc
      have fp : fl p = p := hx.eq hg g1 (by linarith)
      have fr : fl r = r := hx.eq hg g2 (by linarith)
      rw [fp, fr]
      have b1 := abs_add_le acc p
      have b2 := abs_sub acc r
      have b3 := abs_sub (acc + p) r
      have f1 : fl (acc + p) = acc + p := hx.eq hg (hacc.add g1) (by linarith)
      have f2 : fl (acc - r) = acc - r := hx.eq hg (hacc.sub g2) (by linarith)
      have f3 : fl (acc + p - r) = acc + p - r := hx.eq hg ((hacc.add g1).sub g2) (by linarith)
      by_cases l1 : (m.con c).isLe = true <;> by_cases l2 : (m.con c).isGe = true
      · simp only [l1, l2, if_true, f1, f3]
        rw [show acc + (p + -r) = acc + p - r by ring]
        exact ⟨rfl, (hacc.add g1).sub g2, by linarith⟩
      · simp only [l1, l2, if_true, f1, if_false, add_zero, Bool.false_eq_true]
        exact ⟨trivial, hacc.add g1, by linarith⟩
      · simp only [l1, l2, if_true, f2, if_false, zero_add, Bool.false_eq_true]
        rw [show acc + -r = acc - r by ring]
        exact ⟨rfl, hacc.sub g2, by linarith⟩
      · simp only [l1, l2, if_false, add_zero, Bool.false_eq_true]
        exact ⟨trivial, hacc, by linarith⟩
  · rw [hcur]; exact violation_grid h
  · have h1 := h.range
    have h2 := sub_magnitude h ((m.sens v).map Prod.fst) (hs.1.filter _) (by
      intro c hcm
      obtain ⟨⟨c', q⟩, hq, rfl⟩ := List.mem_map.1 hcm
      exact ((hs.2 c' q).1 hq).1)
    rw [List.map_map] at h2
    have h3 := total_bound h
    rw [hcur]
    exact le_trans (add_le_add h3 h2) (by linarith)

end

/-! ## Error bounds for arbitrary data -/

/-- The relative error of one operation is at most `u`. -/
def Accurate (fl : ℚ → ℚ) (u : ℚ) : Prop := ∀ q, |fl q - q| ≤ u * |q|

theorem fl53_accurate : Accurate fl53 (1 / 2 ^ 53) := fl53_error

/-- The loops accumulate at most `(1+u)^(n+1) - 1` times the sum of the magnitudes. -/
theorem sum_error (fl : ℚ → ℚ) (u : ℚ) (hu : 0 ≤ u) (h : Accurate fl u) (v : ℚ) (l : List ℚ) :
    |Rounded.sum fl v l - (v + l.sum)| ≤ ((1 + u) ^ (l.length + 1) - 1) * (|v| + (l.map (fun t => |t|)).sum) := by
  induction l using List.reverseRecOn with
  | nil =>
    show |v - (v + 0)| ≤ _
    simp
    exact mul_nonneg hu (abs_nonneg v)
  | append_singleton l t ih =>
    have e : Rounded.sum fl v (l ++ [t]) = fl (Rounded.sum fl v l + fl t) := by
      unfold Rounded.sum; rw [List.foldl_append]; rfl
    rw [e, List.sum_append, List.map_append, List.sum_append, List.length_append]
    simp only [List.sum_cons, List.sum_nil, List.map_cons, List.map_nil, List.length_cons, List.length_nil, add_zero]
    rw [← add_assoc |v|]
    generalize Rounded.sum fl v l = s at ih
    have hA : |v + l.sum| ≤ |v| + (l.map (fun t => |t|)).sum := by
      refine le_trans (abs_add_le _ _) (add_le_add_right ?_ _)
      have := abs_sum_le l (fun t => t) (fun t => |t|) fun t _ => le_rfl
      simpa using this
    generalize l.sum = S at ih hA
    have hA0 : 0 ≤ |v| + (l.map (fun t => |t|)).sum := le_trans (abs_nonneg _) hA
    generalize |v| + (l.map (fun t => |t|)).sum = A at ih hA hA0
    have hE : 1 + u ≤ (1 + u) ^ (l.length + 1) := by
      have : (1 : ℚ) ≤ (1 + u) ^ l.length := one_le_pow₀ (by linarith)
      rw [pow_succ]
      nlinarith
    rw [show l.length + (0 + 1) + 1 = (l.length + 1) + 1 by ring, pow_succ (1 + u) (l.length + 1)]
    generalize (1 + u) ^ (l.length + 1) = E at ih hE
    have hs : |s| ≤ E * A := by
      have h1 := abs_add_le (s - (v + S)) (v + S)
      rw [show s - (v + S) + (v + S) = s by ring] at h1
      linarith
    have ht := h t
    have hft : |fl t| ≤ (1 + u) * |t| := by
      have h1 := abs_add_le (fl t - t) t
      rw [show fl t - t + t = fl t by ring] at h1
      linarith
    have h1 := h (s + fl t)
    have h2 := abs_add_le s (fl t)
    have h3 : |fl (s + fl t) - (v + (S + t))| ≤ |fl (s + fl t) - (s + fl t)| + (|s - (v + S)| + |fl t - t|) := by
      refine le_trans ?_ (add_le_add_right (abs_add_le _ _) _)
      refine le_trans (le_of_eq ?_) (abs_add_le _ _)
      congr 1; ring
    have h4 : u * |s + fl t| ≤ u * (E * A + (1 + u) * |t|) := mul_le_mul_of_nonneg_left (by linarith) hu
    have h5 : 0 ≤ (E * (1 + u) - (1 + u) * (1 + u)) * |t| := by
      refine mul_nonneg ?_ (abs_nonneg t)
      nlinarith
    calc _ ≤ u * (E * A + (1 + u) * |t|) + ((E - 1) * A + u * |t|) := by linarith
      _ ≤ _ := by linarith

/-- The products added by a history of moves. -/
def deltas (e : Expr) : (ℕ → ℤ) → List (List (ℕ × ℤ)) → List ℚ
  | _, [] => []
  | σ, alts :: rest => alts.map (fun a => Expr.lookup e.terms a.1 * (((a.2 - σ a.1 : ℤ)) : ℚ)) ++ deltas e (applyMove σ alts) rest

theorem afterMoves_eq (fl : ℚ → ℚ) (e : Expr) (moves : List (List (ℕ × ℤ))) (σ : ℕ → ℤ) (v : ℚ) :
    afterMoves fl e σ v moves = (moves.foldl applyMove σ, Rounded.sum fl v (deltas e σ moves)) := by
  induction moves generalizing σ v with
  | nil => rfl
  | cons alts rest ih =>
    unfold afterMoves deltas
    rw [ih, assign_eq]
    refine Prod.ext rfl ?_
    show Rounded.sum fl (Rounded.evaluateMove fl e v σ alts) _ = _
    unfold Rounded.evaluateMove Rounded.sum
    rw [List.foldl_append]

theorem deltas_sum (e : Expr) (hw : (e.terms.map Prod.fst).Nodup) (moves : List (List (ℕ × ℤ))) (σ : ℕ → ℤ)
    (hd : ∀ alts ∈ moves, (alts.map Prod.fst).Nodup) :
    exprValue e σ + (deltas e σ moves).sum = exprValue e (moves.foldl applyMove σ) := by
  induction moves generalizing σ with
  | nil => simp [deltas]
  | cons alts rest ih =>
    unfold deltas
    rw [List.sum_append, ← add_assoc, exact_move e hw σ alts (hd alts (by simp)), ih _ fun x hx => hd x (by simp [hx])]
    rfl

theorem deltas_length (e : Expr) (moves : List (List (ℕ × ℤ))) (σ : ℕ → ℤ) :
    (deltas e σ moves).length = (moves.map List.length).sum := by
  induction moves generalizing σ with
  | nil => rfl
  | cons alts rest ih => unfold deltas; rw [List.length_append, ih]; simp

theorem deltas_bound (e : Expr) (hw : (e.terms.map Prod.fst).Nodup) (B : ℕ → ℚ) (moves : List (List (ℕ × ℤ))) (σ : ℕ → ℤ)
    (hσ : ∀ v, |(σ v : ℚ)| ≤ B v) (hd : ∀ alts ∈ moves, (alts.map Prod.fst).Nodup)
    (ha : ∀ alts ∈ moves, ∀ a ∈ alts, |(a.2 : ℚ)| ≤ B a.1) :
    ((deltas e σ moves).map (fun t => |t|)).sum ≤ moves.length * (2 * magnitude e B) := by
  induction moves generalizing σ with
  | nil => simp [deltas]
  | cons alts rest ih =>
    unfold deltas
    rw [List.map_append, List.sum_append, List.map_map]
    have h1 := magnitude_parts e B hw σ hσ alts (hd alts (by simp)) (ha alts (by simp))
    have h2 := ih _ (applyMove_bound B σ hσ alts (ha alts (by simp))) (fun x hx => hd x (by simp [hx])) (fun x hx => ha x (by simp [hx]))
    have h3 := add_le_add h1 h2
    refine le_trans h3 (le_of_eq ?_)
    push_cast [List.length_cons]
    ring

/-- **Arbitrary data**: after recomputing an expression and performing any moves the stored value is off by at most
`(1+u)^(n+1) - 1` times `(2 T + 1)` magnitudes, `n` being the number of terms and alterations and `T` that of moves. -/
theorem history_error (fl : ℚ → ℚ) (u : ℚ) (hu : 0 ≤ u) (h : Accurate fl u) (e : Expr) (hw : (e.terms.map Prod.fst).Nodup)
    (B : ℕ → ℚ) (moves : List (List (ℕ × ℤ))) (σ : ℕ → ℤ) (hσ : ∀ v, |(σ v : ℚ)| ≤ B v)
    (hd : ∀ alts ∈ moves, (alts.map Prod.fst).Nodup) (ha : ∀ alts ∈ moves, ∀ a ∈ alts, |(a.2 : ℚ)| ≤ B a.1) :
    (afterMoves fl e σ (Rounded.evaluate fl e σ) moves).1 = moves.foldl applyMove σ ∧
    |(afterMoves fl e σ (Rounded.evaluate fl e σ) moves).2 - exprValue e (moves.foldl applyMove σ)| ≤
      ((1 + u) ^ (e.terms.length + (moves.map List.length).sum + 1) - 1) * ((2 * moves.length + 1) * magnitude e B) := by
  refine ⟨by rw [afterMoves_eq], ?_⟩
  have e1 : (afterMoves fl e σ (Rounded.evaluate fl e σ) moves).2 =
      Rounded.sum fl e.const (e.terms.map (fun t => (σ t.1 : ℚ) * t.2) ++ deltas e σ moves) := by
    rw [afterMoves_eq]
    unfold Rounded.evaluate Rounded.sum
    rw [List.foldl_append]
  have e2 : exprValue e (moves.foldl applyMove σ) = e.const + (e.terms.map (fun t => (σ t.1 : ℚ) * t.2) ++ deltas e σ moves).sum := by
    rw [← deltas_sum e hw moves σ hd, List.sum_append, ← add_assoc]
    unfold exprValue
    congr 2
    exact sum_map_congr _ _ _ fun t _ => mul_comm _ _
  rw [e1, e2]
  refine le_trans (sum_error fl u hu h _ _) ?_
  rw [List.length_append, List.length_map, deltas_length]
  refine mul_le_mul_of_nonneg_left ?_ ?_
  · rw [List.map_append, List.sum_append, List.map_map]
    have h1 := deltas_bound e hw B moves σ hσ hd ha
    have h2 : |e.const| + (e.terms.map ((fun t => |t|) ∘ fun t => (σ t.1 : ℚ) * t.2)).sum ≤ magnitude e B := by
      unfold magnitude
      refine add_le_add_right (sum_map_le _ _ _ fun t _ => ?_) _
      show |(σ t.1 : ℚ) * t.2| ≤ _
      rw [abs_mul, mul_comm]
      exact mul_le_mul_of_nonneg_left (hσ t.1) (abs_nonneg _)
    rw [← add_assoc]
    linarith
  · have : (1 : ℚ) ≤ (1 + u) ^ (e.terms.length + (moves.map List.length).sum + 1) := one_le_pow₀ (by linarith)
    linarith

/-- The growth factor is linear as long as the number of operations is small against `1/u`. -/
theorem growth (u : ℚ) (hu : 0 ≤ u) (k : ℕ) (hk : 2 * k * u ≤ 1) : (1 + u) ^ k - 1 ≤ 2 * k * u := by
  induction k with
  | zero => simp
  | succ k ih =>
    push_cast at hk ⊢
    have h1 := ih (by nlinarith)
    rw [pow_succ]
    nlinarith

/-! ## What cannot be claimed -/

/-- A constraint `2^53·y + x ≤ 0`. -/
def drift : Expr := { terms := [(0, 1), (1, 2 ^ 53)], const := 0, value := 0 }

/-- **Drift hides a violation**: starting from `x = 0, y = 1`, the moves `x := 1` and `y := 0` leave the stored value `0`, so the
constraint counts as satisfied, while its value at `x = 1, y = 0` is `1`, which recomputing would give. -/
theorem drift_hides_violation :
    let σ : ℕ → ℤ := fun v => if v = 1 then 1 else 0
    let moves : List (List (ℕ × ℤ)) := [[(0, 1)], [(1, 0)]]
    let r := afterMoves fl53 drift σ (Rounded.evaluate fl53 drift σ) moves
    r.2 = 0 ∧ exprValue drift r.1 = 1 ∧ Rounded.evaluate fl53 drift r.1 = 1 := by
  decide +kernel

/-! ## Instances -/

example : fl53 (1 / 10) ≠ 1 / 10 := by decide +kernel
example : fl53 (3 / 8) = 3 / 8 := by decide +kernel
/-- Summing one tenth three times does not give three tenths. -/
example : Rounded.sum fl53 0 [fl53 (1 / 10), fl53 (1 / 10), fl53 (1 / 10)] ≠ fl53 (3 / 10) := by decide +kernel

/-- The sample model has integer data: the grid width is one. -/
theorem example_fits : Fits 1 (fun _ => 5) Example.model Example.move.alterations where
  grid c hc _ := by
    have h1 : ∀ c ∈ Example.model.conIds, (Example.model.con c).expr.const.den = 1 ∧
        ∀ t ∈ (Example.model.con c).expr.terms, t.2.den = 1 := by decide +kernel
    exact ⟨⟨_, by rw [mul_one]; exact (Rat.coe_int_num_of_den_eq_one (h1 c hc).1).symm⟩,
      fun t ht => ⟨_, by rw [mul_one]; exact (Rat.coe_int_num_of_den_eq_one ((h1 c hc).2 t ht)).symm⟩⟩
  current v := by rw [Example.assignment_eq]; norm_num
  new a ha := by
    simp only [Example.move, List.mem_cons, List.not_mem_nil, or_false] at ha
    rcases ha with rfl | rfl <;> norm_num
  distinct := Example.good.distinct
  range := by decide +kernel

theorem fl53_exactOn_one : ExactOn fl53 1 := by
  have := fl53_exactOn 0
  rwa [zpow_zero] at this

example : fullViolation fl53 Example.model Example.move =
    totalViolation Example.model (applyMove (assignment Example.model) Example.move.alterations) :=
  full_violation_exact (by norm_num) fl53_exactOn_one Example.move Example.wf Example.current example_fits

example (cur : Score) (h : cur.totalViolation = totalViolation Example.model (assignment Example.model)) :
    multiViolation fl53 Example.model Example.move cur =
      totalViolation Example.model (applyMove (assignment Example.model) Example.move.alterations) :=
  multi_violation_exact (by norm_num [EPSILON_10]) fl53_exactOn_one Example.move cur Example.wf Example.current example_fits
    Example.covers h

/-- An expression with quarter steps: `0.25 x - 1.5 y + 2`, values up to a million. -/
def quarter : Expr := { terms := [(0, 1 / 4), (1, -3 / 2)], const := 2, value := 0 }

theorem quarter_grid : Grid (2 ^ (-2 : ℤ)) quarter where
  const := ⟨8, by norm_num [quarter]⟩
  coef t ht := by
    simp only [quarter, List.mem_cons, List.not_mem_nil, or_false] at ht
    rcases ht with rfl | rfl
    · exact ⟨1, by norm_num⟩
    · exact ⟨-6, by norm_num⟩

example (moves : List (List (ℕ × ℤ))) (hd : ∀ alts ∈ moves, (alts.map Prod.fst).Nodup)
    (ha : ∀ alts ∈ moves, ∀ a ∈ alts, |(a.2 : ℚ)| ≤ 1000000) :
    (afterMoves fl53 quarter (fun _ => 0) (Rounded.evaluate fl53 quarter (fun _ => 0)) moves).2 =
      exprValue quarter (moves.foldl applyMove (fun _ => 0)) := by
  rw [history_exact fl53 _ (by norm_num) (fl53_exactOn (-2)) quarter quarter_grid (by decide) (fun _ => 1000000) moves
    (fun _ => 0) (by intro v; norm_num) hd ha (by norm_num [magnitude, quarter])]

/-- With coefficients 0.1 the error after any ten moves of one variable each stays below 10^-8. -/
example (moves : List (List (ℕ × ℤ))) (hl : moves.length = 10) (hone : ∀ alts ∈ moves, alts.length = 1)
    (hd : ∀ alts ∈ moves, (alts.map Prod.fst).Nodup) (ha : ∀ alts ∈ moves, ∀ a ∈ alts, |(a.2 : ℚ)| ≤ 100) (c : ℚ) (hc : |c| ≤ 1 / 5) :
    let e : Expr := { terms := [(0, c), (1, c)], const := 0, value := 0 }
    |(afterMoves fl53 e (fun _ => 0) (Rounded.evaluate fl53 e (fun _ => 0)) moves).2 -
      exprValue e (moves.foldl applyMove (fun _ => 0))| ≤ 1 / 10 ^ 8 := by
  intro e
  have h := (history_error fl53 _ (by norm_num) fl53_accurate e (by simp [e]) (fun _ => 100) moves (fun _ => 0)
    (by intro v; norm_num) hd ha).2
  have hs : (moves.map List.length).sum = 10 := by
    rw [← hl]
    clear hl hd ha h
    induction moves with
    | nil => rfl
    | cons a l ih =>
      rw [List.map_cons, List.sum_cons, ih (fun x hx => hone x (by simp [hx])), hone a (by simp), List.length_cons]; ring
  rw [hs, hl] at h
  refine le_trans h ?_
  have hg := growth (1 / 2 ^ 53) (by norm_num) (e.terms.length + 10 + 1) (by norm_num [e])
  have hm : magnitude e (fun _ => 100) ≤ 40 := by
    simp only [magnitude, e, List.map_cons, List.map_nil, List.sum_cons, List.sum_nil, abs_zero]
    linarith
  have hm0 : 0 ≤ magnitude e (fun _ => 100) := by
    simp only [magnitude, e, List.map_cons, List.map_nil, List.sum_cons, List.sum_nil, abs_zero]
    have := abs_nonneg c
    linarith
  have e1 : e.terms.length = 2 := rfl
  rw [e1] at hg ⊢
  norm_num at hg ⊢
  nlinarith

end Printemps.C65
