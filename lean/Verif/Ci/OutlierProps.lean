import Verif.Ci.Report
import Mathlib.Tactic.NormNum
import Mathlib.Tactic.Linarith
import Mathlib.Tactic.Ring
import Mathlib.Tactic.FieldSimp
import Mathlib.Tactic.Positivity
import Mathlib.Algebra.Order.Field.Rat
import Mathlib.Data.List.Count
import Mathlib.Algebra.BigOperators.Group.List.Basic

/-!
# C72: the outlier filter of the report
-/

namespace Verif.Ci.Report
open Verif

theorem compress_map {α : Type} (p : α → Bool) (xs : List α) : compress xs (xs.map p) = xs.filter p := by
  induction xs with
  | nil => rfl
  | cons a xs ih =>
    rw [List.map_cons, compress, ih, List.filter_cons]

/-- The sum of the squares of the deviations. -/
def devs (m : ℚ) (xs : List ℚ) : ℚ := (xs.map fun x => (x - m) ^ 2).sum

theorem devs_cons (m x : ℚ) (xs : List ℚ) : devs m (x :: xs) = (x - m) ^ 2 + devs m xs := by
  simp [devs]

theorem devs_nonneg (m : ℚ) (xs : List ℚ) : 0 ≤ devs m xs := by
  induction xs with
  | nil => simp [devs]
  | cons x xs ih => rw [devs_cons]; positivity

theorem devs_le {m : ℚ} {xs : List ℚ} {x : ℚ} (h : x ∈ xs) : (x - m) ^ 2 ≤ devs m xs := by
  induction xs with
  | nil => simp at h
  | cons y ys ih =>
    rw [devs_cons]
    rcases List.mem_cons.1 h with rfl | h
    · have := devs_nonneg m ys; linarith
    · have := ih h; have := sq_nonneg (y - m); linarith

theorem sum_dev (m : ℚ) (xs : List ℚ) : (xs.map fun x => x - m).sum = xs.sum - xs.length * m := by
  induction xs with
  | nil => simp
  | cons x xs ih =>
    rw [List.map_cons, List.sum_cons, ih, List.sum_cons, List.length_cons]
    push_cast
    ring

/-- Cauchy and Schwarz. -/
theorem sum_sq_le (m : ℚ) (xs : List ℚ) : (xs.map fun x => x - m).sum ^ 2 ≤ xs.length * devs m xs := by
  induction xs with
  | nil => simp [devs]
  | cons x xs ih =>
    rw [List.map_cons, List.sum_cons, devs_cons, List.length_cons]
    push_cast
    generalize (xs.map fun x => x - m).sum = S at *
    have hq := devs_nonneg m xs
    generalize devs m xs = Q at *
    generalize x - m = d
    rcases Nat.eq_zero_or_pos xs.length with hz | hp
    · rw [hz] at ih ⊢
      have : S = 0 := by
        have : S ^ 2 = 0 := le_antisymm (by simpa using ih) (sq_nonneg _)
        simpa using this
      rw [this]
      push_cast
      nlinarith
    · have hp : (0 : ℚ) < xs.length := by exact_mod_cast hp
      generalize (xs.length : ℚ) = n at *
      have h1 := sq_nonneg (n * d - S)
      have h2 : n * (2 * d * S) ≤ n * (n * d ^ 2 + Q) := by nlinarith
      have h3 := le_of_mul_le_mul_left h2 hp
      nlinarith

theorem sum_dev_mean {xs : List ℚ} (h : xs ≠ []) : (xs.map fun x => x - mean xs).sum = 0 := by
  rw [sum_dev]
  unfold mean
  have : (xs.length : ℚ) ≠ 0 := by
    have := List.length_pos_of_ne_nil h
    exact_mod_cast this.ne'
  field_simp
  ring

theorem var_eq (xs : List ℚ) : var xs = devs (mean xs) xs / xs.length := rfl

theorem var_nonneg (xs : List ℚ) : 0 ≤ var xs := by
  rw [var_eq]
  have := devs_nonneg (mean xs) xs
  positivity

theorem devs_var {xs : List ℚ} (h : xs ≠ []) : devs (mean xs) xs = xs.length * var xs := by
  have : (xs.length : ℚ) ≠ 0 := by
    have := List.length_pos_of_ne_nil h
    exact_mod_cast this.ne'
  rw [var_eq]
  field_simp

theorem var_zero {xs : List ℚ} (h : var xs = 0) {x : ℚ} (hx : x ∈ xs) : x = mean xs := by
  have hn : xs ≠ [] := List.ne_nil_of_mem hx
  have h1 := devs_le (m := mean xs) hx
  rw [devs_var hn, h, mul_zero] at h1
  have h2 : (x - mean xs) ^ 2 = 0 := le_antisymm h1 (sq_nonneg _)
  have h3 : x - mean xs = 0 := by simpa using h2
  linarith

/-- Samuelson: no deviation is larger than the square root of `n - 1` standard deviations. -/
theorem samuelson {xs : List ℚ} {x : ℚ} (hx : x ∈ xs) :
    (x - mean xs) ^ 2 ≤ (xs.length - 1) * var xs := by
  have hn : xs ≠ [] := List.ne_nil_of_mem hx
  obtain ⟨l, r, e⟩ := List.append_of_mem hx
  have hs := sum_dev_mean hn
  have hd := devs_var hn
  have hc := sum_sq_le (mean xs) (l ++ r)
  generalize mean xs = m at *
  generalize var xs = v at *
  have e1 : (xs.map fun x => x - m).sum = (x - m) + ((l ++ r).map fun x => x - m).sum := by
    rw [e]; simp; ring
  have e2 : devs m xs = (x - m) ^ 2 + devs m (l ++ r) := by
    rw [e]; simp [devs]; ring
  have e3 : (xs.length : ℚ) = (l ++ r).length + 1 := by
    rw [e]; simp; ring
  rw [e1] at hs
  rw [e2] at hd
  rw [e3] at hd ⊢
  generalize ((l ++ r).map fun x => x - m).sum = S at *
  generalize devs m (l ++ r) = Q at *
  have hk : (0 : ℚ) ≤ (l ++ r).length := by positivity
  generalize (((l ++ r).length : ℕ) : ℚ) = k at *
  have hS : S = -(x - m) := by linarith
  rw [hS, neg_sq] at hc
  generalize (x - m) ^ 2 = D at *
  have hQ : Q = (k + 1) * v - D := by linarith
  rw [hQ] at hc
  have : (k + 1) * D ≤ (k + 1) * (k * v) := by nlinarith
  have := le_of_mul_le_mul_left this (by linarith)
  linarith

/-- The runs that the filter keeps. -/
theorem detect_of {xs : List ℚ} (h2 : 2 < xs.length) (hv : var xs ≠ 0) :
    compress xs (detect xs) = xs.filter fun x => decide ((x - mean xs) ^ 2 < 9 * var xs) := by
  unfold detect
  rw [if_neg (by omega), if_neg hv, compress_map]

theorem detect_small {xs : List ℚ} (h2 : xs.length ≤ 2) : compress xs (detect xs) = xs := by
  unfold detect
  rw [if_pos h2, compress_map]
  simp

theorem detect_const {xs : List ℚ} (hv : var xs = 0) (h : ∃ x ∈ xs, x ≠ 0) :
    compress xs (detect xs) = xs := by
  unfold detect
  obtain ⟨x, hx, hx0⟩ := h
  have hm := var_zero hv hx
  split_ifs with h2
  · rw [compress_map]; simp
  · rw [compress_map, List.filter_eq_self]
    intro y hy
    rw [var_zero hv hy, ← hm]
    simpa using hx0

theorem markov (m c : ℚ) (xs : List ℚ) :
    c * (xs.filter fun x => decide (¬ (x - m) ^ 2 < c)).length ≤ devs m xs := by
  induction xs with
  | nil => simp [devs]
  | cons x xs ih =>
    rw [devs_cons, List.filter_cons]
    by_cases h : (x - m) ^ 2 < c
    · rw [if_neg (by simpa using h)]
      have := sq_nonneg (x - m)
      linarith
    · rw [if_pos (by simpa using h), List.length_cons]
      push_cast
      linarith [not_lt.1 h]

/-- C72: at most one point in nine is removed, unless all the values are zero.  Partial: zeros are
all removed, `C72_zeros_wrong`. -/
theorem C72_ninth_partial (xs : List ℚ) (h : xs.length ≤ 2 ∨ ∃ x ∈ xs, x ≠ 0) :
    9 * (xs.length - (compress xs (detect xs)).length) ≤ xs.length := by
  by_cases h2 : xs.length ≤ 2
  · rw [detect_small h2]; omega
  · by_cases hv : var xs = 0
    · rw [detect_const hv (by tauto)]; omega
    · rw [detect_of (by omega) hv]
      have hn : xs ≠ [] := by rintro rfl; simp at h2
      have hp := lt_of_le_of_ne (var_nonneg xs) (Ne.symm hv)
      have hm := markov (mean xs) (9 * var xs) xs
      rw [devs_var hn] at hm
      have hl := List.length_eq_length_filter_add (l := xs) (fun x => decide ((x - mean xs) ^ 2 < 9 * var xs))
      have e : (xs.filter fun x => !decide ((x - mean xs) ^ 2 < 9 * var xs)) =
          xs.filter fun x => decide (¬ (x - mean xs) ^ 2 < 9 * var xs) := by
        congr 1; funext x; exact decide_not.symm
      rw [e] at hl
      generalize (xs.filter fun x => decide (¬ (x - mean xs) ^ 2 < 9 * var xs)).length = a at *
      generalize (xs.filter fun x => decide ((x - mean xs) ^ 2 < 9 * var xs)).length = b at *
      have : (9 * a : ℚ) ≤ xs.length := by
        by_contra hc
        have := mul_lt_mul_of_pos_left (not_le.1 hc) hp
        nlinarith
      have : 9 * a ≤ xs.length := by exact_mod_cast this
      omega

/-- C72: with nine runs or fewer no point is ever an outlier, however far it is. -/
theorem C72_nine (xs : List ℚ) (hn : xs.length ≤ 9) (h : xs.length ≤ 2 ∨ ∃ x ∈ xs, x ≠ 0) :
    compress xs (detect xs) = xs := by
  by_cases h2 : xs.length ≤ 2
  · exact detect_small h2
  · by_cases hv : var xs = 0
    · exact detect_const hv (by tauto)
    · rw [detect_of (by omega) hv, List.filter_eq_self]
      intro x hx
      have hs := samuelson hx
      have hp := lt_of_le_of_ne (var_nonneg xs) (Ne.symm hv)
      have : (xs.length : ℚ) ≤ 9 := by exact_mod_cast hn
      rw [decide_eq_true_iff]
      nlinarith

/-- C72: with at least three values that are not all equal, a value is kept if and only if it is
nearer to the mean than three standard deviations. -/
theorem C72_kept (xs : List ℚ) (h2 : 2 < xs.length) (hv : ∃ x ∈ xs, x ≠ mean xs) (x : ℚ) :
    x ∈ compress xs (detect xs) ↔ x ∈ xs ∧ (x - mean xs) ^ 2 < 9 * var xs := by
  obtain ⟨y, hy, hne⟩ := hv
  rw [detect_of h2 (fun h => hne (var_zero h hy)), List.mem_filter, decide_eq_true_iff]

/-- C72: the values and the names of the runs stay side by side: what is left of the two columns is
what is left of the rows. -/
theorem C72_aligned {α : Type} (xs : List ℚ) (ls : List α) (keep : List Bool) (hl : ls.length = xs.length) :
    (compress ls keep).zip (compress xs keep) = compress (ls.zip xs) keep := by
  induction ls generalizing xs keep with
  | nil => rcases xs with _ | _ <;> rcases keep with _ | _ <;> simp [compress]
  | cons l ls ih =>
    rcases xs with _ | ⟨x, xs⟩
    · simp at hl
    rcases keep with _ | ⟨b, keep⟩
    · simp [compress]
    rw [List.zip_cons_cons, compress, compress, compress]
    have := ih xs keep (by simpa using hl)
    cases b
    · simpa using this
    · simpa using this

/-- C72: a test whose values are all zero disappears. -/
theorem C72_zeros_wrong (n : Nat) (h : 3 ≤ n) :
    compress (List.replicate n (0 : ℚ)) (detect (List.replicate n 0)) = [] := by
  have hv : var (List.replicate n (0 : ℚ)) = 0 := by
    unfold var mean
    simp
  unfold detect
  rw [if_neg (by simp; omega), if_pos hv, compress_map]
  simp

/-- Twelve runs, whose first is an outlier and the only one that failed its check. -/
def twelve : Dots :=
  { x := "abcdefghijkl".toList.map fun c => [c], stat := 1 :: List.replicate 11 0,
    colours := false :: List.replicate 11 true }

/-- C72: the colours, which tell the failed checks, are not filtered.  After the filter the first point is the second run, which passed, in the colour of a failure. -/
theorem C72_failure_wrong : (filterDots twelve).x.head? = some "b".toList ∧
    (filterDots twelve).colours.head? = some false ∧ twelve.colours[1]? = some true := by
  decide +kernel

/-- C72: the second pass of the filter of boxes, meant for the minima, looks at the maxima again. -/
theorem C72_minimum_wrong : ∃ d : Boxes, d.x.length = d.min.length ∧ d.min.length = d.max.length ∧
    filterBoxes d = d ∧ compress d.min (detect d.min) ≠ d.min := by
  refine ⟨Boxes.mk ("abcdefghijkl".toList.map fun c => [c]) ((-1000) :: List.replicate 11 0) (List.replicate 12 1), by decide, by decide, by decide +kernel, by decide +kernel⟩

-- Twelve values, one of which is far from the others: it is removed.
example : compress (100 :: List.replicate 11 (1 : ℚ)) (detect (100 :: List.replicate 11 1)) = List.replicate 11 1 := by
  decide +kernel

-- With ten values it is exactly at three standard deviations, and removed; with nine it is kept.
example : compress (100 :: List.replicate 9 (1 : ℚ)) (detect (100 :: List.replicate 9 1)) = List.replicate 9 1 := by
  decide +kernel

example : compress (100 :: List.replicate 8 (1 : ℚ)) (detect (100 :: List.replicate 8 1)) = 100 :: List.replicate 8 1 :=
  C72_nine _ (by simp) (.inr ⟨100, by simp, by norm_num⟩)

end Verif.Ci.Report
