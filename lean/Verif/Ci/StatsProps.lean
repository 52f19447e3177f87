import Verif.Ci.Stats
import Mathlib.Data.List.GetD
import Mathlib.Tactic.Linarith
import Mathlib.Tactic.Positivity
import Mathlib.Tactic.FieldSimp
import Mathlib.Tactic.Ring

/-!
# Property C99: what the statistics of a probe say about its samples
-/

namespace Verif.Ci.Stats
open Verif Verif.Ci.Report

/-! ## The mean -/

theorem sum_le_of_le (xs : List ℚ) (b : ℚ) (h : ∀ x ∈ xs, x ≤ b) : xs.sum ≤ xs.length * b := by
  induction xs with
  | nil => simp
  | cons x xs ih =>
    rw [List.sum_cons, List.length_cons, Nat.cast_add, Nat.cast_one, add_mul, one_mul]
    have h1 := h x List.mem_cons_self
    have h2 := ih fun y hy => h y (List.mem_cons_of_mem _ hy)
    linarith

theorem le_sum_of_le (xs : List ℚ) (b : ℚ) (h : ∀ x ∈ xs, b ≤ x) : xs.length * b ≤ xs.sum := by
  induction xs with
  | nil => simp
  | cons x xs ih =>
    rw [List.sum_cons, List.length_cons, Nat.cast_add, Nat.cast_one, add_mul, one_mul]
    have h1 := h x List.mem_cons_self
    have h2 := ih fun y hy => h y (List.mem_cons_of_mem _ hy)
    linarith

theorem mean_le (xs : List ℚ) (hn : xs ≠ []) (b : ℚ) (h : ∀ x ∈ xs, x ≤ b) : mean xs ≤ b := by
  have : (0 : ℚ) < xs.length := by exact_mod_cast List.length_pos_of_ne_nil hn
  unfold mean
  rw [div_le_iff₀ this, mul_comm]
  exact sum_le_of_le xs b h

theorem le_mean (xs : List ℚ) (hn : xs ≠ []) (b : ℚ) (h : ∀ x ∈ xs, b ≤ x) : b ≤ mean xs := by
  have : (0 : ℚ) < xs.length := by exact_mod_cast List.length_pos_of_ne_nil hn
  unfold mean
  rw [le_div_iff₀ this, mul_comm]
  exact le_sum_of_le xs b h

/-! ## The variance -/

theorem sum_sq_sub (xs : List ℚ) (r : ℚ) :
    (xs.map fun x => (x - r) ^ 2).sum = (xs.map fun x => x ^ 2).sum - 2 * r * xs.sum + xs.length * r ^ 2 := by
  induction xs with
  | nil => simp
  | cons x xs ih =>
    simp only [List.map_cons, List.sum_cons, List.length_cons, Nat.cast_add, Nat.cast_one, ih]
    ring

/-- The mean of the squared distances from any number is the variance plus the squared distance from the mean. -/
theorem var_about (xs : List ℚ) (hn : xs ≠ []) (r : ℚ) : mean (xs.map fun x => (x - r) ^ 2) = var xs + (mean xs - r) ^ 2 := by
  have h0 : (xs.length : ℚ) ≠ 0 := by exact_mod_cast (List.length_pos_of_ne_nil hn).ne'
  have hs : xs.sum = xs.length * mean xs := by unfold mean; field_simp
  unfold var
  rw [show mean (xs.map fun x => (x - r) ^ 2) = (xs.map fun x => (x - r) ^ 2).sum / xs.length by unfold mean; rw [List.length_map],
    sum_sq_sub, sum_sq_sub, hs]
  field_simp
  ring

theorem var_nonneg (xs : List ℚ) : 0 ≤ var xs := by
  unfold var
  apply div_nonneg _ (Nat.cast_nonneg _)
  apply List.sum_nonneg
  intro y hy
  obtain ⟨x, -, rfl⟩ := List.mem_map.1 hy
  positivity

/-- The variance is below the mean squared distance from any number. -/
theorem var_le_about (xs : List ℚ) (hn : xs ≠ []) (r b : ℚ) (h : ∀ x ∈ xs, (x - r) ^ 2 ≤ b) : var xs ≤ b := by
  have h1 := var_about xs hn r
  have h2 := mean_le (xs.map fun x => (x - r) ^ 2) (by simpa using hn) b (by
    intro y hy
    obtain ⟨x, hx, rfl⟩ := List.mem_map.1 hy
    exact h x hx)
  have := sq_nonneg (mean xs - r)
  linarith

theorem sum_map_add (xs : List ℚ) (f g : ℚ → ℚ) : (xs.map fun x => f x + g x).sum = (xs.map f).sum + (xs.map g).sum := by
  induction xs with
  | nil => simp
  | cons x xs ih => simp only [List.map_cons, List.sum_cons, ih]; ring

theorem sum_map_mul (xs : List ℚ) (c : ℚ) (f : ℚ → ℚ) : (xs.map fun x => c * f x).sum = c * (xs.map f).sum := by
  induction xs with
  | nil => simp
  | cons x xs ih => simp only [List.map_cons, List.sum_cons, ih]; ring

/-- **C99** The square of `sigma` is half the mean squared distance of two samples. -/
theorem C99_sigma (xs : List ℚ) (hn : xs ≠ []) :
    (xs.map fun x => (xs.map fun y => (x - y) ^ 2).sum).sum = 2 * xs.length ^ 2 * var xs := by
  have h0 : (xs.length : ℚ) ≠ 0 := by exact_mod_cast (List.length_pos_of_ne_nil hn).ne'
  have key : ∀ x, (xs.map fun y => (x - y) ^ 2).sum = xs.length * var xs + xs.length * (x - mean xs) ^ 2 := by
    intro x
    have h1 := var_about xs hn x
    rw [show mean (xs.map fun y => (y - x) ^ 2) = (xs.map fun y => (y - x) ^ 2).sum / xs.length by unfold mean; rw [List.length_map],
      div_eq_iff h0] at h1
    rw [show (fun y => (x - y) ^ 2) = (fun y : ℚ => (y - x) ^ 2) from funext fun y => by ring, h1]
    ring
  simp only [key]
  rw [sum_map_add xs (fun _ => xs.length * var xs) (fun x => xs.length * (x - mean xs) ^ 2), sum_map_mul xs _ (fun x => (x - mean xs) ^ 2)]
  have hv : (xs.map fun x => (x - mean xs) ^ 2).sum = xs.length * var xs := by unfold var; field_simp
  rw [hv, List.map_const', List.sum_replicate, nsmul_eq_mul]
  ring

theorem sum_sq_zero (xs : List ℚ) (r : ℚ) (h : (xs.map fun x => (x - r) ^ 2).sum = 0) : ∀ x ∈ xs, x = r := by
  induction xs with
  | nil => simp
  | cons x xs ih =>
    rw [List.map_cons, List.sum_cons] at h
    have h1 : 0 ≤ (xs.map fun x => (x - r) ^ 2).sum := by
      apply List.sum_nonneg
      intro y hy
      obtain ⟨z, -, rfl⟩ := List.mem_map.1 hy
      positivity
    have h2 := sq_nonneg (x - r)
    intro y hy
    rcases List.mem_cons.1 hy with rfl | hy
    · have : (y - r) ^ 2 = 0 := by linarith
      exact sub_eq_zero.1 (pow_eq_zero_iff (by norm_num) |>.1 this)
    · exact ih (by linarith) y hy

/-- **C99** `sigma` is zero if and only if the samples are equal. -/
theorem C99_sigma_zero (xs : List ℚ) (hn : xs ≠ []) : var xs = 0 ↔ ∀ x ∈ xs, ∀ y ∈ xs, x = y := by
  have h0 : (xs.length : ℚ) ≠ 0 := by exact_mod_cast (List.length_pos_of_ne_nil hn).ne'
  constructor
  · intro h x hx y hy
    unfold var at h
    rw [div_eq_iff h0, zero_mul] at h
    rw [sum_sq_zero xs _ h x hx, sum_sq_zero xs _ h y hy]
  · intro h
    obtain ⟨a, ha⟩ := List.exists_mem_of_ne_nil xs hn
    refine le_antisymm (var_le_about xs hn a 0 fun x hx => ?_) (var_nonneg xs)
    rw [h x hx a ha]
    simp

/-! ## Quantiles -/

theorem sorted_perm (xs : List ℚ) : (sorted xs).Perm xs := List.perm_insertionSort _ _

theorem sorted_length (xs : List ℚ) : (sorted xs).length = xs.length := (sorted_perm xs).length_eq

theorem sorted_pairwise (xs : List ℚ) : (sorted xs).Pairwise (· ≤ ·) := List.pairwise_insertionSort _ _

theorem sorted_eq_of_perm {xs ys : List ℚ} (h : xs.Perm ys) : sorted xs = sorted ys :=
  ((sorted_perm xs).trans (h.trans (sorted_perm ys).symm)).eq_of_pairwise (fun _ _ _ _ h1 h2 => le_antisymm h1 h2)
    (sorted_pairwise xs) (sorted_pairwise ys)

theorem entry_mono (a : List ℚ) (ha : a.Pairwise (· ≤ ·)) (hn : a ≠ []) (i j : Nat) (h : i ≤ j) : entry a i ≤ entry a j := by
  have hl := List.length_pos_of_ne_nil hn
  unfold entry
  rw [List.getD_eq_getElem a 0 (n := min i (a.length - 1)) (by omega), List.getD_eq_getElem a 0 (n := min j (a.length - 1)) (by omega)]
  rcases Nat.lt_or_ge (min i (a.length - 1)) (min j (a.length - 1)) with h1 | h1
  · exact List.pairwise_iff_getElem.1 ha _ _ (by omega) (by omega) h1
  · have : min i (a.length - 1) = min j (a.length - 1) := by omega
    simp [this]

theorem headD_entry (a : List ℚ) : a.headD 0 = entry a 0 := by
  unfold entry
  rw [Nat.zero_min]
  cases a <;> rfl

theorem lastD_entry (a : List ℚ) : a.getLastD 0 = entry a (a.length - 1) := by
  unfold entry
  rw [Nat.min_self]
  rcases List.eq_nil_or_concat a with rfl | ⟨b, x, rfl⟩
  · rfl
  · simp

theorem floor_bounds (v : ℚ) (hv : 0 ≤ v) : ((⌊v⌋.toNat : ℕ) : ℚ) ≤ v ∧ v < (⌊v⌋.toNat : ℕ) + 1 := by
  have h1 : 0 ≤ ⌊v⌋ := Int.floor_nonneg.2 hv
  have h2 : ((⌊v⌋.toNat : ℕ) : ℚ) = (⌊v⌋ : ℚ) := by exact_mod_cast Int.toNat_of_nonneg h1
  rw [h2]
  exact ⟨Int.floor_le v, Int.lt_floor_add_one v⟩

/-- The interpolation at index `v`. -/
def interp (a : List ℚ) (v : ℚ) : ℚ := entry a ⌊v⌋.toNat + (entry a (⌊v⌋.toNat + 1) - entry a ⌊v⌋.toNat) * (v - ⌊v⌋.toNat)

theorem quantile_eq (q : ℚ) (xs : List ℚ) : quantile q xs = interp (sorted xs) (((xs.length : ℚ) - 1) * q) := by
  unfold quantile interp
  simp only [sorted_length]

theorem interp_between (a : List ℚ) (ha : a.Pairwise (· ≤ ·)) (hn : a ≠ []) (v : ℚ) (hv : 0 ≤ v) :
    entry a ⌊v⌋.toNat ≤ interp a v ∧ interp a v ≤ entry a (⌊v⌋.toNat + 1) := by
  obtain ⟨h1, h2⟩ := floor_bounds v hv
  have h3 := entry_mono a ha hn ⌊v⌋.toNat (⌊v⌋.toNat + 1) (by omega)
  unfold interp
  constructor <;> nlinarith

theorem interp_mono (a : List ℚ) (ha : a.Pairwise (· ≤ ·)) (hn : a ≠ []) (v w : ℚ) (hv : 0 ≤ v) (h : v ≤ w) : interp a v ≤ interp a w := by
  have hw : 0 ≤ w := le_trans hv h
  have hf : ⌊v⌋.toNat ≤ ⌊w⌋.toNat := Int.toNat_le_toNat (Int.floor_le_floor h)
  rcases Nat.lt_or_eq_of_le hf with h1 | h1
  · exact le_trans (interp_between a ha hn v hv).2 (le_trans (entry_mono a ha hn _ _ h1) (interp_between a ha hn w hw).1)
  · have h3 := entry_mono a ha hn ⌊w⌋.toNat (⌊w⌋.toNat + 1) (by omega)
    unfold interp
    rw [h1]
    nlinarith

theorem sorted_ne_nil {xs : List ℚ} (h : xs ≠ []) : sorted xs ≠ [] := by
  intro hc
  have := sorted_length xs
  rw [hc] at this
  exact h (List.length_eq_zero_iff.1 this.symm)

theorem entry_zero_le (xs : List ℚ) (x : ℚ) (hx : x ∈ xs) : entry (sorted xs) 0 ≤ x ∧ x ≤ entry (sorted xs) (xs.length - 1) := by
  have hn : sorted xs ≠ [] := sorted_ne_nil (List.ne_nil_of_mem hx)
  obtain ⟨i, hi, rfl⟩ := List.getElem_of_mem ((sorted_perm xs).mem_iff.2 hx)
  have e : (sorted xs)[i] = entry (sorted xs) i := by
    unfold entry
    rw [Nat.min_eq_left (by omega), List.getD_eq_getElem]
  have hl := sorted_length xs
  rw [e]
  exact ⟨entry_mono _ (sorted_pairwise xs) hn _ _ (by omega), entry_mono _ (sorted_pairwise xs) hn _ _ (by omega)⟩

theorem entry_mem (a : List ℚ) (hn : a ≠ []) (i : Nat) : entry a i ∈ a := by
  have := List.length_pos_of_ne_nil hn
  unfold entry
  rw [List.getD_eq_getElem a 0 (n := min i (a.length - 1)) (by omega)]
  exact List.getElem_mem _

/-- The least and the largest number, the quartiles and the mean are in order. -/
theorem order (xs : List ℚ) (hne : xs ≠ []) :
    ((sorted xs).headD 0 ∈ xs ∧ (sorted xs).getLastD 0 ∈ xs ∧ ∀ x ∈ xs, (sorted xs).headD 0 ≤ x ∧ x ≤ (sorted xs).getLastD 0) ∧
    (sorted xs).headD 0 ≤ quantile (1 / 4) xs ∧ quantile (1 / 4) xs ≤ quantile (1 / 2) xs ∧ quantile (1 / 2) xs ≤ quantile (3 / 4) xs ∧
    quantile (3 / 4) xs ≤ (sorted xs).getLastD 0 ∧ (sorted xs).headD 0 ≤ mean xs ∧ mean xs ≤ (sorted xs).getLastD 0 := by
  have hs := sorted_ne_nil hne
  have hp := sorted_pairwise xs
  have hn1 : (0 : ℚ) ≤ (xs.length : ℚ) - 1 := by
    have : (1 : ℚ) ≤ xs.length := by exact_mod_cast List.length_pos_of_ne_nil hne
    linarith
  rw [headD_entry, lastD_entry, sorted_length, quantile_eq, quantile_eq, quantile_eq]
  have hb := fun x hx => entry_zero_le xs x hx
  refine ⟨⟨(sorted_perm xs).mem_iff.1 (entry_mem _ hs _), (sorted_perm xs).mem_iff.1 (entry_mem _ hs _), hb⟩, ?_, ?_, ?_, ?_, ?_, ?_⟩
  · exact le_trans (entry_mono _ hp hs _ _ (Nat.zero_le _)) (interp_between _ hp hs _ (by positivity)).1
  · exact interp_mono _ hp hs _ _ (by positivity) (mul_le_mul_of_nonneg_left (by norm_num) hn1)
  · exact interp_mono _ hp hs _ _ (by positivity) (mul_le_mul_of_nonneg_left (by norm_num) hn1)
  · refine le_trans (interp_between _ hp hs _ (by positivity)).2 ?_
    have e : ∀ i, entry (sorted xs) i ≤ entry (sorted xs) (xs.length - 1) := by
      intro i
      have : entry (sorted xs) i = entry (sorted xs) (min i (xs.length - 1)) := by
        unfold entry
        rw [sorted_length, Nat.min_assoc, Nat.min_self]
      rw [this]
      exact entry_mono _ hp hs _ _ (Nat.min_le_right _ _)
    exact e _
  · exact le_mean xs hne _ fun x hx => (hb x hx).1
  · exact mean_le xs hne _ fun x hx => (hb x hx).2

/-- **C99** The columns `min` and `max` are the least and the largest sample, the quantiles are in between and in order, and so is
the mean. -/
theorem C99_order (lib : Lib) (mode : Str) (t : ℚ) (xs : List ℚ) (r : Row) (h : row lib mode t xs = .ok r) :
    (r.min ∈ xs ∧ r.max ∈ xs ∧ ∀ x ∈ xs, r.min ≤ x ∧ x ≤ r.max) ∧
    r.min ≤ r.quantile25 ∧ r.quantile25 ≤ r.quantile50 ∧ r.quantile50 ≤ r.quantile75 ∧ r.quantile75 ≤ r.max ∧
    r.min ≤ r.mu ∧ r.mu ≤ r.max := by
  unfold row at h
  split_ifs at h with hl
  obtain rfl := Outcome.ok.inj h
  have hne : xs ≠ [] := by rintro rfl; simp at hl
  exact order xs hne

/-- At least `i + 1` entries are below entry `i`. -/
theorem count_le (a : List ℚ) (ha : a.Pairwise (· ≤ ·)) (i : Nat) (hi : i < a.length) (b : ℚ) (hb : entry a i ≤ b) :
    i + 1 ≤ a.countP fun x => decide (x ≤ b) := by
  have hn : a ≠ [] := by rintro rfl; simp at hi
  have h1 : (a.take (i + 1)).countP (fun x => decide (x ≤ b)) = (a.take (i + 1)).length := by
    rw [List.countP_eq_length]
    intro x hx
    obtain ⟨j, hj, rfl⟩ := List.getElem_of_mem hx
    rw [List.length_take] at hj
    rw [List.getElem_take]
    have := entry_mono a ha hn j i (by omega)
    unfold entry at this hb
    rw [Nat.min_eq_left (by omega), Nat.min_eq_left (by omega), List.getD_eq_getElem a 0 (n := j) (by omega)] at this
    rw [Nat.min_eq_left (by omega)] at hb
    exact decide_eq_true (le_trans this hb)
  rw [List.length_take, Nat.min_eq_left (by omega)] at h1
  rw [← h1]
  exact (List.take_sublist _ _).countP_le

/-- At least `n - i` entries are above entry `i`. -/
theorem count_ge (a : List ℚ) (ha : a.Pairwise (· ≤ ·)) (i : Nat) (hi : i < a.length) (b : ℚ) (hb : b ≤ entry a i) :
    a.length - i ≤ a.countP fun x => decide (b ≤ x) := by
  have hn : a ≠ [] := by rintro rfl; simp at hi
  have h1 : (a.drop i).countP (fun x => decide (b ≤ x)) = (a.drop i).length := by
    rw [List.countP_eq_length]
    intro x hx
    obtain ⟨j, hj, rfl⟩ := List.getElem_of_mem hx
    rw [List.length_drop] at hj
    rw [List.getElem_drop]
    have := entry_mono a ha hn i (i + j) (by omega)
    unfold entry at this hb
    rw [Nat.min_eq_left (by omega), Nat.min_eq_left (by omega), List.getD_eq_getElem a 0 (n := i + j) (by omega)] at this
    rw [Nat.min_eq_left (by omega)] at hb
    exact decide_eq_true (le_trans hb this)
  rw [List.length_drop] at h1
  rw [← h1]
  exact (List.drop_sublist _ _).countP_le

/-- **C99** What a quantile is: more than `(n - 1) q` samples are not above it, and more than `(n - 1) (1 - q)` not below. -/
theorem C99_quantile (q : ℚ) (h0 : 0 ≤ q) (h1 : q ≤ 1) (xs : List ℚ) (hn : xs ≠ []) :
    ((xs.length : ℚ) - 1) * q < xs.countP (fun x => decide (x ≤ quantile q xs)) ∧
    ((xs.length : ℚ) - 1) * (1 - q) < xs.countP (fun x => decide (quantile q xs ≤ x)) := by
  have hs := sorted_ne_nil hn
  have hp := sorted_pairwise xs
  have hl := List.length_pos_of_ne_nil hn
  have hn1 : (0 : ℚ) ≤ (xs.length : ℚ) - 1 := by
    have : (1 : ℚ) ≤ xs.length := by exact_mod_cast hl
    linarith
  have hv : 0 ≤ ((xs.length : ℚ) - 1) * q := mul_nonneg hn1 h0
  have hv2 : ((xs.length : ℚ) - 1) * q ≤ (xs.length : ℚ) - 1 := mul_le_of_le_one_right hn1 h1
  obtain ⟨b1, b2⟩ := floor_bounds _ hv
  have hq := interp_between _ hp hs _ hv
  rw [← quantile_eq] at hq
  have hex := quantile_eq q xs
  have e2 : ((xs.length : ℚ) - 1) * (1 - q) = (xs.length : ℚ) - 1 - ((xs.length : ℚ) - 1) * q := by ring
  rw [e2]
  rw [← (sorted_perm xs).countP_eq, ← (sorted_perm xs).countP_eq]
  unfold interp at hex
  generalize ((xs.length : ℚ) - 1) * q = v at *
  have hi : ⌊v⌋.toNat < xs.length := by
    have : ((⌊v⌋.toNat : ℕ) : ℚ) < xs.length := by linarith
    exact_mod_cast this
  constructor
  · have := count_le _ hp ⌊v⌋.toNat (by rw [sorted_length]; exact hi) _ hq.1
    have : ((⌊v⌋.toNat + 1 : ℕ) : ℚ) ≤ _ := Nat.cast_le.2 this
    push_cast at this
    linarith
  · rcases eq_or_lt_of_le b1 with hg | hg
    · have e : quantile q xs = entry (sorted xs) ⌊v⌋.toNat := by rw [hex, hg, sub_self, mul_zero, add_zero]
      have := count_ge _ hp ⌊v⌋.toNat (by rw [sorted_length]; exact hi) _ e.le
      rw [sorted_length] at this
      have : ((xs.length - ⌊v⌋.toNat : ℕ) : ℚ) ≤ _ := Nat.cast_le.2 this
      rw [Nat.cast_sub hi.le] at this
      linarith
    · have hi2 : ⌊v⌋.toNat + 1 < xs.length := by
        have : ((⌊v⌋.toNat + 1 : ℕ) : ℚ) < xs.length := by push_cast; linarith
        exact_mod_cast this
      have := count_ge _ hp (⌊v⌋.toNat + 1) (by rw [sorted_length]; exact hi2) _ hq.2
      rw [sorted_length] at this
      have : ((xs.length - (⌊v⌋.toNat + 1) : ℕ) : ℚ) ≤ _ := Nat.cast_le.2 this
      rw [Nat.cast_sub hi2.le] at this
      push_cast at this
      linarith

/-- The quartiles of 4, 1, 3, 2. -/
example : quantile (1 / 4) [4, 1, 3, 2] = 7 / 4 ∧ quantile (1 / 2) [4, 1, 3, 2] = 5 / 2 ∧ quantile (3 / 4) [4, 1, 3, 2] = 13 / 4 := by
  decide +kernel

/-! ## The order of the samples -/

theorem mean_perm {xs ys : List ℚ} (h : xs.Perm ys) : mean xs = mean ys := by
  unfold mean
  rw [h.sum_eq, h.length_eq]

theorem var_perm {xs ys : List ℚ} (h : xs.Perm ys) : var xs = var ys := by
  unfold var
  rw [mean_perm h, (h.map _).sum_eq, h.length_eq]

/-- **C99** The order in which the runs are made does not matter, if it does not to the functions imported. -/
theorem C99_order_free (lib : Lib) (h1 : ∀ xs ys, xs.Perm ys → lib.shapiro xs = lib.shapiro ys)
    (h2 : ∀ xs ys m, xs.Perm ys → lib.general xs m = lib.general ys m) (h3 : ∀ xs ys m, xs.Perm ys → lib.cnh xs m = lib.cnh ys m)
    (mode : Str) (t : ℚ) (xs ys : List ℚ) (h : xs.Perm ys) : row lib mode t xs = row lib mode t ys := by
  have hs : ∀ m v p, significant lib xs m v p = significant lib ys m v p := by
    intro m v p; unfold significant; rw [h2 _ _ _ h]
  have hb : ∀ m p s, lowerBound lib xs m p s = lowerBound lib ys m p s := by
    intro m p s; unfold lowerBound; rw [h3 _ _ _ h]
  have hq : ∀ q, quantile q xs = quantile q ys := by
    intro q; unfold quantile; rw [sorted_eq_of_perm h]
  unfold row
  simp only [h.length_eq, mean_perm h, var_perm h, h1 _ _ h, hs, hb, hq, sorted_eq_of_perm h]

/-! ## Significant digits -/

/-- **C99** Normal samples have at least `k` significant bits if and only if `sigma` is at most `2^-k` times the mean. -/
theorem C99_digits (lib : Lib) (xs : List ℚ) (p : ℚ) (hp : 1 / 20 ≤ p) (hm : mean xs ≠ 0) (k : ℤ) :
    (k : ℝ) ≤ significant lib xs (mean xs) (var xs) p ↔ 4 ^ k * var xs ≤ mean xs ^ 2 ∧ k ≤ 53 := by
  have h53 : ((k : ℝ) ≤ 53 ↔ k ≤ 53) := by
    rw [show (53 : ℝ) = ((53 : ℤ) : ℝ) by norm_num, Int.cast_le]
  have hm2 : 0 < mean xs ^ 2 := by positivity
  unfold significant
  rw [if_neg hm, if_neg (not_lt.2 hp)]
  split_ifs with hv
  · rw [hv, mul_zero, h53]
    exact ⟨fun h => ⟨hm2.le, h⟩, fun h => h.2⟩
  · have hv0 : 0 < var xs := lt_of_le_of_ne (var_nonneg xs) (Ne.symm hv)
    have hvR : (0 : ℝ) < (var xs : ℝ) := by exact_mod_cast hv0
    have hmR : (mean xs : ℝ) ≠ 0 := by exact_mod_cast hm
    rw [le_min_iff, h53]
    refine and_congr ?_ Iff.rfl
    have hpos : 0 < |Real.sqrt (var xs : ℝ) / (mean xs : ℝ)| := abs_pos.2 (div_ne_zero (Real.sqrt_pos.2 hvR).ne' hmR)
    rw [le_neg, Real.logb_le_iff_le_rpow (by norm_num) hpos, ← Int.cast_neg, Real.rpow_intCast, abs_div, abs_of_nonneg (Real.sqrt_nonneg _),
      div_le_iff₀ (abs_pos.2 hmR), Real.sqrt_le_left (mul_nonneg (zpow_nonneg (by norm_num) _) (abs_nonneg _)), mul_pow, sq_abs, zpow_neg, inv_pow]
    have h4 : ((2 : ℝ) ^ k) ^ 2 = 4 ^ k := by
      rw [← zpow_natCast, ← zpow_mul, mul_comm, zpow_mul]
      norm_num
    rw [h4, ← div_eq_inv_mul, le_div_iff₀ (zpow_pos (by norm_num) _), mul_comm, ← Rat.cast_le (K := ℝ)]
    push_cast
    exact Iff.rfl

/-- Chebyshev's inequality. -/
theorem chebyshev (xs : List ℚ) (r e : ℚ) (he : 0 ≤ e) :
    (xs.countP fun x => decide (e ≤ |x - r|)) * e ^ 2 ≤ (xs.map fun x => (x - r) ^ 2).sum := by
  induction xs with
  | nil => simp
  | cons x xs ih =>
    rw [List.countP_cons, List.map_cons, List.sum_cons]
    have h1 := sq_nonneg (x - r)
    split_ifs with h
    · have h2 : e ≤ |x - r| := of_decide_eq_true h
      have h3 : e ^ 2 ≤ |x - r| ^ 2 := pow_le_pow_left₀ he h2 2
      rw [sq_abs] at h3
      push_cast
      linarith
    · push_cast
      linarith

/-- **C99** What significant bits mean: if normal samples have `k`, then at most one in `4^(k - j)` differs from the mean by `2^-j` or
more, relatively. -/
theorem C99_meaning (lib : Lib) (xs : List ℚ) (hn : xs ≠ []) (p : ℚ) (hp : 1 / 20 ≤ p) (hm : mean xs ≠ 0) (k j : ℤ)
    (h : (k : ℝ) ≤ significant lib xs (mean xs) (var xs) p) :
    (xs.countP fun x => decide (2 ^ (-j) * |mean xs| ≤ |x - mean xs|)) * (4 : ℚ) ^ (k - j) ≤ xs.length := by
  have h0 : (0 : ℚ) < xs.length := by exact_mod_cast List.length_pos_of_ne_nil hn
  obtain ⟨h1, -⟩ := (C99_digits lib xs p hp hm k).1 h
  have h2 := chebyshev xs (mean xs) (2 ^ (-j) * |mean xs|) (mul_nonneg (zpow_nonneg (by norm_num) _) (abs_nonneg _))
  have h3 : (xs.map fun x => (x - mean xs) ^ 2).sum = xs.length * var xs := by unfold var; field_simp
  have h4 : ((2 : ℚ) ^ (-j)) ^ 2 = 4 ^ (-j) := by
    rw [← zpow_natCast, ← zpow_mul, mul_comm, zpow_mul]
    norm_num
  have hm2 : 0 < mean xs ^ 2 := by positivity
  rw [h3, mul_pow, sq_abs, h4] at h2
  have h5 := mul_le_mul_of_nonneg_left h2 (show (0 : ℚ) ≤ 4 ^ k by positivity)
  have h6 := mul_le_mul_of_nonneg_left h1 h0.le
  have h7 : ((xs.countP fun x => decide (2 ^ (-j) * |mean xs| ≤ |x - mean xs|) : ℕ) : ℚ) * 4 ^ (k - j) * mean xs ^ 2 ≤ xs.length * mean xs ^ 2 := by
    rw [zpow_sub₀ (by norm_num), div_eq_mul_inv, ← zpow_neg]
    generalize ((xs.countP fun x => decide (2 ^ (-j) * |mean xs| ≤ |x - mean xs|) : ℕ) : ℚ) = c at *
    nlinarith
  exact le_of_mul_le_mul_right h7 hm2

theorem mean_scale (c : ℚ) (xs : List ℚ) : mean (xs.map (c * ·)) = c * mean xs := by
  unfold mean
  rw [List.length_map, sum_map_mul xs c fun x => x, List.map_id']
  ring

theorem var_scale (c : ℚ) (xs : List ℚ) : var (xs.map (c * ·)) = c ^ 2 * var xs := by
  unfold var
  rw [mean_scale, List.length_map, List.map_map]
  rw [show ((fun x => (x - c * mean xs) ^ 2) ∘ (c * ·)) = fun x => c ^ 2 * (x - mean xs) ^ 2 from funext fun x => by
    simp only [Function.comp]; ring]
  rw [sum_map_mul xs (c ^ 2) fun x => (x - mean xs) ^ 2]
  ring

/-- **C99** Significant bits do not depend on the unit, if those of the package do not. -/
theorem C99_scale (lib : Lib) (hg : ∀ c xs m, c ≠ 0 → lib.general (xs.map (c * ·)) (c * m) = lib.general xs m) (c : ℚ) (hc : c ≠ 0)
    (xs : List ℚ) (p : ℚ) :
    significant lib (xs.map (c * ·)) (mean (xs.map (c * ·))) (var (xs.map (c * ·))) p = significant lib xs (mean xs) (var xs) p := by
  rw [mean_scale, var_scale]
  unfold significant
  have e1 : (c * mean xs = 0) = (mean xs = 0) := by simp [hc]
  have e2 : (c ^ 2 * var xs = 0) = (var xs = 0) := by simp [hc]
  simp only [e1, e2, hg c xs _ hc]
  split_ifs with h1 h2 h3 <;> try rfl
  congr 3
  have hcR : (c : ℝ) ≠ 0 := by exact_mod_cast hc
  push_cast
  rw [Real.sqrt_mul (by positivity), Real.sqrt_sq_eq_abs, abs_div, abs_mul, abs_mul, abs_abs, mul_div_mul_left _ _ (abs_ne_zero.2 hcR), ← abs_div]

/-- **C99** is false of samples with a mean of zero: -1, 0 and 1, which have no digit in common, have 53 significant bits. -/
theorem C99_zero_mean_wrong (lib : Lib) (mode : Str) (t : ℚ) :
    ∃ r, row lib mode t [-1, 0, 1] = .ok r ∧ r.s2 = 53 ∧ r.sigma2 = 2 / 3 ∧ r.min = -1 ∧ r.max = 1 := by
  refine ⟨_, if_neg (by decide), ?_, ?_, ?_, ?_⟩
  · show significant lib _ _ _ _ = 53
    rw [show mean [-1, 0, 1] = 0 by decide +kernel]
    unfold significant
    rw [if_pos rfl]
  · show var _ = _
    decide +kernel
  · show (sorted [-1, 0, 1]).headD 0 = -1
    decide +kernel
  · show (sorted [-1, 0, 1]).getLastD 0 = 1
    decide +kernel

/-- **C99** Nothing is computed if there is a probe with fewer than three samples, and everything otherwise. -/
theorem C99_samples (lib : Lib) (gs : List (Str × ℚ × List ℚ)) :
    (∃ g ∈ gs, g.2.2.length < 3) ∧ table lib gs = .exit ∨
    (∀ g ∈ gs, 3 ≤ g.2.2.length) ∧ ∃ rs, table lib gs = .ok rs ∧
      List.Forall₂ (fun g r => row lib g.1 g.2.1 g.2.2 = .ok r ∧ r.nsamples = g.2.2.length) gs rs := by
  induction gs with
  | nil => exact .inr ⟨by simp, [], rfl, .nil⟩
  | cons g gs ih =>
    obtain ⟨mode, t, xs⟩ := g
    by_cases hx : xs.length < 3
    · refine .inl ⟨⟨_, List.mem_cons_self, hx⟩, ?_⟩
      rw [table, show row lib mode t xs = .exit from if_pos hx, Outcome.bind_exit]
    · obtain ⟨r, hr, hn⟩ : ∃ r, row lib mode t xs = .ok r ∧ r.nsamples = xs.length := ⟨_, if_neg hx, rfl⟩
      rcases ih with ⟨⟨g, hg, hl⟩, e⟩ | ⟨h, rs, e, hf⟩
      · refine .inl ⟨⟨g, List.mem_cons_of_mem _ hg, hl⟩, ?_⟩
        rw [table, hr, Outcome.bind_ok, e, Outcome.bind_exit]
      · refine .inr ⟨?_, r :: rs, ?_, .cons ⟨hr, hn⟩ hf⟩
        · intro g hg
          rcases List.mem_cons.1 hg with rfl | hg
          · exact not_lt.1 hx
          · exact h g hg
        · rw [table, hr, Outcome.bind_ok, e, Outcome.bind_ok]

/-- **C99** The check: `sigma` below the target, or `sigma` divided by the mean; without a mode it passes. -/
theorem C99_check (lib : Lib) (mode : Str) (t : ℚ) (xs : List ℚ) (r : Row) (h : row lib mode t xs = .ok r) :
    (mode = "absolute".toList → (r.check = true ↔ Real.sqrt r.sigma2 < |(t : ℝ)|)) ∧
    (mode = "relative".toList → (r.check = true ↔ r.mu ≠ 0 ∧ |Real.sqrt r.sigma2 / r.mu| < |(t : ℝ)|)) ∧
    (mode ≠ "absolute".toList → mode ≠ "relative".toList → r.check = true) := by
  unfold row at h
  split_ifs at h with hl
  obtain rfl := Outcome.ok.inj h
  dsimp only
  have hv := var_nonneg xs
  have hvR : (0 : ℝ) ≤ (var xs : ℝ) := by exact_mod_cast hv
  refine ⟨?_, ?_, ?_⟩
  · rintro rfl
    unfold checked
    rw [if_pos rfl, decide_eq_true_iff, ← abs_of_nonneg (Real.sqrt_nonneg _), ← sq_lt_sq, Real.sq_sqrt hvR]
    exact_mod_cast Iff.rfl
  · rintro rfl
    unfold checked
    rw [if_neg (by decide), if_pos rfl, decide_eq_true_iff]
    refine and_congr_right fun hm => ?_
    have hmR : (mean xs : ℝ) ≠ 0 := by exact_mod_cast hm
    rw [← sq_lt_sq, div_pow, Real.sq_sqrt hvR]
    exact_mod_cast Iff.rfl
  · intro h1 h2
    unfold checked
    rw [if_neg h1, if_neg h2]

/-- Zeros have 53 significant bits and fail every relative check. -/
theorem C99_zeros_wrong (lib : Lib) (t : ℚ) : ∃ r, row lib "relative".toList t [0, 0, 0] = .ok r ∧ r.s2 = 53 ∧ r.check = false := by
  refine ⟨_, if_neg (by decide), ?_, ?_⟩
  · show significant lib _ _ _ _ = 53
    rw [show mean [0, 0, 0] = 0 by decide +kernel]
    unfold significant
    rw [if_pos rfl]
  · show checked "relative".toList (mean [0, 0, 0]) (var [0, 0, 0]) t = false
    rw [show mean [0, 0, 0] = 0 by decide +kernel]
    unfold checked
    rw [if_neg (by decide), if_pos rfl]
    simp

/-- 1, 2, 3 have at least one significant bit, and not two. -/
example (lib : Lib) (hp : lib.shapiro [1, 2, 3] = 1) (mode : Str) (t : ℚ) :
    ∃ r, row lib mode t [1, 2, 3] = .ok r ∧ r.mu = 2 ∧ r.sigma2 = 2 / 3 ∧ ((1 : ℤ) : ℝ) ≤ r.s2 ∧ ¬ ((2 : ℤ) : ℝ) ≤ r.s2 := by
  have e1 : mean [1, 2, 3] = 2 := by decide +kernel
  have e2 : var [1, 2, 3] = 2 / 3 := by decide +kernel
  refine ⟨_, if_neg (by decide), e1, e2, ?_, ?_⟩
  · show _ ≤ significant lib _ _ _ _
    rw [hp, C99_digits lib _ 1 (by norm_num) (by rw [e1]; norm_num), e1, e2]
    norm_num
  · show ¬ _ ≤ significant lib _ _ _ _
    rw [hp, C99_digits lib _ 1 (by norm_num) (by rw [e1]; norm_num), e1, e2]
    norm_num

end Verif.Ci.Stats
