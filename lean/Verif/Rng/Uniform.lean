import Verif.Rng.Props
import Mathlib.Algebra.BigOperators.Fin
import Mathlib.Algebra.BigOperators.Intervals
import Mathlib.Algebra.BigOperators.Field
import Mathlib.Tactic.Linarith
import Mathlib.Tactic.FieldSimp

/-!
# Property C86: the draws are equidistributed over a period

Everything the Monte Carlo backends promise is statistical; on a generator of period
`2^128 - 1` a statistical claim is a count over one period.
-/

namespace Verif.Rng
open Verif Verif.Fp

/-- A sum over a type enumerated but for one element. -/
theorem sum_enum {α : Type} [Fintype α] [DecidableEq α] (z : α) (n : Nat) (e : Nat → α)
    (h1 : ∀ k, e k ≠ z) (h2 : ∀ k l, k < n → l < n → e k = e l → k = l)
    (h3 : ∀ a, a ≠ z → ∃ k, k < n ∧ e k = a) (g : α → ℚ) :
    ∑ k ∈ Finset.range n, g (e k) + g z = ∑ a : α, g a := by
  rw [← Finset.add_sum_erase Finset.univ g (Finset.mem_univ z), add_comm]
  congr 1
  apply Finset.sum_bij (fun k _ => e k)
  · intro k _
    exact Finset.mem_erase.2 ⟨h1 k, Finset.mem_univ _⟩
  · intro k hk l hl h
    exact h2 k l (Finset.mem_range.1 hk) (Finset.mem_range.1 hl) h
  · intro s hs
    obtain ⟨n, hn, he⟩ := h3 s (Finset.mem_erase.1 hs).1
    exact ⟨n, Finset.mem_range.2 hn, he⟩
  · intro k _
    rfl

/-- A sum over all states is the sum over one period and the zero state. -/
theorem sum_states (a : St) (ha : a ≠ 0) (g : St → ℚ) :
    ∑ k ∈ Finset.range N, g (next^[k] a) + g 0 = ∑ s : St, g s := by
  refine sum_enum 0 N (fun k => next^[k] a) (fun k => iterate_ne_zero k a ha) ?_
    (fun s hs => reach a s ha hs) g
  intro k l hk hl h
  exact Function.iterate_injOn_Iio_minimalPeriod (by rw [minimalPeriod_all a ha]; exact hk)
    (by rw [minimalPeriod_all a ha]; exact hl) h

/-- A state is determined by its first word and its output, which are arbitrary. -/
def outEquiv : St ≃ Fin (2 ^ 64) × Fin (2 ^ 64) where
  toFun s := (s.s0.toFin, (output s).toFin)
  invFun p := ⟨⟨p.1⟩, rotl ((⟨p.2⟩ : U64) - ⟨p.1⟩) 47 - ⟨p.1⟩⟩
  left_inv s := by
    apply output_s1_inj
    · have h1 : ∀ w v : U64, rotl (w + (rotl (v - w) 47 - w)) 17 + w = v := by
        intro w v
        have h1 : rotl (rotl (v - w) 47) 17 = v - w := rotl_inv _ 47 (by decide) (by decide)
        have h2 : w + (rotl (v - w) 47 - w) = rotl (v - w) 47 := by
          rw [BitVec.add_comm, BitVec.sub_add_cancel]
        rw [h2, h1, BitVec.sub_add_cancel]
      exact h1 s.s0 (output s)
    · rfl
  right_inv p := by
    obtain ⟨w, v⟩ := p
    have h : ∀ w v : U64, rotl (w + (rotl (v - w) 47 - w)) 17 + w = v := by
      intro w v
      have h1 : rotl (rotl (v - w) 47) 17 = v - w := rotl_inv _ 47 (by decide) (by decide)
      have h2 : w + (rotl (v - w) 47 - w) = rotl (v - w) 47 := by
        rw [BitVec.add_comm, BitVec.sub_add_cancel]
      rw [h2, h1, BitVec.sub_add_cancel]
    exact Prod.ext rfl (congrArg BitVec.toFin (h ⟨w⟩ ⟨v⟩))

/-- A sum over pairs of a function of the second. -/
theorem sum_second (n : Nat) (f : Fin n → ℚ) (g : Nat → ℚ) (h : ∀ v : Fin n, f v = g v.1) :
    ∑ p : Fin n × Fin n, f p.2 = n * ∑ i ∈ Finset.range n, g i := by
  rw [Fintype.sum_prod_type]
  simp only
  rw [Finset.sum_const, Finset.card_univ, Fintype.card_fin, nsmul_eq_mul,
    ← Fin.sum_univ_eq_sum_range g]
  congr 1
  exact Finset.sum_congr rfl (fun v _ => h v)

/-- The sum of any function of the words drawn over one period: every word counts `2^64`
times, the word zero one time less. -/
theorem sum_words (a : St) (ha : a ≠ 0) (f : U64 → ℚ) :
    ∑ k ∈ Finset.range N, f (output (next^[k] a)) + f 0 =
      2 ^ 64 * ∑ n ∈ Finset.range (2 ^ 64), f (BitVec.ofNat 64 n) := by
  have h0 : output 0 = 0#64 := by decide +kernel
  have h1 := sum_states a ha (fun s => f (output s))
  rw [h0] at h1
  have h2 : ∑ s : St, f (output s) = ∑ p : Fin (2 ^ 64) × Fin (2 ^ 64), f ⟨p.2⟩ :=
    Fintype.sum_equiv outEquiv _ _ (fun _ => rfl)
  refine Eq.trans h1 (Eq.trans h2 ?_)
  have h3 := sum_second (2 ^ 64) (fun v => f ⟨v⟩) (fun n => f (BitVec.ofNat 64 n)) (by
    intro v
    refine congrArg f (BitVec.eq_of_toNat_eq ?_)
    rw [BitVec.toNat_ofNat, Nat.mod_eq_of_lt v.isLt]
    rfl)
  rw [Nat.cast_pow, Nat.cast_ofNat] at h3
  exact h3

/-- A count is a sum of ones and zeros. -/
theorem count_sum (p : Nat → Prop) [DecidablePred p] (n : Nat) :
    (Nat.count p n : ℚ) = ∑ k ∈ Finset.range n, if p k then (1 : ℚ) else 0 := by
  rw [Nat.count_eq_card_filter_range, Finset.sum_ite]
  simp

/-- The number of draws of one period that satisfy a predicate. -/
theorem count_words (a : St) (ha : a ≠ 0) (p : U64 → Prop) [DecidablePred p] :
    Nat.count (fun k => p (output (next^[k] a))) N + (if p 0 then 1 else 0) =
      2 ^ 64 * Nat.count (fun n => p (BitVec.ofNat 64 n)) (2 ^ 64) := by
  have h := sum_words a ha (fun w => if p w then 1 else 0)
  rw [← count_sum (fun k => p (output (next^[k] a))),
    ← count_sum (fun n => p (BitVec.ofNat 64 n))] at h
  have : ((if p 0 then (1 : ℚ) else 0)) = ((if p 0 then 1 else 0 : ℕ) : ℚ) := by split <;> simp
  rw [this] at h
  exact_mod_cast h

theorem count_single (n j : Nat) (h : j < n) (p : Nat → Prop) [DecidablePred p]
    (hp : ∀ i < n, p i ↔ i = j) : Nat.count p n = 1 := by
  rw [Nat.count_eq_card_filter_range, Finset.card_eq_one]
  refine ⟨j, ?_⟩
  ext i
  rw [Finset.mem_filter, Finset.mem_range, Finset.mem_singleton]
  constructor
  · rintro ⟨h1, h2⟩
    exact (hp i h1).1 h2
  · rintro rfl
    exact ⟨h, (hp i h).2 rfl⟩

theorem count_word (v : U64) : Nat.count (fun n => BitVec.ofNat 64 n = v) (2 ^ 64) = 1 := by
  apply count_single _ v.toNat v.isLt
  intro i hi
  constructor
  · rintro rfl
    rw [BitVec.toNat_ofNat, Nat.mod_eq_of_lt hi]
  · rintro rfl
    apply BitVec.eq_of_toNat_eq
    rw [BitVec.toNat_ofNat, Nat.mod_eq_of_lt hi]

/-- **C86.**  From every nonzero state, the generator returns every 64-bit word exactly
`2^64` times in its period of `2^128 - 1` draws, the word zero once less. -/
theorem C86_words (s : St) (hs : s ≠ ⟨0, 0⟩) (v : U64) :
    Nat.count (fun k => output (next^[k] s) = v) N = if v = 0 then 2 ^ 64 - 1 else 2 ^ 64 := by
  have h : Nat.count (fun k => output (next^[k] s) = v) N + (if 0 = v then 1 else 0) =
      2 ^ 64 * Nat.count (fun n => BitVec.ofNat 64 n = v) (2 ^ 64) := count_words s hs (fun w => w = v)
  rw [count_word v, Nat.mul_one] at h
  by_cases hv : v = 0
  · rw [if_pos hv]
    rw [if_pos hv.symm] at h
    exact Nat.eq_sub_of_add_eq h
  · rw [if_neg hv]
    rw [if_neg (fun e => hv e.symm), Nat.add_zero] at h
    exact h

/-- Grouping the words by their leading bits. -/
theorem sum_div (a b : Nat) (hb : 0 < b) (g : Nat → ℚ) :
    ∑ n ∈ Finset.range (a * b), g (n / b) = b * ∑ j ∈ Finset.range a, g j := by
  induction a with
  | zero => simp
  | succ a ih =>
    rw [Nat.succ_mul, Finset.sum_range_add, ih, Finset.sum_range_succ, mul_add]
    congr 1
    have : ∀ x ∈ Finset.range b, g ((a * b + x) / b) = g a := by
      intro x hx
      rw [Finset.mem_range] at hx
      congr 1
      rw [Nat.add_comm, Nat.add_mul_div_right _ _ hb, Nat.div_eq_of_lt hx, Nat.zero_add]
    rw [Finset.sum_congr rfl this]
    simp

/-- The sum of any function of the doubles drawn over one period. -/
theorem sum_draws (a : St) (ha : a ≠ 0) (g : ℚ → ℚ) :
    ∑ k ∈ Finset.range N, g ((toDouble (output (next^[k] a))).val b64) + g 0 =
      2 ^ 76 * ∑ j ∈ Finset.range (2 ^ 52), g (j / 2 ^ 52) := by
  have h := sum_words a ha (fun w => g ((toDouble w).val b64))
  have h0 : (toDouble 0).val b64 = 0 := by
    rw [(toDouble_spec 0).2.2]; simp
  simp only [h0] at h
  rw [h]
  have e : (2 : ℕ) ^ 64 = 2 ^ 52 * 2 ^ 12 := by norm_num
  have h2 : ∑ n ∈ Finset.range (2 ^ 64), g ((toDouble (BitVec.ofNat 64 n)).val b64) =
      ∑ n ∈ Finset.range (2 ^ 52 * 2 ^ 12), g (((n / 2 ^ 12 : ℕ) : ℚ) / 2 ^ 52) := by
    rw [← e]
    apply Finset.sum_congr rfl
    intro n hn
    rw [Finset.mem_range] at hn
    rw [(toDouble_spec _).2.2, BitVec.toNat_ofNat, Nat.mod_eq_of_lt hn]
  rw [h2, sum_div (2 ^ 52) (2 ^ 12) (by norm_num) (fun n => g ((n : ℚ) / 2 ^ 52))]
  push_cast
  rw [← mul_assoc]
  norm_num

/-- **C86.**  Every multiple `j / 2^52` of the unit interval is drawn exactly `2^76` times in
one period, zero once less. -/
theorem C86_draws (s : St) (hs : s ≠ ⟨0, 0⟩) (j : Nat) (hj : j < 2 ^ 52) :
    Nat.count (fun k => (toDouble (output (next^[k] s))).val b64 = j / 2 ^ 52) N =
      if j = 0 then 2 ^ 76 - 1 else 2 ^ 76 := by
  have h := sum_draws s hs (fun x => if x = j / 2 ^ 52 then 1 else 0)
  rw [← count_sum (fun k => (toDouble (output (next^[k] s))).val b64 = j / 2 ^ 52)] at h
  have h1 : ∑ i ∈ Finset.range (2 ^ 52), (if ((i : ℚ) / 2 ^ 52 = j / 2 ^ 52) then (1 : ℚ) else 0) = 1 := by
    rw [← count_sum (fun i => (i : ℚ) / 2 ^ 52 = j / 2 ^ 52), count_single _ j hj]
    · norm_num
    · intro i _
      rw [div_left_inj' (by norm_num)]
      exact Nat.cast_inj
  rw [h1] at h
  by_cases h0 : j = 0
  · rw [if_pos h0]
    subst h0
    rw [if_pos (by norm_num)] at h
    have : (Nat.count (fun k => (toDouble (output (next^[k] s))).val b64 = ((0 : ℕ) : ℚ) / 2 ^ 52) N : ℚ) =
        ((2 ^ 76 - 1 : ℕ) : ℚ) := by
      push_cast at h ⊢
      linarith
    exact_mod_cast this
  · rw [if_neg h0]
    have hne : ¬ ((0 : ℚ) = j / 2 ^ 52) := by
      intro e
      have : (0 : ℚ) < j / 2 ^ 52 := by
        have : (0 : ℚ) < j := by exact_mod_cast Nat.pos_of_ne_zero h0
        positivity
      linarith
    rw [if_neg hne] at h
    have : (Nat.count (fun k => (toDouble (output (next^[k] s))).val b64 = (j : ℚ) / 2 ^ 52) N : ℚ) =
        ((2 ^ 76 : ℕ) : ℚ) := by
      push_cast at h ⊢
      linarith
    exact_mod_cast this

theorem sum_range_id (n : Nat) : ∑ j ∈ Finset.range n, (j : ℚ) = n * (n - 1) / 2 := by
  induction n with
  | zero => simp
  | succ n ih => rw [Finset.sum_range_succ, ih]; push_cast; ring

theorem sum_range_sq (n : Nat) : ∑ j ∈ Finset.range n, (j : ℚ) ^ 2 = n * (n - 1) * (2 * n - 1) / 6 := by
  induction n with
  | zero => simp
  | succ n ih => rw [Finset.sum_range_succ, ih]; push_cast; ring

/-- **C86**, the centring: over one period the centred draws `draw - 1/2` sum up to
`-(2^76 - 1) / 2`.  The noise is not centred: its mean is negative, by less than `2^-53`. -/
theorem C86_mean (s : St) (hs : s ≠ ⟨0, 0⟩) :
    ∑ k ∈ Finset.range N, ((toDouble (output (next^[k] s))).val b64 - 1 / 2) =
      -((2 ^ 76 - 1) / 2) := by
  have h := sum_draws s hs (fun x => x - 1 / 2)
  have h1 : ∑ j ∈ Finset.range (2 ^ 52), ((j : ℚ) / 2 ^ 52 - 1 / 2) = -(1 / 2) := by
    rw [Finset.sum_sub_distrib, ← Finset.sum_div, sum_range_id, Finset.sum_const, Finset.card_range]
    push_cast
    norm_num
  rw [h1] at h
  linarith

/-- **C86**, the spread: the mean square of the centred draws over one period is `1/12`, that of
a uniform draw, up to `2^-100`. -/
theorem C86_variance (s : St) (hs : s ≠ ⟨0, 0⟩) :
    |(∑ k ∈ Finset.range N, ((toDouble (output (next^[k] s))).val b64 - 1 / 2) ^ 2) / (2 ^ 128 - 1)
      - 1 / 12| ≤ 1 / 2 ^ 100 := by
  have h := sum_draws s hs (fun x => (x - 1 / 2) ^ 2)
  have h1 : ∑ j ∈ Finset.range (2 ^ 52), ((j : ℚ) / 2 ^ 52 - 1 / 2) ^ 2 = 2 ^ 52 / 12 + 1 / (6 * 2 ^ 52) := by
    have : ∀ j ∈ Finset.range (2 ^ 52), ((j : ℚ) / 2 ^ 52 - 1 / 2) ^ 2 =
        (j : ℚ) ^ 2 * (1 / 2 ^ 104) - (j : ℚ) * (1 / 2 ^ 52) + 1 / 4 := by
      intro j _; ring
    rw [Finset.sum_congr rfl this, Finset.sum_add_distrib, Finset.sum_sub_distrib, ← Finset.sum_mul,
      ← Finset.sum_mul, sum_range_id, sum_range_sq, Finset.sum_const, Finset.card_range]
    push_cast
    norm_num
  rw [h1] at h
  have h2 : ∑ k ∈ Finset.range N, ((toDouble (output (next^[k] s))).val b64 - 1 / 2) ^ 2 =
      2 ^ 76 * (2 ^ 52 / 12 + 1 / (6 * 2 ^ 52)) - 1 / 4 := by
      linarith
  rw [h2, abs_le]
  constructor <;> norm_num

/-- The generator seeded with 42, first thread: all of the above applies, and the period is
`2^128 - 1`. -/
example : (⟨nextSeed (mix 42 1), nextSeed (mix 42 1)⟩ : St) ≠ ⟨0, 0⟩ ∧ N = 2 ^ 128 - 1 ∧
    output ⟨nextSeed (mix 42 1), nextSeed (mix 42 1)⟩ = 7831084448542153007#64 := by decide +kernel

end Verif.Rng
