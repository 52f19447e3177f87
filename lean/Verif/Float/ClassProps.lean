import Verif.Float.Class
import Mathlib.Tactic.NormNum

/-!
# Property C23: the representability test

`BitsAtMost F t x` says, about the rational value, that it has at most `t` significant
bits; it mentions neither the fields nor the trailing zeros the code looks at.
-/

namespace Verif.Fp

/-- The value is an integer below `2^t` times a power of two. -/
def BitsAtMost (F : Fmt) (t : Nat) (x : Bits) : Prop :=
  ∃ (m : ℕ) (k : ℤ), m < 2 ^ t ∧ |x.val F| = m * 2 ^ k

theorem abs_val (F : Fmt) (x : Bits) : |x.val F| = (x.sig F : ℚ) * 2 ^ x.lsb F := by
  unfold Bits.val sgn
  have h2 : (0 : ℚ) < 2 ^ x.lsb F := zpow_pos (by norm_num) _
  have h3 : (0 : ℚ) ≤ (x.sig F : ℚ) * 2 ^ x.lsb F := by positivity
  cases x.sign
  · simp only [Bool.false_eq_true, if_false, one_mul]; exact abs_of_nonneg h3
  · simp only [if_true]; rw [show (-1 : ℚ) * x.sig F * 2 ^ x.lsb F = -(x.sig F * 2 ^ x.lsb F) by ring]
    rw [abs_neg]; exact abs_of_nonneg h3

theorem bitsAtMost_iff (F : Fmt) (t : Nat) (x : Bits) :
    BitsAtMost F t x ↔ ∃ m k : ℕ, m < 2 ^ t ∧ x.sig F = m * 2 ^ k := by
  unfold BitsAtMost
  rw [abs_val]
  have h2 : (2 : ℚ) ^ x.lsb F ≠ 0 := zpow_ne_zero _ (by norm_num)
  constructor
  · rintro ⟨m, k, hm, h⟩
    by_cases hk : x.lsb F ≤ k
    · refine ⟨m, (k - x.lsb F).toNat, hm, ?_⟩
      have e : k = x.lsb F + ((k - x.lsb F).toNat : ℤ) := by omega
      rw [e, zpow_add₀ (by norm_num), zpow_natCast] at h
      have : (x.sig F : ℚ) = m * 2 ^ (k - x.lsb F).toNat := by
        apply mul_right_cancel₀ h2
        rw [h]
        ring
      exact_mod_cast this
    · refine ⟨x.sig F, 0, ?_, by simp⟩
      have e : x.lsb F = k + ((x.lsb F - k).toNat : ℤ) := by omega
      have h2k : (2 : ℚ) ^ k ≠ 0 := zpow_ne_zero _ (by norm_num)
      rw [e, zpow_add₀ (by norm_num), zpow_natCast] at h
      have : (m : ℚ) = x.sig F * 2 ^ (x.lsb F - k).toNat := by
        apply mul_right_cancel₀ h2k
        rw [← h]
        ring
      have h' : m = x.sig F * 2 ^ (x.lsb F - k).toNat := by exact_mod_cast this
      calc x.sig F ≤ x.sig F * 2 ^ (x.lsb F - k).toNat := Nat.le_mul_of_pos_right _ (by positivity)
        _ < 2 ^ t := h' ▸ hm
  · rintro ⟨m, k, hm, h⟩
    refine ⟨m, k + x.lsb F, hm, ?_⟩
    rw [h, zpow_add₀ (by norm_num), zpow_natCast]
    push_cast
    ring

/-- An odd number times a power of two: shorter significands do not exist. -/
theorem odd_le (q c m k : Nat) (h : (2 * q + 1) * 2 ^ c = m * 2 ^ k) : 2 * q + 1 ≤ m := by
  by_cases hk : k ≤ c
  · have e : c = (c - k) + k := by omega
    rw [e, pow_add, ← mul_assoc] at h
    have := Nat.eq_of_mul_eq_mul_right (by positivity) h
    rw [← this]
    exact Nat.le_mul_of_pos_right _ (by positivity)
  · have e : k = (k - c - 1 + 1) + c := by omega
    rw [e, pow_add, ← mul_assoc] at h
    have := Nat.eq_of_mul_eq_mul_right (by positivity) h
    rw [pow_succ] at this
    have h2 : m * (2 ^ (k - c - 1) * 2) = 2 * (m * 2 ^ (k - c - 1)) := by ring
    omega

/-- **C23**, normal numbers: the test answers yes exactly when the value has at most
`t` significant bits. -/
theorem C23_normal_exact (F : Fmt) (x : Bits) (hx : x.WF F) (hn : x.exp ≠ 0) (t : Nat) (ht : 1 ≤ t) :
    isRepr F x t = true ↔ BitsAtMost F t x := by
  rw [bitsAtMost_iff]
  unfold isRepr Bits.sig
  rw [if_neg hn]
  by_cases h0 : x.man = 0
  · simp only [h0, if_true, true_iff, add_zero]
    exact ⟨1, F.mw, Nat.one_lt_two_pow (by omega), by simp⟩
  · rw [if_neg h0, decide_eq_true_eq]
    obtain ⟨q, hq, hlt⟩ := ctz_spec F.mw x.man h0 hx.2
    generalize ctz F.mw x.man = c at hq hlt
    have e : (2 : Nat) ^ F.mw = 2 ^ (F.mw - c - 1) * 2 * 2 ^ c := by
      rw [← pow_succ, ← pow_add]; congr 1; omega
    have hs : 2 ^ F.mw + x.man = (2 * (2 ^ (F.mw - c - 1) + q) + 1) * 2 ^ c := by
      rw [hq, e]; ring
    have hqlt : 2 * q + 1 < 2 ^ (F.mw - c) := by
      have := hx.2
      rw [hq, show F.mw = (F.mw - c) + c by omega, pow_add] at this
      exact Nat.lt_of_mul_lt_mul_right this
    have hp : 2 ^ (F.mw - c) = 2 * 2 ^ (F.mw - c - 1) := by
      rw [← pow_succ']; congr 1; omega
    constructor
    · intro h
      refine ⟨_, c, ?_, hs⟩
      calc 2 * (2 ^ (F.mw - c - 1) + q) + 1 < 2 * 2 ^ (F.mw - c) := by omega
        _ = 2 ^ (F.mw - c + 1) := by rw [pow_succ']
        _ ≤ 2 ^ t := Nat.pow_le_pow_right (by norm_num) (by omega)
    · rintro ⟨m, k, hm, h⟩
      have := odd_le _ c m k (hs ▸ h)
      have hlt2 : 2 ^ (F.mw - c) < 2 ^ t := by omega
      have := (Nat.pow_lt_pow_iff_right (by norm_num : 1 < 2)).1 hlt2
      omega

/-- **C23** for every finite or non-finite pattern: a positive answer is always right. -/
theorem C23_yes_sound (F : Fmt) (x : Bits) (hx : x.WF F) (t : Nat) (ht : 1 ≤ t)
    (h : isRepr F x t = true) : BitsAtMost F t x := by
  by_cases hn : x.exp = 0
  · rw [bitsAtMost_iff]
    unfold isRepr at h
    unfold Bits.sig
    rw [if_pos hn]
    by_cases h0 : x.man = 0
    · exact ⟨0, 0, by positivity, by simp [h0]⟩
    · rw [if_neg h0, decide_eq_true_eq] at h
      obtain ⟨q, hq, hlt⟩ := ctz_spec F.mw x.man h0 hx.2
      generalize ctz F.mw x.man = c at hq hlt h
      refine ⟨2 * q + 1, c, ?_, hq⟩
      have := hx.2
      rw [hq, show F.mw = (F.mw - c) + c by omega, pow_add] at this
      calc 2 * q + 1 < 2 ^ (F.mw - c) := Nat.lt_of_mul_lt_mul_right this
        _ ≤ 2 ^ t := Nat.pow_le_pow_right (by norm_num) (by omega)
  · exact (C23_normal_exact F x hx hn t ht).1 h

/-- **C23** for the quad routine. -/
theorem C23_quad_exact (x : Bits) (hx : x.WF b128) (hn : x.exp ≠ 0) (t : Nat) (ht : 1 ≤ t) :
    isRepr128 x t = true ↔ BitsAtMost b128 t x := by
  rw [isRepr128_eq x hx.2]
  exact C23_normal_exact b128 x hx hn t ht

/-- **C23 fails on subnormals**: for every precision below the mantissa width the
smallest subnormal has one significant bit and the test says it does not fit. -/
theorem C23_subnormal_wrong (F : Fmt) (h : 1 ≤ F.mw) (t : Nat) (ht : 1 ≤ t) (htm : t ≤ F.mw) :
    BitsAtMost F t ⟨false, 0, 1⟩ ∧ isRepr F ⟨false, 0, 1⟩ t = false := by
  constructor
  · rw [bitsAtMost_iff]
    exact ⟨1, 0, Nat.one_lt_two_pow (by omega), by simp [Bits.sig]⟩
  · obtain ⟨m, hm⟩ : ∃ m, F.mw = m + 1 := ⟨F.mw - 1, by omega⟩
    simp [isRepr, hm, ctz]
    omega

/-- 1.5 has two significant bits, in all three formats. -/
example : isRepr b32 ⟨false, 127, 2 ^ 22⟩ 1 = false ∧ isRepr b32 ⟨false, 127, 2 ^ 22⟩ 2 = true ∧
    isRepr b64 ⟨true, 1023, 2 ^ 51⟩ 1 = false ∧ isRepr b64 ⟨true, 1023, 2 ^ 51⟩ 2 = true ∧
    isRepr128 ⟨false, 16383, 2 ^ 111⟩ 1 = false ∧ isRepr128 ⟨false, 16383, 2 ^ 111⟩ 2 = true ∧
    isRepr128 ⟨false, 16383, 1⟩ 112 = false ∧ isRepr128 ⟨false, 16383, 1⟩ 113 = true := by
  decide +kernel

end Verif.Fp
