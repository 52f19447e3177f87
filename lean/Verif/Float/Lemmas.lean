import Verif.Float.Format
import Mathlib.Tactic.Linarith
import Mathlib.Tactic.Zify
import Mathlib.Tactic.Push
import Mathlib.Tactic.FieldSimp
import Mathlib.Tactic.Positivity
import Mathlib.Data.Nat.Bitwise
import Mathlib.Algebra.Order.Floor.Ring

/-! Helper lemmas on shifts, masks, rounding of integers and encoding. -/

namespace Verif

theorem cShl_in (sem : ShiftSem) (w x : Nat) (s : Int) (n : Nat) (h : s = n) (hn : n < w) :
    cShl sem w x s = .ok (x * 2 ^ n % 2 ^ w) := by
  subst h
  unfold cShl
  rw [if_pos (by omega)]
  simp

theorem cShl_one_in (sem : ShiftSem) (w : Nat) (s : Int) (n : Nat) (h : s = n) (hn : n < w) :
    cShl sem w 1 s = .ok (2 ^ n) := by
  rw [cShl_in sem w 1 s n h hn, one_mul, Nat.mod_eq_of_lt (Nat.pow_lt_pow_right (by norm_num) hn)]

theorem cShr_in (sem : ShiftSem) (w x : Nat) (s : Int) (n : Nat) (h : s = n) (hn : n < w) :
    cShr sem w x s = .ok (x / 2 ^ n) := by
  subst h
  unfold cShr
  rw [if_pos (by omega)]
  simp

theorem mask_pred (w n : Nat) (hn : n ≤ w) :
    (2 ^ n + (2 ^ w - 1)) % 2 ^ w = 2 ^ n - 1 := by
  have h1 : 0 < 2 ^ n := by positivity
  have h2 : 2 ^ n ≤ 2 ^ w := Nat.pow_le_pow_right (by norm_num) hn
  have : 2 ^ n + (2 ^ w - 1) = (2 ^ n - 1) + 2 ^ w := by omega
  rw [this, Nat.add_mod_right, Nat.mod_eq_of_lt (by omega)]

theorem highmask (w n : Nat) (hn : n ≤ w) :
    (2 ^ w - 1) * 2 ^ n % 2 ^ w = 2 ^ w - 2 ^ n := by
  have h1 : 0 < 2 ^ n := by positivity
  have h2 : 2 ^ n ≤ 2 ^ w := Nat.pow_le_pow_right (by norm_num) hn
  have h4 : 0 < 2 ^ w := by positivity
  have h3 : (2 ^ w - 1) * 2 ^ n = (2 ^ w - 2 ^ n) + 2 ^ w * (2 ^ n - 1) := by
    zify [h2, h1, h4]
    ring
  rw [h3, Nat.add_mul_mod_self_left, Nat.mod_eq_of_lt (by omega)]

theorem and_highmask (x w n : Nat) (hn : n ≤ w) (hx : x < 2 ^ w) :
    x &&& (2 ^ w - 2 ^ n) = x / 2 ^ n * 2 ^ n := by
  have hm : 2 ^ w - 2 ^ n = (2 ^ (w - n) - 1) * 2 ^ n := by
    rw [Nat.sub_mul, ← pow_add, Nat.sub_add_cancel hn, one_mul]
  rw [hm, ← Nat.shiftRight_eq_div_pow, ← Nat.shiftLeft_eq, ← Nat.shiftLeft_eq]
  apply Nat.eq_of_testBit_eq
  intro i
  simp only [Nat.testBit_and, Nat.testBit_shiftLeft, Nat.testBit_shiftRight,
    Nat.testBit_two_pow_sub_one]
  by_cases h : n ≤ i
  · simp only [ge_iff_le, h, decide_true, Bool.true_and, Nat.add_sub_cancel' h]
    by_cases h2 : i - n < w - n
    · simp [h2]
    · have : x < 2 ^ i := lt_of_lt_of_le hx (Nat.pow_le_pow_right (by norm_num) (by omega))
      simp [Nat.testBit_lt_two_pow this]
  · simp [h]

namespace Fp

theorem rneShift_mul (n k : Nat) : rneShift (n * 2 ^ k) k = n := by
  have hpos : 0 < 2 ^ k := by positivity
  unfold rneShift
  rw [Nat.mul_mod_left, Nat.mul_div_cancel _ hpos]
  rw [if_neg]
  omega

theorem rneShift_zero (n : Nat) : rneShift n 0 = n := by
  simpa using rneShift_mul n 0

theorem rneShift_mul_add (n k j : Nat) : rneShift (n * 2 ^ k) (k + j) = rneShift n j := by
  have hpos : 0 < 2 ^ k := by positivity
  unfold rneShift
  have h1 : n * 2 ^ k % 2 ^ (k + j) = n % 2 ^ j * 2 ^ k := by
    rw [pow_add, mul_comm (2 ^ k) (2 ^ j), Nat.mul_mod_mul_right]
  have h2 : n * 2 ^ k / 2 ^ (k + j) = n / 2 ^ j := by
    rw [pow_add, mul_comm (2 ^ k) (2 ^ j), Nat.mul_div_mul_right _ _ hpos]
  rw [h1, h2, pow_add]
  have e1 : (2 ^ k * 2 ^ j < 2 * (n % 2 ^ j * 2 ^ k)) ↔ (2 ^ j < 2 * (n % 2 ^ j)) := by
    rw [show 2 * (n % 2 ^ j * 2 ^ k) = 2 ^ k * (2 * (n % 2 ^ j)) by ring]
    exact Nat.mul_lt_mul_left hpos
  have e2 : (2 * (n % 2 ^ j * 2 ^ k) = 2 ^ k * 2 ^ j) ↔ (2 * (n % 2 ^ j) = 2 ^ j) := by
    rw [show 2 * (n % 2 ^ j * 2 ^ k) = 2 ^ k * (2 * (n % 2 ^ j)) by ring]
    exact Nat.mul_right_inj (by omega)
  simp only [e1, e2]

theorem rneShift_bounds (n j : Nat) : n / 2 ^ j ≤ rneShift n j ∧ rneShift n j ≤ n / 2 ^ j + 1 := by
  unfold rneShift; split_ifs <;> omega

/-- Adding an even multiple commutes with rounding. -/
theorem rneShift_add_even (n j c : Nat) : rneShift (n + 2 * c * 2 ^ j) j = rneShift n j + 2 * c := by
  have hpos : 0 < 2 ^ j := by positivity
  unfold rneShift
  rw [Nat.add_mul_mod_self_right, Nat.add_mul_div_right _ _ hpos]
  have : (n / 2 ^ j + 2 * c) % 2 = n / 2 ^ j % 2 := by omega
  rw [this]
  split_ifs <;> omega

/-- Twice the distance to the rounded multiple is at most the step. -/
theorem rneShift_err (n j : Nat) :
    2 * (rneShift n j * 2 ^ j : ℤ) ≤ 2 * n + 2 ^ j ∧ 2 * (n : ℤ) ≤ 2 * (rneShift n j * 2 ^ j) + 2 ^ j := by
  have hd := Nat.div_add_mod n (2 ^ j)
  have hlt := Nat.mod_lt n (show 0 < 2 ^ j by positivity)
  unfold rneShift
  generalize hP : 2 ^ j = P at *
  have hP' : (2 ^ j : ℤ) = P := by rw [← hP]; norm_num
  rw [hP']
  generalize n / P = q at *
  generalize n % P = r at *
  have hn : (n : ℤ) = P * q + r := by exact_mod_cast hd.symm
  split_ifs with h
  · push_cast
    rw [hn]
    have : (P : ℤ) ≤ 2 * r := by
      rcases h with h | h <;> omega
    constructor <;> nlinarith
  · rw [hn]
    have : 2 * (r : ℤ) ≤ P := by omega
    constructor <;> nlinarith

theorem log2_mul_pow (n k : Nat) (hn : n ≠ 0) : Nat.log2 (n * 2 ^ k) = Nat.log2 n + k := by
  have h1 := Nat.log2_self_le hn
  have h2 := Nat.lt_log2_self (n := n)
  have hp : 0 < 2 ^ k := by positivity
  rw [Nat.log2_eq_iff (by positivity)]
  constructor
  · rw [pow_add]; exact Nat.mul_le_mul_right _ h1
  · rw [show n.log2 + k + 1 = (n.log2 + 1) + k by ring, pow_add (n := k)]
    exact Nat.mul_lt_mul_of_pos_right h2 hp

theorem log2_of_range (n k : Nat) (h1 : 2 ^ k ≤ n) (h2 : n < 2 ^ (k + 1)) : Nat.log2 n = k := by
  have : n ≠ 0 := by have : 0 < 2 ^ k := by positivity
                     omega
  rw [Nat.log2_eq_iff this]; exact ⟨h1, h2⟩

/-- Encoding of an exactly representable magnitude. -/
theorem encode_exact (F : Fmt) (s : Bool) (M k : Nat) (h1 : 2 ^ F.mw ≤ M) (h2 : M < 2 ^ (F.mw + 1)) :
    encode F s (M * 2 ^ k) 0 =
      if k * 2 ^ F.mw + M < F.expInf * 2 ^ F.mw then ofPat F s (k * 2 ^ F.mw + M) else infBits F s := by
  have hM : M ≠ 0 := by have : 0 < 2 ^ F.mw := by positivity
                        omega
  unfold encode
  rw [log2_mul_pow M k hM, log2_of_range M F.mw h1 h2]
  simp only [Nat.zero_add]
  rw [show F.mw + k - F.mw = k by omega, rneShift_mul]

/-- Encoding of a magnitude with one extra bit. -/
theorem encode_carry (F : Fmt) (s : Bool) (M k : Nat) (h1 : 2 ^ (F.mw + 1) ≤ M)
    (h2 : M < 2 ^ (F.mw + 2)) :
    encode F s (M * 2 ^ k) 0 =
      if (k + 1) * 2 ^ F.mw + rneShift M 1 < F.expInf * 2 ^ F.mw
      then ofPat F s ((k + 1) * 2 ^ F.mw + rneShift M 1) else infBits F s := by
  have hM : M ≠ 0 := by have : 0 < 2 ^ (F.mw + 1) := by positivity
                        omega
  unfold encode
  rw [log2_mul_pow M k hM, log2_of_range M (F.mw + 1) h1 h2]
  simp only [Nat.zero_add]
  rw [show F.mw + 1 + k - F.mw = k + 1 by omega, rneShift_mul_add]

theorem fadd_same_sign (F : Fmt) (a b : Bits) (ha : a.exp ≠ F.expInf) (hb : b.exp ≠ F.expInf)
    (hs : a.sign = b.sign) (hne : a.mag F + b.mag F ≠ 0) :
    fadd F a b = encode F a.sign (a.mag F + b.mag F) 0 := by
  unfold fadd
  have h1 : ¬ (a.isNaN F ∨ b.isNaN F) := by unfold Bits.isNaN; tauto
  have h2 : ¬ a.isInf F := by unfold Bits.isInf; tauto
  have h3 : ¬ b.isInf F := by unfold Bits.isInf; tauto
  rw [if_neg h1, if_neg h2, if_neg h3]
  unfold Bits.imag
  rw [← hs]
  cases hsg : a.sign
  · simp only [Bool.false_eq_true, if_false]
    rw [if_neg (by omega)]
    congr 1
  · simp only [if_true]
    rw [if_neg (by omega)]
    congr 1
    · simp; omega
    · omega

theorem ofPat_mk (F : Fmt) (s : Bool) (e m : Nat) (hm : m < 2 ^ F.mw) :
    ofPat F s (e * 2 ^ F.mw + m) = ⟨s, e, m⟩ := by
  have hpos : 0 < 2 ^ F.mw := by positivity
  unfold ofPat
  rw [Nat.add_comm, Nat.add_mul_div_right _ _ hpos, Nat.add_mul_mod_self_right,
    Nat.div_eq_of_lt hm, Nat.mod_eq_of_lt hm, Nat.zero_add]

theorem ofPat_pat (F : Fmt) (x : Bits) (hx : x.man < 2 ^ F.mw) : ofPat F x.sign (x.pat F) = x := by
  unfold Bits.pat; rw [ofPat_mk F _ _ _ hx]

theorem pat_ofPat (F : Fmt) (s : Bool) (n : Nat) : (ofPat F s n).pat F = n := by
  unfold ofPat Bits.pat
  simp only
  rw [mul_comm]; exact Nat.div_add_mod _ _

/-- Magnitude of a normal number. -/
theorem mag_normal (F : Fmt) (x : Bits) (h : x.exp ≠ 0) :
    x.mag F = (2 ^ F.mw + x.man) * 2 ^ (x.exp - 1) := by
  unfold Bits.mag Bits.sig; rw [if_neg h]

theorem val_eq_mag (F : Fmt) (x : Bits) : x.val F = sgn x.sign * (x.mag F : ℚ) * 2 ^ F.uexp := by
  unfold Bits.val Bits.mag Bits.lsb Fmt.uexp
  have h : ((max x.exp 1 : ℕ) : ℤ) - (F.bias : ℤ) - F.mw = ((x.exp - 1 : ℕ) : ℤ) + (1 - (F.bias : ℤ) - F.mw) := by
    have : ((max x.exp 1 : ℕ) : ℤ) = ((x.exp - 1 : ℕ) : ℤ) + 1 := by omega
    rw [this]; ring
  rw [h, zpow_add₀ (by norm_num : (2 : ℚ) ≠ 0), zpow_natCast]
  push_cast
  ring

end Fp
end Verif
