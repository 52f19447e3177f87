import Verif.Stdlib.Model
import Verif.Vprec.Value

/-! # C46 (powers of two), C47 (classification) -/

namespace Verif.Stdlib
open Verif Verif.Fp Verif.Vprec

/-- C46: exactly `2^i` over the whole normal and subnormal range, `0` below, `+inf`
above; the only other outcome is undefined behaviour, when `i + bias` is not an
`int`. -/
theorem C46_pow2i_exact (F : Fmt) (w : Nat) (hF : IsC F w) (i : Int)
    (hi : -(2 ^ 31) ≤ i ∧ i < 2 ^ 31) :
    (i + F.bias < 2 ^ 31 →
      ∃ y, cpow2i F i = .ok y ∧ y.WF F ∧ y.sign = false ∧
        (i < F.uexp → y.isZero) ∧
        (F.uexp ≤ i → i ≤ F.bias → y.Fin F ∧ y.val F = 2 ^ i) ∧
        ((F.bias : Int) < i → y = infBits F false)) ∧
    (2 ^ 31 ≤ i + F.bias → cpow2i F i = .ub) := by
  have hu : F.uexp = 1 - (F.bias : Int) - F.mw := rfl
  have hb : F.expInf = 2 * F.bias + 1 ∧ F.expInf < 2 ^ F.ew ∧ 1 ≤ F.mw := by
    rcases hF with ⟨rfl, _⟩ | ⟨rfl, _⟩ <;> decide
  obtain ⟨hb1, hb2, hmw⟩ := hb
  have hpm : 0 < 2 ^ F.mw := by positivity
  refine ⟨fun h => ?_, fun h => ?_⟩
  · unfold cpow2i
    rw [if_neg (by omega)]
    refine ⟨_, rfl, ?_⟩
    unfold pow2i
    simp only
    by_cases h1 : i + F.bias ≤ -(F.mw : Int)
    · rw [if_pos h1]
      exact ⟨zero_wf F _, rfl, fun _ => ⟨rfl, rfl⟩, fun h2 => by omega, fun h2 => by omega⟩
    rw [if_neg h1]
    by_cases h2 : i + F.bias ≥ F.expInf
    · rw [if_pos h2]
      exact ⟨⟨hb2, hpm⟩, rfl, fun h => by omega, fun h3 h4 => by omega, fun _ => rfl⟩
    rw [if_neg h2]
    by_cases h3 : i + F.bias ≤ 0
    · rw [if_pos h3]
      obtain ⟨n, hn⟩ : ∃ n : ℕ, (F.mw : Int) - 1 + (i + F.bias) = n :=
        ⟨((F.mw : Int) - 1 + (i + F.bias)).toNat, by omega⟩
      rw [hn, Int.toNat_natCast]
      have hlt : 2 ^ n < 2 ^ F.mw := Nat.pow_lt_pow_right (by norm_num) (by omega)
      have he : ofPat F false (2 ^ n) = ⟨false, 0, 2 ^ n⟩ := by
        have := ofPat_mk F false 0 (2 ^ n) hlt
        simpa using this
      rw [he]
      refine ⟨⟨?_, hlt⟩, rfl, fun h => by omega, fun h4 h5 => ⟨?_, ?_⟩, fun h => by omega⟩
      · show 0 < 2 ^ F.ew; positivity
      · unfold Bits.Fin; simp only; omega
      · rw [val_eq_mag, mag_subnormal F _ rfl, two_zpow_split i F.uexp n (by omega)]
        simp [sgn]
    · rw [if_neg h3]
      obtain ⟨n, hn⟩ : ∃ n : ℕ, i + F.bias = n + 1 := ⟨(i + F.bias - 1).toNat, by omega⟩
      have he : ofPat F false ((i + F.bias).toNat * 2 ^ F.mw) = ⟨false, n + 1, 0⟩ := by
        have := ofPat_mk F false (n + 1) 0 hpm
        rw [hn]
        have e : ((n : Int) + 1).toNat = n + 1 := by omega
        rw [e]
        simpa using this
      rw [he]
      refine ⟨⟨?_, hpm⟩, rfl, fun h => by omega, fun h4 h5 => ⟨?_, ?_⟩, fun h => by omega⟩
      · show n + 1 < 2 ^ F.ew; omega
      · unfold Bits.Fin; simp only; omega
      · rw [val_eq_mag, mag_pow, two_zpow_split i F.uexp (F.mw + n) (by push_cast; omega)]
        simp [sgn]
  · unfold cpow2i
    rw [if_pos (by omega)]

example : cpow2i b32 (-149) = .ok ⟨false, 0, 1⟩ ∧ cpow2i b32 127 = .ok ⟨false, 254, 0⟩ ∧
    cpow2i b64 (-1023) = .ok ⟨false, 0, 2 ^ 51⟩ ∧ cpow2i b64 2147483000 = .ub ∧
    cpow2i b32 (-2147483648) = .ok ⟨false, 0, 0⟩ := by decide +kernel

/-- C47 is false: the library's `isnan` and `isinf` answer "no" for every datum. -/
theorem C47_never_detected (u : Nat) :
    isnanf u = false ∧ isinff u = false ∧ isnand u = false ∧ isinfd u = false := by
  have h1 : u &&& 0x7F800000 ≠ 128 := by
    intro h
    have := congrArg (fun n => Nat.testBit n 7) h
    simp only [Nat.testBit_and] at this
    have e1 : Nat.testBit 0x7F800000 7 = false := by decide
    have e2 : Nat.testBit 128 7 = true := by decide
    rw [e1, e2, Bool.and_false] at this
    exact absurd this (by decide)
  have h2 : u &&& 0x7ff0000000000000 ≠ 128 := by
    intro h
    have := congrArg (fun n => Nat.testBit n 7) h
    simp only [Nat.testBit_and] at this
    have e1 : Nat.testBit 0x7ff0000000000000 7 = false := by decide +kernel
    have e2 : Nat.testBit 128 7 = true := by decide
    rw [e1, e2, Bool.and_false] at this
    exact absurd this (by decide)
  unfold isnanf isinff isnand isinfd fpclassifyf fpclassifyd
  simp only [h1, h2]
  refine ⟨?_, ?_, ?_, ?_⟩ <;> simp only [decide_eq_false_iff_not, false_and, if_false] <;> split_ifs <;> simp

/-- The mask tests on the raw bits read the fields. -/
theorem raw_fields (F : Fmt) (x : Bits) (hx : x.WF F) :
    raw F x &&& (2 ^ F.mw - 1) = x.man ∧
    raw F x &&& ((2 ^ F.ew - 1) * 2 ^ F.mw) = x.exp * 2 ^ F.mw := by
  obtain ⟨he, hm⟩ := hx
  have hp : 0 < 2 ^ F.mw := by positivity
  have hr : raw F x = ((if x.sign then 2 ^ F.ew else 0) + x.exp) * 2 ^ F.mw + x.man := by
    unfold raw
    split_ifs
    · rw [Nat.add_mul, ← pow_add]
    · simp
  constructor
  · rw [Nat.and_two_pow_sub_one_eq_mod, hr, Nat.mul_add_mod_self_right, Nat.mod_eq_of_lt hm]
  · apply Nat.eq_of_testBit_eq
    intro i
    rw [Nat.testBit_and, hr, Nat.testBit_mul_two_pow, Nat.testBit_mul_two_pow]
    by_cases hi : F.mw ≤ i
    · simp only [hi, decide_true, Bool.true_and]
      rw [Nat.mul_comm, Nat.testBit_two_pow_mul_add _ hm, if_neg (by omega),
        Nat.testBit_two_pow_sub_one]
      by_cases h2 : i - F.mw < F.ew
      · simp only [h2, decide_true, Bool.and_true]
        split_ifs
        · have h3 := Nat.testBit_two_pow_mul_add 1 he (i - F.mw)
          rw [mul_one, if_pos h2] at h3
          exact h3
        · rw [Nat.zero_add]
      · simp only [h2, decide_false, Bool.and_false]
        symm
        apply Nat.testBit_lt_two_pow
        exact lt_of_lt_of_le he (Nat.pow_le_pow_right (by norm_num) (by omega))
    · simp [hi]

/-- C47, what is left: on finite data the class is right (zero, subnormal, normal),
so `isnan`/`isinf` are right there.  Missing: NaN and infinities, which are reported as
`normal` (`C47_never_detected`). -/
theorem C47_finite_class_partial (x : Bits) :
    (x.WF b32 → x.Fin b32 → fpclassifyf (raw b32 x) = fpclass b32 x) ∧
    (x.WF b64 → x.Fin b64 → fpclassifyd (raw b64 x) = fpclass b64 x) := by
  have hnd : ∀ a k : ℕ, 7 < k → a * 2 ^ k ≠ 128 := by
    intro a k hk h
    have h1 : 2 ^ 8 ∣ a * 2 ^ k := Dvd.dvd.mul_left (pow_dvd_pow 2 (by omega)) a
    rw [h] at h1
    exact absurd h1 (by decide)
  constructor
  · intro hx hf
    obtain ⟨h1, h2⟩ := raw_fields b32 x hx
    have e1 : 2 ^ b32.mw - 1 = 0x007fffff := by decide
    have e2 : (2 ^ b32.ew - 1) * 2 ^ b32.mw = 0x7F800000 := by decide
    rw [e1] at h1
    rw [e2] at h2
    unfold fpclassifyf fpclass
    simp only [h1, h2]
    have h3 : x.exp ≠ b32.expInf := hf
    have hz : x.exp * 2 ^ b32.mw = 0 ↔ x.exp = 0 := by
      constructor
      · intro h; exact (Nat.mul_eq_zero.1 h).resolve_right (by decide)
      · intro h; rw [h, Nat.zero_mul]
    simp only [hnd x.exp b32.mw (by decide), hz, h3, false_and, if_false]
  · intro hx hf
    obtain ⟨h1, h2⟩ := raw_fields b64 x hx
    have e1 : 2 ^ b64.mw - 1 = 0x000fffffffffffff := by decide +kernel
    have e2 : (2 ^ b64.ew - 1) * 2 ^ b64.mw = 0x7ff0000000000000 := by decide +kernel
    rw [e1] at h1
    rw [e2] at h2
    unfold fpclassifyd fpclass
    simp only [h1, h2]
    have h3 : x.exp ≠ b64.expInf := hf
    have hz : x.exp * 2 ^ b64.mw = 0 ↔ x.exp = 0 := by
      constructor
      · intro h; exact (Nat.mul_eq_zero.1 h).resolve_right (by positivity)
      · intro h; rw [h, Nat.zero_mul]
    simp only [hnd x.exp b64.mw (by decide), hz, h3, false_and, if_false]

/-- A NaN and an infinity reported as normal numbers. -/
example : (⟨false, 255, 1⟩ : Bits).isNaN b32 ∧ fpclassifyf (raw b32 ⟨false, 255, 1⟩) = .normal ∧
    (⟨true, 2047, 0⟩ : Bits).isInf b64 ∧ fpclassifyd (raw b64 ⟨true, 2047, 0⟩) = .normal := by
  decide +kernel

/-- The classification the backends use is the IEEE one. -/
theorem C47_backend_class (F : Fmt) (x : Bits) (hew : 2 ≤ F.ew) (hx : x.WF F) :
    (fpclass F x = .nan ↔ x.isNaN F) ∧ (fpclass F x = .infinite ↔ x.isInf F) ∧
    (fpclass F x = .zero ↔ x.isZero) ∧
    (fpclass F x = .subnormal ↔ x.Fin F ∧ x.val F ≠ 0 ∧ |x.val F| < 2 ^ (1 - (F.bias : ℤ))) := by
  have hinf := expInf_ge F hew
  have hlt : |x.val F| < 2 ^ (1 - (F.bias : ℤ)) ↔ x.exp = 0 := by
    have hu : F.uexp = 1 - (F.bias : ℤ) - F.mw := rfl
    rw [abs_val, mag_lt_pow F _ (1 - (F.bias : ℤ)) F.mw (by omega)]
    constructor
    · intro h
      by_contra h0
      rw [mag_normal F x (by omega)] at h
      have : 2 ^ F.mw * 1 ≤ (2 ^ F.mw + x.man) * 2 ^ (x.exp - 1) :=
        Nat.mul_le_mul (by omega) Nat.one_le_two_pow
      omega
    · intro h; rw [mag_subnormal F x h]; exact hx.2
  rw [hlt]
  have hz := val_eq_zero F x
  rw [mag_eq_zero] at hz
  unfold fpclass Bits.isNaN Bits.isInf Bits.isZero at *
  refine ⟨?_, ?_, ?_, ?_⟩
  · split_ifs <;> simp <;> omega
  · split_ifs <;> simp <;> omega
  · split_ifs <;> simp <;> omega
  · have hf : x.Fin F ↔ x.exp ≠ F.expInf := Iff.rfl
    simp only [hz, hf, ne_eq]
    split_ifs <;> simp <;> omega

end Verif.Stdlib
