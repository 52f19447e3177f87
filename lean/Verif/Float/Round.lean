import Verif.Vprec.Nearest
import Verif.Float.Add

/-!
# The hardware operations of the model are correctly rounded

`encode`, `fadd` and `fconv` describe the arithmetic of the machine.  Their results are
nearest elements of the format, within half a unit in the last place.
-/

namespace Verif.Fp
open Verif.Vprec (rnd rndPos denN rnd_nearest denN_err denN_of_ge)

/-- Position of the last bit kept by `encode`. -/
def encPos (F : Fmt) (n j : Nat) : Nat := j + (Nat.log2 n - (j + F.mw))

theorem rneShift_le (n c m : Nat) (h : n < 2 ^ (c + m + 1)) : rneShift n c ≤ 2 ^ (m + 1) := by
  have hb := (rneShift_bounds n c).2
  have : n / 2 ^ c < 2 ^ (m + 1) := by
    rw [Nat.div_lt_iff_lt_mul (by positivity), ← pow_add]
    rwa [show m + 1 + c = c + m + 1 by ring]
  omega

theorem mag_ofPat_enc (F : Fmt) (s : Bool) (k r : Nat) (h1 : k = 0 ∨ 2 ^ F.mw ≤ r) (h2 : r ≤ 2 ^ (F.mw + 1)) :
    (ofPat F s (k * 2 ^ F.mw + r)).mag F = r * 2 ^ k := by
  have hpos : 0 < 2 ^ F.mw := by positivity
  by_cases hr : r = 2 ^ (F.mw + 1)
  · subst hr
    have : k * 2 ^ F.mw + 2 ^ (F.mw + 1) = (k + 2) * 2 ^ F.mw + 0 := by rw [pow_succ]; ring
    rw [this, ofPat_mk _ _ _ _ hpos, mag_normal _ _ (by simp)]
    simp only [add_zero]
    rw [show k + 2 - 1 = 1 + k by omega, pow_add 2 1 k, ← mul_assoc, pow_succ]
    ring
  · by_cases hs : r < 2 ^ F.mw
    · have hk : k = 0 := by rcases h1 with h | h <;> omega
      subst hk
      rw [Nat.zero_mul, Nat.zero_add, mag_ofPat_small _ _ _ (by omega), pow_zero, mul_one]
    · have : k * 2 ^ F.mw + r = (k + 1) * 2 ^ F.mw + (r - 2 ^ F.mw) := by rw [Nat.add_mul]; omega
      rw [this, ofPat_mk _ _ _ _ (by rw [pow_succ] at h2 hr; omega), mag_normal _ _ (by simp)]
      simp only [Nat.add_sub_cancel]
      rw [Nat.add_sub_cancel' (by omega)]

/-- Largest finite magnitude, in units of the smallest subnormal. -/
def maxMag (F : Fmt) : Nat := (2 ^ (F.mw + 1) - 1) * 2 ^ (F.expInf - 2)

/-- Encoding of a magnitude up to the largest finite one. -/
theorem encode_spec (F : Fmt) (s : Bool) (n j M : Nat) (hn : n < 2 ^ (j + M))
    (hM : n ≤ maxMag F * 2 ^ j) (hexp : 3 ≤ F.expInf) :
    (encode F s n j).sign = s ∧ (encode F s n j).WF F ∧ (encode F s n j).exp < F.expInf ∧
    (encode F s n j).mag F * 2 ^ j = rneShift n (encPos F n j) * 2 ^ encPos F n j ∧
    encPos F n j ≤ j + (M - 1 - F.mw) := by
  have hpos : 0 < 2 ^ F.mw := by positivity
  have hinf2 : F.expInf < 2 ^ F.ew := by
    have : 0 < 2 ^ F.ew := by positivity
    unfold Fmt.expInf at *; omega
  obtain ⟨k, hk⟩ : ∃ k, k = Nat.log2 n - (j + F.mw) := ⟨_, rfl⟩
  have hlog : Nat.log2 n < j + M ∨ (n = 0) := by
    by_cases h0 : n = 0
    · exact Or.inr h0
    · exact Or.inl ((Nat.log2_lt h0).2 hn)
  have hkM : k ≤ M - 1 - F.mw := by
    rcases hlog with h | h
    · omega
    · rw [h] at hk; simp [Nat.log2] at hk; omega
  have hr2 : rneShift n (j + k) ≤ 2 ^ (F.mw + 1) := by
    apply rneShift_le
    calc n < 2 ^ (Nat.log2 n + 1) := Nat.lt_log2_self
      _ ≤ _ := Nat.pow_le_pow_right (by norm_num) (by omega)
  have hr1 : k = 0 ∨ 2 ^ F.mw ≤ rneShift n (j + k) := by
    by_cases h0 : k = 0
    · exact Or.inl h0
    · right
      refine le_trans ?_ (rneShift_bounds n (j + k)).1
      rw [Nat.le_div_iff_mul_le (by positivity), ← pow_add]
      have hn0 : n ≠ 0 := by rintro rfl; simp [Nat.log2] at hk; omega
      calc 2 ^ (F.mw + (j + k)) ≤ 2 ^ Nat.log2 n := Nat.pow_le_pow_right (by norm_num) (by omega)
        _ ≤ n := Nat.log2_self_le hn0
  have hke : k + 2 ≤ F.expInf := by
    by_cases h0 : n = 0
    · rw [h0] at hk; simp [Nat.log2] at hk; omega
    have : n < 2 ^ (F.mw + 1 + (F.expInf - 2) + j) := by
      rw [pow_add, pow_add]
      refine lt_of_le_of_lt hM ?_
      unfold maxMag
      apply Nat.mul_lt_mul_of_pos_right _ (by positivity)
      apply Nat.mul_lt_mul_of_pos_right _ (by positivity)
      have : 0 < 2 ^ (F.mw + 1) := by positivity
      omega
    have := (Nat.log2_lt h0).2 this
    omega
  have hp : k * 2 ^ F.mw + rneShift n (j + k) < F.expInf * 2 ^ F.mw := by
    by_cases hlt : k + 3 ≤ F.expInf
    · have : (k + 3) * 2 ^ F.mw ≤ F.expInf * 2 ^ F.mw := Nat.mul_le_mul_right _ hlt
      rw [pow_succ] at hr2
      nlinarith
    · have hkk : F.expInf = k + 2 := by omega
      have hr3 : rneShift n (j + k) < 2 ^ (F.mw + 1) := by
        have hn2 : n ≤ (2 ^ (F.mw + 1) - 1) * 2 ^ (j + k) := by
          refine le_trans hM (le_of_eq ?_)
          unfold maxMag
          rw [hkk, show k + 2 - 2 = k by omega, pow_add 2 j k]; ring
        by_cases heq : n = (2 ^ (F.mw + 1) - 1) * 2 ^ (j + k)
        · rw [heq, rneShift_mul]
          have : 0 < 2 ^ (F.mw + 1) := by positivity
          omega
        · have : n / 2 ^ (j + k) < 2 ^ (F.mw + 1) - 1 := by
            rw [Nat.div_lt_iff_lt_mul (by positivity)]; omega
          have := (rneShift_bounds n (j + k)).2
          omega
      rw [hkk, Nat.add_mul]
      rw [pow_succ] at hr3
      omega
  have he : encode F s n j = ofPat F s (k * 2 ^ F.mw + rneShift n (j + k)) := by
    unfold encode
    simp only [← hk]
    rw [if_pos hp]
  have hexp' : (encode F s n j).exp < F.expInf := by
    rw [he]
    show _ / _ < _
    rw [Nat.div_lt_iff_lt_mul hpos]; exact hp
  refine ⟨by rw [he]; rfl, ⟨by omega, ?_⟩, hexp', ?_, ?_⟩
  · rw [he]; exact Nat.mod_lt _ hpos
  · rw [he, mag_ofPat_enc F s k _ hr1 hr2]
    unfold encPos
    rw [← hk, pow_add]; ring
  · unfold encPos; rw [← hk]; omega

theorem rneShift_dist (n c : Nat) : 2 * |(n : ℤ) - rneShift n c * 2 ^ c| ≤ 2 ^ c := by
  obtain ⟨h1, h2⟩ := rneShift_err n c
  rcases abs_cases ((n : ℤ) - rneShift n c * 2 ^ c) with ⟨h, _⟩ | ⟨h, _⟩ <;> rw [h] <;> linarith

/-- The encoded magnitude is closest among all magnitudes of the format. -/
theorem encode_nearest (F : Fmt) (s : Bool) (n j M : Nat) (hn : n < 2 ^ (j + M))
    (hM : n ≤ maxMag F * 2 ^ j) (hexp : 3 ≤ F.expInf) (m : ℤ) (e : ℕ) (hm : |m| < 2 ^ (F.mw + 1)) :
    |(n : ℤ) - (encode F s n j).mag F * 2 ^ j| ≤ |(n : ℤ) - m * 2 ^ e * 2 ^ j| := by
  obtain ⟨-, -, -, h4, -⟩ := encode_spec F s n j M hn hM hexp
  have h4' : ((encode F s n j).mag F : ℤ) * 2 ^ j = rneShift n (encPos F n j) * 2 ^ encPos F n j := by
    exact_mod_cast h4
  rw [h4']
  by_cases h0 : n = 0
  · subst h0
    have : rneShift 0 (encPos F 0 j) = 0 := by simpa using Verif.Fp.rneShift_mul 0 (encPos F 0 j)
    rw [this]
    simp
  have hpos : rndPos F.mw j n = encPos F n j := by unfold rndPos encPos; omega
  have hr := (rnd_nearest F.mw j n h0 m (e + j) hm (by omega)).1
  rw [pow_add, ← mul_assoc] at hr
  refine le_trans ?_ hr
  unfold rnd
  rw [hpos]
  unfold denN
  split_ifs with h2
  · have : rneShift n (encPos F n j) = 0 := Verif.Vprec.rneShift_small _ _ (by omega)
    rw [this]
    have h2' : (2 : ℤ) * n = 2 ^ encPos F n j := by exact_mod_cast h2
    push_cast
    rw [← h2']
    simp only [zero_mul, sub_zero, one_mul]
    rw [show (n : ℤ) - 2 * n = -n by ring, abs_neg]
  · push_cast; exact le_rfl

theorem mag_mul (F : Fmt) (x : Bits) : x.mag F = x.sig F * 2 ^ (x.exp - 1) := rfl

/-- The signed magnitude of a number as `m * 2^e`. -/
theorem imag_mul (F : Fmt) (x : Bits) (hx : x.WF F) :
    ∃ (m : ℤ) (e : ℕ), x.imag F = m * 2 ^ e ∧ |m| < 2 ^ (F.mw + 1) := by
  have h := sig_lt F x hx
  have h' : (x.sig F : ℤ) < 2 ^ (F.mw + 1) := by exact_mod_cast h
  refine ⟨if x.sign then -(x.sig F : ℤ) else x.sig F, x.exp - 1, ?_, ?_⟩
  · unfold Bits.imag
    rw [mag_mul]
    split_ifs <;> push_cast <;> ring
  · split_ifs
    · rw [abs_neg, abs_of_nonneg (by positivity)]; exact h'
    · rw [abs_of_nonneg (by positivity)]; exact h'

theorem imag_neg_mul (F : Fmt) (x : Bits) (hx : x.WF F) (b : Bool) :
    ∃ (m : ℤ) (e : ℕ), (if b then -x.imag F else x.imag F) = m * 2 ^ e ∧ |m| < 2 ^ (F.mw + 1) := by
  obtain ⟨m, e, h, hm⟩ := imag_mul F x hx
  cases b
  · exact ⟨m, e, by simpa using h, hm⟩
  · exact ⟨-m, e, by simp [h], by rwa [abs_neg]⟩

/-- The value encoded, as a signed integer in units `2^-j` of the smallest subnormal. -/
theorem imag_of_sign (F : Fmt) (x : Bits) (s : Bool) (h : x.sign = s) :
    x.imag F = if s then -(x.mag F : ℤ) else x.mag F := by
  unfold Bits.imag; rw [h]

/-- Rounding of a signed integer `v` (in units `2^-j` of the smallest subnormal). -/
theorem encode_signed (F : Fmt) (hexp : 3 ≤ F.expInf) (v : ℤ) (s : Bool) (hs : v = if s then -(v.natAbs : ℤ) else v.natAbs)
    (j M : Nat) (hv : v.natAbs < 2 ^ (j + M)) (hM : v.natAbs ≤ maxMag F * 2 ^ j) :
    (encode F s v.natAbs j).WF F ∧ (encode F s v.natAbs j).Fin F ∧
    2 * |v - (encode F s v.natAbs j).imag F * 2 ^ j| ≤ 2 ^ (j + (M - 1 - F.mw)) ∧
    (encPos F v.natAbs j = 0 → (encode F s v.natAbs j).imag F * 2 ^ j = v) ∧
    ∀ y : Bits, y.WF F → |v - (encode F s v.natAbs j).imag F * 2 ^ j| ≤ |v - y.imag F * 2 ^ j| := by
  obtain ⟨h1, h2, h3, h4, h5⟩ := encode_spec F s v.natAbs j M hv hM hexp
  have hnear := encode_nearest F s v.natAbs j M hv hM hexp
  have h4' : ((encode F s v.natAbs j).mag F : ℤ) * 2 ^ j =
      rneShift v.natAbs (encPos F v.natAbs j) * 2 ^ encPos F v.natAbs j := by exact_mod_cast h4
  have him := imag_of_sign F _ s h1
  have hd : ∀ z : ℤ, |v - z| = |(v.natAbs : ℤ) - (if s then -z else z)| := by
    intro z
    conv_lhs => rw [hs]
    cases s
    · simp
    · simp only [if_true]
      rw [← abs_neg]; congr 1; ring
  have hflip : (if s then -((encode F s v.natAbs j).imag F * 2 ^ j) else (encode F s v.natAbs j).imag F * 2 ^ j) =
      ((encode F s v.natAbs j).mag F : ℤ) * 2 ^ j := by
    rw [him]; cases s <;> simp
  refine ⟨h2, by unfold Bits.Fin; omega, ?_, ?_, ?_⟩
  · rw [hd, hflip, h4']
    refine le_trans (rneShift_dist _ _) ?_
    exact pow_le_pow_right₀ (by norm_num) h5
  · intro h0
    rw [h0, rneShift_zero] at h4'
    rw [pow_zero, mul_one] at h4'
    rw [him]
    cases s
    · simp only [Bool.false_eq_true, if_false] at hs ⊢
      omega
    · simp only [if_true] at hs ⊢
      rw [neg_mul]
      omega
  · intro y hy
    rw [hd, hflip, hd]
    obtain ⟨m, e, hme, hm⟩ := imag_neg_mul F y hy s
    have := hnear m e hm
    rw [← hme] at this
    refine le_trans this (le_of_eq ?_)
    congr 2
    cases s <;> simp

theorem val_imag_sub (F : Fmt) (z : ℤ) (x : Bits) :
    |(z : ℚ) * 2 ^ F.uexp - x.val F| = (|z - x.imag F| : ℤ) * 2 ^ F.uexp := by
  have hu : (0 : ℚ) < 2 ^ F.uexp := zpow_pos (by norm_num) _
  rw [val_eq_imag, ← sub_mul, abs_mul, abs_of_pos hu]
  push_cast
  rfl

/-- Largest finite value of the format. -/
def maxVal (F : Fmt) : ℚ := (2 ^ (F.mw + 1) - 1) * 2 ^ ((F.bias : ℤ) - F.mw)

theorem expInf_bias (F : Fmt) (hew : 2 ≤ F.ew) : F.expInf = 2 * F.bias + 1 := by
  unfold Fmt.expInf Fmt.bias
  have : 2 ^ F.ew = 2 * 2 ^ (F.ew - 1) := by rw [← pow_succ']; congr 1; omega
  have : 0 < 2 ^ (F.ew - 1) := by positivity
  omega

theorem maxVal_eq (F : Fmt) (hew : 2 ≤ F.ew) : maxVal F = (maxMag F : ℕ) * 2 ^ F.uexp := by
  have hbias := expInf_bias F hew
  have hinf := expInf_ge F hew
  unfold maxVal maxMag
  rw [Nat.cast_mul, Nat.cast_pow 2 (F.expInf - 2), mul_assoc]
  congr 1
  · rw [Nat.cast_sub (Nat.one_le_two_pow)]; push_cast; rfl
  · rw [Nat.cast_ofNat, ← zpow_natCast, ← zpow_add₀ (by norm_num)]
    congr 1
    unfold Fmt.uexp
    omega

/-- Everything up to `2^bias` is below the largest finite value. -/
theorem le_maxVal (F : Fmt) : (2 : ℚ) ^ (F.bias : ℤ) ≤ maxVal F := by
  unfold maxVal
  have e : (2 : ℚ) ^ (F.bias : ℤ) = 2 ^ F.mw * 2 ^ ((F.bias : ℤ) - F.mw) := by
    rw [← zpow_natCast, ← zpow_add₀ (by norm_num)]; congr 1; ring
  rw [e]
  apply mul_le_mul_of_nonneg_right _ (zpow_pos (by norm_num) _).le
  have : (1 : ℚ) ≤ 2 ^ F.mw := one_le_pow₀ (by norm_num)
  rw [pow_succ]
  linarith

theorem lt_of_maxVal (F : Fmt) : maxVal F < (2 : ℚ) ^ ((F.bias : ℤ) + 1) := by
  unfold maxVal
  have e : (2 : ℚ) ^ ((F.bias : ℤ) + 1) = 2 ^ (F.mw + 1) * 2 ^ ((F.bias : ℤ) - F.mw) := by
    rw [← zpow_natCast, ← zpow_add₀ (by norm_num)]; congr 1; push_cast; ring
  rw [e]
  apply mul_lt_mul_of_pos_right _ (zpow_pos (by norm_num) _)
  linarith

/-- **Addition is correctly rounded.**  When the exact sum is at most the largest finite
value, the result is finite, is a nearest number of the format, and is within
`2^(E-mw-2)` of the sum for every `E` with `|sum| < 2^E`. -/
theorem fadd_round' (F : Fmt) (hew : 2 ≤ F.ew) (a b : Bits) (ha : a.Fin F) (hb : b.Fin F) (E : ℤ)
    (hE : |a.val F + b.val F| < 2 ^ E) (hmax : |a.val F + b.val F| ≤ maxVal F) :
    (fadd F a b).WF F ∧ (fadd F a b).Fin F ∧
    |(fadd F a b).val F - (a.val F + b.val F)| ≤ 2 ^ (E - F.mw - 2) ∧
    ∀ y : Bits, y.WF F → |(fadd F a b).val F - (a.val F + b.val F)| ≤ |y.val F - (a.val F + b.val F)| := by
  have hexp := expInf_ge F hew
  have hu : (0 : ℚ) < 2 ^ F.uexp := zpow_pos (by norm_num) _
  have hsum : a.val F + b.val F = ((a.imag F + b.imag F : ℤ) : ℚ) * 2 ^ F.uexp := by
    rw [val_eq_imag, val_eq_imag]; push_cast; ring
  have h1 : ¬ (a.isNaN F ∨ b.isNaN F) := by
    rintro (h | h)
    · exact ha h.1
    · exact hb h.1
  have h2 : ¬ a.isInf F := fun h => ha h.1
  have h3 : ¬ b.isInf F := fun h => hb h.1
  rw [hsum] at hE hmax ⊢
  have heq : fadd F a b = if a.imag F + b.imag F = 0 then zeroBits (a.sign && b.sign)
      else encode F (decide (a.imag F + b.imag F < 0)) (a.imag F + b.imag F).natAbs 0 := by
    unfold fadd
    rw [if_neg h1, if_neg h2, if_neg h3]
  generalize a.imag F + b.imag F = v at *
  rw [heq]
  by_cases hv : v = 0
  · rw [if_pos hv, hv]
    have hz : (zeroBits (a.sign && b.sign)).val F = 0 := by
      simp [Bits.val, Bits.sig, zeroBits]
    refine ⟨⟨by simp [zeroBits], by simp [zeroBits]⟩, ?_, ?_, ?_⟩
    · unfold Bits.Fin zeroBits; simp; omega
    · rw [hz]; simp; positivity
    · intro y _; rw [hz]; simp
  · rw [if_neg hv]
    have hE' : ((v.natAbs : ℕ) : ℚ) < 2 ^ (E - F.uexp) := by
      rw [abs_mul, abs_of_pos hu] at hE
      rw [zpow_sub₀ (by norm_num), lt_div_iff₀ hu]
      have : ((v.natAbs : ℕ) : ℚ) = |(v : ℚ)| := by
        rw [Nat.cast_natAbs]; push_cast; rfl
      rw [this]; exact hE
    have hM0 : 0 ≤ E - F.uexp := by
      by_contra hneg
      have h1' : (2 : ℚ) ^ (E - F.uexp) ≤ 2 ^ (0 : ℤ) := zpow_le_zpow_right₀ (by norm_num) (by omega)
      have h2' : (1 : ℚ) ≤ (v.natAbs : ℕ) := by
        have : 1 ≤ v.natAbs := by omega
        exact_mod_cast this
      rw [zpow_zero] at h1'
      linarith
    obtain ⟨M, hM⟩ : ∃ M : ℕ, (M : ℤ) = E - F.uexp := ⟨_, Int.toNat_of_nonneg hM0⟩
    rw [← hM, zpow_natCast] at hE'
    have hE2 : v.natAbs < 2 ^ (0 + M) := by rw [zero_add]; exact_mod_cast hE'
    have hMlt : v.natAbs ≤ maxMag F * 2 ^ 0 := by
      rw [maxVal_eq F hew, abs_mul, abs_of_pos hu] at hmax
      have := le_of_mul_le_mul_right hmax hu
      have hc : ((v.natAbs : ℕ) : ℚ) = |(v : ℚ)| := by
        rw [Nat.cast_natAbs]; push_cast; rfl
      rw [← hc] at this
      rw [pow_zero, mul_one]
      exact_mod_cast this
    have hs : v = if decide (v < 0) then -(v.natAbs : ℤ) else v.natAbs := by
      by_cases h : v < 0
      · simp only [h, decide_true, if_true]; omega
      · simp only [h, decide_false, Bool.false_eq_true, if_false]; omega
    obtain ⟨c1, c2, c3, c4, c5⟩ := encode_signed F hexp v (decide (v < 0)) hs 0 M hE2 hMlt
    refine ⟨c1, c2, ?_, ?_⟩
    · rw [abs_sub_comm, val_imag_sub]
      by_cases hk : M ≤ F.mw + 1
      · have hp0 : encPos F v.natAbs 0 = 0 := by
          have := (encode_spec F (decide (v < 0)) v.natAbs 0 M hE2 hMlt hexp).2.2.2.2
          omega
        have := c4 hp0
        rw [pow_zero, mul_one] at this
        rw [this]; simp; positivity
      · have : (2 : ℚ) ^ (E - F.mw - 2) = 2 ^ (M - 1 - F.mw : ℕ) / 2 * 2 ^ F.uexp := by
          rw [← zpow_natCast, div_eq_mul_inv, ← zpow_sub_one₀ (by norm_num), ← zpow_add₀ (by norm_num)]
          congr 1
          omega
        rw [this]
        apply mul_le_mul_of_nonneg_right _ hu.le
        rw [zero_add, pow_zero, mul_one] at c3
        rw [le_div_iff₀ (by norm_num), mul_comm]
        exact_mod_cast c3
    · intro y hy
      have := c5 y hy
      rw [pow_zero, mul_one, mul_one] at this
      rw [abs_sub_comm, val_imag_sub, abs_sub_comm (y.val F), val_imag_sub]
      apply mul_le_mul_of_nonneg_right _ hu.le
      exact_mod_cast this

theorem fadd_round (F : Fmt) (hew : 2 ≤ F.ew) (a b : Bits) (ha : a.Fin F) (hb : b.Fin F) (E : ℤ)
    (hE : |a.val F + b.val F| < 2 ^ E) (hEb : E ≤ F.bias) :
    (fadd F a b).WF F ∧ (fadd F a b).Fin F ∧
    |(fadd F a b).val F - (a.val F + b.val F)| ≤ 2 ^ (E - F.mw - 2) ∧
    ∀ y : Bits, y.WF F → |(fadd F a b).val F - (a.val F + b.val F)| ≤ |y.val F - (a.val F + b.val F)| := by
  apply fadd_round' F hew a b ha hb E hE
  refine le_trans hE.le (le_trans ?_ (le_maxVal F))
  exact zpow_le_zpow_right₀ (by norm_num) hEb

/-- **Conversion is correctly rounded.** -/
theorem fconv_round (F G : Fmt) (hewG : 2 ≤ G.ew) (x : Bits) (hf : x.Fin F)
    (hmax : |x.val F| ≤ maxVal G) :
    (fconv F G x).WF G ∧ (fconv F G x).Fin G ∧ (fconv F G x).sign = x.sign ∧
    ∀ y : Bits, y.WF G → |(fconv F G x).val G - x.val F| ≤ |y.val G - x.val F| := by
  have hexp := expInf_ge G hewG
  have h1 : ¬ x.isNaN F := fun h => hf h.1
  have h2 : ¬ x.isInf F := fun h => hf h.1
  have hu : (0 : ℚ) < 2 ^ F.uexp := zpow_pos (by norm_num) _
  obtain ⟨up, hup⟩ : ∃ up, up = (F.uexp - G.uexp).toNat := ⟨_, rfl⟩
  obtain ⟨j, hj⟩ : ∃ j, j = (-(F.uexp - G.uexp)).toNat := ⟨_, rfl⟩
  have heq : fconv F G x = encode G x.sign (x.mag F * 2 ^ up) j := by
    unfold fconv; rw [if_neg h1, if_neg h2, hup, hj]
  have hscale : (2 : ℚ) ^ F.uexp = 2 ^ up * 2 ^ (G.uexp - j) := by
    rw [← zpow_natCast, ← zpow_add₀ (by norm_num)]; congr 1; omega
  have huj : (0 : ℚ) < 2 ^ (G.uexp - j) := zpow_pos (by norm_num) _
  obtain ⟨v, hv⟩ : ∃ v : ℤ, v = if x.sign then -((x.mag F * 2 ^ up : ℕ) : ℤ) else ((x.mag F * 2 ^ up : ℕ) : ℤ) := ⟨_, rfl⟩
  have hvn : v.natAbs = x.mag F * 2 ^ up := by
    rw [hv]
    cases x.sign
    · simp only [Bool.false_eq_true, if_false]; exact Int.natAbs_natCast _
    · simp only [if_true]; rw [Int.natAbs_neg]; exact Int.natAbs_natCast _
  have hxv : x.val F = (v : ℚ) * 2 ^ (G.uexp - j) := by
    rw [val_eq_mag, hscale, hv]
    cases x.sign <;> simp [sgn] <;> ring
  rw [← hvn] at heq
  have hMlt : v.natAbs ≤ maxMag G * 2 ^ j := by
    have e : (2 : ℚ) ^ G.uexp = 2 ^ j * 2 ^ (G.uexp - j) := by
      rw [← zpow_natCast, ← zpow_add₀ (by norm_num)]; congr 1; omega
    rw [maxVal_eq G hewG, hxv, abs_mul, abs_of_pos huj, e, ← mul_assoc] at hmax
    have := le_of_mul_le_mul_right hmax huj
    have hc : ((v.natAbs : ℕ) : ℚ) = |(v : ℚ)| := by
      rw [Nat.cast_natAbs]; push_cast; rfl
    rw [← hc] at this
    exact_mod_cast this
  obtain ⟨M, hlt⟩ : ∃ M, v.natAbs < 2 ^ (j + M) :=
    ⟨v.natAbs, lt_of_lt_of_le Nat.lt_two_pow_self (Nat.pow_le_pow_right (by norm_num) (by omega))⟩
  have hs : v = if x.sign then -(v.natAbs : ℤ) else v.natAbs := by
    rw [hvn]; exact hv
  obtain ⟨c1, c2, c3, c4, c5⟩ := encode_signed G hexp v x.sign hs j M hlt hMlt
  have c6 := (encode_spec G x.sign v.natAbs j M hlt hMlt hexp).1
  rw [← heq] at c1 c2 c5 c6
  refine ⟨c1, c2, c6, ?_⟩
  intro y hy
  have key : ∀ z : Bits, |z.val G - x.val F| = (|v - z.imag G * 2 ^ j| : ℤ) * 2 ^ (G.uexp - j) := by
    intro z
    rw [val_eq_imag, hxv, abs_sub_comm]
    have e : (2 : ℚ) ^ G.uexp = 2 ^ j * 2 ^ (G.uexp - j) := by
      rw [← zpow_natCast, ← zpow_add₀ (by norm_num)]; congr 1; omega
    rw [e, ← mul_assoc, ← sub_mul, abs_mul, abs_of_pos huj]
    push_cast
    rfl
  rw [key, key]
  apply mul_le_mul_of_nonneg_right _ huj.le
  exact_mod_cast c5 y hy

end Verif.Fp
