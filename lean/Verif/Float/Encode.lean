import Verif.Float.Lemmas

/-! Encoding of exactly representable magnitudes, and exact conversions. -/

namespace Verif.Fp

theorem expInf_ge (F : Fmt) (h : 2 ≤ F.ew) : 3 ≤ F.expInf := by
  unfold Fmt.expInf
  have : 2 ^ 2 ≤ 2 ^ F.ew := Nat.pow_le_pow_right (by norm_num) h
  omega

theorem log2_mag_normal (F : Fmt) (x : Bits) (hm : x.man < 2 ^ F.mw) (hE : 1 ≤ x.exp) :
    Nat.log2 (x.mag F) = F.mw + (x.exp - 1) := by
  rw [mag_normal F x (by omega), log2_mul_pow _ _ (by positivity),
    log2_of_range _ F.mw (by omega) (by rw [pow_succ]; omega)]

theorem mag_subnormal (F : Fmt) (x : Bits) (h : x.exp = 0) : x.mag F = x.man := by
  unfold Bits.mag Bits.sig; simp [h]

theorem mag_eq_zero (F : Fmt) (x : Bits) : x.mag F = 0 ↔ x.isZero := by
  unfold Bits.isZero
  by_cases h : x.exp = 0
  · rw [mag_subnormal F x h]; tauto
  · rw [mag_normal F x h]
    constructor
    · intro h'; have : 0 < (2 ^ F.mw + x.man) * 2 ^ (x.exp - 1) := by positivity
      omega
    · tauto

theorem mag_ofPat_small (F : Fmt) (s : Bool) (n : Nat) (h : n < 2 ^ (F.mw + 1)) :
    (ofPat F s n).mag F = n := by
  have hpos : 0 < 2 ^ F.mw := by positivity
  rw [pow_succ] at h
  by_cases h1 : n < 2 ^ F.mw
  · unfold ofPat Bits.mag Bits.sig
    simp [Nat.div_eq_of_lt h1, Nat.mod_eq_of_lt h1]
  · have : ofPat F s n = ⟨s, 1, n - 2 ^ F.mw⟩ := by
      rw [← ofPat_mk F s 1 (n - 2 ^ F.mw) (by omega)]; congr 1; omega
    rw [this, mag_normal _ _ (by simp)]
    simp; omega

/-- `encode` of a magnitude that is representable is exact. -/
theorem encode_repr (F : Fmt) (hew : 2 ≤ F.ew) (s : Bool) (M c : Nat) (hM0 : M ≠ 0)
    (hM : M < 2 ^ (F.mw + 1)) (hfit : M * 2 ^ c < 2 ^ (F.mw + 1) * 2 ^ (F.expInf - 2)) :
    (encode F s (M * 2 ^ c) 0).sign = s ∧ (encode F s (M * 2 ^ c) 0).WF F ∧
    (encode F s (M * 2 ^ c) 0).exp < F.expInf ∧ (encode F s (M * 2 ^ c) 0).mag F = M * 2 ^ c := by
  have hinf := expInf_ge F hew
  have hinf2 : F.expInf < 2 ^ F.ew := by
    have : 0 < 2 ^ F.ew := by positivity
    unfold Fmt.expInf; omega
  have hpos : 0 < 2 ^ F.mw := by positivity
  have hlM : Nat.log2 M ≤ F.mw := by
    have := (Nat.log2_lt hM0).2 hM; omega
  have hL : Nat.log2 (M * 2 ^ c) = Nat.log2 M + c := log2_mul_pow M c hM0
  have hn0 : M * 2 ^ c ≠ 0 := by positivity
  by_cases hsm : Nat.log2 M + c ≤ F.mw
  · have hn : M * 2 ^ c < 2 ^ (F.mw + 1) := by
      rw [← Nat.log2_lt hn0, hL]; omega
    have he : encode F s (M * 2 ^ c) 0 = ofPat F s (M * 2 ^ c) := by
      unfold encode
      simp only [hL, Nat.zero_add]
      rw [show Nat.log2 M + c - F.mw = 0 by omega, rneShift_zero, Nat.zero_mul, Nat.zero_add, if_pos]
      have : 3 * 2 ^ F.mw ≤ F.expInf * 2 ^ F.mw := Nat.mul_le_mul_right _ hinf
      rw [pow_succ] at hn; omega
    rw [he]
    refine ⟨rfl, ?_, ?_, mag_ofPat_small F s _ hn⟩
    · constructor
      · show M * 2 ^ c / 2 ^ F.mw < _
        have : M * 2 ^ c / 2 ^ F.mw < 2 := by
          rw [Nat.div_lt_iff_lt_mul hpos]; rw [pow_succ] at hn; omega
        omega
      · exact Nat.mod_lt _ hpos
    · show M * 2 ^ c / 2 ^ F.mw < _
      have : M * 2 ^ c / 2 ^ F.mw < 2 := by
        rw [Nat.div_lt_iff_lt_mul hpos]; rw [pow_succ] at hn; omega
      omega
  · obtain ⟨k, hk⟩ : ∃ k, Nat.log2 M + c = F.mw + k := ⟨_, (Nat.add_sub_cancel' (by omega)).symm⟩
    obtain ⟨d, hd⟩ : ∃ d, c = k + d := ⟨c - k, by omega⟩
    have hA : M * 2 ^ c = (M * 2 ^ d) * 2 ^ k := by rw [hd, pow_add]; ring
    have hlA : Nat.log2 (M * 2 ^ d) = F.mw := by rw [log2_mul_pow M d hM0]; omega
    have hA0 : M * 2 ^ d ≠ 0 := by positivity
    have hA1 : 2 ^ F.mw ≤ M * 2 ^ d := by rw [← hlA]; exact Nat.log2_self_le hA0
    have hA2 : M * 2 ^ d < 2 ^ (F.mw + 1) := by
      have := Nat.lt_log2_self (n := M * 2 ^ d); rwa [hlA] at this
    have hkle : k + 1 < F.expInf := by
      rw [← pow_add] at hfit
      have := (Nat.log2_lt hn0).2 hfit
      omega
    have he : encode F s (M * 2 ^ c) 0 = ⟨s, k + 1, M * 2 ^ d - 2 ^ F.mw⟩ := by
      rw [hA, encode_exact F s _ k hA1 hA2]
      have e1 : k * 2 ^ F.mw + M * 2 ^ d = (k + 1) * 2 ^ F.mw + (M * 2 ^ d - 2 ^ F.mw) := by
        rw [Nat.add_mul]; omega
      rw [e1, if_pos, ofPat_mk]
      · rw [pow_succ] at hA2; omega
      · have : (k + 1 + 1) * 2 ^ F.mw ≤ F.expInf * 2 ^ F.mw := Nat.mul_le_mul_right _ (by omega)
        rw [Nat.add_mul (k + 1)] at this
        rw [pow_succ] at hA2; omega
    rw [he]
    refine ⟨rfl, ⟨?_, ?_⟩, hkle, ?_⟩
    · show k + 1 < _; omega
    · show M * 2 ^ d - 2 ^ F.mw < _; rw [pow_succ] at hA2; omega
    · rw [mag_normal F _ (by simp)]
      simp only [Nat.add_sub_cancel]
      rw [Nat.add_sub_cancel' hA1, ← hA]

theorem encode_zero (F : Fmt) (hew : 2 ≤ F.ew) (s : Bool) (j : Nat) : encode F s 0 j = zeroBits s := by
  have hinf := expInf_ge F hew
  unfold encode
  have h0 : rneShift 0 (j + 0) = 0 := by simpa using rneShift_mul 0 (j + 0)
  have hl : Nat.log2 0 = 0 := by simp [Nat.log2]
  simp only [hl, Nat.zero_sub, h0, Nat.zero_mul, Nat.zero_add]
  rw [if_pos]
  · unfold ofPat zeroBits; simp
  · positivity

theorem encode_shift (F : Fmt) (s : Bool) (n j : Nat) (hn : n ≠ 0) :
    encode F s (n * 2 ^ j) j = encode F s n 0 := by
  unfold encode
  rw [log2_mul_pow n j hn]
  simp only [Nat.zero_add]
  rw [show Nat.log2 n + j - (j + F.mw) = Nat.log2 n - F.mw by omega, rneShift_mul_add]

/-- A finite number is the encoding of its magnitude. -/
theorem encode_mag (F : Fmt) (hew : 2 ≤ F.ew) (x : Bits) (hx : x.WF F) (hfin : x.exp < F.expInf) :
    encode F x.sign (x.mag F) 0 = x := by
  have hinf := expInf_ge F hew
  obtain ⟨_, hm⟩ := hx
  by_cases h : x.exp = 0
  · rw [mag_subnormal F x h]
    have hl : Nat.log2 x.man - F.mw = 0 := by
      by_cases h0 : x.man = 0
      · rw [h0]; simp [Nat.log2]
      · have := (Nat.log2_lt h0).2 hm; omega
    unfold encode
    simp only [Nat.zero_add, hl, rneShift_zero, Nat.zero_mul]
    rw [if_pos]
    · unfold ofPat
      rw [Nat.div_eq_of_lt hm, Nat.mod_eq_of_lt hm, ← h]
    · have : 1 * 2 ^ F.mw ≤ F.expInf * 2 ^ F.mw := Nat.mul_le_mul_right _ (by omega)
      omega
  · rw [mag_normal F x h, encode_exact F _ _ _ (by omega) (by rw [pow_succ]; omega)]
    have e1 : (x.exp - 1) * 2 ^ F.mw + (2 ^ F.mw + x.man) = x.exp * 2 ^ F.mw + x.man := by
      obtain ⟨e, he⟩ : ∃ e, x.exp = e + 1 := ⟨x.exp - 1, by omega⟩
      rw [he]; simp only [Nat.add_sub_cancel]; ring
    rw [e1, if_pos, ofPat_mk F _ _ _ hm]
    have : (x.exp + 1) * 2 ^ F.mw ≤ F.expInf * 2 ^ F.mw := Nat.mul_le_mul_right _ (by omega)
    rw [Nat.add_mul] at this; omega

/-- Numbers of a format are determined by sign and magnitude. -/
theorem mag_inj (F : Fmt) (hew : 2 ≤ F.ew) (x y : Bits) (hx : x.WF F) (hy : y.WF F)
    (hfx : x.exp < F.expInf) (hfy : y.exp < F.expInf) (hs : x.sign = y.sign)
    (hm : x.mag F = y.mag F) : x = y := by
  rw [← encode_mag F hew x hx hfx, ← encode_mag F hew y hy hfy, hs, hm]

/-- The significand of a finite number is below `2^(mw+1)`. -/
theorem sig_lt (F : Fmt) (x : Bits) (hx : x.WF F) : x.sig F < 2 ^ (F.mw + 1) := by
  obtain ⟨_, hm⟩ := hx
  unfold Bits.sig; rw [pow_succ]; split_ifs <;> omega

theorem mag_lt (F : Fmt) (hew : 2 ≤ F.ew) (x : Bits) (hx : x.WF F) (hfin : x.exp < F.expInf) :
    x.mag F < 2 ^ (F.mw + 1) * 2 ^ (F.expInf - 2) := by
  have hinf := expInf_ge F hew
  unfold Bits.mag
  calc x.sig F * 2 ^ (x.exp - 1) < 2 ^ (F.mw + 1) * 2 ^ (x.exp - 1) :=
        Nat.mul_lt_mul_of_pos_right (sig_lt F x hx) (by positivity)
    _ ≤ _ := Nat.mul_le_mul_left _ (Nat.pow_le_pow_right (by norm_num) (by omega))

/-- Widening conversions are exact. -/
theorem fconv_widen (F G : Fmt) (hewF : 2 ≤ F.ew) (hewG : 2 ≤ G.ew) (x : Bits) (D : Nat)
    (hD : F.uexp - G.uexp = D) (hmw : F.mw ≤ G.mw)
    (hrange : F.mw + 1 + (F.expInf - 2) + D ≤ G.mw + 1 + (G.expInf - 2))
    (hx : x.WF F) (hfin : x.exp < F.expInf) (hne : x.mag F ≠ 0) :
    (fconv F G x).sign = x.sign ∧ (fconv F G x).WF G ∧ (fconv F G x).exp < G.expInf ∧
    (fconv F G x).mag G = x.mag F * 2 ^ D := by
  have h1 : ¬ x.isNaN F := by unfold Bits.isNaN; omega
  have h2 : ¬ x.isInf F := by unfold Bits.isInf; omega
  have he : fconv F G x = encode G x.sign (x.mag F * 2 ^ D) 0 := by
    unfold fconv
    rw [if_neg h1, if_neg h2]
    simp only [hD]
    congr 1 <;> simp
  rw [he]
  have hmul : x.mag F * 2 ^ D = x.sig F * 2 ^ (x.exp - 1 + D) := by
    unfold Bits.mag; rw [pow_add]; ring
  rw [hmul]
  have hs0 : x.sig F ≠ 0 := by
    intro h; apply hne; unfold Bits.mag; rw [h, Nat.zero_mul]
  apply encode_repr G hewG x.sign _ _ hs0
  · exact lt_of_lt_of_le (sig_lt F x hx) (Nat.pow_le_pow_right (by norm_num) (by omega))
  · rw [← hmul, ← pow_add]
    calc x.mag F * 2 ^ D < 2 ^ (F.mw + 1) * 2 ^ (F.expInf - 2) * 2 ^ D :=
          Nat.mul_lt_mul_of_pos_right (mag_lt F hewF x hx hfin) (by positivity)
      _ = 2 ^ (F.mw + 1 + (F.expInf - 2) + D) := by rw [pow_add _ (F.mw + 1 + _) D, pow_add _ (F.mw + 1)]
      _ ≤ _ := Nat.pow_le_pow_right (by norm_num) hrange

/-- Narrowing conversion of a number whose magnitude is a multiple of the unit of the
narrow format. -/
theorem fconv_narrow (F G : Fmt) (x : Bits) (D n : Nat)
    (hD : G.uexp - F.uexp = D) (hfin : x.exp < F.expInf) (hn : n ≠ 0)
    (hmag : x.mag F = n * 2 ^ D) :
    fconv F G x = encode G x.sign n 0 := by
  have h1 : ¬ x.isNaN F := by unfold Bits.isNaN; omega
  have h2 : ¬ x.isInf F := by unfold Bits.isInf; omega
  unfold fconv
  rw [if_neg h1, if_neg h2]
  have hd : F.uexp - G.uexp = -(D : ℤ) := by omega
  simp only [hd, hmag]
  have e1 : (-(D : ℤ)).toNat = 0 := by omega
  have e2 : (- -(D : ℤ)).toNat = D := by omega
  rw [e1, e2, pow_zero, mul_one, encode_shift G _ n D hn]

theorem fconv_zero (F G : Fmt) (hewF : 2 ≤ F.ew) (hewG : 2 ≤ G.ew) (s : Bool) :
    fconv F G (zeroBits s) = zeroBits s := by
  have hinf := expInf_ge F hewF
  have h1 : ¬ (zeroBits s).isNaN F := by unfold Bits.isNaN zeroBits; simp
  have h2 : ¬ (zeroBits s).isInf F := by unfold Bits.isInf zeroBits; simp; omega
  unfold fconv
  rw [if_neg h1, if_neg h2]
  have hm : (zeroBits s).mag F = 0 := by unfold zeroBits; rw [mag_subnormal _ _ rfl]
  simp only [hm, Nat.zero_mul]
  exact encode_zero G hewG s _

end Verif.Fp
