import Verif.Vprec.Emulate
import Verif.Vprec.Props2
import Verif.Float.Near

/-!
# The operations of the hardware, in terms of exact results

Every IEEE-754 operation of a format gives the element of the format closest to its exact result, or
an infinity from half an ulp above the largest element on.
-/

namespace Verif.Vprec
open Verif Verif.Fp

/-- From here on a number is rounded to infinity in the format with `p` explicit bits and largest
exponent `emax`. -/
def overflowFrom (p : ℕ) (emax : ℤ) : ℚ := (2 ^ (p + 2) - 1) * 2 ^ (emax - p - 1)

/-- `y` is the exact result `x` rounded to the format `F`. -/
structure Host (F : Fmt) (x : ℚ) (y : Bits) : Prop where
  wf : y.WF F
  near : y.exp < F.expInf → ∀ w : Bits, w.WF F → |y.val F - x| ≤ |w.val F - x|
  inf : ¬ y.exp < F.expInf → y = infBits F y.sign ∧ overflowFrom F.mw F.bias ≤ |x|
  sign : x ≠ 0 → y.sign = decide (x < 0)

theorem expInf_lt (F : Fmt) : F.expInf < 2 ^ F.ew := by
  have : 0 < 2 ^ F.ew := by positivity
  unfold Fmt.expInf; omega

theorem sgn_decide (s : Bool) (v : ℚ) (hv : 0 < v) : decide (sgn s * v < 0) = s := by
  cases s <;> simp only [sgn, Bool.false_eq_true, if_false, if_true, decide_eq_false_iff_not,
    decide_eq_true_eq] <;> linarith

/-- The rounding of a quotient of natural numbers. -/
theorem host_encodeQ (F : Fmt) (hew : 2 ≤ F.ew) (s : Bool) (n d : Nat) (hd : 0 < d) :
    Host F (sgn s * ((n : ℚ) / d) * 2 ^ F.uexp) (encodeQ F s n d) := by
  have hinf := expInf_ge F hew
  have hbias := expInf_bias F hew
  have hu : (0 : ℚ) < 2 ^ F.uexp := zpow_pos (by norm_num) _
  have hdq : (0 : ℚ) < d := by exact_mod_cast hd
  have hsign : (encodeQ F s n d).sign = s := by
    unfold encodeQ infBits ofPat
    simp only
    split <;> rfl
  obtain ⟨k, hk⟩ : ∃ k, k = Nat.log2 (n / d) - F.mw := ⟨_, rfl⟩
  obtain ⟨r, hr⟩ : ∃ r, r = rneDiv n (d * 2 ^ k) := ⟨_, rfl⟩
  have hQ : encodeQ F s n d = if k * 2 ^ F.mw + r < F.expInf * 2 ^ F.mw then
      ofPat F s (k * 2 ^ F.mw + r) else infBits F s := by
    unfold encodeQ
    simp only [← hk, ← hr]
  have hpos : 0 < 2 ^ F.mw := by positivity
  refine ⟨?_, ?_, ?_, ?_⟩
  · rw [hQ]
    split_ifs with h
    · refine ⟨lt_trans ?_ (expInf_lt F), Nat.mod_lt _ hpos⟩
      exact (Nat.div_lt_iff_lt_mul hpos).mpr h
    · exact ⟨expInf_lt F, hpos⟩
  · intro hf w hw
    obtain ⟨m, e, hm1, hm2⟩ := imag_neg_mul F w hw s
    have hn := (encodeQ_nearest F s n d hd hf m e hm2).2
    rw [← hm1] at hn
    rw [val_eq_mag, hsign, val_eq_imag F w]
    have hn' : |(n : ℚ) - (encodeQ F s n d).mag F * d| ≤
        |(n : ℚ) - (((if s then -w.imag F else w.imag F) : ℤ) : ℚ) * d| := by exact_mod_cast hn
    have scale : ∀ v : ℚ, |sgn s * v * 2 ^ F.uexp - sgn s * ((n : ℚ) / d) * 2 ^ F.uexp| =
        |(n : ℚ) - v * d| * (2 ^ F.uexp / d) := by
      intro v
      have e1 : sgn s * v * 2 ^ F.uexp - sgn s * ((n : ℚ) / d) * 2 ^ F.uexp =
          sgn s * (-((n : ℚ) - v * d) * (2 ^ F.uexp / d)) := by field_simp; ring
      rw [e1, abs_mul, abs_sgn, one_mul, abs_mul, abs_neg, abs_of_pos (div_pos hu hdq)]
    have e2 : (w.imag F : ℚ) = sgn s * (((if s then -w.imag F else w.imag F) : ℤ) : ℚ) := by
      cases s <;> simp [sgn]
    rw [e2, scale, scale]
    exact mul_le_mul_of_nonneg_right hn' (div_pos hu hdq).le
  · intro hf
    have hp : ¬ k * 2 ^ F.mw + r < F.expInf * 2 ^ F.mw := by
      intro hc
      apply hf
      rw [hQ, if_pos hc]
      exact (Nat.div_lt_iff_lt_mul hpos).mpr hc
    refine ⟨by rw [hQ, if_neg hp]; rfl, ?_⟩
    rw [abs_mul, abs_mul, abs_sgn, one_mul, abs_of_pos hu, abs_of_nonneg (by positivity)]
    -- bounds on `n / d`
    have hnk : n < d * 2 ^ (k + (F.mw + 1)) := by
      by_cases h0 : n / d = 0
      · have : n < d := by
          rcases Nat.div_eq_zero_iff.1 h0 with h' | h' <;> omega
        calc n < d := this
          _ = d * 1 := by ring
          _ ≤ _ := Nat.mul_le_mul_left _ (Nat.one_le_two_pow)
      · refine lt_of_lt_of_le (log2_quot hd h0).2 (Nat.mul_le_mul_left _ (Nat.pow_le_pow_right (by norm_num) (by omega)))
    have hnk2 : 0 < k → d * 2 ^ (k + F.mw) ≤ n := by
      intro hk0
      have h0 : n / d ≠ 0 := by
        intro h'
        rw [h'] at hk
        have : Nat.log2 0 = 0 := by simp [Nat.log2]
        omega
      have := (log2_quot hd h0).1
      rwa [show Nat.log2 (n / d) = k + F.mw by omega] at this
    have mono := fun m => rneDiv_mono n d (2 ^ k) m hd (by positivity)
    rw [← hr] at mono
    have r2 : r ≤ 2 ^ (F.mw + 1) := (mono _).1 (by
      rw [← pow_add, add_comm (F.mw + 1) k, mul_comm _ d]; exact hnk.le)
    have hP : 2 ^ (F.mw + 1) = 2 * 2 ^ F.mw := by ring
    -- the threshold, in units of the smallest element
    have thr : overflowFrom F.mw F.bias ≤ ((2 ^ (F.mw + 1) * 2 - 1 : ℕ) : ℚ) * 2 ^ (F.expInf - 2 : ℕ) / 2 * 2 ^ F.uexp := by
      unfold overflowFrom
      have e1 : (2 : ℚ) ^ ((F.bias : ℤ) - F.mw - 1) = 2 ^ (F.expInf - 2 : ℕ) / 2 * 2 ^ F.uexp := by
        have h1 := Spec.zp_add F.uexp (F.expInf - 2)
        have h2 := Spec.zp_half ((F.bias : ℤ) - F.mw)
        rw [show F.uexp + ((F.expInf - 2 : ℕ) : ℤ) = (F.bias : ℤ) - F.mw by unfold Fmt.uexp; omega] at h1
        linarith
      rw [e1]
      have h1 : 1 ≤ 2 ^ (F.mw + 1) * 2 := by
        have : 0 < 2 ^ (F.mw + 1) := by positivity
        omega
      rw [Nat.cast_sub h1]
      push_cast
      apply le_of_eq
      ring
    refine le_trans thr ?_
    apply mul_le_mul_of_nonneg_right _ hu.le
    rw [div_le_div_iff₀ (by norm_num) hdq]
    by_cases hk1 : F.expInf - 1 ≤ k
    · have h1 := hnk2 (by omega)
      have h2 : d * 2 ^ (F.expInf - 2 + 1 + F.mw) ≤ n :=
        le_trans (Nat.mul_le_mul_left _ (Nat.pow_le_pow_right (by norm_num) (by omega))) h1
      have h3 : (2 ^ (F.mw + 1) * 2 - 1) * 2 ^ (F.expInf - 2) * d ≤ n * 2 := by
        calc (2 ^ (F.mw + 1) * 2 - 1) * 2 ^ (F.expInf - 2) * d
            ≤ (2 ^ (F.mw + 1) * 2) * 2 ^ (F.expInf - 2) * d :=
              Nat.mul_le_mul_right _ (Nat.mul_le_mul_right _ (Nat.sub_le _ _))
          _ = d * 2 ^ (F.expInf - 2 + 1 + F.mw) * 2 := by rw [pow_add, pow_add]; ring
          _ ≤ _ := Nat.mul_le_mul_right _ h2
      exact_mod_cast h3
    · have hk2 : k = F.expInf - 2 ∧ r = 2 ^ (F.mw + 1) := by
        have h1 : F.expInf * 2 ^ F.mw ≤ (k + 2) * 2 ^ F.mw := by
          rw [add_mul]; omega
        have h2 := Nat.le_of_mul_le_mul_right h1 hpos
        have h3 : k = F.expInf - 2 := by omega
        refine ⟨h3, ?_⟩
        obtain ⟨c, hc⟩ : ∃ c, F.expInf = c + 2 := ⟨F.expInf - 2, by omega⟩
        have h4 : k = c := by omega
        rw [hc, h4, add_mul] at hp
        omega
      have h1 := rneDiv_nearest n (d * 2 ^ k) (by positivity) (2 ^ (F.mw + 1) - 1)
      rw [← hr, hk2.2] at h1
      have h2 : (2 * (n : ℤ)) ≥ (2 ^ (F.mw + 1) * 2 - 1) * 2 ^ k * d := by
        by_contra hc
        rw [ge_iff_le, not_le] at hc
        have hdz : (0 : ℤ) < d * 2 ^ k := by positivity
        push_cast at h1
        have e1 : |(n : ℤ) - 2 ^ (F.mw + 1) * (d * 2 ^ k)| = 2 ^ (F.mw + 1) * (d * 2 ^ k) - n := by
          rw [abs_of_nonpos (by nlinarith)]; ring
        rw [e1] at h1
        rcases abs_cases ((n : ℤ) - (2 ^ (F.mw + 1) - 1) * (d * 2 ^ k)) with ⟨h5, h6⟩ | ⟨h5, h6⟩ <;>
          · rw [h5] at h1; nlinarith
      have hone : 1 ≤ 2 ^ (F.mw + 1) * 2 := by
        have : 0 < 2 ^ (F.mw + 1) := by positivity
        omega
      rw [← hk2.1, Nat.cast_sub hone]
      push_cast
      have : ((2 ^ (F.mw + 1) * 2 - 1) * 2 ^ k * d : ℚ) ≤ 2 * n := by exact_mod_cast h2
      linarith
  · intro hx
    rw [hsign]
    have hv : 0 < (n : ℚ) / d * 2 ^ F.uexp := by
      have hn : n ≠ 0 := by rintro rfl; apply hx; simp
      have : (0 : ℚ) < n := by exact_mod_cast Nat.pos_of_ne_zero hn
      positivity
    rw [mul_assoc]
    exact (sgn_decide s _ hv).symm

theorem imag_sgn (z : ℤ) : (z : ℚ) = sgn (decide (z < 0)) * z.natAbs := by
  rw [Nat.cast_natAbs]
  by_cases h : z < 0
  · simp only [h, decide_true, sgn, if_true]
    rw [abs_of_neg h]; push_cast; ring
  · simp only [h, decide_false, sgn, Bool.false_eq_true, if_false]
    rw [abs_of_nonneg (by omega)]; ring

theorem host_zero (F : Fmt) (hew : 2 ≤ F.ew) (s : Bool) : Host F 0 (zeroBits s) := by
  have hinf := expInf_ge F hew
  refine ⟨zero_wf F s, ?_, ?_, ?_⟩
  · intro _ w _
    rw [val_zero]
    simp
  · intro h
    exact absurd (show (zeroBits s).exp < F.expInf by unfold zeroBits; simp only; omega) h
  · intro h
    exact absurd rfl h

/-- Addition. -/
theorem host_fadd (F : Fmt) (hew : 2 ≤ F.ew) (a b : Bits) (fa : a.Fin F) (fb : b.Fin F) :
    Host F (a.val F + b.val F) (fadd F a b) := by
  rw [fadd_fin fa fb, val_eq_imag, val_eq_imag, ← add_mul]
  rw [← Int.cast_add]
  generalize a.imag F + b.imag F = z
  split_ifs with h
  · rw [h, Int.cast_zero, zero_mul]
    exact host_zero F hew _
  · rw [imag_sgn z]
    have := host_encodeQ F hew (decide (z < 0)) z.natAbs 1 (by norm_num)
    rw [Nat.cast_one, div_one, show (1 : ℕ) = 2 ^ 0 from rfl, encodeQ_pow] at this
    exact this

theorem fneg_fin {F : Fmt} {b : Bits} (h : b.Fin F) : (fneg b).Fin F := h

/-- Subtraction. -/
theorem host_fsub (F : Fmt) (hew : 2 ≤ F.ew) (a b : Bits) (fa : a.Fin F) (fb : b.Fin F) :
    Host F (a.val F - b.val F) (fadd F a (fneg b)) := by
  have := host_fadd F hew a (fneg b) fa (fneg_fin fb)
  rw [val_fneg, ← sub_eq_add_neg] at this
  exact this

theorem sgn_bne (s t : Bool) : sgn (s != t) = sgn s * sgn t := by
  cases s <;> cases t <;> simp [sgn]

/-- Multiplication. -/
theorem host_fmul (F : Fmt) (hew : 2 ≤ F.ew) (hu : F.uexp ≤ 0) (a b : Bits) (fa : a.Fin F) (fb : b.Fin F) :
    Host F (a.val F * b.val F) (fmul F a b) := by
  rw [fmul_fin fa fb, ← encodeQ_pow]
  obtain ⟨J, hJ⟩ : ∃ J : ℕ, F.uexp = -(J : ℤ) := ⟨(-F.uexp).toNat, by omega⟩
  have := host_encodeQ F hew (a.sign != b.sign) (a.mag F * b.mag F) (2 ^ (-F.uexp).toNat) (by positivity)
  have e : a.val F * b.val F = sgn (a.sign != b.sign) *
      (((a.mag F * b.mag F : ℕ) : ℚ) / ((2 ^ (-F.uexp).toNat : ℕ) : ℚ)) * 2 ^ F.uexp := by
    rw [val_eq_mag, val_eq_mag, sgn_bne, hJ, neg_neg, Int.toNat_natCast, zpow_neg, zpow_natCast]
    push_cast
    field_simp
  rw [e]
  exact this

/-- Division. -/
theorem host_fdiv (F : Fmt) (hew : 2 ≤ F.ew) (hu : F.uexp ≤ 0) (a b : Bits) (fa : a.Fin F) (fb : b.Fin F)
    (b0 : b.val F ≠ 0) : Host F (a.val F / b.val F) (fdiv F a b) := by
  have bz : ¬ b.isZero := fun h => b0 ((val_eq_zero F b).mpr ((mag_eq_zero F b).mpr h))
  have na : ¬ (a.isNaN F ∨ b.isNaN F) := by
    rintro (h | h)
    · exact (fin_not fa).1 h
    · exact (fin_not fb).1 h
  have e : fdiv F a b = encodeQ F (a.sign != b.sign) (a.mag F * 2 ^ (-F.uexp).toNat) (b.mag F) := by
    unfold fdiv
    rw [if_neg na, if_neg (fin_not fa).2, if_neg (fin_not fb).2, if_neg bz]
  have hB : 0 < b.mag F := Nat.pos_of_ne_zero fun hc => bz ((mag_eq_zero F b).1 hc)
  have hBq : (b.mag F : ℚ) ≠ 0 := by exact_mod_cast hB.ne'
  obtain ⟨J, hJ⟩ : ∃ J : ℕ, F.uexp = -(J : ℤ) := ⟨(-F.uexp).toNat, by omega⟩
  have := host_encodeQ F hew (a.sign != b.sign) (a.mag F * 2 ^ (-F.uexp).toNat) (b.mag F) hB
  have e2 : a.val F / b.val F = sgn (a.sign != b.sign) *
      (((a.mag F * 2 ^ (-F.uexp).toNat : ℕ) : ℚ) / (b.mag F : ℚ)) * 2 ^ F.uexp := by
    rw [val_eq_mag, val_eq_mag, sgn_bne, hJ, neg_neg, Int.toNat_natCast, zpow_neg, zpow_natCast]
    push_cast
    have : sgn b.sign ≠ 0 := by unfold sgn; split_ifs <;> norm_num
    have hs : sgn b.sign * sgn b.sign = 1 := sgn_mul_self _
    field_simp
    rw [pow_two, hs, mul_one]
  rw [e, e2]
  exact this

end Verif.Vprec
