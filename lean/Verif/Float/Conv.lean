import Verif.Float.Double

/-! # Chains of conversions -/

namespace Verif.Fp

/-- Rounding never gives a NaN and always a datum of the format. -/
theorem encode_wf (F : Fmt) (s : Bool) (n j : Nat) :
    (encode F s n j).WF F ∧ ¬ (encode F s n j).isNaN F := by
  have hp : 0 < 2 ^ F.mw := by positivity
  have he : 0 < 2 ^ F.ew := by positivity
  unfold encode
  simp only
  split
  · next h =>
    have hlt := (Nat.div_lt_iff_lt_mul hp).2 h
    refine ⟨⟨?_, Nat.mod_lt _ hp⟩, fun hn => ?_⟩
    · show _ / _ < _
      unfold Fmt.expInf at hlt; omega
    · have : _ / _ = F.expInf := hn.1
      omega
  · exact ⟨⟨by show F.expInf < _; unfold Fmt.expInf; omega, by show 0 < _; exact hp⟩, fun hn => hn.2 rfl⟩

theorem fconv_wf (F G : Fmt) (hG : 1 ≤ G.mw) (x : Bits) : (fconv F G x).WF G := by
  have he : 0 < 2 ^ G.ew := by positivity
  have hp : 0 < 2 ^ G.mw := by positivity
  have hinf : G.expInf < 2 ^ G.ew := by unfold Fmt.expInf; omega
  unfold fconv
  split
  · exact ⟨hinf, by show 2 ^ (G.mw - 1) < _; exact Nat.pow_lt_pow_right (by norm_num) (by omega)⟩
  · split
    · exact ⟨hinf, hp⟩
    · exact (encode_wf _ _ _ _).1

/-- Converting through a wider format is converting directly. -/
theorem fconv_trans {F G : Fmt} {D : Nat} (h : Wider F G D) (H : Fmt) (hH : 2 ≤ H.ew) (a : Bits)
    (ha : a.WF F) : fconv G H (fconv F G a) = fconv F H a := by
  rcases kinds F a with n | i | f
  · rw [fconv_nan F G a n, fconv_nan G H _ (isNaN_nanBits G), fconv_nan F H a n]
  · rw [fconv_inf F G a i, fconv_inf G H _ (isInf_infBits _ _), fconv_inf F H a i]; rfl
  · obtain ⟨w1, w2, w3, w4⟩ := widen_spec h a ha (fin_lt ha f)
    have hG : (fconv F G a).Fin G := by unfold Bits.Fin; omega
    have e1 : ∀ (K : Fmt) (x : Bits), x.Fin K → fconv K H x =
        encode H x.sign (x.mag K * 2 ^ (K.uexp - H.uexp).toNat) (-(K.uexp - H.uexp)).toNat := by
      intro K x hx
      unfold fconv
      rw [if_neg (fin_not hx).1, if_neg (fin_not hx).2]
    rw [e1 G _ hG, e1 F a f, w1, w4]
    have hu := h.unit
    obtain ⟨x, hx⟩ : ∃ x, x = F.uexp - H.uexp := ⟨_, rfl⟩
    rw [show G.uexp - H.uexp = x - D by omega, ← hx]
    by_cases h0 : a.mag F = 0
    · rw [h0, zero_mul, zero_mul, zero_mul, encode_zero H hH, encode_zero H hH]
    · by_cases c1 : (D : ℤ) ≤ x
      · rw [show (-(x - D)).toNat = 0 by omega, show (-x).toNat = 0 by omega, mul_assoc, ← pow_add,
          show D + (x - D).toNat = x.toNat by omega]
      · by_cases c2 : 0 ≤ x
        · rw [show (x - (D : ℤ)).toNat = 0 by omega, pow_zero, mul_one, show (-x).toNat = 0 by omega,
            show (-(x - D)).toNat = (D - x.toNat) + 0 by omega,
            show D = x.toNat + (D - x.toNat) by omega, pow_add, ← mul_assoc,
            show x.toNat + (D - x.toNat) - x.toNat + 0 = (D - x.toNat) + 0 by omega]
          exact rneShift_shift H _ _ _ _ (by positivity)
        · rw [show (x - (D : ℤ)).toNat = 0 by omega, show x.toNat = 0 by omega, pow_zero, mul_one, mul_one,
            show (-(x - D)).toNat = D + (-x).toNat by omega]
          exact rneShift_shift H _ _ _ _ h0

/-- A conversion to a format changes nothing when repeated. -/
theorem fconv_self (F : Fmt) (hew : 2 ≤ F.ew) (a : Bits) (ha : a.WF F) (hn : ¬ a.isNaN F) :
    fconv F F a = a := by
  rcases kinds F a with n | i | f
  · exact absurd n hn
  · rw [fconv_inf F F a i]; exact (inf_eq F a i).symm
  · unfold fconv
    rw [if_neg (fin_not f).1, if_neg (fin_not f).2]
    simp only [sub_self, Int.toNat_zero, pow_zero, mul_one, neg_zero]
    exact encode_mag F hew a ha (fin_lt ha f)

theorem fconv_idem (F G : Fmt) (hG : 1 ≤ G.mw) (hew : 2 ≤ G.ew) (x : Bits) :
    fconv G G (fconv F G x) = fconv F G x := by
  by_cases hn : (fconv F G x).isNaN G
  · have : x.isNaN F := by
      by_contra hx
      unfold fconv at hn
      rw [if_neg hx] at hn
      split at hn
      · exact hn.2 rfl
      · exact (encode_wf _ _ _ _).2 hn
    rw [fconv_nan F G x this, fconv_nan G G _ (isNaN_nanBits G)]
  · exact fconv_self G hew _ (fconv_wf F G hG x) hn

/-- Widening the result of a conversion and narrowing it again changes nothing. -/
theorem fconv_round_trip {F G : Fmt} {D : Nat} (h : Wider F G D) (hF : 1 ≤ F.mw) (K : Fmt) (x : Bits) :
    fconv G F (fconv F G (fconv K F x)) = fconv K F x := by
  rw [fconv_trans h F h.ewF _ (fconv_wf K F hF x), fconv_idem K F hF h.ewF]

theorem fneg_wf {F : Fmt} {a : Bits} (ha : a.WF F) : (fneg a).WF F := ha

theorem fneg_nan (F : Fmt) (a : Bits) : (fneg a).isNaN F ↔ a.isNaN F := Iff.rfl
theorem fneg_inf (F : Fmt) (a : Bits) : (fneg a).isInf F ↔ a.isInf F := Iff.rfl

theorem encode_neg (F : Fmt) (s : Bool) (n j : Nat) : encode F (!s) n j = fneg (encode F s n j) := by
  unfold encode fneg
  simp only
  split <;> rfl

theorem fconv_neg (F G : Fmt) (a : Bits) (hn : ¬ a.isNaN F) : fconv F G (fneg a) = fneg (fconv F G a) := by
  unfold fconv
  rw [if_neg hn, if_neg ((fneg_nan F a).not.2 hn)]
  by_cases hi : a.isInf F
  · rw [if_pos hi, if_pos ((fneg_inf F a).2 hi)]; rfl
  · rw [if_neg hi, if_neg ((fneg_inf F a).not.2 hi)]
    simp only
    rw [← encode_neg]
    rfl

/-- Differences through a wider format are correctly rounded. -/
theorem fsub_double {F G : Fmt} {D : Nat} (h : Wider F G D) (a b : Bits) (ha : a.WF F) (hb : b.WF F) :
    fconv G F (fadd G (fconv F G a) (fneg (fconv F G b))) = fadd F a (fneg b) := by
  by_cases hn : b.isNaN F
  · rw [fconv_nan F G b hn, fadd_nan (Or.inr ((fneg_nan G _).2 (isNaN_nanBits G))),
      fadd_nan (Or.inr ((fneg_nan F b).2 hn)), fconv_nan G F _ (isNaN_nanBits G)]
  · rw [← fconv_neg F G b hn]
    exact fadd_double h a (fneg b) ha hb

end Verif.Fp
