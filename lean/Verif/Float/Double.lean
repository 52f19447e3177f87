import Verif.Float.Round

/-!
# Double rounding

A sum or a product of two numbers of a format, computed in a format of more than twice the
precision and converted back, is the directly rounded one.
-/

namespace Verif.Fp

/-- Hardware multiplication in round-to-nearest-even (IEEE-754 §5.4.1).  A product of
magnitudes is in units of the square of the smallest subnormal. -/
def fmul (F : Fmt) (a b : Bits) : Bits :=
  if a.isNaN F ∨ b.isNaN F then nanBits F
  else if a.isInf F ∨ b.isInf F then
    (if a.isZero ∨ b.isZero then nanBits F else infBits F (a.sign != b.sign))
  else encode F (a.sign != b.sign) (a.mag F * b.mag F) (-F.uexp).toNat

/-- Fused multiply-add, rounded once (IEEE-754 §5.4.1, §6.3). -/
def ffma (F : Fmt) (a b c : Bits) : Bits :=
  if a.isNaN F ∨ b.isNaN F ∨ c.isNaN F then nanBits F
  else if a.isInf F ∨ b.isInf F then
    (if a.isZero ∨ b.isZero ∨ c.isInf F ∧ c.sign ≠ (a.sign != b.sign) then nanBits F
      else infBits F (a.sign != b.sign))
  else if c.isInf F then c
  else
    let j := (-F.uexp).toNat
    let s := a.imag F * b.imag F + c.imag F * 2 ^ j
    if s = 0 then zeroBits ((a.sign != b.sign) && c.sign)
    else encode F (decide (s < 0)) s.natAbs j

theorem rneShift_near (n M j : Nat) (h : 2 * |(n : ℤ) - M * 2 ^ j| < 2 ^ j) : rneShift n j = M := by
  obtain ⟨h1, h2⟩ := rneShift_err n j
  generalize hr : rneShift n j = r at *
  have hP : (0 : ℤ) < 2 ^ j := by positivity
  generalize (2 : ℤ) ^ j = P at *
  obtain ⟨a1, a2⟩ := abs_lt.1 (show |(n : ℤ) - M * P| < (P + 1) / 2 by omega)
  have b1 : 2 * ((r : ℤ) * P) < 2 * (M * P) + 2 * P := by omega
  have b2 : 2 * ((M : ℤ) * P) < 2 * (r * P) + 2 * P := by omega
  have c1 : (r : ℤ) < M + 1 := by
    by_contra hc
    have : ((M : ℤ) + 1) * P ≤ r * P := mul_le_mul_of_nonneg_right (by omega) hP.le
    rw [add_mul] at this; omega
  have c2 : (M : ℤ) < r + 1 := by
    by_contra hc
    have : ((r : ℤ) + 1) * P ≤ M * P := mul_le_mul_of_nonneg_right (by omega) hP.le
    rw [add_mul] at this; omega
  omega

/-- A magnitude within a quarter of an ulp of a normal number rounds to it. -/
theorem encode_near (F : Fmt) (x : Bits) (hx : x.WF F) (h1 : 1 ≤ x.exp) (hf : x.exp < F.expInf)
    (s : Bool) (n j : Nat) (h : 4 * |(n : ℤ) - x.mag F * 2 ^ j| < 2 ^ (x.exp - 1 + j)) :
    encode F s n j = { x with sign := s } := by
  obtain ⟨xs, xe, xm⟩ := x
  obtain ⟨e, rfl⟩ : ∃ e, xe = e + 1 := ⟨xe - 1, by simp at h1; omega⟩
  have hm : xm < 2 ^ F.mw := hx.2
  rw [mag_normal F _ (by simp)] at h
  simp only [Nat.add_sub_cancel] at h
  have hfin : ofPat F s (e * 2 ^ F.mw + (2 ^ F.mw + xm)) = ⟨s, e + 1, xm⟩ := by
    rw [← ofPat_mk F s (e + 1) xm hm]; congr 1; ring
  have hlt : e * 2 ^ F.mw + (2 ^ F.mw + xm) < F.expInf * 2 ^ F.mw := by
    have : (e + 1 + 1) * 2 ^ F.mw ≤ F.expInf * 2 ^ F.mw := Nat.mul_le_mul_right _ hf
    rw [Nat.add_mul, Nat.add_mul] at this; omega
  obtain ⟨M, hM⟩ : ∃ M, M = 2 ^ F.mw + xm := ⟨_, rfl⟩
  rw [← hM] at hfin hlt h
  have hQ : (2 : ℤ) ^ (e + j) = 2 ^ e * 2 ^ j := pow_add _ _ _
  have h' : 4 * |(n : ℤ) - M * 2 ^ (e + j)| < 2 ^ (e + j) := by
    rw [hQ]; rw [hQ] at h; push_cast at h; rw [← mul_assoc]; exact h
  obtain ⟨Q, hQdef⟩ : ∃ Q : ℕ, Q = 2 ^ (e + j) := ⟨_, rfl⟩
  have hQi : (2 : ℤ) ^ (e + j) = Q := by rw [hQdef]; push_cast; rfl
  rw [hQi] at h'
  have hQ0 : 0 < Q := by rw [hQdef]; positivity
  obtain ⟨a1, a2⟩ := abs_lt.1 (show |(n : ℤ) - M * Q| < Q by omega)
  have hup : n < 2 ^ (F.mw + 1) * Q := by
    have h3 : (M + 1) * Q ≤ 2 ^ (F.mw + 1) * Q := Nat.mul_le_mul_right _ (by rw [pow_succ]; omega)
    have h4 : (n : ℤ) < ((M + 1) * Q : ℕ) := by push_cast; linarith
    have h5 : n < (M + 1) * Q := by exact_mod_cast h4
    omega
  by_cases hb : 2 ^ F.mw * Q ≤ n
  · have hl : Nat.log2 n = F.mw + e + j := by
      apply log2_of_range
      · rwa [show F.mw + e + j = F.mw + (e + j) by ring, pow_add, ← hQdef]
      · rwa [show F.mw + e + j + 1 = F.mw + 1 + (e + j) by ring, pow_add _ (F.mw + 1), ← hQdef]
    have hr : rneShift n (j + e) = M := by
      apply rneShift_near
      rw [add_comm j e, hQi]
      omega
    unfold encode
    rw [hl, show F.mw + e + j - (j + F.mw) = e by omega]
    simp only [hr]
    rw [if_pos hlt, hfin]
  · have hb' : n < 2 ^ F.mw * Q := by omega
    have hM2 : M = 2 ^ F.mw := by
      by_contra hne
      have h3 : (2 ^ F.mw + 1) * Q ≤ M * Q := Nat.mul_le_mul_right _ (by omega)
      have h4 : (n : ℤ) < (2 ^ F.mw * Q : ℕ) := by exact_mod_cast hb'
      have h5 : (((2 ^ F.mw + 1) * Q : ℕ) : ℤ) ≤ (M * Q : ℕ) := by exact_mod_cast h3
      push_cast at h4 h5
      have h6 := (abs_lt.1 (show |(n : ℤ) - M * Q| < (Q + 3) / 4 by omega)).1
      linarith [show ((Q : ℤ) + 3) / 4 ≤ Q by omega]
    cases e with
    | zero =>
      have hk : Nat.log2 n - (j + F.mw) = 0 := by
        by_cases h0 : n = 0
        · rw [h0]; simp [Nat.log2]
        · have : Nat.log2 n < F.mw + j := (Nat.log2_lt h0).2 (by
            rw [pow_add]; rw [hQdef, zero_add] at hb'; exact hb')
          omega
      have hr : rneShift n (j + 0) = M := by
        apply rneShift_near
        rw [add_comm j 0, hQi]
        omega
      unfold encode
      rw [hk]
      simp only [hr]
      rw [if_pos hlt, hfin]
    | succ e =>
      obtain ⟨R, hR⟩ : ∃ R : ℕ, R = 2 ^ (e + j) := ⟨_, rfl⟩
      have hQR : Q = 2 * R := by
        rw [hQdef, hR, show e + 1 + j = e + j + 1 by ring, pow_succ]; ring
      have hRi : (2 : ℤ) ^ (e + j) = R := by rw [hR]; push_cast; rfl
      have hlow : 2 ^ F.mw * R ≤ n := by
        have h3 : (n : ℤ) > M * Q - Q := by linarith
        have hm1 : 1 ≤ 2 ^ F.mw := Nat.one_le_two_pow
        have h4 : ((2 ^ F.mw * R : ℕ) : ℤ) ≤ (M * Q : ℤ) - Q + R := by
          rw [hM2, hQR]; push_cast
          have : (1 : ℤ) ≤ 2 ^ F.mw := by exact_mod_cast hm1
          have hR0 : (0 : ℤ) ≤ R := by positivity
          nlinarith
        have h6 := (abs_lt.1 (show |(n : ℤ) - M * Q| < (Q + 3) / 4 by omega)).1
        have h7 : ((Q : ℤ) + 3) / 4 ≤ R + 0 ∨ Q = 2 := by omega
        rcases h7 with h7 | h7
        · have : ((2 ^ F.mw * R : ℕ) : ℤ) ≤ n := by
            rw [hQR] at *; push_cast at *; linarith
          exact_mod_cast this
        · have : ((2 ^ F.mw * R : ℕ) : ℤ) ≤ n := by
            rw [h7] at h6; rw [hQR] at *; push_cast at *; linarith
          exact_mod_cast this
      have hl : Nat.log2 n = F.mw + e + j := by
        apply log2_of_range
        · rwa [show F.mw + e + j = F.mw + (e + j) by ring, pow_add, ← hR]
        · rw [show F.mw + e + j + 1 = F.mw + (e + 1 + j) by ring, pow_add _ F.mw, ← hQdef]
          exact hb'
      have hr : rneShift n (j + e) = 2 * M := by
        apply rneShift_near
        rw [add_comm j e, hRi]
        rw [hQR] at h'
        push_cast at h' ⊢
        rw [show (2 : ℤ) * M * R = M * (2 * R) by ring]
        omega
      unfold encode
      rw [hl, show F.mw + e + j - (j + F.mw) = e by omega]
      simp only [hr]
      have e1 : e * 2 ^ F.mw + 2 * M = (e + 1) * 2 ^ F.mw + M := by rw [hM2]; ring
      rw [e1, if_pos hlt, hfin]

/-- A pair of formats such that sums of the narrow one can be computed in the wide one. -/
structure Wider (F G : Fmt) (D : Nat) : Prop where
  ewF : 2 ≤ F.ew
  ewG : 2 ≤ G.ew
  unit : F.uexp - G.uexp = D
  prec : 2 * (F.mw + 1) + 5 ≤ G.mw + 1
  range : F.mw + 2 + (F.expInf - 2) + D ≤ G.mw + (G.expInf - 2)

theorem wider32 : Wider b32 b64 925 := ⟨by decide, by decide, by decide, by decide, by decide⟩
theorem wider64 : Wider b64 b128 15420 := ⟨by decide, by decide, by decide, by decide, by decide⟩

/-- Conversion back to the narrow format. -/
theorem fconv_back {F G : Fmt} {D : Nat} (h : Wider F G D) (v : Bits) (hv : v.exp < G.expInf) :
    fconv G F v = encode F v.sign (v.mag G) D := by
  have h1 : ¬ v.isNaN G := by unfold Bits.isNaN; omega
  have h2 : ¬ v.isInf G := by unfold Bits.isInf; omega
  have hd : G.uexp - F.uexp = -(D : ℤ) := by have := h.unit; omega
  unfold fconv
  rw [if_neg h1, if_neg h2]
  simp only [hd]
  congr 1
  · simp
  · simp

/-- The rounding of a sum through the wide format. -/
theorem double_round {F G : Fmt} {D : Nat} (h : Wider F G D) (a b : Bits) (ha : a.WF F) (hb : b.WF F)
    (fa : a.exp < F.expInf) (fb : b.exp < F.expInf) (hle : b.exp ≤ a.exp) (δ : ℤ)
    (hδ : |δ| = b.mag F) (s : Bool) (N : Nat) (hN : (N : ℤ) = |(a.mag F : ℤ) + δ|) (hN0 : N ≠ 0) :
    fconv G F (encode G s (N * 2 ^ D) 0) = encode F s N 0 := by
  have hprec := h.prec
  have hrange := h.range
  have hA := mag_lt F h.ewF a ha fa
  have hB := mag_lt F h.ewF b hb fb
  have hNle : N ≤ a.mag F + b.mag F := by
    have := abs_add_le (a.mag F : ℤ) δ
    rw [hδ, ← hN, abs_of_nonneg (by positivity)] at this
    exact_mod_cast this
  have hNlt : N < 2 ^ (F.mw + 2 + (F.expInf - 2)) := by
    have : 2 ^ (F.mw + 2 + (F.expInf - 2)) = 2 * (2 ^ (F.mw + 1) * 2 ^ (F.expInf - 2)) := by
      rw [← pow_add, ← pow_succ']; congr 1; omega
    omega
  have hNG : N * 2 ^ D < 2 ^ (G.mw + 1) * 2 ^ (G.expInf - 2) := by
    calc N * 2 ^ D < 2 ^ (F.mw + 2 + (F.expInf - 2)) * 2 ^ D := Nat.mul_lt_mul_of_pos_right hNlt (by positivity)
      _ = 2 ^ (F.mw + 2 + (F.expInf - 2) + D) := by rw [← pow_add]
      _ ≤ 2 ^ (G.mw + 1 + (G.expInf - 2)) := Nat.pow_le_pow_right (by norm_num) (by omega)
      _ = _ := by rw [pow_add]
  have hdv : ∀ x : Bits, b.exp ≤ x.exp → 2 ^ (b.exp - 1) ∣ x.mag F := by
    intro x hx
    unfold Bits.mag
    exact Dvd.dvd.mul_left (pow_dvd_pow 2 (by omega)) _
  have hdN : 2 ^ (b.exp - 1) ∣ N := by
    have h1 : ((2 ^ (b.exp - 1) : ℕ) : ℤ) ∣ (a.mag F : ℤ) := by exact_mod_cast hdv a hle
    have h2 : ((2 ^ (b.exp - 1) : ℕ) : ℤ) ∣ δ := by
      rw [← dvd_abs, hδ]; exact_mod_cast hdv b le_rfl
    have h3 := dvd_add h1 h2
    rw [← dvd_abs, ← hN] at h3
    exact_mod_cast h3
  by_cases hsmall : N < 2 ^ (G.mw + 1 + (b.exp - 1))
  · obtain ⟨M, hM⟩ := hdN
    have hM0 : M ≠ 0 := by rintro rfl; simp at hM; exact hN0 hM
    have hMlt : M < 2 ^ (G.mw + 1) := by
      rw [hM, pow_add, mul_comm] at hsmall
      exact Nat.lt_of_mul_lt_mul_right hsmall
    have hND : N * 2 ^ D = M * 2 ^ (b.exp - 1 + D) := by rw [hM, pow_add]; ring
    obtain ⟨e1, e2, e3, e4⟩ := encode_repr G h.ewG s M (b.exp - 1 + D) hM0 hMlt (by rw [← hND]; exact hNG)
    rw [← hND] at e1 e2 e3 e4
    rw [fconv_narrow G F _ D N (by have := h.unit; omega) e3 hN0 e4, e1]
  · -- the smaller operand is far below the ulp of the larger one
    have hsA := sig_lt F a ha
    have hsB := sig_lt F b hb
    have hAe : a.mag F < 2 ^ (F.mw + 1 + (a.exp - 1)) := by
      unfold Bits.mag; rw [pow_add]; exact Nat.mul_lt_mul_of_pos_right hsA (by positivity)
    have hBe : b.mag F < 2 ^ (F.mw + 1 + (b.exp - 1)) := by
      unfold Bits.mag; rw [pow_add]; exact Nat.mul_lt_mul_of_pos_right hsB (by positivity)
    have hBA : 2 ^ (F.mw + 1 + (b.exp - 1)) ≤ 2 ^ (F.mw + 1 + (a.exp - 1)) :=
      Nat.pow_le_pow_right (by norm_num) (by omega)
    have hgap : G.mw + 1 + (b.exp - 1) < F.mw + 2 + (a.exp - 1) := by
      apply (Nat.pow_lt_pow_iff_right (by norm_num : 1 < 2)).1
      calc 2 ^ (G.mw + 1 + (b.exp - 1)) ≤ N := by omega
        _ < 2 * 2 ^ (F.mw + 1 + (a.exp - 1)) := by omega
        _ = _ := by rw [← pow_succ']; congr 1; omega
    have hB16 : 32 * b.mag F < 2 ^ (a.exp - 1) := by
      calc 32 * b.mag F < 32 * 2 ^ (F.mw + 1 + (b.exp - 1)) := by omega
        _ = 2 ^ (5 + (F.mw + 1 + (b.exp - 1))) := by rw [pow_add 2 5]; norm_num
        _ ≤ _ := Nat.pow_le_pow_right (by norm_num) (by omega)
    have ha1 : 1 ≤ a.exp := by omega
    have hAge : 2 ^ (a.exp - 1) ≤ a.mag F := by
      unfold Bits.mag Bits.sig
      rw [if_neg (by omega)]
      have : 1 ≤ 2 ^ F.mw + a.man := by have := Nat.one_le_two_pow (n := F.mw); omega
      calc 2 ^ (a.exp - 1) = 1 * 2 ^ (a.exp - 1) := (one_mul _).symm
        _ ≤ _ := Nat.mul_le_mul_right _ this
    have hNA : (N : ℤ) - a.mag F = δ := by
      have hd := abs_lt.1 (show |δ| < a.mag F by rw [hδ]; exact_mod_cast (by omega : b.mag F < a.mag F))
      rw [hN, abs_of_nonneg (by omega)]; ring
    have hP : ((2 : ℤ) ^ (a.exp - 1)) = ((2 ^ (a.exp - 1) : ℕ) : ℤ) := by push_cast; rfl
    have r1 : encode F s N 0 = { a with sign := s } := by
      apply encode_near F a ha ha1 fa
      rw [pow_zero, mul_one, add_zero, hNA, hδ, hP]
      exact_mod_cast (by omega : 4 * b.mag F < 2 ^ (a.exp - 1))
    -- in the wide format
    have hexpG := expInf_ge G h.ewG
    have hmaxG : N * 2 ^ D ≤ maxMag G * 2 ^ 0 := by
      rw [pow_zero, mul_one]
      have h1 : N * 2 ^ D < 2 ^ (F.mw + 2 + (F.expInf - 2) + D) := by
        rw [pow_add]; exact Nat.mul_lt_mul_of_pos_right hNlt (by positivity)
      have h2 : 2 ^ (F.mw + 2 + (F.expInf - 2) + D) ≤ 2 ^ (G.mw + (G.expInf - 2)) :=
        Nat.pow_le_pow_right (by norm_num) (by omega)
      have h3 : 2 ^ (G.mw + (G.expInf - 2)) ≤ maxMag G := by
        unfold maxMag
        rw [pow_add]
        apply Nat.mul_le_mul_right
        rw [pow_succ]
        have := Nat.one_le_two_pow (n := G.mw)
        omega
      omega
    obtain ⟨v1, v2, v3, -, -⟩ := encode_spec G s (N * 2 ^ D) 0 (G.mw + 1 + (G.expInf - 2))
      (by rw [zero_add, pow_add]; exact hNG) hmaxG hexpG
    have hnear := encode_nearest G s (N * 2 ^ D) 0 (G.mw + 1 + (G.expInf - 2))
      (by rw [zero_add, pow_add]; exact hNG) hmaxG hexpG (a.sig F) (a.exp - 1 + D) (by
        rw [abs_of_nonneg (by positivity)]
        have : a.sig F < 2 ^ (G.mw + 1) := lt_of_lt_of_le hsA (Nat.pow_le_pow_right (by norm_num) (by omega))
        exact_mod_cast this)
    generalize hV : encode G s (N * 2 ^ D) 0 = V at *
    rw [fconv_back h V v3, v1, r1]
    apply encode_near F a ha ha1 fa
    rw [pow_zero, mul_one, mul_one] at hnear
    have e1 : (a.sig F : ℤ) * 2 ^ (a.exp - 1 + D) = a.mag F * 2 ^ D := by
      unfold Bits.mag; push_cast; rw [pow_add]; ring
    rw [e1] at hnear
    have e2 : ((N * 2 ^ D : ℕ) : ℤ) - a.mag F * 2 ^ D = δ * 2 ^ D := by
      push_cast; rw [← sub_mul, hNA]
    rw [e2, abs_mul, hδ, abs_of_nonneg (by positivity : (0 : ℤ) ≤ 2 ^ D)] at hnear
    have e3 : ((V.mag G : ℤ) - a.mag F * 2 ^ D) =
        (((N * 2 ^ D : ℕ) : ℤ) - a.mag F * 2 ^ D) - (((N * 2 ^ D : ℕ) : ℤ) - V.mag G) := by ring
    have e4 : |(V.mag G : ℤ) - a.mag F * 2 ^ D| ≤ 2 * (b.mag F * 2 ^ D) := by
      rw [e3, e2]
      refine le_trans (abs_sub _ _) ?_
      rw [abs_mul, hδ, abs_of_nonneg (by positivity : (0 : ℤ) ≤ 2 ^ D)]
      linarith
    rw [pow_add]
    have e5 : (32 * b.mag F : ℤ) * 2 ^ D < 2 ^ (a.exp - 1) * 2 ^ D := by
      apply mul_lt_mul_of_pos_right _ (by positivity)
      rw [hP]; exact_mod_cast hB16
    have : (0 : ℤ) ≤ b.mag F * 2 ^ D := by positivity
    linarith

/-- Widening: sign, signed magnitude and finiteness. -/
theorem widen_spec {F G : Fmt} {D : Nat} (h : Wider F G D) (a : Bits) (ha : a.WF F) (fa : a.exp < F.expInf) :
    (fconv F G a).sign = a.sign ∧ (fconv F G a).WF G ∧ (fconv F G a).exp < G.expInf ∧
    (fconv F G a).mag G = a.mag F * 2 ^ D := by
  have hprec := h.prec
  have hrange := h.range
  by_cases h0 : a.mag F = 0
  · obtain ⟨s, e, m⟩ := a
    obtain ⟨rfl, rfl⟩ : e = 0 ∧ m = 0 := (mag_eq_zero F _).1 h0
    have hz := fconv_zero F G h.ewF h.ewG s
    unfold zeroBits at hz
    rw [hz]
    have := expInf_ge G h.ewG
    refine ⟨rfl, ⟨by simp, by simp⟩, by simp; omega, ?_⟩
    rw [h0, (mag_eq_zero G _).2 ⟨rfl, rfl⟩, zero_mul]
  · exact fconv_widen F G h.ewF h.ewG a D h.unit (by omega) (by omega) ha fa h0

theorem fin_lt {F : Fmt} {a : Bits} (ha : a.WF F) (fa : a.Fin F) : a.exp < F.expInf := by
  have : a.exp < 2 ^ F.ew := ha.1
  unfold Bits.Fin at fa
  unfold Fmt.expInf at *
  omega

theorem isNaN_nanBits (F : Fmt) : (nanBits F).isNaN F := by
  unfold Bits.isNaN nanBits; simp

theorem fconv_nan (F G : Fmt) (a : Bits) (h : a.isNaN F) : fconv F G a = nanBits G := by
  unfold fconv; rw [if_pos h]

theorem fconv_inf (F G : Fmt) (a : Bits) (h : a.isInf F) : fconv F G a = infBits G a.sign := by
  unfold fconv
  rw [if_neg (fun hn => hn.2 h.2), if_pos h]

theorem inf_eq (F : Fmt) (a : Bits) (h : a.isInf F) : a = infBits F a.sign := by
  obtain ⟨s, e, m⟩ := a
  obtain ⟨rfl, rfl⟩ : e = F.expInf ∧ m = 0 := h
  rfl

theorem isInf_infBits (F : Fmt) (s : Bool) : (infBits F s).isInf F := ⟨rfl, rfl⟩

/-- The three kinds of data. -/
theorem kinds (F : Fmt) (a : Bits) : a.isNaN F ∨ a.isInf F ∨ a.Fin F := by
  unfold Bits.isNaN Bits.isInf Bits.Fin
  tauto

theorem fin_not {F : Fmt} {a : Bits} (h : a.Fin F) : ¬ a.isNaN F ∧ ¬ a.isInf F :=
  ⟨fun hn => h hn.1, fun hn => h hn.1⟩

/-- Addition of two finite numbers. -/
theorem fadd_fin {F : Fmt} {a b : Bits} (ha : a.Fin F) (hb : b.Fin F) :
    fadd F a b = if a.imag F + b.imag F = 0 then zeroBits (a.sign && b.sign)
      else encode F (decide (a.imag F + b.imag F < 0)) (a.imag F + b.imag F).natAbs 0 := by
  unfold fadd
  rw [if_neg (by rintro (h | h); exact ha h.1; exact hb h.1), if_neg (fun h => ha h.1),
    if_neg (fun h => hb h.1)]

theorem abs_imag (F : Fmt) (a : Bits) : |a.imag F| = a.mag F := by
  unfold Bits.imag; split <;> simp

/-- Special data in an addition (IEEE-754 §6.1, §6.2, §7.2). -/
theorem fadd_nan {F : Fmt} {a b : Bits} (h : a.isNaN F ∨ b.isNaN F) : fadd F a b = nanBits F := by
  unfold fadd; rw [if_pos h]

theorem fadd_inf_opp {F : Fmt} {a b : Bits} (ia : a.isInf F) (ib : b.isInf F) (hs : b.sign ≠ a.sign) :
    fadd F a b = nanBits F := by
  have hn : ¬ (a.isNaN F ∨ b.isNaN F) := fun hc => hc.elim (fun hc => hc.2 ia.2) (fun hc => hc.2 ib.2)
  unfold fadd; rw [if_neg hn, if_pos ia, if_pos ⟨ib, hs⟩]

theorem fadd_inf_left {F : Fmt} {a b : Bits} (ia : a.isInf F) (nb : ¬ b.isNaN F)
    (hs : b.isInf F → b.sign = a.sign) : fadd F a b = infBits F a.sign := by
  have hn : ¬ (a.isNaN F ∨ b.isNaN F) := fun hc => hc.elim (fun hc => hc.2 ia.2) nb
  unfold fadd; rw [if_neg hn, if_pos ia, if_neg (fun hc => hc.2 (hs hc.1))]
  exact inf_eq F a ia

theorem fadd_inf_right {F : Fmt} {a b : Bits} (fa : a.Fin F) (ib : b.isInf F) :
    fadd F a b = infBits F b.sign := by
  have hn : ¬ (a.isNaN F ∨ b.isNaN F) := fun hc => hc.elim (fun hc => fa hc.1) (fun hc => hc.2 ib.2)
  unfold fadd; rw [if_neg hn, if_neg (fun hc => fa hc.1), if_pos ib]
  exact inf_eq F b ib

/-- Widening keeps signs and classes. -/
theorem widen_class {F G : Fmt} {D : Nat} (h : Wider F G D) (x : Bits) (hx : x.WF F) :
    (¬ x.isNaN F → (fconv F G x).sign = x.sign) ∧ ((fconv F G x).isNaN G ↔ x.isNaN F) ∧
      ((fconv F G x).isInf G ↔ x.isInf F) ∧ (x.Fin F → (fconv F G x).Fin G) := by
  rcases kinds F x with n | i | f
  · rw [fconv_nan F G x n]
    exact ⟨fun hc => absurd n hc, ⟨fun _ => n, fun _ => isNaN_nanBits G⟩,
      ⟨fun hc => absurd hc.2 (isNaN_nanBits G).2, fun hc => absurd hc.2 n.2⟩, fun hc => absurd n.1 hc⟩
  · rw [fconv_inf F G x i]
    exact ⟨fun _ => rfl, ⟨fun hc => absurd rfl hc.2, fun hc => absurd i.2 hc.2⟩,
      ⟨fun _ => i, fun _ => isInf_infBits _ _⟩, fun hc => absurd i.1 hc⟩
  · obtain ⟨w1, w2, w3, w4⟩ := widen_spec h x hx (fin_lt hx f)
    have hG : (fconv F G x).Fin G := by unfold Bits.Fin; omega
    exact ⟨fun _ => w1, ⟨fun hc => absurd hc.1 hG, fun hc => absurd hc.1 f⟩,
      ⟨fun hc => absurd hc.1 hG, fun hc => absurd hc.1 f⟩, fun _ => hG⟩

/-- **Sums through a wider format are correctly rounded**, for every datum. -/
theorem fadd_double {F G : Fmt} {D : Nat} (h : Wider F G D) (a b : Bits) (ha : a.WF F) (hb : b.WF F) :
    fconv G F (fadd G (fconv F G a) (fconv F G b)) = fadd F a b := by
  obtain ⟨sa, na, ia, fa'⟩ := widen_class h a ha
  obtain ⟨sb, nb, ib, fb'⟩ := widen_class h b hb
  by_cases hn : a.isNaN F ∨ b.isNaN F
  · rw [fadd_nan hn, fadd_nan (by rw [na, nb]; exact hn), fconv_nan G F _ (isNaN_nanBits G)]
  have hna : ¬ a.isNaN F := fun hc => hn (Or.inl hc)
  have hnb : ¬ b.isNaN F := fun hc => hn (Or.inr hc)
  rcases kinds F a with n | i | fa
  · exact absurd n hna
  · by_cases hs : b.isInf F ∧ b.sign ≠ a.sign
    · rw [fadd_inf_opp i hs.1 hs.2, fadd_inf_opp (ia.2 i) (ib.2 hs.1) (by rw [sa hna, sb hnb]; exact hs.2),
        fconv_nan G F _ (isNaN_nanBits G)]
    · have hs' : b.isInf F → b.sign = a.sign := fun hc => by
        by_contra hne; exact hs ⟨hc, hne⟩
      rw [fadd_inf_left i hnb hs', fadd_inf_left (ia.2 i) (fun hc => hnb (nb.1 hc)) (by
        rw [ib, sa hna, sb hnb]; exact hs'), fconv_inf G F _ (isInf_infBits _ _), sa hna]
      rfl
  · obtain ⟨w1, w2, w3, w4⟩ := widen_spec h a ha (fin_lt ha fa)
    rcases kinds F b with n | i | fb
    · exact absurd n hnb
    · rw [fadd_inf_right fa i, fadd_inf_right (fa' fa) (ib.2 i), fconv_inf G F _ (isInf_infBits _ _), sb hnb]
      rfl
    · obtain ⟨x1, x2, x3, x4⟩ := widen_spec h b hb (fin_lt hb fb)
      have hGfa : (fconv F G a).Fin G := by unfold Bits.Fin; omega
      have hGfb : (fconv F G b).Fin G := by unfold Bits.Fin; omega
      have hia : (fconv F G a).imag G = a.imag F * 2 ^ D := by
        unfold Bits.imag; rw [w1, w4]; split <;> push_cast <;> ring
      have hib : (fconv F G b).imag G = b.imag F * 2 ^ D := by
        unfold Bits.imag; rw [x1, x4]; split <;> push_cast <;> ring
      have hD : (0 : ℤ) < 2 ^ D := by positivity
      rw [fadd_fin hGfa hGfb, fadd_fin fa fb, hia, hib, ← add_mul, w1, x1]
      by_cases h0 : a.imag F + b.imag F = 0
      · rw [h0, zero_mul, if_pos rfl, if_pos rfl, fconv_zero G F h.ewG h.ewF]
      · rw [if_neg h0, if_neg (mul_ne_zero h0 hD.ne')]
        have e1 : ((a.imag F + b.imag F) * 2 ^ D).natAbs = (a.imag F + b.imag F).natAbs * 2 ^ D := by
          rw [Int.natAbs_mul, Int.natAbs_pow]; rfl
        have e2 : decide ((a.imag F + b.imag F) * 2 ^ D < 0) = decide (a.imag F + b.imag F < 0) := by
          congr 1
          rw [eq_iff_iff]
          constructor
          · intro hneg
            by_contra hc
            exact absurd hneg (not_lt.2 (mul_nonneg (not_lt.1 hc) hD.le))
          · intro hneg; exact mul_neg_of_neg_of_pos hneg hD
        rw [e1, e2]
        generalize decide (a.imag F + b.imag F < 0) = s
        have key : ∀ x y : Bits, x.WF F → y.WF F → x.exp < F.expInf → y.exp < F.expInf → y.exp ≤ x.exp →
            x.imag F + y.imag F ≠ 0 →
            fconv G F (encode G s ((x.imag F + y.imag F).natAbs * 2 ^ D) 0) =
              encode F s (x.imag F + y.imag F).natAbs 0 := by
          intro x y hx hy fx fy hle hne
          apply double_round h x y hx hy fx fy hle (if x.sign then -y.imag F else y.imag F)
          · split
            · rw [abs_neg, abs_imag]
            · rw [abs_imag]
          · rw [Int.natCast_natAbs]
            unfold Bits.imag
            cases x.sign
            · simp
            · simp only [if_true]
              rw [← abs_neg]; congr 1; ring
          · omega
        rcases Nat.le_total b.exp a.exp with hle | hle
        · exact key a b ha hb (fin_lt ha fa) (fin_lt hb fb) hle h0
        · rw [add_comm (a.imag F)] at h0 ⊢
          exact key b a hb ha (fin_lt hb fb) (fin_lt ha fa) hle h0

theorem rneShift_shift (F : Fmt) (s : Bool) (n c j : Nat) (hn : n ≠ 0) :
    encode F s (n * 2 ^ c) (c + j) = encode F s n j := by
  unfold encode
  rw [log2_mul_pow n c hn, show Nat.log2 n + c - (c + j + F.mw) = Nat.log2 n - (j + F.mw) by omega]
  simp only
  rw [add_assoc c j, rneShift_mul_add]

/-- Multiplication of two finite numbers. -/
theorem fmul_fin {F : Fmt} {a b : Bits} (ha : a.Fin F) (hb : b.Fin F) :
    fmul F a b = encode F (a.sign != b.sign) (a.mag F * b.mag F) (-F.uexp).toNat := by
  unfold fmul
  rw [if_neg (by rintro (h | h); exact ha h.1; exact hb h.1),
    if_neg (by rintro (h | h); exact ha h.1; exact hb h.1)]

theorem widen_zero {F G : Fmt} {D : Nat} (h : Wider F G D) (a : Bits) (ha : a.WF F) :
    (fconv F G a).isZero ↔ a.isZero := by
  have hG := expInf_ge G h.ewG
  have hF := expInf_ge F h.ewF
  rcases kinds F a with na | ia | fa
  · rw [fconv_nan F G a na]
    constructor
    · rintro ⟨h1, -⟩; simp [nanBits] at h1; omega
    · rintro ⟨h1, -⟩; have := na.1; omega
  · rw [fconv_inf F G a ia]
    constructor
    · rintro ⟨h1, -⟩; simp [infBits] at h1; omega
    · rintro ⟨h1, -⟩; have := ia.1; omega
  · obtain ⟨-, -, -, w4⟩ := widen_spec h a ha (fin_lt ha fa)
    rw [← mag_eq_zero G, ← mag_eq_zero F, w4]
    simp

/-- **Products through a wider format are correctly rounded**, for every datum: the wide
product is exact. -/
theorem fmul_double {F G : Fmt} {D : Nat} (h : Wider F G D) (hj : (-F.uexp).toNat ≤ D) (hu : F.uexp ≤ 0)
    (hr : 2 * (F.mw + 1) + 2 * (F.expInf - 2) + D ≤ G.mw + 1 + (G.expInf - 2) + (-F.uexp).toNat)
    (a b : Bits) (ha : a.WF F) (hb : b.WF F) :
    fconv G F (fmul G (fconv F G a) (fconv F G b)) = fmul F a b := by
  have hprec := h.prec
  by_cases hn : a.isNaN F ∨ b.isNaN F
  · have h1 : fmul F a b = nanBits F := by unfold fmul; rw [if_pos hn]
    have h2 : fmul G (fconv F G a) (fconv F G b) = nanBits G := by
      unfold fmul
      rw [if_pos]
      rcases hn with hn | hn
      · left; rw [fconv_nan F G a hn]; exact isNaN_nanBits G
      · right; rw [fconv_nan F G b hn]; exact isNaN_nanBits G
    rw [h1, h2, fconv_nan G F _ (isNaN_nanBits G)]
  -- not NaN: signs and classes are kept
  have keep : ∀ x : Bits, x.WF F → ¬ x.isNaN F → (fconv F G x).sign = x.sign ∧ ¬ (fconv F G x).isNaN G ∧
      ((fconv F G x).isInf G ↔ x.isInf F) := by
    intro x hx nx
    obtain ⟨k1, k2, k3, -⟩ := widen_class h x hx
    exact ⟨k1 nx, fun hc => nx (k2.1 hc), k3⟩
  have na : ¬ a.isNaN F := fun hc => hn (Or.inl hc)
  have nb : ¬ b.isNaN F := fun hc => hn (Or.inr hc)
  obtain ⟨ka1, ka2, ka3⟩ := keep a ha na
  obtain ⟨kb1, kb2, kb3⟩ := keep b hb nb
  by_cases hi : a.isInf F ∨ b.isInf F
  · have hnG : ¬ ((fconv F G a).isNaN G ∨ (fconv F G b).isNaN G) := by
      rintro (hc | hc)
      · exact ka2 hc
      · exact kb2 hc
    have hiG : (fconv F G a).isInf G ∨ (fconv F G b).isInf G := by rw [ka3, kb3]; exact hi
    unfold fmul
    rw [if_neg hn, if_pos hi, if_neg hnG, if_pos hiG]
    simp only [widen_zero h a ha, widen_zero h b hb]
    by_cases hz : a.isZero ∨ b.isZero
    · rw [if_pos hz, if_pos hz]; exact fconv_nan G F _ (isNaN_nanBits G)
    · rw [if_neg hz, if_neg hz, ka1, kb1]; exact fconv_inf G F _ (isInf_infBits _ _)
  · have fa : a.Fin F := by
      rcases kinds F a with n | i | f
      · exact absurd n na
      · exact absurd (Or.inl i) hi
      · exact f
    have fb : b.Fin F := by
      rcases kinds F b with n | i | f
      · exact absurd n nb
      · exact absurd (Or.inr i) hi
      · exact f
    obtain ⟨w1, w2, w3, w4⟩ := widen_spec h a ha (fin_lt ha fa)
    obtain ⟨x1, x2, x3, x4⟩ := widen_spec h b hb (fin_lt hb fb)
    have hGfa : (fconv F G a).Fin G := by unfold Bits.Fin; omega
    have hGfb : (fconv F G b).Fin G := by unfold Bits.Fin; omega
    rw [fmul_fin hGfa hGfb, fmul_fin fa fb, w1, x1, w4, x4]
    generalize (a.sign != b.sign) = s
    obtain ⟨J, hJ⟩ : ∃ J, J = (-F.uexp).toNat := ⟨_, rfl⟩
    have hJG : (-G.uexp).toNat = J + D := by have := h.unit; omega
    rw [hJG, ← hJ]
    rw [← hJ] at hj hr
    by_cases h0 : a.mag F * b.mag F = 0
    · have : a.mag F * 2 ^ D * (b.mag F * 2 ^ D) = 0 := by
        rw [show a.mag F * 2 ^ D * (b.mag F * 2 ^ D) = a.mag F * b.mag F * (2 ^ D * 2 ^ D) by ring, h0, zero_mul]
      rw [this, h0, encode_zero G h.ewG, encode_zero F h.ewF, fconv_zero G F h.ewG h.ewF]
    · obtain ⟨c, hc⟩ : ∃ c, D = J + c := ⟨D - J, by omega⟩
      have e1 : a.mag F * 2 ^ D * (b.mag F * 2 ^ D) = (a.mag F * b.mag F * 2 ^ c) * 2 ^ (J + D) := by
        have : (2 : ℕ) ^ D = 2 ^ J * 2 ^ c := by rw [← pow_add, hc]
        rw [pow_add 2 J D]
        calc a.mag F * 2 ^ D * (b.mag F * 2 ^ D) = a.mag F * b.mag F * 2 ^ D * 2 ^ D := by ring
          _ = a.mag F * b.mag F * (2 ^ J * 2 ^ c) * 2 ^ D := by rw [this]
          _ = _ := by ring
      have hP0 : a.mag F * b.mag F * 2 ^ c ≠ 0 := by positivity
      rw [e1, encode_shift G s _ (J + D) hP0]
      have hsa := sig_lt F a ha
      have hsb := sig_lt F b hb
      obtain ⟨k, hk⟩ : ∃ k, k = (a.exp - 1) + (b.exp - 1) + c := ⟨_, rfl⟩
      have e2 : a.mag F * b.mag F * 2 ^ c = a.sig F * b.sig F * 2 ^ k := by
        unfold Bits.mag; rw [hk, pow_add, pow_add]; ring
      have hM0 : a.sig F * b.sig F ≠ 0 := by
        intro hz; rw [hz, zero_mul] at e2; exact hP0 e2
      have hM : a.sig F * b.sig F < 2 ^ (G.mw + 1) := by
        calc a.sig F * b.sig F < 2 ^ (F.mw + 1) * 2 ^ (F.mw + 1) := Nat.mul_lt_mul'' hsa hsb
          _ = 2 ^ (2 * (F.mw + 1)) := by rw [← pow_add]; congr 1; ring
          _ ≤ _ := Nat.pow_le_pow_right (by norm_num) (by omega)
      have hfit : a.sig F * b.sig F * 2 ^ k < 2 ^ (G.mw + 1) * 2 ^ (G.expInf - 2) := by
        have hA := mag_lt F h.ewF a ha (fin_lt ha fa)
        have hB := mag_lt F h.ewF b hb (fin_lt hb fb)
        rw [← e2]
        calc a.mag F * b.mag F * 2 ^ c
            < (2 ^ (F.mw + 1) * 2 ^ (F.expInf - 2)) * (2 ^ (F.mw + 1) * 2 ^ (F.expInf - 2)) * 2 ^ c :=
              Nat.mul_lt_mul_of_pos_right (Nat.mul_lt_mul'' hA hB) (by positivity)
          _ = 2 ^ (2 * (F.mw + 1) + 2 * (F.expInf - 2) + c) := by
              rw [← pow_add, ← pow_add, ← pow_add]; congr 1; ring
          _ ≤ 2 ^ (G.mw + 1 + (G.expInf - 2)) := Nat.pow_le_pow_right (by norm_num) (by omega)
          _ = _ := by rw [pow_add]
      obtain ⟨v1, v2, v3, v4⟩ := encode_repr G h.ewG s _ k hM0 hM hfit
      rw [← e2] at v1 v2 v3 v4
      rw [fconv_back h _ v3, v1, v4, hc, add_comm J c, rneShift_shift F s _ c J h0]

/-- Both pairs of formats. -/
theorem fmul_double32 (a b : Bits) (ha : a.WF b32) (hb : b.WF b32) :
    fconv b64 b32 (fmul b64 (fconv b32 b64 a) (fconv b32 b64 b)) = fmul b32 a b :=
  fmul_double wider32 (by decide) (by decide) (by decide) a b ha hb

theorem fmul_double64 (a b : Bits) (ha : a.WF b64) (hb : b.WF b64) :
    fconv b128 b64 (fmul b128 (fconv b64 b128 a) (fconv b64 b128 b)) = fmul b64 a b :=
  fmul_double wider64 (by decide) (by decide) (by decide) a b ha hb

end Verif.Fp
