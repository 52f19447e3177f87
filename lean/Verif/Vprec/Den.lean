import Verif.Vprec.Mag

/-! The gradual-underflow path described on integer magnitudes. -/

namespace Verif.Vprec
open Verif Verif.Fp

theorem denN_le (n c p : Nat) (h : n ≤ 2 ^ (p + c)) : denN n c ≤ 2 ^ p := by
  have hc : 0 < 2 ^ c := by positivity
  have hp : 0 < 2 ^ p := by positivity
  unfold denN
  split_ifs
  · omega
  · by_cases h2 : n = 2 ^ (p + c)
    · rw [h2, pow_add, rneShift_mul]
    · have hb := rneShift_bounds n c
      have : n / 2 ^ c < 2 ^ p := by
        rw [Nat.div_lt_iff_lt_mul hc, ← pow_add]; omega
      omega

/-- `_round_binary_denormal` for every finite nonzero double below `2^emin`. -/
theorem roundDenormal64_eq (sem : ShiftSem) (x : Bits) (emin : Int) (p : Nat) (c : Nat)
    (hp1 : 1 ≤ p) (hp : p ≤ 52) (hc : emin - p + 1074 = c) (hemin : emin ≤ 0)
    (hx : x.WF b64) (hfin : x.exp < b64.expInf) (hne : x.mag b64 ≠ 0)
    (hlt : x.mag b64 < 2 ^ (p + c)) :
    roundDenormal64 sem x emin p =
      .ok (if denN (x.mag b64) c = 0 then zeroBits false
           else encode b64 x.sign (denN (x.mag b64) c * 2 ^ c) 0) := by
  obtain ⟨hmw, hew, hbias, hinf, huexp⟩ := b128_facts
  obtain ⟨hmw', hew', hbias', hinf', huexp'⟩ := b64_facts
  have hc1074 : c ≤ 1073 := by omega
  obtain ⟨D, hD⟩ : ∃ D : ℕ, D = 15420 := ⟨_, rfl⟩
  obtain ⟨hqs, hqwf, hqfin, hqmag⟩ := fconv_widen b64 b128 (by rw [hew']; omega) (by rw [hew]; omega)
    x D (by rw [huexp, huexp', hD]; norm_num) (by omega) (by rw [hinf, hinf']; omega) hx hfin hne
  unfold roundDenormal64
  generalize hq : fconv b64 b128 x = q at *
  have hn1 : 1 ≤ x.mag b64 := by omega
  have hqge : 2 ^ D ≤ q.mag b128 := by
    rw [hqmag]; exact Nat.le_mul_of_pos_left _ hn1
  have hqE : 1 ≤ q.exp := by
    by_contra h0
    have h00 : q.exp = 0 := by omega
    rw [mag_subnormal b128 q h00] at hqge
    have h1 := hqwf.2
    rw [hmw] at h1
    have h2 : 2 ^ 112 ≤ 2 ^ D := Nat.pow_le_pow_right (by norm_num) (by omega)
    exact absurd (lt_of_le_of_lt (le_trans h2 hqge) h1) (lt_irrefl _)
  have hlog := log2_mag_normal b128 q hqwf.2 hqE
  rw [hmw, hqmag, log2_mul_pow _ _ hne] at hlog
  have hL : Nat.log2 (x.mag b64) < p + c := (Nat.log2_lt hne).2 hlt
  rw [hqmag] at hqge
  -- position of the last bit kept, in units of the smallest binary128 subnormal
  have hNq : denN (q.mag b128) (D + c) = denN (x.mag b64) c := by rw [hqmag, denN_mul]
  have hNle : denN (x.mag b64) c ≤ 2 ^ p := denN_le _ _ _ hlt.le
  have hfitN : denN (x.mag b64) c * 2 ^ c ≤ 2 ^ (p + c) := by
    rw [pow_add]; exact Nat.mul_le_mul_right _ hNle
  have hnar : ∀ y : Bits, y.sign = x.sign → y.exp < 32767 → denN (x.mag b64) c ≠ 0 →
      y.mag b128 = denN (x.mag b64) c * 2 ^ (D + c) →
      fconv b128 b64 y = encode b64 x.sign (denN (x.mag b64) c * 2 ^ c) 0 := by
    intro y hs he hN hm
    rw [← hs]
    apply fconv_narrow b128 b64 y D _ (by rw [huexp, huexp', hD]; norm_num) (by rw [hinf]; exact he)
      (by positivity)
    rw [hm, mul_assoc, ← pow_add, Nat.add_comm c]
  have hhalf : ((b128.bias + (emin - (p : Int)) - 1) % 2 ^ b128.ew).toNat = c + 15307 + 1 := by
    rw [hbias, hew]
    have : ((16383 : ℕ) : Int) + (emin - (p : Int)) - 1 = ((c + 15307 + 1 : ℕ) : Int) := by
      push_cast; omega
    rw [this, Int.emod_eq_of_lt (by omega) (by push_cast; omega), Int.toNat_natCast]
  simp only [hbias, hhalf]
  simp only [hbias] at hhalf
  simp only [hhalf]
  by_cases hloss : emin - ((q.exp : Int) - ((16383 : ℕ) : Int)) ≥ (p : Int)
  · -- at or below the unit
    rw [if_pos hloss]
    simp only [Outcome.pure_eq, Outcome.ok.injEq]
    obtain ⟨hU0, hU1⟩ := underflow128_mag q emin p (c + 15307) (D + c)
      (by push_cast; omega) (by omega) (by omega) hqwf hqE (by omega)
    rw [hNq] at hU0 hU1
    by_cases hN : denN (x.mag b64) c = 0
    · rw [if_pos hN, hU0 hN, fconv_zero b128 b64 (by rw [hew]; omega) (by rw [hew']; omega)]
    · rw [if_neg hN]
      obtain ⟨e, he, he2, he3⟩ := hU1 hN
      rw [he]
      refine hnar _ hqs (by simpa using he2) hN ?_
      rw [mag_pow, hmw, he3]
  · rw [if_neg hloss]
    -- ordinary rounding of the quad
    obtain ⟨p', hp'⟩ : ∃ p' : ℕ, (p : Int) - (emin - ((q.exp : Int) - ((16383 : ℕ) : Int))) = p' :=
      ⟨((p : Int) - (emin - ((q.exp : Int) - ((16383 : ℕ) : Int)))).toNat, by omega⟩
    have hp'1 : 1 ≤ p' := by omega
    have hp'2 : p' < 112 := by omega
    obtain ⟨y, hy, hys, hye, hye2, hym, hymag, _⟩ := roundNormal_mag sem b128 128 q p' (by rw [hmw]; omega) hp'1
      (by rw [hmw]; exact hp'2) hqwf hqfin hqE
    have hneg : isNeg x = x.sign := by
      have : ¬ x.isZero := by rw [← mag_eq_zero b64]; exact hne
      unfold isNeg; simp [this]
    have hnegq : isNeg q = x.sign := by
      have : ¬ q.isZero := by unfold Bits.isZero; omega
      unfold isNeg; simp [this, hqs]
    rw [hp']
    unfold roundNormal at hy
    dsimp only at hy
    rw [hnegq, if_neg (by omega)] at hy
    have hexpH : (((q.exp : Int) - (p' : Int) - 1) % 2 ^ b128.ew).toNat = c + 15307 + 1 := by
      rw [← hhalf]; congr 2; omega
    rw [hexpH] at hy
    have hsh : (b128.mw : Int) - (p : Int) + (emin - ((q.exp : Int) - ((16383 : ℕ) : Int))) =
        (b128.mw : Int) - (p' : Int) := by omega
    rw [hneg, hsh]
    obtain ⟨m, hm⟩ : ∃ m, cShl sem 128 (2 ^ 128 - 1) ((b128.mw : Int) - (p' : Int)) = .ok m :=
      ⟨_, cShl_in sem 128 _ _ (112 - p') (by rw [hmw]; omega) (by omega)⟩
    obtain ⟨b, hb⟩ : ∃ b, needsRounding sem b128 128 q (p' : Int) = .ok b :=
      ⟨_, needsRounding_eq sem b128 128 q p' (112 - p') (by rw [hmw]; omega) (by omega) (by omega)⟩
    rw [hm, hb] at hy ⊢
    simp only [Outcome.bind_ok, Outcome.pure_eq, Outcome.ok.injEq] at hy ⊢
    generalize (if b = true then fadd b128 q ⟨x.sign, c + 15307 + 1, 0⟩ else q) = z at hy ⊢
    have hze : z.exp = y.exp := by rw [← hy]
    rw [hy, hze, if_neg (by omega)]
    have hCC : b128.mw + (q.exp - 1) - p' = D + c := by rw [hmw]; omega
    rw [hCC, ← denN_of_ge, hNq] at hymag
    · have hN : denN (x.mag b64) c ≠ 0 := by
        intro h0
        rw [h0, Nat.zero_mul, mag_eq_zero] at hymag
        unfold Bits.isZero at hymag; omega
      rw [if_neg hN]
      refine hnar y (hys.trans hqs) (by omega) hN hymag
    · rw [← Nat.le_log2 (by rw [hqmag]; positivity), hqmag, log2_mul_pow _ _ hne]
      omega

/-- Format, word width and range parameters of the C types: `float` and `double`. -/
def IsC (F : Fmt) (w : Nat) : Prop := (F = b32 ∧ w = 32) ∨ (F = b64 ∧ w = 64)

/-- `handle_binaryN_denormal`. -/
theorem handleDenormal_eq (sem : ShiftSem) (F : Fmt) (w : Nat) (hF : IsC F w) (x : Bits) (emin : Int)
    (p c : Nat) (hp1 : 1 ≤ p) (hp : p ≤ F.mw) (hc : emin - p - F.uexp = c) (hemin : emin ≤ 0)
    (hr : emin = 1 - (F.bias : Int) ∨ 2 - (F.bias : Int) ≤ emin - p)
    (hx : x.WF F) (hne : x.mag F ≠ 0) (hlt : (x.exp : Int) - F.bias < emin) :
    handleDenormal sem F x emin p =
      .ok (if denN (x.mag F) c = 0 then zeroBits false
           else encode F x.sign (denN (x.mag F) c * 2 ^ c) 0) := by
  obtain ⟨hmw', hew', hbias', hinf', huexp'⟩ := b64_facts
  obtain ⟨hmw3, hew3, hbias3, hinf3, huexp3⟩ := b32_facts
  have hu : F.uexp = 1 - (F.bias : Int) - F.mw := rfl
  have hfin : x.exp < F.expInf := by
    rcases hF with ⟨rfl, _⟩ | ⟨rfl, _⟩ <;> omega
  have hew2 : 2 ≤ F.ew := by rcases hF with ⟨rfl, _⟩ | ⟨rfl, _⟩ <;> omega
  -- bound on the magnitude
  have hLt : x.mag F < 2 ^ (p + c) := by
    by_cases h0 : x.exp = 0
    · rw [mag_subnormal F x h0]
      refine lt_of_lt_of_le hx.2 (Nat.pow_le_pow_right (by norm_num) ?_)
      omega
    · rw [← Nat.log2_lt hne, log2_mag_normal F x hx.2 (by omega)]
      omega
  unfold handleDenormal
  by_cases hU : hasUnderflow F x emin p = true
  · rw [if_pos hU]
    have hU' : (x.exp : Int) - F.bias < emin - p := by simpa [hasUnderflow] using hU
    have hr2 : 2 - (F.bias : Int) ≤ emin - p := by omega
    simp only [Outcome.pure_eq, Outcome.ok.injEq]
    obtain ⟨h, hh⟩ : ∃ h : ℕ, (F.bias : Int) + (emin - p) - 1 = (h + 1 : ℕ) :=
      ⟨((F.bias : Int) + (emin - p) - 2).toNat, by omega⟩
    have hhlt : h + 2 < 2 ^ F.ew ∧ h + 2 < F.expInf := by
      rcases hF with ⟨rfl, _⟩ | ⟨rfl, _⟩
      · rw [hew3, hinf3]; constructor
        · norm_num; omega
        · omega
      · rw [hew', hinf']; constructor
        · norm_num; omega
        · omega
    have hexp : (((F.bias : Int) + (emin - p) - 1) % 2 ^ F.ew).toNat = h + 1 := by
      rw [hh, Int.emod_eq_of_lt (by omega)]
      · exact Int.toNat_natCast _
      · exact_mod_cast (by omega : h + 1 < 2 ^ F.ew)
    have hcm : c = F.mw + (h + 1) := by omega
    unfold roundUnderflow
    simp only [hexp]
    have hpp : 0 < 2 ^ (F.mw + h) := by positivity
    have hcp : 2 ^ c = 2 * 2 ^ (F.mw + h) := by rw [hcm, ← pow_succ']; congr 1
    by_cases hge : x.exp ≥ h + 1
    · rw [if_pos hge]
      have hxe : x.exp = h + 1 := by omega
      have hxm := mag_normal F x (by omega)
      rw [hxe] at hxm
      simp only [Nat.add_sub_cancel] at hxm
      have h1 : 2 ^ (F.mw + h) ≤ x.mag F := by
        rw [hxm, pow_add]; exact Nat.mul_le_mul_right _ (by omega)
      have h2 : x.mag F < 2 * 2 ^ (F.mw + h) := by
        rw [hxm, pow_add, ← mul_assoc]
        exact Nat.mul_lt_mul_of_pos_right (by have := hx.2; omega) (by positivity)
      have hN : denN (x.mag F) c = 1 := by
        unfold denN
        split_ifs with h3
        · rfl
        · apply rneShift_one
          · omega
          · omega
      rw [hN, if_neg (by simp), one_mul]
      have hmp := mag_pow F x.sign (h + 1)
      rw [hcm, ← hmp]
      rw [show h + 1 + 1 = h + 2 by rfl, Nat.mod_eq_of_lt hhlt.1]
      symm
      have he := encode_mag F hew2 ⟨x.sign, h + 1 + 1, 0⟩ ⟨hhlt.1, by positivity⟩ hhlt.2
      simpa using he
    · rw [if_neg hge]
      have hN : denN (x.mag F) c = 0 := by
        have h2 : 2 * x.mag F < 2 ^ c := by
          rw [hcp]
          apply Nat.mul_lt_mul_of_pos_left _ (by norm_num)
          by_cases h0 : x.exp = 0
          · rw [mag_subnormal F x h0]
            exact lt_of_lt_of_le hx.2 (Nat.pow_le_pow_right (by norm_num) (by omega))
          · rw [← Nat.log2_lt hne, log2_mag_normal F x hx.2 (by omega)]
            omega
        unfold denN
        rw [if_neg (by omega), rneShift_small _ _ (by omega)]
      rw [if_pos hN]
  · rw [if_neg hU, if_pos (by exact_mod_cast hp)]
    rcases hF with ⟨rfl, _⟩ | ⟨rfl, _⟩
    · have hb : ¬ (b32 = b64) := by decide
      obtain ⟨D, hD⟩ : ∃ D : ℕ, D = 925 := ⟨_, rfl⟩
      obtain ⟨hs, hwf, hf, hm⟩ := fconv_widen b32 b64 (by omega) (by omega) x D
        (by rw [huexp3, huexp', hD]; norm_num) (by omega) (by omega) hx hfin hne
      have hmc : c + D ≤ 1073 := by omega
      rw [if_neg hb, roundDenormal64_eq sem (fconv b32 b64 x) emin p (D + c) hp1 (by omega)
        (by push_cast; omega) hemin hwf hf (by rw [hm]; positivity)
        (by rw [hm, show p + (D + c) = (p + c) + D by omega, pow_add _ (p + c)]
            exact Nat.mul_lt_mul_of_pos_right hLt (by positivity))]
      simp only [Outcome.bind_ok, Outcome.pure_eq, Outcome.ok.injEq, if_neg hb]
      rw [hm, denN_mul, hs]
      by_cases hN : denN (x.mag b32) c = 0
      · rw [if_pos hN, if_pos hN, fconv_zero _ _ (by omega) (by omega)]
      · rw [if_neg hN, if_neg hN]
        have hNle : denN (x.mag b32) c ≤ 2 ^ p := denN_le _ _ _ hLt.le
        obtain ⟨es, _, ef, em⟩ := encode_repr b64 (by omega) x.sign (denN (x.mag b32) c) (D + c) hN
          (by
            refine lt_of_le_of_lt hNle (Nat.pow_lt_pow_right (by norm_num) (by omega)))
          (by
            calc denN (x.mag b32) c * 2 ^ (D + c) ≤ 2 ^ p * 2 ^ (D + c) := Nat.mul_le_mul_right _ hNle
              _ = 2 ^ (p + (D + c)) := (pow_add _ _ _).symm
              _ < 2 ^ (b64.mw + 1 + (b64.expInf - 2)) := Nat.pow_lt_pow_right (by norm_num) (by omega)
              _ = _ := by rw [pow_add _ (b64.mw + 1)])
        rw [fconv_narrow b64 b32 _ D (denN (x.mag b32) c * 2 ^ c) (by rw [huexp3, huexp', hD]; norm_num) ef
          (by positivity) (by rw [em, Nat.add_comm D, pow_add, mul_assoc]), es]
    · rw [if_pos rfl, roundDenormal64_eq sem x emin p c hp1 (by omega) (by omega) hemin hx hfin hne hLt]
      simp

end Verif.Vprec
