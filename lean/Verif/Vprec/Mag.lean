import Verif.Vprec.Lemmas
import Verif.Float.Encode

/-! VPREC rounding described on integer magnitudes. -/

namespace Verif.Vprec
open Verif Verif.Fp

/-- `n / 2^c` rounded as the code does: to nearest, ties to even, except that exactly
one half is rounded up. -/
def denN (n c : Nat) : Nat := if 2 * n = 2 ^ c then 1 else rneShift n c

/-- Position of the last bit kept. -/
def rndPos (p cmin n : Nat) : Nat := max (Nat.log2 n - p) cmin

/-- Rounded magnitude. -/
def rnd (p cmin n : Nat) : Nat := denN n (rndPos p cmin n) * 2 ^ rndPos p cmin n

theorem denN_of_ge (n c : Nat) (h : 2 ^ c ≤ n) : denN n c = rneShift n c := by
  unfold denN
  have : 0 < 2 ^ c := by positivity
  rw [if_neg (by omega)]

theorem denN_mul (n c D : Nat) : denN (n * 2 ^ D) (D + c) = denN n c := by
  unfold denN
  rw [rneShift_mul_add]
  have hp : 0 < 2 ^ D := by positivity
  have : 2 * (n * 2 ^ D) = 2 ^ (D + c) ↔ 2 * n = 2 ^ c := by
    rw [pow_add, mul_comm (2 ^ D), ← mul_assoc]
    exact Nat.mul_left_inj (by omega)
  simp only [this]

theorem rneShift_small (n c : Nat) (h : 2 * n ≤ 2 ^ c) : rneShift n c = 0 := by
  have hp : 0 < 2 ^ c := by positivity
  have hlt : n < 2 ^ c := by omega
  unfold rneShift
  rw [Nat.mod_eq_of_lt hlt, Nat.div_eq_of_lt hlt, if_neg (by omega)]

theorem rneShift_one (n c : Nat) (h1 : 2 ^ c < 2 * n) (h2 : 2 * n < 3 * 2 ^ c) : rneShift n c = 1 := by
  have hp : 0 < 2 ^ c := by positivity
  unfold rneShift
  by_cases hlt : n < 2 ^ c
  · rw [Nat.mod_eq_of_lt hlt, Nat.div_eq_of_lt hlt, if_pos (by omega)]
  · have hd : n / 2 ^ c = 1 := Nat.div_eq_of_lt_le (by omega) (by omega)
    have hm := Nat.div_add_mod n (2 ^ c)
    rw [hd] at hm
    rw [hd, if_neg (by omega)]

theorem rneShift_two (n c : Nat) (h1 : 3 * 2 ^ c ≤ 2 * n) (h2 : n < 2 * 2 ^ c) : rneShift n c = 2 := by
  have hp : 0 < 2 ^ c := by positivity
  unfold rneShift
  have hd : n / 2 ^ c = 1 := Nat.div_eq_of_lt_le (by omega) (by omega)
  have hm := Nat.div_add_mod n (2 ^ c)
  rw [hd] at hm
  rw [hd, if_pos (by omega)]

theorem needs_rne (F : Fmt) (s m : Nat) (hs : s < F.mw) :
    (2 ^ F.mw + m) / 2 ^ s + (if needs m s then 1 else 0) = rneShift (2 ^ F.mw + m) s := by
  have hpos : 0 < 2 ^ s := by positivity
  obtain ⟨p, hp⟩ : ∃ p, F.mw = s + (p + 1) := ⟨F.mw - s - 1, by omega⟩
  have e : 2 ^ F.mw + m = m + 2 * 2 ^ p * 2 ^ s := by rw [hp, pow_add, pow_succ]; ring
  rw [e, rneShift_add_even, Nat.add_mul_div_right _ _ hpos]
  have : rneShift m s = m / 2 ^ s + (if needs m s then 1 else 0) := by
    unfold rneShift needs
    simp only [Bool.or_eq_true, decide_eq_true_eq, Bool.and_eq_true]
    split_ifs <;> rfl
  rw [this]; ring

theorem roundPat_eq (F : Fmt) (x : Bits) (s : Nat) (hs : s < F.mw) (hE : 1 ≤ x.exp) :
    roundPat F s x = (x.exp - 1) * 2 ^ F.mw + rneShift (2 ^ F.mw + x.man) s * 2 ^ s := by
  unfold roundPat
  have hpos : 0 < 2 ^ s := by positivity
  have e1 : x.pat F = (x.exp - 1) * 2 ^ F.mw + (2 ^ F.mw + x.man) := by
    unfold Bits.pat
    obtain ⟨e, he⟩ : ∃ e, x.exp = e + 1 := ⟨x.exp - 1, by omega⟩
    rw [he]; simp only [Nat.add_sub_cancel]; ring
  have e2 : (x.exp - 1) * 2 ^ F.mw = (x.exp - 1) * 2 ^ (F.mw - s) * 2 ^ s := by
    rw [mul_assoc, ← pow_add]; congr 2; omega
  rw [e1, e2, Nat.add_comm, ← Nat.add_comm (2 ^ F.mw + x.man), Nat.add_mul_div_right _ _ hpos, ← needs_rne F s _ hs]
  ring

theorem rne_range (F : Fmt) (m s : Nat) (hs : s ≤ F.mw) (hm : m < 2 ^ F.mw) :
    2 ^ F.mw ≤ rneShift (2 ^ F.mw + m) s * 2 ^ s ∧
    rneShift (2 ^ F.mw + m) s * 2 ^ s ≤ 2 * 2 ^ F.mw := by
  obtain ⟨p, hp⟩ : ∃ p, F.mw = s + p := ⟨F.mw - s, by omega⟩
  have hpos : 0 < 2 ^ s := by positivity
  have hb := rneShift_bounds (2 ^ F.mw + m) s
  have e : 2 ^ F.mw = 2 ^ p * 2 ^ s := by rw [hp, pow_add]; ring
  have h1 : 2 ^ p ≤ (2 ^ F.mw + m) / 2 ^ s := by
    rw [Nat.le_div_iff_mul_le hpos, ← e]; omega
  have h2 : (2 ^ F.mw + m) / 2 ^ s < 2 * 2 ^ p := by
    rw [Nat.div_lt_iff_lt_mul hpos, mul_assoc, ← e]; omega
  constructor
  · rw [e]; apply Nat.mul_le_mul_right; rw [← e]; omega
  · calc rneShift (2 ^ F.mw + m) s * 2 ^ s ≤ (2 * 2 ^ p) * 2 ^ s := Nat.mul_le_mul_right _ (by omega)
      _ = 2 * 2 ^ F.mw := by rw [e]; ring

/-- The normal path, on magnitudes. -/
theorem roundNormal_mag (sem : ShiftSem) (F : Fmt) (w : Nat) (x : Bits) (p : Nat)
    (hw : F.mw < w) (hp1 : 1 ≤ p) (hp : p < F.mw) (hx : x.WF F) (hfin : x.exp < F.expInf)
    (hE : 1 ≤ x.exp) :
    ∃ y, roundNormal sem F w x p = .ok y ∧ y.sign = x.sign ∧ x.exp ≤ y.exp ∧ y.exp ≤ x.exp + 1 ∧
      y.man < 2 ^ F.mw ∧
      y.mag F = rneShift (x.mag F) (F.mw + (x.exp - 1) - p) * 2 ^ (F.mw + (x.exp - 1) - p) ∧
      (y.exp = x.exp + 1 → y.man = 0) := by
  refine ⟨_, roundNormal_eq sem F w x p hw hp hx hfin hE, ?_⟩
  obtain ⟨_, hm⟩ := hx
  have hrr := rne_range F x.man (F.mw - p) (by omega) hm
  rw [roundPat_eq F x (F.mw - p) (by omega) hE]
  have hR : rneShift (x.mag F) (F.mw + (x.exp - 1) - p) * 2 ^ (F.mw + (x.exp - 1) - p)
      = rneShift (2 ^ F.mw + x.man) (F.mw - p) * 2 ^ (F.mw - p) * 2 ^ (x.exp - 1) := by
    rw [show F.mw + (x.exp - 1) - p = (x.exp - 1) + (F.mw - p) by omega, mag_normal F x (by omega),
      rneShift_mul_add, pow_add]; ring
  rw [hR]
  generalize rneShift (2 ^ F.mw + x.man) (F.mw - p) * 2 ^ (F.mw - p) = R at *
  obtain ⟨e, he⟩ : ∃ e, x.exp = e + 1 := ⟨x.exp - 1, by omega⟩
  rw [he] at *
  simp only [Nat.add_sub_cancel]
  by_cases hc : R < 2 * 2 ^ F.mw
  · have e1 : e * 2 ^ F.mw + R = (e + 1) * 2 ^ F.mw + (R - 2 ^ F.mw) := by
      rw [Nat.add_mul]; omega
    rw [e1, ofPat_mk F _ _ _ (by omega)]
    refine ⟨rfl, le_rfl, Nat.le_succ _, ?_, ?_, ?_⟩
    · show R - 2 ^ F.mw < _; omega
    · rw [mag_normal F _ (by simp)]
      simp only [Nat.add_sub_cancel]
      rw [Nat.add_sub_cancel' hrr.1]
    · simp
  · have hR2 : R = 2 * 2 ^ F.mw := by omega
    have e1 : e * 2 ^ F.mw + R = (e + 1 + 1) * 2 ^ F.mw + 0 := by
      rw [hR2]; ring
    rw [e1, ofPat_mk F _ _ _ (by positivity)]
    refine ⟨rfl, ?_, le_rfl, ?_, ?_, fun _ => rfl⟩
    · show e + 1 ≤ e + 1 + 1; omega
    · show 0 < 2 ^ F.mw; positivity
    · rw [mag_normal F _ (by simp), hR2]
      simp only [Nat.add_sub_cancel, pow_succ]; ring

/-- Under wrapping shifts and full precision the normal path is the identity. -/
theorem roundNormal_full (F : Fmt) (w : Nat) (x : Bits) (hw : F.mw < w) (hx : x.WF F) :
    roundNormal .wrap F w x F.mw = .ok x := by
  obtain ⟨_, hm⟩ := hx
  have hw0 : 0 < w := by omega
  have hwr : ∀ (v : Nat) (i : Int), ∃ r, cShl .wrap w v i = .ok r := by
    intro v i; unfold cShl; split_ifs <;> exact ⟨_, rfl⟩
  unfold roundNormal
  rw [cShl_in .wrap w _ _ 0 (by simp) hw0]
  have hneg1 : cShl .wrap w 1 ((F.mw : Int) - F.mw - 1) = .ok (2 ^ (w - 1)) := by
    unfold cShl
    rw [if_neg (by omega)]
    have : ((F.mw : Int) - F.mw - 1) % (w : Int) = (w - 1 : ℕ) := by
      have : ((F.mw : Int) - F.mw - 1) = (w - 1 : ℕ) + (w : Int) * (-1) := by push_cast [hw0]; ring
      rw [this, Int.add_mul_emod_self_left, Int.emod_eq_of_lt (by omega) (by omega)]
    simp only [this, Int.toNat_natCast, one_mul]
    rw [Nat.mod_eq_of_lt (Nat.pow_lt_pow_right (by norm_num) (by omega))]
  have hneeds : needsRounding .wrap F w x F.mw = .ok false := by
    unfold needsRounding
    rw [cShl_one_in .wrap w _ 0 (by simp) hw0, cShr_in .wrap w _ _ 0 (by simp) hw0, hneg1]
    simp only [Outcome.bind_ok, Outcome.pure_eq]
    have : (2 ^ 0 + (2 ^ w - 1)) % 2 ^ w = 2 ^ 0 - 1 := mask_pred w 0 (by omega)
    rw [this]
    have h2 : 0 < 2 ^ (w - 1) := by positivity
    have h3 : ¬ (0 = 2 ^ (w - 1)) := by omega
    simp [h3]
  obtain ⟨r, hr⟩ := hwr 1 ((F.mw : Int) - 1 + ((x.exp : Int) - F.mw - 1))
  rw [hneeds]
  simp only [Outcome.bind_ok, Outcome.pure_eq, hr]
  have hmask : x.man &&& (2 ^ w - 1) * 2 ^ 0 % 2 ^ w = x.man := by
    rw [highmask w 0 (by omega), and_highmask _ _ _ (by omega)]
    · simp
    · exact lt_trans hm (Nat.pow_lt_pow_right (by norm_num) hw)
  simp only [Bool.false_eq_true, if_false, hmask]
  split_ifs <;> rfl

/-! ## The binary128 path -/

theorem b128_facts : b128.mw = 112 ∧ b128.ew = 15 ∧ b128.bias = 16383 ∧ b128.expInf = 32767 ∧
    b128.uexp = -16494 := by
  refine ⟨rfl, rfl, rfl, rfl, ?_⟩
  unfold Fmt.uexp; rw [show b128.bias = 16383 from rfl, show b128.mw = 112 from rfl]; norm_num

theorem b64_facts : b64.mw = 52 ∧ b64.ew = 11 ∧ b64.bias = 1023 ∧ b64.expInf = 2047 ∧
    b64.uexp = -1074 := by
  refine ⟨rfl, rfl, rfl, rfl, ?_⟩
  unfold Fmt.uexp; rw [show b64.bias = 1023 from rfl, show b64.mw = 52 from rfl]; norm_num

theorem b32_facts : b32.mw = 23 ∧ b32.ew = 8 ∧ b32.bias = 127 ∧ b32.expInf = 255 ∧
    b32.uexp = -149 := by
  refine ⟨rfl, rfl, rfl, rfl, ?_⟩
  unfold Fmt.uexp; rw [show b32.bias = 127 from rfl, show b32.mw = 23 from rfl]; norm_num

theorem mag_pow (F : Fmt) (s : Bool) (e : Nat) :
    ({ sign := s, exp := e + 1, man := 0 } : Bits).mag F = 2 ^ (F.mw + e) := by
  rw [mag_normal F _ (by simp)]
  simp [pow_add]

/-- Adding the half unit to a number whose exponent is the one of the half unit or the
next one. -/
theorem underflow128_mag (q : Bits) (emin p : Int) (h C : Nat)
    (hh : 16382 + (emin - p) = ((h + 1 : ℕ) : Int)) (hlt : h < 30000) (hC : C = 113 + h)
    (hq : q.WF b128) (hE : 1 ≤ q.exp) (hle : q.exp ≤ h + 2) :
    (denN (q.mag b128) C = 0 → underflow128 q emin p = zeroBits false) ∧
    (denN (q.mag b128) C ≠ 0 →
      ∃ e, underflow128 q emin p = ⟨q.sign, e + 1, 0⟩ ∧ e + 1 < 32767 ∧
        (2 : ℕ) ^ (112 + e) = denN (q.mag b128) C * 2 ^ C) := by
  obtain ⟨hmw, hew, hbias, hinf, _⟩ := b128_facts
  obtain ⟨_, hm⟩ := hq
  rw [hmw] at hm
  have hexp : ((b128.bias + (emin - p) - 1) % 2 ^ b128.ew).toNat = h + 1 := by
    rw [hbias, hew]
    have : ((16383 : ℕ) : Int) + (emin - p) - 1 = ((h + 1 : ℕ) : Int) := by rw [← hh]; push_cast; ring
    rw [this, Int.emod_eq_of_lt (by omega) (by push_cast; omega), Int.toNat_natCast]
  have hqm := mag_normal b128 q (by omega)
  rw [hmw] at hqm
  have hhm := mag_pow b128 q.sign h
  rw [hmw] at hhm
  unfold underflow128
  simp only [hexp]
  obtain ⟨k, hk⟩ : ∃ k, q.exp = k + 1 := ⟨q.exp - 1, by omega⟩
  rw [hk] at hqm
  simp only [Nat.add_sub_cancel] at hqm
  have hkp : 0 < 2 ^ k := by positivity
  have hadd : fadd b128 q ⟨q.sign, h + 1, 0⟩ =
      encode b128 q.sign ((2 ^ 112 + q.man) * 2 ^ k + 2 ^ (112 + h)) 0 := by
    rw [fadd_same_sign b128 q ⟨q.sign, h + 1, 0⟩ (by rw [hinf]; omega) (by rw [hinf]; simp; omega) rfl
      (by rw [hqm]; positivity), hqm, hhm]
  have hCp : 2 ^ C = 2 * 2 ^ (112 + h) := by rw [hC, ← pow_succ']; congr 1; omega
  by_cases hge : q.exp ≥ h + 1
  · rw [if_pos hge, hadd]
    have hcase : k = h ∨ k = h + 1 := by omega
    rcases hcase with hkh | hkh
    · -- carry, result one unit
      have hN : denN (q.mag b128) C = 1 := by
        unfold denN
        split_ifs with h2
        · rfl
        · apply rneShift_one
          · rw [hqm, hCp] at *
            have : 2 ^ (112 + h) ≤ (2 ^ 112 + q.man) * 2 ^ k := by
              rw [pow_add, hkh]; exact Nat.mul_le_mul_right _ (by omega)
            omega
          · rw [hqm, hCp]
            have : (2 ^ 112 + q.man) * 2 ^ k < 2 * 2 ^ 112 * 2 ^ h := by
              rw [hkh]; exact Nat.mul_lt_mul_of_pos_right (by omega) (by positivity)
            have e : 2 ^ (112 + h) = 2 ^ 112 * 2 ^ h := pow_add _ _ _
            rw [e]; nlinarith [this]
      rw [hN]
      refine ⟨by simp, fun _ => ⟨h + 1, ?_, by omega, by rw [hC, one_mul]; congr 1; omega⟩⟩
      have e : (2 ^ 112 + q.man) * 2 ^ k + 2 ^ (112 + h) = (2 ^ 113 + q.man) * 2 ^ h := by
        rw [hkh, pow_add]; ring
      rw [e, encode_carry b128 _ _ _ (by rw [hmw]; omega) (by rw [hmw]; omega), hmw, hinf]
      have hb := rneShift_bounds (2 ^ 113 + q.man) 1
      have hr : rneShift (2 ^ 113 + q.man) 1 = 2 ^ 112 + (rneShift (2 ^ 113 + q.man) 1 - 2 ^ 112) := by
        omega
      have hr2 : rneShift (2 ^ 113 + q.man) 1 - 2 ^ 112 < 2 ^ 112 := by omega
      have e2 : (h + 1) * 2 ^ 112 + rneShift (2 ^ 113 + q.man) 1 =
          (h + 1 + 1) * 2 ^ b128.mw + (rneShift (2 ^ 113 + q.man) 1 - 2 ^ 112) := by
        rw [hmw]; omega
      rw [if_pos (by omega), e2, ofPat_mk _ _ _ _ (by rw [hmw]; exact hr2)]
    · by_cases hmm : q.man < 2 ^ 111
      · have hN : denN (q.mag b128) C = 1 := by
          rw [denN_of_ge]
          · apply rneShift_one
            · rw [hqm, hC, show 113 + h = 112 + k by omega, pow_add]
              have : 2 ^ 112 * 2 ^ k ≤ (2 ^ 112 + q.man) * 2 ^ k := Nat.mul_le_mul_right _ (by omega)
              have : 0 < 2 ^ 112 * 2 ^ k := by positivity
              omega
            · rw [hqm, hC, show 113 + h = 112 + k by omega, pow_add]
              have : (2 * (2 ^ 112 + q.man)) * 2 ^ k < (3 * 2 ^ 112) * 2 ^ k :=
                Nat.mul_lt_mul_of_pos_right (by omega) (by positivity)
              linarith [this]
          · rw [hqm, hC, show 113 + h = 112 + k by omega, pow_add]
            exact Nat.mul_le_mul_right _ (by omega)
        rw [hN]
        refine ⟨by simp, fun _ => ⟨h + 1, ?_, by omega, by rw [hC, one_mul]; congr 1; omega⟩⟩
        have e : (2 ^ 112 + q.man) * 2 ^ k + 2 ^ (112 + h) = (2 ^ 112 + q.man + 2 ^ 111) * 2 ^ k := by
          rw [hkh, show 112 + h = 111 + (h + 1) by omega, pow_add 2 111]; ring
        rw [e, encode_exact b128 _ _ _ (by rw [hmw]; omega) (by rw [hmw]; omega), hmw, hinf]
        have e2 : k * 2 ^ 112 + (2 ^ 112 + q.man + 2 ^ 111) =
            (h + 1 + 1) * 2 ^ b128.mw + (q.man + 2 ^ 111) := by
          rw [hmw]; omega
        rw [if_pos (by omega), e2, ofPat_mk _ _ _ _ (by rw [hmw]; omega)]
      · have hN : denN (q.mag b128) C = 2 := by
          rw [denN_of_ge]
          · apply rneShift_two
            · rw [hqm, hC, show 113 + h = 112 + k by omega, pow_add]
              have : (3 * 2 ^ 112) * 2 ^ k ≤ (2 * (2 ^ 112 + q.man)) * 2 ^ k :=
                Nat.mul_le_mul_right _ (by omega)
              linarith [this]
            · rw [hqm, hC, show 113 + h = 112 + k by omega, pow_add]
              have : (2 ^ 112 + q.man) * 2 ^ k < (2 * 2 ^ 112) * 2 ^ k :=
                Nat.mul_lt_mul_of_pos_right (by omega) (by positivity)
              linarith [this]
          · rw [hqm, hC, show 113 + h = 112 + k by omega, pow_add]
            exact Nat.mul_le_mul_right _ (by omega)
        rw [hN]
        refine ⟨by simp, fun _ => ⟨h + 2, ?_, by omega, ?_⟩⟩
        · have e : (2 ^ 112 + q.man) * 2 ^ k + 2 ^ (112 + h) = (2 ^ 112 + q.man + 2 ^ 111) * 2 ^ k := by
            rw [hkh, show 112 + h = 111 + (h + 1) by omega, pow_add 2 111]; ring
          rw [e, encode_carry b128 _ _ _ (by rw [hmw]; omega) (by rw [hmw]; omega), hmw, hinf]
          have hb := rneShift_bounds (2 ^ 112 + q.man + 2 ^ 111) 1
          have hr2 : rneShift (2 ^ 112 + q.man + 2 ^ 111) 1 - 2 ^ 112 < 2 ^ 112 := by omega
          have e2 : (k + 1) * 2 ^ 112 + rneShift (2 ^ 112 + q.man + 2 ^ 111) 1 =
              (h + 2 + 1) * 2 ^ b128.mw + (rneShift (2 ^ 112 + q.man + 2 ^ 111) 1 - 2 ^ 112) := by
            rw [hmw]; omega
          rw [if_pos (by omega), e2, ofPat_mk _ _ _ _ (by rw [hmw]; exact hr2)]
        · rw [hC, ← pow_succ']; congr 1; omega
  · rw [if_neg hge]
    have hN : denN (q.mag b128) C = 0 := by
      have hlt2 : 2 * q.mag b128 < 2 ^ C := by
        have h1 : (2 ^ 112 + q.man) * 2 ^ k < (2 * 2 ^ 112) * 2 ^ k :=
          Nat.mul_lt_mul_of_pos_right (by omega) hkp
        have h2 : 2 ^ (114 + k) ≤ 2 ^ C := Nat.pow_le_pow_right (by norm_num) (by omega)
        have h3 : 2 ^ (114 + k) = 4 * 2 ^ 112 * 2 ^ k := by rw [pow_add]; norm_num
        rw [hqm]
        calc 2 * ((2 ^ 112 + q.man) * 2 ^ k) < 2 * ((2 * 2 ^ 112) * 2 ^ k) := by omega
          _ = 2 ^ (114 + k) := by rw [h3]; ring
          _ ≤ _ := h2
      unfold denN
      rw [if_neg (by omega), rneShift_small _ _ (by omega)]
    rw [hN]; simp

end Verif.Vprec
