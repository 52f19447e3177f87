import Verif.Vprec.Model
import Verif.Float.Lemmas

/-! Helper lemmas for the VPREC rounding functions. -/

namespace Verif.Vprec
open Verif Verif.Fp

/-- Pure form of the rounding decision. -/
def needs (m s : Nat) : Bool :=
  decide (2 ^ s < 2 * (m % 2 ^ s)) || (decide (2 * (m % 2 ^ s) = 2 ^ s) && decide (m / 2 ^ s % 2 = 1))

theorem needsRounding_eq (sem : ShiftSem) (F : Fmt) (w : Nat) (x : Bits) (p : Int) (s : Nat)
    (hs : (F.mw : Int) - p = s) (hs1 : 1 ≤ s) (hsw : s < w) :
    needsRounding sem F w x p = .ok (needs x.man s) := by
  unfold needsRounding
  rw [cShl_one_in sem w _ s hs hsw, cShr_in sem w _ _ s hs hsw,
    cShl_one_in sem w _ (s - 1) (by omega) (by omega)]
  simp only [Outcome.bind_ok, Outcome.pure_eq]
  rw [mask_pred w s (by omega), Nat.and_two_pow_sub_one_eq_mod, Nat.and_one_is_mod]
  unfold needs
  have h : 2 ^ s = 2 * 2 ^ (s - 1) := by
    rw [← pow_succ']; congr 1; omega
  have e1 : (x.man % 2 ^ s > 2 ^ (s - 1)) ↔ (2 ^ s < 2 * (x.man % 2 ^ s)) := by omega
  have e2 : (x.man % 2 ^ s = 2 ^ (s - 1)) ↔ (2 * (x.man % 2 ^ s) = 2 ^ s) := by omega
  simp only [e1, e2]

/-- Rounding as an operation on the magnitude pattern. -/
def roundPat (F : Fmt) (s : Nat) (x : Bits) : Nat :=
  (x.pat F / 2 ^ s + (if needs x.man s then 1 else 0)) * 2 ^ s

theorem pat_div (F : Fmt) (x : Bits) (s : Nat) (hs : s ≤ F.mw) :
    x.pat F / 2 ^ s = x.exp * 2 ^ (F.mw - s) + x.man / 2 ^ s := by
  have hpos : 0 < 2 ^ s := by positivity
  unfold Bits.pat
  have : 2 ^ F.mw = 2 ^ (F.mw - s) * 2 ^ s := by rw [← pow_add]; congr 1; omega
  rw [this, ← mul_assoc, Nat.add_comm, Nat.add_mul_div_right _ _ hpos, Nat.add_comm]

theorem needs_ge_half {m s : Nat} (h : needs m s = true) : 2 ^ s ≤ 2 * (m % 2 ^ s) := by
  unfold needs at h
  simp only [Bool.or_eq_true, decide_eq_true_eq, Bool.and_eq_true] at h
  omega

/-- `round_binaryN_normal` is rounding of the magnitude pattern. -/
theorem roundNormal_eq (sem : ShiftSem) (F : Fmt) (w : Nat) (x : Bits) (p : Nat)
    (hw : F.mw < w) (hp : p < F.mw) (hx : x.WF F) (hfin : x.exp < F.expInf) (hE : 1 ≤ x.exp) :
    roundNormal sem F w x p = .ok (ofPat F x.sign (roundPat F (F.mw - p) x)) := by
  obtain ⟨he, hm⟩ := hx
  obtain ⟨s, hs⟩ : ∃ s, s = F.mw - p := ⟨_, rfl⟩
  have hs1 : 1 ≤ s := by omega
  have hsle : s ≤ F.mw := by omega
  have hsI : (F.mw : Int) - (p : Int) = s := by omega
  rw [← hs]
  unfold roundNormal
  rw [cShl_in sem w _ _ s hsI (by omega)]
  simp only [Outcome.bind_ok, Outcome.pure_eq]
  rw [highmask w s (by omega)]
  have hneg : isNeg x = x.sign := by
    unfold isNeg Bits.isZero
    have : ¬ (x.exp = 0 ∧ x.man = 0) := by omega
    simp [this]
  rw [hneg, needsRounding_eq sem F w x p s hsI hs1 (by omega)]
  have hhalfpow : 2 ^ s = 2 * 2 ^ (s - 1) := by
    rw [← pow_succ']; congr 1; omega
  have hmwpow : 2 ^ F.mw = 2 ^ (F.mw - s) * 2 ^ s := by rw [← pow_add]; congr 1; omega
  have hsm : 2 ^ s ≤ 2 ^ F.mw := Nat.pow_le_pow_right (by norm_num) hsle
  have hmw2 : 2 ^ F.mw < 2 ^ w := Nat.pow_lt_pow_right (by norm_num) hw
  -- the half ulp
  obtain ⟨hu, hhu, hhus, hhue, hhum⟩ : ∃ hu : Bits,
      (if (x.exp : Int) - (p : Int) - 1 < 1 then
        (cShl sem w 1 ((F.mw : Int) - 1 + ((x.exp : Int) - (p : Int) - 1))).bind fun m =>
          .ok ({ sign := x.sign, exp := 0, man := m % 2 ^ F.mw } : Bits)
       else .ok ⟨x.sign, (((x.exp : Int) - (p : Int) - 1) % 2 ^ F.ew).toNat, 0⟩) = Outcome.ok hu ∧
      hu.sign = x.sign ∧ hu.exp ≠ F.expInf ∧ hu.mag F = 2 ^ (s - 1) * 2 ^ (x.exp - 1) := by
    by_cases hc : (x.exp : Int) - (p : Int) - 1 < 1
    · rw [if_pos hc, cShl_one_in sem w _ (F.mw + x.exp - p - 2) (by omega) (by omega)]
      refine ⟨_, rfl, rfl, ?_, ?_⟩
      · have : x.exp < F.expInf := hfin
        simp only; omega
      · have hlt : 2 ^ (F.mw + x.exp - p - 2) < 2 ^ F.mw :=
          Nat.pow_lt_pow_right (by norm_num) (by omega)
        unfold Bits.mag Bits.sig
        simp only [if_true]
        rw [Nat.mod_eq_of_lt hlt, ← pow_add, ← pow_add]
        congr 1; omega
    · rw [if_neg hc]
      refine ⟨_, rfl, rfl, ?_, ?_⟩
      · have h1 : ((x.exp : Int) - (p : Int) - 1) % 2 ^ F.ew = (x.exp : Int) - p - 1 := by
          apply Int.emod_eq_of_lt (by omega)
          have : ((2 ^ F.ew : ℕ) : ℤ) = (2 : ℤ) ^ F.ew := by norm_num
          omega
        simp only
        rw [h1]; omega
      · have h1 : ((x.exp : Int) - (p : Int) - 1) % 2 ^ F.ew = (x.exp : Int) - p - 1 := by
          apply Int.emod_eq_of_lt (by omega)
          have : ((2 ^ F.ew : ℕ) : ℤ) = (2 : ℤ) ^ F.ew := by norm_num
          omega
        rw [mag_normal F _ (by simp only; rw [h1]; omega)]
        simp only
        rw [h1, Nat.add_zero, ← pow_add, ← pow_add]
        congr 1; omega
  have hbind : ∀ (a : Outcome Nat) (f : Nat → Outcome Bits), (a >>= f) = a.bind f := fun _ _ => rfl
  simp only [hbind] at *
  rw [hhu]
  simp only [Outcome.bind_ok]
  congr 1
  have hdm := Nat.div_add_mod x.man (2 ^ s)
  have hml := Nat.mod_lt x.man (show 0 < 2 ^ s by positivity)
  unfold roundPat
  rw [pat_div F x s hsle]
  by_cases hn : needs x.man s
  · simp only [hn, if_true]
    have hhalf := needs_ge_half hn
    have hxm := mag_normal F x (by omega)
    rw [fadd_same_sign F x hu (by omega) hhue hhus.symm (by rw [hxm, hhum]; positivity), hxm, hhum,
      ← Nat.add_mul]
    have hmdiv : x.man / 2 ^ s < 2 ^ (F.mw - s) := by
      rw [Nat.div_lt_iff_lt_mul (by positivity), ← hmwpow]; exact hm
    by_cases hA : x.man + 2 ^ (s - 1) < 2 ^ F.mw
    · rw [encode_exact F _ _ _ (by omega) (by rw [pow_succ]; omega)]
      have hpe : (x.exp - 1) * 2 ^ F.mw + (2 ^ F.mw + x.man + 2 ^ (s - 1))
          = x.exp * 2 ^ F.mw + (x.man + 2 ^ (s - 1)) := by
        obtain ⟨e, he'⟩ : ∃ e, x.exp = e + 1 := ⟨x.exp - 1, by omega⟩
        rw [he']; simp only [Nat.add_sub_cancel]; ring
      rw [hpe, if_pos, ofPat_mk F _ _ _ hA]
      · simp only
        rw [and_highmask _ w s (by omega) (by omega)]
        have hdiv : (x.man + 2 ^ (s - 1)) / 2 ^ s = x.man / 2 ^ s + 1 := by
          have e1 : (x.man / 2 ^ s + 1) * 2 ^ s = 2 ^ s * (x.man / 2 ^ s) + 2 ^ s := by ring
          have e2 : (x.man / 2 ^ s + 1 + 1) * 2 ^ s = 2 ^ s * (x.man / 2 ^ s) + 2 * 2 ^ s := by ring
          apply Nat.div_eq_of_lt_le
          · omega
          · omega
        rw [hdiv]
        have : (x.exp * 2 ^ (F.mw - s) + x.man / 2 ^ s + 1) * 2 ^ s
            = x.exp * 2 ^ F.mw + (x.man / 2 ^ s + 1) * 2 ^ s := by
          rw [hmwpow]; ring
        rw [this, ofPat_mk]
        have : (x.man / 2 ^ s + 1) * 2 ^ s ≤ x.man + 2 ^ (s - 1) := by
          rw [← hdiv]; exact Nat.div_mul_le_self _ _
        omega
      · have : (x.exp + 1) * 2 ^ F.mw ≤ F.expInf * 2 ^ F.mw := Nat.mul_le_mul_right _ (by omega)
        rw [Nat.add_mul] at this; omega
    · have hq := rneShift_bounds (2 ^ F.mw + x.man + 2 ^ (s - 1)) 1
      rw [encode_carry F _ _ _ (by rw [pow_succ]; omega) (by rw [pow_succ, pow_succ]; omega)]
      have hq1 : 2 ^ F.mw ≤ rneShift (2 ^ F.mw + x.man + 2 ^ (s - 1)) 1 := by omega
      have hq2 : rneShift (2 ^ F.mw + x.man + 2 ^ (s - 1)) 1 < 2 ^ F.mw + 2 ^ s := by omega
      obtain ⟨q, hqe⟩ : ∃ q, rneShift (2 ^ F.mw + x.man + 2 ^ (s - 1)) 1 = 2 ^ F.mw + q :=
        ⟨_, (Nat.add_sub_cancel' hq1).symm⟩
      rw [hqe]
      have hqs : q < 2 ^ s := by omega
      have hmd : x.man / 2 ^ s + 1 = 2 ^ (F.mw - s) := by
        have : 2 ^ (F.mw - s) * 2 ^ s ≤ (x.man / 2 ^ s + 1) * 2 ^ s := by
          have e1 : (x.man / 2 ^ s + 1) * 2 ^ s = 2 ^ s * (x.man / 2 ^ s) + 2 ^ s := by ring
          have e3 : 2 ^ s ∣ 2 ^ F.mw := Nat.pow_dvd_pow _ hsle
          obtain ⟨c, hc⟩ := e3
          rw [← hmwpow, e1, hc, ← Nat.mul_succ]
          apply Nat.mul_le_mul_left
          by_contra hcon
          have : 2 ^ s * (x.man / 2 ^ s + 2) ≤ 2 ^ s * c := Nat.mul_le_mul_left _ (by omega)
          rw [Nat.mul_add] at this
          omega
        have := Nat.le_of_mul_le_mul_right this (by positivity)
        omega
      have hres : (x.exp * 2 ^ (F.mw - s) + x.man / 2 ^ s + 1) * 2 ^ s
          = (x.exp + 1) * 2 ^ F.mw + 0 := by
        rw [Nat.add_assoc, hmd, hmwpow]; ring
      rw [hres, ofPat_mk F x.sign (x.exp + 1) 0 (by positivity)]
      have hpe : (x.exp - 1 + 1) * 2 ^ F.mw + (2 ^ F.mw + q) = (x.exp + 1) * 2 ^ F.mw + q := by
        rw [Nat.sub_add_cancel hE]; ring
      rw [hpe]
      split_ifs with hfit
      · rw [ofPat_mk F _ _ q (by omega)]
        simp only
        rw [and_highmask _ w s (by omega) (by omega), Nat.div_eq_of_lt hqs, Nat.zero_mul]
      · have : F.expInf = x.exp + 1 := by
          have h1 : F.expInf * 2 ^ F.mw < (x.exp + 2) * 2 ^ F.mw := by
            have : (x.exp + 2) * 2 ^ F.mw = (x.exp + 1) * 2 ^ F.mw + 2 ^ F.mw := by ring
            omega
          have := Nat.lt_of_mul_lt_mul_right h1
          omega
        unfold infBits
        simp [this]
  · simp only [hn, Bool.false_eq_true, if_false, Nat.add_zero]
    rw [and_highmask _ w s (by omega) (by omega)]
    have : (x.exp * 2 ^ (F.mw - s) + x.man / 2 ^ s) * 2 ^ s
        = x.exp * 2 ^ F.mw + x.man / 2 ^ s * 2 ^ s := by
      rw [hmwpow]; ring
    rw [this, ofPat_mk]
    exact lt_of_le_of_lt (Nat.div_mul_le_self _ _) hm

end Verif.Vprec
