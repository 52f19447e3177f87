import Mathlib.Tactic.IntervalCases
import Verif.Vprec.Den
import Verif.Vprec.Spec

/-! Relative-error rounding as one function on magnitudes. -/

namespace Verif.Vprec
open Verif Verif.Fp

theorem rndPos_le_log2 (p cmin n : Nat) (hp : cmin ≤ Nat.log2 n) : rndPos p cmin n ≤ Nat.log2 n := by
  unfold rndPos; omega

theorem rnd_ge (p cmin n j : Nat) (h : 2 ^ j ≤ n) (hc : cmin ≤ Nat.log2 n) : 2 ^ j ≤ rnd p cmin n := by
  have hj : 0 < 2 ^ j := by positivity
  have hn0 : n ≠ 0 := by omega
  unfold rnd
  have hcl := rndPos_le_log2 p cmin n hc
  generalize rndPos p cmin n = c at *
  have hcn : 2 ^ c ≤ n := le_trans (Nat.pow_le_pow_right (by norm_num) hcl) (Nat.log2_self_le hn0)
  have hcp : 0 < 2 ^ c := by positivity
  rw [denN_of_ge n c hcn]
  have hb := (rneShift_bounds n c).1
  rcases Nat.le_total c j with hcj | hcj
  · have h1 : 2 ^ (j - c) ≤ n / 2 ^ c := by
      rw [Nat.le_div_iff_mul_le hcp, ← pow_add, Nat.sub_add_cancel hcj]; exact h
    calc 2 ^ j = 2 ^ (j - c) * 2 ^ c := by rw [← pow_add, Nat.sub_add_cancel hcj]
      _ ≤ _ := Nat.mul_le_mul_right _ (le_trans h1 hb)
  · have h1 : 1 ≤ n / 2 ^ c := by rw [Nat.le_div_iff_mul_le hcp]; omega
    calc 2 ^ j ≤ 1 * 2 ^ c := by rw [one_mul]; exact Nat.pow_le_pow_right (by norm_num) hcj
      _ ≤ _ := Nat.mul_le_mul_right _ (le_trans h1 hb)

theorem rnd_le (p cmin n j : Nat) (h : n ≤ 2 ^ j) (hn : n ≠ 0) (hc : cmin ≤ j) : rnd p cmin n ≤ 2 ^ j := by
  have hcj : rndPos p cmin n ≤ j := by
    have : Nat.log2 n ≤ j := by
      by_contra hlt
      have h1 := Nat.log2_self_le hn
      have h2 : 2 ^ (j + 1) ≤ 2 ^ Nat.log2 n := Nat.pow_le_pow_right (by norm_num) (by omega)
      have h3 : 2 ^ j < 2 ^ (j + 1) := Nat.pow_lt_pow_right (by norm_num) (by omega)
      omega
    unfold rndPos; omega
  unfold rnd
  generalize rndPos p cmin n = c at *
  have := denN_le n c (j - c) (by rw [Nat.sub_add_cancel hcj]; exact h)
  calc denN n c * 2 ^ c ≤ 2 ^ (j - c) * 2 ^ c := Nat.mul_le_mul_right _ this
    _ = 2 ^ j := by rw [← pow_add, Nat.sub_add_cancel hcj]

/-- Normal path for every precision the model gives a defined result for. -/
theorem roundNormal_all (sem : ShiftSem) (F : Fmt) (w : Nat) (x : Bits) (p : Nat)
    (hw : F.mw < w) (hp1 : 1 ≤ p) (hp : p < F.mw ∨ (p = F.mw ∧ sem = .wrap)) (hx : x.WF F)
    (hfin : x.exp < F.expInf) (hE : 1 ≤ x.exp) :
    ∃ y, roundNormal sem F w x p = .ok y ∧ y.sign = x.sign ∧ x.exp ≤ y.exp ∧ y.exp ≤ x.exp + 1 ∧
      y.man < 2 ^ F.mw ∧
      y.mag F = rneShift (x.mag F) (F.mw + (x.exp - 1) - p) * 2 ^ (F.mw + (x.exp - 1) - p) ∧
      (y.exp = x.exp + 1 → y.man = 0) := by
  rcases hp with hp | ⟨hp, hsem⟩
  · exact roundNormal_mag sem F w x p hw hp1 hp hx hfin hE
  · subst hsem
    refine ⟨x, by rw [hp]; exact roundNormal_full F w x hw hx, rfl, le_rfl, by omega, hx.2, ?_, by omega⟩
    rw [hp, Nat.add_sub_cancel_left, mag_normal F x (by omega), rneShift_mul]

/-- Unit position of the format, in units of the smallest subnormal of the C type. -/
def cminOf (F : Fmt) (r p : Nat) : Nat := (Spec.emin r - p - F.uexp).toNat
/-- `2^(emax+1)` is `2^capOf` units. -/
def capOf (F : Fmt) (r : Nat) : Nat := (Spec.emax r + 1 - F.uexp).toNat

/-- What the relative-error rounding returns for a nonzero finite number. -/
def relResult (F : Fmt) (r p : Nat) (flush : Bool) (x : Bits) : Bits :=
  if flush = true ∧ (x.exp : Int) - F.bias < Spec.emin r then zeroBits x.sign
  else if 2 ^ capOf F r ≤ rnd p (cminOf F r p) (x.mag F) then infBits F x.sign
  else if rnd p (cminOf F r p) (x.mag F) = 0 then zeroBits false
  else encode F x.sign (rnd p (cminOf F r p) (x.mag F)) 0

theorem range_facts (F : Fmt) (w : Nat) (hF : IsC F w) (r p : Nat) (hr : 2 ≤ r) (hr2 : r ≤ F.ew)
    (hp : p ≤ F.mw) :
    1 ≤ Spec.emax r ∧ Spec.emax r ≤ F.bias ∧
    (Spec.emin r = 1 - (F.bias : Int) ∨ 2 - (F.bias : Int) ≤ Spec.emin r - p) ∧
    (cminOf F r p : Int) = Spec.emin r - p - F.uexp ∧
    (capOf F r : Int) = Spec.emax r + 1 - F.uexp ∧ F.mw < w ∧ 2 ≤ F.ew ∧ F.expInf = 2 * F.bias + 1 := by
  obtain ⟨hmw', hew', hbias', hinf', huexp'⟩ := b64_facts
  obtain ⟨hmw3, hew3, hbias3, hinf3, huexp3⟩ := b32_facts
  unfold cminOf capOf Spec.emin Spec.emax
  rcases hF with ⟨rfl, rfl⟩ | ⟨rfl, rfl⟩
  · rw [hmw3] at hp
    rw [hew3] at hr2
    rw [hbias3, huexp3, hmw3, hew3, hinf3]
    interval_cases r <;> norm_num <;> omega
  · rw [hmw'] at hp
    rw [hew'] at hr2
    rw [hbias', huexp', hmw', hew', hinf']
    interval_cases r <;> norm_num <;> omega

theorem roundBinary_rel (sem : ShiftSem) (F : Fmt) (w : Nat) (hF : IsC F w) (x : Bits) (inp : Bool)
    (c : Ctx) (r p : Nat) (habs : c.absErr = false) (hr : 2 ≤ r) (hr2 : r ≤ F.ew)
    (hp1 : 1 ≤ p) (hpz : p ≤ F.mw)
    (hp : p < F.mw ∨ sem = .wrap ∨ (x.exp : Int) - F.bias < Spec.emin r) (hx : x.WF F)
    (hfin : x.exp < F.expInf) (hne : x.mag F ≠ 0) :
    roundBinary sem F w x inp c r p =
      .ok (relResult F r p ((c.daz && inp) || (c.ftz && !inp)) x) := by
  obtain ⟨hem1, hem2, hrr, hcmin, hcap, hw, hew2, hinf⟩ :=
    range_facts F w hF r p hr hr2 (by omega)
  have huexp : F.uexp = 1 - (F.bias : Int) - F.mw := rfl
  have hemm : Spec.emin r = 1 - Spec.emax r := rfl
  unfold roundBinary
  have hem : (2 : Int) ^ (r - 1) - 1 = Spec.emax r := rfl
  simp only [hem]
  rw [if_neg (by omega)]
  unfold relResult
  rw [← hemm]
  generalize hfl : ((c.daz && inp) || (c.ftz && !inp)) = flush
  by_cases hnorm : Spec.emin r ≤ (x.exp : Int) - F.bias
  · -- normal range
    have hE : 1 ≤ x.exp := by omega
    have hlog := log2_mag_normal F x hx.2 hE
    have hpos : rndPos p (cminOf F r p) (x.mag F) = F.mw + (x.exp - 1) - p := by
      unfold rndPos; rw [hlog]; omega
    have hcl : cminOf F r p ≤ Nat.log2 (x.mag F) := by rw [hlog]; omega
    have hcn : 2 ^ (F.mw + (x.exp - 1) - p) ≤ x.mag F := by
      refine le_trans (Nat.pow_le_pow_right (by norm_num) ?_) (Nat.log2_self_le hne)
      rw [hlog]; omega
    obtain ⟨y, hy, hys, hye, hye2, hym, hymag, hyc⟩ := roundNormal_all sem F w x p hw hp1
      (by
        rcases hp with h | h | h
        · exact Or.inl h
        · rcases Nat.lt_or_ge p F.mw with h2 | h2
          · exact Or.inl h2
          · exact Or.inr ⟨by omega, h⟩
        · omega) hx hfin hE
    have hrnd : rnd p (cminOf F r p) (x.mag F) = y.mag F := by
      rw [hymag]; unfold rnd; rw [hpos, denN_of_ge _ _ hcn]
    have hylog := log2_mag_normal F y hym (by omega)
    have hy0 : y.mag F ≠ 0 := by rw [Ne, mag_eq_zero]; unfold Bits.isZero; omega
    have hcapy : 2 ^ capOf F r ≤ y.mag F ↔ Spec.emax r < (y.exp : Int) - F.bias := by
      rw [← Nat.le_log2 hy0, hylog]; omega
    rw [hrnd, if_neg (c := flush = true ∧ _) (by omega)]
    simp only [hcapy]
    by_cases ho : (x.exp : Int) - F.bias ≥ Spec.emax r
    · rw [if_pos ho]
      by_cases ho2 : (x.exp : Int) - F.bias = Spec.emax r
      · rw [if_pos ho2, hy]
        simp only [Outcome.bind_ok, Outcome.pure_eq]
        by_cases ho3 : Spec.emax r < (y.exp : Int) - F.bias
        · rw [if_pos (by simpa using ho3), if_pos ho3]
        · rw [if_neg (by simpa using ho3), if_neg ho3, if_neg (by omega), if_neg hy0,
            if_neg (by simp [habs]), ← hys,
            encode_mag F hew2 y ⟨by
              have := hx.1
              unfold Fmt.expInf at hinf; omega, hym⟩ (by omega)]
      · rw [if_neg ho2]
        simp only [Outcome.bind_ok, Outcome.pure_eq]
        rw [if_pos trivial, if_pos (by omega)]
    · rw [if_neg ho]
      simp only [Outcome.bind_ok, Outcome.pure_eq]
      rw [if_neg (by simp), if_neg (by omega), if_neg (by simp [habs]), if_neg (by omega), if_neg hy0, hy, ← hys,
            encode_mag F hew2 y ⟨by
              have := hx.1
              unfold Fmt.expInf at hinf; omega, hym⟩ (by omega)]
  · have hnorm' : (x.exp : Int) - F.bias < Spec.emin r := by omega
    rw [if_neg (by omega)]
    simp only [Outcome.bind_ok, Outcome.pure_eq]
    rw [if_neg (by simp), if_pos hnorm']
    by_cases hflt : flush = true
    · rw [if_pos hflt, if_pos ⟨hflt, hnorm'⟩]
    · rw [if_neg hflt, if_neg (c := flush = true ∧ _) (by tauto),
        if_neg (by rw [← mag_eq_zero F]; exact hne), if_neg (by simp [habs]),
        handleDenormal_eq sem F w hF x (Spec.emin r) p (cminOf F r p) hp1 hpz hcmin.symm (by omega) hrr
          hx hne hnorm']
      have hmlt : x.mag F < 2 ^ (p + cminOf F r p) := by
        by_cases h0 : x.exp = 0
        · rw [mag_subnormal F x h0]
          exact lt_of_lt_of_le hx.2 (Nat.pow_le_pow_right (by norm_num) (by omega))
        · rw [← Nat.log2_lt hne, log2_mag_normal F x hx.2 (by omega)]
          omega
      have hpos : rndPos p (cminOf F r p) (x.mag F) = cminOf F r p := by
        have := (Nat.log2_lt hne).2 hmlt
        unfold rndPos; omega
      have hrn : rnd p (cminOf F r p) (x.mag F) =
          denN (x.mag F) (cminOf F r p) * 2 ^ cminOf F r p := by unfold rnd; rw [hpos]
      have hle := rnd_le p (cminOf F r p) (x.mag F) (p + cminOf F r p) hmlt.le hne (by omega)
      have hcaplt : 2 ^ (p + cminOf F r p) < 2 ^ capOf F r :=
        Nat.pow_lt_pow_right (by norm_num) (by omega)
      rw [if_neg (c := 2 ^ capOf F r ≤ _) (by omega), hrn]
      have hz : denN (x.mag F) (cminOf F r p) * 2 ^ cminOf F r p = 0 ↔
          denN (x.mag F) (cminOf F r p) = 0 := by
        have : 0 < 2 ^ cminOf F r p := by positivity
        rw [Nat.mul_eq_zero]; omega
      simp only [hz]

/-- The result for a finite in-range rounding. -/
theorem relResult_fin (F : Fmt) (w : Nat) (hF : IsC F w) (x : Bits) (r p : Nat) (flush : Bool)
    (hr : 2 ≤ r) (hr2 : r ≤ F.ew) (hpz : p ≤ F.mw)
    (hfl : ¬ (flush = true ∧ (x.exp : Int) - F.bias < Spec.emin r))
    (hlt : rnd p (cminOf F r p) (x.mag F) < 2 ^ capOf F r)
    (h0 : rnd p (cminOf F r p) (x.mag F) ≠ 0)
    (hcan : ∃ m e : ℕ, m < 2 ^ (p + 1) ∧ rnd p (cminOf F r p) (x.mag F) = m * 2 ^ e) :
    (relResult F r p flush x).sign = x.sign ∧ (relResult F r p flush x).WF F ∧
    (relResult F r p flush x).exp < F.expInf ∧
    (relResult F r p flush x).mag F = rnd p (cminOf F r p) (x.mag F) := by
  obtain ⟨hem1, hem2, hrr, hcmin, hcap, hw, hew2, hinf⟩ := range_facts F w hF r p hr hr2 hpz
  have huexp : F.uexp = 1 - (F.bias : Int) - F.mw := rfl
  unfold relResult
  rw [if_neg hfl, if_neg (by omega), if_neg h0]
  obtain ⟨m, e, hm, he⟩ := hcan
  rw [he] at hlt h0 ⊢
  apply encode_repr F hew2
  · rintro rfl; simp at h0
  · exact lt_of_lt_of_le hm (Nat.pow_le_pow_right (by norm_num) (by omega))
  · refine lt_of_lt_of_le hlt ?_
    rw [← pow_add]
    exact Nat.pow_le_pow_right (by norm_num) (by omega)

end Verif.Vprec
