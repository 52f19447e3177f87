import Verif.Vprec.Props2

/-! # Absolute error mode (C08) -/

namespace Verif.Vprec
open Verif Verif.Fp

/-- Error of the normal path for every precision, zero included. -/
theorem roundNormal_err (sem : ShiftSem) (F : Fmt) (w : Nat) (x y : Bits) (p : Nat)
    (hw : F.mw < w) (hp : p ≤ F.mw) (hx : x.WF F) (hfin : x.exp < F.expInf) (hE : 1 ≤ x.exp)
    (hy : roundNormal sem F w x p = .ok y) :
    y.sign = x.sign ∧
    2 * |(x.mag F : ℤ) - y.mag F| ≤ 2 ^ (F.mw - p + (x.exp - 1)) ∧
    2 ^ (F.mw - p + (x.exp - 1)) ∣ y.mag F := by
  rcases Nat.lt_or_ge p F.mw with hlt | hge
  · rw [roundNormal_eq sem F w x p hw hlt hx hfin hE] at hy
    injection hy with hy
    subst hy
    refine ⟨rfl, ?_⟩
    obtain ⟨_, hm⟩ := hx
    obtain ⟨s, hs⟩ : ∃ s, s = F.mw - p := ⟨_, rfl⟩
    rw [← hs]
    have hsle : s ≤ F.mw := by omega
    obtain ⟨e, he⟩ : ∃ e, x.exp = e + 1 := ⟨x.exp - 1, by omega⟩
    have hpos : 0 < 2 ^ s := by positivity
    -- significand after rounding
    obtain ⟨R, hR⟩ : ∃ R, R = ((2 ^ F.mw + x.man) / 2 ^ s + (if needs x.man s then 1 else 0)) * 2 ^ s := ⟨_, rfl⟩
    have hmwp : 2 ^ F.mw = 2 ^ (F.mw - s) * 2 ^ s := by rw [← pow_add]; congr 1; omega
    have hdiv : (2 ^ F.mw + x.man) / 2 ^ s = 2 ^ (F.mw - s) + x.man / 2 ^ s := by
      rw [hmwp, Nat.add_comm, Nat.add_mul_div_right _ _ hpos, Nat.add_comm]
    have hrp : roundPat F s x = e * 2 ^ F.mw + R := by
      unfold roundPat
      rw [pat_div F x s hsle, hR, hdiv, he]
      have : e * 2 ^ F.mw = e * 2 ^ (F.mw - s) * 2 ^ s := by rw [mul_assoc, ← hmwp]
      rw [this]; ring
    have hmd := Nat.div_add_mod x.man (2 ^ s)
    have hml := Nat.mod_lt x.man hpos
    have hmq : x.man / 2 ^ s < 2 ^ (F.mw - s) := by
      rw [Nat.div_lt_iff_lt_mul hpos, ← hmwp]; exact hm
    have hR' : R = 2 ^ F.mw + x.man / 2 ^ s * 2 ^ s + (if needs x.man s then 1 else 0) * 2 ^ s := by
      rw [hR, hdiv, Nat.add_mul, Nat.add_mul, ← hmwp]
    have hRle : R ≤ 2 * 2 ^ F.mw := by
      rw [hR, hdiv]
      calc (2 ^ (F.mw - s) + x.man / 2 ^ s + (if needs x.man s then 1 else 0)) * 2 ^ s
          ≤ (2 * 2 ^ (F.mw - s)) * 2 ^ s := by
            apply Nat.mul_le_mul_right
            split_ifs <;> omega
        _ = 2 * 2 ^ F.mw := by rw [hmwp]; ring
    have hRge : 2 ^ F.mw ≤ R := by rw [hR']; omega
    have hmagy : (ofPat F x.sign (roundPat F s x)).mag F = R * 2 ^ e := by
      rw [hrp]
      by_cases hc : R < 2 * 2 ^ F.mw
      · have e1 : e * 2 ^ F.mw + R = (e + 1) * 2 ^ F.mw + (R - 2 ^ F.mw) := by
          rw [Nat.add_mul]; omega
        rw [e1, ofPat_mk F _ _ _ (by omega), mag_normal F _ (by simp)]
        simp only [Nat.add_sub_cancel]
        rw [Nat.add_sub_cancel' hRge]
      · have hR2 : R = 2 * 2 ^ F.mw := by omega
        have e1 : e * 2 ^ F.mw + R = (e + 1 + 1) * 2 ^ F.mw + 0 := by rw [hR2]; ring
        rw [e1, ofPat_mk F _ _ _ (by positivity), mag_normal F _ (by simp), hR2]
        simp only [Nat.add_sub_cancel, pow_succ]; ring
    refine ⟨?_, ?_⟩
    swap
    · rw [hmagy, he, Nat.add_sub_cancel, pow_add, hR]
      exact ⟨(2 ^ F.mw + x.man) / 2 ^ s + (if needs x.man s then 1 else 0), by ring⟩
    rw [hmagy, mag_normal F x (by omega), he]
    simp only [Nat.add_sub_cancel]
    have herr : 2 * |((2 ^ F.mw + x.man : ℕ) : ℤ) - R| ≤ 2 ^ s := by
      have hA : ((2 ^ F.mw + x.man : ℕ) : ℤ) - R =
          ((x.man % 2 ^ s : ℕ) : ℤ) - ((if needs x.man s then 1 else 0) * 2 ^ s : ℕ) := by
        rw [hR']
        have : (x.man : ℤ) = ((2 ^ s * (x.man / 2 ^ s) + x.man % 2 ^ s : ℕ) : ℤ) := by rw [hmd]
        push_cast at this ⊢
        rw [mul_comm (2 ^ s : ℤ)] at this
        linarith
      rw [hA]
      have hcast : ((2 : ℤ) ^ s) = ((2 ^ s : ℕ) : ℤ) := by push_cast; rfl
      rw [hcast]
      by_cases hn : needs x.man s = true
      · have := needs_ge_half hn
        rw [if_pos hn, one_mul, abs_of_nonpos (by omega)]
        omega
      · rw [if_neg hn, Nat.zero_mul]
        have h2 : 2 * (x.man % 2 ^ s) ≤ 2 ^ s := by
          unfold needs at hn
          simp only [Bool.or_eq_true, decide_eq_true_eq, Bool.and_eq_true] at hn
          omega
        rw [abs_of_nonneg (by omega)]
        omega
    have hfac : (((2 ^ F.mw + x.man) * 2 ^ e : ℕ) : ℤ) - ((R * 2 ^ e : ℕ) : ℤ) =
        (((2 ^ F.mw + x.man : ℕ) : ℤ) - R) * 2 ^ e := by push_cast; ring
    rw [hfac, abs_mul, abs_of_pos (by positivity : (0 : ℤ) < 2 ^ e), ← mul_assoc, pow_add]
    exact mul_le_mul_of_nonneg_right herr (by positivity)
  · have hpm : p = F.mw := by omega
    subst hpm
    cases sem with
    | strict =>
      exfalso
      have hneeds : needsRounding .strict F w x F.mw = .ub := by
        unfold needsRounding
        rw [cShl_one_in .strict w _ 0 (by simp) (by omega), cShr_in .strict w _ _ 0 (by simp) (by omega)]
        have : cShl .strict w 1 ((F.mw : Int) - F.mw - 1) = .ub := by
          unfold cShl; rw [if_neg (by omega)]
        rw [this]; rfl
      unfold roundNormal at hy
      rw [hneeds, cShl_in .strict w _ _ 0 (by simp) (by omega)] at hy
      simp only [Outcome.bind_ok, Outcome.bind_ub] at hy
      split_ifs at hy
      · unfold cShl at hy
        split_ifs at hy <;> exact absurd hy (by simp)
      · exact absurd hy (by simp)
    | wrap =>
      rw [roundNormal_full F w x hw hx] at hy
      injection hy with hy
      subst hy
      refine ⟨rfl, ?_, ?_⟩
      · rw [sub_self, abs_zero, mul_zero]; positivity
      · rw [Nat.sub_self, Nat.zero_add, mag_normal F x (by omega)]
        exact Dvd.intro_left _ rfl

/-- C08, inputs in the normal range of the requested format: whatever precision is
configured, a finite result is within `2^k` of the input. -/
theorem C08_abs_error_normal_partial (sem : ShiftSem) (F : Fmt) (w : Nat) (hF : IsC F w) (x y : Bits)
    (inp : Bool) (c : Ctx) (r p : Nat) (habs : c.absErr = true) (hrel : c.relErr = false)
    (hr : 2 ≤ r) (hr2 : r ≤ F.ew) (hx : x.WF F) (hfin : x.Fin F)
    (hnorm : 2 ^ Spec.emin r ≤ |x.val F|)
    (hy : roundBinary sem F w x inp c r p = .ok y) (hyf : y.Fin F) :
    |x.val F - y.val F| ≤ 2 ^ c.absErrExp := by
  obtain ⟨hem1, hem2, hrr, hcmin, hcap, hw, hew2, hinf⟩ := range_facts F w hF r 0 hr hr2 (by omega)
  have huexp : F.uexp = 1 - (F.bias : Int) - F.mw := rfl
  have hemm : Spec.emin r = 1 - Spec.emax r := rfl
  have hfin' : x.exp < F.expInf := by
    have := hx.1; unfold Bits.Fin Fmt.expInf at *; omega
  have hne : x.mag F ≠ 0 := by
    rw [Ne, ← val_eq_zero]
    intro h
    rw [h, abs_zero] at hnorm
    have : (0 : ℚ) < 2 ^ Spec.emin r := by positivity
    linarith
  have hnb : ¬ ((x.exp : Int) - F.bias < Spec.emin r) := by
    rw [below_emin F w hF r hr hr2 x hx hne]; exact not_lt.2 hnorm
  have hE : 1 ≤ x.exp := by omega
  have hlog := log2_mag_normal F x hx.2 hE
  -- all that matters is the last branch
  have hy' : normalAbsErr sem F w x ((x.exp : Int) - F.bias) p c = .ok y := by
    unfold roundBinary at hy
    have hem : (2 : Int) ^ (r - 1) - 1 = Spec.emax r := rfl
    simp only [hem] at hy
    rw [if_neg (by omega), ← hemm] at hy
    simp only [if_neg hnb, if_pos habs] at hy
    revert hy
    generalize (if (x.exp : Int) - F.bias ≥ Spec.emax r then _ else _ : Outcome Bool) = O
    intro hy
    rcases O with b | _ | _
    · cases b
      · simpa using hy
      · simp only [Outcome.bind_ok, if_true, Outcome.pure_eq, Outcome.ok.injEq] at hy
        rw [← hy] at hyf
        exact absurd rfl hyf
    · simp at hy
    · simp at hy
  clear hy
  unfold normalAbsErr at hy'
  simp only at hy'
  have hk1 : ∀ d : ℤ, (2 : ℚ) ^ (d + 1) = 2 * 2 ^ d := by
    intro d
    have := two_zpow_split (d + 1) d 1 (by norm_num)
    simpa using this
  have hval : |x.val F| < 2 ^ ((x.exp : Int) - F.bias + 1) := by
    rw [abs_val, mag_lt_pow F _ _ (F.mw + x.exp) (by push_cast; omega), ← Nat.log2_lt hne, hlog]
    omega
  by_cases h1 : (x.exp : Int) - F.bias - c.absErrExp < -1
  · rw [if_pos h1] at hy'
    simp only [Outcome.pure_eq, Outcome.ok.injEq] at hy'
    rw [← hy', val_zero, sub_zero]
    exact le_trans hval.le (zpow_le_zpow_right₀ (by norm_num) (by omega))
  · rw [if_neg h1] at hy'
    by_cases h2 : (x.exp : Int) - F.bias - c.absErrExp = -1
    · rw [if_pos h2] at hy'
      simp only [Outcome.pure_eq, Outcome.ok.injEq] at hy'
      have hk : c.absErrExp = (x.exp : Int) - F.bias + 1 := by omega
      have hp2 : pow2i F c.absErrExp = ⟨false, x.exp + 1, 0⟩ := by
        unfold pow2i
        simp only [hk]
        have e1 : (x.exp : Int) - F.bias + 1 + F.bias = x.exp + 1 := by ring
        rw [e1]
        rw [if_neg (by omega)]
        by_cases hb : (x.exp : Int) + 1 ≥ F.expInf
        · exfalso
          have : pow2i F c.absErrExp = infBits F false := by
            unfold pow2i
            simp only [hk]
            rw [e1, if_neg (by omega), if_pos hb]
          rw [this] at hy'
          rw [← hy'] at hyf
          exact hyf rfl
        · rw [if_neg hb, if_neg (by omega)]
          have e2 : ((x.exp : Int) + 1).toNat = x.exp + 1 := by omega
          rw [e2]
          have := ofPat_mk F false (x.exp + 1) 0 (by positivity)
          simpa using this
      rw [hp2] at hy'
      have hyv : y.val F = sgn x.sign * 2 ^ c.absErrExp := by
        rw [val_eq_mag, ← hy', mag_pow, two_zpow_split c.absErrExp F.uexp (F.mw + x.exp)
          (by push_cast; omega)]
        push_cast; ring
      have hlow : 2 ^ ((x.exp : Int) - F.bias) ≤ |x.val F| := by
        rw [abs_val, ← not_lt, mag_lt_pow F _ _ (F.mw + (x.exp - 1)) (by push_cast [hE]; omega), not_lt,
          ← hlog]
        exact Nat.log2_self_le hne
      rw [hyv]
      have hxv : x.val F = sgn x.sign * |x.val F| := by
        rw [abs_val, val_eq_mag]; ring
      rw [hxv, ← mul_sub, abs_mul, abs_sgn, one_mul]
      have := hk1 ((x.exp : Int) - F.bias)
      rw [hk] at *
      rw [abs_of_nonpos (by linarith)]
      have hpos : (0 : ℚ) < 2 ^ ((x.exp : Int) - F.bias) := by positivity
      linarith
    · rw [if_neg h2] at hy'
      obtain ⟨P, hP, hPle⟩ : ∃ P : ℕ, computeAbsErr F false c ((x.exp : Int) - F.bias - c.absErrExp) p = P ∧
          P ≤ F.mw ∧ ((P : Int) = (x.exp : Int) - F.bias - c.absErrExp ∨
            (P : Int) ≤ (x.exp : Int) - F.bias - c.absErrExp) ∧
          ((P : Int) = (x.exp : Int) - F.bias - c.absErrExp ∨ P = F.mw) := by
        unfold computeAbsErr
        rw [if_neg (by simp), if_neg (by simp [hrel])]
        by_cases h3 : (x.exp : Int) - F.bias - c.absErrExp < F.mw
        · rw [if_pos h3]
          exact ⟨((x.exp : Int) - F.bias - c.absErrExp).toNat, by omega, by omega, by omega, by omega⟩
        · rw [if_neg h3]
          exact ⟨F.mw, rfl, le_rfl, by omega, by omega⟩
      rw [hP] at hy'
      obtain ⟨hs, herr, -⟩ := roundNormal_err sem F w x y P hw hPle.1 hx hfin' hE hy'
      rw [val_eq_mag, val_eq_mag, hs]
      have e1 := dist_scale F x.sign (x.mag F) (y.mag F)
      push_cast at e1
      rw [e1]
      rcases hPle.2.2 with hPe | hPe
      · have hexp : c.absErrExp = F.uexp + ((F.mw - P + (x.exp - 1) : ℕ) : ℤ) := by
          have := hPle.1
          push_cast [hPle.1, hE]; omega
        rw [two_zpow_split c.absErrExp F.uexp _ hexp]
        apply mul_le_mul_of_nonneg_right _ (u_pos F).le
        have hnn := abs_nonneg ((x.mag F : ℤ) - y.mag F)
        have : |(x.mag F : ℤ) - y.mag F| ≤ 2 ^ (F.mw - P + (x.exp - 1)) := by omega
        exact_mod_cast this
      · -- full precision: the model returns the input itself or nothing
        subst hPe
        rcases sem with _ | _
        · exfalso
          have hub : roundNormal .strict F w x F.mw = .ub := by
            have hneeds : needsRounding .strict F w x F.mw = .ub := by
              unfold needsRounding
              rw [cShl_one_in .strict w _ 0 (by simp) (by omega), cShr_in .strict w _ _ 0 (by simp) (by omega)]
              have : cShl .strict w 1 ((F.mw : Int) - F.mw - 1) = .ub := by
                unfold cShl; rw [if_neg (by omega)]
              rw [this]; rfl
            unfold roundNormal
            rw [hneeds, cShl_in .strict w _ _ 0 (by simp) (by omega)]
            simp only [Outcome.bind_ok, Outcome.bind_ub]
            split_ifs
            · unfold cShl
              split_ifs <;> rfl
            · rfl
          rw [hub] at hy'
          exact absurd hy' (by simp)
        · rw [roundNormal_full F w x hw hx] at hy'
          injection hy' with hy'
          rw [← hy', sub_self, abs_zero]
          simp only [zero_mul]
          positivity

/-- C08, what the error modes do to inputs in the normal range of the requested format,
the combined mode included.  With `q` the configured precision in the combined mode and
the full one in the absolute mode, and `K` the larger of the threshold `k` and the weight
`e-q` of the last bit kept, a finite result is a multiple of `2^K` and one of the nearest
ones. -/
theorem C08_grid (sem : ShiftSem) (F : Fmt) (w : Nat) (hF : IsC F w) (x y : Bits)
    (inp : Bool) (c : Ctx) (r p : Nat) (habs : c.absErr = true)
    (hr : 2 ≤ r) (hr2 : r ≤ F.ew) (hp : p ≤ F.mw) (hx : x.WF F) (hfin : x.Fin F)
    (hnorm : 2 ^ Spec.emin r ≤ |x.val F|) (e : ℤ) (he1 : 2 ^ e ≤ |x.val F|) (he2 : |x.val F| < 2 ^ (e + 1))
    (hy : roundBinary sem F w x inp c r p = .ok y) (hyf : y.Fin F)
    (K : ℤ) (hK : K = max c.absErrExp (e - if c.relErr then p else F.mw)) :
    (∃ m : ℤ, y.val F = m * 2 ^ K) ∧ 2 * |x.val F - y.val F| ≤ 2 ^ K := by
  obtain ⟨hem1, hem2, hrr, hcmin, hcap, hw, hew2, hinf⟩ := range_facts F w hF r 0 hr hr2 (by omega)
  have huexp : F.uexp = 1 - (F.bias : Int) - F.mw := rfl
  have hemm : Spec.emin r = 1 - Spec.emax r := rfl
  have hfin' : x.exp < F.expInf := by
    have := hx.1; unfold Bits.Fin Fmt.expInf at *; omega
  have hne : x.mag F ≠ 0 := by
    rw [Ne, ← val_eq_zero]
    intro h
    rw [h, abs_zero] at hnorm
    have : (0 : ℚ) < 2 ^ Spec.emin r := by positivity
    linarith
  have hnb : ¬ ((x.exp : Int) - F.bias < Spec.emin r) := by
    rw [below_emin F w hF r hr hr2 x hx hne]; exact not_lt.2 hnorm
  have hE : 1 ≤ x.exp := by omega
  have hlog := log2_mag_normal F x hx.2 hE
  have hy' : normalAbsErr sem F w x ((x.exp : Int) - F.bias) p c = .ok y := by
    unfold roundBinary at hy
    have hem : (2 : Int) ^ (r - 1) - 1 = Spec.emax r := rfl
    simp only [hem] at hy
    rw [if_neg (by omega), ← hemm] at hy
    simp only [if_neg hnb, if_pos habs] at hy
    revert hy
    generalize (if (x.exp : Int) - F.bias ≥ Spec.emax r then _ else _ : Outcome Bool) = O
    intro hy
    rcases O with b | _ | _
    · cases b
      · simpa using hy
      · simp only [Outcome.bind_ok, if_true, Outcome.pure_eq, Outcome.ok.injEq] at hy
        rw [← hy] at hyf
        exact absurd rfl hyf
    · simp at hy
    · simp at hy
  clear hy
  have hval : |x.val F| < 2 ^ ((x.exp : Int) - F.bias + 1) := by
    rw [abs_val, mag_lt_pow F _ _ (F.mw + x.exp) (by push_cast; omega), ← Nat.log2_lt hne, hlog]
    omega
  have hlow : 2 ^ ((x.exp : Int) - F.bias) ≤ |x.val F| := by
    rw [abs_val, ← not_lt, mag_lt_pow F _ _ (F.mw + (x.exp - 1)) (by push_cast [hE]; omega), not_lt,
      ← hlog]
    exact Nat.log2_self_le hne
  have hee : e = (x.exp : Int) - F.bias := by
    have h1 := (zpow_lt_zpow_iff_right₀ (by norm_num : (1 : ℚ) < 2)).1 (lt_of_le_of_lt he1 hval)
    have h2 := (zpow_lt_zpow_iff_right₀ (by norm_num : (1 : ℚ) < 2)).1 (lt_of_le_of_lt hlow he2)
    omega
  rw [← hee] at hy' hval hlow
  have hk1 : ∀ d : ℤ, (2 : ℚ) ^ (d + 1) = 2 * 2 ^ d := by
    intro d
    have := two_zpow_split (d + 1) d 1 (by norm_num)
    simpa using this
  obtain ⟨q, hq, hqle⟩ : ∃ q : ℕ, q = (if c.relErr then p else F.mw) ∧ q ≤ F.mw := by
    split_ifs
    · exact ⟨p, rfl, hp⟩
    · exact ⟨F.mw, rfl, le_rfl⟩
  rw [← hq] at hK
  unfold normalAbsErr at hy'
  simp only at hy'
  by_cases h1 : e - c.absErrExp < -1
  · rw [if_pos h1] at hy'
    simp only [Outcome.pure_eq, Outcome.ok.injEq] at hy'
    rw [← hy', val_zero, sub_zero]
    refine ⟨⟨0, by simp⟩, ?_⟩
    have : (2 : ℚ) ^ (e + 1 + 1) ≤ 2 ^ K := zpow_le_zpow_right₀ (by norm_num) (by omega)
    rw [hk1] at this
    linarith
  · rw [if_neg h1] at hy'
    by_cases h2 : e - c.absErrExp = -1
    · rw [if_pos h2] at hy'
      simp only [Outcome.pure_eq, Outcome.ok.injEq] at hy'
      have hk : c.absErrExp = (x.exp : Int) - F.bias + 1 := by omega
      have hKk : K = c.absErrExp := by omega
      have hp2 : pow2i F c.absErrExp = ⟨false, x.exp + 1, 0⟩ := by
        unfold pow2i
        simp only [hk]
        have e1 : (x.exp : Int) - F.bias + 1 + F.bias = x.exp + 1 := by ring
        rw [e1]
        rw [if_neg (by omega)]
        by_cases hb : (x.exp : Int) + 1 ≥ F.expInf
        · exfalso
          have : pow2i F c.absErrExp = infBits F false := by
            unfold pow2i
            simp only [hk]
            rw [e1, if_neg (by omega), if_pos hb]
          rw [this] at hy'
          rw [← hy'] at hyf
          exact hyf rfl
        · rw [if_neg hb, if_neg (by omega)]
          have e2 : ((x.exp : Int) + 1).toNat = x.exp + 1 := by omega
          rw [e2]
          have := ofPat_mk F false (x.exp + 1) 0 (by positivity)
          simpa using this
      rw [hp2] at hy'
      have hyv : y.val F = sgn x.sign * 2 ^ c.absErrExp := by
        rw [val_eq_mag, ← hy', mag_pow, two_zpow_split c.absErrExp F.uexp (F.mw + x.exp)
          (by push_cast; omega)]
        push_cast; ring
      refine ⟨⟨if x.sign then -1 else 1, ?_⟩, ?_⟩
      · rw [hyv, hKk]; unfold sgn; split_ifs <;> norm_num
      rw [hyv]
      have hxv : x.val F = sgn x.sign * |x.val F| := by
        rw [abs_val, val_eq_mag]; ring
      rw [hxv, ← mul_sub, abs_mul, abs_sgn, one_mul, hKk]
      have h3 : c.absErrExp = e + 1 := by omega
      rw [h3, hk1] at *
      rw [abs_of_nonpos (by linarith)]
      linarith
    · rw [if_neg h2] at hy'
      obtain ⟨P, hP, hPle, hPK⟩ : ∃ P : ℕ, computeAbsErr F false c (e - c.absErrExp) p = P ∧
          P ≤ F.mw ∧ K = e - P := by
        unfold computeAbsErr
        rw [if_neg (by simp)]
        split_ifs at hq ⊢
        · exact ⟨(e - c.absErrExp).toNat, by omega, by omega, by omega⟩
        · exact ⟨p, by omega, by omega, by omega⟩
        · exact ⟨(e - c.absErrExp).toNat, by omega, by omega, by omega⟩
        · exact ⟨F.mw, by omega, by omega, by omega⟩
      rw [hP] at hy'
      obtain ⟨hs, herr, m, hm⟩ := roundNormal_err sem F w x y P hw hPle hx hfin' hE hy'
      have hexp : K = F.uexp + ((F.mw - P + (x.exp - 1) : ℕ) : ℤ) := by
        push_cast [hPle, hE]; omega
      constructor
      · refine ⟨(if x.sign then -1 else 1) * m, ?_⟩
        rw [val_eq_mag, hs, hm, two_zpow_split K F.uexp _ hexp]
        unfold sgn
        split_ifs <;> push_cast <;> ring
      · rw [val_eq_mag, val_eq_mag, hs]
        have e1 := dist_scale F x.sign (x.mag F) (y.mag F)
        push_cast at e1
        rw [e1, two_zpow_split K F.uexp _ hexp, ← mul_assoc]
        apply mul_le_mul_of_nonneg_right _ (u_pos F).le
        exact_mod_cast herr

/-- `1.375f` at 10 bits and threshold `2^-2`, combined mode: the threshold wins and the
result is the tie `1.25`/`1.5` broken to even; at threshold `2^-20` the precision wins. -/
example : round32 .strict ⟨false, 127, 3 * 2 ^ 20⟩ true ⟨true, true, -2, false, false⟩ 8 10 =
      .ok ⟨false, 127, 2 ^ 22⟩ ∧
    round32 .strict ⟨false, 127, 3 * 2 ^ 20 + 1⟩ true ⟨true, true, -20, false, false⟩ 8 10 =
      .ok ⟨false, 127, 3 * 2 ^ 20⟩ := by
  decide +kernel

/-- Below the normal range the code only looks at the flush flags and at
`handleDenormal`. -/
theorem roundBinary_sub (sem : ShiftSem) (F : Fmt) (w : Nat) (hF : IsC F w) (x : Bits) (inp : Bool)
    (c : Ctx) (r : Nat) (p : Int) (hr : 2 ≤ r) (hr2 : r ≤ F.ew) (hne : x.mag F ≠ 0)
    (hb : (x.exp : Int) - F.bias < Spec.emin r)
    (hnf : ((c.daz && inp) || (c.ftz && !inp)) = false) :
    roundBinary sem F w x inp c r p = handleDenormal sem F x (Spec.emin r)
      (if c.absErr then computeAbsErr F true c 0 p else p) := by
  obtain ⟨hem1, hem2, hrr, hcmin, hcap, hw, hew2, hinf⟩ := range_facts F w hF r 0 hr hr2 (by omega)
  have hemm : Spec.emin r = 1 - Spec.emax r := rfl
  unfold roundBinary
  have hem : (2 : Int) ^ (r - 1) - 1 = Spec.emax r := rfl
  simp only [hem]
  rw [← hemm, if_neg (by omega), if_neg (by omega)]
  simp only [Outcome.bind_ok, Outcome.pure_eq]
  rw [if_neg (by simp), if_pos hb, hnf, if_neg (by simp), if_neg (by rw [← mag_eq_zero]; exact hne)]
  split_ifs <;> rfl

/-- C08, inputs below the normal range, when the threshold is at least the smallest
normal number. -/
theorem C08_abs_error_subnormal_partial (sem : ShiftSem) (F : Fmt) (w : Nat) (hF : IsC F w) (x : Bits)
    (inp : Bool) (c : Ctx) (r p : Nat) (habs : c.absErr = true) (hrel : c.relErr = false)
    (hr : 2 ≤ r) (hr2 : r ≤ F.ew) (hx : x.WF F) (hfin : x.Fin F)
    (hsub : |x.val F| < 2 ^ Spec.emin r) (hk : Spec.emin r ≤ c.absErrExp) :
    ∃ y, roundBinary sem F w x inp c r p = .ok y ∧ y.Fin F ∧
      |x.val F - y.val F| ≤ 2 ^ c.absErrExp := by
  obtain ⟨hem1, hem2, hrr, hcmin, hcap, hw, hew2, hinf⟩ := range_facts F w hF r 0 hr hr2 (by omega)
  have huexp : F.uexp = 1 - (F.bias : Int) - F.mw := rfl
  have hemm : Spec.emin r = 1 - Spec.emax r := rfl
  have hmono : (2 : ℚ) ^ Spec.emin r ≤ 2 ^ c.absErrExp := zpow_le_zpow_right₀ (by norm_num) hk
  have hzfin : ∀ s, (zeroBits s).Fin F := by
    intro s; unfold Bits.Fin zeroBits; simp only; omega
  by_cases hne : x.mag F = 0
  · refine ⟨x, roundBinary_zero sem F w hF x inp c r p hr hr2 ((mag_eq_zero F x).1 hne), hfin, ?_⟩
    rw [sub_self, abs_zero]; positivity
  have hb := (below_emin F w hF r hr hr2 x hx hne).2 hsub
  by_cases hfl : ((c.daz && inp) || (c.ftz && !inp)) = true
  · refine ⟨zeroBits x.sign, ?_, hzfin _, ?_⟩
    · unfold roundBinary
      have hem : (2 : Int) ^ (r - 1) - 1 = Spec.emax r := rfl
      simp only [hem]
      rw [← hemm, if_neg (by omega), if_neg (by omega)]
      simp only [Outcome.bind_ok, Outcome.pure_eq]
      rw [if_neg (by simp), if_pos hb, if_pos hfl]
    · rw [val_zero, sub_zero]; linarith
  have hfl' : ((c.daz && inp) || (c.ftz && !inp)) = false := by simpa using hfl
  rw [roundBinary_sub sem F w hF x inp c r p hr hr2 hne hb hfl', if_pos habs]
  have hce : computeAbsErr F true c 0 p = c.absErrExp := by
    unfold computeAbsErr; rw [if_pos rfl, hrel]; simp
  rw [hce]
  generalize c.absErrExp = k at *
  by_cases hk1 : 1 ≤ k ∧ k ≤ F.mw
  · -- the code runs the relative rounding with `k` bits
    obtain ⟨q, hq⟩ : ∃ q : ℕ, k = q := ⟨k.toNat, by omega⟩
    subst hq
    obtain ⟨y, h1, h2, h3, h4, -⟩ := C02_gradual_underflow sem F w hF x inp ⟨true, false, 0, false, false⟩ r q
      rfl rfl hr hr2 (by omega) (by omega) hx hfin (by rw [Ne, val_eq_zero]; exact hne) hsub
    rw [roundBinary_sub sem F w hF x inp _ r q hr hr2 hne hb rfl, if_neg (by simp)] at h1
    refine ⟨y, h1, h3, ?_⟩
    have := h4.2 0 ⟨0, Spec.emin r - q, by positivity, le_rfl, by simp⟩
    rw [sub_zero] at this
    linarith
  · by_cases hu : (x.exp : Int) - F.bias < Spec.emin r - k
    · unfold handleDenormal hasUnderflow
      rw [if_pos (by simpa using hu)]
      refine ⟨_, rfl, ?_⟩
      unfold roundUnderflow
      have hmod : (F.bias + (Spec.emin r - k) - 1) % 2 ^ F.ew = F.bias + (Spec.emin r - k) - 1 := by
        have h2 : (2 : Int) ^ F.ew = ((F.expInf + 1 : ℕ) : Int) := by
          have : 0 < 2 ^ F.ew := by positivity
          have : F.expInf + 1 = 2 ^ F.ew := by unfold Fmt.expInf; omega
          rw [this]; push_cast; rfl
        rw [h2]
        apply Int.emod_eq_of_lt <;> omega
      rw [hmod]
      obtain ⟨h, hh⟩ : ∃ h : ℕ, F.bias + (Spec.emin r - k) - 1 = h :=
        ⟨(F.bias + (Spec.emin r - k) - 1).toNat, by omega⟩
      rw [hh, Int.toNat_natCast]
      by_cases hc : x.exp ≥ h
      · have hm2 : (h + 1) % 2 ^ F.ew = h + 1 := by
          apply Nat.mod_eq_of_lt
          have : F.expInf = 2 ^ F.ew - 1 := rfl
          omega
        simp only [if_pos hc, hm2]
        refine ⟨by unfold Bits.Fin; simp only; omega, ?_⟩
        rw [val_eq_mag, val_eq_mag, mag_pow]
        have e1 := dist_scale F x.sign (x.mag F) ((2 ^ (F.mw + h) : ℕ) : ℤ)
        push_cast at e1 ⊢
        rw [e1]
        obtain ⟨K, hK⟩ : ∃ K : ℕ, (K : ℤ) = Spec.emin r - F.uexp := ⟨(Spec.emin r - F.uexp).toNat, by omega⟩
        have hxm : x.mag F < 2 ^ K := by
          rw [← mag_lt_pow F _ (Spec.emin r) K hK, ← abs_val]; exact hsub
        have hhK : 2 ^ (F.mw + h) ≤ 2 ^ K := Nat.pow_le_pow_right (by norm_num) (by omega)
        refine le_trans ?_ hmono
        rw [two_zpow_split (Spec.emin r) F.uexp K (by omega)]
        apply mul_le_mul_of_nonneg_right _ (u_pos F).le
        have hz : |(x.mag F : ℤ) - ((2 ^ (F.mw + h) : ℕ) : ℤ)| ≤ ((2 ^ K : ℕ) : ℤ) := by
          clear e1
          generalize 2 ^ (F.mw + h) = A at hhK ⊢
          generalize 2 ^ K = B at hhK hxm ⊢
          rw [abs_le]; constructor <;> omega
        push_cast at hz
        exact_mod_cast hz
      · simp only [if_neg hc]
        refine ⟨hzfin _, ?_⟩
        rw [val_zero, sub_zero]; linarith
    · refine ⟨x, ?_, hfin, ?_⟩
      · unfold handleDenormal hasUnderflow
        rw [if_neg (by simpa using hu), if_neg (by omega)]; rfl
      · rw [sub_self, abs_zero]; positivity

/-- C08 is false of the code below the normal range when the threshold is smaller
than the smallest normal number: with `k = -140` the `float` `2^-130` (far above the
threshold, and representable) is replaced by `0`. -/
theorem C08_subnormal_flushed (sem : ShiftSem) :
    ∃ x y : Bits, x.WF b32 ∧ x.Fin b32 ∧
      round32 sem x true ⟨false, true, -140, false, false⟩ 8 23 = .ok y ∧
      (2 : ℚ) ^ (-140 : ℤ) < |x.val b32 - y.val b32| := by
  refine ⟨⟨false, 0, 2 ^ 19⟩, zeroBits false, by decide, by decide, ?_, ?_⟩
  · cases sem <;> decide +kernel
  · rw [val_zero, sub_zero, abs_val]
    have : (⟨false, 0, 2 ^ 19⟩ : Bits).mag b32 = 2 ^ 19 := by decide +kernel
    rw [this, b32_facts.2.2.2.2]
    norm_num

/-- Hypotheses of the normal-range theorem: `1.1b * 2^3` with `k = 1` becomes `12`. -/
example : round32 .strict ⟨false, 130, 0x600000⟩ true ⟨false, true, 1, false, false⟩ 8 23
    = .ok ⟨false, 130, 0x600000⟩ := by decide +kernel
example : round32 .strict ⟨true, 130, 0x6ABCDE⟩ false ⟨false, true, 1, false, false⟩ 8 23
    = .ok ⟨true, 130, 0x600000⟩ := by decide +kernel
/-- Hypotheses of the subnormal theorem: reduced range, threshold `2^-4`. -/
example : Spec.emin 4 ≤ (-4 : ℤ) ∧ round32 .strict ⟨false, 115, 0x600000⟩ false ⟨false, true, -4, false, false⟩ 4 23
    = .ok ⟨false, 0, 0⟩ := by decide +kernel

end Verif.Vprec
