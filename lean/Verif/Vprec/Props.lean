import Verif.Vprec.Value

/-!
# Properties of VPREC rounding (C01 - C07)

`IsC F w` says that `F` is the format of the C type `float` (`w = 32`) or
`double` (`w = 64`).  The context is in relative error mode (`absErr = false`).
-/

namespace Verif.Vprec
open Verif Verif.Fp

/-- A context in the default relative-error mode. -/
def relCtx : Ctx := ⟨true, false, -1022, false, false⟩

/-! ## C01 -/

/-- C01: in the normal range of the requested format the result is the
round-to-nearest-even of the input, or the infinity of its sign when that reaches
`2^(emax+1)`.  No undefined behaviour under strict shift semantics. -/
theorem C01_round_nearest_even (sem : ShiftSem) (F : Fmt) (w : Nat) (hF : IsC F w) (x : Bits)
    (inp : Bool) (c : Ctx) (r p : Nat) (habs : c.absErr = false) (hr : 2 ≤ r) (hr2 : r ≤ F.ew)
    (hp1 : 1 ≤ p) (hp : p < F.mw) (hx : x.WF F) (hfin : x.Fin F)
    (hnorm : 2 ^ Spec.emin r ≤ |x.val F|) :
    ∃ y q, roundBinary sem F w x inp c r p = .ok y ∧
      Spec.RNE p (Spec.emin r) (x.val F) q ∧ y.sign = x.sign ∧
      (|q| < 2 ^ (Spec.emax r + 1) → y.WF F ∧ y.Fin F ∧ y.val F = q) ∧
      (2 ^ (Spec.emax r + 1) ≤ |q| → y = infBits F x.sign) := by
  obtain ⟨hem1, hem2, hrr, hcmin, hcap, hw, hew2, hinf⟩ := range_facts F w hF r p hr hr2 hp.le
  have hfin' : x.exp < F.expInf := by
    have := hx.1; unfold Bits.Fin Fmt.expInf at *; omega
  have hne : x.mag F ≠ 0 := by
    rw [Ne, ← val_eq_zero]
    intro h
    rw [h, abs_zero] at hnorm
    have : (0 : ℚ) < 2 ^ Spec.emin r := by positivity
    linarith
  have hnb : ¬ ((x.exp : Int) - F.bias < Spec.emin r) := by
    rw [below_emin F w hF r hr hr2 x hx hne]; exact not_lt.2 hnorm
  refine ⟨_, rndVal F r p x, roundBinary_rel sem F w hF x inp c r p habs hr hr2 hp1 hp.le (Or.inl hp)
    hx hfin' hne, ?_, ?_⟩
  · apply rndVal_rne F r p x hp1 hne hcmin
    intro h
    have h1 : Nat.log2 (x.mag F) < rndPos p (cminOf F r p) (x.mag F) := by
      rw [Nat.log2_lt hne]; omega
    have huexp : F.uexp = 1 - (F.bias : Int) - F.mw := rfl
    have hlog := log2_mag_normal F x hx.2 (by have : Spec.emin r = 1 - Spec.emax r := rfl
                                              omega)
    have : Spec.emin r = 1 - Spec.emax r := rfl
    unfold rndPos at h1
    omega
  · have hf := relFacts F w hF x r p ((c.daz && inp) || (c.ftz && !inp)) hr hr2 hp.le hne (by tauto)
    have hnz : rndVal F r p x ≠ 0 := by
      rw [← abs_pos, abs_rndVal]
      have h1 : 2 ^ Nat.log2 (x.mag F) ≤ rnd p (cminOf F r p) (x.mag F) := by
        apply rnd_ge p _ _ _ (Nat.log2_self_le hne)
        have huexp : F.uexp = 1 - (F.bias : Int) - F.mw := rfl
        have : Spec.emin r = 1 - Spec.emax r := rfl
        rw [log2_mag_normal F x hx.2 (by omega)]
        omega
      have h2 : 0 < 2 ^ Nat.log2 (x.mag F) := by positivity
      have h3 : (0 : ℚ) < rnd p (cminOf F r p) (x.mag F) := by exact_mod_cast (by omega)
      exact mul_pos h3 (u_pos F)
    exact ⟨hf.sign hnz, fun h => ⟨hf.wf, (hf.fin h).1.ne, (hf.fin h).2⟩, hf.inf⟩

/-- 1.1 in `double`, rounded to the binary16 format (p = 10, r = 5). -/
example : round64 .strict ⟨false, 1023, 450359962737050⟩ false relCtx 5 10 =
    .ok ⟨false, 1023, 102 * 2 ^ 42⟩ := by decide +kernel

example : (⟨false, 1023, 450359962737050⟩ : Bits).WF b64 ∧
    (⟨false, 1023, 450359962737050⟩ : Bits).Fin b64 := by decide +kernel

/-! ## C02 -/

/-- C02: below the smallest normal number of the format the result is a closest
element of the format (a multiple of `2^(emin-p)` at distance at most half of it),
ties going to even except at exactly half the smallest subnormal. -/
theorem C02_gradual_underflow (sem : ShiftSem) (F : Fmt) (w : Nat) (hF : IsC F w) (x : Bits)
    (inp : Bool) (c : Ctx) (r p : Nat) (habs : c.absErr = false)
    (hnf : ((c.daz && inp) || (c.ftz && !inp)) = false) (hr : 2 ≤ r) (hr2 : r ≤ F.ew)
    (hp1 : 1 ≤ p) (hp : p ≤ F.mw) (hx : x.WF F) (hfin : x.Fin F) (hne : x.val F ≠ 0)
    (hsub : |x.val F| < 2 ^ Spec.emin r) :
    ∃ y, roundBinary sem F w x inp c r p = .ok y ∧ y.WF F ∧ y.Fin F ∧
      Spec.Nearest p (Spec.emin r) (x.val F) (y.val F) ∧
      (∃ k : ℤ, y.val F = k * 2 ^ (Spec.emin r - p)) ∧
      2 * |x.val F - y.val F| ≤ 2 ^ (Spec.emin r - p) ∧
      (|x.val F| ≠ 2 ^ (Spec.emin r - p - 1) → Spec.RNE p (Spec.emin r) (x.val F) (y.val F)) := by
  obtain ⟨hem1, hem2, hrr, hcmin, hcap, hw, hew2, hinf⟩ := range_facts F w hF r p hr hr2 hp
  have hfin' : x.exp < F.expInf := by
    have := hx.1; unfold Bits.Fin Fmt.expInf at *; omega
  have hne' : x.mag F ≠ 0 := by rw [Ne, ← val_eq_zero]; exact hne
  have huexp : F.uexp = 1 - (F.bias : Int) - F.mw := rfl
  have hemm : Spec.emin r = 1 - Spec.emax r := rfl
  have hb := (below_emin F w hF r hr hr2 x hx hne').2 hsub
  have hf := relFacts F w hF x r p ((c.daz && inp) || (c.ftz && !inp)) hr hr2 hp hne'
    (by rw [hnf]; simp)
  have hlt : x.mag F < 2 ^ (p + cminOf F r p) := by
    rw [← mag_lt_pow F _ (Spec.emin r) (p + cminOf F r p) (by push_cast; omega), ← abs_val]
    exact hsub
  have hrle := rnd_le p (cminOf F r p) (x.mag F) (p + cminOf F r p) hlt.le hne' (by omega)
  have hcaplt : 2 ^ (p + cminOf F r p) < 2 ^ capOf F r :=
    Nat.pow_lt_pow_right (by norm_num) (by omega)
  have hsmall : |rndVal F r p x| < 2 ^ (Spec.emax r + 1) := by
    rw [abs_rndVal, mag_lt_pow F _ (Spec.emax r + 1) (capOf F r) hcap]; omega
  obtain ⟨hfy, hvy⟩ := hf.fin hsmall
  have hpos : rndPos p (cminOf F r p) (x.mag F) = cminOf F r p := by
    have := (Nat.log2_lt hne').2 hlt
    unfold rndPos; omega
  refine ⟨_, roundBinary_rel sem F w hF x inp c r p habs hr hr2 hp1 hp (Or.inr (Or.inr hb))
    hx hfin' hne', hf.wf, hfy.ne, ?_, ?_, ?_, ?_⟩
  · rw [hvy]; exact rndVal_nearest F r p x hne' hcmin
  · rw [hvy]
    refine ⟨(if x.sign then -(denN (x.mag F) (cminOf F r p) : ℤ) else denN (x.mag F) (cminOf F r p)), ?_⟩
    unfold rndVal rnd
    rw [hpos, two_zpow_split (Spec.emin r - p) F.uexp (cminOf F r p) (by omega)]
    unfold sgn
    split_ifs <;> push_cast <;> ring
  · rw [hvy, val_eq_mag]
    have e1 := dist_scale F x.sign (x.mag F) (rnd p (cminOf F r p) (x.mag F))
    push_cast at e1
    unfold rndVal
    rw [e1, two_zpow_split (Spec.emin r - p) F.uexp (cminOf F r p) (by omega), ← mul_assoc]
    apply mul_le_mul_of_nonneg_right _ (u_pos F).le
    have := denN_err (x.mag F) (cminOf F r p)
    unfold rnd
    rw [hpos]
    exact_mod_cast this
  · intro hh
    rw [hvy]
    apply rndVal_rne F r p x hp1 hne' hcmin
    rw [hpos]
    intro h
    apply hh
    rw [abs_val]
    have h' : (2 : ℚ) * (x.mag F : ℚ) = 2 ^ cminOf F r p := by exact_mod_cast h
    have e2 : (2 : ℚ) ^ (Spec.emin r - p) = 2 * 2 ^ (Spec.emin r - p - 1) := by
      have := two_zpow_split (Spec.emin r - p) (Spec.emin r - p - 1) 1 (by ring)
      simpa using this
    rw [two_zpow_split (Spec.emin r - p) F.uexp (cminOf F r p) (by omega)] at e2
    rw [← h'] at e2
    linarith

/-- `3 * 2^-26` is rounded to the multiple `2^-24` of the binary16 subnormal unit. -/
example : round64 .strict ⟨false, 1023 - 25, 2 ^ 51⟩ false relCtx 5 10 =
    .ok ⟨false, 1023 - 24, 0⟩ := by decide +kernel

/-- C02, the exception is real: at exactly half the smallest subnormal the code
returns the smallest subnormal, although zero is as close and even. -/
theorem C02_half_unit_tie_not_even (sem : ShiftSem) (F : Fmt) (w : Nat) (hF : IsC F w) (x : Bits)
    (inp : Bool) (c : Ctx) (r p : Nat) (habs : c.absErr = false)
    (hnf : ((c.daz && inp) || (c.ftz && !inp)) = false) (hr : 2 ≤ r) (hr2 : r ≤ F.ew)
    (hp1 : 1 ≤ p) (hp : p ≤ F.mw) (hx : x.WF F) (hfin : x.Fin F)
    (hhalf : |x.val F| = 2 ^ (Spec.emin r - p - 1)) :
    ∃ y, roundBinary sem F w x inp c r p = .ok y ∧ y.Fin F ∧
      |y.val F| = 2 ^ (Spec.emin r - p) ∧ ¬ Spec.RNE p (Spec.emin r) (x.val F) (y.val F) := by
  obtain ⟨hem1, hem2, hrr, hcmin, hcap, hw, hew2, hinf⟩ := range_facts F w hF r p hr hr2 hp
  have hfin' : x.exp < F.expInf := by
    have := hx.1; unfold Bits.Fin Fmt.expInf at *; omega
  have hpz : (0 : ℚ) < 2 ^ (Spec.emin r - p - 1) := by positivity
  have hv0 : x.val F ≠ 0 := by
    intro h; rw [h, abs_zero] at hhalf; linarith
  have hne' : x.mag F ≠ 0 := by rw [Ne, ← val_eq_zero]; exact hv0
  have hsub : |x.val F| < 2 ^ Spec.emin r := by
    rw [hhalf]; exact zpow_lt_zpow_right₀ (by norm_num) (by omega)
  have huexp : F.uexp = 1 - (F.bias : Int) - F.mw := rfl
  have hemm : Spec.emin r = 1 - Spec.emax r := rfl
  have hb := (below_emin F w hF r hr hr2 x hx hne').2 hsub
  have hf := relFacts F w hF x r p ((c.daz && inp) || (c.ftz && !inp)) hr hr2 hp hne'
    (by rw [hnf]; simp)
  have hlt : x.mag F < 2 ^ (p + cminOf F r p) := by
    rw [← mag_lt_pow F _ (Spec.emin r) (p + cminOf F r p) (by push_cast; omega), ← abs_val]
    exact hsub
  have hrle := rnd_le p (cminOf F r p) (x.mag F) (p + cminOf F r p) hlt.le hne' (by omega)
  have hcaplt : 2 ^ (p + cminOf F r p) < 2 ^ capOf F r :=
    Nat.pow_lt_pow_right (by norm_num) (by omega)
  have hsmall : |rndVal F r p x| < 2 ^ (Spec.emax r + 1) := by
    rw [abs_rndVal, mag_lt_pow F _ (Spec.emax r + 1) (capOf F r) hcap]; omega
  obtain ⟨hfy, hvy⟩ := hf.fin hsmall
  have hpos : rndPos p (cminOf F r p) (x.mag F) = cminOf F r p := by
    have := (Nat.log2_lt hne').2 hlt
    unfold rndPos; omega
  have e2 : (2 : ℚ) ^ (Spec.emin r - p) = 2 * 2 ^ (Spec.emin r - p - 1) := by
    have := two_zpow_split (Spec.emin r - p) (Spec.emin r - p - 1) 1 (by ring)
    simpa using this
  have h2 : 2 * x.mag F = 2 ^ cminOf F r p := by
    rw [abs_val] at hhalf
    rw [← hhalf, two_zpow_split (Spec.emin r - p) F.uexp (cminOf F r p) (by omega), ← mul_assoc] at e2
    have := mul_right_cancel₀ (u_pos F).ne' e2
    exact_mod_cast this.symm
  have hR : rnd p (cminOf F r p) (x.mag F) = 2 ^ cminOf F r p := by
    unfold rnd denN; rw [hpos, if_pos h2, one_mul]
  have hav : |rndVal F r p x| = 2 ^ (Spec.emin r - p) := by
    rw [abs_rndVal, hR, two_zpow_split (Spec.emin r - p) F.uexp (cminOf F r p) (by omega)]
    push_cast; rfl
  refine ⟨_, roundBinary_rel sem F w hF x inp c r p habs hr hr2 hp1 hp (Or.inr (Or.inr hb))
    hx hfin' hne', hfy.ne, ?_, ?_⟩
  · rw [hvy, hav]
  · rw [hvy]
    rintro ⟨-, htie⟩
    have hxy : rndVal F r p x = 2 * x.val F := by
      rw [val_eq_mag]
      unfold rndVal
      rw [hR, ← h2]; push_cast; ring
    obtain ⟨m, e, h1, h3, h4, h5, h6⟩ := htie ⟨0, ⟨0, Spec.emin r - p, by simp, le_rfl, by simp⟩, by
        intro h; rw [← h] at hav; rw [abs_zero] at hav
        have : (0 : ℚ) < 2 ^ (Spec.emin r - p) := by positivity
        linarith, by
        rw [hxy, sub_zero, show x.val F - 2 * x.val F = - x.val F by ring, abs_neg]⟩
    -- the significand of 2^(emin-p) with the smallest quantum is 1
    rw [h4, abs_mul, abs_of_pos (by positivity : (0 : ℚ) < 2 ^ e)] at hav
    obtain ⟨d, hd⟩ : ∃ d : ℕ, e = Spec.emin r - p + d := ⟨(e - (Spec.emin r - p)).toNat, by omega⟩
    rw [two_zpow_split e (Spec.emin r - p) d hd, ← mul_assoc] at hav
    have hpp : (0 : ℚ) < 2 ^ (Spec.emin r - p) := by positivity
    have h7 : |(m : ℚ)| * 2 ^ d = 1 := by
      have : |(m : ℚ)| * 2 ^ d * 2 ^ (Spec.emin r - p) = 1 * 2 ^ (Spec.emin r - p) := by rw [hav, one_mul]
      exact mul_right_cancel₀ hpp.ne' this
    have h8 : |m| * 2 ^ d = 1 := by exact_mod_cast h7
    have h9 : |m| = 1 := by
      have hd1 : (1 : ℤ) ≤ 2 ^ d := one_le_pow₀ (by norm_num)
      have hm1 : 0 ≤ |m| := abs_nonneg m
      nlinarith
    have h10 : Even |m| := (even_abs (a := m)).2 h5
    rw [h9] at h10
    exact absurd h10 (by decide)

example : |(⟨false, 1023 - 25, 0⟩ : Bits).val b64| = 2 ^ (Spec.emin 5 - ((10 : ℕ) : ℤ) - 1) := by
  rw [abs_val]; decide +kernel

end Verif.Vprec
