import Verif.Vprec.Nearest

/-! Values of the results of relative-error rounding. -/

namespace Verif.Vprec
open Verif Verif.Fp

theorem u_pos (F : Fmt) : (0 : ℚ) < 2 ^ F.uexp := by positivity

theorem abs_val (F : Fmt) (x : Bits) : |x.val F| = (x.mag F : ℚ) * 2 ^ F.uexp := by
  rw [val_eq_mag, abs_mul, abs_mul, abs_sgn, one_mul, abs_of_pos (u_pos F)]
  congr 1
  exact abs_of_nonneg (by positivity)

theorem val_eq_zero (F : Fmt) (x : Bits) : x.val F = 0 ↔ x.mag F = 0 := by
  rw [← abs_eq_zero, abs_val]
  have := u_pos F
  constructor
  · intro h
    rcases mul_eq_zero.1 h with h | h
    · exact_mod_cast h
    · linarith
  · intro h; rw [h]; simp

/-- Comparing a magnitude with a power of two. -/
theorem mag_lt_pow (F : Fmt) (n : Nat) (k : ℤ) (K : ℕ) (hK : (K : ℤ) = k - F.uexp) :
    (n : ℚ) * 2 ^ F.uexp < 2 ^ k ↔ n < 2 ^ K := by
  rw [two_zpow_split k F.uexp K (by omega)]
  rw [mul_lt_mul_iff_left₀ (u_pos F)]
  exact_mod_cast Iff.rfl

theorem below_emin (F : Fmt) (w : Nat) (hF : IsC F w) (r : Nat) (hr : 2 ≤ r) (hr2 : r ≤ F.ew)
    (x : Bits) (hx : x.WF F) (hne : x.mag F ≠ 0) :
    (x.exp : Int) - F.bias < Spec.emin r ↔ |x.val F| < 2 ^ Spec.emin r := by
  obtain ⟨hem1, hem2, hrr, hcmin, hcap, hw, hew2, hinf⟩ := range_facts F w hF r 0 hr hr2 (by omega)
  have huexp : F.uexp = 1 - (F.bias : Int) - F.mw := rfl
  have hemm : Spec.emin r = 1 - Spec.emax r := rfl
  rw [abs_val, mag_lt_pow F _ (Spec.emin r) (Spec.emin r - F.uexp).toNat (by omega)]
  by_cases h0 : x.exp = 0
  · rw [mag_subnormal F x h0]
    constructor
    · intro _
      exact lt_of_lt_of_le hx.2 (Nat.pow_le_pow_right (by norm_num) (by omega))
    · intro _; omega
  · rw [← Nat.log2_lt hne, log2_mag_normal F x hx.2 (by omega)]
    omega

theorem abs_rndVal (F : Fmt) (r p : Nat) (x : Bits) :
    |rndVal F r p x| = (rnd p (cminOf F r p) (x.mag F) : ℚ) * 2 ^ F.uexp := by
  unfold rndVal
  rw [abs_mul, abs_mul, abs_sgn, one_mul, abs_of_pos (u_pos F)]
  congr 1
  exact abs_of_nonneg (by positivity)

theorem val_zero (F : Fmt) (s : Bool) : (zeroBits s).val F = 0 := by
  rw [val_eq_zero, mag_eq_zero]; exact ⟨rfl, rfl⟩

theorem zero_wf (F : Fmt) (s : Bool) : (zeroBits s).WF F :=
  ⟨by show 0 < 2 ^ F.ew; positivity, by show 0 < 2 ^ F.mw; positivity⟩

/-- All that is needed about the result of rounding a nonzero finite number. -/
structure RelFacts (F : Fmt) (r p : Nat) (x y : Bits) : Prop where
  wf : y.WF F
  fin : |rndVal F r p x| < 2 ^ (Spec.emax r + 1) → y.exp < F.expInf ∧ y.val F = rndVal F r p x
  inf : 2 ^ (Spec.emax r + 1) ≤ |rndVal F r p x| → y = infBits F x.sign
  sign : rndVal F r p x ≠ 0 → y.sign = x.sign
  zero : rndVal F r p x = 0 → y = zeroBits false
  mag : |rndVal F r p x| < 2 ^ (Spec.emax r + 1) → y.mag F = rnd p (cminOf F r p) (x.mag F)

theorem relFacts (F : Fmt) (w : Nat) (hF : IsC F w) (x : Bits) (r p : Nat) (flush : Bool)
    (hr : 2 ≤ r) (hr2 : r ≤ F.ew) (hpz : p ≤ F.mw) (hne : x.mag F ≠ 0)
    (hfl : ¬ (flush = true ∧ (x.exp : Int) - F.bias < Spec.emin r)) :
    RelFacts F r p x (relResult F r p flush x) := by
  obtain ⟨hem1, hem2, hrr, hcmin, hcap, hw, hew2, hinf⟩ := range_facts F w hF r p hr hr2 hpz
  have hcapiff : |rndVal F r p x| < 2 ^ (Spec.emax r + 1) ↔
      rnd p (cminOf F r p) (x.mag F) < 2 ^ capOf F r := by
    rw [abs_rndVal, mag_lt_pow F _ (Spec.emax r + 1) (capOf F r) hcap]
  have hzero : rndVal F r p x = 0 ↔ rnd p (cminOf F r p) (x.mag F) = 0 := by
    rw [← abs_eq_zero, abs_rndVal]
    have := u_pos F
    constructor
    · intro h
      rcases mul_eq_zero.1 h with h | h
      · exact_mod_cast h
      · linarith
    · intro h; rw [h]; simp
  have hcan : ∃ m e : ℕ, m < 2 ^ (p + 1) ∧ rnd p (cminOf F r p) (x.mag F) = m * 2 ^ e := by
    obtain ⟨m, e, h1, -, h3, -⟩ := rnd_canon p (cminOf F r p) (x.mag F) hne
    exact ⟨m, e, h1, h3⟩
  have hZ : rnd p (cminOf F r p) (x.mag F) = 0 → relResult F r p flush x = zeroBits false := by
    intro h
    unfold relResult
    have : 0 < 2 ^ capOf F r := by positivity
    rw [if_neg hfl, if_neg (by omega), if_pos h]
  have hI : ¬ rnd p (cminOf F r p) (x.mag F) < 2 ^ capOf F r →
      relResult F r p flush x = infBits F x.sign := by
    intro h
    unfold relResult
    rw [if_neg hfl, if_pos (by omega)]
  constructor
  · by_cases h0 : rnd p (cminOf F r p) (x.mag F) = 0
    · rw [hZ h0]; exact zero_wf F _
    · by_cases hlt : rnd p (cminOf F r p) (x.mag F) < 2 ^ capOf F r
      · exact (relResult_fin F w hF x r p flush hr hr2 hpz hfl hlt h0 hcan).2.1
      · rw [hI hlt]
        refine ⟨?_, by show 0 < 2 ^ F.mw; positivity⟩
        show F.expInf < _
        unfold Fmt.expInf
        have : 0 < 2 ^ F.ew := by positivity
        omega
  · rw [hcapiff]
    intro hlt
    by_cases h0 : rnd p (cminOf F r p) (x.mag F) = 0
    · rw [hZ h0]
      refine ⟨by show 0 < F.expInf; omega, ?_⟩
      rw [val_zero, hzero.2 h0]
    · obtain ⟨hs, -, hf, hm⟩ := relResult_fin F w hF x r p flush hr hr2 hpz hfl hlt h0 hcan
      refine ⟨hf, ?_⟩
      rw [val_eq_mag, hs, hm]; rfl
  · intro h
    exact hI (by rw [← hcapiff]; exact not_lt.2 h)
  · intro h
    rw [Ne, hzero] at h
    by_cases hlt : rnd p (cminOf F r p) (x.mag F) < 2 ^ capOf F r
    · exact (relResult_fin F w hF x r p flush hr hr2 hpz hfl hlt h hcan).1
    · rw [hI hlt]; rfl
  · intro h
    exact hZ (hzero.1 h)
  · rw [hcapiff]
    intro hlt
    by_cases h0 : rnd p (cminOf F r p) (x.mag F) = 0
    · rw [hZ h0, h0, mag_eq_zero]; exact ⟨rfl, rfl⟩
    · exact (relResult_fin F w hF x r p flush hr hr2 hpz hfl hlt h0 hcan).2.2.2

/-- Rounding zero. -/
theorem roundBinary_zero (sem : ShiftSem) (F : Fmt) (w : Nat) (hF : IsC F w) (x : Bits) (inp : Bool)
    (c : Ctx) (r : Nat) (p : Int) (hr : 2 ≤ r) (hr2 : r ≤ F.ew) (h0 : x.isZero) :
    roundBinary sem F w x inp c r p = .ok x := by
  obtain ⟨hem1, hem2, hrr, hcmin, hcap, hw, hew2, hinf⟩ := range_facts F w hF r 0 hr hr2 (by omega)
  have hemm : Spec.emin r = 1 - Spec.emax r := rfl
  have he0 : x.exp = 0 := h0.1
  unfold roundBinary
  have hem : (2 : Int) ^ (r - 1) - 1 = Spec.emax r := rfl
  simp only [hem]
  rw [← hemm, if_neg (by omega), if_neg (by omega)]
  simp only [Outcome.bind_ok, Outcome.pure_eq]
  rw [if_neg (by simp), if_pos (by omega), if_pos h0]
  have : zeroBits x.sign = x := by
    obtain ⟨s, e, m⟩ := x
    obtain ⟨h1, h2⟩ := h0
    simp only at h1 h2
    rw [h1, h2]; rfl
  rw [this]
  split_ifs <;> rfl

/-- Infinities and NaNs are returned as they are. -/
theorem roundBinary_special (sem : ShiftSem) (F : Fmt) (w : Nat) (x : Bits) (inp : Bool)
    (c : Ctx) (r : Nat) (p : Int) (h : x.exp = F.expInf) :
    roundBinary sem F w x inp c r p = .ok x := by
  unfold roundBinary
  rw [if_pos h]
  rfl

end Verif.Vprec
