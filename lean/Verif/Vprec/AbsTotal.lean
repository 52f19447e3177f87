import Verif.Vprec.AbsErr
import Verif.Vprec.Wf

/-!
# The absolute error modes of VPREC, as a rounding

Every input has a result if shifts are those of the processor, and a number below `2^emax` one whose error is bounded, in both modes.
-/

namespace Verif.Vprec
open Verif Verif.Fp

theorem cShl_wrap (w x : Nat) (s : Int) : ∃ y, cShl .wrap w x s = .ok y := by
  unfold cShl
  split
  · exact ⟨_, rfl⟩
  · exact ⟨_, rfl⟩

theorem cShr_wrap (w x : Nat) (s : Int) : ∃ y, cShr .wrap w x s = .ok y := by
  unfold cShr
  split
  · exact ⟨_, rfl⟩
  · exact ⟨_, rfl⟩

theorem needsRounding_wrap (F : Fmt) (w : Nat) (x : Bits) (p : Int) : ∃ b, needsRounding .wrap F w x p = .ok b := by
  obtain ⟨t, ht⟩ := cShl_wrap w 1 ((F.mw : Int) - p)
  obtain ⟨b, hb⟩ := cShr_wrap w x.man ((F.mw : Int) - p)
  obtain ⟨h, hh⟩ := cShl_wrap w 1 ((F.mw : Int) - p - 1)
  unfold needsRounding
  rw [ht, hb, hh]
  exact ⟨_, rfl⟩

theorem roundNormal_wrap (F : Fmt) (w : Nat) (x : Bits) (p : Int) : ∃ y, roundNormal .wrap F w x p = .ok y := by
  obtain ⟨t, ht⟩ := cShl_wrap w (2 ^ w - 1) ((F.mw : Int) - p)
  obtain ⟨b, hb⟩ := needsRounding_wrap F w x p
  obtain ⟨h, hh⟩ := cShl_wrap w 1 ((F.mw : Int) - 1 + ((x.exp : Int) - p - 1))
  unfold roundNormal
  simp only [ht, hb, hh, Outcome.bind_ok]
  split
  · exact ⟨_, rfl⟩
  · exact ⟨_, rfl⟩

theorem handleDenormal_wrap (F : Fmt) (x : Bits) (e p : Int) : ∃ y, handleDenormal .wrap F x e p = .ok y := by
  have h : ∀ x, ∃ y, roundDenormal64 .wrap x e p = .ok y := by
    intro x
    unfold roundDenormal64
    simp only
    split
    · exact ⟨_, rfl⟩
    · obtain ⟨b, hb⟩ := needsRounding_wrap b128 128 (fconv b64 b128 x) (p - (e - (((fconv b64 b128 x).exp : Int) - b128.bias)))
      obtain ⟨t, ht⟩ := cShl_wrap 128 (2 ^ 128 - 1) ((b128.mw : Int) - p + (e - (((fconv b64 b128 x).exp : Int) - b128.bias)))
      rw [hb, ht]
      exact ⟨_, rfl⟩
  unfold handleDenormal
  split
  · exact ⟨_, rfl⟩
  · split
    · obtain ⟨y, hy⟩ := h (if F = b64 then x else fconv F b64 x)
      rw [hy]
      exact ⟨_, rfl⟩
    · exact ⟨_, rfl⟩

/-- **C08** Whatever the mode, every input has a result, of its type. -/
theorem C08_result_defined (F : Fmt) (w : Nat) (hF : IsC F w) (x : Bits) (inp : Bool) (c : Ctx) (r : Nat) (p : Int) (hx : x.WF F) :
    ∃ y, roundBinary .wrap F w x inp c r p = .ok y ∧ y.WF F := by
  have : ∃ y, roundBinary .wrap F w x inp c r p = .ok y := by
    unfold roundBinary
    split
    · exact ⟨_, rfl⟩
    · obtain ⟨b, hb⟩ := roundNormal_wrap F w x p
      simp only [hb, Outcome.bind_ok]
      have ho : ∃ o : Bool, (if (x.exp : Int) - F.bias ≥ 2 ^ (r - 1) - 1 then
          if (x.exp : Int) - F.bias = 2 ^ (r - 1) - 1 then (pure (decide ((b.exp : Int) - F.bias > 2 ^ (r - 1) - 1)) : Outcome Bool) else pure true
          else pure false) = .ok o := by
        split
        · split
          · exact ⟨_, rfl⟩
          · exact ⟨_, rfl⟩
        · exact ⟨_, rfl⟩
      obtain ⟨o, ho⟩ := ho
      rw [ho]
      simp only [Outcome.bind_ok]
      have hn : ∃ y, normalAbsErr .wrap F w x ((x.exp : Int) - F.bias) p c = .ok y := by
        unfold normalAbsErr
        simp only
        split
        · exact ⟨_, rfl⟩
        · split
          · exact ⟨_, rfl⟩
          · exact roundNormal_wrap _ _ _ _
      split
      · exact ⟨_, rfl⟩
      · split
        · split
          · exact ⟨_, rfl⟩
          · split
            · exact ⟨_, rfl⟩
            · split
              · exact handleDenormal_wrap _ _ _ _
              · exact handleDenormal_wrap _ _ _ _
        · split
          · exact hn
          · exact ⟨_, rfl⟩
  obtain ⟨y, hy⟩ := this
  exact ⟨y, hy, roundBinary_wf _ F (by rcases hF with ⟨h, -⟩ | ⟨h, -⟩ <;> simp [h]) w x y inp c r p hx hy⟩

/-- A number of the normal range below `2^emax` is not rounded to an infinity. -/
theorem abs_fin (F : Fmt) (w : Nat) (hF : IsC F w) (x y : Bits) (inp : Bool) (c : Ctx) (r p : Nat) (habs : c.absErr = true)
    (hr : 2 ≤ r) (hr2 : r ≤ F.ew) (hpz : p ≤ F.mw) (hx : x.WF F) (hnb : ¬ ((x.exp : Int) - F.bias < Spec.emin r))
    (hlt : (x.exp : Int) - F.bias < Spec.emax r) (h : roundBinary .wrap F w x inp c r p = .ok y) : y.Fin F := by
  obtain ⟨hem1, hem2, hrr, hcmin, hcap, hw, hew2, hinf⟩ := range_facts F w hF r 0 hr hr2 (by omega)
  have hemm : Spec.emin r = 1 - Spec.emax r := rfl
  have hfin' : x.exp < F.expInf := by omega
  have hE : 1 ≤ x.exp := by omega
  have hy : normalAbsErr .wrap F w x ((x.exp : Int) - F.bias) p c = .ok y := by
    unfold roundBinary at h
    have hem : (2 : Int) ^ (r - 1) - 1 = Spec.emax r := rfl
    simp only [hem] at h
    rw [if_neg (by omega), ← hemm, if_neg (by omega)] at h
    simpa only [if_neg hnb, if_pos habs, Outcome.pure_eq, Outcome.bind_ok, Bool.false_eq_true, if_false] using h
  unfold normalAbsErr at hy
  simp only at hy
  by_cases h1 : (x.exp : Int) - F.bias - c.absErrExp < -1
  · rw [if_pos h1] at hy
    simp only [Outcome.pure_eq, Outcome.ok.injEq] at hy
    rw [← hy]
    unfold Bits.Fin zeroBits
    simp only
    omega
  rw [if_neg h1] at hy
  by_cases h2 : (x.exp : Int) - F.bias - c.absErrExp = -1
  · rw [if_pos h2] at hy
    simp only [Outcome.pure_eq, Outcome.ok.injEq] at hy
    have hk : c.absErrExp = (x.exp : Int) - F.bias + 1 := by omega
    have hp2 : pow2i F c.absErrExp = ⟨false, x.exp + 1, 0⟩ := by
      unfold pow2i
      simp only [hk]
      have e1 : (x.exp : Int) - F.bias + 1 + F.bias = x.exp + 1 := by ring
      rw [e1, if_neg (by omega), if_neg (by omega), if_neg (by omega)]
      have e2 : ((x.exp : Int) + 1).toNat = x.exp + 1 := by omega
      rw [e2]
      have := ofPat_mk F false (x.exp + 1) 0 (by positivity)
      simpa using this
    rw [hp2] at hy
    rw [← hy]
    show x.exp + 1 ≠ F.expInf
    omega
  · rw [if_neg h2] at hy
    obtain ⟨P, hP, hPle⟩ : ∃ P : ℕ, computeAbsErr F false c ((x.exp : Int) - F.bias - c.absErrExp) p = P ∧ P ≤ F.mw := by
      unfold computeAbsErr
      rw [if_neg (by simp)]
      split
      · split
        · exact ⟨((x.exp : Int) - F.bias - c.absErrExp).toNat, by omega, by omega⟩
        · exact ⟨p, rfl, hpz⟩
      · split
        · exact ⟨((x.exp : Int) - F.bias - c.absErrExp).toNat, by omega, by omega⟩
        · exact ⟨F.mw, rfl, le_rfl⟩
    rw [hP] at hy
    obtain ⟨-, herr, -⟩ := roundNormal_err .wrap F w x y P hw hPle hx hfin' hE hy
    have hlog := log2_mag_normal F x hx.2 hE
    have hm : x.mag F < 2 ^ (F.mw + (x.exp - 1) + 1) := by rw [← hlog]; exact Nat.lt_log2_self
    intro hyi
    have hyi : y.exp = F.expInf := hyi
    have hmy : 2 ^ (F.mw + (y.exp - 1)) ≤ y.mag F := by
      rw [mag_normal F y (by omega), pow_add]
      exact Nat.mul_le_mul_right _ (by omega)
    have e1 : (2 : ℕ) ^ (F.mw + (x.exp - 1) + 2) ≤ 2 ^ (F.mw + (y.exp - 1)) := Nat.pow_le_pow_right (by norm_num) (by omega)
    have e2 : (2 : ℕ) ^ (F.mw - P + (x.exp - 1)) ≤ 2 ^ (F.mw + (x.exp - 1)) := Nat.pow_le_pow_right (by norm_num) (by omega)
    rw [pow_add _ _ 1] at hm
    rw [pow_add _ _ 2] at e1
    have herr : 2 * |(x.mag F : ℤ) - y.mag F| ≤ ((2 ^ (F.mw - P + (x.exp - 1)) : ℕ) : ℤ) := by push_cast; exact herr
    have := abs_le.1 (show |(x.mag F : ℤ) - y.mag F| ≤ ((2 ^ (F.mw - P + (x.exp - 1)) : ℕ) : ℤ) by
      have := abs_nonneg ((x.mag F : ℤ) - y.mag F)
      omega)
    generalize 2 ^ (F.mw + (x.exp - 1)) = A at *
    omega

/-- The relative part of the error: that of the precision in the combined mode. -/
def absUnit (c : Ctx) (p : Nat) : ℚ := if c.relErr then 2 ^ (-(p : ℤ) - 1) else 0

/-- **C08** A number below `2^emax`, however small, with a threshold that is a normal number of the requested format: the error is at most
the threshold, and the error of the precision in the combined mode; zeros are kept. -/
theorem C08_error_partial (F : Fmt) (w : Nat) (hF : IsC F w) (x y : Bits) (inp : Bool) (c : Ctx) (r p : Nat) (habs : c.absErr = true)
    (hr : 2 ≤ r) (hr2 : r ≤ F.ew) (hp1 : 1 ≤ p) (hpz : p ≤ F.mw) (hx : x.WF F) (hfin : x.Fin F) (hk : Spec.emin r ≤ c.absErrExp)
    (hS : |x.val F| < 2 ^ Spec.emax r) (h : roundBinary .wrap F w x inp c r p = .ok y) :
    (x.val F = 0 → y.val F = 0) ∧ y.Fin F ∧ |y.val F - x.val F| ≤ absUnit c p * |x.val F| + 2 ^ c.absErrExp := by
  obtain ⟨hem1, hem2, hrr, hcmin, hcap, hw, hew2, hinf⟩ := range_facts F w hF r 0 hr hr2 (by omega)
  have hemm : Spec.emin r = 1 - Spec.emax r := rfl
  have hd : 0 ≤ absUnit c p := by
    unfold absUnit
    split
    · exact (zpow_pos (by norm_num) _).le
    · exact le_rfl
  have hd' := mul_nonneg hd (abs_nonneg (x.val F))
  have hkp : (0 : ℚ) < 2 ^ c.absErrExp := zpow_pos (by norm_num) _
  have hmono : (2 : ℚ) ^ Spec.emin r ≤ 2 ^ c.absErrExp := zpow_le_zpow_right₀ (by norm_num) hk
  by_cases h0 : x.mag F = 0
  · rw [roundBinary_zero .wrap F w hF x inp c r p hr hr2 ((mag_eq_zero F x).1 h0)] at h
    obtain rfl := Outcome.ok.inj h
    exact ⟨id, hfin, by rw [sub_self, abs_zero]; linarith⟩
  refine ⟨fun hz => absurd ((val_eq_zero F x).1 hz) h0, ?_⟩
  by_cases hsub : |x.val F| < 2 ^ Spec.emin r
  · -- below the normal range
    have main : ∃ z, roundBinary .wrap F w x inp c r p = .ok z ∧ z.Fin F ∧ |x.val F - z.val F| ≤ 2 ^ c.absErrExp := by
      by_cases hrel : c.relErr = false
      · exact C08_abs_error_subnormal_partial .wrap F w hF x inp c r p habs hrel hr hr2 hx hfin hsub hk
      have hrel : c.relErr = true := by simpa using hrel
      have hb := (below_emin F w hF r hr hr2 x hx h0).2 hsub
      by_cases hfl : ((c.daz && inp) || (c.ftz && !inp)) = true
      · refine ⟨zeroBits x.sign, ?_, by unfold Bits.Fin zeroBits; simp only; omega, ?_⟩
        · unfold roundBinary
          have hem : (2 : Int) ^ (r - 1) - 1 = Spec.emax r := rfl
          simp only [hem]
          rw [← hemm, if_neg (by omega), if_neg (by omega)]
          simp only [Outcome.bind_ok, Outcome.pure_eq]
          rw [if_neg (by simp), if_pos hb, if_pos hfl]
        · rw [val_zero, sub_zero]; linarith
      have hfl' : ((c.daz && inp) || (c.ftz && !inp)) = false := by simpa using hfl
      rw [roundBinary_sub .wrap F w hF x inp c r p hr hr2 h0 hb hfl', if_pos habs]
      by_cases hkp : |c.absErrExp| < (p : ℤ)
      · have hce : computeAbsErr F true c 0 p = c.absErrExp := by
          unfold computeAbsErr; rw [if_pos rfl, if_pos hrel, if_pos hkp]
        rw [hce]
        obtain ⟨z, z1, z2⟩ := C08_abs_error_subnormal_partial .wrap F w hF x inp { c with relErr := false } r p habs rfl hr hr2 hx hfin hsub hk
        rw [roundBinary_sub .wrap F w hF x inp { c with relErr := false } r p hr hr2 h0 hb hfl', if_pos habs] at z1
        exact ⟨z, z1, z2⟩
      · have hce : computeAbsErr F true c 0 p = p := by
          unfold computeAbsErr; rw [if_pos rfl, if_pos hrel, if_neg hkp]
        rw [hce]
        obtain ⟨z, h1, h2, h3, h4, -⟩ := C02_gradual_underflow .wrap F w hF x inp ⟨true, false, 0, false, false⟩ r p
          rfl rfl hr hr2 hp1 hpz hx hfin (by rw [Ne, val_eq_zero]; exact h0) hsub
        rw [roundBinary_sub .wrap F w hF x inp _ r p hr hr2 h0 hb rfl, if_neg (by simp)] at h1
        refine ⟨z, h1, h3, ?_⟩
        have := h4.2 0 ⟨0, Spec.emin r - p, by positivity, le_rfl, by simp⟩
        rw [sub_zero] at this
        linarith
    obtain ⟨z, z1, z2, z3⟩ := main
    rw [h] at z1
    obtain rfl := Outcome.ok.inj z1
    rw [abs_sub_comm] at z3
    exact ⟨z2, by linarith⟩
  · have hnb : ¬ ((x.exp : Int) - F.bias < Spec.emin r) := by
      rw [below_emin F w hF r hr hr2 x hx h0]; exact hsub
    have hE : 1 ≤ x.exp := by omega
    have hlog := log2_mag_normal F x hx.2 hE
    have huexp : F.uexp = 1 - (F.bias : Int) - F.mw := rfl
    have hhigh : |x.val F| < 2 ^ ((x.exp : Int) - F.bias + 1) := by
      rw [abs_val, mag_lt_pow F _ _ (F.mw + x.exp) (by push_cast; omega), ← Nat.log2_lt h0, hlog]
      omega
    have hlow : 2 ^ ((x.exp : Int) - F.bias) ≤ |x.val F| := by
      rw [abs_val, ← not_lt, mag_lt_pow F _ _ (F.mw + (x.exp - 1)) (by push_cast [hE]; omega), not_lt, ← hlog]
      exact Nat.log2_self_le h0
    have hlt : (x.exp : Int) - F.bias < Spec.emax r := (zpow_lt_zpow_iff_right₀ (by norm_num : (1 : ℚ) < 2)).1 (lt_of_le_of_lt hlow hS)
    have hyf := abs_fin F w hF x y inp c r p habs hr hr2 hpz hx hnb hlt h
    refine ⟨hyf, ?_⟩
    rw [abs_sub_comm]
    by_cases hrel : c.relErr = false
    · have := C08_abs_error_normal_partial .wrap F w hF x y inp c r p habs hrel hr hr2 hx hfin (not_lt.1 hsub) h hyf
      linarith
    have hrel : c.relErr = true := by simpa using hrel
    obtain ⟨-, hg⟩ := C08_grid .wrap F w hF x y inp c r p habs hr hr2 hpz hx hfin (not_lt.1 hsub) ((x.exp : Int) - F.bias) hlow hhigh h hyf _ rfl
    rw [if_pos hrel] at hg
    unfold absUnit at hd' ⊢
    rw [if_pos hrel] at hd' ⊢
    rcases max_cases c.absErrExp ((x.exp : Int) - F.bias - p) with ⟨hm, -⟩ | ⟨hm, -⟩
    · rw [hm] at hg
      linarith
    · rw [hm] at hg
      have e1 : (2 : ℚ) ^ ((x.exp : Int) - F.bias - p) = 2 * (2 ^ (-(p : ℤ) - 1) * 2 ^ ((x.exp : Int) - F.bias)) := by
        rw [← zpow_add₀ (by norm_num), ← zpow_one_add₀ (by norm_num)]
        congr 1
        ring
      rw [e1] at hg
      have := mul_le_mul_of_nonneg_left hlow (show (0 : ℚ) ≤ 2 ^ (-(p : ℤ) - 1) from (zpow_pos (by norm_num) _).le)
      linarith

end Verif.Vprec
