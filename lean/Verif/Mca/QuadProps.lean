import Verif.Mca.IntProps
import Verif.Rng.Props
import Verif.Float.Round

/-!
# Property C21: the noise of the quad MCA backend
-/

namespace Verif.Mca
open Verif Verif.Fp

/-- The integer drawn: the 52 high bits of the random word. -/
def drawn (w : BitVec 64) : Nat := w.toNat / 2 ^ 12

theorem drawn_lt (w : BitVec 64) : drawn w < 2 ^ 52 := by
  have := w.isLt; unfold drawn; omega

theorem rand01_eq (w : BitVec 64) : rand01 w = (drawn w : ℚ) / 2 ^ 52 :=
  (Rng.toDouble_spec w).2.2

/-- The draw minus one half, before the exponent is changed. -/
def centred (F : Fmt) (w : BitVec 64) : Bits :=
  if F = b64 then fadd b64 (Rng.toDouble w) ⟨true, 1022, 0⟩
  else fadd F (fconv b64 F (Rng.toDouble w)) ⟨true, F.bias - 1, 0⟩

theorem quadNoise_eq (F : Fmt) (e : Int) (w : BitVec 64) :
    quadNoise F e w = { centred F w with exp := ((((centred F w).exp : Int) + e) % 2 ^ F.ew).toNat } := rfl

theorem wide_bias (F : Fmt) (h : Wide F) : 53 ≤ F.bias ∧ 2 ≤ F.ew ∧ 52 ≤ F.mw ∧
    F.expInf = 2 * F.bias + 1 ∧ 2 ^ F.ew = 2 * F.bias + 2 := by
  rcases h with rfl | rfl <;> decide

theorem widen64 (F : Fmt) (hF : Wide F) (x : Bits) (hx : x.WF b64) (hf : x.Fin b64) :
    ∃ d, (if F = b64 then x else fconv b64 F x) = d ∧ d.Fin F ∧ d.val F = x.val b64 := by
  rcases hF with rfl | rfl
  · exact ⟨x, rfl, hf, rfl⟩
  · refine ⟨fconv b64 b128 x, by rw [if_neg (by decide)], ?_⟩
    by_cases h0 : x.isZero
    · obtain ⟨s, e, m⟩ := x
      obtain ⟨rfl, rfl⟩ : e = 0 ∧ m = 0 := h0
      have := fconv_zero b64 b128 (by decide) (by decide) s
      unfold zeroBits at this
      rw [this]
      refine ⟨by unfold Bits.Fin; simp only; decide, ?_⟩
      simp [Bits.val, Bits.sig]
    · obtain ⟨-, -, h3, -, h5⟩ := widened_normal .f64 x hx hf h0
      exact ⟨by unfold Bits.Fin; change (fconv b64 b128 x).exp + 1 < b128.expInf at h3; omega, h5⟩

/-- The subtraction of one half is exact; the difference is a normal number of exponent
between -52 and -1 unless the draw is exactly one half. -/
theorem centred_spec (F : Fmt) (hF : Wide F) (w : BitVec 64) :
    (centred F w).WF F ∧ (centred F w).Fin F ∧ (centred F w).val F = rand01 w - 1 / 2 ∧
    (drawn w ≠ 2 ^ 51 → F.bias ≤ (centred F w).exp + 52 ∧ (centred F w).exp + 1 ≤ F.bias) ∧
    (drawn w = 2 ^ 51 → centred F w = zeroBits false) := by
  obtain ⟨hb, hew, hmw, hinf, hpow⟩ := wide_bias F hF
  obtain ⟨t1, t2, t3⟩ := Rng.toDouble_spec w
  obtain ⟨d, hd, hdf, hdv⟩ := widen64 F hF _ t1 t2
  rw [t3] at hdv
  change d.val F = (drawn w : ℚ) / 2 ^ 52 at hdv
  have hc : centred F w = fadd F d ⟨true, F.bias - 1, 0⟩ := by
    unfold centred
    rw [← hd]
    rcases hF with rfl | rfl
    · rw [if_pos rfl, if_pos rfl]; rfl
    · rw [if_neg (by decide), if_neg (by decide)]
  have hk := drawn_lt w
  obtain ⟨c, hcc⟩ : ∃ c : ℕ, (c : ℤ) = -52 - F.uexp :=
    ⟨F.bias + F.mw - 53, by unfold Fmt.uexp; omega⟩
  have hu : (0 : ℚ) < 2 ^ F.uexp := zpow_pos (by norm_num) _
  have e52 : (1 : ℚ) / 2 ^ 52 = 2 ^ c * 2 ^ F.uexp := by
    rw [← zpow_natCast 2 c, ← zpow_add₀ (by norm_num), hcc, show (-52 - F.uexp + F.uexp) = -52 by ring]
    norm_num
  have hdi : d.imag F = drawn w * 2 ^ c := by
    rw [val_eq_imag] at hdv
    have : (d.imag F : ℚ) * 2 ^ F.uexp = ((drawn w * 2 ^ c : ℤ) : ℚ) * 2 ^ F.uexp := by
      rw [hdv, div_eq_mul_one_div, e52]; push_cast; ring
    exact_mod_cast mul_right_cancel₀ hu.ne' this
  have hhi : Bits.imag F ⟨true, F.bias - 1, 0⟩ = -(2 ^ 51 * 2 ^ c) := by
    unfold Bits.imag
    rw [mag_normal _ _ (by simp; omega)]
    simp only [if_true, add_zero]
    rw [← pow_add, ← pow_add, Nat.cast_pow]
    congr 2
    unfold Fmt.uexp at hcc
    omega
  have hsum : d.imag F + Bits.imag F ⟨true, F.bias - 1, 0⟩ = ((drawn w : ℤ) - 2 ^ 51) * 2 ^ c := by
    rw [hdi, hhi]; ring
  have hlt : ((drawn w : ℤ) - 2 ^ 51).natAbs ≤ 2 ^ 51 := by omega
  have hsabs : (d.imag F + Bits.imag F ⟨true, F.bias - 1, 0⟩).natAbs =
      ((drawn w : ℤ) - 2 ^ 51).natAbs * 2 ^ c := by
    rw [hsum, Int.natAbs_mul, Int.natAbs_pow]; rfl
  have hhf : Bits.Fin F ⟨true, F.bias - 1, 0⟩ := by unfold Bits.Fin; simp; omega
  obtain ⟨f1, f2, f3⟩ := fadd_exact F hew d ⟨true, F.bias - 1, 0⟩ hdf hhf _ c hsabs
    (lt_of_le_of_lt hlt (Nat.pow_lt_pow_right (by norm_num) (by omega)))
    (by
      calc ((drawn w : ℤ) - 2 ^ 51).natAbs * 2 ^ c ≤ 2 ^ 51 * 2 ^ c := Nat.mul_le_mul_right _ hlt
        _ = 2 ^ (51 + c) := by rw [pow_add]
        _ < 2 ^ (F.mw + 1 + (F.expInf - 2)) := Nat.pow_lt_pow_right (by norm_num) (by
            unfold Fmt.uexp at hcc; omega)
        _ = _ := by rw [pow_add])
  rw [← hc] at f1 f2 f3
  refine ⟨f1, f2, ?_, ?_, ?_⟩
  · rw [val_eq_imag, f3, hsum, rand01_eq]
    push_cast
    rw [mul_assoc, ← e52]
    ring
  · intro hne
    have hm : (centred F w).mag F = ((drawn w : ℤ) - 2 ^ 51).natAbs * 2 ^ c := by
      rw [← hsabs, ← f3]; unfold Bits.imag; split_ifs <;> simp
    have h0 : ((drawn w : ℤ) - 2 ^ 51).natAbs ≠ 0 := by omega
    have hE : 1 ≤ (centred F w).exp := by
      by_contra hz
      rw [mag_subnormal _ _ (by omega)] at hm
      have h1 : 2 ^ F.mw ≤ 2 ^ c := Nat.pow_le_pow_right (by norm_num) (by unfold Fmt.uexp at hcc; omega)
      have h2 : 1 * 2 ^ c ≤ ((drawn w : ℤ) - 2 ^ 51).natAbs * 2 ^ c := Nat.mul_le_mul_right _ (by omega)
      have := f1.2
      omega
    have hl := log2_mag_normal F _ f1.2 hE
    rw [hm, log2_mul_pow _ _ h0] at hl
    have h51 : Nat.log2 ((drawn w : ℤ) - 2 ^ 51).natAbs ≤ 51 := by
      have : Nat.log2 ((drawn w : ℤ) - 2 ^ 51).natAbs < 52 := (Nat.log2_lt h0).2 (by omega)
      omega
    unfold Fmt.uexp at hcc
    omega
  · intro heq
    have hz : d.imag F + Bits.imag F ⟨true, F.bias - 1, 0⟩ = 0 := by rw [hsum, heq]; simp
    have hdn : d.sign = false := by
      have : 0 < d.imag F := by rw [hdi, heq]; positivity
      unfold Bits.imag at this
      by_contra hs
      simp only [Bool.not_eq_false] at hs
      rw [if_pos hs] at this
      omega
    rw [hc]
    unfold fadd
    rw [if_neg (by rintro (h | h); exact hdf h.1; exact hhf h.1), if_neg (fun h => hdf h.1),
      if_neg (fun h => hhf h.1)]
    simp only [hz, if_true, hdn, Bool.false_and]

/-- Changing the exponent field of a normal number within the normal range scales it. -/
theorem scale_val (F : Fmt) (x : Bits) (e : Int) (E : Nat) (hE : (E : Int) = x.exp + e) (h1 : 1 ≤ x.exp)
    (h2 : 1 ≤ E) : Bits.val F { x with exp := E } = x.val F * 2 ^ e := by
  unfold Bits.val Bits.sig Bits.lsb
  rw [if_neg (by simp; omega), if_neg (by omega)]
  simp only
  rw [max_eq_left h1, max_eq_left h2, hE, mul_assoc _ _ ((2 : ℚ) ^ e), ← zpow_add₀ (by norm_num)]
  congr 2
  ring

/-- **C21**, the noise: unless the draw is exactly one half, and as long as the exponent
field does not wrap, the noise is `(draw - 1/2) * 2^e`. -/
theorem C21_noise_partial (F : Fmt) (hF : Wide F) (e : Int) (w : BitVec 64) (hw : drawn w ≠ 2 ^ 51)
    (h1 : 53 - (F.bias : Int) ≤ e) (h2 : e ≤ F.bias + 1) :
    (quadNoise F e w).WF F ∧ (quadNoise F e w).Fin F ∧
    (quadNoise F e w).val F = (rand01 w - 1 / 2) * 2 ^ e ∧
    |(quadNoise F e w).val F| ≤ 2 ^ (e - 1) := by
  obtain ⟨hb, hew, hmw, hinf, hpow⟩ := wide_bias F hF
  obtain ⟨c1, c2, c3, c4, -⟩ := centred_spec F hF w
  obtain ⟨c5, c6⟩ := c4 hw
  obtain ⟨E, hE⟩ : ∃ E : ℕ, (E : Int) = (centred F w).exp + e := ⟨_, Int.toNat_of_nonneg (by omega)⟩
  have hpow' : ((2 : Int) ^ F.ew) = 2 * F.bias + 2 := by exact_mod_cast hpow
  have hq : quadNoise F e w = { centred F w with exp := E } := by
    rw [quadNoise_eq, ← hE, Int.emod_eq_of_lt (by omega) (by omega), Int.toNat_natCast]
  have hv := scale_val F (centred F w) e E hE (by omega) (by omega)
  rw [hq]
  refine ⟨⟨?_, c1.2⟩, ?_, ?_, ?_⟩
  · show E < _; omega
  · unfold Bits.Fin; show E ≠ _; omega
  · rw [hv, c3]
  · rw [hv, c3, abs_mul, abs_of_pos (zpow_pos (by norm_num) _ : (0 : ℚ) < 2 ^ e),
      zpow_sub_one₀ (by norm_num), mul_comm]
    apply mul_le_mul_of_nonneg_left _ (zpow_pos (by norm_num) _).le
    have hr := drawn_lt w
    have h3 : (drawn w : ℚ) < 2 ^ 52 := by exact_mod_cast hr
    have h0 : (0 : ℚ) ≤ drawn w := by positivity
    rw [rand01_eq, abs_le]
    constructor
    · have : (0 : ℚ) ≤ (drawn w : ℚ) / 2 ^ 52 := by positivity
      linarith
    · have : (drawn w : ℚ) / 2 ^ 52 ≤ 1 := by rw [div_le_one (by positivity)]; exact h3.le
      linarith

/-- **C21**, for a perturbed value: at every precision, a normal value `x` of exponent
`ex` receives a noise of at most `2^(ex-t)`, and the rounded sum is within
`2^(ex-t) + 2^(ex-mw)` of `x`. -/
theorem C21_bound_partial (F : Fmt) (hF : Wide F) (t : Nat) (ht : 1 ≤ t) (w : BitVec 64)
    (hw : drawn w ≠ 2 ^ 51) (x : Bits) (hx : x.WF F) (hn : 1 ≤ x.exp) (ex : Int)
    (hex : ex = (x.exp : Int) - F.bias) (hlo : 53 - (F.bias : Int) ≤ ex - (t - 1)) (hhi : ex + 2 ≤ F.bias) :
    |(quadNoise F (getExp F x - (t - 1)) w).val F| ≤ 2 ^ (ex - t) ∧
    (fadd F x (quadNoise F (getExp F x - (t - 1)) w)).Fin F ∧
    |(fadd F x (quadNoise F (getExp F x - (t - 1)) w)).val F - x.val F| ≤
      2 ^ (ex - t) + 2 ^ (ex - F.mw) := by
  obtain ⟨hb, hew, hmw, hinf, hpow⟩ := wide_bias F hF
  have hge : getExp F x = ex := by unfold getExp; omega
  rw [hge]
  obtain ⟨q1, q2, q3, q4⟩ := C21_noise_partial F hF (ex - (t - 1)) w hw hlo (by omega)
  rw [show ex - ((t : Int) - 1) - 1 = ex - t by ring] at q4
  generalize quadNoise F (ex - (t - 1)) w = z at *
  have hxf : x.Fin F := by unfold Bits.Fin; omega
  have hxabs : |x.val F| < 2 ^ (ex + 1) := by
    rw [abs_val]
    have hs := sig_lt F x hx
    have hs' : (x.sig F : ℚ) < 2 ^ (F.mw + 1) := by exact_mod_cast hs
    have hl : x.lsb F = ex - F.mw := by unfold Bits.lsb; rw [max_eq_left hn]; omega
    rw [hl]
    have e : (2 : ℚ) ^ (ex + 1) = 2 ^ (F.mw + 1) * 2 ^ (ex - F.mw) := by
      rw [← zpow_natCast, ← zpow_add₀ (by norm_num)]; congr 1; push_cast; ring
    rw [e]
    exact mul_lt_mul_of_pos_right hs' (zpow_pos (by norm_num) _)
  have hsmall : (2 : ℚ) ^ (ex - t) ≤ 2 ^ (ex + 1) := zpow_le_zpow_right₀ (by norm_num) (by omega)
  have hsum : |x.val F + z.val F| < 2 ^ (ex + 2) := by
    have := abs_add_le (x.val F) (z.val F)
    have e : (2 : ℚ) ^ (ex + 2) = 2 ^ (ex + 1) + 2 ^ (ex + 1) := by
      rw [show ex + 2 = (ex + 1) + 1 by ring, zpow_add_one₀ (by norm_num)]; ring
    linarith
  obtain ⟨r1, r2, r3, -⟩ := fadd_round F hew x z hxf q2 (ex + 2) hsum hhi
  refine ⟨q4, r2, ?_⟩
  have e : (fadd F x z).val F - x.val F = ((fadd F x z).val F - (x.val F + z.val F)) + z.val F := by ring
  rw [e]
  refine le_trans (abs_add_le _ _) ?_
  rw [show ex + 2 - (F.mw : Int) - 2 = ex - F.mw by ring] at r3
  linarith

/-- The exponent of a normal number from its value. -/
theorem exp_of_val (F : Fmt) (x : Bits) (hx : x.WF F) (hn : 1 ≤ x.exp) (ex : Int)
    (h1 : (2 : ℚ) ^ ex ≤ |x.val F|) (h2 : |x.val F| < 2 ^ (ex + 1)) : (x.exp : Int) - F.bias = ex := by
  have hs := sig_lt F x hx
  have hs2 : 2 ^ F.mw ≤ x.sig F := by unfold Bits.sig; rw [if_neg (by omega)]; omega
  have hl : x.lsb F = (x.exp : Int) - F.bias - F.mw := by unfold Bits.lsb; rw [max_eq_left hn]
  have hu : (0 : ℚ) < 2 ^ x.lsb F := zpow_pos (by norm_num) _
  rw [abs_val] at h1 h2
  have e1 : (2 : ℚ) ^ ((x.exp : Int) - F.bias + 1) = 2 ^ (F.mw + 1) * 2 ^ x.lsb F := by
    rw [← zpow_natCast, ← zpow_add₀ (by norm_num), hl]; congr 1; push_cast; ring
  have e2 : (2 : ℚ) ^ ((x.exp : Int) - F.bias) = 2 ^ F.mw * 2 ^ x.lsb F := by
    rw [← zpow_natCast, ← zpow_add₀ (by norm_num), hl]; congr 1; ring
  have a1 : (2 : ℚ) ^ ex < 2 ^ ((x.exp : Int) - F.bias + 1) := by
    rw [e1]
    refine lt_of_le_of_lt h1 (mul_lt_mul_of_pos_right ?_ hu)
    exact_mod_cast hs
  have a2 : (2 : ℚ) ^ ((x.exp : Int) - F.bias) < 2 ^ (ex + 1) := by
    rw [e2]
    refine lt_of_le_of_lt (mul_le_mul_of_nonneg_right ?_ hu.le) h2
    exact_mod_cast hs2
  have b1 := (zpow_lt_zpow_iff_right₀ (by norm_num : (1 : ℚ) < 2)).1 a1
  have b2 := (zpow_lt_zpow_iff_right₀ (by norm_num : (1 : ℚ) < 2)).1 a2
  omega

/-- A finite nonzero operand, once widened, is a normal number of the same value; its
exponent is in the range of the narrow format. -/
theorem operand_exp (T : Ty) (a : Bits) (ha : a.WF T.fmt) (hf : a.Fin T.fmt) (ex : Int)
    (h1 : (2 : ℚ) ^ ex ≤ |a.val T.fmt|) (h2 : |a.val T.fmt| < 2 ^ (ex + 1)) :
    (fconv T.fmt T.wide a).WF T.wide ∧ 1 ≤ (fconv T.fmt T.wide a).exp ∧
    (fconv T.fmt T.wide a).val T.wide = a.val T.fmt ∧
    ((fconv T.fmt T.wide a).exp : Int) - T.wide.bias = ex ∧
    53 - (T.wide.bias : Int) + T.wide.mw ≤ ex ∧ ex + 2 ≤ T.wide.bias ∧ ¬ a.isZero := by
  have h0 : ¬ a.isZero := by
    rintro ⟨hz1, hz2⟩
    have : a.val T.fmt = 0 := by unfold Bits.val Bits.sig; rw [if_pos hz1, hz2]; simp
    rw [this, abs_zero] at h1
    have : (0 : ℚ) < 2 ^ ex := zpow_pos (by norm_num) _
    linarith
  obtain ⟨n1, n2, n3, n4, n5⟩ := widened_normal T a ha hf h0
  have hu : (0 : ℚ) < 2 ^ T.fmt.uexp := zpow_pos (by norm_num) _
  have hsg : |sgn a.sign| = 1 := by unfold sgn; cases a.sign <;> simp
  have habs : |a.val T.fmt| = a.mag T.fmt * 2 ^ T.fmt.uexp := by
    rw [val_eq_mag, abs_mul, abs_mul, hsg, one_mul, abs_of_pos hu, abs_of_nonneg (by positivity)]
  have hfin : a.exp < T.fmt.expInf := by
    have : a.exp < 2 ^ T.fmt.ew := ha.1
    unfold Bits.Fin at hf
    unfold Fmt.expInf at *
    omega
  -- range of the exponent
  have hlo : T.fmt.uexp ≤ ex := by
    have hm : 1 ≤ a.mag T.fmt := Nat.one_le_iff_ne_zero.2 fun h => h0 ((mag_eq_zero _ _).1 h)
    have hm' : (1 : ℚ) ≤ a.mag T.fmt := by exact_mod_cast hm
    have : (2 : ℚ) ^ T.fmt.uexp < 2 ^ (ex + 1) := by
      refine lt_of_le_of_lt ?_ h2
      rw [habs]
      nlinarith
    have := (zpow_lt_zpow_iff_right₀ (by norm_num : (1 : ℚ) < 2)).1 this
    omega
  have hhi : ex ≤ T.fmt.bias := by
    have hm := mag_lt T.fmt (by cases T <;> decide) a ha hfin
    have hm' : (a.mag T.fmt : ℚ) < 2 ^ (T.fmt.mw + 1 + (T.fmt.expInf - 2)) := by
      rw [pow_add]; exact_mod_cast hm
    have : (2 : ℚ) ^ ex < 2 ^ ((T.fmt.mw + 1 + (T.fmt.expInf - 2) : ℕ) + T.fmt.uexp) := by
      refine lt_of_le_of_lt h1 ?_
      rw [habs, zpow_add₀ (by norm_num), zpow_natCast]
      exact mul_lt_mul_of_pos_right hm' hu
    have := (zpow_lt_zpow_iff_right₀ (by norm_num : (1 : ℚ) < 2)).1 this
    have hc : ((T.fmt.mw + 1 + (T.fmt.expInf - 2) : ℕ) : Int) + T.fmt.uexp = T.fmt.bias + 1 := by
      cases T <;> decide
    omega
  rw [← n5] at h1 h2
  have hex := exp_of_val T.wide _ n1 n2 ex h1 h2
  have hr : 53 - (T.wide.bias : Int) + T.wide.mw ≤ T.fmt.uexp ∧ (T.fmt.bias : Int) + 2 ≤ T.wide.bias := by
    cases T <;> decide
  exact ⟨n1, n2, n5, hex, by omega, by omega, h0⟩

/-- **C21** for operands: for every finite nonzero `float` or `double` operand `a` with
`2^ex ≤ |a| < 2^(ex+1)` (subnormals included), every precision the backend documents and
every draw but one half, the noise is at most `2^(ex-t)`. -/
theorem C21_operand_partial (T : Ty) (t : Nat) (ht : 1 ≤ t) (htm : t ≤ T.wide.mw) (w : BitVec 64)
    (hw : drawn w ≠ 2 ^ 51) (a : Bits) (ha : a.WF T.fmt) (hf : a.Fin T.fmt) (ex : Int)
    (h1 : (2 : ℚ) ^ ex ≤ |a.val T.fmt|) (h2 : |a.val T.fmt| < 2 ^ (ex + 1)) :
    |(quadNoise T.wide (getExp T.wide (fconv T.fmt T.wide a) - (t - 1)) w).val T.wide| ≤ 2 ^ (ex - t) ∧
    |(fadd T.wide (fconv T.fmt T.wide a)
      (quadNoise T.wide (getExp T.wide (fconv T.fmt T.wide a) - (t - 1)) w)).val T.wide - a.val T.fmt| ≤
      2 ^ (ex - t) + 2 ^ (ex - T.wide.mw) := by
  obtain ⟨n1, n2, n5, hex, hlo, hhi, -⟩ := operand_exp T a ha hf ex h1 h2
  obtain ⟨b1, b2, b3⟩ := C21_bound_partial T.wide (by cases T; exact Or.inl rfl; exact Or.inr rfl) t ht w hw
    (fconv T.fmt T.wide a) n1 n2 ex hex.symm (by omega) (by omega)
  rw [n5] at b3
  exact ⟨b1, b3⟩

/-- `1.0` at precision 24 with a draw next to 1 and a draw of 0. -/
example : (quadNoise b64 (-23) 0xFFFFFFFFFFFFFFFF#64) = ⟨false, 998, 2 ^ 52 - 4⟩ ∧
    quadNoise b64 (-23) 0#64 = ⟨true, 999, 0⟩ ∧
    fadd b64 ⟨false, 1023, 0⟩ (quadNoise b64 (-23) 0#64) = ⟨false, 1022, 2 ^ 52 - 2 ^ 29⟩ := by
  decide +kernel

/-- **C21 fails** when the draw is exactly one half: the difference is a zero, to whose
exponent field `e` is added, so the "noise" is `2^((e mod 2^ew) - bias)` instead of 0. -/
theorem C21_half_wrong (F : Fmt) (hF : Wide F) (e : Int) (w : BitVec 64) (hw : drawn w = 2 ^ 51)
    (E : Nat) (hE : (E : Int) = e % 2 ^ F.ew) (h1 : 1 ≤ E) :
    (quadNoise F e w).val F = 2 ^ ((E : Int) - F.bias) := by
  obtain ⟨-, -, -, -, c5⟩ := centred_spec F hF w
  rw [quadNoise_eq, c5 hw]
  have : (((zeroBits false).exp : Int) + e) % 2 ^ F.ew = E := by
    rw [hE]; simp [zeroBits]
  rw [this, Int.toNat_natCast]
  unfold Bits.val Bits.sig Bits.lsb zeroBits
  rw [if_neg (by simp; omega)]
  simp only [sgn, Bool.false_eq_true, if_false, one_mul, add_zero]
  rw [max_eq_left h1]
  push_cast
  rw [← zpow_natCast, ← zpow_add₀ (by norm_num)]
  congr 1
  ring

/-- With the default precision, `1.0f` then becomes `2^1002` in the middle of a `float`
operation, that is infinity once converted back. -/
theorem C21_half_example :
    ∃ w, quadPerturb (σ := Unit) ⟨fun _ => (w, ())⟩ b64 init 24 () ⟨false, 1023, 0⟩ =
        .ok (⟨false, 2025, 0⟩, ()) ∧
      fconv b64 b32 ⟨false, 2025, 0⟩ = ⟨false, 255, 0⟩ := by
  refine ⟨0x8000000000000000#64, ?_⟩
  decide +kernel

end Verif.Mca
