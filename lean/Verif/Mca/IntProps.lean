import Verif.Mca.Common
import Verif.Float.ClassProps
import Mathlib.Tactic.Linarith
import Mathlib.Tactic.Positivity
import Mathlib.Data.BitVec

/-!
# Properties C19 and C20: the noise of the integer MCA backend
-/

namespace Verif.Mca
open Verif Verif.Fp

/-- The two wide formats the backend perturbs. -/
def Wide (F : Fmt) : Prop := F = b64 ∨ F = b128

theorem wide_width (F : Fmt) (h : Wide F) : 64 ≤ F.width ∧ 2 ≤ F.ew ∧ 1 ≤ F.mw := by
  rcases h with rfl | rfl <;> decide

/-- The random integer shifted to the right lies in `[-2^(mw-vp), 2^(mw-vp))`. -/
theorem noise_range (F : Fmt) (hF : Wide F) (p : Nat) (hp : p ≤ F.mw) (w : BitVec 64) :
    -(2 : Int) ^ (F.mw - p) ≤ w.toInt * 2 ^ (F.width - 64) / 2 ^ (F.ew + p) ∧
    w.toInt * 2 ^ (F.width - 64) / 2 ^ (F.ew + p) < (2 : Int) ^ (F.mw - p) := by
  obtain ⟨hw, -, -⟩ := wide_width F hF
  have h1 := BitVec.le_toInt w
  have h2 := BitVec.toInt_lt (x := w)
  have hpw : (0 : Int) < 2 ^ (F.width - 64) := by positivity
  have hpe : (0 : Int) < 2 ^ (F.ew + p) := by positivity
  have e : (2 : Int) ^ (F.mw - p) * 2 ^ (F.ew + p) = 2 ^ 63 * 2 ^ (F.width - 64) := by
    rw [← pow_add, ← pow_add]; congr 1; unfold Fmt.width at *; omega
  have h1' : -(2 : Int) ^ 63 ≤ w.toInt := by simpa using h1
  have h2' : w.toInt < (2 : Int) ^ 63 := by simpa using h2
  constructor
  · rw [Int.le_ediv_iff_mul_le hpe]
    calc -(2 : Int) ^ (F.mw - p) * 2 ^ (F.ew + p) = -(2 ^ 63) * 2 ^ (F.width - 64) := by
          rw [neg_mul, e, neg_mul]
      _ ≤ _ := mul_le_mul_of_nonneg_right h1' hpw.le
  · rw [Int.ediv_lt_iff_lt_mul hpe, e]
    exact mul_lt_mul_of_pos_right h2' hpw

theorem pat_lt (F : Fmt) (x : Bits) (hx : x.WF F) : x.pat F < 2 ^ (F.ew + F.mw) := by
  obtain ⟨h1, h2⟩ := hx
  unfold Bits.pat
  rw [pow_add]
  calc x.exp * 2 ^ F.mw + x.man < x.exp * 2 ^ F.mw + 2 ^ F.mw := by omega
    _ = (x.exp + 1) * 2 ^ F.mw := by ring
    _ ≤ _ := Nat.mul_le_mul_right _ h1

/-- Adding a small integer to the word of a normal number adds it to the magnitude
pattern and leaves the sign bit. -/
theorem sadd_word (sem : ShiftSem) (F : Fmt) (x : Bits) (n : Int)
    (h0 : 0 ≤ (x.pat F : Int) + n) (h1 : (x.pat F : Int) + n < 2 ^ (F.ew + F.mw)) :
    (sadd sem F.width (signedWord F x) n >>= fun u => .ok (ofWord F u)) =
      .ok (ofPat F x.sign ((x.pat F : Int) + n).toNat) := by
  have hw1 : F.width - 1 = F.ew + F.mw := by unfold Fmt.width; omega
  have hw2 : (2 : Int) ^ F.width = 2 * 2 ^ (F.ew + F.mw) := by
    unfold Fmt.width; rw [add_assoc, pow_add]; ring
  obtain ⟨k, hk⟩ : ∃ k : Nat, (k : Int) = (x.pat F : Int) + n := ⟨((x.pat F : Int) + n).toNat, by omega⟩
  have hk2 : k < 2 ^ (F.ew + F.mw) := by
    have : (k : Int) < 2 ^ (F.ew + F.mw) := by omega
    exact_mod_cast this
  have hpos : (0 : Int) < 2 ^ (F.ew + F.mw) := by positivity
  have hm : k % 2 ^ F.mw < 2 ^ F.mw := Nat.mod_lt _ (by positivity)
  have he : k / 2 ^ F.mw < 2 ^ F.ew := by
    rw [Nat.div_lt_iff_lt_mul (by positivity), ← pow_add]; exact hk2
  have hdm : k / 2 ^ F.mw * 2 ^ F.mw + k % 2 ^ F.mw = k := Nat.div_add_mod' k _
  have hmk := ofWord_mk F x.sign (k / 2 ^ F.mw) (k % 2 ^ F.mw) he hm
  rw [hdm] at hmk
  rw [← hk, Int.toNat_natCast]
  unfold sadd signedWord
  rw [hw1]
  rw [if_pos (by
    left
    cases x.sign
    · simp only [Bool.false_eq_true, if_false]; omega
    · simp only [if_true]; omega)]
  simp only [Outcome.bind_ok]
  congr 1
  rw [ofPat, ← hmk]
  congr 1
  cases x.sign
  · simp only [Bool.false_eq_true, if_false, sub_zero, zero_add]
    rw [Int.emod_eq_of_lt (by omega) (by omega)]
    omega
  · simp only [if_true]
    have e : (x.pat F : Int) - 2 ^ (F.ew + F.mw) + n = (2 ^ (F.ew + F.mw) + k) + 2 ^ F.width * (-1) := by
      rw [hw2]; linarith
    rw [e, Int.add_mul_emod_self_left, Int.emod_eq_of_lt (by omega) (by omega)]
    have : ((2 : Int) ^ (F.ew + F.mw) + k) = ((2 ^ (F.ew + F.mw) + k : ℕ) : Int) := by push_cast; rfl
    rw [this, Int.toNat_natCast]

/-- Moving the pattern of a normal number by `n`, at most half a binade, moves its
magnitude by at most `2|n|` of its units in the last place, at most one binade up or
down. -/
theorem mag_move (F : Fmt) (x : Bits) (hx : x.WF F) (hn : 1 ≤ x.exp) (n : Int) (D : Nat)
    (hD : 2 * D ≤ 2 ^ F.mw) (h1 : -(D : Int) ≤ n) (h2 : n < D) :
    ∃ y, ofPat F x.sign ((x.pat F : Int) + n).toNat = y ∧ 0 < (x.pat F : Int) + n ∧
      y.sign = x.sign ∧ y.man < 2 ^ F.mw ∧ x.exp ≤ y.exp + 1 ∧ y.exp ≤ x.exp + 1 ∧
      |(y.mag F : Int) - x.mag F| ≤ 2 * D * 2 ^ (x.exp - 1) ∧
      (y.exp = x.exp → |(y.mag F : Int) - x.mag F| ≤ D * 2 ^ (x.exp - 1)) := by
  obtain ⟨s, E, m⟩ := x
  obtain ⟨hE, hm⟩ := hx
  simp only at hE hm hn
  have hP : 0 < 2 ^ F.mw := by positivity
  have hPi : ((2 ^ F.mw : ℕ) : Int) = 2 ^ F.mw := by push_cast; rfl
  have hDP : (2 * D : Int) ≤ ((2 ^ F.mw : ℕ) : Int) := by exact_mod_cast hD
  obtain ⟨G, rfl⟩ : ∃ G, E = G + 1 := ⟨E - 1, by omega⟩
  have hpat : (Bits.pat F ⟨s, G + 1, m⟩ : Int) = (G + 1) * ((2 ^ F.mw : ℕ) : Int) + m := by
    unfold Bits.pat; push_cast; rfl
  have hmagx : Bits.mag F ⟨s, G + 1, m⟩ = (2 ^ F.mw + m) * 2 ^ G := by
    unfold Bits.mag Bits.sig; simp
  have hG : (0 : Int) < 2 ^ G := by positivity
  have hGP : 0 ≤ (G : Int) * ((2 ^ F.mw : ℕ) : Int) := by positivity
  rw [hpat, hmagx]
  generalize hPe : 2 ^ F.mw = P at *
  refine ⟨_, rfl, ?_⟩
  have hpos : 0 < ((G : Int) + 1) * (P : Int) + m + n := by nlinarith
  refine ⟨hpos, rfl, ?_⟩
  by_cases c1 : (P : Int) ≤ m + n
  · -- up one binade
    obtain ⟨r, hr⟩ : ∃ r : Nat, (r : Int) = m + n - P := ⟨(m + n - P).toNat, by omega⟩
    have hrP : r < P := by omega
    have hN : (((G : Int) + 1) * (P : Int) + m + n).toNat = (G + 2) * P + r := by
      have : ((G : Int) + 1) * (P : Int) + m + n = (((G + 2) * P + r : ℕ) : Int) := by
        push_cast; linarith
      rw [this, Int.toNat_natCast]
    have hy := ofPat_mk F s (G + 2) r (by rw [hPe]; exact hrP)
    rw [hPe] at hy
    rw [hN, hy]
    refine ⟨hrP, by simp, by simp, ?_, by simp⟩
    have hmagy : Bits.mag F ⟨s, G + 2, r⟩ = (P + r) * (2 * 2 ^ G) := by
      unfold Bits.mag Bits.sig
      rw [if_neg (by simp), hPe, show G + 2 - 1 = G + 1 by omega, pow_succ']
    rw [hmagy]
    push_cast
    have : ((P : Int) + r) * (2 * 2 ^ G) - (P + m) * 2 ^ G = (2 * r + P - m) * 2 ^ G := by ring
    rw [this, abs_mul, abs_of_pos hG]
    apply mul_le_mul_of_nonneg_right _ hG.le
    rw [abs_le]
    constructor <;> omega
  · by_cases c2 : 0 ≤ (m : Int) + n
    · -- same binade
      obtain ⟨r, hr⟩ : ∃ r : Nat, (r : Int) = m + n := ⟨(m + n).toNat, by omega⟩
      have hrP : r < P := by omega
      have hN : (((G : Int) + 1) * (P : Int) + m + n).toNat = (G + 1) * P + r := by
        have : ((G : Int) + 1) * (P : Int) + m + n = (((G + 1) * P + r : ℕ) : Int) := by
          push_cast; linarith
        rw [this, Int.toNat_natCast]
      have hy := ofPat_mk F s (G + 1) r (by rw [hPe]; exact hrP)
      rw [hPe] at hy
      rw [hN, hy]
      have hmagy : Bits.mag F ⟨s, G + 1, r⟩ = (P + r) * 2 ^ G := by
        unfold Bits.mag Bits.sig; simp [hPe]
      have key : |((Bits.mag F ⟨s, G + 1, r⟩ : ℕ) : Int) - (((P + m) * 2 ^ G : ℕ) : Int)| ≤ D * 2 ^ G := by
        rw [hmagy]
        push_cast
        have : ((P : Int) + r) * 2 ^ G - (P + m) * 2 ^ G = (r - m) * 2 ^ G := by ring
        rw [this, abs_mul, abs_of_pos hG]
        apply mul_le_mul_of_nonneg_right _ hG.le
        rw [abs_le]
        constructor <;> omega
      refine ⟨hrP, by simp, by simp, ?_, fun _ => key⟩
      refine le_trans key ?_
      simp only [Nat.add_sub_cancel]
      apply mul_le_mul_of_nonneg_right _ hG.le
      omega
    · -- down one binade
      obtain ⟨r, hr⟩ : ∃ r : Nat, (r : Int) = P + m + n := ⟨(P + m + n).toNat, by omega⟩
      have hrP : r < P := by omega
      have hN : (((G : Int) + 1) * (P : Int) + m + n).toNat = G * P + r := by
        have : ((G : Int) + 1) * (P : Int) + m + n = ((G * P + r : ℕ) : Int) := by
          push_cast; linarith
        rw [this, Int.toNat_natCast]
      have hy := ofPat_mk F s G r (by rw [hPe]; exact hrP)
      rw [hPe] at hy
      rw [hN, hy]
      refine ⟨hrP, by simp, by simp; omega, ?_, by simp⟩
      simp only [Nat.add_sub_cancel]
      cases G with
      | zero =>
        have hmagy : Bits.mag F ⟨s, 0, r⟩ = r := by unfold Bits.mag Bits.sig; simp
        rw [hmagy]
        push_cast
        simp only [pow_zero, mul_one]
        rw [abs_le]
        constructor <;> omega
      | succ H =>
        have hmagy : Bits.mag F ⟨s, H + 1, r⟩ = (P + r) * 2 ^ H := by
          unfold Bits.mag Bits.sig; simp [hPe]
        have hH : (0 : Int) < 2 ^ H := by positivity
        rw [hmagy]
        push_cast
        have : ((P : Int) + r) * 2 ^ H - (P + m) * 2 ^ (H + 1) = (r - P - 2 * m) * 2 ^ H := by
          rw [pow_succ]; ring
        rw [this, abs_mul, abs_of_pos hH, pow_succ,
          show (2 : Int) * D * (2 ^ H * 2) = (4 * D) * 2 ^ H by ring]
        apply mul_le_mul_of_nonneg_right _ hH.le
        rw [abs_le]
        constructor <;> omega

theorem val_sub (F : Fmt) (x y : Bits) (h : y.sign = x.sign) :
    |y.val F - x.val F| = |((y.mag F : Int) - x.mag F : ℤ)| * (2 : ℚ) ^ F.uexp := by
  rw [val_eq_mag, val_eq_mag, h]
  have hu : (0 : ℚ) < 2 ^ F.uexp := zpow_pos (by norm_num) _
  have : sgn x.sign * (y.mag F : ℚ) * 2 ^ F.uexp - sgn x.sign * x.mag F * 2 ^ F.uexp =
      sgn x.sign * (((y.mag F : ℚ) - x.mag F) * 2 ^ F.uexp) := by ring
  rw [this, abs_mul, abs_mul, abs_of_pos hu]
  have : |sgn x.sign| = 1 := by unfold sgn; cases x.sign <;> simp
  rw [this, one_mul]
  push_cast
  rfl

/-- **C19.**  For every normal number, every precision up to the mantissa width and
every random word, the perturbation is defined (no out-of-range shift, no signed
overflow), keeps the sign, does not make the number zero, stays within the
neighbouring binades, and moves the value by at most `2^(e-t+1)`, where
`e = exp - bias`; by at most `2^(e-t)` when the exponent does not change. -/
theorem C19_bound (sem : ShiftSem) (F : Fmt) (hF : Wide F) (t : Nat) (ht : 1 ≤ t) (htm : t ≤ F.mw)
    (w : BitVec 64) (x : Bits) (hx : x.WF F) (hn : 1 ≤ x.exp) (hfin : x.exp < F.expInf) :
    ∃ y, intNoise sem F t w x = .ok y ∧ y.WF F ∧ y.sign = x.sign ∧ ¬ y.isZero ∧
      x.exp ≤ y.exp + 1 ∧ y.exp ≤ x.exp + 1 ∧
      (x.exp + 1 < F.expInf → y.Fin F) ∧
      |y.val F - x.val F| ≤ (2 : ℚ) ^ ((x.exp : ℤ) - F.bias - t + 1) ∧
      (y.exp = x.exp → |y.val F - x.val F| ≤ (2 : ℚ) ^ ((x.exp : ℤ) - F.bias - t)) := by
  obtain ⟨hw64, hew, hmw⟩ := wide_width F hF
  obtain ⟨r1, r2⟩ := noise_range F hF t htm w
  have hshift : (1 + (F.ew : Int) - -((t : Int) - 1)).toNat = F.ew + t := by omega
  have hsl : F.ew + t < F.width := by unfold Fmt.width; omega
  unfold intNoise sar
  simp only [hshift]
  rw [if_pos hsl]
  simp only [Outcome.bind_ok, Outcome.pure_eq]
  generalize w.toInt * 2 ^ (F.width - 64) / 2 ^ (F.ew + t) = n at r1 r2
  have hD : 2 * 2 ^ (F.mw - t) ≤ 2 ^ F.mw := by
    rw [← pow_succ']; exact Nat.pow_le_pow_right (by norm_num) (by omega)
  obtain ⟨y, hy, hp0, hs, hm, hb1, hb2, hmag, hmag'⟩ := mag_move F x hx hn n (2 ^ (F.mw - t)) hD
    (by push_cast; exact r1) (by push_cast; exact r2)
  have hexp : F.expInf + 1 = 2 ^ F.ew := by
    have : 0 < 2 ^ F.ew := by positivity
    unfold Fmt.expInf; omega
  have hplt : (x.pat F : Int) + n < 2 ^ (F.ew + F.mw) := by
    have a : x.pat F + 2 ^ F.mw < 2 ^ (F.ew + F.mw) := by
      unfold Bits.pat
      rw [pow_add, ← hexp]
      have : (x.exp + 2) * 2 ^ F.mw ≤ (F.expInf + 1) * 2 ^ F.mw := Nat.mul_le_mul_right _ (by omega)
      have := hx.2
      nlinarith
    have b : (2 : Int) ^ (F.mw - t) ≤ ((2 ^ F.mw : ℕ) : Int) := by
      have : 2 ^ (F.mw - t) ≤ 2 ^ F.mw := Nat.pow_le_pow_right (by norm_num) (by omega)
      exact_mod_cast this
    have a' : (x.pat F : Int) + ((2 ^ F.mw : ℕ) : Int) < 2 ^ (F.ew + F.mw) := by exact_mod_cast a
    omega
  refine ⟨y, ?_, ?_, hs, ?_, hb1, hb2, ?_, ?_, ?_⟩
  · rw [← hy]
    exact sadd_word sem F x n hp0.le hplt
  · refine ⟨?_, hm⟩
    rw [← hy]
    show _ / _ < _
    rw [Nat.div_lt_iff_lt_mul (by positivity), ← pow_add]
    have : ((((x.pat F : Int) + n).toNat : ℕ) : Int) < ((2 ^ (F.ew + F.mw) : ℕ) : Int) := by
      push_cast; omega
    exact_mod_cast this
  · intro hz
    have hpy : y.pat F = ((x.pat F : Int) + n).toNat := by rw [← hy, pat_ofPat]
    have : y.pat F = 0 := by unfold Bits.pat; rw [hz.1, hz.2]; simp
    omega
  · intro h; unfold Bits.Fin; omega
  · rw [val_sub F x y hs]
    have hu : (0 : ℚ) < 2 ^ F.uexp := zpow_pos (by norm_num) _
    have q : (|((y.mag F : Int) - x.mag F : ℤ)| : ℚ) ≤ 2 * 2 ^ (F.mw - t) * 2 ^ (x.exp - 1) := by
      have := hmag
      exact_mod_cast this
    have e : (2 : ℚ) ^ ((x.exp : ℤ) - F.bias - t + 1) = 2 * 2 ^ (F.mw - t) * 2 ^ (x.exp - 1) * 2 ^ F.uexp := by
      rw [← pow_succ', ← pow_add, ← zpow_natCast, ← zpow_add₀ (by norm_num)]
      congr 1
      unfold Fmt.uexp
      omega
    rw [e]
    have q' : ((|((y.mag F : Int) - x.mag F : ℤ)| : ℤ) : ℚ) ≤ 2 * 2 ^ (F.mw - t) * 2 ^ (x.exp - 1) := by
      exact_mod_cast hmag
    exact mul_le_mul_of_nonneg_right q' hu.le
  · intro hye
    rw [val_sub F x y hs]
    have hu : (0 : ℚ) < 2 ^ F.uexp := zpow_pos (by norm_num) _
    have e : (2 : ℚ) ^ ((x.exp : ℤ) - F.bias - t) = 2 ^ (F.mw - t) * 2 ^ (x.exp - 1) * 2 ^ F.uexp := by
      rw [← pow_add, ← zpow_natCast, ← zpow_add₀ (by norm_num)]
      congr 1
      unfold Fmt.uexp
      omega
    rw [e]
    have q' : ((|((y.mag F : Int) - x.mag F : ℤ)| : ℤ) : ℚ) ≤ 2 ^ (F.mw - t) * 2 ^ (x.exp - 1) := by
      exact_mod_cast hmag' hye
    exact mul_le_mul_of_nonneg_right q' hu.le

/-- The noise has both signs and reaches its extreme values: `1.0` at precision 1 may
become `1.5 - 2^-52` or `0.75`. -/
example : intNoise .strict b64 1 0x7FFFFFFFFFFFFFFF#64 ⟨false, 1023, 0⟩ =
      .ok ⟨false, 1023, 2 ^ 51 - 1⟩ ∧
    intNoise .strict b64 1 0x8000000000000000#64 ⟨false, 1023, 0⟩ = .ok ⟨false, 1022, 2 ^ 51⟩ ∧
    intNoise .strict b64 24 0x8000000000000000#64 ⟨true, 1023, 0⟩ =
      .ok ⟨true, 1022, 2 ^ 52 - 2 ^ 28⟩ ∧
    intNoise .strict b128 53 0x7FFFFFFFFFFFFFFF#64 ⟨true, 16383, 7⟩ =
      .ok ⟨true, 16383, 2 ^ 59 + 6⟩ := by decide +kernel

/-- The restriction to normal numbers is needed: on a subnormal the integer addition
runs out of the magnitude field.  The smallest positive one may become a NaN, the
smallest negative one overflows the signed addition. -/
theorem C19_subnormal_excluded :
    (∃ w y, intNoise .strict b64 1 w ⟨false, 0, 1⟩ = .ok y ∧ y.isNaN b64) ∧
    (∃ w, intNoise .strict b64 1 w ⟨true, 0, 1⟩ = .ub) := by
  refine ⟨⟨0x8000000000000000#64, ⟨true, 2047, 2 ^ 51 + 1⟩, ?_, ?_⟩, ⟨0x8000000000000000#64, ?_⟩⟩ <;>
    decide +kernel

/-- Operands of `float` operations are never subnormal in `double`, nor operands of
`double` operations in `_Float128`. -/
theorem widened_normal (T : Ty) (a : Bits) (ha : a.WF T.fmt) (hf : a.Fin T.fmt) (h0 : ¬ a.isZero) :
    (fconv T.fmt T.wide a).WF T.wide ∧ 1 ≤ (fconv T.fmt T.wide a).exp ∧
    (fconv T.fmt T.wide a).exp + 1 < T.wide.expInf ∧ (fconv T.fmt T.wide a).sign = a.sign ∧
    (fconv T.fmt T.wide a).val T.wide = a.val T.fmt := by
  have hfin : a.exp < T.fmt.expInf := by
    have : a.exp < 2 ^ T.fmt.ew := ha.1
    unfold Bits.Fin at hf
    unfold Fmt.expInf at *
    omega
  have hm0 : a.mag T.fmt ≠ 0 := fun h => h0 ((mag_eq_zero _ _).1 h)
  obtain ⟨D, hD, hDv⟩ : ∃ D : ℕ, T.fmt.uexp - T.wide.uexp = D ∧ T.wide.mw + 1 ≤ D := by
    cases T
    · exact ⟨925, by decide, by decide⟩
    · exact ⟨15420, by decide, by decide⟩
  have hmlt := mag_lt T.fmt (by cases T <;> decide) a ha hfin
  obtain ⟨c1, c2, c3, c4⟩ := fconv_widen T.fmt T.wide (by cases T <;> decide) (by cases T <;> decide) a D hD
    (by cases T <;> decide)
    (by
      have : D = (T.fmt.uexp - T.wide.uexp).toNat := by omega
      rw [this]; cases T <;> decide) ha hfin hm0
  have hmagl : 2 ^ (T.wide.mw + 1) ≤ (fconv T.fmt T.wide a).mag T.wide := by
    rw [c4]
    calc 2 ^ (T.wide.mw + 1) ≤ 2 ^ D := Nat.pow_le_pow_right (by norm_num) hDv
      _ ≤ a.mag T.fmt * 2 ^ D := Nat.le_mul_of_pos_left _ (by omega)
  refine ⟨c2, ?_, ?_, c1, ?_⟩
  · by_contra hz
    have h0 : (fconv T.fmt T.wide a).exp = 0 := by omega
    rw [mag_subnormal _ _ h0] at hmagl
    have := c2.2
    have : 2 ^ T.wide.mw ≤ 2 ^ (T.wide.mw + 1) := Nat.pow_le_pow_right (by norm_num) (by omega)
    omega
  · by_contra hz
    have hge : T.wide.expInf - 1 ≤ (fconv T.fmt T.wide a).exp := by omega
    have hlow : 2 ^ (T.wide.mw + (T.wide.expInf - 2)) ≤ (fconv T.fmt T.wide a).mag T.wide := by
      have hne : (fconv T.fmt T.wide a).exp ≠ 0 := by
        have := expInf_ge T.wide (by cases T <;> decide); omega
      rw [mag_normal _ _ hne, pow_add]
      exact Nat.mul_le_mul (by omega) (Nat.pow_le_pow_right (by norm_num) (by omega))
    rw [c4] at hlow
    have hup : a.mag T.fmt * 2 ^ D < 2 ^ (T.fmt.mw + 1 + (T.fmt.expInf - 2) + D) := by
      rw [pow_add _ (T.fmt.mw + 1 + (T.fmt.expInf - 2)) D, pow_add _ (T.fmt.mw + 1)]
      exact Nat.mul_lt_mul_of_pos_right hmlt (by positivity)
    have hlt := lt_of_le_of_lt hlow hup
    have := (Nat.pow_lt_pow_iff_right (by norm_num : 1 < 2)).1 hlt
    have hDe : D = (T.fmt.uexp - T.wide.uexp).toNat := by omega
    rw [hDe] at this
    revert this
    cases T <;> decide
  · rw [val_eq_mag, val_eq_mag, c1, c4]
    push_cast
    have : T.fmt.uexp = (D : ℤ) + T.wide.uexp := by omega
    rw [this, zpow_add₀ (by norm_num), zpow_natCast]
    ring

/-- **C19** for operands: every finite nonzero operand of a `float` or `double`
operation, widened as the backend does, is perturbed by at most `2^(e-t+1)`, keeps its
sign and stays finite and nonzero. -/
theorem C19_operand (sem : ShiftSem) (T : Ty) (t : Nat) (ht : 1 ≤ t) (htm : t ≤ T.wide.mw) (w : BitVec 64)
    (a : Bits) (ha : a.WF T.fmt) (hf : a.Fin T.fmt) (h0 : ¬ a.isZero) :
    ∃ y, intNoise sem T.wide t w (fconv T.fmt T.wide a) = .ok y ∧ y.Fin T.wide ∧ ¬ y.isZero ∧
      y.sign = a.sign ∧
      ∀ e : ℤ, (2 : ℚ) ^ e ≤ |a.val T.fmt| → |y.val T.wide - a.val T.fmt| ≤ (2 : ℚ) ^ (e - t + 1) ∨
        (2 : ℚ) ^ (e + 1) ≤ |a.val T.fmt| := by
  obtain ⟨n1, n2, n3, n4, n5⟩ := widened_normal T a ha hf h0
  generalize fconv T.fmt T.wide a = x at *
  obtain ⟨y, hy, hwf, hs, hz, b1, b2, hfin, hb, -⟩ := C19_bound sem T.wide (by cases T; exact Or.inl rfl; exact Or.inr rfl)
    t ht htm w x n1 n2 (by omega)
  refine ⟨y, hy, hfin n3, hz, hs.trans n4, fun e he => ?_⟩
  by_cases hge : (2 : ℚ) ^ (e + 1) ≤ |a.val T.fmt|
  · exact Or.inr hge
  · left
    rw [← n5] at he hge ⊢
    -- e is the exponent of x
    have habs := abs_val T.wide x
    have hsig : 2 ^ T.wide.mw ≤ x.sig T.wide ∧ x.sig T.wide < 2 ^ (T.wide.mw + 1) := by
      refine ⟨?_, sig_lt _ _ n1⟩
      unfold Bits.sig; rw [if_neg (by omega)]; omega
    have hu : (0 : ℚ) < 2 ^ x.lsb T.wide := zpow_pos (by norm_num) _
    have hl : x.lsb T.wide = (x.exp : ℤ) - T.wide.bias - T.wide.mw := by
      unfold Bits.lsb; rw [max_eq_left n2]
    have h1 : (2 : ℚ) ^ ((x.exp : ℤ) - T.wide.bias) ≤ |x.val T.wide| := by
      rw [habs, show (x.exp : ℤ) - T.wide.bias = (T.wide.mw : ℤ) + x.lsb T.wide by omega,
        zpow_add₀ (by norm_num), zpow_natCast]
      apply mul_le_mul_of_nonneg_right _ hu.le
      exact_mod_cast hsig.1
    have h2 := lt_of_le_of_lt h1 (not_le.1 hge)
    have h3 := (zpow_lt_zpow_iff_right₀ (by norm_num : (1 : ℚ) < 2)).1 h2
    refine le_trans hb ?_
    apply zpow_le_zpow_right₀ (by norm_num)
    omega

/-- **C20**, the part that holds: every precision of the documented interval, for both
types, keeps the shift in range. -/
theorem C20_documented_partial (T : Ty) (c c' : Ctx) (p : Int)
    (hset : (match T with | .f32 => setPrec32 p c | .f64 => setPrec64 p c) = .ok c')
    (hmax : p ≤ (T.wide.mw : Int)) (w : BitVec 64) (x : Bits) (hx : x.WF T.wide) (hn : 1 ≤ x.exp)
    (hfin : x.exp < T.wide.expInf) :
    c'.prec T = p ∧ ∃ y, intNoise .strict T.wide (c'.prec T) w x = .ok y := by
  have h : 1 ≤ p ∧ c'.prec T = p := by
    cases T
    · simp only [setPrec32] at hset
      split at hset
      · simp at hset
      · simp at hset; subst hset; exact ⟨by omega, rfl⟩
    · simp only [setPrec64] at hset
      split at hset
      · simp at hset
      · simp at hset; subst hset; exact ⟨by omega, rfl⟩
  refine ⟨h.2, ?_⟩
  obtain ⟨y, hy, -⟩ := C19_bound .strict T.wide (by cases T; exact Or.inl rfl; exact Or.inr rfl) p.toNat
    (by omega) (by omega) w x hx hn hfin
  rw [h.2]
  exact ⟨y, by rw [show p = ((p.toNat : ℕ) : Int) by omega]; exact hy⟩

/-- **C20 fails**: every precision above the documented maximum is accepted (with a
warning that no noise will be added), and then every perturbation shifts by at least
the width of the type, which is undefined behaviour. -/
theorem C20_accepted_ub (T : Ty) (c : Ctx) (p : Int) (hp : (T.wide.mw : Int) < p) :
    ∃ c', (match T with | .f32 => setPrec32 p c | .f64 => setPrec64 p c) = .ok c' ∧ c'.prec T = p ∧
      ∀ w x, intNoise .strict T.wide (c'.prec T) w x = .ub := by
  have key : ∀ w x, intNoise .strict T.wide p w x = .ub := by
    intro w x
    unfold intNoise sar
    simp only
    rw [if_neg]
    · rfl
    · unfold Fmt.width; omega
  cases T
  · refine ⟨{ c with prec32 := p }, ?_, rfl, key⟩
    simp only [setPrec32]
    rw [if_neg (by change ((52 : Nat) : Int) < p at hp; omega)]
  · refine ⟨{ c with prec64 := p }, ?_, rfl, key⟩
    simp only [setPrec64]
    rw [if_neg (by change ((112 : Nat) : Int) < p at hp; omega)]

/-- On machines whose shift counts wrap, precision 53 for `float` operations does the
opposite of what the warning announces: the random word is added unshifted and any
value can become any other. -/
theorem C20_wrap_anything (x y : Bits) (hy : y.WF b64) :
    ∃ w, intNoise .wrap b64 53 w x = .ok y := by
  refine ⟨BitVec.ofInt 64 (word b64 y - signedWord b64 x), ?_⟩
  unfold intNoise sar sadd
  have h1 : (1 + (b64.ew : Int) - -((53 : Int) - 1)).toNat = 64 := by decide
  have h2 : b64.width = 64 := by decide
  simp only [h1, h2]
  simp only [lt_irrefl, if_false, Nat.mod_self, Nat.sub_self, pow_zero, mul_one, Int.ediv_one,
    Outcome.bind_ok, or_true, if_true, Outcome.pure_eq]
  congr 1
  have h3 : (signedWord b64 x + (BitVec.ofInt 64 (word b64 y - signedWord b64 x)).toInt) % 2 ^ 64 =
      (word b64 y : Int) := by
    rw [BitVec.toInt_ofInt]
    have := word_lt b64 y hy
    rw [h2] at this
    have hb : (signedWord b64 x + ((word b64 y : Int) - signedWord b64 x).bmod (2 ^ 64)) % 2 ^ 64 =
        (signedWord b64 x + ((word b64 y : Int) - signedWord b64 x)) % 2 ^ 64 := by
      have := Int.bmod_emod (x := (word b64 y : Int) - signedWord b64 x) (m := 2 ^ 64)
      rw [Int.add_emod, show ((2 : Int) ^ 64) = ((2 ^ 64 : ℕ) : Int) by norm_num, this, ← Int.add_emod]
    rw [hb]
    rw [show signedWord b64 x + ((word b64 y : Int) - signedWord b64 x) = word b64 y by ring]
    apply Int.emod_eq_of_lt (by omega)
    exact_mod_cast this
  rw [h3, Int.toNat_natCast, ofWord_word b64 y hy]

end Verif.Mca
