import Verif.Bitmask.Model
import Verif.Float.ClassProps
import Mathlib.Tactic.Linarith
import Mathlib.Tactic.Positivity

/-!
# Properties C24 and C25: the bitmask backend
-/

namespace Verif.Bitmask
open Verif Verif.Fp

/-! ## Bit lemmas -/

theorem testBit_highmask (w n i : Nat) (hn : n ≤ w) :
    (2 ^ w - 2 ^ n).testBit i = (decide (n ≤ i) && decide (i < w)) := by
  have hm : 2 ^ w - 2 ^ n = (2 ^ (w - n) - 1) * 2 ^ n := by
    rw [Nat.sub_mul, ← pow_add, Nat.sub_add_cancel hn, one_mul]
  rw [hm, ← Nat.shiftLeft_eq, Nat.testBit_shiftLeft, Nat.testBit_two_pow_sub_one]
  by_cases h : n ≤ i
  · simp only [ge_iff_le, h, decide_true, Bool.true_and]
    congr 1
    simp only [eq_iff_iff]
    omega
  · simp [h]

theorem compl_highmask (w n : Nat) (hn : n ≤ w) : (2 ^ w - 1) ^^^ (2 ^ w - 2 ^ n) = 2 ^ n - 1 := by
  apply Nat.eq_of_testBit_eq
  intro i
  rw [Nat.testBit_xor, testBit_highmask w n i hn, Nat.testBit_two_pow_sub_one,
    Nat.testBit_two_pow_sub_one]
  by_cases h1 : n ≤ i <;> by_cases h2 : i < w <;> simp [h1, h2] <;> omega

theorem or_highmask (w a b : Nat) (ha : a ≤ w) (hb : b ≤ a) :
    (2 ^ w - 2 ^ a) ||| (2 ^ w - 2 ^ b) = 2 ^ w - 2 ^ b := by
  apply Nat.eq_of_testBit_eq
  intro i
  rw [Nat.testBit_or, testBit_highmask w a i ha, testBit_highmask w b i (by omega)]
  by_cases h1 : a ≤ i
  · have : b ≤ i := by omega
    simp [h1, this]
  · simp [h1]

theorem or_lowmask (x n : Nat) : x ||| (2 ^ n - 1) = x / 2 ^ n * 2 ^ n + (2 ^ n - 1) := by
  have hp : 0 < 2 ^ n := by positivity
  apply Nat.eq_of_testBit_eq
  intro i
  rw [mul_comm, Nat.testBit_two_pow_mul_add _ (by omega), Nat.testBit_or,
    Nat.testBit_two_pow_sub_one]
  by_cases h : i < n
  · simp [h]
  · simp [h, Nat.testBit_div_two_pow]
    congr 1
    omega

theorem xor_low (x r n : Nat) :
    x ^^^ ((2 ^ n - 1) &&& r) = x / 2 ^ n * 2 ^ n + (x % 2 ^ n ^^^ r % 2 ^ n) := by
  have hp : 0 < 2 ^ n := by positivity
  apply Nat.eq_of_testBit_eq
  intro i
  rw [mul_comm, Nat.testBit_two_pow_mul_add _
    (Nat.xor_lt_two_pow (Nat.mod_lt _ hp) (Nat.mod_lt _ hp)), Nat.testBit_xor, Nat.testBit_and,
    Nat.testBit_two_pow_sub_one]
  by_cases h : i < n
  · simp [h, Nat.testBit_mod_two_pow]
  · simp [h, Nat.testBit_div_two_pow]
    congr 1
    omega

/-! ## What the operators do under a mask of `n` cleared low bits -/

/-- The low bits written by each operator. -/
def lowBits (op : Operator) (n rnd man : Nat) : Nat :=
  match op with
  | .zero => 0
  | .one => 2 ^ n - 1
  | .rand => man % 2 ^ n ^^^ rnd % 2 ^ n

theorem lowBits_lt (op : Operator) (n rnd man : Nat) : lowBits op n rnd man < 2 ^ n := by
  have hp : 0 < 2 ^ n := by positivity
  cases op
  · exact hp
  · simp only [lowBits]; omega
  · exact Nat.xor_lt_two_pow (Nat.mod_lt _ hp) (Nat.mod_lt _ hp)

theorem man_lt (F : Fmt) (x : Bits) (hx : x.WF F) (n l : Nat) (hn : n ≤ F.mw) (hl : l < 2 ^ n) :
    x.man / 2 ^ n * 2 ^ n + l < 2 ^ F.mw := by
  have e : 2 ^ F.mw = 2 ^ (F.mw - n) * 2 ^ n := by rw [← pow_add]; congr 1; omega
  have hq : x.man / 2 ^ n < 2 ^ (F.mw - n) := by
    rw [Nat.div_lt_iff_lt_mul (by positivity), ← e]; exact hx.2
  rw [e]
  calc _ < x.man / 2 ^ n * 2 ^ n + 2 ^ n := by omega
    _ = (x.man / 2 ^ n + 1) * 2 ^ n := by ring
    _ ≤ _ := Nat.mul_le_mul_right _ hq

theorem word_split (F : Fmt) (x : Bits) (n : Nat) (hn : n ≤ F.mw) :
    word F x / 2 ^ n * 2 ^ n =
      (if x.sign then 2 ^ (F.ew + F.mw) else 0) + (x.exp * 2 ^ F.mw + x.man / 2 ^ n * 2 ^ n) := by
  have hp : 0 < 2 ^ n := by positivity
  have e : 2 ^ F.mw = 2 ^ (F.mw - n) * 2 ^ n := by rw [← pow_add]; congr 1; omega
  have e2 : 2 ^ (F.ew + F.mw) = 2 ^ F.ew * 2 ^ (F.mw - n) * 2 ^ n := by rw [pow_add, e]; ring
  have : word F x = x.man +
      ((if x.sign then 2 ^ F.ew else 0) + x.exp) * 2 ^ (F.mw - n) * 2 ^ n := by
    unfold word Bits.pat
    rw [e2, e]
    split <;> ring
  rw [this, Nat.add_mul_div_right _ _ hp, e2, e]
  split <;> ring

theorem applyOp_spec (F : Fmt) (op : Operator) (n rnd : Nat) (x : Bits) (hx : x.WF F) (hn : n ≤ F.mw) :
    applyOp F op (2 ^ F.width - 2 ^ n) rnd x =
      { x with man := x.man / 2 ^ n * 2 ^ n + lowBits op n rnd x.man } := by
  have hw : n ≤ F.width := by unfold Fmt.width; omega
  have hl := lowBits_lt op n rnd x.man
  have hml := man_lt F x hx n _ hn hl
  cases op
  · simp only [applyOp, lowBits, add_zero]
    simp only [lowBits, add_zero] at hml
    rw [and_highmask _ _ _ hw (word_lt F x hx), word_split F x n hn]
    exact ofWord_mk F x.sign x.exp _ hx.1 hml
  · simp only [applyOp, lowBits, maskOne]
    rw [compl_highmask _ _ hw, or_lowmask, word_split F x n hn, add_assoc, add_assoc]
    exact ofWord_mk F x.sign x.exp _ hx.1 hml
  · simp only [applyOp, lowBits, maskOne]
    rw [compl_highmask _ _ hw, xor_low]
    simp only [lowBits] at hml
    rw [Nat.mod_eq_of_lt hml]

/-! ## The masks -/

/-- Number of significant bits beyond the first `t`. -/
def dropped (F : Fmt) (t : Nat) (x : Bits) : Nat := (Nat.log2 (x.sig F) + 1) - t

theorem maskOf_eq (F : Fmt) (p : Int) (hp : 1 ≤ p) :
    maskOf F p = .ok (2 ^ F.width - 2 ^ (F.mw + 1 - p.toNat)) := by
  unfold maskOf
  split
  · next h =>
    rw [cShl_in .strict F.width _ _ (F.mw + 1 - p.toNat) (by omega)
      (by unfold Fmt.width; omega)]
    rw [maskOne, highmask _ _ (by unfold Fmt.width; omega)]
  · next h =>
    rw [show F.mw + 1 - p.toNat = 0 by omega, pow_zero]
    rfl

theorem effMask_eq (F : Fmt) (t : Int) (ht : 1 ≤ t) (x : Bits) (hx : x.WF F) (hf : x.Fin F)
    (h0 : ¬ x.isZero) :
    effMask F (2 ^ F.width - 2 ^ (F.mw + 1 - t.toNat)) t x =
      .ok (2 ^ F.width - 2 ^ dropped F t.toNat x) ∧ dropped F t.toNat x ≤ F.mw := by
  unfold Bits.Fin at hf
  unfold Bits.isZero at h0
  have hm2 := hx.2
  have hcl : classify F x = if x.exp = 0 then .subnormal else .normal := by
    unfold classify
    rw [if_neg (by tauto), if_neg (by tauto), if_neg h0]
    by_cases he : x.exp = 0
    · rw [if_pos ⟨he, fun h => h0 ⟨he, h⟩⟩, if_pos he]
    · rw [if_neg (by tauto), if_neg he]
  unfold effMask dropped Bits.sig
  rw [hcl]
  by_cases he : x.exp = 0
  · have hm : x.man ≠ 0 := fun h => h0 ⟨he, h⟩
    have hlog : Nat.log2 x.man < F.mw := (Nat.log2_lt hm).2 hx.2
    rw [if_pos he, if_pos rfl, if_pos he]
    have hl0 : F.width - 1 - Nat.log2 x.man - (1 + F.ew) = F.mw - 1 - Nat.log2 x.man := by
      unfold Fmt.width; omega
    simp only
    rw [hl0]
    by_cases hc : F.mw < F.mw - 1 - Nat.log2 x.man + t.toNat
    · rw [if_pos hc, show Nat.log2 x.man + 1 - t.toNat = 0 by omega, pow_zero]
      exact ⟨rfl, by omega⟩
    · rw [if_neg hc, cShl_in .strict F.width _ _ (Nat.log2 x.man + 1 - t.toNat) (by omega)
        (by unfold Fmt.width; omega)]
      rw [maskOne, highmask _ _ (by unfold Fmt.width; omega)]
      refine ⟨?_, by omega⟩
      simp only [Outcome.bind_ok, Outcome.pure_eq]
      rw [or_highmask _ _ _ (by unfold Fmt.width; omega) (by omega)]
  · rw [if_neg he, if_neg (by decide), if_neg he]
    have hlog : Nat.log2 (2 ^ F.mw + x.man) = F.mw :=
      log2_of_range _ _ (by omega) (by rw [pow_succ]; omega)
    rw [hlog]
    exact ⟨rfl, by omega⟩

theorem classify_fin (F : Fmt) (x : Bits) (hf : x.Fin F) (h0 : ¬ x.isZero) :
    classify F x = .normal ∨ classify F x = .subnormal := by
  unfold Bits.Fin at hf
  unfold Bits.isZero at h0
  unfold classify
  rw [if_neg (by tauto), if_neg (by tauto), if_neg h0]
  split <;> simp

theorem mustNot_iff (F : Fmt) (mode : Mode) (t : Int) (x : Bits) (hf : x.Fin F) (h0 : ¬ x.isZero) :
    mustNotBeNoised F mode t x = true ↔ mode = .ieee ∨ (mode = .ob ∧ isRepr F x t.toNat = true) := by
  unfold mustNotBeNoised
  rcases classify_fin F x hf h0 with h | h <;> simp [h]

/-- A value with at most `t` significant bits has only zeros beyond the first `t`. -/
theorem bitsAtMost_dropped (F : Fmt) (t : Nat) (x : Bits) (h0 : x.sig F ≠ 0) (h : BitsAtMost F t x) :
    x.sig F % 2 ^ dropped F t x = 0 := by
  rw [bitsAtMost_iff] at h
  obtain ⟨m, k, hm, hs⟩ := h
  have hm0 : m ≠ 0 := by rintro rfl; simp at hs; exact h0 hs
  have hl : Nat.log2 (x.sig F) = Nat.log2 m + k := by rw [hs, log2_mul_pow _ _ hm0]
  have hlm : Nat.log2 m < t := (Nat.log2_lt hm0).2 hm
  have hd : dropped F t x ≤ k := by unfold dropped; omega
  rw [hs, show k = (k - dropped F t x) + dropped F t x by omega, pow_add, ← mul_assoc]
  exact Nat.mul_mod_left _ _

/-! ## C24 -/

theorem sig_ne_zero (F : Fmt) (x : Bits) (h0 : ¬ x.isZero) : x.sig F ≠ 0 := by
  unfold Bits.sig
  unfold Bits.isZero at h0
  have : 0 < 2 ^ F.mw := by positivity
  split
  · next h => intro hm; exact h0 ⟨h, hm⟩
  · omega

theorem sig_of_man (F : Fmt) (x : Bits) (n l : Nat) (hn : n ≤ F.mw) :
    (⟨x.sign, x.exp, x.man / 2 ^ n * 2 ^ n + l⟩ : Bits).sig F = x.sig F / 2 ^ n * 2 ^ n + l := by
  unfold Bits.sig
  simp only
  split
  · rfl
  · have e : 2 ^ F.mw = 2 ^ (F.mw - n) * 2 ^ n := by rw [← pow_add]; congr 1; omega
    have : 2 ^ F.mw + x.man = x.man + 2 ^ (F.mw - n) * 2 ^ n := by rw [← e]; ring
    rw [this, Nat.add_mul_div_right _ _ (by positivity), Nat.add_mul, ← e]
    ring

/-- **C24**, fields: for every precision accepted by the option, every finite nonzero
value and every random word the perturbation is defined, keeps sign and exponent
field, and keeps the first `t` significant bits; the bits after them become zeros
(`zero`), ones (`one`), or are flipped according to the random word (`rand`).  In mode
`ob` a value the test finds representable is left alone. -/
theorem C24_fields (F : Fmt) (mode : Mode) (op : Operator) (t : Int) (ht : 1 ≤ t) (mask rnd : Nat)
    (hmask : maskOf F t = .ok mask) (x : Bits) (hx : x.WF F) (hf : x.Fin F) (h0 : ¬ x.isZero) :
    ∃ y, inexact F mode op t mask rnd x = .ok y ∧ y.WF F ∧ y.sign = x.sign ∧ y.exp = x.exp ∧
      y.sig F / 2 ^ dropped F t.toNat x = x.sig F / 2 ^ dropped F t.toNat x ∧
      (mode = .ieee → y = x) ∧
      (mode ≠ .ieee → op = .zero → y.sig F % 2 ^ dropped F t.toNat x = 0) ∧
      (mode = .ob → isRepr F x t.toNat = true → y = x) ∧
      (mode ≠ .ieee → ¬ (mode = .ob ∧ isRepr F x t.toNat = true) →
        (op = .one → y.sig F % 2 ^ dropped F t.toNat x = 2 ^ dropped F t.toNat x - 1) ∧
        (op = .rand → y.sig F % 2 ^ dropped F t.toNat x =
          x.sig F % 2 ^ dropped F t.toNat x ^^^ rnd % 2 ^ dropped F t.toNat x)) := by
  have hs0 := sig_ne_zero F x h0
  rw [maskOf_eq F t ht] at hmask
  injection hmask with hmask
  subst hmask
  obtain ⟨he, hd⟩ := effMask_eq F t ht x hx hf h0
  have hmn := mustNot_iff F mode t x hf h0
  unfold inexact
  by_cases hc : mustNotBeNoised F mode t x = true
  · rw [if_pos hc]
    refine ⟨x, rfl, hx, rfl, rfl, rfl, fun _ => rfl, ?_, fun _ _ => rfl, ?_⟩
    · intro h1 h2
      rcases hmn.1 hc with h | h
      · exact absurd h h1
      · exact bitsAtMost_dropped F t.toNat x hs0
          (C23_yes_sound F x hx _ (by omega) h.2)
    · intro h1 h2
      rcases hmn.1 hc with h | h
      · exact absurd h h1
      · exact absurd h h2
  · have hc' : ¬ (mode = .ieee ∨ (mode = .ob ∧ isRepr F x t.toNat = true)) := fun h => hc (hmn.2 h)
    rw [if_neg hc, he]
    simp only [Outcome.bind_ok, Outcome.pure_eq]
    rw [applyOp_spec F op _ rnd x hx hd]
    have hl := lowBits_lt op (dropped F t.toNat x) rnd x.man
    generalize hdd : dropped F t.toNat x = d at *
    have hsig := sig_of_man F x d (lowBits op d rnd x.man) hd
    have hlow : (x.sig F / 2 ^ d * 2 ^ d + lowBits op d rnd x.man) % 2 ^ d = lowBits op d rnd x.man := by
      rw [mul_comm, Nat.mul_add_mod, Nat.mod_eq_of_lt hl]
    refine ⟨_, rfl, ⟨hx.1, man_lt F x hx d _ hd hl⟩, rfl, rfl, ?_, ?_, ?_, ?_, ?_⟩
    · rw [hsig, mul_comm, Nat.mul_add_div (by positivity), Nat.div_eq_of_lt hl, add_zero]
    · intro h; exact absurd (Or.inl h) hc'
    · intro _ h
      rw [hsig, hlow, h]
      rfl
    · intro h1 h2; exact absurd (Or.inr ⟨h1, h2⟩) hc'
    · intro _ _
      refine ⟨fun h => by rw [hsig, hlow, h]; rfl, fun h => ?_⟩
      rw [hsig, hlow, h]
      simp only [lowBits]
      congr 1
      unfold Bits.sig
      split
      · rfl
      · rw [show F.mw = (F.mw - d) + d by omega, pow_add, mul_comm, Nat.mul_add_mod]

/-- **C24**, values: with `e` the exponent of the value (`2^e ≤ |x| < 2^(e+1)`) the
result has the same sign and the same exponent, and differs by less than
`2^(e-t+1)`, one unit of the `t`-bit precision; for `zero` the result is `x` rounded
towards zero to a multiple of that unit, for `one` it is at least as large. -/
theorem C24_error (F : Fmt) (mode : Mode) (op : Operator) (t : Int) (ht : 1 ≤ t) (mask rnd : Nat)
    (hmask : maskOf F t = .ok mask) (x : Bits) (hx : x.WF F) (hf : x.Fin F) (h0 : ¬ x.isZero)
    (e : ℤ) (hlo : (2 : ℚ) ^ e ≤ |x.val F|) (hhi : |x.val F| < (2 : ℚ) ^ (e + 1)) :
    ∃ y, inexact F mode op t mask rnd x = .ok y ∧ y.Fin F ∧
      |y.val F - x.val F| < (2 : ℚ) ^ (e - t + 1) ∧
      (2 : ℚ) ^ e ≤ |y.val F| ∧ |y.val F| < (2 : ℚ) ^ (e + 1) ∧
      (op = .zero → |y.val F| ≤ |x.val F| ∧
        (mode ≠ .ieee → ∃ k : ℕ, |y.val F| = k * (2 : ℚ) ^ (e - t + 1) ∨ y = x)) ∧
      (op = .one → |x.val F| ≤ |y.val F|) := by
  obtain ⟨y, hy, hwf, hsign, hexp, hq, h1, h2, h3, h4⟩ :=
    C24_fields F mode op t ht mask rnd hmask x hx hf h0
  have hlsb : y.lsb F = x.lsb F := by unfold Bits.lsb; rw [hexp]
  have hs0 := sig_ne_zero F x h0
  have hu : (0 : ℚ) < 2 ^ x.lsb F := zpow_pos (by norm_num) _
  -- the exponent in terms of the significand
  have hLlo : 2 ^ Nat.log2 (x.sig F) ≤ x.sig F := Nat.log2_self_le hs0
  have hLhi : x.sig F < 2 ^ (Nat.log2 (x.sig F) + 1) := Nat.lt_log2_self
  have heq : e = (Nat.log2 (x.sig F) : ℤ) + x.lsb F := by
    rw [abs_val] at hlo hhi
    generalize Nat.log2 (x.sig F) = L at *
    have a : (2 : ℚ) ^ ((L : ℤ) + x.lsb F) ≤ (x.sig F : ℚ) * 2 ^ x.lsb F := by
      rw [zpow_add₀ (by norm_num), zpow_natCast]
      apply mul_le_mul_of_nonneg_right _ hu.le
      exact_mod_cast hLlo
    have b : (x.sig F : ℚ) * 2 ^ x.lsb F < (2 : ℚ) ^ ((L : ℤ) + x.lsb F + 1) := by
      rw [show (L : ℤ) + x.lsb F + 1 = ((L + 1 : ℕ) : ℤ) + x.lsb F by push_cast; ring,
        zpow_add₀ (by norm_num), zpow_natCast]
      apply mul_lt_mul_of_pos_right _ hu
      exact_mod_cast hLhi
    have c1 := (zpow_lt_zpow_iff_right₀ (by norm_num : (1 : ℚ) < 2)).1 (lt_of_le_of_lt hlo b)
    have c2 := (zpow_lt_zpow_iff_right₀ (by norm_num : (1 : ℚ) < 2)).1 (lt_of_le_of_lt a hhi)
    omega
  generalize hL : Nat.log2 (x.sig F) = L at *
  have hdv : dropped F t.toNat x = L + 1 - t.toNat := by unfold dropped; rw [hL]
  generalize hdd : dropped F t.toNat x = d at *
  have hp : 0 < 2 ^ d := by positivity
  -- both significands have the same quotient by 2^d
  have hxd := Nat.div_add_mod (x.sig F) (2 ^ d)
  have hyd := Nat.div_add_mod (y.sig F) (2 ^ d)
  have hxm := Nat.mod_lt (x.sig F) hp
  have hym := Nat.mod_lt (y.sig F) hp
  rw [hq] at hyd
  have hd1 : y.sig F < x.sig F + 2 ^ d := by omega
  have hd2 : x.sig F < y.sig F + 2 ^ d := by omega
  have hdL : d ≤ L := by omega
  have hyL : 2 ^ L ≤ y.sig F := by
    have : 2 ^ (L - d) ≤ x.sig F / 2 ^ d := by
      rw [Nat.le_div_iff_mul_le hp, ← pow_add, Nat.sub_add_cancel hdL]; exact hLlo
    calc 2 ^ L = 2 ^ d * 2 ^ (L - d) := by rw [← pow_add]; congr 1; omega
      _ ≤ 2 ^ d * (x.sig F / 2 ^ d) := Nat.mul_le_mul_left _ this
      _ ≤ y.sig F := by omega
  have hyH : y.sig F < 2 ^ (L + 1) := by
    have : x.sig F / 2 ^ d < 2 ^ (L + 1 - d) := by
      rw [Nat.div_lt_iff_lt_mul hp, ← pow_add, Nat.sub_add_cancel (by omega)]; exact hLhi
    calc y.sig F < 2 ^ d * (x.sig F / 2 ^ d) + 2 ^ d := by omega
      _ = 2 ^ d * (x.sig F / 2 ^ d + 1) := by ring
      _ ≤ 2 ^ d * 2 ^ (L + 1 - d) := Nat.mul_le_mul_left _ this
      _ = 2 ^ (L + 1) := by rw [← pow_add]; congr 1; omega
  -- the error in units of the last place
  have herr : |y.val F - x.val F| = |(y.sig F : ℚ) - x.sig F| * 2 ^ x.lsb F := by
    unfold Bits.val
    rw [hlsb, hsign]
    have : sgn x.sign * (y.sig F : ℚ) * 2 ^ x.lsb F - sgn x.sign * x.sig F * 2 ^ x.lsb F =
        sgn x.sign * (((y.sig F : ℚ) - x.sig F) * 2 ^ x.lsb F) := by ring
    rw [this, abs_mul, abs_mul, abs_of_pos hu]
    have : |sgn x.sign| = 1 := by unfold sgn; cases x.sign <;> simp
    rw [this, one_mul]
  refine ⟨y, hy, ?_, ?_, ?_, ?_, ?_, ?_⟩
  · unfold Bits.Fin; rw [hexp]; exact hf
  · rw [herr]
    by_cases hdz : d = 0
    · have : y.sig F = x.sig F := by rw [hdz] at hd1 hd2; omega
      rw [this, sub_self, abs_zero, zero_mul]
      exact zpow_pos (by norm_num) _
    · have hde : e - t + 1 = (d : ℤ) + x.lsb F := by omega
      rw [hde, zpow_add₀ (by norm_num), zpow_natCast]
      apply mul_lt_mul_of_pos_right _ hu
      have q1 : (y.sig F : ℚ) < x.sig F + 2 ^ d := by exact_mod_cast hd1
      have q2 : (x.sig F : ℚ) < y.sig F + 2 ^ d := by exact_mod_cast hd2
      rw [abs_lt]
      constructor <;> linarith
  · rw [abs_val, hlsb, heq, zpow_add₀ (by norm_num), zpow_natCast]
    apply mul_le_mul_of_nonneg_right _ hu.le
    exact_mod_cast hyL
  · rw [abs_val, hlsb, heq, show (L : ℤ) + x.lsb F + 1 = ((L + 1 : ℕ) : ℤ) + x.lsb F by push_cast; ring,
      zpow_add₀ (by norm_num), zpow_natCast]
    apply mul_lt_mul_of_pos_right _ hu
    exact_mod_cast hyH
  · intro hz
    by_cases hi : mode = .ieee
    · rw [h1 hi]
      exact ⟨le_refl _, fun h => absurd hi h⟩
    · have hm0 := h2 hi hz
      constructor
      · rw [abs_val, abs_val, hlsb]
        apply mul_le_mul_of_nonneg_right _ hu.le
        have : y.sig F ≤ x.sig F := by omega
        exact_mod_cast this
      · intro _
        by_cases hdz : d = 0
        · refine ⟨0, Or.inr ?_⟩
          have hse : y.sig F = x.sig F := by rw [hdz] at hd1 hd2; omega
          unfold Bits.sig at hse
          rw [hexp] at hse
          have : y.man = x.man := by split at hse <;> omega
          cases y; cases x
          simp_all
        · refine ⟨x.sig F / 2 ^ d, Or.inl ?_⟩
          have hde : e - t + 1 = (d : ℤ) + x.lsb F := by omega
          rw [abs_val, hlsb, hde, zpow_add₀ (by norm_num), zpow_natCast]
          have : y.sig F = x.sig F / 2 ^ d * 2 ^ d := by rw [mul_comm]; omega
          rw [this]
          push_cast
          ring
  · intro ho
    rw [abs_val, abs_val, hlsb]
    apply mul_le_mul_of_nonneg_right _ hu.le
    have : x.sig F ≤ y.sig F := by
      by_cases hi : mode = .ieee
      · rw [h1 hi]
      · by_cases hr : mode = .ob ∧ isRepr F x t.toNat = true
        · rw [h3 hr.1 hr.2]
        · have := (h4 hi hr).1 ho
          omega
    exact_mod_cast this

/-- Zeros, infinities and NaNs are returned as they are, whatever the configuration. -/
theorem C24_special (F : Fmt) (mode : Mode) (op : Operator) (t : Int) (mask rnd : Nat) (x : Bits)
    (h : ¬ x.Fin F ∨ x.isZero) : inexact F mode op t mask rnd x = .ok x := by
  have hc : mustNotBeNoised F mode t x = true := by
    unfold mustNotBeNoised classify
    unfold Bits.Fin Bits.isZero at h
    rcases h with h | ⟨h1, h2⟩
    · have h := not_not.1 h
      by_cases hm : x.man = 0 <;> simp [h, hm]
    · by_cases hE : (0 : Nat) = F.expInf <;> simp [h1, h2, hE]
  unfold inexact
  rw [if_pos hc]

/-- A subnormal keeps `t` bits counted from its first one bit. -/
example : inexact b32 .full .zero 2 (2 ^ 32 - 2 ^ 22) 0 ⟨true, 0, 0b1011⟩ = .ok ⟨true, 0, 0b1000⟩ ∧
    inexact b32 .full .one 2 (2 ^ 32 - 2 ^ 22) 0 ⟨true, 0, 0b1011⟩ = .ok ⟨true, 0, 0b1011⟩ ∧
    inexact b32 .full .one 3 (2 ^ 32 - 2 ^ 21) 0 ⟨false, 127, 0⟩ = .ok ⟨false, 127, 2 ^ 21 - 1⟩ ∧
    inexact b32 .full .rand 3 (2 ^ 32 - 2 ^ 21) 0xFFFFFFFF ⟨false, 127, 1⟩ =
      .ok ⟨false, 127, 2 ^ 21 - 2⟩ ∧ maskOf b32 2 = .ok (2 ^ 32 - 2 ^ 22) := by decide +kernel

end Verif.Bitmask
