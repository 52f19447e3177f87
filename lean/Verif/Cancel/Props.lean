import Verif.Cancel.Model
import Verif.Mca.QuadProps

/-!
# Property C26: the cancellation backend
-/

namespace Verif.Cancel
open Verif Verif.Fp Verif.Mca

variable {σ : Type} (g : Gen σ)

/-- The operands compared and the exact sum, for additions and subtractions. -/
def sum? (F : Fmt) : Op → Option (Bits × Bits × Bits)
  | .add a b => some (a, b, fadd F a b)
  | .sub a b => some (a, b, fadd F a (fneg b))
  | _ => none

/-- **C26**: multiplication, division and fused multiply-add are always exact, and so is
every addition or subtraction whose exponent drop is below the tolerance; no random
number is drawn. -/
theorem C26_untouched (F : Fmt) (hw : HW) (c : Ctx) (s : σ) (op : Op)
    (h : ∀ x y z, sum? F op = some (x, y, z) →
      max ((x.exp : Int) - F.bias) ((y.exp : Int) - F.bias) - ((z.exp : Int) - F.bias) < c.tolerance) :
    exec g F hw c s op = (ieee F hw op, s) := by
  cases op with
  | add a b =>
    have := h a b _ rfl
    have hl : ¬ c.tolerance ≤ lost F a b (fadd F a b) := not_le.2 this
    show (if _ then _ else _) = _
    rw [if_neg hl]
    rfl
  | sub a b =>
    have := h a b _ rfl
    have hl : ¬ c.tolerance ≤ lost F a b (fadd F a (fneg b)) := not_le.2 this
    show (if _ then _ else _) = _
    rw [if_neg hl]
    rfl
  | mul a b => rfl
  | div a b => rfl
  | fma a b d => rfl

/-- A number of the format with a given small significand. -/
theorem exists_bits (F : Fmt) (hew : 2 ≤ F.ew) (m k : ℤ) (hm : |m| < 2 ^ (F.mw + 1)) (hk : F.uexp ≤ k)
    (hfit : |(m : ℚ) * 2 ^ k| < 2 ^ ((F.bias : ℤ) + 1)) : ∃ y : Bits, y.WF F ∧ y.val F = m * 2 ^ k := by
  have hinf := expInf_ge F hew
  have hbias := expInf_bias F hew
  by_cases h0 : m = 0
  · exact ⟨zeroBits false, ⟨by simp [zeroBits], by simp [zeroBits]⟩, by
      rw [h0]; simp [Bits.val, Bits.sig, zeroBits]⟩
  obtain ⟨c, hc⟩ : ∃ c : ℕ, (c : ℤ) = k - F.uexp := ⟨_, Int.toNat_of_nonneg (by omega)⟩
  have hu : (0 : ℚ) < 2 ^ F.uexp := zpow_pos (by norm_num) _
  have hk2 : (2 : ℚ) ^ k = 2 ^ c * 2 ^ F.uexp := by
    rw [← zpow_natCast, ← zpow_add₀ (by norm_num), hc]; congr 1; ring
  have hmn : m.natAbs < 2 ^ (F.mw + 1) := by
    have : ((m.natAbs : ℕ) : ℤ) < ((2 ^ (F.mw + 1) : ℕ) : ℤ) := by
      rw [Int.natCast_natAbs]; push_cast; exact hm
    exact_mod_cast this
  have habs : ((m.natAbs : ℕ) : ℚ) = |(m : ℚ)| := by
    rw [Nat.cast_natAbs]; push_cast; rfl
  have hfit2 : m.natAbs * 2 ^ c < 2 ^ (F.mw + 1) * 2 ^ (F.expInf - 2) := by
    have hpos : (0 : ℚ) < 2 ^ c * 2 ^ F.uexp := mul_pos (by positivity) hu
    rw [abs_mul, hk2, abs_of_pos hpos, ← habs] at hfit
    have e : (2 : ℚ) ^ ((F.bias : ℤ) + 1) = 2 ^ (F.mw + 1 + (F.expInf - 2)) * 2 ^ F.uexp := by
      rw [← zpow_natCast, ← zpow_add₀ (by norm_num)]; congr 1; unfold Fmt.uexp; omega
    rw [e, ← mul_assoc] at hfit
    have := lt_of_mul_lt_mul_right hfit hu.le
    rw [pow_add] at this
    exact_mod_cast this
  obtain ⟨e1, e2, e3, e4⟩ := encode_repr F hew (decide (m < 0)) m.natAbs c (by omega) hmn hfit2
  refine ⟨_, e2, ?_⟩
  rw [val_eq_mag, e1, e4, hk2]
  push_cast
  rw [habs]
  by_cases hneg : m < 0
  · have : (m : ℚ) < 0 := by exact_mod_cast hneg
    simp only [hneg, decide_true, sgn, if_true]
    rw [abs_of_neg this]; ring
  · have : (0 : ℚ) ≤ m := by exact_mod_cast (not_lt.1 hneg)
    simp only [hneg, decide_false, sgn, Bool.false_eq_true, if_false]
    rw [abs_of_nonneg this]; ring

/-- The value of a number as an integer multiple of its last place. -/
theorem val_lsb (F : Fmt) (x : Bits) (hx : x.WF F) :
    ∃ m : ℤ, x.val F = m * 2 ^ x.lsb F ∧ |m| < 2 ^ (F.mw + 1) := by
  have h := sig_lt F x hx
  have h' : (x.sig F : ℤ) < 2 ^ (F.mw + 1) := by exact_mod_cast h
  refine ⟨if x.sign then -(x.sig F : ℤ) else x.sig F, ?_, ?_⟩
  · unfold Bits.val sgn; split_ifs <;> simp
  · split_ifs
    · rw [abs_neg, abs_of_nonneg (by positivity)]; exact h'
    · rw [abs_of_nonneg (by positivity)]; exact h'

/-- A point close to `z` on one side rounds between `z` and any representable bound. -/
theorem near_of_nearest (z q u B : ℚ) (hp : |u - q| ≤ |(z + B) - q|)
    (hm : |u - q| ≤ |(z - B) - q|) (hq : |q - z| ≤ B) : |u - z| ≤ B := by
  have hB : 0 ≤ B := le_trans (abs_nonneg _) hq
  rw [abs_le] at hq ⊢
  obtain ⟨q1, q2⟩ := hq
  constructor
  · by_contra hlt
    have hlt : u < z - B := by linarith
    rw [abs_of_nonpos (by linarith : u - q ≤ 0), abs_of_nonpos (by linarith : z - B - q ≤ 0)] at hm
    linarith
  · by_contra hlt
    have hlt : z + B < u := by linarith
    rw [abs_of_nonneg (by linarith : 0 ≤ u - q), abs_of_nonneg (by linarith : 0 ≤ z + B - q)] at hp
    linarith

theorem abs_val_lt (F : Fmt) (x : Bits) (hx : x.WF F) : |x.val F| < 2 ^ (x.lsb F + F.mw + 1) := by
  rw [Fp.abs_val]
  have hs := sig_lt F x hx
  have hu : (0 : ℚ) < 2 ^ x.lsb F := zpow_pos (by norm_num) _
  have e : (2 : ℚ) ^ (x.lsb F + F.mw + 1) = 2 ^ (F.mw + 1) * 2 ^ x.lsb F := by
    rw [← zpow_natCast, ← zpow_add₀ (by norm_num)]; congr 1; push_cast; ring
  rw [e]
  refine mul_lt_mul_of_pos_right ?_ hu
  exact_mod_cast hs

/-- Adding a noise to a `double` moves it by at most twice the noise. -/
theorem add_noise_double (z n : Bits) (hz : z.WF b64) (hzf : z.Fin b64) (hnf : n.Fin b64) (N : ℚ)
    (hN : |n.val b64| ≤ N) (E : ℤ) (hE : |z.val b64 + n.val b64| < 2 ^ E) (hEb : E ≤ 1023) :
    (fadd b64 z n).Fin b64 ∧ |(fadd b64 z n).val b64 - z.val b64| ≤ 2 * N := by
  obtain ⟨-, r2, -, r4⟩ := fadd_round b64 (by decide) z n hzf hnf E hE hEb
  refine ⟨r2, ?_⟩
  have h := r4 z hz
  have e : z.val b64 - (z.val b64 + n.val b64) = -n.val b64 := by ring
  rw [e, abs_neg] at h
  have e2 : (fadd b64 z n).val b64 - z.val b64 =
      ((fadd b64 z n).val b64 - (z.val b64 + n.val b64)) + n.val b64 := by ring
  rw [e2]
  have := abs_add_le ((fadd b64 z n).val b64 - (z.val b64 + n.val b64)) (n.val b64)
  linarith

/-- What the theorems below assume of an operation with finite operands `x`, `y` and
rounded sum `z`: `k ≥ 1` bits are lost, the draw is not one half. -/
structure Lossy (F : Fmt) (x y z : Bits) (k : Int) (w : BitVec 64) : Prop where
  wfx : x.WF F
  wfy : y.WF F
  finx : x.Fin F
  finy : y.Fin F
  wf : z.WF F
  lost : max ((x.exp : Int) - F.bias) ((y.exp : Int) - F.bias) - ((z.exp : Int) - F.bias) = k
  pos : 1 ≤ k
  draw : drawn w ≠ 2 ^ 51

theorem Lossy.top {F : Fmt} {x y z : Bits} {k : Int} {w : BitVec 64} (h : Lossy F x y z k w) (hew : 2 ≤ F.ew) :
    (z.exp : Int) - F.bias + 1 ≤ F.bias ∧ -2 * (F.bias : Int) ≤ (z.exp : Int) - F.bias - (k - 1) + F.bias ∧
    (z.exp : Int) - F.bias - (k - 1) = 2 * (z.exp : Int) + 1 - max x.exp y.exp - F.bias := by
  obtain ⟨h1, h2, h3, h4, h5, h6, h7, h8⟩ := h
  have hb := expInf_bias F hew
  have hx : x.exp < F.expInf := by
    have := h1.1
    unfold Bits.Fin at h3
    unfold Fmt.expInf at *
    omega
  have hy : y.exp < F.expInf := by
    have := h2.1
    unfold Bits.Fin at h4
    unfold Fmt.expInf at *
    omega
  refine ⟨?_, ?_, ?_⟩ <;> omega

theorem lsb_exp (F : Fmt) (x : Bits) :
    (x.exp : Int) - F.bias ≤ x.lsb F + F.mw ∧
    x.lsb F + F.mw ≤ max ((x.exp : Int) - F.bias) (1 - F.bias) := by
  unfold Bits.lsb; omega

/-- The rounded sum and the noise stay below three halves of `2^bias`. -/
theorem sum_small (F : Fmt) (hew : 2 ≤ F.ew) (z : Bits) (hz : z.WF F) (htop : (z.exp : Int) - F.bias + 1 ≤ F.bias)
    (v : ℚ) (hv : |v| ≤ 2 ^ ((F.bias : Int) - 1)) :
    |z.val F + v| < 2 ^ ((F.bias : Int) + 1) ∧ |z.val F + v| < 3 / 2 * 2 ^ (F.bias : Int) := by
  have hb1 : 1 ≤ F.bias := by
    have := expInf_ge F hew
    have := expInf_bias F hew
    omega
  have h1 := abs_val_lt F z hz
  obtain ⟨l1, l2⟩ := lsb_exp F z
  have h2 : |z.val F| < 2 ^ (F.bias : Int) :=
    lt_of_lt_of_le h1 (zpow_le_zpow_right₀ (by norm_num) (by omega))
  have h3 := abs_add_le (z.val F) v
  have e1 : (2 : ℚ) ^ ((F.bias : Int) - 1) = 2 ^ (F.bias : Int) / 2 := by
    rw [zpow_sub_one₀ (by norm_num)]; ring
  have e2 : (2 : ℚ) ^ ((F.bias : Int) + 1) = 2 ^ (F.bias : Int) * 2 := by
    rw [zpow_add_one₀ (by norm_num)]
  have hp : (0 : ℚ) < 2 ^ (F.bias : Int) := zpow_pos (by norm_num) _
  rw [e1] at hv
  rw [e2]
  constructor <;> linarith

theorem three_halves (F : Fmt) (hmw : 1 ≤ F.mw) : 3 / 2 * (2 : ℚ) ^ (F.bias : Int) ≤ maxVal F := by
  unfold maxVal
  have e : (2 : ℚ) ^ (F.bias : ℤ) = 2 ^ F.mw * 2 ^ ((F.bias : ℤ) - F.mw) := by
    rw [← zpow_natCast, ← zpow_add₀ (by norm_num)]; congr 1; ring
  rw [e, ← mul_assoc]
  apply mul_le_mul_of_nonneg_right _ (zpow_pos (by norm_num) _).le
  have : (2 : ℚ) ^ 1 ≤ 2 ^ F.mw := pow_le_pow_right₀ (by norm_num) hmw
  rw [pow_succ]
  linarith

theorem cancell_eq (F : Fmt) (c : Ctx) (s : σ) (x y z : Bits) (k : Int)
    (hl : max ((x.exp : Int) - F.bias) ((y.exp : Int) - F.bias) - ((z.exp : Int) - F.bias) = k)
    (ht : c.tolerance ≤ k) :
    (cancell g F c s x y z).1 = addNoise F z (quadNoise b64 ((z.exp : Int) - F.bias - (k - 1)) (g.next s).1) := by
  have hl' : Cancel.lost F x y z = k := hl
  unfold cancell
  simp only
  rw [if_pos (by rw [hl']; exact ht), hl']
  rfl

theorem double_aux (F : Fmt) (hF : F = b64) (c : Ctx) (s : σ) (x y z : Bits) (k : Int)
    (h : Lossy F x y z k (g.next s).1) (ht : c.tolerance ≤ k)
    (hrange : 53 - (F.bias : Int) ≤ (z.exp : Int) - F.bias - (k - 1)) :
    (cancell g F c s x y z).1.Fin F ∧
    |(cancell g F c s x y z).1.val F - z.val F| ≤ 2 ^ ((z.exp : Int) - F.bias - (k - 1)) := by
  have hew : 2 ≤ F.ew := by rw [hF]; decide
  have hmw : 1 ≤ F.mw := by rw [hF]; decide
  obtain ⟨htop, -, -⟩ := h.top hew
  rw [cancell_eq g F c s x y z k h.lost ht]
  have hk := h.pos
  obtain ⟨n1, n2, n3, n4⟩ := C21_noise_partial F (Or.inl hF) ((z.exp : Int) - F.bias - (k - 1))
    (g.next s).1 h.draw hrange (by omega)
  have ha : ∀ n, addNoise F z n = fadd F z n := by intro n; unfold addNoise; rw [if_pos hF, hF]
  rw [← hF, ha]
  generalize quadNoise F ((z.exp : Int) - F.bias - (k - 1)) (g.next s).1 = n at *
  have hzf : z.Fin F := by
    have := expInf_bias F hew
    unfold Bits.Fin; omega
  obtain ⟨s1, s2⟩ := sum_small F hew z h.wf htop (n.val F)
    (le_trans n4 (zpow_le_zpow_right₀ (by norm_num) (by omega)))
  obtain ⟨-, r2, -, r4⟩ := fadd_round' F hew z n hzf n2 _ s1
    (le_trans s2.le (three_halves F hmw))
  refine ⟨r2, ?_⟩
  have hh := r4 z h.wf
  have e : z.val F - (z.val F + n.val F) = -n.val F := by ring
  rw [e, abs_neg] at hh
  have e2 : (fadd F z n).val F - z.val F =
      ((fadd F z n).val F - (z.val F + n.val F)) + n.val F := by ring
  have e3 : (2 : ℚ) ^ ((z.exp : Int) - F.bias - (k - 1)) = 2 ^ ((z.exp : Int) - F.bias - (k - 1) - 1) * 2 := by
    rw [← zpow_add_one₀ (by norm_num)]; congr 1; ring
  rw [e2, e3]
  have := abs_add_le ((fadd F z n).val F - (z.val F + n.val F)) (n.val F)
  linarith

theorem exec_sum (F : Fmt) (hw : HW) (c : Ctx) (s : σ) (op : Op) (x y z : Bits)
    (h : sum? F op = some (x, y, z)) : exec g F hw c s op = cancell g F c s x y z := by
  cases op <;> simp only [sum?, Option.some.injEq, Prod.mk.injEq, reduceCtorEq] at h <;>
    (obtain ⟨rfl, rfl, rfl⟩ := h; rfl)

/-- **C26** for `double`, the part that holds: when `k` bits are lost and the scaled
exponent does not leave the range of the format, the result moves by at most
`2^(e_z-(k-1))`.  Missing: smaller scaled exponents (the bound then fails, see
`C26_complete_cancellation`) and the draw one half (see `C26_half_wrong`). -/
theorem C26_double_partial (hw : HW) (c : Ctx) (s : σ) (op : Op) (x y z : Bits) (k : Int)
    (hop : sum? b64 op = some (x, y, z)) (h : Lossy b64 x y z k (g.next s).1) (ht : c.tolerance ≤ k)
    (hrange : 53 - (b64.bias : Int) ≤ (z.exp : Int) - b64.bias - (k - 1)) :
    (exec g b64 hw c s op).1.Fin b64 ∧
    |(exec g b64 hw c s op).1.val b64 - z.val b64| ≤ 2 ^ ((z.exp : Int) - b64.bias - (k - 1)) := by
  rw [exec_sum g b64 hw c s op x y z hop]
  exact double_aux g b64 rfl c s x y z k h ht hrange

theorem widen32 (z : Bits) (hz : z.WF b32) (hf : z.Fin b32) :
    (fconv b32 b64 z).WF b64 ∧ (fconv b32 b64 z).Fin b64 ∧ (fconv b32 b64 z).val b64 = z.val b32 := by
  by_cases h0 : z.isZero
  · obtain ⟨s, e, m⟩ := z
    obtain ⟨rfl, rfl⟩ : e = 0 ∧ m = 0 := h0
    have := fconv_zero b32 b64 (by decide) (by decide) s
    unfold zeroBits at this
    rw [this]
    refine ⟨⟨by simp, by simp⟩, by unfold Bits.Fin; simp only; decide, ?_⟩
    simp [Bits.val, Bits.sig]
  · obtain ⟨h1, -, h3, -, h5⟩ := widened_normal .f32 z hz hf h0
    exact ⟨h1, by unfold Bits.Fin; change (fconv b32 b64 z).exp + 1 < b64.expInf at h3; omega, h5⟩

/-- Two numbers of a format closer than half the last place of one of them are equal. -/
theorem eq_of_close (F : Fmt) (z r : Bits) (hz : z.WF F) (hr : r.WF F)
    (hd : |r.val F - z.val F| < 2 ^ (z.lsb F - 1)) : r.val F = z.val F := by
  obtain ⟨m, hm, -⟩ := val_lsb F z hz
  obtain ⟨m', hm', hb'⟩ := val_lsb F r hr
  by_cases hl : z.lsb F - 1 ≤ r.lsb F
  · -- both are multiples of half the last place
    obtain ⟨a, ha⟩ : ∃ a : ℕ, (a : ℤ) = r.lsb F - (z.lsb F - 1) := ⟨_, Int.toNat_of_nonneg (by omega)⟩
    have hu : (0 : ℚ) < 2 ^ (z.lsb F - 1) := zpow_pos (by norm_num) _
    have e1 : r.val F = ((m' * 2 ^ a : ℤ) : ℚ) * 2 ^ (z.lsb F - 1) := by
      rw [hm']; push_cast
      rw [mul_assoc, ← zpow_natCast, ← zpow_add₀ (by norm_num)]; congr 2; omega
    have e2 : z.val F = ((m * 2 : ℤ) : ℚ) * 2 ^ (z.lsb F - 1) := by
      rw [hm]; push_cast
      rw [mul_assoc, show (2 : ℚ) * 2 ^ (z.lsb F - 1) = 2 ^ z.lsb F by
        rw [← zpow_one_add₀ (by norm_num)]; congr 1; ring]
    rw [e1, e2] at hd ⊢
    rw [← sub_mul, abs_mul, abs_of_pos hu] at hd
    have h1 : |((m' * 2 ^ a : ℤ) : ℚ) - ((m * 2 : ℤ) : ℚ)| < 1 := by
      by_contra hge
      have := mul_le_mul_of_nonneg_right (not_lt.1 hge) hu.le
      linarith
    have h2 : |m' * 2 ^ a - m * 2| < 1 := by exact_mod_cast h1
    have h3 : m' * 2 ^ a - m * 2 = 0 := Int.abs_lt_one_iff.1 h2
    rw [show m' * 2 ^ a = m * 2 by omega]
  · -- `z` is normal and at least four times larger
    exfalso
    have hn : 1 ≤ z.exp ∧ 1 < z.exp := by
      unfold Bits.lsb at hl; omega
    have h1 : (2 : ℚ) ^ (z.lsb F + F.mw) ≤ |z.val F| := by
      rw [Fp.abs_val]
      have hs : 2 ^ F.mw ≤ z.sig F := by unfold Bits.sig; rw [if_neg (by omega)]; omega
      have hu : (0 : ℚ) < 2 ^ z.lsb F := zpow_pos (by norm_num) _
      rw [add_comm, zpow_add₀ (by norm_num), zpow_natCast]
      apply mul_le_mul_of_nonneg_right _ hu.le
      exact_mod_cast hs
    have h2 := abs_val_lt F r hr
    have h3 : (2 : ℚ) ^ (r.lsb F + F.mw + 1) ≤ 2 ^ (z.lsb F + F.mw - 1) :=
      zpow_le_zpow_right₀ (by norm_num) (by omega)
    have e : (2 : ℚ) ^ (z.lsb F + F.mw) = 2 ^ (z.lsb F + F.mw - 1) * 2 := by
      rw [← zpow_add_one₀ (by norm_num)]; congr 1; ring
    have h4 : (2 : ℚ) ^ (z.lsb F - 1) ≤ 2 ^ (z.lsb F + F.mw - 1) :=
      zpow_le_zpow_right₀ (by norm_num) (by omega)
    have h5 : |z.val F| - |r.val F| ≤ |r.val F - z.val F| := by
      rw [abs_sub_comm]; exact abs_sub_abs_le_abs_sub _ _
    linarith

theorem float_aux (c : Ctx) (s : σ) (x y z : Bits) (k : Int)
    (h : Lossy b32 x y z k (g.next s).1) (ht : c.tolerance ≤ k) :
    (cancell g b32 c s x y z).1.Fin b32 ∧
    |(cancell g b32 c s x y z).1.val b32 - z.val b32| ≤ 2 ^ ((z.exp : Int) - b32.bias - (k - 1)) := by
  obtain ⟨htop, hlo, -⟩ := h.top (by decide)
  have hk := h.pos
  have hb32 : b32.bias = 127 := by decide
  have hb64 : b64.bias = 1023 := by decide
  rw [cancell_eq g b32 c s x y z k h.lost ht]
  obtain ⟨n1, n2, n3, n4⟩ := C21_noise_partial b64 (Or.inl rfl) ((z.exp : Int) - b32.bias - (k - 1))
    (g.next s).1 h.draw (by omega)
    (by omega)
  have ha : ∀ n, addNoise b32 z n = fconv b64 b32 (fadd b64 (fconv b32 b64 z) n) := by
    intro n; unfold addNoise; rw [if_neg (by decide)]
  rw [ha]
  generalize quadNoise b64 ((z.exp : Int) - b32.bias - (k - 1)) (g.next s).1 = n at *
  obtain ⟨e, he⟩ : ∃ e : Int, e = (z.exp : Int) - b32.bias - (k - 1) := ⟨_, rfl⟩
  rw [← he] at n4 ⊢
  have hzf : z.Fin b32 := by
    have := expInf_bias b32 (by decide)
    unfold Bits.Fin; omega
  obtain ⟨w1, w2, w3⟩ := widen32 z h.wf hzf
  obtain ⟨s1, s2⟩ := sum_small b32 (by decide) z h.wf htop (n.val b64)
    (le_trans n4 (zpow_le_zpow_right₀ (by norm_num) (by omega)))
  rw [← w3] at s1
  obtain ⟨r1, r2, -, r4⟩ := fadd_round b64 (by decide) (fconv b32 b64 z) n w2 n2 _ s1 (by decide)
  rw [w3] at r4
  generalize fadd b64 (fconv b32 b64 z) n = u at *
  have hB : (0 : ℚ) < 2 ^ (e - 1) := zpow_pos (by norm_num) _
  have e1 : (2 : ℚ) ^ e = 2 ^ (e - 1) * 2 := by rw [← zpow_add_one₀ (by norm_num)]; congr 1; ring
  -- the double sum moves by at most twice the noise
  have hu2 : |u.val b64 - z.val b32| ≤ 2 * 2 ^ (e - 1) := by
    have hh := r4 (fconv b32 b64 z) w1
    rw [w3] at hh
    have ee : z.val b32 - (z.val b32 + n.val b64) = -n.val b64 := by ring
    rw [ee, abs_neg] at hh
    have e2 : u.val b64 - z.val b32 = (u.val b64 - (z.val b32 + n.val b64)) + n.val b64 := by ring
    rw [e2]
    have := abs_add_le (u.val b64 - (z.val b32 + n.val b64)) (n.val b64)
    linarith
  have humax : |u.val b64| ≤ maxVal b32 := by
    refine le_trans ?_ (three_halves b32 (by decide))
    have h2e : (2 : ℚ) * 2 ^ (e - 1) ≤ 2 ^ ((b32.bias : Int) - 1) := by
      rw [mul_comm, ← e1]
      exact zpow_le_zpow_right₀ (by norm_num) (by omega)
    obtain ⟨-, t2⟩ := sum_small b32 (by decide) z h.wf htop (u.val b64 - z.val b32) (le_trans hu2 h2e)
    rw [show z.val b32 + (u.val b64 - z.val b32) = u.val b64 by ring] at t2
    exact t2.le
  obtain ⟨f1, f2, -, f4⟩ := fconv_round b64 b32 (by decide) u r2 humax
  refine ⟨f2, ?_⟩
  have hr2 : |(fconv b64 b32 u).val b32 - z.val b32| ≤ 2 * |u.val b64 - z.val b32| := by
    have hh := f4 z h.wf
    rw [abs_sub_comm (z.val b32)] at hh
    have e2 : (fconv b64 b32 u).val b32 - z.val b32 =
      ((fconv b64 b32 u).val b32 - u.val b64) + (u.val b64 - z.val b32) := by ring
    rw [e2]
    have := abs_add_le ((fconv b64 b32 u).val b32 - u.val b64) (u.val b64 - z.val b32)
    linarith
  obtain ⟨l1, l2⟩ := lsb_exp b32 z
  have hm32 : b32.mw = 23 := by decide
  have hl0 : b32.uexp ≤ z.lsb b32 := by unfold Bits.lsb Fmt.uexp; omega
  have hu32 : b32.uexp = -149 := by decide
  by_cases hsmall : e + 1 < z.lsb b32 - 1
  · -- the noise is too small to move the float
    have hclose : |(fconv b64 b32 u).val b32 - z.val b32| < 2 ^ (z.lsb b32 - 1) := by
      refine lt_of_le_of_lt hr2 (lt_of_le_of_lt (mul_le_mul_of_nonneg_left hu2 (by norm_num)) ?_)
      have : (2 : ℚ) * (2 * 2 ^ (e - 1)) = 2 ^ (e + 1) := by
        rw [zpow_add_one₀ (by norm_num), e1]; ring
      rw [this]
      exact zpow_lt_zpow_right₀ (by norm_num) hsmall
    rw [eq_of_close b32 z _ h.wf f1 hclose, sub_self, abs_zero]
    exact (zpow_pos (by norm_num) _).le
  · -- the bounds of the noise are representable in double
    have hud : |u.val b64 - z.val b32| ≤ 2 ^ (e - 1) := by
      obtain ⟨m, hm, hmb⟩ := val_lsb b32 z h.wf
      obtain ⟨q, hq⟩ : ∃ q : Int, q = min (z.lsb b32) (e - 1) := ⟨_, rfl⟩
      obtain ⟨a, hA⟩ : ∃ a : ℕ, (a : ℤ) = z.lsb b32 - q := ⟨_, Int.toNat_of_nonneg (by omega)⟩
      obtain ⟨b, hBb⟩ : ∃ b : ℕ, (b : ℤ) = e - 1 - q := ⟨_, Int.toNat_of_nonneg (by omega)⟩
      have ez : z.val b32 = ((m * 2 ^ a : ℤ) : ℚ) * 2 ^ q := by
        rw [hm]; push_cast
        rw [mul_assoc, ← zpow_natCast, ← zpow_add₀ (by norm_num)]; congr 2; omega
      have eB : (2 : ℚ) ^ (e - 1) = ((2 ^ b : ℤ) : ℚ) * 2 ^ q := by
        push_cast
        rw [← zpow_natCast, ← zpow_add₀ (by norm_num)]; congr 1; omega
      have hqb : -1022 ≤ q ∧ a ≤ 3 ∧ b ≤ 30 := by
        omega
      have hsig : |m * 2 ^ a| ≤ 2 ^ 30 := by
        rw [abs_mul, abs_of_pos (by positivity : (0 : ℤ) < 2 ^ a)]
        have h1 : (2 : ℤ) ^ a ≤ 2 ^ 3 := pow_le_pow_right₀ (by norm_num) hqb.2.1
        rw [hm32] at hmb
        calc |m| * 2 ^ a ≤ 2 ^ (23 + 1) * 2 ^ 3 :=
              mul_le_mul hmb.le h1 (by positivity) (by positivity)
          _ ≤ 2 ^ 30 := by norm_num
      have hpb : (2 : ℤ) ^ b ≤ 2 ^ 30 := pow_le_pow_right₀ (by norm_num) hqb.2.2
      have hpb0 : (0 : ℤ) < 2 ^ b := by positivity
      have hqhi : q ≤ 128 := by
        omega
      have key : ∀ M : ℤ, |M| ≤ 2 ^ 32 → ∃ yb : Bits, yb.WF b64 ∧ yb.val b64 = M * 2 ^ q := by
        intro M hM
        apply exists_bits b64 (by decide) M q
        · refine lt_of_le_of_lt hM ?_
          decide
        · have : b64.uexp = -1074 := by decide
          omega
        · rw [abs_mul, abs_of_pos (zpow_pos (by norm_num) _ : (0 : ℚ) < 2 ^ q), hb64]
          have hM' : |(M : ℚ)| ≤ 2 ^ (32 : ℤ) := by exact_mod_cast hM
          calc |(M : ℚ)| * 2 ^ q ≤ 2 ^ (32 : ℤ) * 2 ^ q :=
                mul_le_mul_of_nonneg_right hM' (zpow_pos (by norm_num) _).le
            _ = 2 ^ (32 + q) := by rw [zpow_add₀ (by norm_num)]
            _ < _ := zpow_lt_zpow_right₀ (by norm_num) (by push_cast; omega)
      obtain ⟨yp, yp1, yp2⟩ := key (m * 2 ^ a + 2 ^ b) (by
        have := abs_add_le (m * 2 ^ a) ((2 : ℤ) ^ b)
        rw [abs_of_pos hpb0] at this
        linarith)
      obtain ⟨ym, ym1, ym2⟩ := key (m * 2 ^ a - 2 ^ b) (by
        have := abs_sub (m * 2 ^ a) ((2 : ℤ) ^ b)
        rw [abs_of_pos hpb0] at this
        linarith)
      have hp := r4 yp yp1
      have hmm := r4 ym ym1
      rw [yp2] at hp
      rw [ym2] at hmm
      apply near_of_nearest (z.val b32) (z.val b32 + n.val b64) (u.val b64) (2 ^ (e - 1))
      · refine le_trans hp (le_of_eq ?_)
        congr 2
        rw [ez, eB]; push_cast; ring
      · refine le_trans hmm (le_of_eq ?_)
        congr 2
        rw [ez, eB]; push_cast; ring
      · rw [add_sub_cancel_left]; exact n4
    rw [e1]
    linarith

/-- **C26** for `float`: the result moves by at most `2^(e_z-(k-1))`, complete
cancellation included.  Missing: the draw one half (see `C26_half_wrong`). -/
theorem C26_float_partial (hw : HW) (c : Ctx) (s : σ) (op : Op) (x y z : Bits) (k : Int)
    (hop : sum? b32 op = some (x, y, z)) (h : Lossy b32 x y z k (g.next s).1) (ht : c.tolerance ≤ k) :
    (exec g b32 hw c s op).1.Fin b32 ∧
    |(exec g b32 hw c s op).1.val b32 - z.val b32| ≤ 2 ^ ((z.exp : Int) - b32.bias - (k - 1)) := by
  rw [exec_sum g b32 hw c s op x y z hop]
  exact float_aux g c s x y z k h ht

/-- The assumptions hold for `1.25f - 1.0f`, which loses two bits, with the draw 0: the
noise is `-2^-4`. -/
example :
    sum? b32 (.sub ⟨false, 127, 2 ^ 21⟩ ⟨false, 127, 0⟩) =
      some (⟨false, 127, 2 ^ 21⟩, ⟨false, 127, 0⟩, ⟨false, 125, 0⟩) ∧
    exec (σ := Unit) ⟨fun _ => (0#64, ())⟩ b32 ⟨fun a _ => a, fun a _ => a, fun a _ _ => a⟩ init ()
      (.sub ⟨false, 127, 2 ^ 21⟩ ⟨false, 127, 0⟩) = (⟨false, 124, 2 ^ 22⟩, ()) := by
  decide +kernel

example (w : BitVec 64) (h : drawn w ≠ 2 ^ 51) :
    Lossy b32 ⟨false, 127, 2 ^ 21⟩ ⟨false, 127, 0⟩ ⟨false, 125, 0⟩ 2 w :=
  ⟨by decide, by decide, by decide, by decide, by decide, by decide, by decide, h⟩

/-- **C26 fails** for `double` when the operands cancel completely.  The exponent of the
zero result is taken to be -1023, the scaled exponent -2045-e leaves the format, and
the exponent field wraps around: `x - x` returns `(draw - 1/2) * 2^(3-e)` although all
the cancelled bits weigh at most `2^e`. -/
theorem C26_complete_cancellation (c : Ctx) (s : σ) (hw : HW) (x : Bits) (e : Int)
    (he : e = (x.exp : Int) - b64.bias) (h1 : -1021 ≤ e) (h2 : e ≤ 973) (ht : c.tolerance ≤ e + 1023)
    (hdr : drawn (g.next s).1 ≠ 2 ^ 51) :
    (exec g b64 hw c s (.sub x x)).1.Fin b64 ∧
    (exec g b64 hw c s (.sub x x)).1.val b64 = (rand01 (g.next s).1 - 1 / 2) * 2 ^ (3 - e) := by
  have hb : b64.bias = 1023 := by decide
  have hi : b64.expInf = 2047 := by decide
  have hxf : x.Fin b64 := by unfold Bits.Fin; rw [hi]; rw [hb] at he; push_cast at he; omega
  have hz : fadd b64 x (fneg x) = zeroBits false := by
    unfold fadd
    have g1 : ¬ (x.isNaN b64 ∨ (fneg x).isNaN b64) := by
      rintro (h | h)
      · exact hxf h.1
      · exact hxf h.1
    rw [if_neg g1, if_neg (fun h => hxf h.1), if_neg (fun h => hxf h.1)]
    have : x.imag b64 + (fneg x).imag b64 = 0 := by
      unfold Bits.imag fneg Bits.mag Bits.sig
      cases x.sign <;> simp
    simp only [this, if_true]
    unfold fneg; cases x.sign <;> rfl
  have hc : (exec g b64 hw c s (.sub x x)).1 = fadd b64 (zeroBits false) (quadNoise b64 (-2045 - e) (g.next s).1) := by
    simp only [exec, hz]
    rw [cancell_eq g b64 c s x x (zeroBits false) (e + 1023)]
    · unfold addNoise
      rw [if_pos rfl]
      congr 2
      rw [hb]; simp only [zeroBits]; push_cast; ring
    · simp only [zeroBits]; push_cast; omega
    · exact ht
  have hq : quadNoise b64 (-2045 - e) (g.next s).1 = quadNoise b64 (3 - e) (g.next s).1 := by
    rw [quadNoise_eq, quadNoise_eq]
    have : b64.ew = 11 := by decide
    have e : (((centred b64 (g.next s).1).exp : Int) + (-2045 - e)) % 2 ^ b64.ew =
        (((centred b64 (g.next s).1).exp : Int) + (3 - e)) % 2 ^ b64.ew := by
      rw [this]
      norm_num
      omega
    rw [e]
  rw [hc, hq]
  obtain ⟨n1, n2, n3, n4⟩ := C21_noise_partial b64 (Or.inl rfl) (3 - e) (g.next s).1 hdr
    (by omega) (by omega)
  have z0 : (zeroBits false).val b64 = 0 := by simp [Bits.val, Bits.sig, zeroBits]
  have zf : (zeroBits false).Fin b64 := by unfold Bits.Fin zeroBits; simp only; decide
  generalize quadNoise b64 (3 - e) (g.next s).1 = n at *
  have hle : |n.val b64| ≤ 2 ^ (b64.bias : Int) :=
    le_trans n4 (zpow_le_zpow_right₀ (by norm_num) (by omega))
  obtain ⟨-, r2, -, r4⟩ := fadd_round' b64 (by decide) (zeroBits false) n zf n2 ((b64.bias : Int) + 1)
    (by
      rw [z0, zero_add]
      exact lt_of_le_of_lt hle (zpow_lt_zpow_right₀ (by norm_num) (by omega)))
    (by rw [z0, zero_add]; exact le_trans hle (le_maxVal b64))
  refine ⟨r2, ?_⟩
  have := r4 n n1
  rw [z0, zero_add, sub_self, abs_zero] at this
  rw [← n3]
  exact sub_eq_zero.1 (abs_eq_zero.1 (le_antisymm this (abs_nonneg _)))

/-- `1.0 - 1.0` with the draw 0 returns -4. -/
example :
    exec (σ := Unit) ⟨fun _ => (0#64, ())⟩ b64 ⟨fun a _ => a, fun a _ => a, fun a _ _ => a⟩ init ()
      (.sub ⟨false, 1023, 0⟩ ⟨false, 1023, 0⟩) = (⟨true, 1025, 0⟩, ()) := by
  decide +kernel

/-- **C26 fails** when the draw is exactly one half: the noise added is
`2^((e mod 2048) - 1023)` for the scaled exponent `e`, which is `2^(e+1025)` for every
negative `e ≥ -2047`. -/
theorem C26_half_wrong (F : Fmt) (hw : HW) (c : Ctx) (s : σ) (op : Op) (x y z : Bits) (k : Int)
    (hop : sum? F op = some (x, y, z))
    (hl : max ((x.exp : Int) - F.bias) ((y.exp : Int) - F.bias) - ((z.exp : Int) - F.bias) = k)
    (ht : c.tolerance ≤ k) (hdr : drawn (g.next s).1 = 2 ^ 51)
    (h1 : -2047 ≤ (z.exp : Int) - F.bias - (k - 1)) (h2 : (z.exp : Int) - F.bias - (k - 1) ≤ -1) :
    ∃ n : Bits, n.val b64 = 2 ^ ((z.exp : Int) - F.bias - (k - 1) + 1025) ∧
      (exec g F hw c s op).1 = addNoise F z n := by
  refine ⟨_, ?_, by rw [exec_sum g F hw c s op x y z hop]; exact cancell_eq g F c s x y z k hl ht⟩
  generalize (z.exp : Int) - F.bias - (k - 1) = e at *
  obtain ⟨E, hE⟩ : ∃ E : ℕ, (E : Int) = e + 2048 := ⟨_, Int.toNat_of_nonneg (by omega)⟩
  have hew : b64.ew = 11 := by decide
  have hb : b64.bias = 1023 := by decide
  rw [C21_half_wrong b64 (Or.inl rfl) e _ hdr E (by rw [hew]; norm_num; omega) (by omega)]
  congr 1
  omega

/-- `1.25f - 1.0f` with the draw one half returns infinity. -/
example :
    exec (σ := Unit) ⟨fun _ => (0x8000000000000000#64, ())⟩ b32 ⟨fun a _ => a, fun a _ => a, fun a _ _ => a⟩
      init () (.sub ⟨false, 127, 2 ^ 21⟩ ⟨false, 127, 0⟩) = (⟨false, 255, 0⟩, ()) := by
  decide +kernel

end Verif.Cancel
