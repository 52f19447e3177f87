import Verif.Float.Div

/-!
# Finite results of additions and subtractions

Consequences of correct rounding that need no bound on the operands, only that the result is
finite.
-/

namespace Verif.Fp

/-- The relative error of a finite `encode F s n 0` is at most half a unit in the last place. -/
theorem encode_rel (F : Fmt) (s : Bool) (n : Nat) (hf : (encode F s n 0).exp < F.expInf) :
    |(n : ℤ) - (encode F s n 0).mag F| * 2 ^ (F.mw + 1) ≤ n := by
  obtain ⟨k, hk⟩ : ∃ k, k = Nat.log2 n - (0 + F.mw) := ⟨_, rfl⟩
  obtain ⟨r, hr⟩ : ∃ r, r = rneShift n (0 + k) := ⟨_, rfl⟩
  have hQ : encode F s n 0 = if k * 2 ^ F.mw + r < F.expInf * 2 ^ F.mw then
      ofPat F s (k * 2 ^ F.mw + r) else infBits F s := by
    unfold encode
    simp only [← hk, ← hr]
  have hp : k * 2 ^ F.mw + r < F.expInf * 2 ^ F.mw := by
    by_contra hc
    rw [hQ, if_neg hc] at hf
    exact absurd hf (lt_irrefl _)
  rw [if_pos hp] at hQ
  rw [zero_add] at hr hk
  have r2 : r ≤ 2 ^ (F.mw + 1) := by
    rw [hr]
    apply rneShift_le
    calc n < 2 ^ (Nat.log2 n + 1) := Nat.lt_log2_self
      _ ≤ _ := Nat.pow_le_pow_right (by norm_num) (by omega)
  have big : 0 < k → 2 ^ (F.mw + k) ≤ n := by
    intro h0
    have hn0 : n ≠ 0 := by rintro rfl; simp [Nat.log2] at hk; omega
    calc 2 ^ (F.mw + k) ≤ 2 ^ Nat.log2 n := Nat.pow_le_pow_right (by norm_num) (by omega)
      _ ≤ n := Nat.log2_self_le hn0
  have r1 : k = 0 ∨ 2 ^ F.mw ≤ r := by
    rcases Nat.eq_zero_or_pos k with h0 | h0
    · exact Or.inl h0
    · right
      rw [hr]
      refine le_trans ?_ (rneShift_bounds n k).1
      rw [Nat.le_div_iff_mul_le (by positivity), ← pow_add]
      exact big h0
  rw [hQ, mag_ofPat_enc F s k r r1 r2]
  rcases Nat.eq_zero_or_pos k with h0 | h0
  · rw [h0, rneShift_zero] at hr
    rw [h0, hr]
    simp
  · have hd := rneShift_dist n k
    rw [← hr] at hd
    have hb : ((2 : ℤ) ^ F.mw * 2 ^ k) ≤ n := by
      have := big h0
      rw [pow_add] at this
      exact_mod_cast this
    push_cast
    generalize |(n : ℤ) - r * 2 ^ k| = d at hd
    have hm : (0 : ℤ) ≤ 2 ^ F.mw := by positivity
    calc d * 2 ^ (F.mw + 1) = 2 ^ F.mw * (2 * d) := by rw [pow_succ]; ring
      _ ≤ 2 ^ F.mw * 2 ^ k := mul_le_mul_of_nonneg_left hd hm
      _ ≤ n := hb

theorem natAbs_flip (s : ℤ) (z : ℤ) :
    |(s.natAbs : ℤ) - (if decide (s < 0) then -z else z)| = |s - z| := by
  by_cases h : s < 0
  · simp only [h, decide_true, if_true]
    rw [show (s.natAbs : ℤ) = -s by omega, ← abs_neg]
    congr 1; ring
  · simp only [h, decide_false, Bool.false_eq_true, if_false]
    rw [show (s.natAbs : ℤ) = s by omega]

/-- **A finite sum is correctly rounded**: no number of the format is closer to the exact sum,
and the relative error is at most `2^-(mw+1)`. -/
theorem fadd_finite (F : Fmt) (a b : Bits) (ha : a.Fin F) (hb : b.Fin F)
    (hf : (fadd F a b).exp < F.expInf) :
    (∀ w : Bits, w.WF F → |(fadd F a b).val F - (a.val F + b.val F)| ≤ |w.val F - (a.val F + b.val F)|) ∧
    |(fadd F a b).val F - (a.val F + b.val F)| * 2 ^ (F.mw + 1) ≤ |a.val F + b.val F| := by
  have hu : (0 : ℚ) < 2 ^ F.uexp := zpow_pos (by norm_num) _
  have hsum : a.val F + b.val F = ((a.imag F + b.imag F : ℤ) : ℚ) * 2 ^ F.uexp := by
    rw [val_eq_imag, val_eq_imag]; push_cast; ring
  have heq := fadd_fin ha hb
  rw [hsum]
  generalize a.imag F + b.imag F = s at *
  by_cases h0 : s = 0
  · rw [if_pos h0] at heq
    have hz : (fadd F a b).val F = 0 := by rw [heq]; simp [Bits.val, Bits.sig, zeroBits]
    rw [hz, h0]; simp
  rw [if_neg h0] at heq
  rw [heq] at hf
  have hsg : (encode F (decide (s < 0)) s.natAbs 0).sign = decide (s < 0) := by
    unfold encode infBits ofPat
    simp only
    split <;> rfl
  have hrel := encode_rel F _ _ hf
  have hflip : ((encode F (decide (s < 0)) s.natAbs 0).mag F : ℤ) =
      if decide (s < 0) then -((encode F (decide (s < 0)) s.natAbs 0).imag F)
      else (encode F (decide (s < 0)) s.natAbs 0).imag F := by
    rw [imag_of_sign F _ _ hsg]
    cases decide (s < 0) <;> simp
  have key : ∀ x : Bits, |x.val F - (s : ℚ) * 2 ^ F.uexp| = (|s - x.imag F| : ℤ) * 2 ^ F.uexp := by
    intro x
    rw [abs_sub_comm]
    exact val_imag_sub F s x
  constructor
  · intro w hw
    rw [key, key]
    apply mul_le_mul_of_nonneg_right _ hu.le
    obtain ⟨m, e, hm1, hm2⟩ := imag_neg_mul F w hw (decide (s < 0))
    have hn := (encodeQ_nearest F (decide (s < 0)) s.natAbs (2 ^ 0) (by norm_num)
      (by rw [encodeQ_pow]; exact hf) m e hm2).2
    rw [encodeQ_pow] at hn
    simp only [pow_zero, Nat.cast_one, mul_one] at hn
    rw [← hm1, natAbs_flip, hflip, natAbs_flip, ← heq] at hn
    exact_mod_cast hn
  · rw [key, abs_mul, abs_of_pos hu]
    rw [hflip, natAbs_flip, ← heq] at hrel
    have : (|s - (fadd F a b).imag F| : ℤ) * 2 ^ (F.mw + 1) ≤ |s| := by
      rw [Int.abs_eq_natAbs s]; exact hrel
    have hq : ((|s - (fadd F a b).imag F| : ℤ) : ℚ) * 2 ^ (F.mw + 1) ≤ |(s : ℚ)| := by exact_mod_cast this
    calc _ = ((|s - (fadd F a b).imag F| : ℤ) : ℚ) * 2 ^ (F.mw + 1) * 2 ^ F.uexp := by ring
      _ ≤ _ := mul_le_mul_of_nonneg_right hq hu.le

/-- A number of the format that is below the exact result in magnitude is not above the
rounded one. -/
theorem nearest_mono {x z t : ℚ} (h : |z - x| ≤ |t - x|) (h' : |z - x| ≤ |-t - x|) (ht : |t| ≤ |x|) : |t| ≤ |z| := by
  by_contra hc
  rw [not_le] at hc
  have h1 : |x| - |z| ≤ |z - x| := by rw [abs_sub_comm]; exact abs_sub_abs_le_abs_sub _ _
  have h2 : |t - x| = |x| - |t| ∨ |-t - x| = |x| - |t| := by
    rcases abs_cases t with ⟨e1, _⟩ | ⟨e1, _⟩ <;> rcases abs_cases x with ⟨e2, _⟩ | ⟨e2, _⟩ <;>
      rw [e1, e2] at ht ⊢
    · left; rw [abs_of_nonpos (by linarith)]; ring
    · right; rw [abs_of_nonneg (by linarith)]; ring
    · right; rw [abs_of_nonpos (by linarith)]; ring
    · left; rw [abs_of_nonneg (by linarith)]; ring
  rcases h2 with h2 | h2 <;> linarith

/-- A number of the format that is above the exact result in magnitude is not below the
rounded one. -/
theorem nearest_mono' {x z t : ℚ} (h : |z - x| ≤ |t - x|) (h' : |z - x| ≤ |-t - x|) (ht : |x| ≤ |t|) : |z| ≤ |t| := by
  by_contra hc
  rw [not_le] at hc
  have h1 : |z| - |x| ≤ |z - x| := abs_sub_abs_le_abs_sub _ _
  have h2 : |t - x| = |t| - |x| ∨ |-t - x| = |t| - |x| := by
    rcases abs_cases t with ⟨e1, _⟩ | ⟨e1, _⟩ <;> rcases abs_cases x with ⟨e2, _⟩ | ⟨e2, _⟩ <;>
      rw [e1, e2] at ht ⊢
    · left; rw [abs_of_nonneg (by linarith)]
    · right; rw [abs_of_nonpos (by linarith)]; ring
    · right; rw [abs_of_nonneg (by linarith)]
    · left; rw [abs_of_nonpos (by linarith)]; ring
  rcases h2 with h2 | h2 <;> linarith

theorem val_fneg (F : Fmt) (x : Bits) : (fneg x).val F = -x.val F := by
  have h : (fneg x).mag F = x.mag F := rfl
  rw [val_eq_mag, val_eq_mag, h]
  unfold fneg sgn
  cases x.sign <;> simp

/-- Magnitude of a sum: monotone with respect to the numbers of the format. -/
theorem fadd_mono (F : Fmt) (a b : Bits) (ha : a.Fin F) (hb : b.Fin F)
    (hf : (fadd F a b).exp < F.expInf) (t : Bits) (ht : t.WF F) :
    (|t.val F| ≤ |a.val F + b.val F| → |t.val F| ≤ |(fadd F a b).val F|) ∧
    (|a.val F + b.val F| ≤ |t.val F| → |(fadd F a b).val F| ≤ |t.val F|) := by
  have h1 := (fadd_finite F a b ha hb hf).1 t ht
  have h2 := (fadd_finite F a b ha hb hf).1 (fneg t) ht
  rw [val_fneg] at h2
  exact ⟨nearest_mono h1 h2, nearest_mono' h1 h2⟩

/-- Magnitude of a quotient. -/
theorem fdiv_mono (F : Fmt) (hu : F.uexp ≤ 0) (a b : Bits) (ha : a.Fin F) (hb : b.Fin F) (b0 : ¬ b.isZero)
    (hf : (fdiv F a b).exp < F.expInf) (t : Bits) (ht : t.WF F) :
    (|t.val F| ≤ |a.val F / b.val F| → |t.val F| ≤ |(fdiv F a b).val F|) ∧
    (|a.val F / b.val F| ≤ |t.val F| → |(fdiv F a b).val F| ≤ |t.val F|) := by
  have h1 := (fdiv_nearest F hu a b ha hb b0 hf t ht).2
  have h2 := (fdiv_nearest F hu a b ha hb b0 hf (fneg t) ht).2
  rw [val_fneg] at h2
  exact ⟨nearest_mono h1 h2, nearest_mono' h1 h2⟩

end Verif.Fp
