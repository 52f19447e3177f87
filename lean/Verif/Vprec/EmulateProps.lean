import Verif.Vprec.Host
import Verif.Vprec.OpsProps

/-!
# VPREC emulates the arithmetic of small formats (C84)

VPREC computes an operation in `float` or `double` and rounds the result again.  When the format
asked for has less than half the precision of the type, the two roundings amount to one.
-/

namespace Verif.Vprec
open Verif Verif.Fp Verif.Vprec.Config Verif.Vprec.Ops

/-- A number of the format, with its place. -/
theorem representable (F : Fmt) (hew : 2 ≤ F.ew) (N e : ℤ) (hN : |N| < 2 ^ (F.mw + 1))
    (h1 : F.uexp ≤ e) (h2 : e + F.mw ≤ F.bias) :
    ∃ v : Bits, v.WF F ∧ v.val F = N * 2 ^ e := by
  have hinf := expInf_bias F hew
  have hge := expInf_ge F hew
  obtain ⟨c, hc⟩ := Int.le.dest h1
  by_cases h0 : N = 0
  · exact ⟨zeroBits false, zero_wf F _, by rw [val_zero, h0]; simp⟩
  have hM : N.natAbs < 2 ^ (F.mw + 1) := by
    have : ((N.natAbs : ℕ) : ℤ) < 2 ^ (F.mw + 1) := by rw [← Int.abs_eq_natAbs]; exact hN
    exact_mod_cast this
  have hcle : c ≤ F.expInf - 2 := by
    unfold Fmt.uexp at hc
    omega
  have hfit : N.natAbs * 2 ^ c < 2 ^ (F.mw + 1) * 2 ^ (F.expInf - 2) :=
    lt_of_lt_of_le (Nat.mul_lt_mul_of_pos_right hM (by positivity))
      (Nat.mul_le_mul_left _ (Nat.pow_le_pow_right (by norm_num) hcle))
  obtain ⟨e1, e2, -, e4⟩ := encode_repr F hew (decide (N < 0)) N.natAbs c (by omega) hM hfit
  refine ⟨_, e2, ?_⟩
  rw [val_eq_mag, e1, e4, ← hc, Spec.zp_add]
  rw [imag_sgn N]
  push_cast
  ring

/-- Finite numbers are below the first power of two that is not. -/
theorem val_lt (F : Fmt) (hew : 2 ≤ F.ew) (y : Bits) (hy : y.WF F) (hf : y.exp < F.expInf) :
    |y.val F| < 2 ^ ((F.bias : ℤ) + 1) := by
  have hinf := expInf_bias F hew
  have hge := expInf_ge F hew
  have h := mag_lt F hew y hy hf
  rw [abs_val]
  have e : (2 : ℚ) ^ ((F.bias : ℤ) + 1) = 2 ^ (F.mw + 1) * 2 ^ (F.expInf - 2) * 2 ^ F.uexp := by
    rw [← pow_add, ← Spec.zp_add]
    congr 1
    unfold Fmt.uexp
    push_cast
    omega
  rw [e]
  apply mul_lt_mul_of_pos_right _ (u_pos F)
  exact_mod_cast h

/-- The pattern of infinity, read as a number. -/
theorem infPat (F : Fmt) (hew : 2 ≤ F.ew) (s : Bool) :
    (infBits F s).WF F ∧ (infBits F s).val F = sgn s * 2 ^ ((F.bias : ℤ) + 1) := by
  have hinf := expInf_bias F hew
  have hge := expInf_ge F hew
  refine ⟨⟨expInf_lt F, by unfold infBits; positivity⟩, ?_⟩
  unfold infBits Bits.val Bits.sig Bits.lsb
  simp only
  rw [if_neg (by omega), Nat.add_zero, mul_assoc]
  congr 1
  push_cast
  rw [← Spec.zp_add]
  congr 1
  omega

/-- A finite result comes from a number below that power of two. -/
theorem exact_lt {F : Fmt} (hew : 2 ≤ F.ew) {x : ℚ} {y : Bits} (h : Host F x y) (hf : y.exp < F.expInf) :
    |x| < 2 ^ ((F.bias : ℤ) + 1) := by
  by_contra hc
  rw [not_lt] at hc
  obtain ⟨h1, h2⟩ := infPat F hew (decide (x < 0))
  have h3 := h.near hf _ h1
  have h4 := val_lt F hew y h.wf hf
  have hp := Spec.zp ((F.bias : ℤ) + 1)
  rw [h2] at h3
  generalize (2 : ℚ) ^ ((F.bias : ℤ) + 1) = B at *
  obtain ⟨h5, h6⟩ := abs_lt.mp h4
  by_cases hx : x < 0
  · simp only [hx, decide_true, sgn, if_true] at h3
    rw [abs_of_neg hx] at hc
    rw [abs_of_nonneg (by linarith), abs_of_nonneg (by linarith)] at h3
    linarith
  · simp only [hx, decide_false, sgn, Bool.false_eq_true, if_false] at h3
    rw [abs_of_nonneg (by linarith)] at hc
    rw [abs_of_nonpos (by linarith), abs_of_nonpos (by linarith)] at h3
    linarith

/-- The result of the hardware is on the same side of every midpoint of a small format. -/
theorem host_sameSide {F : Fmt} (hew : 2 ≤ F.ew) {p : ℕ} {emin : ℤ} (hp : 2 * p + 2 ≤ F.mw)
    (he1 : 1 - (F.bias : ℤ) ≤ emin) (he2 : emin ≤ F.bias) {x : ℚ} {y : Bits} (h : Host F x y)
    (hf : y.exp < F.expInf)
    (gap : ∀ m e, Spec.Mid p emin m e → 2 * |x - m| ≤ 2 ^ (e - p - 2) → x = m) :
    Spec.SameSide p emin x (y.val F) := by
  intro m e hm
  have hyB := val_lt F hew y h.wf hf
  have hxB := exact_lt hew h hf
  by_cases hbig : 2 ^ ((F.bias : ℤ) + 1) ≤ |m|
  · obtain ⟨h1, h2⟩ := abs_lt.mp hyB
    obtain ⟨h3, h4⟩ := abs_lt.mp hxB
    rcases le_abs.mp hbig with hb | hb
    · exact ⟨⟨fun _ => by linarith, fun _ => by linarith⟩, ⟨fun h => by linarith, fun h => by linarith⟩⟩
    · exact ⟨⟨fun _ => by linarith, fun _ => by linarith⟩, ⟨fun h => by linarith, fun h => by linarith⟩⟩
  rw [not_le] at hbig
  obtain ⟨k, hk, k1, k2, k3⟩ := hm
  -- the exponent is in the range of the type
  have hexp : e + p ≤ F.bias := by
    rcases k3 with k3 | k3
    · omega
    · by_contra hc
      rw [hk, abs_mul, abs_of_pos (Spec.zp _)] at hbig
      have q3 : (2 : ℚ) ^ (p + 1) ≤ |2 * (k : ℚ) + 1| := by exact_mod_cast k3.le
      have h1 := mul_le_mul_of_nonneg_right q3 (Spec.zp (e - 1)).le
      rw [← Spec.zp_add] at h1
      have h2 : (2 : ℚ) ^ ((F.bias : ℤ) + 1) ≤ 2 ^ (e - 1 + ((p + 1 : ℕ) : ℤ)) :=
        Spec.zp_le (by push_cast; omega)
      linarith
  -- the neighbours of the midpoint in the type
  obtain ⟨D, hD⟩ : ∃ D : ℕ, F.mw = p + 1 + D := ⟨F.mw - p - 1, by omega⟩
  have hquant : (2 : ℚ) ^ (e - 1) = 2 ^ D * 2 ^ (e + p - F.mw) := by
    rw [← Spec.zp_add]
    congr 1
    omega
  have hrep : ∀ t : ℤ, |t| ≤ 1 → ∃ v : Bits, v.WF F ∧ v.val F = m + t * 2 ^ (e + p - F.mw) := by
    intro t ht
    obtain ⟨v, v1, v2⟩ := representable F hew ((2 * k + 1) * 2 ^ D + t) (e + p - F.mw) (by
      have h1 : |(2 * k + 1) * 2 ^ D| ≤ (2 ^ (p + 2) - 1) * 2 ^ D := by
        rw [abs_mul, abs_of_pos (show (0 : ℤ) < 2 ^ D by positivity)]
        exact mul_le_mul_of_nonneg_right (by omega) (by positivity)
      have h2 := abs_add_le ((2 * k + 1) * 2 ^ D) t
      have h3 : (2 : ℤ) ^ (F.mw + 1) = 2 ^ (p + 2) * 2 ^ D := by
        rw [← pow_add]; congr 1; omega
      have h4 : (2 : ℤ) ≤ 2 ^ D := by
        calc (2 : ℤ) = 2 ^ 1 := by norm_num
          _ ≤ 2 ^ D := pow_le_pow_right₀ (by norm_num) (by omega)
      rw [h3]
      rw [sub_mul] at h1
      omega) (by unfold Fmt.uexp; omega) (by omega)
    refine ⟨v, v1, ?_⟩
    rw [v2, hk, hquant]
    push_cast
    ring
  obtain ⟨v0, w0, e0⟩ := hrep 0 (by simp)
  obtain ⟨v1, w1, e1⟩ := hrep 1 (by simp)
  obtain ⟨v2, w2, e2⟩ := hrep (-1) (by simp)
  have n0 := h.near hf v0 w0
  have n1 := h.near hf v1 w1
  have n2 := h.near hf v2 w2
  push_cast at e0 e1 e2
  rw [e0] at n0
  rw [e1] at n1
  rw [e2] at n2
  have hh := Spec.zp (e + p - F.mw)
  -- a result on the midpoint is exact
  have K : y.val F = m → x = m := by
    intro hy
    apply gap m e ⟨k, hk, k1, k2, k3⟩
    have hle : (2 : ℚ) ^ (e + p - F.mw) ≤ 2 ^ (e - p - 2) := Spec.zp_le (by omega)
    refine le_trans ?_ hle
    rw [hy] at n1 n2
    generalize (2 : ℚ) ^ (e + p - F.mw) = H at *
    rcases abs_cases (m - x) with ⟨h5, h6⟩ | ⟨h5, h6⟩
    · rw [abs_sub_comm x m, h5]
      rw [h5] at n2
      rcases abs_cases (m + -1 * H - x) with ⟨h7, h8⟩ | ⟨h7, h8⟩ <;> linarith
    · rw [abs_sub_comm x m, h5]
      rw [h5] at n1
      rcases abs_cases (m + 1 * H - x) with ⟨h7, h8⟩ | ⟨h7, h8⟩ <;> linarith
  have up : m < x → m ≤ y.val F := by
    intro hx
    by_contra hc
    rw [not_le] at hc
    rw [abs_of_neg (by linarith), abs_of_neg (by linarith)] at n0
    linarith
  have down : x < m → y.val F ≤ m := by
    intro hx
    by_contra hc
    rw [not_le] at hc
    rw [abs_of_pos (by linarith), abs_of_pos (by linarith)] at n0
    linarith
  have same : x = m → y.val F = m := by
    intro hx
    rw [hx, zero_mul, add_zero, sub_self, abs_zero] at n0
    linarith [abs_eq_zero.mp (le_antisymm n0 (abs_nonneg _))]
  refine ⟨⟨fun hx => ?_, fun hy => ?_⟩, ⟨same, K⟩⟩
  · rcases lt_or_eq_of_le (down hx) with h1 | h1
    · exact h1
    · exact absurd (K h1) hx.ne
  · rcases lt_trichotomy x m with h1 | h1 | h1
    · exact h1
    · exact absurd (same h1) hy.ne
    · exact absurd (up h1) (not_le.mpr hy)

/-! ## Overflow -/

theorem mid_overflow (p : ℕ) (emin emax : ℤ) (h : emin ≤ emax) :
    Spec.Mid p emin (overflowFrom p emax) (emax - p) := by
  have hP : (2 : ℤ) ^ (p + 2) = 2 * 2 ^ (p + 1) := by ring
  have hpos : (0 : ℤ) < 2 ^ (p + 1) := by positivity
  have e1 : 2 * (2 ^ (p + 1) - 1) + 1 = (2 : ℤ) ^ (p + 2) - 1 := by omega
  refine ⟨2 ^ (p + 1) - 1, ?_, by omega, ?_, ?_⟩
  · unfold overflowFrom
    congr 1
    have : (2 : ℚ) ^ (p + 2) = 2 * 2 ^ (p + 1) := by ring
    push_cast
    rw [this]
    ring
  · rw [e1, abs_of_pos (by omega)]; omega
  · rw [e1, abs_of_pos (by omega)]
    have : (2 : ℤ) ≤ 2 ^ (p + 1) := by
      calc (2 : ℤ) = 2 ^ 1 := by norm_num
        _ ≤ _ := pow_le_pow_right₀ (by norm_num) (by omega)
    omega

/-- Which numbers round to `2^(emax+1)` or more. -/
theorem rne_overflow {p : ℕ} {emin emax : ℤ} (hem : emin ≤ emax) {y q : ℚ} (h : Spec.RNE p emin y q) :
    |q| < 2 ^ (emax + 1) ↔ |y| < overflowFrom p emax := by
  have hP1 : (2 : ℚ) ^ (p + 1) = 2 * 2 ^ p := by ring
  have hP2 : (2 : ℚ) ^ (p + 2) = 4 * 2 ^ p := by ring
  have hp1 : (1 : ℚ) ≤ 2 ^ p := one_le_pow₀ (by norm_num)
  have hE : (2 : ℚ) ^ (emax + 1) = 2 * 2 ^ p * 2 ^ (emax - p) := by
    rw [← hP1, ← Spec.zp_add]; congr 1; push_cast; ring
  have hT : overflowFrom p emax = (2 * 2 ^ p - 1 / 2) * 2 ^ (emax - p) := by
    unfold overflowFrom
    rw [Spec.zp_half (emax - p), hP2]; ring
  obtain ⟨u, hu⟩ : ∃ u, u = (2 : ℚ) ^ (emax - p) := ⟨_, rfl⟩
  have hupos : 0 < u := hu ▸ Spec.zp _
  -- the largest element below, and the power of two
  have hmax : ∀ s : ℤ, |s| = 1 → Spec.InFmt p emin (s * ((2 * 2 ^ p - 1) * u)) := by
    intro s hs
    refine ⟨s * (2 ^ (p + 1) - 1), emax - p, ?_, by omega, ?_⟩
    · have : (0 : ℤ) < 2 ^ (p + 1) := by positivity
      rw [abs_mul, hs, one_mul, abs_of_nonneg (by omega)]; omega
    · rw [hu]; push_cast; rw [hP1]; ring
  have hpow : ∀ s : ℤ, |s| = 1 → Spec.InFmt p emin (s * (2 * 2 ^ p * u)) := by
    intro s hs
    refine ⟨s, emax + 1, ?_, by omega, ?_⟩
    · rw [hs]; exact one_lt_pow₀ (by norm_num) (by omega)
    · rw [hE, hu]
  obtain ⟨s, hs, hsy⟩ : ∃ s : ℤ, |s| = 1 ∧ |y| = s * y := by
    rcases abs_cases y with ⟨h5, -⟩ | ⟨h5, -⟩
    · exact ⟨1, rfl, by rw [h5]; simp⟩
    · exact ⟨-1, rfl, by rw [h5]; simp⟩
  have hss : (s : ℚ) * s = 1 := by
    rcases (abs_eq (by norm_num)).mp hs with rfl | rfl <;> norm_num
  have hsabs : |(s : ℚ)| = 1 := by exact_mod_cast hs
  -- distances along the sign of `y`
  have dist : ∀ v : ℚ, |y - s * v| = abs (|y| - v) := by
    intro v
    rw [hsy]
    have : (s : ℚ) * y - v = s * (y - s * v) := by linear_combination v * hss
    rw [this, abs_mul, hsabs, one_mul]
  have dq : |y| - |q| ≤ |y - q| := abs_sub_abs_le_abs_sub y q
  have dq' : |q| - |y| ≤ |y - q| := by rw [abs_sub_comm]; exact abs_sub_abs_le_abs_sub q y
  rw [hT, hE, ← hu]
  constructor
  · intro hq
    by_contra hy
    rw [not_lt] at hy
    -- canonical forms: `q` is at most the largest element
    have hcan : ∀ m e : ℤ, |m| < 2 ^ (p + 1) → q = m * 2 ^ e → (e = emin - p ∨ 2 ^ p ≤ |m|) → emin - p ≤ e →
        e ≤ emax - p := by
      intro m e h1 h2 h3 h4
      by_contra hc
      rcases h3 with h3 | h3
      · omega
      · have q3 : (2 : ℚ) ^ p ≤ |(m : ℚ)| := by exact_mod_cast h3
        have h5 : (2 : ℚ) ^ (emax - p + ((1 : ℕ) : ℤ)) ≤ 2 ^ e := Spec.zp_le (by push_cast; omega)
        rw [Spec.zp_add, ← hu] at h5
        have h6 : 2 ^ p * (2 ^ 1 * u) ≤ |(m : ℚ)| * 2 ^ e :=
          mul_le_mul q3 h5 (by positivity) (abs_nonneg _)
        rw [h2, abs_mul, abs_of_pos (Spec.zp e)] at hq
        linarith
    have hqle : |q| ≤ (2 * 2 ^ p - 1) * u := by
      obtain ⟨m, e, h1, h2, h3, h4⟩ := Spec.canonical h.1.1
      have h5 := hcan m e h1 h3 h4 h2
      rw [h3, abs_mul, abs_of_pos (Spec.zp e)]
      have q1 : |(m : ℚ)| ≤ 2 * 2 ^ p - 1 := by
        have : |m| ≤ 2 ^ (p + 1) - 1 := by omega
        have : |(m : ℚ)| ≤ 2 ^ (p + 1) - 1 := by exact_mod_cast this
        linarith
      rw [hu]
      exact mul_le_mul q1 (Spec.zp_le h5) (Spec.zp _).le (le_trans (abs_nonneg _) q1)
    have n1 := h.1.2 _ (hpow s hs)
    rw [dist] at n1
    have hpu := mul_pos (show (0 : ℚ) < 2 * 2 ^ p by positivity) hupos
    have hy' : |y| = (2 * 2 ^ p - 1 / 2) * u ∧ |q| = (2 * 2 ^ p - 1) * u := by
      rcases abs_cases (|y| - 2 * 2 ^ p * u) with ⟨h7, h8⟩ | ⟨h7, h8⟩
      · rw [h7] at n1
        exfalso
        nlinarith
      · rw [h7] at n1
        constructor <;> nlinarith
    have heven := h.2 ⟨_, hpow s hs, by
      intro hc
      have : |q| = 2 * 2 ^ p * u := by
        rw [← hc, abs_mul, hsabs, one_mul, abs_of_pos hpu]
      rw [this] at hq
      exact lt_irrefl _ hq, by
      rw [dist]
      apply le_antisymm _ n1
      rw [hy'.1, abs_of_neg (by linarith)]
      rw [hy'.1, hy'.2] at dq
      linarith⟩
    obtain ⟨m, e, h1, h2, h3, h4, h5⟩ := heven
    have h6 := hcan m e h1 h3 h5 h2
    have hq2 := hy'.2
    rw [h3, abs_mul, abs_of_pos (Spec.zp e)] at hq2
    rcases lt_or_eq_of_le h6 with h6 | h6
    · have q1 : |(m : ℚ)| < 2 * 2 ^ p := by
        have : |(m : ℚ)| < 2 ^ (p + 1) := by exact_mod_cast h1
        linarith
      have h7 : (2 : ℚ) ^ e ≤ u / 2 := by
        have h8 := Spec.zp_half (emax - p)
        have : (2 : ℚ) ^ e ≤ 2 ^ (emax - p - 1) := Spec.zp_le (by omega)
        rw [← hu] at h8
        linarith
      have h8 : |(m : ℚ)| * 2 ^ e < 2 * 2 ^ p * (u / 2) :=
        lt_of_lt_of_le (mul_lt_mul_of_pos_right q1 (Spec.zp e))
          (mul_le_mul_of_nonneg_left h7 (by positivity))
      rw [hq2] at h8
      nlinarith
    · rw [h6, ← hu] at hq2
      have h7 : |(m : ℚ)| = 2 * 2 ^ p - 1 := mul_right_cancel₀ hupos.ne' hq2
      have h8 : |m| = 2 * 2 ^ p - 1 := by exact_mod_cast h7
      have h9 : Even |m| := by rwa [even_abs]
      rw [h8] at h9
      obtain ⟨c, hc⟩ := h9
      omega
  · intro hy
    by_contra hq
    rw [not_lt] at hq
    have n1 := h.1.2 _ (hmax s hs)
    rw [dist] at n1
    rcases abs_cases (|y| - (2 * 2 ^ p - 1) * u) with ⟨h7, h8⟩ | ⟨h7, h8⟩ <;>
      · rw [h7] at n1; nlinarith

/-! ## One rounding -/

/-- `y` is the exact result `x` rounded, once, to nearest even in the format with `p` explicit bits
and `r` bits of exponent. -/
def Correct (F : Fmt) (r p : ℕ) (x : ℚ) (y : Bits) : Prop :=
  (|x| < overflowFrom p (Spec.emax r) → y.WF F ∧ y.Fin F ∧ Spec.RNE p (Spec.emin r) x (y.val F)) ∧
  (overflowFrom p (Spec.emax r) ≤ |x| → y = infBits F (decide (x < 0)))

theorem overflow_mono {p P : ℕ} {e E : ℤ} (hp : p ≤ P) (he : e ≤ E) : overflowFrom p e ≤ overflowFrom P E := by
  have h1 : ∀ (n : ℕ) (f : ℤ), overflowFrom n f = (2 - 1 / 2 ^ (n + 1)) * 2 ^ f := by
    intro n f
    have h2 : (2 : ℚ) ^ f = 2 ^ (n + 1) * 2 ^ (f - n - 1) := by
      rw [← Spec.zp_add]; congr 1; push_cast; ring
    unfold overflowFrom
    rw [h2]
    field_simp
    ring
  rw [h1, h1]
  have h3 : (1 : ℚ) / 2 ^ (P + 1) ≤ 1 / 2 ^ (p + 1) :=
    one_div_le_one_div_of_le (by positivity) (pow_le_pow_right₀ (by norm_num) (by omega))
  have h4 : (1 : ℚ) / 2 ^ (P + 1) ≤ 1 := by
    rw [div_le_one (by positivity)]
    exact one_le_pow₀ (by norm_num)
  exact mul_le_mul (by linarith) (Spec.zp_le he) (Spec.zp _).le (by linarith)

theorem rne_zero (p : ℕ) (emin : ℤ) : Spec.RNE p emin 0 0 := by
  refine ⟨⟨⟨0, emin - p, by simp, le_refl _, by simp⟩, fun z _ => by simp⟩, ?_⟩
  rintro ⟨z, -, hne, hd⟩
  exfalso
  apply hne
  simpa using hd

/-- The two roundings amount to one. -/
theorem round_once (sem : ShiftSem) (F : Fmt) (w : Nat) (hF : IsC F w) (c : Ctx) (r p : Nat)
    (habs : c.absErr = false) (hftz : c.ftz = false) (hr : 2 ≤ r) (hr2 : r ≤ F.ew) (hp1 : 1 ≤ p)
    (hp : 2 * p + 2 ≤ F.mw) (x : ℚ) (y : Bits) (h : Host F x y)
    (side : y.exp < F.expInf → Spec.SameSide p (Spec.emin r) x (y.val F))
    (hx : |x| ≠ 2 ^ (Spec.emin r - p - 1)) :
    ∃ res, roundBinary sem F w y false c r p = .ok res ∧ Correct F r p x res := by
  obtain ⟨hem1, hem2, hrr, hcmin, hcap, hw, hew2, hinf⟩ := range_facts F w hF r p hr hr2 (by omega)
  have hemm : Spec.emin r = 1 - Spec.emax r := rfl
  by_cases hf : y.exp < F.expInf
  swap
  · obtain ⟨h1, h2⟩ := h.inf hf
    have hexp : y.exp = F.expInf := by rw [h1]; rfl
    have h3 : overflowFrom p (Spec.emax r) ≤ |x| := le_trans (overflow_mono (by omega) hem2) h2
    have hpos : 0 < overflowFrom p (Spec.emax r) := by
      unfold overflowFrom
      have : (1 : ℚ) < 2 ^ (p + 2) := one_lt_pow₀ (by norm_num) (by omega)
      exact mul_pos (by linarith) (Spec.zp _)
    have hx0 : x ≠ 0 := by
      rintro rfl
      rw [abs_zero] at h3
      linarith
    refine ⟨y, roundBinary_special sem F w y false c r p hexp, fun h => absurd h3 (not_le.mpr h), fun _ => ?_⟩
    rw [h1, h.sign hx0]
  have hfin : y.Fin F := hf.ne
  have hs := side hf
  -- overflow is decided alike
  have hov : |x| < overflowFrom p (Spec.emax r) ↔ |y.val F| < overflowFrom p (Spec.emax r) := by
    obtain ⟨h1, h2⟩ := hs _ _ (mid_overflow p (Spec.emin r) (Spec.emax r) (by omega))
    obtain ⟨h3, h4⟩ := Spec.sameSide_neg hs _ _ (mid_overflow p (Spec.emin r) (Spec.emax r) (by omega))
    rw [abs_lt, abs_lt, h1, neg_lt, neg_lt (b := y.val F), h3]
  by_cases h0 : y.val F = 0
  · have hz : y.isZero := (mag_eq_zero F y).mp ((val_eq_zero F y).mp h0)
    refine ⟨y, roundBinary_zero sem F w hF y false c r p hr hr2 hz, fun _ => ⟨h.wf, hfin, ?_⟩, fun hc => ?_⟩
    · rw [h0] at hs ⊢
      exact Spec.rne_sameSide hs (rne_zero p _)
    · exfalso
      rw [← not_lt, hov, h0, abs_zero] at hc
      apply hc
      unfold overflowFrom
      have : (1 : ℚ) < 2 ^ (p + 2) := one_lt_pow₀ (by norm_num) (by omega)
      exact mul_pos (by linarith) (Spec.zp _)
  have hsign : y.sign = decide (x < 0) := by
    apply h.sign
    rintro rfl
    have := h.near hf (zeroBits false) (zero_wf F _)
    rw [val_zero, sub_self, abs_zero, sub_zero] at this
    exact h0 (abs_eq_zero.mp (le_antisymm this (abs_nonneg _)))
  by_cases hn : 2 ^ Spec.emin r ≤ |y.val F|
  · obtain ⟨res, q, h1, h2, h3, h4, h5⟩ := C01_round_nearest_even sem F w hF y false c r p habs hr hr2 hp1
      (by omega) h.wf hfin hn
    have h6 := Spec.rne_sameSide hs h2
    have h7 := rne_overflow (emax := Spec.emax r) (by omega) h6
    refine ⟨res, h1, fun hc => ?_, fun hc => ?_⟩
    · obtain ⟨h8, h9, h10⟩ := h4 (h7.mpr hc)
      refine ⟨h8, h9, ?_⟩
      rw [h10]
      exact h6
    · rw [← hsign]
      exact h5 (not_lt.mp fun h => absurd (h7.mp h) (not_lt.mpr hc))
  · rw [not_le] at hn
    obtain ⟨res, h1, h2, h3, -, -, -, h4⟩ := C02_gradual_underflow sem F w hF y false c r p habs (by rw [hftz]; simp)
      hr hr2 hp1 (by omega) h.wf hfin h0 hn
    have hmid : Spec.Mid p (Spec.emin r) (2 ^ (Spec.emin r - p - 1)) (Spec.emin r - p) :=
      ⟨0, by push_cast; ring, le_refl _, by
        rw [mul_zero, zero_add, abs_one]; exact one_lt_pow₀ (by norm_num) (by omega), .inl rfl⟩
    have hy : |y.val F| ≠ 2 ^ (Spec.emin r - p - 1) := by
      intro hc
      apply hx
      have hpos := Spec.zp (Spec.emin r - p - 1)
      rcases (abs_eq hpos.le).mp hc with hc | hc
      · rw [(hs _ _ hmid).2.mpr hc, abs_of_pos hpos]
      · have := (Spec.sameSide_neg hs _ _ hmid).2.mpr (by rw [hc, neg_neg])
        rw [← abs_neg, this, abs_of_pos hpos]
    refine ⟨res, h1, fun _ => ⟨h2, h3, Spec.rne_sameSide hs (h4 hy)⟩, fun hc => ?_⟩
    exfalso
    rw [← not_lt, hov] at hc
    apply hc
    refine lt_of_lt_of_le hn (le_trans (Spec.zp_le (show Spec.emin r ≤ Spec.emax r by omega)) ?_)
    unfold overflowFrom
    have e1 : (2 : ℚ) ^ Spec.emax r = 2 ^ (p + 1) * 2 ^ (Spec.emax r - p - 1) := by
      rw [← Spec.zp_add]; congr 1; push_cast; ring
    rw [e1]
    apply mul_le_mul_of_nonneg_right _ (Spec.zp _).le
    have : (1 : ℚ) ≤ 2 ^ (p + 1) := one_le_pow₀ (by norm_num)
    have h2 : (2 : ℚ) ^ (p + 2) = 2 * 2 ^ (p + 1) := by ring
    linarith

/-! ## The product -/

/-- A product is far from the midpoints it is not equal to, unless it is below the normal numbers. -/
theorem mid_mul {p : ℕ} {emin : ℤ} {a b m : ℚ} {e : ℤ} (ha : Spec.InFmt p emin a) (hb : Spec.InFmt p emin b)
    (hx : 2 ^ emin ≤ |a * b|) (hm : Spec.Mid p emin m e) (hd : 2 * |a * b - m| ≤ 2 ^ (e - p - 2)) :
    a * b = m := by
  obtain ⟨ma, ea, a1, -, a3⟩ := ha
  obtain ⟨mb, eb, b1, -, b3⟩ := hb
  obtain ⟨k, hk, k1, k2, k3⟩ := hm
  have hprod : a * b = ((ma * mb : ℤ) : ℚ) * 2 ^ (ea + eb) := by
    rw [a3, b3, zpow_add₀ (by norm_num)]; push_cast; ring
  have hN : |((ma * mb : ℤ) : ℚ)| < 2 ^ (2 * p + 2) := by
    have : |ma * mb| < 2 ^ (p + 1) * 2 ^ (p + 1) := by
      rw [abs_mul]
      exact mul_lt_mul'' a1 b1 (abs_nonneg _) (abs_nonneg _)
    have h2 : (2 : ℤ) ^ (p + 1) * 2 ^ (p + 1) = 2 ^ (2 * p + 2) := by rw [← pow_add]; congr 1; omega
    rw [h2] at this
    exact_mod_cast this
  have hsize : 2 ^ (e + p) ≤ |a * b| := by
    rcases k3 with k3 | k3
    · rwa [show e + p = emin by omega]
    · have h1 : (2 : ℚ) ^ (p + 1) + 1 ≤ |2 * (k : ℚ) + 1| := by exact_mod_cast k3
      have h2 : |m| = |2 * (k : ℚ) + 1| * 2 ^ (e - 1) := by rw [hk, abs_mul, abs_of_pos (Spec.zp _)]
      have h3 := mul_le_mul_of_nonneg_right h1 (Spec.zp (e - 1)).le
      have h4 : (2 : ℚ) ^ (e + p) = 2 ^ (p + 1) * 2 ^ (e - 1) := by
        rw [← Spec.zp_add]; congr 1; push_cast; ring
      have h5 : (2 : ℚ) ^ (e - p - 2) ≤ 2 ^ (e - 1) := Spec.zp_le (by omega)
      have h6 : |m| - |a * b| ≤ |a * b - m| := by rw [abs_sub_comm]; exact abs_sub_abs_le_abs_sub _ _
      have h7 := abs_nonneg (a * b - m)
      rw [add_mul, ← h4, one_mul, ← h2] at h3
      linarith
  have hE : e - p - 2 ≤ ea + eb := by
    by_contra hc
    have h1 : |a * b| < 2 ^ (2 * p + 2) * 2 ^ (ea + eb) := by
      rw [hprod, abs_mul, abs_of_pos (Spec.zp _)]
      exact mul_lt_mul_of_pos_right hN (Spec.zp _)
    rw [← Spec.zp_add] at h1
    have h2 : (2 : ℚ) ^ (ea + eb + ((2 * p + 2 : ℕ) : ℤ)) ≤ 2 ^ (e + p) := Spec.zp_le (by push_cast; omega)
    linarith
  obtain ⟨D, hD⟩ := Int.le.dest hE
  have h1 : a * b - m = ((ma * mb * 2 ^ D - (2 * k + 1) * 2 ^ (p + 1) : ℤ) : ℚ) * 2 ^ (e - p - 2) := by
    have h2 : (2 : ℚ) ^ (e - 1) = 2 ^ (p + 1) * 2 ^ (e - p - 2) := by
      rw [← Spec.zp_add]; congr 1; push_cast; ring
    rw [hprod, hk, h2, ← hD, Spec.zp_add]
    push_cast
    ring
  have hz := Spec.zp (e - p - 2)
  generalize hZ : ma * mb * 2 ^ D - (2 * k + 1) * 2 ^ (p + 1) = Z at h1
  rw [h1, abs_mul, abs_of_pos hz] at hd
  have h3 : 2 * |(Z : ℚ)| ≤ 1 := by
    by_contra hc
    rw [not_le] at hc
    have := mul_lt_mul_of_pos_right hc hz
    linarith
  have h4 : 2 * |Z| ≤ 1 := by exact_mod_cast h3
  have h5 : Z = 0 := abs_eq_zero.mp (by have := abs_nonneg Z; omega)
  rw [h5] at h1
  simp at h1
  linarith

/-- A small product is exact when the format asked for has a smaller range than the type. -/
theorem small_product {F : Fmt} {w : ℕ} (hF : IsC F w) {r p : ℕ} (hr : 2 ≤ r) (hr2 : r < F.ew)
    (hp : 2 * p + 2 ≤ F.mw) {a b : ℚ} (ha : Spec.InFmt p (Spec.emin r) a) (hb : Spec.InFmt p (Spec.emin r) b)
    (hx : |a * b| < 2 ^ Spec.emin r) : ∃ v : Bits, v.WF F ∧ v.val F = a * b := by
  obtain ⟨hem1, hem2, hrr, hcmin, hcap, hw, hew2, hinf⟩ := range_facts F w hF r p hr hr2.le (by omega)
  obtain ⟨ma, ea, a1, a2, a3⟩ := ha
  obtain ⟨mb, eb, b1, b2, b3⟩ := hb
  have hprod : a * b = ((ma * mb : ℤ) : ℚ) * 2 ^ (ea + eb) := by
    rw [a3, b3, zpow_add₀ (by norm_num)]; push_cast; ring
  by_cases h0 : ma * mb = 0
  · exact ⟨zeroBits false, zero_wf F _, by rw [val_zero, hprod, h0]; simp⟩
  have hE : ea + eb < Spec.emin r := by
    by_contra hc
    have h1 : (1 : ℚ) ≤ |((ma * mb : ℤ) : ℚ)| := by exact_mod_cast Int.one_le_abs h0
    have h2 := mul_le_mul h1 (Spec.zp_le (not_lt.mp hc)) (Spec.zp _).le (abs_nonneg _)
    rw [hprod, abs_mul, abs_of_pos (Spec.zp _)] at hx
    linarith
  have hbig : 2 * Spec.emax r + 1 ≤ F.bias := by
    have h1 : (2 : ℤ) ^ r ≤ 2 ^ (F.ew - 1) := pow_le_pow_right₀ (by norm_num) (by omega)
    have h2 : (2 : ℤ) ^ r = 2 * 2 ^ (r - 1) := by
      rw [← pow_succ']; congr 1; omega
    have h3 : (F.bias : ℤ) = 2 ^ (F.ew - 1) - 1 := by
      unfold Fmt.bias
      have : 1 ≤ 2 ^ (F.ew - 1) := Nat.one_le_two_pow
      push_cast [Nat.cast_sub this]
      rfl
    unfold Spec.emax
    omega
  have hmw : F.mw ≤ F.bias := by
    rcases hF with ⟨rfl, -⟩ | ⟨rfl, -⟩ <;> decide
  have hemm : Spec.emin r = 1 - Spec.emax r := rfl
  obtain ⟨v, v1, v2⟩ := representable F hew2 (ma * mb) (ea + eb) (by
    have h1 : |ma * mb| < 2 ^ (p + 1) * 2 ^ (p + 1) := by
      rw [abs_mul]
      exact mul_lt_mul'' a1 b1 (abs_nonneg _) (abs_nonneg _)
    rw [← pow_add] at h1
    exact lt_of_lt_of_le h1 (pow_le_pow_right₀ (by norm_num) (by omega)))
    (by unfold Fmt.uexp; omega) (by omega)
  exact ⟨v, v1, by rw [v2, hprod]⟩

/-! ## The operations -/

/-- The processor, with the operations of IEEE-754. -/
def ieeeHW (F : Fmt) : HW where
  op2
    | .add => fadd F
    | .sub => fun a b => fadd F a (fneg b)
    | .mul => fmul F
    | .div => fdiv F
  fma := ffma F

/-- The exact operations. -/
def exactOp : Op2 → ℚ → ℚ → ℚ
  | .add => (· + ·)
  | .sub => (· - ·)
  | .mul => (· * ·)
  | .div => (· / ·)

/-- A sum is never half the smallest number of the format. -/
theorem no_half {p : ℕ} {emin : ℤ} {a b : ℚ} (ha : Spec.InFmt p emin a) (hb : Spec.InFmt p emin b) :
    |a + b| ≠ 2 ^ (emin - p - 1) := by
  obtain ⟨ma, ea, -, a2, a3⟩ := ha
  obtain ⟨mb, eb, -, b2, b3⟩ := hb
  obtain ⟨A, hA⟩ := Spec.multiple a2 ma
  obtain ⟨B, hB⟩ := Spec.multiple b2 mb
  intro h
  have hz := Spec.zp (emin - p - 1)
  rw [a3, b3, hA, hB, ← add_mul, abs_mul, abs_of_pos (Spec.zp _), Spec.zp_half (emin - p)] at h
  have h1 : |(A : ℚ) + B| * 2 = 1 := by
    apply mul_right_cancel₀ hz.ne'
    linarith
  have h2 : |A + B| * 2 = 1 := by exact_mod_cast h1
  omega

/-- Operations on operands of the format: the processor and VPREC together round once. -/
theorem op_once (sem : ShiftSem) (F : Fmt) (w : Nat) (hF : IsC F w) (c : Ctx) (r p : Nat)
    (habs : c.absErr = false) (hftz : c.ftz = false) (hr : 2 ≤ r) (hr2 : r ≤ F.ew) (hp1 : 1 ≤ p)
    (hp : 2 * p + 2 ≤ F.mw) (op : Op2) (a b : Bits) (fa : a.Fin F) (fb : b.Fin F)
    (ha : Spec.InFmt p (Spec.emin r) (a.val F)) (hb : Spec.InFmt p (Spec.emin r) (b.val F))
    (hdiv : op = .div → b.val F ≠ 0)
    (hmul : op = .mul → r < F.ew ∨ 2 ^ Spec.emin r ≤ |a.val F * b.val F|)
    (hx : op = .mul ∨ op = .div → |exactOp op (a.val F) (b.val F)| ≠ 2 ^ (Spec.emin r - p - 1)) :
    ∃ res, roundBinary sem F w ((ieeeHW F).op2 op a b) false c r p = .ok res ∧
      Correct F r p (exactOp op (a.val F) (b.val F)) res := by
  obtain ⟨hem1, hem2, hrr, hcmin, hcap, hw, hew2, hinf⟩ := range_facts F w hF r p hr hr2 (by omega)
  have hemm : Spec.emin r = 1 - Spec.emax r := rfl
  have hu : F.uexp ≤ 0 := by rcases hF with ⟨rfl, -⟩ | ⟨rfl, -⟩ <;> decide
  cases op with
  | add =>
    have h := host_fadd F hew2 a b fa fb
    exact round_once sem F w hF c r p habs hftz hr hr2 hp1 hp _ _ h
      (fun hf => host_sameSide hew2 hp (by omega) (by omega) h hf fun m e hm hd => Spec.mid_add ha hb hm hd) (no_half ha hb)
  | sub =>
    have h := host_fsub F hew2 a b fa fb
    refine round_once sem F w hF c r p habs hftz hr hr2 hp1 hp _ _ h
      (fun hf => host_sameSide hew2 hp (by omega) (by omega) h hf fun m e hm hd => ?_)
      (by
        change |a.val F - b.val F| ≠ _
        rw [sub_eq_add_neg]
        exact no_half ha (Spec.inFmt_neg hb))
    change a.val F - b.val F = m
    change 2 * |a.val F - b.val F - m| ≤ _ at hd
    rw [sub_eq_add_neg (a.val F)] at hd ⊢
    exact Spec.mid_add ha (Spec.inFmt_neg hb) hm hd
  | mul =>
    have h := host_fmul F hew2 hu a b fa fb
    refine round_once sem F w hF c r p habs hftz hr hr2 hp1 hp _ _ h (fun hf => ?_) (hx (.inl rfl))
    by_cases hn : 2 ^ Spec.emin r ≤ |a.val F * b.val F|
    · exact host_sameSide hew2 hp (by omega) (by omega) h hf fun m e hm hd => mid_mul ha hb hn hm hd
    · rcases hmul rfl with hrr | hc
      · obtain ⟨v, v1, v2⟩ := small_product hF hr hrr hp ha hb (not_le.mp hn)
        have h3 := h.near hf v v1
        rw [v2, sub_self, abs_zero] at h3
        have h4 : (fmul F a b).val F = a.val F * b.val F := by
          linarith [abs_eq_zero.mp (le_antisymm h3 (abs_nonneg _))]
        intro m e _
        change ((a.val F * b.val F < m ↔ (fmul F a b).val F < m) ∧ (a.val F * b.val F = m ↔ (fmul F a b).val F = m))
        rw [h4]
        exact ⟨Iff.rfl, Iff.rfl⟩
      · exact absurd hc hn
  | div =>
    have h := host_fdiv F hew2 hu a b fa fb (hdiv rfl)
    exact round_once sem F w hF c r p habs hftz hr hr2 hp1 hp _ _ h
      (fun hf => host_sameSide hew2 hp (by omega) (by omega) h hf fun m e hm hd =>
        Spec.mid_div ha hb (hdiv rfl) hm hd) (hx (.inr rfl))

/-- **C84** (operands of the format).  In the modes that round the result, the four operations on numbers of
the format give the exact result rounded once to nearest even, with the overflow of the format, when
the format has less than half the precision of the type.  Left out: the results at half the smallest
subnormal number, and the products below the normal numbers of the type itself. -/
theorem C84_single_rounding_partial (sem : ShiftSem) (F : Fmt) (w : Nat) (hF : IsC F w) (c : Cfg)
    (hm : c.mode = .ob) (r p : Nat) (habs : c.absErr = false) (hftz : c.ftz = false) (hr : 2 ≤ r) (hr2 : r ≤ F.ew)
    (hp1 : 1 ≤ p) (hp : 2 * p + 2 ≤ F.mw) (op : Op2) (a b : Bits) (fa : a.Fin F) (fb : b.Fin F)
    (ha : Spec.InFmt p (Spec.emin r) (a.val F)) (hb : Spec.InFmt p (Spec.emin r) (b.val F))
    (hdiv : op = .div → b.val F ≠ 0)
    (hmul : op = .mul → r < F.ew ∨ 2 ^ Spec.emin r ≤ |a.val F * b.val F|)
    (hx : op = .mul ∨ op = .div → |exactOp op (a.val F) (b.val F)| ≠ 2 ^ (Spec.emin r - p - 1)) :
    ∃ res, binaryOp sem F w (ieeeHW F) c r p op a b = .ok res ∧
      Correct F r p (exactOp op (a.val F) (b.val F)) res := by
  obtain ⟨res, h1, h2⟩ := op_once sem F w hF c.ctx r p habs hftz hr hr2 hp1 hp op a b fa fb ha hb hdiv hmul hx
  refine ⟨res, ?_, h2⟩
  unfold binaryOp
  rw [hm, if_neg (by simp)]
  exact h1

/-- **C84** (any operands).  In full mode the operands may be any finite numbers: they are rounded to
the format first, and the operation is then rounded once. -/
theorem C84_full_mode_partial (sem : ShiftSem) (F : Fmt) (w : Nat) (hF : IsC F w) (c : Cfg)
    (hm : c.mode = .full) (r p : Nat) (habs : c.absErr = false) (hftz : c.ftz = false) (hr : 2 ≤ r) (hr2 : r ≤ F.ew)
    (hp1 : 1 ≤ p) (hp : 2 * p + 2 ≤ F.mw) (op : Op2) (a b a' b' : Bits) (wa : a.WF F) (wb : b.WF F)
    (fa : a.Fin F) (fb : b.Fin F)
    (ha : roundBinary sem F w a true c.ctx r p = .ok a') (hb : roundBinary sem F w b true c.ctx r p = .ok b')
    (fa' : a'.Fin F) (fb' : b'.Fin F) (hdiv : op = .div → b'.val F ≠ 0)
    (hmul : op = .mul → r < F.ew ∨ 2 ^ Spec.emin r ≤ |a'.val F * b'.val F|)
    (hx : op = .mul ∨ op = .div → |exactOp op (a'.val F) (b'.val F)| ≠ 2 ^ (Spec.emin r - p - 1)) :
    ∃ res, binaryOp sem F w (ieeeHW F) c r p op a b = .ok res ∧
      Correct F r p (exactOp op (a'.val F) (b'.val F)) res := by
  have h1 := (C03_result_in_format sem F w hF a a' true c.ctx r p habs hr hr2 hp1 (by omega) (.inl (by omega)) wa fa
    ha fa').1
  have h2 := (C03_result_in_format sem F w hF b b' true c.ctx r p habs hr hr2 hp1 (by omega) (.inl (by omega)) wb fb
    hb fb').1
  obtain ⟨res, h3, h4⟩ := op_once sem F w hF c.ctx r p habs hftz hr hr2 hp1 hp op a' b' fa' fb' h1 h2 hdiv hmul hx
  refine ⟨res, ?_, h4⟩
  unfold binaryOp
  rw [hm, if_pos (by simp)]
  simp only [Int.toNat_natCast]
  rw [ha, hb]
  exact h3

/-! ## Where it fails -/

theorem inFmt_imag (F : Fmt) (p : ℕ) (emin : ℤ) (v : Bits) (m : ℤ) (c : ℕ) (h : v.imag F = m * 2 ^ c)
    (h1 : |m| < 2 ^ (p + 1)) (h2 : emin - p ≤ F.uexp + c) : Spec.InFmt p emin (v.val F) :=
  ⟨m, F.uexp + c, h1, h2, by rw [val_eq_imag, h, Spec.zp_add]; push_cast; ring⟩

/-- A correct result is as near as any number of the format. -/
theorem Correct.near {F : Fmt} {r p : ℕ} {x : ℚ} {y : Bits} (h : Correct F r p x y) (hf : y.Fin F) (z : ℚ)
    (hz : Spec.InFmt p (Spec.emin r) z) : |x - y.val F| ≤ |x - z| := by
  by_cases hx : |x| < overflowFrom p (Spec.emax r)
  · exact (h.1 hx).2.2.1.2 z hz
  · exact absurd (by rw [h.2 (not_lt.mp hx)]; rfl) hf

/-- `1 + 2^-p`, a number just below half its last unit, and what VPREC makes of their sum. -/
def sumA (F : Fmt) (p : ℕ) : Bits := ⟨false, F.bias, 2 ^ (F.mw - p)⟩
def sumB (F : Fmt) (p : ℕ) : Bits := ⟨false, F.bias - p - 2, 2 ^ F.mw - 2 ^ (F.mw - p)⟩
def sumR (F : Fmt) (p : ℕ) : Bits := ⟨false, F.bias, 2 ^ (F.mw - p + 1)⟩

/-- What is to be computed. -/
def SumFacts (F : Fmt) (p : ℕ) : Prop :=
  (sumA F p).imag F = (2 ^ p + 1) * 2 ^ (-F.uexp - p).toNat ∧
  (sumB F p).imag F = (2 ^ (p + 1) - 1) * 2 ^ (-F.uexp - 2 * p - 2).toNat ∧
  |(sumA F p).imag F + (sumB F p).imag F - (sumA F p).imag F| <
    |(sumA F p).imag F + (sumB F p).imag F - (sumR F p).imag F|

instance (F : Fmt) (p : ℕ) : Decidable (SumFacts F p) := by unfold SumFacts; infer_instance

theorem sum_facts32 : ∀ p ∈ List.range' 11 12, SumFacts b32 p ∧
    ∀ sem ∈ [ShiftSem.strict, ShiftSem.wrap],
      round32 sem (fadd b32 (sumA b32 p) (sumB b32 p)) false init.ctx 8 p = .ok (sumR b32 p) := by
  decide +kernel

theorem sum_facts64 : ∀ p ∈ List.range' 26 26, SumFacts b64 p ∧
    ∀ sem ∈ [ShiftSem.strict, ShiftSem.wrap],
      round64 sem (fadd b64 (sumA b64 p) (sumB b64 p)) false init.ctx 11 p = .ok (sumR b64 p) := by
  decide +kernel

/-- In the mode that rounds results. -/
theorem binaryOp_ob (sem : ShiftSem) (F : Fmt) (w : Nat) (hw : HW) (c : Cfg) (hm : c.mode = .ob) (r p : ℕ) (op : Op2)
    (a b : Bits) : binaryOp sem F w hw c r p op a b = roundBinary sem F w (hw.op2 op a b) false c.ctx r p := by
  unfold binaryOp
  rw [hm, if_neg (by simp)]
  rfl

theorem ternaryOp_ob (sem : ShiftSem) (F : Fmt) (w : Nat) (hw : HW) (c : Cfg) (hm : c.mode = .ob) (r p : ℕ)
    (x y z : Bits) : ternaryOp sem F w hw c r p x y z = roundBinary sem F w (hw.fma x y z) false c.ctx r p := by
  unfold ternaryOp
  rw [hm, if_neg (by simp)]
  rfl

theorem sum_wrong (sem : ShiftSem) (F : Fmt) (w r p : ℕ) (hp1 : 1 ≤ p) (h : SumFacts F p) (h1 : 2 * p + 2 ≤ -F.uexp)
    (h2 : Spec.emin r ≤ -p - 2)
    (h3 : roundBinary sem F w (fadd F (sumA F p) (sumB F p)) false init.ctx r p = .ok (sumR F p))
    (h4 : F.bias ≠ F.expInf) (h5 : F.bias - p - 2 ≠ F.expInf) :
    ∃ a b res, a.Fin F ∧ b.Fin F ∧ Spec.InFmt p (Spec.emin r) (a.val F) ∧ Spec.InFmt p (Spec.emin r) (b.val F) ∧
      binaryOp sem F w (ieeeHW F) init r p .add a b = .ok res ∧ ¬ Correct F r p (a.val F + b.val F) res := by
  have ha : Spec.InFmt p (Spec.emin r) ((sumA F p).val F) := by
    refine inFmt_imag F p _ _ _ _ h.1 ?_ (by omega)
    have : (1 : ℤ) < 2 ^ p := one_lt_pow₀ (by norm_num) (by omega)
    rw [abs_of_pos (by positivity), pow_succ]
    omega
  have hb : Spec.InFmt p (Spec.emin r) ((sumB F p).val F) := by
    refine inFmt_imag F p _ _ _ _ h.2.1 ?_ (by omega)
    have : (0 : ℤ) < 2 ^ (p + 1) := by positivity
    rw [abs_of_nonneg (by omega)]
    omega
  refine ⟨sumA F p, sumB F p, sumR F p, h4, h5, ha, hb, ?_, ?_⟩
  · rw [binaryOp_ob _ _ _ _ _ rfl]
    exact h3
  · intro hc
    have h6 := hc.near h4 _ ha
    have h7 := h.2.2
    rw [val_eq_imag, val_eq_imag, val_eq_imag, ← add_mul, ← sub_mul, ← sub_mul, abs_mul, abs_mul] at h6
    have h8 := le_of_mul_le_mul_right h6 (by rw [abs_of_pos (Spec.zp _)]; exact Spec.zp _)
    have h9 : |(sumA F p).imag F + (sumB F p).imag F - (sumR F p).imag F| ≤
        |(sumA F p).imag F + (sumB F p).imag F - (sumA F p).imag F| := by exact_mod_cast h8
    omega

/-- **C84** fails for sums as soon as the precision is half that of the type, in `float`: the bound on the
precision cannot be improved. -/
theorem C84_sum_rounded_twice32 (sem : ShiftSem) (p : ℕ) (h1 : b32.mw < 2 * p + 2) (h2 : p < b32.mw) :
    ∃ a b res, a.Fin b32 ∧ b.Fin b32 ∧ Spec.InFmt p (Spec.emin 8) (a.val b32) ∧
      Spec.InFmt p (Spec.emin 8) (b.val b32) ∧
      binaryOp sem b32 32 (ieeeHW b32) init 8 p .add a b = .ok res ∧ ¬ Correct b32 8 p (a.val b32 + b.val b32) res := by
  have e1 : b32.mw = 23 := rfl
  have e2 : b32.bias = 127 := rfl
  have e3 : b32.expInf = 255 := rfl
  have e4 : b32.uexp = -149 := rfl
  have e5 : Spec.emin 8 = -126 := rfl
  obtain ⟨h3, h4⟩ := sum_facts32 p (by rw [List.mem_range']; exact ⟨p - 11, by omega, by omega⟩)
  exact sum_wrong sem b32 32 8 p (by omega) h3 (by omega) (by omega) (h4 sem (by cases sem <;> simp)) (by omega)
    (by omega)

/-- **C84** fails for sums as soon as the precision is half that of the type, in `double`. -/
theorem C84_sum_rounded_twice64 (sem : ShiftSem) (p : ℕ) (h1 : b64.mw < 2 * p + 2) (h2 : p < b64.mw) :
    ∃ a b res, a.Fin b64 ∧ b.Fin b64 ∧ Spec.InFmt p (Spec.emin 11) (a.val b64) ∧
      Spec.InFmt p (Spec.emin 11) (b.val b64) ∧
      binaryOp sem b64 64 (ieeeHW b64) init 11 p .add a b = .ok res ∧
      ¬ Correct b64 11 p (a.val b64 + b.val b64) res := by
  have e1 : b64.mw = 52 := rfl
  have e2 : b64.bias = 1023 := rfl
  have e3 : b64.expInf = 2047 := rfl
  have e4 : b64.uexp = -1074 := rfl
  have e5 : Spec.emin 11 = -1022 := rfl
  obtain ⟨h3, h4⟩ := sum_facts64 p (by rw [List.mem_range']; exact ⟨p - 26, by omega, by omega⟩)
  exact sum_wrong sem b64 64 11 p (by omega) h3 (by omega) (by omega) (h4 sem (by cases sem <;> simp)) (by omega)
    (by omega)

/-- `1 + 2^-2`, `1 + 2^(1-p)` and `2^-100`; their product and sum in VPREC; a nearer number. -/
def fmaA (F : Fmt) : Bits := ⟨false, F.bias, 2 ^ (F.mw - 2)⟩
def fmaB (F : Fmt) (p : ℕ) : Bits := ⟨false, F.bias, 2 ^ (F.mw - p + 1)⟩
def fmaC (F : Fmt) : Bits := ⟨false, F.bias - 100, 0⟩
def fmaR (F : Fmt) (p : ℕ) : Bits := ⟨false, F.bias, 2 ^ (F.mw - 2) + 2 ^ (F.mw - p + 1)⟩
def fmaG (F : Fmt) (p : ℕ) : Bits := ⟨false, F.bias, 2 ^ (F.mw - 2) + 2 ^ (F.mw - p + 1) + 2 ^ (F.mw - p)⟩

/-- What is to be computed. -/
def FmaFacts (F : Fmt) (p : ℕ) : Prop :=
  (fmaA F).imag F = 5 * 2 ^ (-F.uexp - 2).toNat ∧ (fmaB F p).imag F = (2 ^ (p - 1) + 1) * 2 ^ (-F.uexp - p + 1).toNat ∧
  (fmaC F).imag F = 1 * 2 ^ (-F.uexp - 100).toNat ∧
  (fmaG F p).imag F = (2 ^ p + 2 ^ (p - 2) + 3) * 2 ^ (-F.uexp - p).toNat ∧
  |(fmaA F).imag F * (fmaB F p).imag F + (fmaC F).imag F * 2 ^ (-F.uexp).toNat -
      (fmaG F p).imag F * 2 ^ (-F.uexp).toNat| <
    |(fmaA F).imag F * (fmaB F p).imag F + (fmaC F).imag F * 2 ^ (-F.uexp).toNat -
      (fmaR F p).imag F * 2 ^ (-F.uexp).toNat|

instance (F : Fmt) (p : ℕ) : Decidable (FmaFacts F p) := by unfold FmaFacts; infer_instance

theorem fma_facts32 : ∀ p ∈ List.range' 3 20, FmaFacts b32 p ∧
    ∀ sem ∈ [ShiftSem.strict, ShiftSem.wrap],
      round32 sem (ffma b32 (fmaA b32) (fmaB b32 p) (fmaC b32)) false init.ctx 8 p = .ok (fmaR b32 p) := by
  decide +kernel

theorem fma_facts64 : ∀ p ∈ List.range' 3 49, FmaFacts b64 p ∧
    ∀ sem ∈ [ShiftSem.strict, ShiftSem.wrap],
      round64 sem (ffma b64 (fmaA b64) (fmaB b64 p) (fmaC b64)) false init.ctx 11 p = .ok (fmaR b64 p) := by
  decide +kernel

theorem fma_wrong (sem : ShiftSem) (F : Fmt) (w r p : ℕ) (hp : 3 ≤ p) (h : FmaFacts F p) (h1 : 101 + p ≤ -F.uexp)
    (h2 : Spec.emin r ≤ -100)
    (h3 : roundBinary sem F w (ffma F (fmaA F) (fmaB F p) (fmaC F)) false init.ctx r p = .ok (fmaR F p))
    (h4 : F.bias ≠ F.expInf) (h5 : F.bias - 100 ≠ F.expInf) :
    ∃ a b c res, a.Fin F ∧ b.Fin F ∧ c.Fin F ∧ Spec.InFmt p (Spec.emin r) (a.val F) ∧
      Spec.InFmt p (Spec.emin r) (b.val F) ∧ Spec.InFmt p (Spec.emin r) (c.val F) ∧
      ternaryOp sem F w (ieeeHW F) init r p a b c = .ok res ∧
      ¬ Correct F r p (a.val F * b.val F + c.val F) res := by
  obtain ⟨f1, f2, f3, f4, f5⟩ := h
  obtain ⟨q, rfl⟩ : ∃ q, p = q + 3 := ⟨p - 3, by omega⟩
  have hq : (1 : ℤ) ≤ 2 ^ q := one_le_pow₀ (by norm_num)
  have p1 : (2 : ℤ) ^ (q + 3 + 1) = 16 * 2 ^ q := by ring
  have p2 : (2 : ℤ) ^ (q + 3 - 1) = 4 * 2 ^ q := by rw [show q + 3 - 1 = q + 2 by omega]; ring
  have p3 : (2 : ℤ) ^ (q + 3) = 8 * 2 ^ q := by ring
  have p4 : (2 : ℤ) ^ (q + 3 - 2) = 2 * 2 ^ q := by rw [show q + 3 - 2 = q + 1 by omega]; ring
  push_cast at *
  have ha := inFmt_imag F (q + 3) (Spec.emin r) _ _ _ f1 (by rw [p1, abs_of_pos (by norm_num)]; omega) (by push_cast; omega)
  have hb := inFmt_imag F (q + 3) (Spec.emin r) _ _ _ f2 (by rw [p1, p2, abs_of_pos (by omega)]; omega)
    (by push_cast; omega)
  have hc := inFmt_imag F (q + 3) (Spec.emin r) _ _ _ f3 (by rw [p1, abs_one]; omega) (by push_cast; omega)
  have hg := inFmt_imag F (q + 3) (Spec.emin r) _ _ _ f4 (by rw [p1, p3, p4, abs_of_pos (by omega)]; omega)
    (by push_cast; omega)
  refine ⟨fmaA F, fmaB F (q + 3), fmaC F, fmaR F (q + 3), h4, h4, h5, ha, hb, hc, ?_, ?_⟩
  · have := ternaryOp_ob sem F w (ieeeHW F) init rfl r (q + 3) (fmaA F) (fmaB F (q + 3)) (fmaC F)
    push_cast at this
    rw [this]
    exact h3
  · intro hcor
    have h6 := hcor.near h4 _ hg
    have hj : (2 : ℚ) ^ F.uexp = 2 ^ (-F.uexp).toNat * (2 ^ F.uexp * 2 ^ F.uexp) := by
      rw [← zpow_add₀ (by norm_num), ← Spec.zp_add]
      congr 1
      omega
    have hsc : ∀ a b c d : Bits, |a.val F * b.val F + c.val F - d.val F| =
        ((|a.imag F * b.imag F + c.imag F * 2 ^ (-F.uexp).toNat - d.imag F * 2 ^ (-F.uexp).toNat| : ℤ) : ℚ) *
          (2 ^ F.uexp * 2 ^ F.uexp) := by
      intro a b c d
      have hz := mul_pos (Spec.zp F.uexp) (Spec.zp F.uexp)
      rw [Int.cast_abs, ← abs_of_pos hz, ← abs_mul]
      congr 1
      rw [val_eq_imag, val_eq_imag, val_eq_imag F c, val_eq_imag F d]
      push_cast
      linear_combination ((c.imag F : ℚ) - d.imag F) * hj
    rw [hsc, hsc] at h6
    have h8 := le_of_mul_le_mul_right h6 (mul_pos (Spec.zp F.uexp) (Spec.zp F.uexp))
    have h9 := Int.cast_le.mp h8
    omega

/-- **C84** fails for the fused multiply-add, whatever the precision, in `float`. -/
theorem C84_fma_rounded_twice32 (sem : ShiftSem) (p : ℕ) (h1 : 3 ≤ p) (h2 : p < b32.mw) :
    ∃ a b c res, a.Fin b32 ∧ b.Fin b32 ∧ c.Fin b32 ∧ Spec.InFmt p (Spec.emin 8) (a.val b32) ∧
      Spec.InFmt p (Spec.emin 8) (b.val b32) ∧ Spec.InFmt p (Spec.emin 8) (c.val b32) ∧
      ternaryOp sem b32 32 (ieeeHW b32) init 8 p a b c = .ok res ∧
      ¬ Correct b32 8 p (a.val b32 * b.val b32 + c.val b32) res := by
  have e1 : b32.mw = 23 := rfl
  have e2 : b32.bias = 127 := rfl
  have e3 : b32.expInf = 255 := rfl
  have e4 : b32.uexp = -149 := rfl
  have e5 : Spec.emin 8 = -126 := rfl
  obtain ⟨h3, h4⟩ := fma_facts32 p (by rw [List.mem_range']; exact ⟨p - 3, by omega, by omega⟩)
  exact fma_wrong sem b32 32 8 p h1 h3 (by omega) (by omega) (h4 sem (by cases sem <;> simp)) (by omega) (by omega)

/-- **C84** fails for the fused multiply-add, whatever the precision, in `double`. -/
theorem C84_fma_rounded_twice64 (sem : ShiftSem) (p : ℕ) (h1 : 3 ≤ p) (h2 : p < b64.mw) :
    ∃ a b c res, a.Fin b64 ∧ b.Fin b64 ∧ c.Fin b64 ∧ Spec.InFmt p (Spec.emin 11) (a.val b64) ∧
      Spec.InFmt p (Spec.emin 11) (b.val b64) ∧ Spec.InFmt p (Spec.emin 11) (c.val b64) ∧
      ternaryOp sem b64 64 (ieeeHW b64) init 11 p a b c = .ok res ∧
      ¬ Correct b64 11 p (a.val b64 * b.val b64 + c.val b64) res := by
  have e1 : b64.mw = 52 := rfl
  have e2 : b64.bias = 1023 := rfl
  have e3 : b64.expInf = 2047 := rfl
  have e4 : b64.uexp = -1074 := rfl
  have e5 : Spec.emin 11 = -1022 := rfl
  obtain ⟨h3, h4⟩ := fma_facts64 p (by rw [List.mem_range']; exact ⟨p - 3, by omega, by omega⟩)
  exact fma_wrong sem b64 64 11 p h1 h3 (by omega) (by omega) (h4 sem (by cases sem <;> simp)) (by omega) (by omega)

/-- The operations of the processor. -/
theorem host_op {F : Fmt} {w : ℕ} (hF : IsC F w) (op : Op2) (a b : Bits) (fa : a.Fin F) (fb : b.Fin F)
    (hdiv : op = .div → b.val F ≠ 0) : Host F (exactOp op (a.val F) (b.val F)) ((ieeeHW F).op2 op a b) := by
  have hew : 2 ≤ F.ew := by rcases hF with ⟨rfl, -⟩ | ⟨rfl, -⟩ <;> decide
  have hu : F.uexp ≤ 0 := by rcases hF with ⟨rfl, -⟩ | ⟨rfl, -⟩ <;> decide
  cases op with
  | add => exact host_fadd F hew a b fa fb
  | sub => exact host_fsub F hew a b fa fb
  | mul => exact host_fmul F hew hu a b fa fb
  | div => exact host_fdiv F hew hu a b fa fb (hdiv rfl)

/-- **C84** fails whenever the exact result is half the smallest number of the format. -/
theorem C84_half_tie_wrong (sem : ShiftSem) (F : Fmt) (w : Nat) (hF : IsC F w) (c : Cfg)
    (hm : c.mode = .ob) (r p : Nat) (habs : c.absErr = false) (hftz : c.ftz = false) (hr : 2 ≤ r) (hr2 : r ≤ F.ew)
    (hp1 : 1 ≤ p) (hp : p < F.mw) (op : Op2) (a b : Bits) (fa : a.Fin F) (fb : b.Fin F)
    (hdiv : op = .div → b.val F ≠ 0) (hx : |exactOp op (a.val F) (b.val F)| = 2 ^ (Spec.emin r - p - 1)) :
    ∃ res, binaryOp sem F w (ieeeHW F) c r p op a b = .ok res ∧
      ¬ Correct F r p (exactOp op (a.val F) (b.val F)) res := by
  obtain ⟨hem1, hem2, hrr, hcmin, hcap, hw, hew2, hinf⟩ := range_facts F w hF r p hr hr2 hp.le
  have hemm : Spec.emin r = 1 - Spec.emax r := rfl
  have h := host_op hF op a b fa fb hdiv
  generalize exactOp op (a.val F) (b.val F) = x at h hx ⊢
  have hsmall : ∀ (P : ℕ) (E : ℤ), Spec.emax r ≤ E → |x| < overflowFrom P E := by
    intro P E hE
    rw [hx]
    unfold overflowFrom
    have h1 : (2 : ℚ) ^ E = 2 ^ (P + 1) * 2 ^ (E - P - 1) := by
      rw [← Spec.zp_add]; congr 1; push_cast; ring
    have h2 : (2 : ℚ) ^ (Spec.emin r - p - 1) < 2 ^ E := zpow_lt_zpow_right₀ (by norm_num) (by omega)
    have h3 : (1 : ℚ) ≤ 2 ^ (P + 1) := one_le_pow₀ (by norm_num)
    have h4 : (2 : ℚ) ^ (P + 2) = 2 * 2 ^ (P + 1) := by ring
    have h5 : (2 : ℚ) ^ (P + 1) * 2 ^ (E - P - 1) ≤ (2 ^ (P + 2) - 1) * 2 ^ (E - P - 1) :=
      mul_le_mul_of_nonneg_right (by linarith) (Spec.zp _).le
    linarith
  have hf : ((ieeeHW F).op2 op a b).exp < F.expInf := by
    by_contra hc
    exact absurd (hsmall _ _ hem2) (not_lt.mpr (h.inf hc).2)
  have hxs : ∃ s : ℤ, |s| ≤ 1 ∧ x = s * 2 ^ (Spec.emin r - p - 1) := by
    rcases (abs_eq (Spec.zp _).le).mp hx with h1 | h1
    · exact ⟨1, by simp, by rw [h1]; simp⟩
    · exact ⟨-1, by simp, by rw [h1]; simp⟩
  obtain ⟨s, hs, hs2⟩ := hxs
  obtain ⟨v, v1, v2⟩ := representable F hew2 s (Spec.emin r - p - 1)
    (lt_of_le_of_lt hs (one_lt_pow₀ (by norm_num) (by omega))) (by unfold Fmt.uexp; omega) (by
      have : (F.mw : ℤ) ≤ F.bias := by rcases hF with ⟨rfl, -⟩ | ⟨rfl, -⟩ <;> decide
      omega)
  have hval : ((ieeeHW F).op2 op a b).val F = x := by
    have h3 := h.near hf v v1
    rw [v2, ← hs2, sub_self, abs_zero] at h3
    linarith [abs_eq_zero.mp (le_antisymm h3 (abs_nonneg _))]
  obtain ⟨res, h1, h2, -, h4⟩ := C02_half_unit_tie_not_even sem F w hF _ false c.ctx r p habs
    (by change ((c.daz && false) || (c.ftz && !false)) = false; rw [hftz]; simp) hr hr2 hp1 hp.le h.wf hf.ne (by rw [hval, hx])
  refine ⟨res, by rw [binaryOp_ob _ _ _ _ _ hm]; exact h1, fun hc => ?_⟩
  rw [hval] at h4
  exact h4 (hc.1 (hsmall _ _ le_rfl)).2.2

/-- **C84** fails for products below the normal numbers when the range is that of the type:
`1105 * 2^-75` times `1201 * 2^-76` in `float`, 10 bits of precision. -/
theorem C84_small_product_rounded_twice (sem : ShiftSem) :
    ∃ a b res, a.Fin b32 ∧ b.Fin b32 ∧ Spec.InFmt 10 (Spec.emin 8) (a.val b32) ∧
      Spec.InFmt 10 (Spec.emin 8) (b.val b32) ∧
      binaryOp sem b32 32 (ieeeHW b32) init 8 10 .mul a b = .ok res ∧
      ¬ Correct b32 8 10 (a.val b32 * b.val b32) res := by
  have e4 : b32.uexp = -149 := rfl
  have e5 : Spec.emin 8 = -126 := rfl
  refine ⟨⟨false, 62, 81 * 2 ^ 13⟩, ⟨false, 61, 177 * 2 ^ 13⟩, ⟨false, 0, 40 * 2 ^ 13⟩, by decide, by decide,
    inFmt_imag b32 10 _ _ 1105 74 (by decide +kernel) (by decide) (by rw [e4, e5]; norm_num),
    inFmt_imag b32 10 _ _ 1201 73 (by decide +kernel) (by decide) (by rw [e4, e5]; norm_num),
    by cases sem <;> decide +kernel, fun hc => ?_⟩
  have h := hc.near (by decide) _ (inFmt_imag b32 10 (Spec.emin 8) ⟨false, 0, 41 * 2 ^ 13⟩ 41 13 (by decide +kernel)
    (by decide) (by rw [e4, e5]; norm_num))
  have i1 : (⟨false, 62, 81 * 2 ^ 13⟩ : Bits).imag b32 = 1105 * 2 ^ 74 := by decide +kernel
  have i2 : (⟨false, 61, 177 * 2 ^ 13⟩ : Bits).imag b32 = 1201 * 2 ^ 73 := by decide +kernel
  have i3 : (⟨false, 0, 40 * 2 ^ 13⟩ : Bits).imag b32 = 40 * 2 ^ 13 := by decide +kernel
  have i4 : (⟨false, 0, 41 * 2 ^ 13⟩ : Bits).imag b32 = 41 * 2 ^ 13 := by decide +kernel
  rw [val_eq_imag, val_eq_imag, val_eq_imag, val_eq_imag, i1, i2, i3, i4, e4] at h
  norm_num [abs_of_pos, abs_of_neg] at h

/-- One third in binary16, computed in `float`: 1365 * 2^-12, the nearest number with 11 bits. -/
example : binaryOp .strict b32 32 (ieeeHW b32) init 5 10 .div ⟨false, 127, 0⟩ ⟨false, 128, 2 ^ 22⟩ =
    .ok ⟨false, 125, 341 * 2 ^ 13⟩ := by decide +kernel

/-- And it is the correct rounding, by the theorem. -/
example : ∃ res, binaryOp .strict b32 32 (ieeeHW b32) init 5 10 .div ⟨false, 127, 0⟩ ⟨false, 128, 2 ^ 22⟩ = .ok res ∧
    Correct b32 5 10 (1 / 3) res := by
  have e4 : b32.uexp = -149 := rfl
  have e5 : Spec.emin 5 = -14 := rfl
  have i1 : (⟨false, 127, 0⟩ : Bits).imag b32 = 1 * 2 ^ 149 := by decide +kernel
  have i2 : (⟨false, 128, 2 ^ 22⟩ : Bits).imag b32 = 3 * 2 ^ 149 := by decide +kernel
  have v1 : (⟨false, 127, 0⟩ : Bits).val b32 = 1 := by rw [val_eq_imag, i1, e4]; norm_num
  have v2 : (⟨false, 128, 2 ^ 22⟩ : Bits).val b32 = 3 := by rw [val_eq_imag, i2, e4]; norm_num
  have h := C84_single_rounding_partial .strict b32 32 (.inl ⟨rfl, rfl⟩) init rfl 5 10 rfl rfl (by norm_num) (by decide)
    (by norm_num) (by decide) .div ⟨false, 127, 0⟩ ⟨false, 128, 2 ^ 22⟩ (by decide) (by decide)
    (inFmt_imag b32 10 _ _ 1 149 i1 (by decide) (by rw [e4, e5]; norm_num))
    (inFmt_imag b32 10 _ _ 3 149 i2 (by decide) (by rw [e4, e5]; norm_num))
    (fun _ => by rw [v2]; norm_num) (by simp) (fun _ => by
      rw [v1, v2, e5]
      change |(1 : ℚ) / 3| ≠ _
      norm_num [abs_of_pos])
  rw [v1, v2] at h
  exact h

/-- Overflow of binary16: 65504 + 16 is infinite, 65504 + 8 is 65504. -/
example : binaryOp .strict b32 32 (ieeeHW b32) init 5 10 .add ⟨false, 142, 1023 * 2 ^ 13⟩ ⟨false, 131, 0⟩ =
      .ok (infBits b32 false) ∧
    binaryOp .strict b32 32 (ieeeHW b32) init 5 10 .add ⟨false, 142, 1023 * 2 ^ 13⟩ ⟨false, 130, 0⟩ =
      .ok ⟨false, 142, 1023 * 2 ^ 13⟩ := by decide +kernel

/-- The tie of `C84_half_tie_wrong`: 2^-12 * 2^-13 in binary16 gives 2^-24. -/
example : binaryOp .strict b32 32 (ieeeHW b32) init 5 10 .mul ⟨false, 115, 0⟩ ⟨false, 114, 0⟩ =
    .ok ⟨false, 103, 0⟩ := by decide +kernel

/-- Full mode: the operands 1 + 2^-11 and 2^-12 are rounded to 1 and 2^-12 first. -/
example : binaryOp .strict b32 32 (ieeeHW b32) { init with mode := .full } 5 10 .add ⟨false, 127, 2 ^ 12⟩ ⟨false, 115, 0⟩ =
    .ok ⟨false, 127, 0⟩ := by decide +kernel

end Verif.Vprec
