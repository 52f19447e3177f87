import Verif.Float.Double
import Mathlib.Tactic.LinearCombination
import Mathlib.Tactic.GCongr
import Mathlib.Tactic.FieldSimp

/-!
# Division: rounding a quotient once, and through a wider format
-/

namespace Verif.Fp
open Verif

/-- `n / d` rounded to an integer, to nearest, ties to even. -/
def rneDiv (n d : Nat) : Nat :=
  if d < 2 * (n % d) ∨ (2 * (n % d) = d ∧ n / d % 2 = 1) then n / d + 1 else n / d

/-- IEEE-754 round-to-nearest-even of the magnitude `n / d` (in units of the smallest
subnormal of `F`) to the format `F`; overflow gives infinity.  `encode F s n j` is the
case `d = 2^j` (`encodeQ_pow`). -/
def encodeQ (F : Fmt) (s : Bool) (n d : Nat) : Bits :=
  let k := Nat.log2 (n / d) - F.mw
  let p := k * 2 ^ F.mw + rneDiv n (d * 2 ^ k)
  if p < F.expInf * 2 ^ F.mw then ofPat F s p else infBits F s

/-- Hardware division in round-to-nearest-even (IEEE-754 §5.4.1, §6.1-6.3, §7.2-7.3).  The
quotient of the magnitudes, both in units of the smallest subnormal `2^uexp`, is a pure
number: `2^(-uexp)` brings it back to that unit. -/
def fdiv (F : Fmt) (a b : Bits) : Bits :=
  if a.isNaN F ∨ b.isNaN F then nanBits F
  else if a.isInf F then (if b.isInf F then nanBits F else infBits F (a.sign != b.sign))
  else if b.isInf F then zeroBits (a.sign != b.sign)
  else if b.isZero then (if a.isZero then nanBits F else infBits F (a.sign != b.sign))
  else encodeQ F (a.sign != b.sign) (a.mag F * 2 ^ (-F.uexp).toNat) (b.mag F)

theorem rneDiv_pow (n j : Nat) : rneDiv n (2 ^ j) = rneShift n j := rfl

/-- A dyadic quotient is rounded as `encode` does. -/
theorem encodeQ_pow (F : Fmt) (s : Bool) (n j : Nat) : encodeQ F s n (2 ^ j) = encode F s n j := by
  unfold encodeQ encode
  have hl : Nat.log2 (n / 2 ^ j) - F.mw = Nat.log2 n - (j + F.mw) := by
    by_cases h : n < 2 ^ j
    · rw [Nat.div_eq_of_lt h]
      by_cases h0 : n = 0
      · subst h0; simp [Nat.log2]
      · have := (Nat.log2_lt h0).2 h
        have h2 : Nat.log2 0 = 0 := by simp [Nat.log2]
        rw [h2]; omega
    · have hp : 0 < 2 ^ j := by positivity
      have hn : n ≠ 0 := by omega
      have hle : j ≤ Nat.log2 n := (Nat.le_log2 hn).2 (by omega)
      have : Nat.log2 (n / 2 ^ j) = Nat.log2 n - j := by
        apply log2_of_range
        · rw [Nat.le_div_iff_mul_le hp, ← pow_add, Nat.sub_add_cancel hle]
          exact Nat.log2_self_le hn
        · rw [Nat.div_lt_iff_lt_mul hp, ← pow_add, show Nat.log2 n - j + 1 + j = Nat.log2 n + 1 by omega]
          exact Nat.lt_log2_self
      rw [this]; omega
  simp only [hl, ← pow_add, rneDiv_pow]

/-- What rounding to nearest even means. -/
structure IsRne (n d r : Nat) : Prop where
  lo : 2 * (r * d) ≤ 2 * n + d
  hi : 2 * n ≤ 2 * (r * d) + d
  tlo : 2 * (r * d) = 2 * n + d → r % 2 = 0
  thi : 2 * n = 2 * (r * d) + d → r % 2 = 0

theorem rneDiv_spec (n d : Nat) (hd : 0 < d) : IsRne n d (rneDiv n d) := by
  have h1 := Nat.div_add_mod n d
  have h2 := Nat.mod_lt n hd
  generalize hq : n / d = q at h1
  generalize hm : n % d = m at *
  have e : (q + 1) * d = q * d + d := by ring
  rw [mul_comm] at h1
  unfold rneDiv
  rw [hq, hm]
  split_ifs with h
  · constructor
    · rw [e]; omega
    · rw [e]; omega
    · rw [e]; omega
    · rw [e]; omega
  · constructor <;> omega

theorem isRne_unique {n d r r' : Nat} (hd : 0 < d) (h : IsRne n d r) (h' : IsRne n d r') : r = r' := by
  have key : ∀ r r' : Nat, IsRne n d r → IsRne n d r' → ¬ r < r' := by
    intro r r' h h' hlt
    obtain ⟨c, rfl⟩ : ∃ c, r' = r + 1 + c := ⟨r' - (r + 1), by omega⟩
    have a := h.hi
    have b := h'.lo
    have e : (r + 1 + c) * d = r * d + d + c * d := by ring
    rw [e] at b
    have hc : c = 0 := by
      by_contra h0
      have : 1 * d ≤ c * d := Nat.mul_le_mul_right _ (by omega)
      omega
    subst hc
    have t1 := h.thi (by omega)
    have t2 := h'.tlo (by rw [e]; omega)
    omega
  have := key r r' h h'
  have := key r' r h' h
  omega

theorem rneDiv_eq {n d r : Nat} (hd : 0 < d) (h : IsRne n d r) : rneDiv n d = r :=
  isRne_unique hd (rneDiv_spec n d hd) h

theorem rneDiv_scale (n d c : Nat) (hd : 0 < d) (hc : 0 < c) : rneDiv (n * c) (d * c) = rneDiv n d := by
  apply rneDiv_eq (by positivity)
  have h := rneDiv_spec n d hd
  generalize rneDiv n d = r at h
  have e : r * (d * c) = r * d * c := by ring
  constructor
  · rw [e]
    calc 2 * (r * d * c) = 2 * (r * d) * c := by ring
      _ ≤ (2 * n + d) * c := Nat.mul_le_mul_right _ h.lo
      _ = _ := by ring
  · rw [e]
    calc 2 * (n * c) = 2 * n * c := by ring
      _ ≤ (2 * (r * d) + d) * c := Nat.mul_le_mul_right _ h.hi
      _ = _ := by ring
  · intro ht
    apply h.tlo
    apply Nat.eq_of_mul_eq_mul_right hc
    rw [e] at ht
    linarith
  · intro ht
    apply h.thi
    apply Nat.eq_of_mul_eq_mul_right hc
    rw [e] at ht
    linarith

/-- Only the quotient matters. -/
theorem encodeQ_scale (F : Fmt) (s : Bool) (n d c : Nat) (hd : 0 < d) (hc : 0 < c) :
    encodeQ F s (n * c) (d * c) = encodeQ F s n d := by
  unfold encodeQ
  rw [Nat.mul_div_mul_right _ _ hc]
  generalize Nat.log2 (n / d) - F.mw = k
  simp only
  rw [show d * c * 2 ^ k = d * 2 ^ k * c by ring, rneDiv_scale n (d * 2 ^ k) c (by positivity) hc]

/-- Rounding to a multiple of `u` does not cross multiples of `u`. -/
theorem rneDiv_mono (N d u m : Nat) (hd : 0 < d) (hu : 0 < u) :
    (N ≤ m * u * d → rneDiv N (d * u) ≤ m) ∧ (m * u * d ≤ N → m ≤ rneDiv N (d * u)) := by
  have h := rneDiv_spec N (d * u) (by positivity)
  have hp : 0 < d * u := by positivity
  generalize rneDiv N (d * u) = r at *
  have e : m * u * d = m * (d * u) := by ring
  rw [e]
  generalize d * u = w at *
  constructor
  · intro hN
    by_contra hc
    have : (m + 1) * w ≤ r * w := Nat.mul_le_mul_right _ (by omega)
    have := h.lo
    rw [add_mul] at *
    omega
  · intro hN
    by_contra hc
    have : (r + 1) * w ≤ m * w := Nat.mul_le_mul_right _ (by omega)
    have := h.hi
    rw [add_mul] at *
    omega

/-- The distance from a quotient of two `p`-bit numbers to a midpoint of a `p`-bit grid. -/
theorem quotient_gap (p sa sb E k eb m D : Nat) (hsa : sa < 2 ^ p) (hsb : sb < 2 ^ p)
    (hx : sa * 2 ^ E < sb * 2 ^ eb * 2 ^ (k + p))
    (hne : (sa * 2 ^ (E + 1 + D) : ℤ) ≠ m * 2 ^ (k + D) * (sb * 2 ^ eb)) :
    (sa * 2 ^ (E + 1 + D) : ℤ) < 2 ^ (2 * p + 1) * |(sa * 2 ^ (E + 1 + D) : ℤ) - m * 2 ^ (k + D) * (sb * 2 ^ eb)| := by
  have hpos : 0 < |(sa * 2 ^ (E + 1 + D) : ℤ) - m * 2 ^ (k + D) * (sb * 2 ^ eb)| := abs_pos.2 (sub_ne_zero.2 hne)
  by_cases hc : E + 1 ≤ k + eb
  · obtain ⟨c, hc⟩ := Nat.exists_eq_add_of_le hc
    have e : (sa * 2 ^ (E + 1 + D) : ℤ) - m * 2 ^ (k + D) * (sb * 2 ^ eb) =
        2 ^ (E + 1 + D) * (sa - m * sb * 2 ^ c) := by
      have : (2 : ℤ) ^ (k + D) * 2 ^ eb = 2 ^ (E + 1 + D) * 2 ^ c := by
        rw [← pow_add, ← pow_add]; congr 1; omega
      linear_combination (-(m : ℤ) * sb) * this
    rw [e, abs_mul] at hpos ⊢
    have h2 : (0 : ℤ) < 2 ^ (E + 1 + D) := by positivity
    rw [abs_of_pos h2] at hpos ⊢
    have h1 : 1 ≤ |(sa : ℤ) - m * sb * 2 ^ c| := by
      by_contra h
      have : |(sa : ℤ) - m * sb * 2 ^ c| = 0 := by have := abs_nonneg ((sa : ℤ) - m * sb * 2 ^ c); omega
      rw [this] at hpos; simp at hpos
    have h3 : (sa : ℤ) < 2 ^ (2 * p + 1) := by
      have : (2 : ℕ) ^ p ≤ 2 ^ (2 * p + 1) := Nat.pow_le_pow_right (by norm_num) (by omega)
      exact_mod_cast lt_of_lt_of_le hsa this
    calc (sa * 2 ^ (E + 1 + D) : ℤ) < 2 ^ (2 * p + 1) * 2 ^ (E + 1 + D) := mul_lt_mul_of_pos_right h3 h2
      _ = 2 ^ (2 * p + 1) * (2 ^ (E + 1 + D) * 1) := by ring
      _ ≤ _ := by gcongr
  · obtain ⟨c, hc⟩ := Nat.exists_eq_add_of_le (show k + eb ≤ E + 1 by omega)
    have e : (sa * 2 ^ (E + 1 + D) : ℤ) - m * 2 ^ (k + D) * (sb * 2 ^ eb) =
        2 ^ (k + eb + D) * (sa * 2 ^ c - m * sb) := by
      have h1 : (2 : ℤ) ^ (k + D) * 2 ^ eb = 2 ^ (k + eb + D) := by
        rw [← pow_add]; congr 1; omega
      have h2 : (2 : ℤ) ^ (E + 1 + D) = 2 ^ (k + eb + D) * 2 ^ c := by
        rw [← pow_add]; congr 1; omega
      linear_combination (sa : ℤ) * h2 - (m : ℤ) * sb * h1
    rw [e, abs_mul] at hpos ⊢
    have h2 : (0 : ℤ) < 2 ^ (k + eb + D) := by positivity
    rw [abs_of_pos h2] at hpos ⊢
    have h1 : 1 ≤ |(sa : ℤ) * 2 ^ c - m * sb| := by
      by_contra h
      have : |(sa : ℤ) * 2 ^ c - m * sb| = 0 := by have := abs_nonneg ((sa : ℤ) * 2 ^ c - m * sb); omega
      rw [this] at hpos; simp at hpos
    have hx' : (sa * 2 ^ E : ℤ) < sb * 2 ^ eb * 2 ^ (k + p) := by exact_mod_cast hx
    have hsb' : (sb : ℤ) < 2 ^ p := by exact_mod_cast hsb
    calc (sa * 2 ^ (E + 1 + D) : ℤ) = sa * 2 ^ E * 2 ^ (D + 1) := by
          rw [show E + 1 + D = E + (D + 1) by omega, pow_add]; ring
      _ < sb * 2 ^ eb * 2 ^ (k + p) * 2 ^ (D + 1) := mul_lt_mul_of_pos_right hx' (by positivity)
      _ ≤ 2 ^ p * 2 ^ eb * 2 ^ (k + p) * 2 ^ (D + 1) := by gcongr
      _ = 2 ^ (2 * p + 1) * (2 ^ (k + eb + D) * 1) := by
          rw [mul_one, ← pow_add, ← pow_add, ← pow_add, ← pow_add]; congr 1; omega
      _ ≤ _ := by gcongr

theorem log2_quot {N d : Nat} (hd : 0 < d) (h : N / d ≠ 0) :
    d * 2 ^ Nat.log2 (N / d) ≤ N ∧ N < d * 2 ^ (Nat.log2 (N / d) + 1) := by
  have h1 := Nat.log2_self_le h
  have h2 := Nat.lt_log2_self (n := N / d)
  rw [Nat.le_div_iff_mul_le hd] at h1
  rw [Nat.div_lt_iff_lt_mul hd] at h2
  constructor <;> rw [mul_comm] <;> assumption

/-- **Double rounding of quotients**: rounding a quotient of two numbers of `F` to the
wider format, then to `F`, gives the quotient rounded once. -/
theorem encodeQ_double {F G : Fmt} {D : Nat} (h : Wider F G D) (s : Bool) (sa sb E eb : Nat)
    (hsa : sa < 2 ^ (F.mw + 1)) (hsb : sb < 2 ^ (F.mw + 1)) (hb0 : 0 < sb)
    (hlo : sb * 2 ^ eb * 2 ^ G.mw ≤ sa * 2 ^ E * 2 ^ D)
    (hhi : sa * 2 ^ E * 2 ^ D ≤ sb * 2 ^ eb * 2 ^ (G.mw + (G.expInf - 2))) :
    (encodeQ G s (sa * 2 ^ E * 2 ^ D) (sb * 2 ^ eb)).sign = s ∧
    (encodeQ G s (sa * 2 ^ E * 2 ^ D) (sb * 2 ^ eb)).exp < G.expInf ∧
    encode F s ((encodeQ G s (sa * 2 ^ E * 2 ^ D) (sb * 2 ^ eb)).mag G) D =
      encodeQ F s (sa * 2 ^ E) (sb * 2 ^ eb) := by
  have hprec := h.prec
  have hiG := expInf_ge G h.ewG
  obtain ⟨d, hd⟩ : ∃ d, d = sb * 2 ^ eb := ⟨_, rfl⟩
  obtain ⟨n, hn⟩ : ∃ n, n = sa * 2 ^ E := ⟨_, rfl⟩
  have d0 : 0 < d := by rw [hd]; positivity
  rw [← hd, ← hn] at hlo hhi ⊢
  -- the wide quotient
  have hq0 : n * 2 ^ D / d ≠ 0 := by
    have : 2 ^ G.mw ≤ n * 2 ^ D / d := by rw [Nat.le_div_iff_mul_le d0, mul_comm]; exact hlo
    have : 0 < 2 ^ G.mw := by positivity
    omega
  obtain ⟨l1, l2⟩ := log2_quot d0 hq0
  obtain ⟨L, hL⟩ : ∃ L, L = Nat.log2 (n * 2 ^ D / d) := ⟨_, rfl⟩
  rw [← hL] at l1 l2
  have hLmw : G.mw ≤ L := by
    have : 2 ^ G.mw < 2 ^ (L + 1) := by
      apply Nat.lt_of_mul_lt_mul_left (a := d); omega
    have := (Nat.pow_lt_pow_iff_right (by norm_num : 1 < 2)).1 this
    omega
  obtain ⟨e, he⟩ := Nat.exists_eq_add_of_le hLmw
  have hek : L - G.mw = e := by omega
  obtain ⟨R, hR⟩ : ∃ R, R = rneDiv (n * 2 ^ D) (d * 2 ^ e) := ⟨_, rfl⟩
  have mono := fun m => rneDiv_mono (n * 2 ^ D) d (2 ^ e) m d0 (by positivity)
  rw [← hR] at mono
  have R1 : 2 ^ G.mw ≤ R := (mono _).2 (by rw [← pow_add, ← he, mul_comm _ d]; exact l1)
  have R2 : R ≤ 2 ^ (G.mw + 1) := (mono _).1 (by
    rw [← pow_add, show G.mw + 1 + e = L + 1 by omega, mul_comm _ d]; exact l2.le)
  have heI : e ≤ G.expInf - 2 := by
    have : d * 2 ^ L ≤ d * 2 ^ (G.mw + (G.expInf - 2)) := le_trans l1 hhi
    have := (Nat.pow_le_pow_iff_right (by norm_num : 1 < 2)).1 (Nat.le_of_mul_le_mul_left this d0)
    omega
  have Rtop : e = G.expInf - 2 → R ≤ 2 ^ G.mw := by
    intro h'
    exact (mono _).1 (by rw [← pow_add, mul_comm _ d, h']; exact hhi)
  have hpat : e * 2 ^ G.mw + R < G.expInf * 2 ^ G.mw := by
    have hp : 0 < 2 ^ G.mw := by positivity
    rw [pow_succ] at R2
    by_cases h' : e = G.expInf - 2
    · have := Rtop h'
      obtain ⟨c, hc⟩ : ∃ c, G.expInf = c + 2 := ⟨G.expInf - 2, by omega⟩
      rw [h', hc, add_mul]; simp only [Nat.add_sub_cancel]; omega
    · have : (e + 3) * 2 ^ G.mw ≤ G.expInf * 2 ^ G.mw := Nat.mul_le_mul_right _ (by omega)
      rw [add_mul] at this; omega
  have hV : encodeQ G s (n * 2 ^ D) d = ofPat G s (e * 2 ^ G.mw + R) := by
    unfold encodeQ
    simp only [← hL, hek, ← hR]
    rw [if_pos hpat]
  rw [hV]
  refine ⟨rfl, ?_, ?_⟩
  · show (e * 2 ^ G.mw + R) / 2 ^ G.mw < G.expInf
    exact (Nat.div_lt_iff_lt_mul (by positivity)).2 hpat
  rw [mag_ofPat_enc G s e R (Or.inr R1) R2]
  -- the narrow quotient
  obtain ⟨k, hk⟩ : ∃ k, k = Nat.log2 (n / d) - F.mw := ⟨_, rfl⟩
  obtain ⟨r, hr⟩ : ∃ r, r = rneDiv n (d * 2 ^ k) := ⟨_, rfl⟩
  have hnk : n < d * 2 ^ (k + (F.mw + 1)) := by
    by_cases h0 : n / d = 0
    · have : n < d := by
        rcases Nat.div_eq_zero_iff.1 h0 with h' | h' <;> omega
      calc n < d := this
        _ = d * 1 := by ring
        _ ≤ _ := Nat.mul_le_mul_left _ (Nat.one_le_two_pow)
    · have := (log2_quot d0 h0).2
      refine lt_of_lt_of_le this (Nat.mul_le_mul_left _ (Nat.pow_le_pow_right (by norm_num) (by omega)))
  have hnk2 : 0 < k → d * 2 ^ (k + F.mw) ≤ n := by
    intro hk0
    have h0 : n / d ≠ 0 := by
      intro h'
      rw [h'] at hk
      have : Nat.log2 0 = 0 := by simp [Nat.log2]
      omega
    have := (log2_quot d0 h0).1
    rwa [show Nat.log2 (n / d) = k + F.mw by omega] at this
  have hed : e + F.mw + 5 < k + D := by
    have : d * 2 ^ L < d * 2 ^ (k + (F.mw + 1) + D) := by
      refine lt_of_le_of_lt l1 ?_
      rw [pow_add _ _ D, ← mul_assoc]
      exact Nat.mul_lt_mul_of_pos_right hnk (by positivity)
    have := (Nat.pow_lt_pow_iff_right (by norm_num : 1 < 2)).1 (Nat.lt_of_mul_lt_mul_left this)
    omega
  have spec := rneDiv_spec n (d * 2 ^ k) (by positivity)
  rw [← hr] at spec
  have specG := rneDiv_spec (n * 2 ^ D) (d * 2 ^ e) (by positivity)
  rw [← hR] at specG
  -- midpoints are not crossed nor reached
  have sep : ∀ m : Nat, (2 * (n * 2 ^ D) ≤ m * 2 ^ (k + D) * d → 2 * (R * 2 ^ e) ≤ m * 2 ^ (k + D)) ∧
      (m * 2 ^ (k + D) * d ≤ 2 * (n * 2 ^ D) → m * 2 ^ (k + D) ≤ 2 * (R * 2 ^ e)) ∧
      (2 * (R * 2 ^ e) = m * 2 ^ (k + D) → 2 * (n * 2 ^ D) = m * 2 ^ (k + D) * d) := by
    intro m
    obtain ⟨c, hc⟩ : ∃ c, k + D = e + c + 1 := ⟨k + D - e - 1, by omega⟩
    have e1 : m * 2 ^ (k + D) = 2 * (m * 2 ^ c * 2 ^ e) := by
      rw [hc, pow_succ, pow_add]; ring
    refine ⟨?_, ?_, ?_⟩
    · intro h1
      rw [e1] at h1 ⊢
      have := (mono (m * 2 ^ c)).1 (by
        have : 2 * (m * 2 ^ c * 2 ^ e) * d = 2 * (m * 2 ^ c * 2 ^ e * d) := by ring
        omega)
      exact Nat.mul_le_mul_left _ (Nat.mul_le_mul_right _ this)
    · intro h1
      rw [e1] at h1 ⊢
      have := (mono (m * 2 ^ c)).2 (by
        have : 2 * (m * 2 ^ c * 2 ^ e) * d = 2 * (m * 2 ^ c * 2 ^ e * d) := by ring
        omega)
      exact Nat.mul_le_mul_left _ (Nat.mul_le_mul_right _ this)
    · intro h1
      by_contra hne
      have eX : (2 * (n * 2 ^ D) : ℤ) = sa * 2 ^ (E + 1 + D) := by
        rw [hn]; push_cast; rw [pow_add, pow_add]; ring
      have eC : (m * 2 ^ (k + D) * d : ℤ) = m * 2 ^ (k + D) * (sb * 2 ^ eb) := by
        rw [hd]; push_cast; ring
      have hne' : (sa * 2 ^ (E + 1 + D) : ℤ) ≠ m * 2 ^ (k + D) * (sb * 2 ^ eb) := by
        rw [← eX, ← eC]; exact_mod_cast hne
      have hx : sa * 2 ^ E < sb * 2 ^ eb * 2 ^ (k + (F.mw + 1)) := by rw [← hn, ← hd]; exact hnk
      have gap := quotient_gap (F.mw + 1) sa sb E k eb m D hsa hsb hx hne'
      rw [← eX, ← eC] at gap
      have big : 2 ^ (2 * (F.mw + 1) + 1) * (d * 2 ^ e) ≤ n * 2 ^ D := by
        calc 2 ^ (2 * (F.mw + 1) + 1) * (d * 2 ^ e) ≤ 2 ^ G.mw * (d * 2 ^ e) :=
              Nat.mul_le_mul_right _ (Nat.pow_le_pow_right (by norm_num) (by omega))
          _ = d * 2 ^ L := by rw [he, pow_add]; ring
          _ ≤ _ := l1
      have big' : (2 ^ (2 * (F.mw + 1) + 1) * (d * 2 ^ e) : ℤ) ≤ n * 2 ^ D := by exact_mod_cast big
      have near : |(2 * (n * 2 ^ D) : ℤ) - m * 2 ^ (k + D) * d| ≤ d * 2 ^ e := by
        have a1 := specG.lo
        have a2 := specG.hi
        have e2 : m * 2 ^ (k + D) * d = 2 * (R * (d * 2 ^ e)) := by rw [← h1]; ring
        have e2' : (m * 2 ^ (k + D) * d : ℤ) = ((2 * (R * (d * 2 ^ e)) : ℕ) : ℤ) := by
          rw [← e2]; push_cast; ring
        rw [e2', abs_le]
        generalize R * (d * 2 ^ e) = y at *
        have e3 : (d * 2 ^ e : ℤ) = ((d * 2 ^ e : ℕ) : ℤ) := by push_cast; ring
        have e4 : (n * 2 ^ D : ℤ) = ((n * 2 ^ D : ℕ) : ℤ) := by push_cast; ring
        rw [e3, e4]
        generalize d * 2 ^ e = w at *
        generalize n * 2 ^ D = z at *
        omega
      have hP : (0 : ℤ) < 2 ^ (2 * (F.mw + 1) + 1) := by positivity
      have : (2 ^ (2 * (F.mw + 1) + 1) : ℤ) * |(2 * (n * 2 ^ D) : ℤ) - m * 2 ^ (k + D) * d| ≤
          2 ^ (2 * (F.mw + 1) + 1) * (d * 2 ^ e) := mul_le_mul_of_nonneg_left near hP.le
      have hnn : (0 : ℤ) ≤ n * 2 ^ D := by positivity
      linarith
  have claim : rneShift (R * 2 ^ e) (D + k) = r := by
    rw [← rneDiv_pow]
    apply rneDiv_eq (by positivity)
    rw [add_comm D k]
    have key : ∀ x y : Nat, x * 2 ^ D ≤ y * 2 ^ D ↔ x ≤ y := fun x y =>
      ⟨fun h => Nat.le_of_mul_le_mul_right h (by positivity), fun h => Nat.mul_le_mul_right _ h⟩
    have up : (2 * r + 1) * 2 ^ (k + D) = 2 * (r * 2 ^ (k + D)) + 2 ^ (k + D) := by ring
    have upd : (2 * r + 1) * 2 ^ (k + D) * d = (2 * (r * (d * 2 ^ k)) + d * 2 ^ k) * 2 ^ D := by
      rw [pow_add]; ring
    have nd : 2 * (n * 2 ^ D) = 2 * n * 2 ^ D := by ring
    obtain ⟨s1, s2, s3⟩ := sep (2 * r + 1)
    rw [upd, nd, up] at s3
    rw [upd, nd, key, up] at s1
    refine ⟨?_, s1 spec.hi, ?_, ?_⟩
    · rcases Nat.eq_zero_or_pos r with h0 | h0
      · rw [h0, zero_mul, mul_zero]; exact Nat.zero_le _
      · obtain ⟨q, hq⟩ : ∃ q, r = q + 1 := ⟨r - 1, by omega⟩
        have dn : (2 * q + 1) * 2 ^ (k + D) + 2 ^ (k + D) = 2 * (r * 2 ^ (k + D)) := by rw [hq]; ring
        have dnd : (2 * q + 1) * 2 ^ (k + D) * d + d * 2 ^ k * 2 ^ D = 2 * (r * (d * 2 ^ k)) * 2 ^ D := by
          rw [hq, pow_add]; ring
        have := (sep (2 * q + 1)).2.1 (by
          have := (key _ _).2 spec.lo
          rw [add_mul] at this
          rw [nd]; omega)
        omega
    · intro ht
      rcases Nat.eq_zero_or_pos r with h0 | h0
      · rw [h0]
      · obtain ⟨q, hq⟩ : ∃ q, r = q + 1 := ⟨r - 1, by omega⟩
        have dn : (2 * q + 1) * 2 ^ (k + D) + 2 ^ (k + D) = 2 * (r * 2 ^ (k + D)) := by rw [hq]; ring
        have dnd : (2 * q + 1) * 2 ^ (k + D) * d + d * 2 ^ k * 2 ^ D = 2 * (r * (d * 2 ^ k)) * 2 ^ D := by
          rw [hq, pow_add]; ring
        have h2 := (sep (2 * q + 1)).2.2 (by omega)
        apply spec.tlo
        apply Nat.eq_of_mul_eq_mul_right (show 0 < 2 ^ D by positivity)
        rw [add_mul]; omega
    · intro ht
      apply spec.thi
      exact Nat.eq_of_mul_eq_mul_right (show 0 < 2 ^ D by positivity) (s3 ht)
  -- the two encodings
  have M2 : R * 2 ^ e ≤ 2 ^ (k + F.mw + 1 + D) := by
    have := (sep (2 ^ (F.mw + 2))).1 (by
      have : n * 2 ^ D ≤ d * 2 ^ (k + (F.mw + 1)) * 2 ^ D := Nat.mul_le_mul_right _ hnk.le
      calc 2 * (n * 2 ^ D) ≤ 2 * (d * 2 ^ (k + (F.mw + 1)) * 2 ^ D) := Nat.mul_le_mul_left _ this
        _ = _ := by rw [pow_add, pow_add, pow_add, pow_add]; ring)
    have e1 : 2 ^ (F.mw + 2) * 2 ^ (k + D) = 2 * 2 ^ (k + F.mw + 1 + D) := by
      rw [← pow_add, ← pow_succ']; congr 1; omega
    omega
  have M1 : 0 < k → 2 ^ (k + F.mw + D) ≤ R * 2 ^ e := by
    intro hk0
    have := (sep (2 ^ (F.mw + 1))).2.1 (by
      have : d * 2 ^ (k + F.mw) * 2 ^ D ≤ n * 2 ^ D := Nat.mul_le_mul_right _ (hnk2 hk0)
      calc 2 ^ (F.mw + 1) * 2 ^ (k + D) * d = 2 * (d * 2 ^ (k + F.mw) * 2 ^ D) := by
            rw [pow_add, pow_add, pow_add]; ring
        _ ≤ _ := Nat.mul_le_mul_left _ this)
    have e1 : 2 ^ (F.mw + 1) * 2 ^ (k + D) = 2 * 2 ^ (k + F.mw + D) := by
      rw [← pow_add, ← pow_succ']; congr 1; omega
    omega
  have hM0 : R * 2 ^ e ≠ 0 := by
    have : 0 < 2 ^ G.mw := by positivity
    have : 0 < R := by omega
    positivity
  have hQ : encodeQ F s n d = if k * 2 ^ F.mw + r < F.expInf * 2 ^ F.mw then
      ofPat F s (k * 2 ^ F.mw + r) else infBits F s := by
    unfold encodeQ
    simp only [← hk, ← hr]
  rw [hQ]
  unfold encode
  by_cases hcase : R * 2 ^ e = 2 ^ (k + F.mw + 1 + D)
  · rw [hcase] at claim ⊢
    have hl : Nat.log2 (2 ^ (k + F.mw + 1 + D)) = k + F.mw + 1 + D := Nat.log2_two_pow
    have hr2 : r = 2 ^ (F.mw + 1) := by
      rw [← claim, show k + F.mw + 1 + D = (F.mw + 1) + (D + k) by omega, pow_add, rneShift_mul]
    rw [hl, show k + F.mw + 1 + D - (D + F.mw) = k + 1 by omega]
    simp only
    rw [show k + F.mw + 1 + D = F.mw + (D + (k + 1)) by omega, pow_add, rneShift_mul, hr2,
      show (k + 1) * 2 ^ F.mw + 2 ^ F.mw = k * 2 ^ F.mw + 2 ^ (F.mw + 1) by rw [pow_succ]; ring]
  · have hlt : R * 2 ^ e < 2 ^ (k + F.mw + 1 + D) := lt_of_le_of_ne M2 hcase
    have hl : Nat.log2 (R * 2 ^ e) - (D + F.mw) = k := by
      have a1 := (Nat.log2_lt hM0).2 hlt
      rcases Nat.eq_zero_or_pos k with h0 | h0
      · omega
      · have a2 := (Nat.le_log2 hM0).2 (M1 h0)
        omega
    simp only [hl, claim]

theorem encodeQ_zero (F : Fmt) (hew : 2 ≤ F.ew) (s : Bool) (d : Nat) : encodeQ F s 0 d = zeroBits s := by
  have hinf := expInf_ge F hew
  have hp : 0 < 2 ^ F.mw := by positivity
  have : rneDiv 0 (d * 2 ^ 0) = 0 := by unfold rneDiv; simp
  have hl : Nat.log2 0 = 0 := by simp [Nat.log2]
  unfold encodeQ
  simp only [Nat.zero_div, hl, Nat.zero_sub, this]
  rw [if_pos (by simp; omega)]
  unfold ofPat zeroBits; simp

/-- Division in the wider format, rounded back, is division rounded once. -/
theorem fdiv_double {F G : Fmt} {D : Nat} (h : Wider F G D) (hu : F.uexp ≤ 0)
    (hl : G.mw + (F.mw + 1) + (F.expInf - 2) ≤ (-F.uexp).toNat + D)
    (hr : F.mw + 1 + (F.expInf - 2) + (-F.uexp).toNat + D ≤ G.mw + (G.expInf - 2))
    (a b : Bits) (ha : a.WF F) (hb : b.WF F) :
    fconv G F (fdiv G (fconv F G a) (fconv F G b)) = fdiv F a b := by
  by_cases hn : a.isNaN F ∨ b.isNaN F
  · have h1 : fdiv F a b = nanBits F := by unfold fdiv; rw [if_pos hn]
    have h2 : fdiv G (fconv F G a) (fconv F G b) = nanBits G := by
      unfold fdiv
      rw [if_pos]
      rcases hn with hn | hn
      · left; rw [fconv_nan F G a hn]; exact isNaN_nanBits G
      · right; rw [fconv_nan F G b hn]; exact isNaN_nanBits G
    rw [h1, h2, fconv_nan G F _ (isNaN_nanBits G)]
  have na : ¬ a.isNaN F := fun hc => hn (Or.inl hc)
  have nb : ¬ b.isNaN F := fun hc => hn (Or.inr hc)
  obtain ⟨ka1, ka2, ka3, -⟩ := widen_class h a ha
  obtain ⟨kb1, kb2, kb3, -⟩ := widen_class h b hb
  have ka1 := ka1 na
  have kb1 := kb1 nb
  have hnG : ¬ ((fconv F G a).isNaN G ∨ (fconv F G b).isNaN G) := by rw [ka2, kb2]; exact hn
  unfold fdiv
  rw [if_neg hn, if_neg hnG]
  simp only [widen_zero h a ha, widen_zero h b hb, ka3, kb3, ka1, kb1]
  by_cases ia : a.isInf F
  · rw [if_pos ia, if_pos ia]
    by_cases ib : b.isInf F
    · rw [if_pos ib, if_pos ib]; exact fconv_nan G F _ (isNaN_nanBits G)
    · rw [if_neg ib, if_neg ib]; exact fconv_inf G F _ (isInf_infBits _ _)
  rw [if_neg ia, if_neg ia]
  by_cases ib : b.isInf F
  · rw [if_pos ib, if_pos ib, fconv_zero G F h.ewG h.ewF]
  rw [if_neg ib, if_neg ib]
  by_cases zb : b.isZero
  · rw [if_pos zb, if_pos zb]
    by_cases za : a.isZero
    · rw [if_pos za, if_pos za]; exact fconv_nan G F _ (isNaN_nanBits G)
    · rw [if_neg za, if_neg za]; exact fconv_inf G F _ (isInf_infBits _ _)
  rw [if_neg zb, if_neg zb]
  have fa : a.Fin F := by
    rcases kinds F a with n | i | f
    · exact absurd n na
    · exact absurd i ia
    · exact f
  have fb : b.Fin F := by
    rcases kinds F b with n | i | f
    · exact absurd n nb
    · exact absurd i ib
    · exact f
  obtain ⟨w1, w2, w3, w4⟩ := widen_spec h a ha (fin_lt ha fa)
  obtain ⟨x1, x2, x3, x4⟩ := widen_spec h b hb (fin_lt hb fb)
  rw [w4, x4]
  generalize (a.sign != b.sign) = s
  obtain ⟨J, hJ⟩ : ∃ J, J = (-F.uexp).toNat := ⟨_, rfl⟩
  have hJG : (-G.uexp).toNat = J + D := by have := h.unit; omega
  rw [hJG, ← hJ]
  rw [← hJ] at hl hr
  have b0 : 0 < b.mag F := Nat.pos_of_ne_zero fun hc => zb ((mag_eq_zero F b).1 hc)
  rw [show a.mag F * 2 ^ D * 2 ^ (J + D) = a.mag F * 2 ^ J * 2 ^ D * 2 ^ D by rw [pow_add]; ring,
    encodeQ_scale G s _ _ _ b0 (by positivity)]
  by_cases a0 : a.mag F = 0
  · rw [a0]; simp only [zero_mul]
    rw [encodeQ_zero G h.ewG, encodeQ_zero F h.ewF, fconv_zero G F h.ewG h.ewF]
  have eA : a.mag F * 2 ^ J = a.sig F * 2 ^ (a.exp - 1 + J) := by unfold Bits.mag; rw [pow_add]; ring
  have eB : b.mag F = b.sig F * 2 ^ (b.exp - 1) := rfl
  have sb0 : 0 < b.sig F := by
    rcases Nat.eq_zero_or_pos (b.sig F) with h0 | h0
    · rw [eB, h0, zero_mul] at b0; omega
    · exact h0
  have hA := mag_lt F h.ewF a ha (fin_lt ha fa)
  have hB := mag_lt F h.ewF b hb (fin_lt hb fb)
  have lo : b.mag F * 2 ^ G.mw ≤ a.mag F * 2 ^ J * 2 ^ D := by
    calc b.mag F * 2 ^ G.mw ≤ 2 ^ (F.mw + 1) * 2 ^ (F.expInf - 2) * 2 ^ G.mw := Nat.mul_le_mul_right _ hB.le
      _ = 2 ^ (G.mw + (F.mw + 1) + (F.expInf - 2)) := by rw [← pow_add, ← pow_add]; congr 1; omega
      _ ≤ 2 ^ (J + D) := Nat.pow_le_pow_right (by norm_num) hl
      _ = 1 * 2 ^ J * 2 ^ D := by rw [pow_add]; ring
      _ ≤ _ := Nat.mul_le_mul_right _ (Nat.mul_le_mul_right _ (by omega))
  have hi : a.mag F * 2 ^ J * 2 ^ D ≤ b.mag F * 2 ^ (G.mw + (G.expInf - 2)) := by
    calc a.mag F * 2 ^ J * 2 ^ D ≤ 2 ^ (F.mw + 1) * 2 ^ (F.expInf - 2) * 2 ^ J * 2 ^ D :=
          Nat.mul_le_mul_right _ (Nat.mul_le_mul_right _ hA.le)
      _ = 2 ^ (F.mw + 1 + (F.expInf - 2) + J + D) := by rw [← pow_add, ← pow_add, ← pow_add]
      _ ≤ 2 ^ (G.mw + (G.expInf - 2)) := Nat.pow_le_pow_right (by norm_num) hr
      _ = 1 * 2 ^ (G.mw + (G.expInf - 2)) := by ring
      _ ≤ _ := Nat.mul_le_mul_right _ b0
  rw [eA, eB] at lo hi ⊢
  obtain ⟨v1, v2, v3⟩ := encodeQ_double h s (a.sig F) (b.sig F) (a.exp - 1 + J) (b.exp - 1)
    (sig_lt F a ha) (sig_lt F b hb) sb0 lo hi
  rw [fconv_back h _ v2, v1, v3]

/-- Both pairs of formats. -/
theorem fdiv_double32 (a b : Bits) (ha : a.WF b32) (hb : b.WF b32) :
    fconv b64 b32 (fdiv b64 (fconv b32 b64 a) (fconv b32 b64 b)) = fdiv b32 a b :=
  fdiv_double wider32 (by decide) (by decide) (by decide) a b ha hb

theorem fdiv_double64 (a b : Bits) (ha : a.WF b64) (hb : b.WF b64) :
    fconv b128 b64 (fdiv b128 (fconv b64 b128 a) (fconv b64 b128 b)) = fdiv b64 a b :=
  fdiv_double wider64 (by decide) (by decide) (by decide) a b ha hb

/-! ## `fdiv` rounds to nearest -/

/-- No integer multiple of `d` is closer to `n` than the rounded one. -/
theorem rneDiv_nearest (n d : Nat) (hd : 0 < d) (z : ℤ) :
    |(n : ℤ) - rneDiv n d * d| ≤ |(n : ℤ) - z * d| := by
  have h := rneDiv_spec n d hd
  generalize rneDiv n d = r at h
  have lo : (2 * (r * d) : ℤ) ≤ 2 * n + d := by exact_mod_cast h.lo
  have hi : (2 * n : ℤ) ≤ 2 * (r * d) + d := by exact_mod_cast h.hi
  have hd' : (0 : ℤ) < d := by exact_mod_cast hd
  rcases lt_trichotomy z r with hz | hz | hz
  · have h1 : (z + 1) * (d : ℤ) ≤ r * d := mul_le_mul_of_nonneg_right (by omega) hd'.le
    rw [add_mul] at h1
    rw [abs_le]
    have := le_abs_self ((n : ℤ) - z * d)
    constructor <;> linarith
  · rw [hz]
  · have h1 : ((r : ℤ) + 1) * d ≤ z * d := mul_le_mul_of_nonneg_right (by omega) hd'.le
    rw [add_mul] at h1
    rw [abs_le]
    have := neg_abs_le ((n : ℤ) - z * d)
    constructor <;> linarith

/-- A finite `encodeQ F s n d` is the magnitude of the format closest to `n / d`. -/
theorem encodeQ_nearest (F : Fmt) (s : Bool) (n d : Nat) (hd : 0 < d)
    (hf : (encodeQ F s n d).exp < F.expInf) (m : ℤ) (e : ℕ) (hm : |m| < 2 ^ (F.mw + 1)) :
    (encodeQ F s n d).sign = s ∧
    |(n : ℤ) - (encodeQ F s n d).mag F * d| ≤ |(n : ℤ) - m * 2 ^ e * d| := by
  obtain ⟨k, hk⟩ : ∃ k, k = Nat.log2 (n / d) - F.mw := ⟨_, rfl⟩
  obtain ⟨r, hr⟩ : ∃ r, r = rneDiv n (d * 2 ^ k) := ⟨_, rfl⟩
  have hQ : encodeQ F s n d = if k * 2 ^ F.mw + r < F.expInf * 2 ^ F.mw then
      ofPat F s (k * 2 ^ F.mw + r) else infBits F s := by
    unfold encodeQ
    simp only [← hk, ← hr]
  have hp : k * 2 ^ F.mw + r < F.expInf * 2 ^ F.mw := by
    by_contra hc
    rw [hQ, if_neg hc] at hf
    exact absurd hf (lt_irrefl _)
  rw [if_pos hp] at hQ
  have hnk : n < d * 2 ^ (k + (F.mw + 1)) := by
    by_cases h0 : n / d = 0
    · have : n < d := by
        rcases Nat.div_eq_zero_iff.1 h0 with h' | h' <;> omega
      calc n < d := this
        _ = d * 1 := by ring
        _ ≤ _ := Nat.mul_le_mul_left _ (Nat.one_le_two_pow)
    · have := (log2_quot hd h0).2
      refine lt_of_lt_of_le this (Nat.mul_le_mul_left _ (Nat.pow_le_pow_right (by norm_num) (by omega)))
  have hnk2 : 0 < k → d * 2 ^ (k + F.mw) ≤ n := by
    intro hk0
    have h0 : n / d ≠ 0 := by
      intro h'
      rw [h'] at hk
      have : Nat.log2 0 = 0 := by simp [Nat.log2]
      omega
    have := (log2_quot hd h0).1
    rwa [show Nat.log2 (n / d) = k + F.mw by omega] at this
  have mono := fun m => rneDiv_mono n d (2 ^ k) m hd (by positivity)
  rw [← hr] at mono
  have r2 : r ≤ 2 ^ (F.mw + 1) := (mono _).1 (by
    rw [← pow_add, add_comm (F.mw + 1) k, mul_comm _ d]; exact hnk.le)
  have r1 : k = 0 ∨ 2 ^ F.mw ≤ r := by
    rcases Nat.eq_zero_or_pos k with h0 | h0
    · exact Or.inl h0
    · exact Or.inr ((mono _).2 (by rw [← pow_add, add_comm F.mw k, mul_comm _ d]; exact hnk2 h0))
  rw [hQ, mag_ofPat_enc F s k r r1 r2]
  refine ⟨rfl, ?_⟩
  have near := rneDiv_nearest n (d * 2 ^ k) (by positivity)
  rw [← hr] at near
  have e1 : ((r * 2 ^ k : ℕ) : ℤ) * d = r * ((d * 2 ^ k : ℕ) : ℤ) := by push_cast; ring
  rw [e1]
  by_cases he : k ≤ e
  · obtain ⟨c, rfl⟩ := Nat.exists_eq_add_of_le he
    have := near (m * 2 ^ c)
    refine le_trans this (le_of_eq ?_)
    congr 2
    push_cast; rw [pow_add]; ring
  · have hk0 : 0 < k := by omega
    have a1 : (d * 2 ^ (k + F.mw) : ℤ) ≤ n := by exact_mod_cast hnk2 hk0
    have hd' : (0 : ℤ) ≤ d := by positivity
    have a2 : m * 2 ^ e ≤ 2 ^ (k + F.mw) := by
      have h1 : m ≤ 2 ^ (F.mw + 1) := le_trans (le_abs_self m) hm.le
      calc m * 2 ^ e ≤ 2 ^ (F.mw + 1) * 2 ^ e := mul_le_mul_of_nonneg_right h1 (by positivity)
        _ = 2 ^ (F.mw + 1 + e) := (pow_add _ _ _).symm
        _ ≤ _ := pow_le_pow_right₀ (by norm_num) (by omega)
    have a3 : m * 2 ^ e * d ≤ 2 ^ (k + F.mw) * d := mul_le_mul_of_nonneg_right a2 hd'
    have := near (2 ^ F.mw)
    refine le_trans this ?_
    have e2 : (2 : ℤ) ^ F.mw * ((d * 2 ^ k : ℕ) : ℤ) = 2 ^ (k + F.mw) * d := by
      push_cast; rw [pow_add]; ring
    rw [e2, abs_of_nonneg (by linarith), abs_of_nonneg (by linarith)]
    linarith

/-- **`fdiv` is correctly rounded**: a finite quotient of finite numbers has the exact
quotient's sign, and no number of the format is closer to the exact quotient. -/
theorem fdiv_nearest (F : Fmt) (hu : F.uexp ≤ 0) (a b : Bits) (fa : a.Fin F) (fb : b.Fin F)
    (b0 : ¬ b.isZero) (hf : (fdiv F a b).exp < F.expInf) (w : Bits) (hw : w.WF F) :
    (fdiv F a b).sign = (a.sign != b.sign) ∧
    |(fdiv F a b).val F - a.val F / b.val F| ≤ |w.val F - a.val F / b.val F| := by
  have na : ¬ (a.isNaN F ∨ b.isNaN F) := by
    rintro (h | h)
    · exact (fin_not fa).1 h
    · exact (fin_not fb).1 h
  have e : fdiv F a b = encodeQ F (a.sign != b.sign) (a.mag F * 2 ^ (-F.uexp).toNat) (b.mag F) := by
    unfold fdiv
    rw [if_neg na, if_neg (fin_not fa).2, if_neg (fin_not fb).2, if_neg b0]
  have hB : 0 < b.mag F := Nat.pos_of_ne_zero fun hc => b0 ((mag_eq_zero F b).1 hc)
  obtain ⟨m, ew, hm1, hm2⟩ := imag_neg_mul F w hw (a.sign != b.sign)
  rw [e] at hf
  obtain ⟨h1, h2⟩ := encodeQ_nearest F _ _ _ hB hf m ew hm2
  rw [← e] at h1 h2
  refine ⟨h1, ?_⟩
  rw [← hm1] at h2
  rw [val_eq_mag F (fdiv F a b), h1, val_eq_mag F a, val_eq_mag F b, val_eq_mag F w]
  have hB' : (0 : ℚ) < b.mag F := by exact_mod_cast hB
  obtain ⟨J, hJ⟩ : ∃ J : ℕ, F.uexp = -(J : ℤ) := ⟨(-F.uexp).toNat, by omega⟩
  rw [hJ, neg_neg, Int.toNat_natCast] at h2
  rw [hJ, zpow_neg, zpow_natCast]
  have hP : (0 : ℚ) < 2 ^ J := by positivity
  obtain ⟨M, hM⟩ : ∃ M, M = (fdiv F a b).mag F := ⟨_, rfl⟩
  rw [← hM] at h2 ⊢
  have wi : sgn w.sign * (w.mag F : ℚ) = (w.imag F : ℚ) := by
    unfold sgn Bits.imag; split_ifs <;> push_cast <;> ring
  rw [wi]
  generalize w.imag F = W at h2
  have h2q : |(a.mag F * 2 ^ J : ℚ) - M * b.mag F| ≤
      |(a.mag F * 2 ^ J : ℚ) - (((if (a.sign != b.sign) then -W else W) : ℤ) : ℚ) * b.mag F| := by
    exact_mod_cast h2
  generalize (a.mag F : ℚ) = A at *
  generalize (b.mag F : ℚ) = B at *
  generalize (2 : ℚ) ^ J = P at *
  have hP0 : P ≠ 0 := hP.ne'
  have hB0 : B ≠ 0 := hB'.ne'
  have scale : ∀ x : ℚ, |x| = |x * (P * B)| / (P * B) := by
    intro x
    rw [abs_mul, abs_of_pos (mul_pos hP hB')]
    field_simp
  rw [scale (_ - _), scale ((W : ℚ) * _ - _)]
  apply div_le_div_of_nonneg_right _ (mul_pos hP hB').le
  clear h1 h2 hm1 hf e hM
  generalize a.sign = x at *
  generalize b.sign = y at *
  cases x <;> cases y <;> simp only [sgn, bne_self_eq_false, Bool.false_eq_true, if_false, if_true,
    Bool.bne_true, Bool.bne_false, Bool.not_false, Bool.not_true, Bool.true_bne, Bool.false_bne] at h2q ⊢
  · refine le_trans (le_of_eq ?_) (le_trans h2q (le_of_eq ?_))
    · rw [abs_sub_comm]; congr 1; field_simp
    · rw [abs_sub_comm]; congr 1; field_simp
  · refine le_trans (le_of_eq ?_) (le_trans h2q (le_of_eq ?_))
    · congr 1; field_simp; ring
    · congr 1; push_cast; field_simp; ring
  · refine le_trans (le_of_eq ?_) (le_trans h2q (le_of_eq ?_))
    · congr 1; field_simp; ring
    · congr 1; push_cast; field_simp; ring
  · refine le_trans (le_of_eq ?_) (le_trans h2q (le_of_eq ?_))
    · rw [abs_sub_comm]; congr 1; field_simp
    · rw [abs_sub_comm]; congr 1; field_simp

/-- `1/3` in binary32, a subnormal quotient that is a tie, `1/0`, `0/0`, an overflow. -/
example : fdiv b32 ⟨false, 127, 0⟩ ⟨false, 128, 2 ^ 22⟩ = ⟨false, 125, 0x2AAAAB⟩ ∧
    fdiv b32 ⟨true, 0, 3⟩ ⟨false, 128, 0⟩ = ⟨true, 0, 2⟩ ∧
    fdiv b32 ⟨false, 127, 0⟩ ⟨true, 0, 0⟩ = ⟨true, 255, 0⟩ ∧
    fdiv b32 ⟨false, 0, 0⟩ ⟨true, 0, 0⟩ = nanBits b32 ∧
    fdiv b32 ⟨false, 254, 0⟩ ⟨false, 1, 0⟩ = ⟨false, 255, 0⟩ := by
  decide +kernel

end Verif.Fp
