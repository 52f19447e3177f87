import Verif.Vprec.Spec
import Mathlib.Algebra.Order.Field.Power
import Mathlib.Tactic.Linarith
import Mathlib.Tactic.FieldSimp
import Mathlib.Tactic.Positivity
import Mathlib.Tactic.NormNum
import Mathlib.Tactic.Push

/-!
# Double rounding in terms of midpoints

Rounding to nearest only depends on the position with respect to the midpoints of the format.
-/

namespace Verif.Vprec.Spec

/-- A midpoint between two consecutive elements of a format, in units of half of `2^e`. -/
def Mid (p : ℕ) (emin : ℤ) (m : ℚ) (e : ℤ) : Prop :=
  ∃ k : ℤ, m = (2 * k + 1) * 2 ^ (e - 1) ∧ emin - p ≤ e ∧ |2 * k + 1| < 2 ^ (p + 2) ∧
    (e = emin - p ∨ 2 ^ (p + 1) < |2 * k + 1|)

theorem zp (e : ℤ) : (0 : ℚ) < 2 ^ e := zpow_pos (by norm_num) e

theorem zp_add (e : ℤ) (n : ℕ) : (2 : ℚ) ^ (e + n) = 2 ^ n * 2 ^ e := by
  rw [zpow_add₀ (by norm_num), zpow_natCast, mul_comm]

theorem zp_le {a b : ℤ} (h : a ≤ b) : (2 : ℚ) ^ a ≤ 2 ^ b := zpow_le_zpow_right₀ (by norm_num) h

theorem zp_half (e : ℤ) : (2 : ℚ) ^ e = 2 * 2 ^ (e - 1) := by
  have := zp_add (e - 1) 1
  simpa using this

/-- An element with a larger quantum is a multiple of the smaller one. -/
theorem multiple {e f : ℤ} (h : e ≤ f) (m : ℤ) : ∃ m' : ℤ, (m : ℚ) * 2 ^ f = m' * 2 ^ e := by
  obtain ⟨n, rfl⟩ := Int.le.dest h
  refine ⟨m * 2 ^ n, ?_⟩
  rw [zp_add]
  push_cast
  ring

/-- Elements of a format have a canonical representation. -/
theorem canonical {p : ℕ} {emin : ℤ} {z : ℚ} (h : InFmt p emin z) :
    ∃ m e : ℤ, |m| < 2 ^ (p + 1) ∧ emin - p ≤ e ∧ z = m * 2 ^ e ∧ (e = emin - p ∨ 2 ^ p ≤ |m|) := by
  obtain ⟨m, e, hm, he, rfl⟩ := h
  obtain ⟨n, rfl⟩ := Int.le.dest he
  clear he
  induction n generalizing m with
  | zero => exact ⟨m, _, hm, by simp, rfl, .inl (by simp)⟩
  | succ n ih =>
    by_cases h : 2 ^ p ≤ |m|
    · exact ⟨m, _, hm, by omega, rfl, .inr h⟩
    · obtain ⟨m', e', h1, h2, h3, h4⟩ := ih (2 * m) (by
        rw [abs_mul, pow_succ, mul_comm, show |(2 : ℤ)| = 2 from rfl]
        omega)
      refine ⟨m', e', h1, h2, ?_, h4⟩
      rw [← h3]
      have := zp_add (emin - p + n) 1
      rw [show emin - (p : ℤ) + ((n + 1 : ℕ) : ℤ) = emin - p + n + ((1 : ℕ) : ℤ) by push_cast; ring, this]
      push_cast
      ring

/-- The distance from an element of the format to a midpoint. -/
theorem mid_dist {p : ℕ} {emin : ℤ} {a m : ℚ} {e : ℤ} (ha : InFmt p emin a) (hm : Mid p emin m e) :
    2 ^ (e - 1) ≤ |a - m| := by
  obtain ⟨ma, ea, h1, h2, rfl⟩ := ha
  obtain ⟨k, rfl, h3, h4, h5⟩ := hm
  by_cases h : e ≤ ea
  · obtain ⟨n, hn⟩ := multiple h ma
    rw [hn, zp_half e]
    have : (n : ℚ) * (2 * 2 ^ (e - 1)) - (2 * (k : ℚ) + 1) * 2 ^ (e - 1) =
        ((2 * n - 2 * k - 1 : ℤ) : ℚ) * 2 ^ (e - 1) := by push_cast; ring
    rw [this, abs_mul, abs_of_pos (zp _)]
    have h1 : (1 : ℤ) ≤ |2 * n - 2 * k - 1| := Int.one_le_abs (by omega)
    have h1 : (1 : ℚ) ≤ |((2 * n - 2 * k - 1 : ℤ) : ℚ)| := by exact_mod_cast h1
    have := mul_le_mul_of_nonneg_right h1 (zp (e - 1)).le
    linarith
  · rcases h5 with h5 | h5
    · omega
    have q1 : |(ma : ℚ)| < 2 ^ (p + 1) := by exact_mod_cast h1
    have q5 : (2 : ℚ) ^ (p + 1) + 1 ≤ |2 * (k : ℚ) + 1| := by
      have : (2 : ℤ) ^ (p + 1) + 1 ≤ |2 * k + 1| := h5
      exact_mod_cast this
    have l1 : |(ma : ℚ) * 2 ^ ea| ≤ 2 ^ (p + 1) * 2 ^ (e - 1) := by
      rw [abs_mul, abs_of_pos (zp ea)]
      exact mul_le_mul q1.le (zp_le (by omega)) (zp _).le (by positivity)
    have l2 : (2 ^ (p + 1) + 1) * (2 : ℚ) ^ (e - 1) ≤ |(2 * (k : ℚ) + 1) * 2 ^ (e - 1)| := by
      rw [abs_mul, abs_of_pos (zp (e - 1))]
      exact mul_le_mul_of_nonneg_right q5 (zp _).le
    have := abs_sub_abs_le_abs_sub ((2 * (k : ℚ) + 1) * 2 ^ (e - 1)) ((ma : ℚ) * 2 ^ ea)
    rw [abs_sub_comm]
    linarith

/-- After an element of the format comes a midpoint, and as far behind it the next element. -/
theorem next_mid {p : ℕ} {emin : ℤ} {z z' : ℚ} (hz : InFmt p emin z) (hz' : InFmt p emin z')
    (h : z < z') : ∃ m e, Mid p emin m e ∧ z < m ∧ 2 * m - z ≤ z' ∧ InFmt p emin (2 * m - z) := by
  -- an interval between consecutive multiples
  have key : ∀ K f : ℤ, z = K * 2 ^ f → emin - p ≤ f → |2 * K + 1| < 2 ^ (p + 2) →
      (f = emin - p ∨ 2 ^ (p + 1) < |2 * K + 1|) → |K + 1| ≤ 2 ^ (p + 1) →
      ∃ m e, Mid p emin m e ∧ z < m ∧ 2 * m - z ≤ z' ∧ InFmt p emin (2 * m - z) := by
    intro K f hK hf h1 h2 h3
    have hm : Mid p emin ((2 * (K : ℚ) + 1) * 2 ^ (f - 1)) f := ⟨K, rfl, hf, h1, h2⟩
    have hh := zp_half f
    have hp := zp (f - 1)
    have e1 : 2 * ((2 * (K : ℚ) + 1) * 2 ^ (f - 1)) - z = ((K + 1 : ℤ) : ℚ) * 2 ^ f := by
      rw [hK, hh]; push_cast; ring
    have hzm : z < (2 * (K : ℚ) + 1) * 2 ^ (f - 1) := by rw [hK, hh]; linarith
    refine ⟨_, f, hm, hzm, ?_, ?_⟩
    · by_contra hc
      rw [not_le] at hc
      -- `z'` is strictly inside the interval
      have hd := mid_dist hz' hm
      rcases le_abs.mp hd with hd | hd
      · rw [hK, hh] at hc; linarith
      · rw [hK, hh] at h
        linarith
    · rw [e1]
      rcases lt_or_eq_of_le h3 with h3 | h3
      · exact ⟨K + 1, f, h3, hf, rfl⟩
      · rcases abs_eq (by positivity) |>.mp h3 with h3 | h3
        · refine ⟨1, f + ((p + 1 : ℕ) : ℤ), ?_, by omega, ?_⟩
          · rw [abs_one]; exact one_lt_pow₀ (by norm_num) (by omega)
          · rw [h3, zp_add]; push_cast; ring
        · refine ⟨-1, f + ((p + 1 : ℕ) : ℤ), ?_, by omega, ?_⟩
          · rw [abs_neg, abs_one]; exact one_lt_pow₀ (by norm_num) (by omega)
          · rw [h3, zp_add]; push_cast; ring
  obtain ⟨M, e, h1, h2, h3, h4⟩ := canonical hz
  have hP : (2 : ℤ) ^ (p + 1) = 2 * 2 ^ p := by ring
  have hP2 : (2 : ℤ) ^ (p + 2) = 4 * 2 ^ p := by ring
  have hpos : (0 : ℤ) < 2 ^ p := by positivity
  rcases le_or_gt 0 M with hM | hM
  · rw [abs_of_nonneg hM] at h1 h4
    apply key M e h3 h2
    · rw [abs_of_nonneg (by omega)]; omega
    · rw [abs_of_nonneg (by omega)]; omega
    · rw [abs_of_nonneg (by omega)]; omega
  · rw [abs_of_neg hM] at h1 h4
    by_cases hb : e = emin - p ∨ 2 ^ p < -M
    · apply key M e h3 h2
      · rw [abs_of_neg (by omega)]; omega
      · rw [abs_of_neg (by omega)]; omega
      · rw [abs_of_nonpos (by omega)]; omega
    · apply key (2 * M) (e - 1)
      · rw [h3, zp_half e]; push_cast; ring
      · omega
      · rw [abs_of_neg (by omega)]; omega
      · rw [abs_of_neg (by omega)]; omega
      · rw [abs_of_nonpos (by omega)]; omega

theorem inFmt_neg {p : ℕ} {emin : ℤ} {z : ℚ} (h : InFmt p emin z) : InFmt p emin (-z) := by
  obtain ⟨m, e, h1, h2, rfl⟩ := h
  exact ⟨-m, e, by rwa [abs_neg], h2, by push_cast; ring⟩

theorem evenIn_neg {p : ℕ} {emin : ℤ} {z : ℚ} (h : EvenIn p emin z) : EvenIn p emin (-z) := by
  obtain ⟨m, e, h1, h2, rfl, h3, h4⟩ := h
  exact ⟨-m, e, by rwa [abs_neg], h2, by push_cast; ring, h3.neg, by rwa [abs_neg]⟩

theorem mid_neg {p : ℕ} {emin : ℤ} {m : ℚ} {e : ℤ} (h : Mid p emin m e) : Mid p emin (-m) e := by
  obtain ⟨k, rfl, h1, h2, h3⟩ := h
  have e1 : 2 * (-k - 1) + 1 = -(2 * k + 1) := by ring
  refine ⟨-k - 1, by push_cast; ring, h1, ?_, ?_⟩
  · rw [e1, abs_neg]; exact h2
  · rw [e1, abs_neg]; exact h3

/-- On the same side of every midpoint. -/
def SameSide (p : ℕ) (emin : ℤ) (x y : ℚ) : Prop :=
  ∀ m e, Mid p emin m e → (x < m ↔ y < m) ∧ (x = m ↔ y = m)

theorem sameSide_neg {p : ℕ} {emin : ℤ} {x y : ℚ} (h : SameSide p emin x y) :
    SameSide p emin (-x) (-y) := by
  intro m e hm
  obtain ⟨h1, h2⟩ := h (-m) e (mid_neg hm)
  have a1 : -x < m ↔ ¬ (x < -m ∨ x = -m) := by
    rw [not_or, not_lt]
    constructor
    · intro h; exact ⟨by linarith, fun hc => by linarith⟩
    · rintro ⟨h3, h4⟩
      rcases lt_or_eq_of_le h3 with h3 | h3
      · linarith
      · exact absurd h3.symm h4
  have a2 : -y < m ↔ ¬ (y < -m ∨ y = -m) := by
    rw [not_or, not_lt]
    constructor
    · intro h; exact ⟨by linarith, fun hc => by linarith⟩
    · rintro ⟨h3, h4⟩
      rcases lt_or_eq_of_le h3 with h3 | h3
      · linarith
      · exact absurd h3.symm h4
  refine ⟨by rw [a1, a2, h1, h2], ?_⟩
  rw [neg_eq_iff_eq_neg, neg_eq_iff_eq_neg]
  exact h2

/-- Rounding to nearest even only depends on the position with respect to the midpoints. -/
theorem rne_sameSide {p : ℕ} {emin : ℤ} {x y q : ℚ} (hs : SameSide p emin x y)
    (h : RNE p emin y q) : RNE p emin x q := by
  -- a closer or equally close element above
  have up : ∀ x y q z : ℚ, SameSide p emin x y → RNE p emin y q → InFmt p emin z → q < z →
      |x - z| ≤ |x - q| → |x - z| = |x - q| ∧ EvenIn p emin q := by
    intro x y q z hs h hz hqz hd
    obtain ⟨m, e, hm, h1, h2, h3⟩ := next_mid h.1.1 hz hqz
    -- `y` is not above the midpoint
    have hy : y ≤ m := by
      by_contra hc
      rw [not_le] at hc
      have h4 := h.1.2 _ h3
      rw [abs_of_pos (by linarith)] at h4
      rcases abs_cases (y - (2 * m - q)) with ⟨h5, -⟩ | ⟨h5, -⟩ <;> linarith
    have hx : m ≤ x := by
      rcases abs_cases (x - z) with ⟨h5, h6⟩ | ⟨h5, h6⟩ <;>
        rcases abs_cases (x - q) with ⟨h7, h8⟩ | ⟨h7, h8⟩ <;> linarith
    have hxm : ¬ x < m := not_lt.mpr hx
    have hym : y = m := by
      rcases lt_or_eq_of_le hy with hy | hy
      · exact absurd ((hs m e hm).1.mpr hy) hxm
      · exact hy
    have hxm : x = m := (hs m e hm).2.mpr hym
    refine ⟨le_antisymm hd ?_, h.2 ⟨2 * m - q, h3, by linarith, ?_⟩⟩
    · rw [hxm, abs_of_pos (by linarith), abs_sub_comm, abs_of_nonneg (by linarith)]
      linarith
    · rw [hym, abs_of_neg (by linarith), abs_of_pos (by linarith)]
      ring
  have rne_neg : ∀ {y q : ℚ}, RNE p emin y q → RNE p emin (-y) (-q) := by
    intro y q h
    have fl : ∀ a b : ℚ, |-a - b| = |a - -b| := by
      intro a b
      rw [← abs_neg]
      congr 1
      ring
    refine ⟨⟨inFmt_neg h.1.1, fun z hz => ?_⟩, ?_⟩
    · rw [fl, fl, neg_neg]
      exact h.1.2 _ (inFmt_neg hz)
    · rintro ⟨z, hz, hne, hd⟩
      refine evenIn_neg (h.2 ⟨-z, inFmt_neg hz, fun hc => hne (by linarith), ?_⟩)
      rw [fl, fl, neg_neg] at hd
      exact hd
  have both : ∀ z, InFmt p emin z → z ≠ q → |x - z| ≤ |x - q| → |x - z| = |x - q| ∧ EvenIn p emin q := by
    intro z hz hne hd
    rcases lt_or_gt_of_ne hne with hlt | hgt
    · have := up (-x) (-y) (-q) (-z) (sameSide_neg hs) (rne_neg h) (inFmt_neg hz) (by linarith) (by
        have fl : ∀ a b : ℚ, |-a - -b| = |a - b| := by
          intro a b
          rw [← abs_neg]
          congr 1
          ring
        rw [fl, fl]; exact hd)
      have fl : ∀ a b : ℚ, |-a - -b| = |a - b| := by
        intro a b
        rw [← abs_neg]
        congr 1
        ring
      rw [fl, fl] at this
      exact ⟨this.1, by simpa using evenIn_neg this.2⟩
    · exact up x y q z hs h hz hgt hd
  refine ⟨⟨h.1.1, fun z hz => ?_⟩, ?_⟩
  · by_contra hc
    rw [not_le] at hc
    have hne : z ≠ q := by rintro rfl; exact lt_irrefl _ hc
    have := (both z hz hne hc.le).1
    linarith
  · rintro ⟨z, hz, hne, hd⟩
    exact (both z hz hne hd.le).2

/-- The distance of a sum to a midpoint. -/
theorem mid_add {p : ℕ} {emin : ℤ} {a b m : ℚ} {e : ℤ} (ha : InFmt p emin a) (hb : InFmt p emin b)
    (hm : Mid p emin m e) (hd : 2 * |a + b - m| ≤ 2 ^ (e - p - 2)) : a + b = m := by
  by_contra hne
  -- an operand with a small quantum cannot bring the other one close to the midpoint
  have far : ∀ a b : ℚ, InFmt p emin a → ∀ mb eb : ℤ, b = mb * 2 ^ eb → |mb| < 2 ^ (p + 1) →
      eb ≤ e - p - 3 → 2 * |a + b - m| ≤ 2 ^ (e - p - 2) → False := by
    intro a b ha mb eb hb h1 h2 hd
    have h3 := mid_dist ha hm
    have h4 : |b| ≤ (2 ^ (p + 1) - 1) * 2 ^ (e - p - 3) := by
      rw [hb, abs_mul, abs_of_pos (zp eb)]
      have q1 : |(mb : ℚ)| ≤ 2 ^ (p + 1) - 1 := by
        have : |mb| ≤ 2 ^ (p + 1) - 1 := by omega
        exact_mod_cast this
      exact mul_le_mul q1 (zp_le h2) (zp _).le (le_trans (abs_nonneg _) q1)
    have h5 : (2 : ℚ) ^ (e - 1) = 2 ^ (p + 2) * 2 ^ (e - p - 3) := by
      rw [← zp_add]
      congr 1
      push_cast
      ring
    have h6 : (2 : ℚ) ^ (e - p - 2) = 2 * 2 ^ (e - p - 3) := by
      rw [zp_half]
      congr 2
      ring
    have h7 : |a - m| ≤ |a + b - m| + |b| := by
      have := abs_sub (a + b - m) b
      rwa [show a + b - m - b = a - m by ring] at this
    have h8 : (2 : ℚ) ^ (p + 2) = 2 * 2 ^ (p + 1) := by ring
    have := zp (e - p - 3)
    have h9 : (0 : ℚ) < 2 ^ (p + 1) * 2 ^ (e - p - 3) := mul_pos (by positivity) this
    rw [h5, h8] at h3
    rw [h6] at hd
    nlinarith
  obtain ⟨ma, ea, a1, a2, a3⟩ := ha
  obtain ⟨mb, eb, b1, b2, b3⟩ := hb
  by_cases hea : ea ≤ e - p - 3
  · exact far b a ⟨mb, eb, b1, b2, b3⟩ ma ea a3 a1 hea (by rwa [add_comm])
  by_cases heb : eb ≤ e - p - 3
  · exact far a b ⟨ma, ea, a1, a2, a3⟩ mb eb b3 b1 heb hd
  -- otherwise both are multiples of a large quantum
  obtain ⟨k, hk, h3, h4, h5⟩ := hm
  obtain ⟨na, hna⟩ := multiple (show e - p - 2 ≤ ea by omega) ma
  obtain ⟨nb, hnb⟩ := multiple (show e - p - 2 ≤ eb by omega) mb
  obtain ⟨nk, hnk⟩ := multiple (show e - p - 2 ≤ e - 1 by omega) (2 * k + 1)
  push_cast at hnk
  have e1 : a + b - m = ((na + nb - nk : ℤ) : ℚ) * 2 ^ (e - p - 2) := by
    rw [a3, b3, hk, hna, hnb, hnk]; push_cast; ring
  have hn : na + nb - nk ≠ 0 := by
    intro hc
    rw [hc] at e1
    apply hne
    push_cast at e1
    linarith
  have h6 : (1 : ℤ) ≤ |na + nb - nk| := Int.one_le_abs hn
  have h6 : (1 : ℚ) ≤ |((na + nb - nk : ℤ) : ℚ)| := by exact_mod_cast h6
  rw [e1, abs_mul, abs_of_pos (zp _)] at hd
  have := zp (e - p - 2)
  nlinarith

/-- The distance of a quotient to a midpoint. -/
theorem mid_div {p : ℕ} {emin : ℤ} {a b m : ℚ} {e : ℤ} (ha : InFmt p emin a) (hb : InFmt p emin b)
    (hb0 : b ≠ 0) (hm : Mid p emin m e) (hd : 2 * |a / b - m| ≤ 2 ^ (e - p - 2)) : a / b = m := by
  by_contra hne
  obtain ⟨ma, ea, a1, a2, a3⟩ := ha
  obtain ⟨mb, eb, b1, b2, b3⟩ := hb
  obtain ⟨k, hk, h3, h4, h5⟩ := hm
  have q1 : |(ma : ℚ)| < 2 ^ (p + 1) := by exact_mod_cast a1
  have q2 : |(mb : ℚ)| < 2 ^ (p + 1) := by exact_mod_cast b1
  have habs : |a / b - m| * |b| = |a - m * b| := by
    rw [← abs_mul]
    congr 1
    field_simp
  have hpos : 0 < |b| := abs_pos.mpr hb0
  have hbq : |b| < 2 ^ (p + 1) * 2 ^ eb := by
    rw [b3, abs_mul, abs_of_pos (zp eb)]
    exact mul_lt_mul_of_pos_right q2 (zp _)
  have hnum : a - m * b ≠ 0 := by
    intro hc
    rw [hc, abs_zero] at habs
    rcases mul_eq_zero.mp habs with h | h
    · exact hne (by linarith [abs_eq_zero.mp h])
    · exact hpos.ne' h
  have mb_eq : m * b = ((2 * k + 1) * mb : ℤ) * 2 ^ (e - 1 + eb) := by
    rw [hk, b3, zpow_add₀ (by norm_num)]
    push_cast
    ring
  have h6 : (2 : ℚ) ^ (e - p - 2) = 2 * 2 ^ (e - p - 3) := by
    rw [zp_half]
    congr 2
    ring
  have hq3 := zp (e - p - 3)
  by_cases hc : e - 1 + eb ≤ ea
  · -- the difference is a multiple of the quantum of the second term
    obtain ⟨na, hna⟩ := multiple hc ma
    have e1 : a - m * b = ((na - (2 * k + 1) * mb : ℤ) : ℚ) * 2 ^ (e - 1 + eb) := by
      rw [mb_eq, a3, hna]; push_cast; ring
    have hn : na - (2 * k + 1) * mb ≠ 0 := by
      intro hc
      rw [hc] at e1
      apply hnum
      rw [e1]
      simp
    have h7 : (1 : ℤ) ≤ |na - (2 * k + 1) * mb| := Int.one_le_abs hn
    have h7 : (1 : ℚ) ≤ |((na - (2 * k + 1) * mb : ℤ) : ℚ)| := by exact_mod_cast h7
    have h8 : 2 ^ (e - 1 + eb) ≤ |a - m * b| := by
      rw [e1, abs_mul, abs_of_pos (zp _)]
      have := mul_le_mul_of_nonneg_right h7 (zp (e - 1 + eb)).le
      linarith
    rw [← habs, zpow_add₀ (by norm_num)] at h8
    have h9 : (2 : ℚ) ^ (e - 1) = 2 ^ (p + 1) * (2 * 2 ^ (e - p - 3)) := by
      rw [← h6, ← zp_add]
      congr 1
      push_cast
      ring
    have h10 : |a / b - m| * |b| ≤ 2 ^ (e - p - 3) * (2 ^ (p + 1) * 2 ^ eb) := by
      apply mul_le_mul (by linarith) hbq.le (abs_nonneg _) hq3.le
    rw [h9] at h8
    have := mul_pos (mul_pos hq3 (show (0 : ℚ) < 2 ^ (p + 1) by positivity)) (zp eb)
    nlinarith
  · -- the difference is a multiple of the quantum of the numerator
    obtain ⟨nb, hnb⟩ := multiple (show ea ≤ e - 1 + eb by omega) ((2 * k + 1) * mb)
    have e1 : a - m * b = ((ma - nb : ℤ) : ℚ) * 2 ^ ea := by
      rw [mb_eq, a3, hnb]; push_cast; ring
    have hn : ma - nb ≠ 0 := by
      intro hc
      rw [hc] at e1
      apply hnum
      rw [e1]
      simp
    have h7 : (1 : ℤ) ≤ |ma - nb| := Int.one_le_abs hn
    have h7 : (1 : ℚ) ≤ |((ma - nb : ℤ) : ℚ)| := by exact_mod_cast h7
    have h8 : 2 ^ ea ≤ |a - m * b| := by
      rw [e1, abs_mul, abs_of_pos (zp _)]
      have := mul_le_mul_of_nonneg_right h7 (zp ea).le
      linarith
    have hx : |a / b| * |b| = |(ma : ℚ)| * 2 ^ ea := by
      rw [← abs_mul, div_mul_cancel₀ _ hb0, a3, abs_mul, abs_of_pos (zp ea)]
    -- the quotient is larger than the distance by less than the significand
    have h9 : |a / b| ≤ |(ma : ℚ)| * |a / b - m| := by
      have : |a / b| * |b| ≤ |(ma : ℚ)| * |a / b - m| * |b| := by
        rw [hx, mul_assoc, habs]
        exact mul_le_mul_of_nonneg_left h8 (abs_nonneg _)
      exact le_of_mul_le_mul_right this hpos
    have hdp : 0 < |a / b - m| := abs_pos.mpr (fun h => hne (by linarith))
    have h10 : |a / b| < 2 ^ (p + 1) * |a / b - m| :=
      lt_of_le_of_lt h9 (mul_lt_mul_of_pos_right q1 hdp)
    have hmabs : 2 ^ (e - 1) ≤ |m| := by
      rw [hk, abs_mul, abs_of_pos (zp _)]
      have : (1 : ℤ) ≤ |2 * k + 1| := Int.one_le_abs (by omega)
      have : (1 : ℚ) ≤ |2 * (k : ℚ) + 1| := by exact_mod_cast this
      have := mul_le_mul_of_nonneg_right this (zp (e - 1)).le
      linarith
    have h11 : |m| ≤ |a / b| + |a / b - m| := by
      have := abs_sub (a / b) (a / b - m)
      rwa [show a / b - (a / b - m) = m by ring] at this
    have h12 : (2 : ℚ) ^ (e - 1) = 2 ^ (p + 1) * (2 * 2 ^ (e - p - 3)) := by
      rw [← h6, ← zp_add]
      congr 1
      push_cast
      ring
    have h13 : (1 : ℚ) ≤ 2 ^ (p + 1) := one_le_pow₀ (by norm_num)
    have h14 : |a / b - m| ≤ 2 ^ (e - p - 3) := by linarith
    have h15 : 2 ^ (p + 1) * |a / b - m| ≤ 2 ^ (p + 1) * 2 ^ (e - p - 3) :=
      mul_le_mul_of_nonneg_left h14 (by positivity)
    have h16 : (1 : ℚ) * 2 ^ (e - p - 3) ≤ 2 ^ (p + 1) * 2 ^ (e - p - 3) :=
      mul_le_mul_of_nonneg_right h13 hq3.le
    linarith

end Verif.Vprec.Spec
