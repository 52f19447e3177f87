import Mathlib.Algebra.Order.Group.Abs
import Mathlib.Algebra.Order.Ring.Abs
import Mathlib.Algebra.Order.AbsoluteValue.Basic
import Mathlib.Tactic.Linarith
import Mathlib.Tactic.Positivity
import Mathlib.Tactic.FieldSimp
import Mathlib.Algebra.Order.Field.Power
import Verif.Vprec.Rel

/-! `rnd` is a nearest element of the format. -/

namespace Verif.Vprec
open Verif Verif.Fp

theorem denN_err (n c : Nat) :
    2 * |(n : ℤ) - denN n c * 2 ^ c| ≤ 2 ^ c := by
  unfold denN
  split_ifs with h
  · have h' : (2 : ℤ) * n = 2 ^ c := by exact_mod_cast h
    have : (n : ℤ) - ((1 : ℕ) : ℤ) * 2 ^ c = -n := by rw [← h']; push_cast; ring
    rw [this, abs_neg, abs_of_nonneg (by positivity), h']
  · obtain ⟨h1, h2⟩ := rneShift_err n c
    have : |(n : ℤ) - rneShift n c * 2 ^ c| * 2 ≤ 2 ^ c := by
      rcases abs_cases ((n : ℤ) - rneShift n c * 2 ^ c) with ⟨h, _⟩ | ⟨h, _⟩ <;> rw [h] <;> linarith
    linarith

/-- A tie not at one half goes to the even neighbour. -/
theorem denN_tie (n c : Nat) (hne : 2 * n ≠ 2 ^ c)
    (ht : 2 * |(n : ℤ) - denN n c * 2 ^ c| = 2 ^ c) : denN n c % 2 = 0 := by
  unfold denN at *
  rw [if_neg hne] at *
  have hd := Nat.div_add_mod n (2 ^ c)
  have hlt := Nat.mod_lt n (show 0 < 2 ^ c by positivity)
  unfold rneShift at *
  have hP' : (2 ^ c : ℤ) = ((2 ^ c : ℕ) : ℤ) := by push_cast; rfl
  rw [hP'] at ht
  generalize 2 ^ c = P at *
  generalize hk : n / P = k at *
  generalize hr : n % P = r at *
  have hn : (n : ℤ) = P * k + r := by exact_mod_cast hd.symm
  rw [hn] at ht
  split_ifs at ht ⊢ with hc
  · have e : ((P : ℤ) * k + r) - ((k + 1 : ℕ) : ℤ) * P = r - P := by push_cast; ring
    rw [e, abs_of_nonpos (by omega)] at ht
    omega
  · have e : ((P : ℤ) * k + r) - (k : ℤ) * P = r := by ring
    rw [e, abs_of_nonneg (by omega)] at ht
    omega

/-- The rounded magnitude is closest among all magnitudes of the format. -/
theorem rnd_nearest (p cmin n : Nat) (hn : n ≠ 0) (m : ℤ) (e : ℕ) (hm : |m| < 2 ^ (p + 1))
    (he : cmin ≤ e) :
    |(n : ℤ) - rnd p cmin n| ≤ |(n : ℤ) - m * 2 ^ e| ∧
    (m * 2 ^ e ≠ (rnd p cmin n : ℤ) → |(n : ℤ) - m * 2 ^ e| = |(n : ℤ) - rnd p cmin n| →
      2 * |(n : ℤ) - rnd p cmin n| = 2 ^ rndPos p cmin n) := by
  have hd := denN_err n (rndPos p cmin n)
  have hrnd : (rnd p cmin n : ℤ) = denN n (rndPos p cmin n) * 2 ^ rndPos p cmin n := by
    unfold rnd; push_cast; rfl
  rw [hrnd]
  -- distance to any other multiple of the unit
  have hmul : ∀ k : ℤ, k ≠ denN n (rndPos p cmin n) →
      2 ^ rndPos p cmin n ≤ 2 * |(n : ℤ) - k * 2 ^ rndPos p cmin n| := by
    intro k hk
    generalize denN n (rndPos p cmin n) = N at *
    have hpos : (0 : ℤ) < 2 ^ rndPos p cmin n := by positivity
    generalize (2 : ℤ) ^ rndPos p cmin n = P at *
    have h1 : P ≤ |(k - N) * P| := by
      rw [abs_mul, abs_of_pos hpos]
      have : 1 ≤ |k - (N : ℤ)| := Int.one_le_abs (by omega)
      nlinarith
    have h2 : (k - (N : ℤ)) * P = ((n : ℤ) - N * P) - ((n : ℤ) - k * P) := by ring
    rw [h2] at h1
    have h3 := abs_sub ((n : ℤ) - N * P) ((n : ℤ) - k * P)
    linarith
  by_cases hc : rndPos p cmin n ≤ e
  · have hk : m * 2 ^ e = (m * 2 ^ (e - rndPos p cmin n)) * 2 ^ rndPos p cmin n := by
      rw [mul_assoc, ← pow_add, Nat.sub_add_cancel hc]
    rw [hk]
    by_cases hkN : m * 2 ^ (e - rndPos p cmin n) = denN n (rndPos p cmin n)
    · rw [hkN]; exact ⟨le_rfl, fun h => absurd rfl h⟩
    · have h1 := hmul _ hkN
      refine ⟨by linarith, fun _ h => ?_⟩
      rw [h] at h1; omega
  · have hcc : rndPos p cmin n = Nat.log2 n - p := by unfold rndPos at *; omega
    have hlog : p + rndPos p cmin n = Nat.log2 n := by omega
    have hZ : |m * 2 ^ e| < 2 ^ (p + rndPos p cmin n) := by
      rw [abs_mul, abs_of_pos (by positivity : (0 : ℤ) < 2 ^ e)]
      calc |m| * 2 ^ e < 2 ^ (p + 1) * 2 ^ e := mul_lt_mul_of_pos_right hm (by positivity)
        _ = 2 ^ (p + 1 + e) := by rw [← pow_add]
        _ ≤ _ := pow_le_pow_right₀ (by norm_num) (by omega)
    have hnge : (2 : ℤ) ^ (p + rndPos p cmin n) ≤ n := by
      rw [hlog]; exact_mod_cast Nat.log2_self_le hn
    have hle := le_abs_self (m * 2 ^ e)
    have hd1 : |(n : ℤ) - m * 2 ^ e| = n - m * 2 ^ e := abs_of_nonneg (by linarith)
    have hd2 : |(n : ℤ) - 2 ^ p * 2 ^ rndPos p cmin n| = n - 2 ^ (p + rndPos p cmin n) := by
      rw [← pow_add]; exact abs_of_nonneg (by linarith)
    have hkey : |(n : ℤ) - denN n (rndPos p cmin n) * 2 ^ rndPos p cmin n| ≤
        n - 2 ^ (p + rndPos p cmin n) := by
      by_cases h2 : (2 : ℤ) ^ p = denN n (rndPos p cmin n)
      · rw [← h2, hd2]
      · have := hmul _ h2
        rw [hd2] at this; linarith
    refine ⟨by rw [hd1]; linarith, fun _ h => ?_⟩
    rw [hd1] at h
    linarith

/-- The rounded magnitude belongs to the format, in canonical form. -/
theorem rnd_canon (p cmin n : Nat) (hn : n ≠ 0) :
    ∃ m e : ℕ, m < 2 ^ (p + 1) ∧ cmin ≤ e ∧ rnd p cmin n = m * 2 ^ e ∧
      (e = cmin ∨ 2 ^ p ≤ m) ∧ (1 ≤ p → denN n (rndPos p cmin n) % 2 = 0 → m % 2 = 0) := by
  by_cases hlt : denN n (rndPos p cmin n) < 2 ^ (p + 1)
  · refine ⟨denN n (rndPos p cmin n), rndPos p cmin n, hlt, by unfold rndPos; omega, rfl, ?_, fun _ h => h⟩
    by_cases h : rndPos p cmin n = cmin
    · exact Or.inl h
    · right
      have hcc : p + rndPos p cmin n = Nat.log2 n := by unfold rndPos at *; omega
      have h2 := Nat.log2_self_le hn
      rw [← hcc, pow_add] at h2
      have hpos : 0 < 2 ^ p := by positivity
      rw [denN_of_ge]
      · refine le_trans ?_ (rneShift_bounds _ _).1
        rw [Nat.le_div_iff_mul_le (by positivity)]; exact h2
      · exact le_trans (Nat.le_mul_of_pos_left _ hpos) h2
  · have hN : denN n (rndPos p cmin n) = 2 ^ (p + 1) := by
      have h1 : Nat.log2 n < p + 1 + rndPos p cmin n := by unfold rndPos; omega
      have h2 := (Nat.log2_lt hn).1 h1
      have := denN_le n (rndPos p cmin n) (p + 1) h2.le
      omega
    refine ⟨2 ^ p, rndPos p cmin n + 1, Nat.pow_lt_pow_right (by norm_num) (by omega),
      by unfold rndPos; omega, ?_, Or.inr le_rfl, ?_⟩
    · unfold rnd; rw [hN, pow_succ, pow_succ]; ring
    · intro hp _
      obtain ⟨q, hq⟩ : ∃ q, p = q + 1 := ⟨p - 1, by omega⟩
      rw [hq, pow_succ]; omega

/-- Scaling between magnitudes and values. -/
theorem two_zpow_split (a b : ℤ) (c : ℕ) (h : a = b + c) : (2 : ℚ) ^ a = 2 ^ c * 2 ^ b := by
  rw [h, zpow_add₀ (by norm_num), zpow_natCast, mul_comm]

theorem sgn_cases (s : Bool) : sgn s = 1 ∨ sgn s = -1 := by
  unfold sgn; cases s <;> simp

theorem abs_sgn (s : Bool) : |sgn s| = 1 := by
  rcases sgn_cases s with h | h <;> rw [h] <;> norm_num

theorem sgn_mul_self (s : Bool) : sgn s * sgn s = 1 := by
  rcases sgn_cases s with h | h <;> rw [h] <;> norm_num

/-- The rounded value as a rational. -/
def rndVal (F : Fmt) (r p : Nat) (x : Bits) : ℚ :=
  sgn x.sign * (rnd p (cminOf F r p) (x.mag F) : ℚ) * 2 ^ F.uexp

theorem rndVal_inFmt (F : Fmt) (r p : Nat) (x : Bits) (hne : x.mag F ≠ 0)
    (hc : (cminOf F r p : Int) = Spec.emin r - p - F.uexp) :
    Spec.InFmt p (Spec.emin r) (rndVal F r p x) := by
  obtain ⟨m, e, h1, h2, h3, -, -⟩ := rnd_canon p (cminOf F r p) (x.mag F) hne
  refine ⟨(if x.sign then -(m : ℤ) else m), (e : ℤ) + F.uexp, ?_, by omega, ?_⟩
  · have : |(if x.sign then -(m : ℤ) else m)| = m := by
      split_ifs <;> simp
    rw [this]; exact_mod_cast h1
  · unfold rndVal
    rw [h3, two_zpow_split ((e : ℤ) + F.uexp) F.uexp e (by ring)]
    unfold sgn
    split_ifs <;> push_cast <;> ring

theorem inFmt_scaled (F : Fmt) (r p : Nat) (z : ℚ) (hz : Spec.InFmt p (Spec.emin r) z)
    (hc : (cminOf F r p : Int) = Spec.emin r - p - F.uexp) (s : Bool) :
    ∃ (m : ℤ) (e : ℕ), |m| < 2 ^ (p + 1) ∧ cminOf F r p ≤ e ∧ sgn s * ((m * 2 ^ e : ℤ) : ℚ) * 2 ^ F.uexp = z := by
  obtain ⟨m, e, h1, h2, h3⟩ := hz
  refine ⟨(if s then -m else m), (e - F.uexp).toNat, ?_, by omega, ?_⟩
  · split_ifs <;> simpa using h1
  · have he : e = F.uexp + ((e - F.uexp).toNat : ℤ) := by omega
    rw [h3, two_zpow_split e F.uexp _ he]
    unfold sgn
    split_ifs <;> push_cast <;> ring

theorem dist_scale (F : Fmt) (s : Bool) (n : ℕ) (z : ℤ) :
    |sgn s * (n : ℚ) * 2 ^ F.uexp - sgn s * (z : ℚ) * 2 ^ F.uexp| = ((|(n : ℤ) - z| : ℤ) : ℚ) * 2 ^ F.uexp := by
  have h : sgn s * (n : ℚ) * 2 ^ F.uexp - sgn s * (z : ℚ) * 2 ^ F.uexp =
      sgn s * (((n : ℤ) - z : ℤ) : ℚ) * 2 ^ F.uexp := by push_cast; ring
  rw [h, abs_mul, abs_mul, abs_sgn, one_mul, abs_of_pos (by positivity : (0 : ℚ) < 2 ^ F.uexp)]
  push_cast; rfl

theorem rndVal_nearest (F : Fmt) (r p : Nat) (x : Bits) (hne : x.mag F ≠ 0)
    (hc : (cminOf F r p : Int) = Spec.emin r - p - F.uexp) :
    Spec.Nearest p (Spec.emin r) (x.val F) (rndVal F r p x) := by
  refine ⟨rndVal_inFmt F r p x hne hc, fun z hz => ?_⟩
  obtain ⟨m, e, h1, h2, h3⟩ := inFmt_scaled F r p z hz hc x.sign
  rw [← h3, val_eq_mag]
  have := (rnd_nearest p (cminOf F r p) (x.mag F) hne m e h1 h2).1
  have e1 := dist_scale F x.sign (x.mag F) (rnd p (cminOf F r p) (x.mag F))
  push_cast at e1
  unfold rndVal
  rw [e1, dist_scale]
  apply mul_le_mul_of_nonneg_right _ (by positivity)
  exact_mod_cast this

/-- Ties go to even, except at half the smallest subnormal. -/
theorem rndVal_rne (F : Fmt) (r p : Nat) (x : Bits) (hp : 1 ≤ p) (hne : x.mag F ≠ 0)
    (hc : (cminOf F r p : Int) = Spec.emin r - p - F.uexp)
    (hh : 2 * x.mag F ≠ 2 ^ rndPos p (cminOf F r p) (x.mag F)) :
    Spec.RNE p (Spec.emin r) (x.val F) (rndVal F r p x) := by
  refine ⟨rndVal_nearest F r p x hne hc, ?_⟩
  rintro ⟨z, hz, hzne, hzd⟩
  obtain ⟨m, e, h1, h2, h3⟩ := inFmt_scaled F r p z hz hc x.sign
  have htie := (rnd_nearest p (cminOf F r p) (x.mag F) hne m e h1 h2).2
  have hu : (0 : ℚ) < 2 ^ F.uexp := by positivity
  have hne' : m * 2 ^ e ≠ (rnd p (cminOf F r p) (x.mag F) : ℤ) := by
    intro h
    apply hzne
    rw [← h3, h]; unfold rndVal; push_cast; rfl
  have hd' : |(x.mag F : ℤ) - m * 2 ^ e| = |(x.mag F : ℤ) - rnd p (cminOf F r p) (x.mag F)| := by
    have e1 := dist_scale F x.sign (x.mag F) (rnd p (cminOf F r p) (x.mag F))
    push_cast at e1
    rw [← h3, val_eq_mag, dist_scale] at hzd
    unfold rndVal at hzd
    rw [e1] at hzd
    have := mul_right_cancel₀ hu.ne' hzd
    exact_mod_cast this
  have ht := htie hne' hd'
  have hrnd : (rnd p (cminOf F r p) (x.mag F) : ℤ) =
      denN (x.mag F) (rndPos p (cminOf F r p) (x.mag F)) * 2 ^ rndPos p (cminOf F r p) (x.mag F) := by
    unfold rnd; push_cast; rfl
  rw [hrnd] at ht
  have hev := denN_tie _ _ hh ht
  obtain ⟨mm, ee, k1, k2, k3, k4, k5⟩ := rnd_canon p (cminOf F r p) (x.mag F) hne
  refine ⟨(if x.sign then -(mm : ℤ) else mm), (ee : ℤ) + F.uexp, ?_, by omega, ?_, ?_, ?_⟩
  · have : |(if x.sign then -(mm : ℤ) else mm)| = mm := by split_ifs <;> simp
    rw [this]; exact_mod_cast k1
  · unfold rndVal
    rw [k3, two_zpow_split ((ee : ℤ) + F.uexp) F.uexp ee (by ring)]
    unfold sgn
    split_ifs <;> push_cast <;> ring
  · have := k5 hp hev
    have hE : Even (mm : ℤ) := by rw [Int.even_iff]; omega
    split_ifs
    · exact hE.neg
    · exact hE
  · rcases k4 with k4 | k4
    · left; omega
    · right
      have : |(if x.sign then -(mm : ℤ) else mm)| = mm := by split_ifs <;> simp
      rw [this]; exact_mod_cast k4

/-- Monotone on magnitudes. -/
theorem rnd_mono (p cmin n n' : Nat) (hn : n ≠ 0) (h : n ≤ n') : rnd p cmin n ≤ rnd p cmin n' := by
  by_contra hlt
  have hn' : n' ≠ 0 := by omega
  obtain ⟨m, e, h1, h2, h3, -, -⟩ := rnd_canon p cmin n hn
  obtain ⟨m', e', h1', h2', h3', -, -⟩ := rnd_canon p cmin n' hn'
  have k1 := (rnd_nearest p cmin n hn m' e' (by simpa using (by exact_mod_cast h1' : (m' : ℤ) < 2 ^ (p + 1))) h2').1
  have k2 := (rnd_nearest p cmin n' hn' m e (by simpa using (by exact_mod_cast h1 : (m : ℤ) < 2 ^ (p + 1))) h2).1
  have e1 : ((m' : ℤ) * 2 ^ e') = rnd p cmin n' := by rw [h3']; push_cast; rfl
  have e2 : ((m : ℤ) * 2 ^ e) = rnd p cmin n := by rw [h3]; push_cast; rfl
  rw [e1] at k1
  rw [e2] at k2
  have heq : n ≠ n' := by rintro rfl; exact hlt le_rfl
  rcases abs_cases ((n : ℤ) - rnd p cmin n) with ⟨a1, _⟩ | ⟨a1, _⟩ <;>
  rcases abs_cases ((n : ℤ) - rnd p cmin n') with ⟨a2, _⟩ | ⟨a2, _⟩ <;>
  rcases abs_cases ((n' : ℤ) - rnd p cmin n) with ⟨a3, _⟩ | ⟨a3, _⟩ <;>
  rcases abs_cases ((n' : ℤ) - rnd p cmin n') with ⟨a4, _⟩ | ⟨a4, _⟩ <;>
  rw [a1, a2] at k1 <;> rw [a3, a4] at k2 <;> omega

/-- Numbers of the format are fixed. -/
theorem rnd_idem (p cmin n : Nat) (hn : n ≠ 0) (h0 : rnd p cmin n ≠ 0) :
    rnd p cmin (rnd p cmin n) = rnd p cmin n := by
  obtain ⟨m, e, h1, h2, h3, -, -⟩ := rnd_canon p cmin n hn
  have k1 := (rnd_nearest p cmin (rnd p cmin n) h0 m e
    (by simpa using (by exact_mod_cast h1 : (m : ℤ) < 2 ^ (p + 1))) h2).1
  have e2 : ((m : ℤ) * 2 ^ e) = rnd p cmin n := by rw [h3]; push_cast; rfl
  rw [e2, sub_self, abs_zero] at k1
  have := abs_nonpos_iff.1 k1
  omega

end Verif.Vprec
