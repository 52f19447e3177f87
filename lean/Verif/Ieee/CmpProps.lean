import Mathlib.Order.WithBot
import Mathlib.Tactic.Linarith
import Mathlib.Tactic.Positivity
import Verif.Ieee.Cmp
import Verif.Float.Encode

/-! # C27: comparison predicates -/

namespace Verif.Ieee
open Verif Verif.Fp

/-- The number denoted by a datum that is not a NaN. -/
def num (F : Fmt) (x : Bits) : WithBot (WithTop ℚ) :=
  if x.exp = F.expInf then (if x.sign then ⊥ else ((⊤ : WithTop ℚ) : WithBot (WithTop ℚ)))
  else ((x.val F : WithTop ℚ) : WithBot (WithTop ℚ))

/-- LLVM Language Reference, `fcmp`: "oeq: yields true if both operands are not a QNAN and op1
is equal to op2", "ueq: yields true if either operand is a QNAN or op1 is equal to op2", etc. -/
def llvm (F : Fmt) (p : Pred) (a b : Bits) : Prop :=
  let o := ¬ a.isNaN F ∧ ¬ b.isNaN F
  let u := a.isNaN F ∨ b.isNaN F
  match p with
  | .false_ => False
  | .oeq => o ∧ num F a = num F b
  | .ogt => o ∧ num F b < num F a
  | .oge => o ∧ num F b ≤ num F a
  | .olt => o ∧ num F a < num F b
  | .ole => o ∧ num F a ≤ num F b
  | .one => o ∧ num F a ≠ num F b
  | .ord => o
  | .ueq => u ∨ num F a = num F b
  | .ugt => u ∨ num F b < num F a
  | .uge => u ∨ num F b ≤ num F a
  | .ult => u ∨ num F a < num F b
  | .ule => u ∨ num F a ≤ num F b
  | .une => u ∨ num F a ≠ num F b
  | .uno => u
  | .true_ => True

/-- Magnitudes are ordered as bit patterns. -/
theorem mag_lt_of_pat_lt (F : Fmt) (x y : Bits) (hx : x.WF F) (hy : y.WF F) (h : x.pat F < y.pat F) : x.mag F < y.mag F := by
  obtain ⟨-, hxm⟩ := hx
  obtain ⟨-, hym⟩ := hy
  unfold Bits.pat at h
  have he : x.exp ≤ y.exp := by
    by_contra hc
    have : (y.exp + 1) * 2 ^ F.mw ≤ x.exp * 2 ^ F.mw := Nat.mul_le_mul_right _ (by omega)
    rw [Nat.add_mul] at this; omega
  have hp : 0 < 2 ^ F.mw := by positivity
  unfold Bits.mag Bits.sig
  rcases Nat.lt_or_eq_of_le he with he | he
  · have hy0 : y.exp ≠ 0 := by omega
    rw [if_neg hy0]
    by_cases hx0 : x.exp = 0
    · rw [if_pos hx0, hx0]
      simp only [Nat.zero_sub, pow_zero, Nat.mul_one]
      have : 1 ≤ 2 ^ (y.exp - 1) := Nat.one_le_two_pow
      nlinarith
    · rw [if_neg hx0]
      have h1 : (2 ^ F.mw + x.man) * 2 ^ (x.exp - 1) < 2 ^ F.mw * 2 * 2 ^ (x.exp - 1) :=
        Nat.mul_lt_mul_of_pos_right (by omega) (by positivity)
      have h2 : 2 ^ F.mw * 2 * 2 ^ (x.exp - 1) ≤ 2 ^ F.mw * 2 ^ (y.exp - 1) := by
        rw [Nat.mul_assoc]
        apply Nat.mul_le_mul_left
        rw [← pow_succ']
        exact Nat.pow_le_pow_right (by norm_num) (by omega)
      have h3 : 2 ^ F.mw * 2 ^ (y.exp - 1) ≤ (2 ^ F.mw + y.man) * 2 ^ (y.exp - 1) :=
        Nat.mul_le_mul_right _ (by omega)
      omega
  · rw [he] at h ⊢
    have hm : x.man < y.man := by omega
    apply Nat.mul_lt_mul_of_pos_right _ (by positivity)
    split <;> omega

/-- The order of the keys is the order of the values. -/
theorem imag_lt_iff (F : Fmt) (x y : Bits) (hx : x.WF F) (hy : y.WF F) : key F x < key F y ↔ x.imag F < y.imag F := by
  have z : ∀ x : Bits, x.WF F → (x.pat F = 0 ↔ x.mag F = 0) := by
    intro x hx
    rw [mag_eq_zero]
    unfold Bits.pat Bits.isZero
    have : 0 < 2 ^ F.mw := by positivity
    constructor
    · intro h
      have h1 : x.exp * 2 ^ F.mw = 0 := by omega
      rcases Nat.mul_eq_zero.1 h1 with h2 | h2
      · exact ⟨h2, by omega⟩
      · omega
    · rintro ⟨h1, h2⟩; simp [h1, h2]
  have mono : ∀ x y : Bits, x.WF F → y.WF F → (x.pat F < y.pat F ↔ x.mag F < y.mag F) := by
    intro x y hx hy
    refine ⟨mag_lt_of_pat_lt F x y hx hy, fun h => ?_⟩
    by_contra hc
    rcases Nat.lt_or_eq_of_le (Nat.le_of_not_lt hc) with h1 | h1
    · have := mag_lt_of_pat_lt F y x hy hx h1; omega
    · have : x.mag F = y.mag F := by
        obtain ⟨-, hxm⟩ := hx
        obtain ⟨-, hym⟩ := hy
        unfold Bits.pat at h1
        have e1 : x.exp = y.exp := by
          have a : (x.exp * 2 ^ F.mw + x.man) / 2 ^ F.mw = x.exp := by
            rw [Nat.mul_comm, Nat.mul_add_div (by positivity), Nat.div_eq_of_lt hxm, Nat.add_zero]
          have b : (y.exp * 2 ^ F.mw + y.man) / 2 ^ F.mw = y.exp := by
            rw [Nat.mul_comm, Nat.mul_add_div (by positivity), Nat.div_eq_of_lt hym, Nat.add_zero]
          rw [← a, ← b, h1]
        have e2 : x.man = y.man := by rw [e1] at h1; omega
        unfold Bits.mag Bits.sig; rw [e1, e2]
      omega
  have m1 := mono x y hx hy
  have m2 := mono y x hy hx
  have z1 := z x hx
  have z2 := z y hy
  unfold key Bits.imag
  split <;> split <;> omega

theorem val_lt_iff (F : Fmt) (x y : Bits) (hx : x.WF F) (hy : y.WF F) : key F x < key F y ↔ x.val F < y.val F := by
  rw [imag_lt_iff F x y hx hy]
  have e : ∀ x : Bits, x.val F = (x.imag F : ℚ) * 2 ^ F.uexp := by
    intro x
    rw [val_eq_mag]
    unfold Bits.imag sgn
    split <;> push_cast <;> ring
  have hp : (0 : ℚ) < 2 ^ F.uexp := zpow_pos (by norm_num) _
  rw [e, e, mul_lt_mul_iff_left₀ hp]
  exact_mod_cast Iff.rfl

/-- The order of the keys is the order of the numbers, infinities included. -/
theorem key_lt_iff (F : Fmt) (hew : 2 ≤ F.ew) (x y : Bits) (hx : x.WF F) (hy : y.WF F) (nx : ¬ x.isNaN F) (ny : ¬ y.isNaN F) :
    key F x < key F y ↔ num F x < num F y := by
  have hfin : ∀ x : Bits, x.WF F → x.exp ≠ F.expInf → (x.pat F : ℤ) < F.expInf * 2 ^ F.mw := by
    intro x hx hne
    obtain ⟨h1, h2⟩ := hx
    have : x.exp + 1 ≤ F.expInf := by unfold Fmt.expInf at hne ⊢; omega
    have h3 : (x.exp + 1) * 2 ^ F.mw ≤ F.expInf * 2 ^ F.mw := Nat.mul_le_mul_right _ this
    have h4 : x.pat F < F.expInf * 2 ^ F.mw := by unfold Bits.pat; rw [Nat.add_mul] at h3; omega
    exact_mod_cast h4
  have hinf : ∀ x : Bits, ¬ x.isNaN F → x.exp = F.expInf → (x.pat F : ℤ) = F.expInf * 2 ^ F.mw := by
    intro x hx he
    have : x.man = 0 := by by_contra hc; exact hx ⟨he, hc⟩
    unfold Bits.pat; rw [this, he]; push_cast; ring
  have hpos : (0 : ℤ) < (F.expInf : ℤ) * 2 ^ F.mw := by
    have := expInf_ge F hew
    have : (0 : ℤ) < F.expInf := by exact_mod_cast (by omega : 0 < F.expInf)
    positivity
  generalize (F.expInf : ℤ) * 2 ^ F.mw = K at *
  have hnn : ∀ x : Bits, (0 : ℤ) ≤ x.pat F := fun x => by positivity
  by_cases ex : x.exp = F.expInf
  · have px := hinf x nx ex
    by_cases ey : y.exp = F.expInf
    · have py := hinf y ny ey
      unfold key num
      rw [if_pos ex, if_pos ey, px, py]
      rcases hs : x.sign <;> rcases ht : y.sign <;> simp <;> omega
    · have py := hfin y hy ey
      have := hnn y
      unfold key num
      rw [if_pos ex, if_neg ey, px]
      rcases hs : x.sign
      · simp only [Bool.false_eq_true, if_false]
        constructor
        · intro h; split at h <;> omega
        · intro h
          have : ((y.val F : WithTop ℚ) : WithBot (WithTop ℚ)) ≤ ((⊤ : WithTop ℚ) : WithBot (WithTop ℚ)) :=
            WithBot.coe_le_coe.2 le_top
          exact absurd h (not_lt.2 this)
      · simp only [if_true]
        constructor
        · intro _; exact WithBot.bot_lt_coe _
        · intro _; split <;> omega
  · have px := hfin x hx ex
    have := hnn x
    by_cases ey : y.exp = F.expInf
    · have py := hinf y ny ey
      unfold key num
      rw [if_neg ex, if_pos ey, py]
      rcases hs : y.sign
      · simp only [Bool.false_eq_true, if_false]
        constructor
        · intro _; exact WithBot.coe_lt_coe.2 (WithTop.coe_lt_top _)
        · intro _; split <;> omega
      · simp only [if_true]
        constructor
        · intro h; split at h <;> omega
        · intro h; exact absurd h (not_lt.2 bot_le)
    · rw [val_lt_iff F x y hx hy]
      unfold num
      rw [if_neg ex, if_neg ey, WithBot.coe_lt_coe, WithTop.coe_lt_coe]

theorem compare_spec (F : Fmt) (hew : 2 ≤ F.ew) (x y : Bits) (hx : x.WF F) (hy : y.WF F) (nx : ¬ x.isNaN F) (ny : ¬ y.isNaN F) :
    (compare (key F x) (key F y) = .lt ↔ num F x < num F y) ∧ (compare (key F x) (key F y) = .gt ↔ num F y < num F x) ∧
      (compare (key F x) (key F y) = .eq ↔ num F x = num F y) := by
  have h1 := key_lt_iff F hew x y hx hy nx ny
  have h2 := key_lt_iff F hew y x hy hx ny nx
  have c1 : compare (key F x) (key F y) = .lt ↔ key F x < key F y := by
    rw [Int.compare_eq_lt]
  have c2 : compare (key F x) (key F y) = .gt ↔ key F y < key F x := by
    rw [Int.compare_eq_gt]
  have c3 : compare (key F x) (key F y) = .eq ↔ key F x = key F y := by
    rw [Int.compare_eq_eq]
  refine ⟨c1.trans h1, c2.trans h2, ?_⟩
  rw [c3]
  constructor
  · intro h
    have a1 : ¬ num F x < num F y := fun hh => by have := h1.2 hh; omega
    have a2 : ¬ num F y < num F x := fun hh => by have := h2.2 hh; omega
    exact le_antisymm (not_lt.1 a2) (not_lt.1 a1)
  · intro h
    have a1 : ¬ key F x < key F y := fun hh => by have := h1.1 hh; rw [h] at this; exact lt_irrefl _ this
    have a2 : ¬ key F y < key F x := fun hh => by have := h2.1 hh; rw [h] at this; exact lt_irrefl _ this
    omega

/-- The predicates whose "unordered or ..." alternative was forgotten. -/
def Pred.uRel : Pred → Bool
  | .ueq | .ugt | .uge | .ult | .ule | .une => true
  | _ => false

/-- **C27.**  Ten of the sixteen predicates return what LLVM prescribes for every pair of data
of any format (binary32, binary64), NaNs, infinities and zeros included.  Missing from the full statement:
`ueq`, `ugt`, `uge`, `ult`, `ule`, `une`, for which it is false (`C27_wrong_iff`). -/
theorem C27_agrees_partial (F : Fmt) (hew : 2 ≤ F.ew) (p : Pred) (hp : p.uRel = false) (a b : Bits) (ha : a.WF F) (hb : b.WF F) :
    cmp F p a b = true ↔ llvm F p a b := by
  by_cases hn : a.isNaN F ∨ b.isNaN F
  · have hno : ¬ (¬ a.isNaN F ∧ ¬ b.isNaN F) := by tauto
    cases p <;> simp [Pred.uRel] at hp <;>
      simp [cmp, llvm, eqC, isgreater, isgreaterequal, isless, islessequal, islessgreater, isunordered, fcompare, hn, hno] <;> tauto
  · obtain ⟨na, nb⟩ := not_or.1 hn
    obtain ⟨c1, c2, c3⟩ := compare_spec F hew a b ha hb na nb
    cases p <;> simp [Pred.uRel] at hp <;>
      simp [cmp, llvm, eqC, isgreater, isgreaterequal, isless, islessequal, islessgreater, isunordered, fcompare, na, nb, c1, c2, c3]
    · rw [le_iff_lt_or_eq, eq_comm]
    · rw [le_iff_lt_or_eq]

/-- **C27, negation.**  The six other predicates are wrong exactly when the operands are
ordered and in the relation named by the predicate: the answer is then false instead of true. -/
theorem C27_wrong_iff (F : Fmt) (p : Pred) (hp : p.uRel = true) (a b : Bits) :
    ¬ (cmp F p a b = true ↔ llvm F p a b) ↔ ¬ a.isNaN F ∧ ¬ b.isNaN F ∧
      (match p with
        | .ueq => num F a = num F b
        | .ugt => num F b < num F a
        | .uge => num F b ≤ num F a
        | .ult => num F a < num F b
        | .ule => num F a ≤ num F b
        | _ => num F a ≠ num F b) := by
  by_cases hn : a.isNaN F ∨ b.isNaN F
  · cases p <;> simp [Pred.uRel] at hp <;> simp [cmp, llvm, isunordered, fcompare, hn] <;> tauto
  · obtain ⟨na, nb⟩ := not_or.1 hn
    cases p <;> simp [Pred.uRel] at hp <;> simp [cmp, llvm, isunordered, fcompare, na, nb]

/-- `1.0 != 2.0` (compiled to `une`) answers false. -/
theorem C27_not_equal_false : cmp b64 .une ⟨false, 1023, 0⟩ ⟨false, 1024, 0⟩ = false ∧
    llvm b64 .une ⟨false, 1023, 0⟩ ⟨false, 1024, 0⟩ := by
  refine ⟨by decide, Or.inr ?_⟩
  have h : num b64 ⟨false, 1023, 0⟩ < num b64 ⟨false, 1024, 0⟩ := by
    rw [← key_lt_iff b64 (by decide) _ _ (by decide) (by decide) (by decide) (by decide)]; decide
  exact ne_of_lt h

example : cmp b32 .olt ⟨true, 127, 0⟩ ⟨false, 1, 5⟩ = true ∧ cmp b32 .oeq ⟨true, 0, 0⟩ ⟨false, 0, 0⟩ = true ∧
    cmp b32 .uno ⟨true, 255, 1⟩ ⟨false, 0, 0⟩ = true ∧ cmp b32 .olt ⟨true, 255, 0⟩ ⟨true, 254, 5⟩ = true := by decide

end Verif.Ieee
