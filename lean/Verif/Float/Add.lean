import Verif.Float.Encode

/-! # Exact additions -/

namespace Verif.Fp

/-- Value from the signed magnitude. -/
theorem val_eq_imag (F : Fmt) (x : Bits) : x.val F = (x.imag F : ℚ) * 2 ^ F.uexp := by
  rw [val_eq_mag]; unfold Bits.imag sgn
  split <;> simp

/-- A sum whose significand fits the format is exact. -/
theorem fadd_exact (F : Fmt) (hew : 2 ≤ F.ew) (a b : Bits) (ha : a.Fin F) (hb : b.Fin F) (M c : Nat)
    (hs : (a.imag F + b.imag F).natAbs = M * 2 ^ c) (hM : M < 2 ^ (F.mw + 1))
    (hfit : M * 2 ^ c < 2 ^ (F.mw + 1) * 2 ^ (F.expInf - 2)) :
    (fadd F a b).WF F ∧ (fadd F a b).Fin F ∧ (fadd F a b).imag F = a.imag F + b.imag F := by
  have h1 : ¬ (a.isNaN F ∨ b.isNaN F) := by
    rintro (h | h)
    · exact ha h.1
    · exact hb h.1
  have h2 : ¬ a.isInf F := fun h => ha h.1
  have h3 : ¬ b.isInf F := fun h => hb h.1
  have hinf := expInf_ge F hew
  unfold fadd
  rw [if_neg h1, if_neg h2, if_neg h3]
  simp only
  split
  · rename_i h0
    refine ⟨⟨by simp [zeroBits], by simp [zeroBits]⟩, ?_, ?_⟩
    · unfold Bits.Fin zeroBits; simp; omega
    · rw [h0]; simp [Bits.imag, Bits.mag, Bits.sig, zeroBits]
  · rename_i h0
    have hM0 : M ≠ 0 := by
      rintro rfl; rw [Nat.zero_mul] at hs; omega
    rw [hs]
    obtain ⟨e1, e2, e3, e4⟩ := encode_repr F hew (decide (a.imag F + b.imag F < 0)) M c hM0 hM hfit
    refine ⟨e2, by unfold Bits.Fin; omega, ?_⟩
    unfold Bits.imag at *
    rw [e1, e4, ← hs]
    by_cases hneg : ((if a.sign = true then -(a.mag F : ℤ) else a.mag F) +
        (if b.sign = true then -(b.mag F : ℤ) else b.mag F)) < 0
    · simp only [hneg, decide_true, if_true]; omega
    · simp only [hneg, decide_false]
      simp only [Bool.false_eq_true, if_false]; omega

end Verif.Fp
