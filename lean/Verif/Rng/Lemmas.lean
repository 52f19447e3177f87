import Verif.Rng.Model
import Mathlib.Dynamics.PeriodicPts.Defs
import Mathlib.Data.Fintype.EquivFin

/-! # The generator as maps on bits -/

namespace Verif.Rng

theorem rotl_eq (x : U64) (k : Nat) (hk : k < 64) : rotl x k = x.rotateLeft k := by
  unfold rotl
  rw [BitVec.rotateLeft_def]
  rw [Nat.mod_eq_of_lt hk]

theorem rotl_inv (x : U64) (k : Nat) (hk : 0 < k) (hk2 : k < 64) : rotl (rotl x k) (64 - k) = x := by
  rw [rotl_eq _ _ hk2, rotl_eq _ _ (by omega)]
  apply BitVec.eq_of_getLsbD_eq
  intro i hi
  rw [BitVec.getLsbD_rotateLeft, BitVec.getLsbD_rotateLeft, BitVec.getLsbD_rotateLeft]
  rw [Nat.mod_eq_of_lt (by omega : 64 - k < 64), Nat.mod_eq_of_lt hk2]
  by_cases h : i < 64 - k
  · have h2 : k + i < 64 := by omega
    have h3 : ¬ (64 - (64 - k) + i < k) := by omega
    have h4 : 64 - (64 - k) + i - k = i := by omega
    have h5 : 64 - (64 - k) + i < 64 := by omega
    simp [h, h3, h4, h5]
  · have h2 : i - (64 - k) < k := by omega
    have h3 : 64 - k + (i - (64 - k)) = i := by omega
    simp [h, h2, h3, hi]

theorem rotl_injective (k : Nat) (hk : 0 < k) (hk2 : k < 64) : Function.Injective (fun x => rotl x k) := by
  intro x y h
  simp only at h
  rw [← rotl_inv x k hk hk2, h, rotl_inv y k hk hk2]

theorem xorshift_injective (k : Nat) (hk : 0 < k) : Function.Injective (fun x : U64 => x ^^^ (x >>> k)) := by
  intro x y h
  simp only at h
  have hd : (x ^^^ y) = (x ^^^ y) >>> k := by
    rw [BitVec.ushiftRight_xor_distrib]
    have : x ^^^ y ^^^ (x >>> k ^^^ y >>> k) = 0 := by
      have e : x ^^^ y ^^^ (x >>> k ^^^ y >>> k) = (x ^^^ (x >>> k)) ^^^ (y ^^^ (y >>> k)) := by
        ac_rfl
      rw [e, h, BitVec.xor_self]; rfl
    exact BitVec.xor_eq_zero_iff.1 this
  have hz : ∀ n, (x ^^^ y) = (x ^^^ y) >>> (k * n) := by
    intro n
    induction n with
    | zero => simp
    | succ n ih => rw [Nat.mul_succ, BitVec.shiftRight_add, ← ih, ← hd]
  have h0 : (x ^^^ y) = 0#64 := by
    rw [hz 64]
    apply BitVec.ushiftRight_eq_zero
    omega
  exact BitVec.xor_eq_zero_iff.1 h0

theorem mul_injective (m i : U64) (h : m * i = 1#64) : Function.Injective (fun x : U64 => x * m) := by
  intro x y hxy
  simp only at hxy
  have : x * m * i = y * m * i := by rw [hxy]
  rwa [BitVec.mul_assoc, BitVec.mul_assoc, h, BitVec.mul_one, BitVec.mul_one] at this

theorem nextSeed_injective : Function.Injective nextSeed := by
  intro x y h
  unfold nextSeed at h
  simp only at h
  have h1 := xorshift_injective 31 (by decide) h
  have h2 := mul_injective _ 0x319642b2d24d8ec3#64 (by decide +kernel) h1
  have h3 := xorshift_injective 27 (by decide) h2
  have h4 := mul_injective _ 0x96de1b173f119089#64 (by decide +kernel) h3
  have h5 := xorshift_injective 30 (by decide) h4
  exact (BitVec.add_left_inj _).1 h5

theorem next_injective : Function.Injective next := by
  intro x y h
  unfold next at h
  simp only [St.mk.injEq] at h
  obtain ⟨h1, h2⟩ := h
  have h3 := rotl_injective 28 (by decide) (by decide) h2
  rw [h3] at h1
  have h4 : rotl x.s0 49 = rotl y.s0 49 := by
    rw [BitVec.xor_left_inj, BitVec.xor_left_inj] at h1
    exact h1
  have h5 := rotl_injective 49 (by decide) (by decide) h4
  rw [h5] at h3
  have h6 : x.s1 = y.s1 := by
    have := congrArg (fun z => z ^^^ y.s0) h3
    simpa [BitVec.xor_assoc] using this
  cases x; cases y; simp only at h5 h6; rw [h5, h6]

end Verif.Rng
