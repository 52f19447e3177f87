import Verif.Float.Conv
import Verif.Vprec.ConfigProps

/-! # VPREC gives numbers of the type -/

namespace Verif.Fp

theorem nan_wf (F : Fmt) (h : 1 ≤ F.mw) : (nanBits F).WF F :=
  ⟨by show F.expInf < _; have : 0 < 2 ^ F.ew := by positivity
      unfold Fmt.expInf; omega, by show 2 ^ (F.mw - 1) < 2 ^ F.mw; exact Nat.pow_lt_pow_right (by norm_num) (by omega)⟩

theorem inf_wf (F : Fmt) (s : Bool) : (infBits F s).WF F :=
  ⟨by show F.expInf < _; have : 0 < 2 ^ F.ew := by positivity
      unfold Fmt.expInf; omega, by show 0 < 2 ^ F.mw; positivity⟩

theorem fadd_wf (F : Fmt) (h : 1 ≤ F.mw) {x y : Bits} (hx : x.WF F) (hy : y.WF F) : (fadd F x y).WF F := by
  unfold fadd
  simp only
  split
  · exact nan_wf F h
  · split
    · split
      · exact nan_wf F h
      · exact hx
    · split
      · exact hy
      · split
        · exact ⟨by show 0 < 2 ^ F.ew; positivity, by show 0 < 2 ^ F.mw; positivity⟩
        · exact (encode_wf _ _ _ _).1

end Verif.Fp

namespace Verif.Vprec
open Verif Verif.Fp Verif.Vprec.Config

theorem emod_lt (n : Int) (k : Nat) : (n % 2 ^ k).toNat < 2 ^ k := by
  have h : (0 : Int) < 2 ^ k := by positivity
  have h1 := Int.emod_nonneg n (ne_of_gt h)
  have h2 := Int.emod_lt_of_pos n h
  have : ((n % 2 ^ k).toNat : Int) < ((2 ^ k : Nat) : Int) := by
    rw [Int.toNat_of_nonneg h1]; push_cast; exact h2
  exact_mod_cast this

theorem roundNormal_wf (sem : ShiftSem) (F : Fmt) (h : 1 ≤ F.mw) (w : Nat) (x y : Bits) (p : Int) (hx : x.WF F)
    (hr : roundNormal sem F w x p = .ok y) : y.WF F := by
  have hz : 0 < 2 ^ F.mw := by positivity
  unfold roundNormal at hr
  obtain ⟨mask, -, hr⟩ := bind_ok_inv hr
  dsimp only at hr
  obtain ⟨half, hh, hr⟩ := bind_ok_inv hr
  obtain ⟨up, -, hr⟩ := bind_ok_inv hr
  simp only [Outcome.pure_eq, Outcome.ok.injEq] at hr
  have hw : half.WF F := by
    split at hh
    · obtain ⟨m, -, hh⟩ := bind_ok_inv hh
      simp only [Outcome.pure_eq, Outcome.ok.injEq] at hh
      rw [← hh]
      exact ⟨by show 0 < 2 ^ F.ew; positivity, Nat.mod_lt _ hz⟩
    · simp only [Outcome.pure_eq, Outcome.ok.injEq] at hh
      rw [← hh]
      exact ⟨emod_lt _ _, hz⟩
  have hy : (if up = true then fadd F x half else x).WF F := by
    split
    · exact fadd_wf F h hx hw
    · exact hx
  rw [← hr]
  exact ⟨hy.1, lt_of_le_of_lt Nat.and_le_left hy.2⟩

theorem handleDenormal_wf (sem : ShiftSem) (F : Fmt) (hF : F = b32 ∨ F = b64) (x y : Bits) (e p : Int) (hx : x.WF F)
    (hr : handleDenormal sem F x e p = .ok y) : y.WF F := by
  have hz : 0 < 2 ^ F.mw := by positivity
  have h0 : 0 < 2 ^ F.ew := by positivity
  unfold handleDenormal at hr
  split at hr
  · simp only [Outcome.pure_eq, Outcome.ok.injEq] at hr
    rw [← hr]
    unfold roundUnderflow
    dsimp only
    split
    · exact ⟨Nat.mod_lt _ h0, hz⟩
    · exact ⟨h0, hz⟩
  · split at hr
    · obtain ⟨z, h1, hr⟩ := bind_ok_inv hr
      simp only [Outcome.pure_eq, Outcome.ok.injEq] at hr
      rw [← hr]
      rcases hF with rfl | rfl
      · rw [if_neg (by decide)]
        exact fconv_wf _ _ (by decide) _
      · rw [if_pos rfl]
        rw [if_pos rfl] at h1
        unfold roundDenormal64 at h1
        dsimp only at h1
        split at h1
        · simp only [Outcome.pure_eq, Outcome.ok.injEq] at h1
          rw [← h1]
          exact fconv_wf _ _ (by decide) _
        · obtain ⟨up, -, h1⟩ := bind_ok_inv h1
          obtain ⟨mask, -, h1⟩ := bind_ok_inv h1
          simp only [Outcome.pure_eq, Outcome.ok.injEq] at h1
          rw [← h1]
          exact fconv_wf _ _ (by decide) _
    · simp only [Outcome.pure_eq, Outcome.ok.injEq] at hr
      rw [← hr]
      exact hx

theorem pow2i_wf (F : Fmt) (i : Int) : (pow2i F i).WF F := by
  have hz : 0 < 2 ^ F.mw := by positivity
  have h0 : 0 < 2 ^ F.ew := by positivity
  have hi : F.expInf < 2 ^ F.ew := by unfold Fmt.expInf; omega
  unfold pow2i
  dsimp only
  split
  · exact ⟨h0, hz⟩
  · split
    · exact inf_wf F _
    · split
      · refine ⟨?_, Nat.mod_lt _ hz⟩
        show 2 ^ _ / 2 ^ F.mw < _
        have : 2 ^ ((F.mw : Int) - 1 + (i + F.bias)).toNat < 2 ^ F.mw ∨ F.mw = 0 := by
          by_cases h : F.mw = 0
          · exact .inr h
          · exact .inl (Nat.pow_lt_pow_right (by norm_num) (by omega))
        rcases this with h | h
        · rw [Nat.div_eq_of_lt h]; exact h0
        · omega
      · refine ⟨?_, Nat.mod_lt _ hz⟩
        show _ * 2 ^ F.mw / 2 ^ F.mw < _
        rw [Nat.mul_div_cancel _ hz]
        omega

/-- What VPREC rounds stays a number of the type. -/
theorem roundBinary_wf (sem : ShiftSem) (F : Fmt) (hF : F = b32 ∨ F = b64) (w : Nat) (x y : Bits) (inp : Bool) (c : Ctx) (r : Nat) (p : Int)
    (hx : x.WF F) (h : roundBinary sem F w x inp c r p = .ok y) : y.WF F := by
  have hz : 0 < 2 ^ F.mw := by positivity
  have h0 : 0 < 2 ^ F.ew := by positivity
  have hm : 1 ≤ F.mw := by rcases hF with rfl | rfl <;> decide
  unfold roundBinary at h
  split at h
  · simp only [Outcome.pure_eq, Outcome.ok.injEq] at h
    rw [← h]; exact hx
  · dsimp only at h
    obtain ⟨o, -, h⟩ := bind_ok_inv h
    split at h
    · simp only [Outcome.pure_eq, Outcome.ok.injEq] at h
      rw [← h]; exact inf_wf F _
    · split at h
      · split at h
        · simp only [Outcome.pure_eq, Outcome.ok.injEq] at h
          rw [← h]; exact ⟨h0, hz⟩
        · split at h
          · simp only [Outcome.pure_eq, Outcome.ok.injEq] at h
            rw [← h]; exact hx
          · split at h
            · exact handleDenormal_wf sem F hF _ _ _ _ hx h
            · exact handleDenormal_wf sem F hF _ _ _ _ hx h
      · split at h
        · unfold normalAbsErr at h
          dsimp only at h
          split at h
          · simp only [Outcome.pure_eq, Outcome.ok.injEq] at h
            rw [← h]; exact ⟨h0, hz⟩
          · split at h
            · simp only [Outcome.pure_eq, Outcome.ok.injEq] at h
              rw [← h]; exact pow2i_wf F _
            · exact roundNormal_wf sem F hm w _ _ _ hx h
        · exact roundNormal_wf sem F hm w _ _ _ hx h

end Verif.Vprec
