import Verif.Precexp.Model
import Mathlib.Data.Nat.Size

/-!
# C61: the dichotomy of `vfc_precexp`
-/

namespace Verif.Precexp
open Verif Verif.Vfi

/-- Whatever the verdicts, a search that ends left a value whose last run was accepted. -/
theorem dich_last (chk : Nat → Nat → Bool) : ∀ (fuel n l r v m : Nat), dich chk fuel n l r = some (v, m) →
    n < m ∧ chk (m - 1) v = true
  | 0, _, _, _, _, _, h => by simp [dich] at h
  | fuel + 1, n, l, r, v, m, h => by
    rw [dich] at h
    by_cases hp : chk n ((r + l) / 2) = true
    · rw [if_pos hp] at h
      by_cases hl : r ≤ l
      · rw [if_pos hl] at h
        simp only [Option.some.injEq, Prod.mk.injEq] at h
        obtain ⟨rfl, rfl⟩ := h
        exact ⟨by omega, by simpa using hp⟩
      · rw [if_neg hl] at h
        have := dich_last chk fuel _ _ _ _ _ h
        exact ⟨by omega, this.2⟩
    · rw [if_neg hp] at h
      have := dich_last chk fuel _ _ _ _ _ h
      exact ⟨by omega, this.2⟩

/-- **C61.**  Whatever the program (even one whose verdicts change from run to run), when a search
ends the last run that was made used the value left in the field, and was accepted. -/
theorem C61_last_run (chk : Nat → Nat → Bool) (fuel n lo hi v m : Nat) (h : search chk fuel n lo hi = some (v, m)) :
    n < m ∧ chk (m - 1) v = true := by
  unfold search at h
  by_cases hp : chk n lo = true
  · rw [if_pos hp] at h
    simp only [Option.some.injEq, Prod.mk.injEq] at h
    obtain ⟨rfl, rfl⟩ := h
    exact ⟨by omega, by simpa using hp⟩
  · rw [if_neg hp] at h
    have := dich_last chk fuel _ _ _ _ _ h
    exact ⟨by omega, this.2⟩

/-- Termination and number of runs of the loop, when the upper bound is accepted. -/
theorem dich_ends (ok : Nat → Bool) (lo : Nat) : ∀ (fuel n l r : Nat), l ≤ r → ok r = true → (r - l).size < fuel →
    (l = lo ∨ ok (l - 1) = false) →
    ∃ v m, dich (fun _ => ok) fuel n l r = some (v, m) ∧ l ≤ v ∧ v ≤ r ∧ ok v = true ∧
      (v = lo ∨ ok (v - 1) = false) ∧ m ≤ n + (r - l).size + 1
  | 0, _, _, _, _, _, h, _ => by omega
  | fuel + 1, n, l, r, hlr, hr, hf, hk => by
    rw [dich]
    by_cases hl : r ≤ l
    · obtain rfl : l = r := by omega
      rw [show (l + l) / 2 = l by omega, if_pos hr, if_pos le_rfl]
      exact ⟨l, n + 1, rfl, le_rfl, le_rfl, hr, hk, by omega⟩
    · have hsz : ∀ d, d ≤ (r - l) / 2 → d.size + 1 ≤ (r - l).size := by
        intro d hd
        rw [Nat.add_one_le_iff, Nat.lt_size]
        rcases Nat.eq_zero_or_pos d with rfl | hd0
        · simp only [Nat.size_zero, pow_zero]; omega
        · obtain ⟨k, hk⟩ : ∃ k, d.size = k + 1 := ⟨d.size - 1, by have := Nat.size_pos.2 hd0; omega⟩
          have : 2 ^ k ≤ d := Nat.lt_size.1 (by omega)
          rw [hk, pow_succ]; omega
      by_cases hp : ok ((r + l) / 2) = true
      · rw [if_pos hp, if_neg hl]
        have hz := hsz ((r + l) / 2 - l) (by omega)
        obtain ⟨v, m, e, h1, h2, h3, h4, h5⟩ := dich_ends ok lo fuel (n + 1) l ((r + l) / 2) (by omega) hp (by omega) hk
        exact ⟨v, m, e, h1, by omega, h3, h4, by omega⟩
      · rw [if_neg hp]
        have hne : (r + l) / 2 ≠ r := fun h => hp (by rw [h]; exact hr)
        have hz := hsz (r - ((r + l) / 2 + 1)) (by omega)
        obtain ⟨v, m, e, h1, h2, h3, h4, h5⟩ := dich_ends ok lo fuel (n + 1) ((r + l) / 2 + 1) r (by omega) hr (by omega)
          (Or.inr (by simpa using hp))
        exact ⟨v, m, e, by omega, h2, h3, h4, by omega⟩

/-- **C61.**  For a deterministic program that accepts the upper bound, a search ends after at
most `⌈log2⌉ + 2` runs, with a value between the bounds that is accepted and cannot be lowered by
one. -/
theorem C61_search (ok : Nat → Bool) (fuel n lo hi : Nat) (hlh : lo ≤ hi) (hhi : ok hi = true) (hf : (hi - lo).size < fuel) :
    ∃ v m, search (fun _ => ok) fuel n lo hi = some (v, m) ∧ lo ≤ v ∧ v ≤ hi ∧ ok v = true ∧
      (v = lo ∨ ok (v - 1) = false) ∧ m ≤ n + (hi - lo).size + 2 := by
  unfold search
  by_cases hp : ok lo = true
  · rw [if_pos hp]
    exact ⟨lo, n + 1, rfl, le_rfl, hlh, hp, Or.inl rfl, by omega⟩
  · rw [if_neg hp]
    obtain ⟨v, m, e, h1, h2, h3, h4, h5⟩ := dich_ends ok lo fuel (n + 1) lo hi hlh hhi hf (Or.inl rfl)
    exact ⟨v, m, e, h1, h2, h3, h4, by omega⟩

/-- **C61.**  When more precision never hurts, the value found is the least accepted one. -/
theorem C61_minimum (ok : Nat → Bool) (fuel n lo hi : Nat) (hlh : lo ≤ hi) (hhi : ok hi = true) (hf : (hi - lo).size < fuel)
    (hmono : ∀ v w, v ≤ w → w ≤ hi → ok v = true → ok w = true) :
    ∃ v m, search (fun _ => ok) fuel n lo hi = some (v, m) ∧ ok v = true ∧ lo ≤ v ∧ ∀ w, lo ≤ w → w < v → ok w = false := by
  obtain ⟨v, m, e, h1, h2, h3, h4, -⟩ := C61_search ok fuel n lo hi hlh hhi hf
  refine ⟨v, m, e, h3, h1, fun w hw hwv => ?_⟩
  by_contra hne
  rcases h4 with h4 | h4
  · omega
  · have := hmono w (v - 1) (by omega) (by omega) (by simpa using hne)
    rw [h4] at this; exact absurd this (by decide)

/-- The six searches of the tool end within 8 runs. -/
example : ((52 - 1 : Nat).size + 2, (11 - 2 : Nat).size + 2, (23 - 1 : Nat).size + 2, (8 - 2 : Nat).size + 2) = (8, 6, 7, 5) := by
  decide +kernel

/-- 7 bits are needed. -/
example : search (fun _ v => decide (7 ≤ v)) 7 0 1 52 = some (7, 7) := by decide +kernel

theorem dich_diverges (chk : Nat → Nat → Bool) (lo hi : Nat) (h : ∀ n v, lo ≤ v → v ≤ hi → chk n v = false) :
    ∀ (fuel n l : Nat), lo ≤ l → l ≤ hi + 1 → lo ≤ hi → dich chk fuel n l hi = none
  | 0, _, _, _, _, _ => rfl
  | fuel + 1, n, l, h1, h2, h3 => by
    rw [dich, h n ((hi + l) / 2) (by omega) (by omega), if_neg (by decide)]
    exact dich_diverges chk lo hi h fuel (n + 1) _ (by omega) (by omega) h3

/-- **C61, negation.**  When no precision is accepted (for instance because the program fails for
another reason), the search never ends: it runs the program at the upper bound for ever. -/
theorem C61_rejected_diverges (chk : Nat → Nat → Bool) (lo hi : Nat) (hlh : lo ≤ hi)
    (h : ∀ n v, lo ≤ v → v ≤ hi → chk n v = false) (fuel n : Nat) : search chk fuel n lo hi = none := by
  unfold search
  rw [h n lo le_rfl hlh, if_neg (by decide)]
  exact dich_diverges chk lo hi h fuel (n + 1) lo le_rfl (by omega) hlh

/-- **C61, negation.**  Nor does it always end when some precision is accepted: here 2 bits would
do, and the search, which has seen 1, 26, 39, …, 52 rejected, goes on for ever. -/
theorem C61_missed_diverges : ∃ ok : Nat → Bool, ok 2 = true ∧ ∀ fuel n, search (fun _ => ok) fuel n 1 52 = none := by
  refine ⟨fun v => decide (v = 2), by decide, fun fuel n => ?_⟩
  unfold search
  rw [if_neg (by simp)]
  rcases fuel with _ | fuel
  · rfl
  · rw [dich, if_neg (by simp)]
    exact dich_diverges _ 27 52 (fun _ v h1 _ => by simp; omega) fuel _ 27 (by omega) (by omega) (by omega)

end Verif.Precexp
