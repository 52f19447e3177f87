import Mathlib.Tactic.FieldSimp
import Mathlib.Tactic.IntervalCases
import Mathlib.Tactic.Positivity
import Verif.Ieee.Print
import Verif.Ieee.CmpProps
import Verif.Vfi.FileProps

/-! # C29: binary printing is lossless -/

namespace Verif.Ieee
open Verif Verif.Fp

/-! ## Reading the text -/

/-- Value of a sequence of binary digits after the point. -/
def frac : List Char → ℚ
  | [] => 0
  | c :: cs => ((if c = '1' then 1 else 0) + frac cs) / 2

inductive Num
  | fin (neg : Bool) (v : ℚ)
  | inf (neg : Bool)
  | nan
deriving DecidableEq

/-- What a text denotes: sign, one digit, a point, binary digits, `x 2^`, a decimal exponent. -/
def readBin (t : List Char) : Option Num :=
  match t with
  | s :: 'i' :: 'n' :: 'f' :: [] => some (.inf (s == '-'))
  | _ :: 'n' :: 'a' :: 'n' :: [] => some .nan
  | s :: d :: '.' :: rest =>
    match rest.dropWhile (fun c => c != ' ') with
    | ' ' :: 'x' :: ' ' :: '2' :: '^' :: e =>
      (Vprec.Config.strtol e).map fun e =>
        .fin (s == '-') ((if s = '-' then -1 else 1) *
          ((if d = '1' then 1 else 0) + frac (rest.takeWhile (fun c => c != ' '))) * 2 ^ e)
    | _ => none
  | _ => none

/-! ## Digits -/

theorem frac_nibble (n : Nat) (hn : n < 16) (t : List Char) : frac (nibble n ++ t) = ((n : ℚ) + frac t) / 16 := by
  interval_cases n <;> simp [nibble, frac] <;> ring

theorem frac_zeros (t : List Char) (h : ∀ c ∈ t, c ≠ '1') : frac t = 0 := by
  induction t with
  | nil => rfl
  | cons c cs ih =>
    rw [frac, if_neg (h c (by simp)), ih (fun d hd => h d (by simp [hd]))]; norm_num

theorem frac_append_zeros (l t : List Char) (h : ∀ c ∈ t, c ≠ '1') : frac (l ++ t) = frac l := by
  induction l with
  | nil => simpa [frac] using frac_zeros t h
  | cons c cs ih => simp only [List.cons_append, frac, ih]

theorem frac_rtrim (l : List Char) : frac (rtrim l) = frac l := by
  have h := List.takeWhile_append_dropWhile (p := (· != '1')) (l := l.reverse)
  have e : l = rtrim l ++ (l.reverse.takeWhile (· != '1')).reverse := by
    unfold rtrim
    rw [← List.reverse_append, h, List.reverse_reverse]
  conv_rhs => rw [e]
  rw [frac_append_zeros]
  intro c hc
  have h1 := List.all_takeWhile (p := (· != '1')) (l := l.reverse)
  have := List.all_eq_true.1 h1 c (List.mem_reverse.1 hc)
  simpa using this

/-- The groups from bit `4 g` on denote the bits of `X` below, when `last` is beyond the last
one bit. -/
theorem frac_groups (n X last : Nat) (hlast : ∀ i, last ≤ i → i ≤ 4 * n → 2 ^ (4 * n - i) ∣ X) : ∀ fuel g, g + fuel = n →
    frac (groups (4 * n) X last fuel (4 * g)) = (X % 2 ^ (4 * n - 4 * g) : ℕ) / 2 ^ (4 * n - 4 * g) := by
  intro fuel
  induction fuel with
  | zero =>
    intro g hg
    have : 4 * n - 4 * g = 0 := by omega
    rw [this]; simp [groups, frac, Nat.mod_one]
  | succ fuel ih =>
    intro g hg
    rw [groups]
    split
    · have e1 : 4 * n - (4 * g + 4) = 4 * n - 4 * (g + 1) := by omega
      rw [frac_nibble _ (Nat.mod_lt _ (by norm_num)), show 4 * g + 4 = 4 * (g + 1) by ring, ih (g + 1) (by omega)]
      have e2 : 4 * n - 4 * g = (4 * n - 4 * (g + 1)) + 4 := by omega
      rw [e2]
      generalize 4 * n - 4 * (g + 1) = k
      have hmod : X % 2 ^ (k + 4) = 2 ^ k * (X / 2 ^ k % 16) + X % 2 ^ k := by
        rw [pow_add, Nat.mod_mul]; norm_num; ring
      rw [hmod]
      push_cast
      have : (2 : ℚ) ^ k ≠ 0 := by positivity
      field_simp
      ring
    · rename_i h
      have := hlast (4 * g) (by omega) (by omega)
      rw [Nat.mod_eq_zero_of_dvd this]
      simp [frac]

theorem ffs_spec (fuel X : Nat) (hX : X ≠ 0) (hlt : X < 2 ^ fuel) : 1 ≤ ffs fuel X ∧ ffs fuel X ≤ fuel ∧ 2 ^ (ffs fuel X - 1) ∣ X := by
  induction fuel generalizing X with
  | zero => simp at hlt; exact absurd hlt hX
  | succ n ih =>
    rw [ffs]
    split
    · simp
    · rename_i h
      obtain ⟨h1, h2, h3⟩ := ih (X / 2) (by omega) (by rw [pow_succ] at hlt; omega)
      refine ⟨by omega, by omega, ?_⟩
      obtain ⟨k, hk⟩ := h3
      refine ⟨k, ?_⟩
      have e : ffs n (X / 2) + 1 - 1 = (ffs n (X / 2) - 1) + 1 := by omega
      rw [e, pow_succ]
      have : X = 2 * (X / 2) := by omega
      rw [Nat.mul_comm _ 2, Nat.mul_assoc, ← hk]; exact this

theorem frac_uintToBit (n X : Nat) (hX : X < 2 ^ (4 * n)) : frac (uintToBit (4 * n) X) = (X : ℚ) / 2 ^ (4 * n) := by
  unfold uintToBit
  split
  · rename_i h; simp [h, frac]
  · rename_i h
    obtain ⟨h1, h2, h3⟩ := ffs_spec (4 * n) X h hX
    rw [frac_rtrim]
    have := frac_groups n X (4 * n - ffs (4 * n) X + 1) (by
      intro i hi hi2
      exact Dvd.dvd.trans (pow_dvd_pow 2 (by omega)) h3) n 0 (by omega)
    rw [Nat.mul_zero] at this
    rw [show 4 * n / 4 = n by omega, this, Nat.sub_zero, Nat.mod_eq_of_lt hX]

theorem uintToBit_nospace (W X : Nat) : ∀ c ∈ uintToBit W X, (c != ' ') = true := by
  have hn : ∀ n c, c ∈ nibble n → (c != ' ') = true := by
    intro n c hc
    simp only [nibble, List.mem_cons, List.not_mem_nil, or_false] at hc
    rcases hc with rfl | rfl | rfl | rfl <;> split <;> decide
  have hg : ∀ last fuel i c, c ∈ groups W X last fuel i → (c != ' ') = true := by
    intro last fuel
    induction fuel with
    | zero => intro i c hc; simp [groups] at hc
    | succ f ih =>
      intro i c hc
      rw [groups] at hc
      split at hc
      · rcases List.mem_append.1 hc with h | h
        · exact hn _ _ h
        · exact ih _ _ h
      · simp at hc
  intro c hc
  unfold uintToBit at hc
  split at hc
  · simp at hc; subst hc; decide
  · unfold rtrim at hc
    rw [List.mem_reverse] at hc
    have := List.dropWhile_suffix (fun c => c != '1') (l := (groups W X (W - ffs W X + 1) (W / 4) 0).reverse)
    exact hg _ _ _ _ (List.mem_reverse.1 (this.subset hc))

theorem readBin_fmtBin (s : Bool) (d : Char) (m : List Char) (hm : ∀ c ∈ m, (c != ' ') = true) (e : Int)
    (he : -(2 ^ 31) ≤ e ∧ e < 2 ^ 31) :
    readBin (fmtBin s d m e) = some (.fin s (sgn s * ((if d = '1' then 1 else 0) + frac m) * 2 ^ e)) := by
  have hst := Vfi.strtol_dec e he [] (by simp)
  rw [List.append_nil] at hst
  have hsp : " x 2^".toList ++ Vfi.dec e = ' ' :: 'x' :: ' ' :: '2' :: '^' :: Vfi.dec e := rfl
  have t1 : List.dropWhile (fun c => c != ' ') (m ++ (" x 2^".toList ++ Vfi.dec e)) = ' ' :: 'x' :: ' ' :: '2' :: '^' :: Vfi.dec e := by
    rw [hsp, List.dropWhile_append_of_pos hm, List.dropWhile_cons_of_neg (by decide)]
  have t2 : List.takeWhile (fun c => c != ' ') (m ++ (" x 2^".toList ++ Vfi.dec e)) = m := by
    rw [hsp, List.takeWhile_append_of_pos hm, List.takeWhile_cons_of_neg (by decide), List.append_nil]
  generalize hrest : m ++ (" x 2^".toList ++ Vfi.dec e) = rest at t1 t2
  unfold fmtBin
  rw [hrest]
  have hf : ∀ c : Char, readBin (c :: d :: '.' :: rest) = some (.fin (c == '-') ((if c = '-' then -1 else 1) *
      ((if d = '1' then 1 else 0) + frac m) * 2 ^ e)) := by
    intro c
    unfold readBin
    split
    · rename_i heq; simp at heq
    · rename_i heq; simp at heq
    · rename_i s' d' r heq
      simp only [List.cons.injEq] at heq
      obtain ⟨rfl, rfl, -, rfl⟩ := heq
      rw [t1]
      simp only [hst, Option.map_some, t2]
    · rename_i h1 h2 h3
      exact absurd rfl (h3 c d rest)
  rw [hf]
  cases s <;> simp [sgn]

/-! ## The theorem -/

/-- Formats whose mantissa, shifted over sign and exponent, fills the word. -/
structure Layout (F : Fmt) (W n : Nat) : Prop where
  hw : W = 4 * n
  width : F.width = W
  ew : 2 ≤ F.ew
  small : F.ew ≤ 20
  mw : F.mw ≤ 200

theorem layout32 : Layout b32 32 8 := ⟨rfl, rfl, by decide, by decide, by decide⟩
theorem layout64 : Layout b64 64 16 := ⟨rfl, rfl, by decide, by decide, by decide⟩

theorem bias_lt (F : Fmt) (h : F.ew ≤ 20) : F.bias < 2 ^ 20 := by
  unfold Fmt.bias
  have : 2 ^ (F.ew - 1) ≤ 2 ^ 20 := Nat.pow_le_pow_right (by norm_num) (by omega)
  have : 0 < 2 ^ (F.ew - 1) := by positivity
  omega

/-- **C29, the text denotes the number.**  Reading the printed text of any finite float or double
(either style for subnormals) gives its sign and exactly its value. -/
theorem C29_denotes (F : Fmt) (W n : Nat) (hL : Layout F W n) (alt : Bool) (x : Bits) (hx : x.WF F) (hfin : x.Fin F) :
    readBin (printBin F W alt x) = some (.fin x.sign (x.val F)) := by
  obtain ⟨he, hm⟩ := hx
  obtain ⟨hW, hwd, hew, hsm, hmw⟩ := hL
  have hb := bias_lt F hsm
  have hwd' : 1 + F.ew + F.mw = W := hwd
  have hshift : x.man * 2 ^ (F.ew + 1) < 2 ^ W := by
    rw [← hwd', show 1 + F.ew + F.mw = F.mw + (F.ew + 1) by ring, pow_add 2 F.mw (F.ew + 1)]
    exact Nat.mul_lt_mul_of_pos_right hm (Nat.two_pow_pos (F.ew + 1))
  have hmod : x.man * 2 ^ (F.ew + 1) % 2 ^ W = x.man * 2 ^ (F.ew + 1) := Nat.mod_eq_of_lt hshift
  have hfrac : frac (uintToBit W (x.man * 2 ^ (F.ew + 1))) = (x.man : ℚ) / 2 ^ F.mw := by
    have hq := frac_uintToBit n _ (by rw [← hW]; exact hshift)
    rw [← hW] at hq
    rw [hq, ← hwd', show 1 + F.ew + F.mw = F.mw + (F.ew + 1) by ring, pow_add (2:ℚ) F.mw (F.ew + 1)]
    have h1 : (2 : ℚ) ^ F.mw ≠ 0 := by positivity
    have h2 : (2 : ℚ) ^ (F.ew + 1) ≠ 0 := by positivity
    rw [Nat.cast_mul, Nat.cast_pow, Nat.cast_ofNat, mul_div_mul_right _ _ h2]
  have h2 : (2 : ℚ) ≠ 0 := by norm_num
  have hexp : x.exp < 2 ^ 20 := lt_of_lt_of_le he (Nat.pow_le_pow_right (by norm_num) hsm)
  unfold printBin
  simp only [hmod]
  by_cases h0 : x.exp = 0 ∧ x.man = 0
  · rw [if_pos h0, readBin_fmtBin _ _ _ (by decide) _ (by norm_num)]
    simp [frac, Bits.val, Bits.sig, h0.1, h0.2]
  · rw [if_neg h0, if_neg (fun h => hfin h.1), if_neg hfin]
    by_cases hs : x.exp = 0
    · have hman : x.man ≠ 0 := fun h => h0 ⟨hs, h⟩
      rw [if_pos hs]
      by_cases ha : alt
      · rw [if_pos ha]
        -- normalised subnormal
        set L := Nat.log2 x.man with hLdef
        have hlog : Nat.log2 (x.man * 2 ^ (F.ew + 1)) = L + (F.ew + 1) := log2_mul_pow _ _ hman
        have hL1 : 2 ^ L ≤ x.man := Nat.log2_self_le hman
        have hL2 : x.man < 2 ^ (L + 1) := Nat.lt_log2_self
        have hLm : L < F.mw := by
          by_contra hc
          have : 2 ^ F.mw ≤ 2 ^ L := Nat.pow_le_pow_right (by norm_num) (by omega)
          omega
        have hoff : clz W (x.man * 2 ^ (F.ew + 1)) + 1 = F.mw - L := by
          unfold clz; rw [hlog]; omega
        rw [hoff]
        have hX : x.man * 2 ^ (F.ew + 1) * 2 ^ (F.mw - L) % 2 ^ W = (x.man - 2 ^ L) * 2 ^ (W - L) := by
          have e : W - L = (F.ew + 1) + (F.mw - L) := by omega
          rw [Nat.mul_assoc, ← pow_add, ← e]
          have hsplit : x.man * 2 ^ (W - L) = (x.man - 2 ^ L) * 2 ^ (W - L) + 2 ^ W := by
            have : 2 ^ W = 2 ^ L * 2 ^ (W - L) := by rw [← pow_add]; congr 1; omega
            rw [this, ← Nat.add_mul]; congr 1; omega
          rw [hsplit, Nat.add_mod_right]
          apply Nat.mod_eq_of_lt
          have : 2 ^ W = 2 ^ L * 2 ^ (W - L) := by rw [← pow_add]; congr 1; omega
          rw [this]
          exact Nat.mul_lt_mul_of_pos_right (by rw [pow_succ] at hL2; omega) (by positivity)
        rw [hX]
        have hlt : (x.man - 2 ^ L) * 2 ^ (W - L) < 2 ^ W := by
          have : 2 ^ W = 2 ^ L * 2 ^ (W - L) := by rw [← pow_add]; congr 1; omega
          rw [this]
          exact Nat.mul_lt_mul_of_pos_right (by rw [pow_succ] at hL2; omega) (by positivity)
        have hfr : frac (uintToBit W ((x.man - 2 ^ L) * 2 ^ (W - L))) = ((x.man : ℚ) - 2 ^ L) / 2 ^ L := by
          have hq := frac_uintToBit n _ (by rw [← hW]; exact hlt)
          rw [← hW] at hq
          rw [hq]
          have : (2 : ℚ) ^ W = 2 ^ L * 2 ^ (W - L) := by rw [← pow_add]; congr 1; omega
          rw [this]
          push_cast [Nat.cast_sub hL1]
          have h1 : (2 : ℚ) ^ L ≠ 0 := by positivity
          have h3 : (2 : ℚ) ^ (W - L) ≠ 0 := by positivity
          field_simp
        rw [readBin_fmtBin _ _ _ (uintToBit_nospace _ _) _ (by omega), hfr]
        congr 2
        unfold Bits.val Bits.sig Bits.lsb
        rw [if_pos hs, hs, if_pos rfl]
        have h1 : (2 : ℚ) ^ L ≠ 0 := by positivity
        have e1 : (1 : ℚ) + ((x.man : ℚ) - 2 ^ L) / 2 ^ L = x.man / 2 ^ L := by field_simp; ring
        rw [e1]
        have e2 : (2 : ℚ) ^ (1 - (F.bias : ℤ) - ((F.mw - L : ℕ) : ℤ)) = 2 ^ (((max 0 1 : ℕ) : ℤ) - F.bias - F.mw) * 2 ^ L := by
          rw [← zpow_natCast (2 : ℚ) L, ← zpow_add₀ h2]
          congr 1
          simp only [Nat.zero_le, sup_of_le_right]
          omega
        rw [e2]
        field_simp
      · rw [if_neg ha, readBin_fmtBin _ _ _ (uintToBit_nospace _ _) _ (by omega), hfrac]
        congr 2
        unfold Bits.val Bits.sig Bits.lsb
        rw [if_pos hs, hs, if_neg (by decide)]
        simp only [Nat.zero_le, sup_of_le_right, Nat.cast_one, zero_add]
        rw [zpow_sub₀ h2 (1 - (F.bias : ℤ)) F.mw, zpow_natCast]
        field_simp
    · rw [if_neg hs, readBin_fmtBin _ _ _ (uintToBit_nospace _ _) _ (by omega), hfrac]
      congr 2
      unfold Bits.val Bits.sig Bits.lsb
      rw [if_neg hs, if_pos rfl]
      have hmax : max x.exp 1 = x.exp := by omega
      rw [hmax, zpow_sub₀ h2 ((x.exp : ℤ) - F.bias), zpow_natCast]
      have h1 : (2 : ℚ) ^ F.mw ≠ 0 := by positivity
      push_cast
      field_simp

/-- Infinities and NaNs. -/
theorem C29_special (F : Fmt) (W : Nat) (hew : 2 ≤ F.ew) (alt : Bool) (x : Bits) (h : ¬ x.Fin F) :
    readBin (printBin F W alt x) = some (if x.man = 0 then .inf x.sign else .nan) := by
  have he : x.exp = F.expInf := not_not.1 h
  have hne : x.exp ≠ 0 := by have := expInf_ge F hew; omega
  unfold printBin
  simp only
  rw [if_neg (fun h => hne h.1)]
  by_cases hm : x.man = 0
  · rw [if_pos ⟨he, hm⟩, if_pos hm]
    cases x.sign <;> rfl
  · rw [if_neg (fun h => hm h.2), if_pos he, if_neg hm]; rfl

/-- **C29, distinct numbers print differently**: two data that are not NaNs and print the same
text, in either style each, are the same bits. -/
theorem C29_injective (F : Fmt) (W n : Nat) (hL : Layout F W n) (alt alt' : Bool) (x y : Bits) (hx : x.WF F) (hy : y.WF F)
    (nx : ¬ x.isNaN F) (h : printBin F W alt x = printBin F W alt' y) : x = y := by
  have hxm := hx.2
  have hym := hy.2
  by_cases fx : x.Fin F
  · have ex := C29_denotes F W n hL alt x hx fx
    by_cases fy : y.Fin F
    · have ey := C29_denotes F W n hL alt' y hy fy
      rw [← h, ex] at ey
      simp only [Option.some.injEq, Num.fin.injEq] at ey
      obtain ⟨es, ev⟩ := ey
      have k1 := val_lt_iff F x y hx hy
      have k2 := val_lt_iff F y x hy hx
      rw [ev] at k1 k2
      simp only [lt_irrefl, iff_false] at k1 k2
      have ek : key F x = key F y := by omega
      have ep : x.pat F = y.pat F := by unfold key at ek; rw [es] at ek; split at ek <;> omega
      rw [← ofPat_pat F x hxm, ← ofPat_pat F y hym, es, ep]
    · have ey := C29_special F W hL.ew alt' y fy
      rw [← h, ex] at ey
      split at ey <;> simp at ey
  · have ex := C29_special F W hL.ew alt x fx
    have hex : x.exp = F.expInf := not_not.1 fx
    have hxm0 : x.man = 0 := by by_contra hc; exact nx ⟨hex, hc⟩
    rw [if_pos hxm0] at ex
    by_cases fy : y.Fin F
    · have ey := C29_denotes F W n hL alt' y hy fy
      rw [← h, ex] at ey
      simp at ey
    · have ey := C29_special F W hL.ew alt' y fy
      have hey : y.exp = F.expInf := not_not.1 fy
      rw [← h, ex] at ey
      split at ey
      · rename_i hm
        simp only [Option.some.injEq, Num.inf.injEq] at ey
        rcases x with ⟨s, e, m⟩
        rcases y with ⟨s', e', m'⟩
        simp only at *
        rw [ey, hex, hey, hxm0, hm]
      · simp at ey

/-- **C29, limit**: NaNs are printed alike whatever their sign and payload. -/
theorem C29_nan : printBin b64 64 false ⟨true, 2047, 5⟩ = printBin b64 64 false ⟨false, 2047, 2 ^ 51⟩ := by decide +kernel

example : String.ofList (printBin b32 32 false ⟨true, 130, 0x500000⟩) = "-1.101 x 2^3" := by decide +kernel
example : String.ofList (printBin b32 32 false ⟨false, 0, 5⟩) = "+0.00000000000000000000101 x 2^-126" := by decide +kernel
example : String.ofList (printBin b32 32 true ⟨false, 0, 5⟩) = "+1.01 x 2^-147" := by decide +kernel

end Verif.Ieee
