import Verif.Vfi.FileProps
import Verif.Float.Encode
import Verif.Wrapper.DdebugProps

/-!
# Hexadecimal floating-point text

`%a` of glibc on a `double` (used by vfc_probes.c:253) and Python's `float.fromhex` (used by
tools/ci/test.py:111, 115), the latter restricted to what `%a` can print: an optional minus
sign, then `inf`, `nan`, or `0x`, digits, a point and more digits if any, `p` and an exponent.
-/

namespace Verif.Probes
open Verif Verif.Fp Verif.Wrapper Verif.Vprec.Config

/-- Removal of the trailing zeros of the fraction (glibc printf_fphex). -/
def stripZeros (l : List Char) : List Char := (l.reverse.dropWhile (· == '0')).reverse

def expText (e : Int) : List Char := 'p' :: (if e < 0 then Vfi.dec e else '+' :: Vfi.dec e)

/-- Fraction part: a point and the digits, nothing if they are all zero. -/
def fracText (man : Nat) : List Char :=
  let d := stripZeros (hexPad 13 man)
  if d = [] then [] else '.' :: d

/-- `%a`. -/
def hexA (x : Bits) : List Char :=
  (if x.sign then ['-'] else []) ++
  (if x.exp = b64.expInf then (if x.man = 0 then "inf".toList else "nan".toList)
   else if x.exp = 0 ∧ x.man = 0 then "0x0p+0".toList
   else if x.exp = 0 then '0' :: 'x' :: '0' :: (fracText x.man ++ expText (-1022))
   else '0' :: 'x' :: '1' :: (fracText x.man ++ expText (x.exp - 1023)))

def isHex (c : Char) : Bool := (hexDigit c).isSome

/-- The number `n * 2^e`, rounded to a double. -/
def ofScaled (s : Bool) (n : Nat) (e : Int) : Bits :=
  encode b64 s (n * 2 ^ (e - b64.uexp).toNat) (b64.uexp - e).toNat

/-- `float.fromhex` without its sign. -/
def unsignedHex (s : Bool) (r : List Char) : Option Bits :=
  if r = "inf".toList then some (infBits b64 s)
  else if r = "nan".toList then some (nanBits b64)
  else match r with
    | '0' :: 'x' :: r =>
      let ip := r.takeWhile isHex
      match r.dropWhile isHex with
      | '.' :: q =>
        match q.dropWhile isHex with
        | 'p' :: e => (strtol e).map fun e => ofScaled s (hexRun 0 (ip ++ q.takeWhile isHex)) (e - 4 * (q.takeWhile isHex).length)
        | _ => none
      | 'p' :: e => (strtol e).map fun e => ofScaled s (hexRun 0 ip) e
      | _ => none
    | _ => none

def fromHex : List Char → Option Bits
  | '-' :: r => unsignedHex true r
  | r => unsignedHex false r

/-! ## Round trip -/

theorem strip_spec (l : List Char) : ∃ z, l = stripZeros l ++ List.replicate z '0' := by
  unfold stripZeros
  induction l using List.reverseRecOn with
  | nil => exact ⟨0, rfl⟩
  | append_singleton l c ih =>
    rw [List.reverse_append]
    by_cases h : c = '0'
    · subst h
      obtain ⟨z, hz⟩ := ih
      refine ⟨z + 1, ?_⟩
      rw [List.reverse_singleton, List.singleton_append, List.dropWhile_cons_of_pos (by decide), List.replicate_succ', ← List.append_assoc, ← hz]
    · refine ⟨0, ?_⟩
      rw [List.reverse_singleton, List.singleton_append, List.dropWhile_cons_of_neg (by simpa using h)]
      simp

theorem strtol_exp (e : Int) (h : -(2 ^ 31) ≤ e ∧ e < 2 ^ 31) :
    strtol (if e < 0 then Vfi.dec e else '+' :: Vfi.dec e) = some e := by
  split
  · simpa using Vfi.strtol_dec e h [] (by simp)
  · rename_i hn
    have h1 := Vfi.strtol_dec e h [] (by simp)
    rw [List.append_nil] at h1
    obtain ⟨c, cs, he, hc, hcs⟩ := Vfi.toDigits_spec e.natAbs
    obtain ⟨-, -, c3, c4, c5⟩ := Vfi.isDigit_not c hc
    have hd : Vfi.dec e = c :: cs := by unfold Vfi.dec; rw [if_neg hn, he]
    rw [hd] at h1 ⊢
    unfold strtol at h1 ⊢
    rw [List.dropWhile_cons_of_neg (by simp [c5])] at h1
    rw [List.dropWhile_cons_of_neg (by decide)]
    simp only at h1 ⊢
    split at h1
    · rename_i t heq; simp only [List.cons.injEq] at heq; exact absurd heq.1 c3
    · rename_i t heq; simp only [List.cons.injEq] at heq; exact absurd heq.1 c4
    · exact h1

theorem isHex_pad (k n : Nat) : ∀ c ∈ hexPad k n, isHex c = true := by
  induction k with
  | zero => simp [hexPad]
  | succ k ih =>
    intro c hc
    rw [hexPad, List.mem_cons] at hc
    rcases hc with rfl | h
    · unfold isHex; rw [hexDigit_hexChar _ (Nat.mod_lt _ (by norm_num))]; rfl
    · exact ih c h

theorem hexRun_zeros (acc z : Nat) : hexRun acc (List.replicate z '0') = acc * 16 ^ z := by
  induction z generalizing acc with
  | zero => simp [hexRun]
  | succ z ih =>
    rw [List.replicate_succ, hexRun]
    have : hexDigit '0' = some 0 := by decide
    rw [this]; simp only
    rw [ih, pow_succ]; ring

theorem hexRun_append (acc : Nat) (l r : List Char) (h : ∀ c ∈ l, isHex c = true) :
    hexRun acc (l ++ r) = hexRun (hexRun acc l) r := by
  induction l generalizing acc with
  | nil => simp [hexRun]
  | cons c cs ih =>
    have hc := h c (by simp)
    unfold isHex at hc
    rw [Option.isSome_iff_exists] at hc
    obtain ⟨v, hv⟩ := hc
    simp only [List.cons_append, hexRun, hv]
    exact ih _ (fun d hd => h d (by simp [hd]))

/-- Scaling the number and its exponent. -/
theorem ofScaled_shift (s : Bool) (n z : Nat) (e : Int) (hn : n ≠ 0) :
    ofScaled s (n * 2 ^ z) e = ofScaled s n (e + z) := by
  unfold ofScaled
  generalize b64.uexp = u
  rcases Int.le_total u e with h | h
  · rw [show (u - e).toNat = 0 by omega, show (u - (e + z)).toNat = 0 by omega, mul_assoc, ← pow_add]
    congr 3; omega
  · rw [show (e - u).toNat = 0 by omega, pow_zero, mul_one]
    obtain ⟨d, hd⟩ : ∃ d : ℕ, u - e = d := ⟨(u - e).toNat, by omega⟩
    rcases Nat.le_total z d with hz | hz
    · rw [show (e + z - u).toNat = 0 by omega, pow_zero, mul_one, show (u - e).toNat = (u - (e + z)).toNat + z by omega]
      generalize (u - (e + z)).toNat = j
      unfold encode
      rw [log2_mul_pow n z hn, show Nat.log2 n + z - (j + z + b64.mw) = Nat.log2 n - (j + b64.mw) by omega]
      generalize Nat.log2 n - (j + b64.mw) = k
      simp only []
      rw [show j + z + k = z + (j + k) by ring, rneShift_mul_add]
    · rw [show (u - (e + z)).toNat = 0 by omega, show (u - e).toNat = d by omega,
        show z = (e + z - u).toNat + d by omega, pow_add, ← mul_assoc, encode_shift _ _ _ _ (by
          have : 0 < 2 ^ (e + z - u).toNat := by positivity
          exact Nat.mul_ne_zero hn (by omega))]
      congr 3; omega

theorem ofScaled_unit (s : Bool) (n k : Nat) (e : Int) (h : e = b64.uexp + k) : ofScaled s n e = encode b64 s (n * 2 ^ k) 0 := by
  unfold ofScaled
  rw [h]
  generalize b64.uexp = u
  rw [show (u + k - u).toNat = k by omega, show (u - (u + k)).toNat = 0 by omega]

theorem takeWhile_hex (l r : List Char) (h : ∀ c ∈ l, isHex c = true) (hr : ∀ c, r.head? = some c → isHex c = false) :
    (l ++ r).takeWhile isHex = l ∧ (l ++ r).dropWhile isHex = r := by
  induction l with
  | nil =>
    rcases r with _ | ⟨c, cs⟩
    · simp
    · have := hr c rfl
      simp [this]
  | cons c cs ih =>
    obtain ⟨i1, i2⟩ := ih (fun d hd => h d (by simp [hd]))
    rw [List.cons_append, List.takeWhile_cons_of_pos (h c (by simp)), List.dropWhile_cons_of_pos (h c (by simp)), i1, i2]
    exact ⟨rfl, rfl⟩

/-- A printed finite number is read as its significand and exponent. -/
theorem unsigned_text (s : Bool) (c : Char) (L man : Nat) (e : Int) (hc : hexDigit c = some L) (hm : man < 2 ^ 52)
    (he : -(2 ^ 31) ≤ e ∧ e < 2 ^ 31) (hpos : L * 2 ^ 52 + man ≠ 0) :
    unsignedHex s ('0' :: 'x' :: c :: (fracText man ++ expText e)) = some (ofScaled s (L * 2 ^ 52 + man) (e - 52)) := by
  have hcx : isHex c = true := by unfold isHex; rw [hc]; rfl
  obtain ⟨z, hz⟩ := strip_spec (hexPad 13 man)
  generalize hD : stripZeros (hexPad 13 man) = D at hz
  have hDx : ∀ d ∈ D, isHex d = true := fun d hd => isHex_pad 13 man d (by rw [hz]; simp [hd])
  have hlen : D.length + z = 13 := by
    have := congrArg List.length hz
    rw [hexPad_length] at this; simp at this; omega
  have hval : hexRun L D * 2 ^ (4 * z) = L * 2 ^ 52 + man := by
    have h1 := hexRun_pad 13 man L []
    rw [List.append_nil, hz, hexRun_append _ _ _ hDx, hexRun_zeros] at h1
    rw [pow_mul]
    have h2 : man % 16 ^ 13 = man := Nat.mod_eq_of_lt (by norm_num at hm ⊢; exact hm)
    rw [h2] at h1
    simp only [hexRun] at h1
    norm_num at h1 ⊢; exact h1
  have hn : hexRun L D ≠ 0 := by
    intro h; rw [h, Nat.zero_mul] at hval; exact hpos hval.symm
  have hkey : ofScaled s (hexRun L D) (e - 4 * D.length) = ofScaled s (L * 2 ^ 52 + man) (e - 52) := by
    rw [← hval, ofScaled_shift _ _ _ _ hn]
    congr 1; push_cast; omega
  have hp : ∀ t, List.head? (expText e) = some t → isHex t = false := by
    intro t ht; simp only [expText, List.head?_cons, Option.some.injEq] at ht; subst ht; decide
  unfold unsignedHex
  rw [if_neg (by intro h; simp at h), if_neg (by intro h; simp at h)]
  simp only
  unfold fracText
  simp only [hD]
  by_cases hnil : D = []
  · rw [if_pos hnil]
    obtain ⟨t1, t2⟩ := takeWhile_hex [c] (expText e) (by simpa using hcx) hp
    rw [List.nil_append]
    rw [List.singleton_append] at t1 t2
    rw [t1, t2]
    rw [hnil] at hkey
    simp only [expText, strtol_exp e he, Option.map_some, Option.some.injEq]
    rw [← hkey]
    simp only [hexRun, hc, List.length_nil]
    simp
  · rw [if_neg hnil]
    obtain ⟨t1, t2⟩ := takeWhile_hex [c] ('.' :: D ++ expText e) (by simpa using hcx) (by
      intro t ht; simp at ht; subst ht; decide)
    rw [List.singleton_append] at t1 t2
    rw [t1, t2]
    obtain ⟨u1, u2⟩ := takeWhile_hex D (expText e) hDx hp
    simp only [List.cons_append, u1, u2]
    simp only [expText, strtol_exp e he, Option.map_some, Option.some.injEq]
    rw [← hkey]
    simp only [hexRun, hc, List.cons_append, List.nil_append]
    simp

theorem fromHex_pos (r : List Char) (h : r.head? ≠ some '-') : fromHex r = unsignedHex false r := by
  rcases r with _ | ⟨c, cs⟩
  · rfl
  · unfold fromHex
    split
    · rename_i heq; simp only [List.cons.injEq] at heq; rw [heq.1] at h; simp at h
    · rfl

theorem fromHex_signed (s : Bool) (r : List Char) (h : r.head? ≠ some '-') :
    fromHex ((if s then ['-'] else []) ++ r) = unsignedHex s r := by
  cases s
  · simpa using fromHex_pos r h
  · rfl

/-- What `%a` prints of a number other than a NaN, `float.fromhex` reads as that number. -/
theorem hexA_round_trip (x : Bits) (hx : x.WF b64) (hn : ¬ x.isNaN b64) : fromHex (hexA x) = some x := by
  have hE : b64.expInf = 2047 := rfl
  have hm : x.man < 2 ^ 52 := hx.2
  have he : x.exp < 2048 := hx.1
  unfold hexA
  rw [fromHex_signed _ _ (by split_ifs <;> simp)]
  by_cases hi : x.exp = b64.expInf
  · have h0 : x.man = 0 := by by_contra h; exact hn ⟨hi, h⟩
    rw [if_pos hi, if_pos h0]
    obtain ⟨s, e, m⟩ := x
    simp only at hi h0; subst hi h0
    rfl
  · rw [if_neg hi]
    by_cases hz : x.exp = 0 ∧ x.man = 0
    · rw [if_pos hz]
      obtain ⟨s, e, m⟩ := x
      obtain ⟨h1, h2⟩ := hz
      simp only at h1 h2; subst h1 h2
      cases s <;> decide +kernel
    · rw [if_neg hz]
      have hfin : x.exp < b64.expInf := by rw [hE] at hi ⊢; omega
      have hfinal := encode_mag b64 (by decide) x hx hfin
      by_cases h0 : x.exp = 0
      · rw [if_pos h0, unsigned_text x.sign '0' 0 x.man (-1022) (by decide) hm (by norm_num) (by
          intro h; exact hz ⟨h0, by omega⟩)]
        rw [ofScaled_unit x.sign _ 0 _ (by decide), Nat.zero_mul, Nat.zero_add, pow_zero, Nat.mul_one]
        rw [mag_subnormal b64 x h0] at hfinal
        rw [hfinal]
      · rw [if_neg h0, unsigned_text x.sign '1' 1 x.man _ (by decide) hm (by omega) (by omega)]
        have hu : b64.uexp = -1074 := by decide
        rw [ofScaled_unit x.sign _ (x.exp - 1) _ (by rw [hu]; omega), Nat.one_mul]
        rw [mag_normal b64 x (by omega)] at hfinal
        exact congrArg some hfinal

/-- The printed text has neither commas, nor newlines, nor tabs. -/
theorem hexA_chars (x : Bits) : ∀ c ∈ hexA x, c ≠ ',' ∧ c ≠ '\n' ∧ c ≠ '\t' := by
  have hd : ∀ e : Int, ∀ c ∈ expText e, c ≠ ',' ∧ c ≠ '\n' ∧ c ≠ '\t' := by
    intro e c hc
    have hdec : ∀ c ∈ Vfi.dec e, c ≠ ',' ∧ c ≠ '\n' ∧ c ≠ '\t' := by
      intro c hc
      unfold Vfi.dec at hc
      have hdig : ∀ c ∈ Nat.toDigits 10 e.natAbs, c ≠ ',' ∧ c ≠ '\n' ∧ c ≠ '\t' := by
        intro c hc
        have := Nat.isDigit_of_mem_toDigits (by norm_num) (by norm_num) hc
        refine ⟨?_, ?_, ?_⟩ <;> rintro rfl <;> exact absurd this (by decide)
      split at hc
      · rcases List.mem_cons.1 hc with rfl | hc
        · decide
        · exact hdig c hc
      · exact hdig c hc
    unfold expText at hc
    rcases List.mem_cons.1 hc with rfl | hc
    · decide
    · split at hc
      · exact hdec c hc
      · rcases List.mem_cons.1 hc with rfl | hc
        · decide
        · exact hdec c hc
  have hx : ∀ c, isHex c = true → c ≠ ',' ∧ c ≠ '\n' ∧ c ≠ '\t' := by
    intro c hc
    refine ⟨?_, ?_, ?_⟩ <;> rintro rfl <;> exact absurd hc (by decide)
  have hf : ∀ n, ∀ c ∈ fracText n, c ≠ ',' ∧ c ≠ '\n' ∧ c ≠ '\t' := by
    intro n c hc
    unfold fracText at hc
    simp only at hc
    split at hc
    · simp at hc
    · rcases List.mem_cons.1 hc with rfl | hc
      · decide
      · obtain ⟨z, hz⟩ := strip_spec (hexPad 13 n)
        exact hx c (isHex_pad 13 n c (by rw [hz]; simp [hc]))
  intro c hc
  unfold hexA at hc
  rcases List.mem_append.1 hc with hc | hc
  · split at hc
    · rw [List.mem_singleton.1 hc]; decide
    · simp at hc
  · split_ifs at hc
    · simp at hc; rcases hc with rfl | rfl | rfl <;> decide
    · simp at hc; rcases hc with rfl | rfl | rfl <;> decide
    · simp at hc; rcases hc with rfl | rfl | rfl | rfl | rfl | rfl <;> decide
    · rcases List.mem_cons.1 hc with rfl | hc
      · decide
      rcases List.mem_cons.1 hc with rfl | hc
      · decide
      rcases List.mem_cons.1 hc with rfl | hc
      · decide
      rcases List.mem_append.1 hc with hc | hc
      · exact hf _ c hc
      · exact hd _ c hc
    · rcases List.mem_cons.1 hc with rfl | hc
      · decide
      rcases List.mem_cons.1 hc with rfl | hc
      · decide
      rcases List.mem_cons.1 hc with rfl | hc
      · decide
      rcases List.mem_append.1 hc with hc | hc
      · exact hf _ c hc
      · exact hd _ c hc

/-- The printed text has neither the separator nor a newline. -/
theorem hexA_clean (x : Bits) : ∀ c ∈ hexA x, c ≠ ',' ∧ c ≠ '\n' := fun c h => ⟨(hexA_chars x c h).1, (hexA_chars x c h).2.1⟩

example : hexA ⟨true, 1025, 2 ^ 51⟩ = "-0x1.8p+2".toList ∧ hexA ⟨false, 0, 1⟩ = "0x0.0000000000001p-1022".toList ∧
    fromHex "-0x1.8p+2".toList = some ⟨true, 1025, 2 ^ 51⟩ ∧ hexA (infBits b64 true) = "-inf".toList := by decide +kernel

end Verif.Probes
