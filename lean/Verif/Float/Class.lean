import Verif.Float.Encode

/-!
# Classification, denormals-are-zero, representability

/repo/src/interflop-stdlib/common/float_utils.h:48-205.
-/

namespace Verif.Fp

/-- Results of `FPCLASSIFY`.  The quad constants `QUADFP_*` of libquadmath have the
values of the corresponding `FP_*` of glibc, so the code may mix them. -/
inductive Class | nan | infinite | zero | subnormal | normal
deriving DecidableEq, Repr

/-- `fpf` (49-64), `fpd` (66-81), `fpq` (83-101). -/
def classify (F : Fmt) (x : Bits) : Class :=
  if x.exp = F.expInf ∧ x.man = 0 then .infinite
  else if x.exp = F.expInf ∧ x.man ≠ 0 then .nan
  else if x.exp = 0 ∧ x.man = 0 then .zero
  else if x.exp = 0 ∧ x.man ≠ 0 then .subnormal
  else .normal

/-- `DAZ` (118) and `FTZ` (122): a subnormal becomes the integer constant `0`, i.e.
positive zero. -/
def daz (F : Fmt) (x : Bits) : Bits :=
  if classify F x = .subnormal then zeroBits false else x

/-- `__builtin_ctz` of a nonzero number of at most `fuel` bits. -/
def ctz : Nat → Nat → Nat
  | 0, _ => 0
  | fuel + 1, x => if x % 2 = 1 then 0 else ctz fuel (x / 2) + 1

/-- `_is_representable_binary32` (126-137), `_is_representable_binary64` (141-153).
The virtual precision is positive in every caller. -/
def isRepr (F : Fmt) (x : Bits) (vp : Nat) : Bool :=
  if x.man = 0 then true else decide (F.mw < vp + ctz F.mw x.man)

/-- `_is_representable_binary128` (157-178): the mantissa is examined through its low
64 bits and its high 48 bits. -/
def isRepr128 (x : Bits) (vp : Nat) : Bool :=
  if x.man = 0 then true
  else
    let low := x.man % 2 ^ 64
    let high := x.man / 2 ^ 64
    let trailing0_lx := if low = 0 then 64 else ctz 64 low
    let trailing0_hx := if low = 0 then ctz 48 high else 0
    decide (112 < vp + (trailing0_lx + trailing0_hx))

/-- `_get_exponent_binary32/64/128` (184-205): field minus bias, also for subnormals. -/
def getExp (F : Fmt) (x : Bits) : Int := (x.exp : Int) - F.bias

/-- The whole word of a floating-point object (member `u` of the unions of
float_struct.h). -/
def word (F : Fmt) (x : Bits) : Nat := (if x.sign then 2 ^ (F.ew + F.mw) else 0) + x.pat F

/-- The bit-fields of a word. -/
def ofWord (F : Fmt) (u : Nat) : Bits :=
  ⟨decide (u / 2 ^ (F.ew + F.mw) % 2 = 1), u / 2 ^ F.mw % 2 ^ F.ew, u % 2 ^ F.mw⟩

/-! ## Lemmas -/

theorem ctz_spec (fuel x : Nat) (h0 : x ≠ 0) (hx : x < 2 ^ fuel) :
    ∃ q, x = (2 * q + 1) * 2 ^ ctz fuel x ∧ ctz fuel x < fuel := by
  induction fuel generalizing x with
  | zero => simp at hx; omega
  | succ n ih =>
    unfold ctz
    split
    · next h => exact ⟨x / 2, by simp; omega, by omega⟩
    · next h =>
      obtain ⟨q, hq, hlt⟩ := ih (x / 2) (by omega) (by rw [pow_succ] at hx; omega)
      refine ⟨q, ?_, by omega⟩
      have h2 : x = 2 * (x / 2) := by omega
      rw [h2]
      conv_lhs => rw [hq]
      rw [show 2 * (x / 2) / 2 = x / 2 by omega, pow_succ]
      ring

/-- The decomposition odd times power of two is unique. -/
theorem ctz_unique (fuel q k : Nat) (hx : (2 * q + 1) * 2 ^ k < 2 ^ fuel) :
    ctz fuel ((2 * q + 1) * 2 ^ k) = k := by
  induction k generalizing fuel with
  | zero =>
    cases fuel with
    | zero => simp at hx
    | succ n => unfold ctz; rw [if_pos (by omega)]
  | succ k ih =>
    cases fuel with
    | zero =>
      have : 0 < (2 * q + 1) * 2 ^ (k + 1) := by positivity
      simp at hx
    | succ n =>
      have e : (2 * q + 1) * 2 ^ (k + 1) = 2 * ((2 * q + 1) * 2 ^ k) := by rw [pow_succ]; ring
      unfold ctz
      rw [e, if_neg (by omega)]
      rw [show 2 * ((2 * q + 1) * 2 ^ k) / 2 = (2 * q + 1) * 2 ^ k by omega]
      rw [ih n (by rw [e, pow_succ] at hx; omega)]

/-- The two-part scan of the quad mantissa counts its trailing zeros. -/
theorem isRepr128_eq (x : Bits) (hx : x.man < 2 ^ 112) (vp : Nat) :
    isRepr128 x vp = isRepr b128 x vp := by
  unfold isRepr128 isRepr
  by_cases h0 : x.man = 0
  · simp [h0]
  · rw [if_neg h0, if_neg h0]
    obtain ⟨q, hq, hlt⟩ := ctz_spec 112 x.man h0 hx
    have key : (if x.man % 2 ^ 64 = 0 then 64 else ctz 64 (x.man % 2 ^ 64)) +
        (if x.man % 2 ^ 64 = 0 then ctz 48 (x.man / 2 ^ 64) else 0) = ctz 112 x.man := by
      generalize ctz 112 x.man = c at hq hlt
      split
      · next hl =>
        have h1 : x.man = x.man / 2 ^ 64 * 2 ^ 64 := by omega
        have hh0 : x.man / 2 ^ 64 ≠ 0 := by intro h; rw [h] at h1; omega
        have hh1 : x.man / 2 ^ 64 < 2 ^ 48 := by
          rw [Nat.div_lt_iff_lt_mul (by norm_num)]; omega
        obtain ⟨q', hq', -⟩ := ctz_spec 48 _ hh0 hh1
        have e1 : x.man = (2 * q' + 1) * 2 ^ (64 + ctz 48 (x.man / 2 ^ 64)) := by
          rw [pow_add]
          calc x.man = x.man / 2 ^ 64 * 2 ^ 64 := h1
            _ = ((2 * q' + 1) * 2 ^ ctz 48 (x.man / 2 ^ 64)) * 2 ^ 64 := by rw [← hq']
            _ = _ := by ring
        have a := ctz_unique 112 q c (by rw [← hq]; exact hx)
        have b := ctz_unique 112 q' (64 + ctz 48 (x.man / 2 ^ 64)) (by rw [← e1]; exact hx)
        rw [← hq] at a
        rw [← e1] at b
        omega
      · next hl =>
        obtain ⟨q', hq', hlt'⟩ := ctz_spec 64 (x.man % 2 ^ 64) hl (Nat.mod_lt _ (by norm_num))
        generalize ctz 64 (x.man % 2 ^ 64) = d at hq' hlt'
        have e1 : x.man = (2 * (x.man / 2 ^ 64 * 2 ^ (63 - d) + q') + 1) * 2 ^ d := by
          have h1 : x.man = x.man / 2 ^ 64 * 2 ^ 64 + x.man % 2 ^ 64 := by omega
          have h2 : (2 : Nat) ^ 64 = 2 * (2 ^ (63 - d) * 2 ^ d) := by
            rw [← pow_add, show 63 - d + d = 63 by omega]; norm_num
          calc x.man = x.man / 2 ^ 64 * 2 ^ 64 + x.man % 2 ^ 64 := h1
            _ = x.man / 2 ^ 64 * (2 * (2 ^ (63 - d) * 2 ^ d)) + (2 * q' + 1) * 2 ^ d := by
              rw [← h2, ← hq']
            _ = _ := by ring
        have a := ctz_unique 112 q c (by rw [← hq]; exact hx)
        have b := ctz_unique 112 _ d (by rw [← e1]; exact hx)
        rw [← hq] at a
        rw [← e1] at b
        omega
    simp only
    rw [key]
    rfl

theorem word_lt (F : Fmt) (x : Bits) (hx : x.WF F) : word F x < 2 ^ F.width := by
  obtain ⟨h1, h2⟩ := hx
  have hp : x.pat F < 2 ^ (F.ew + F.mw) := by
    unfold Bits.pat
    rw [pow_add]
    calc x.exp * 2 ^ F.mw + x.man < x.exp * 2 ^ F.mw + 2 ^ F.mw := by omega
      _ = (x.exp + 1) * 2 ^ F.mw := by ring
      _ ≤ _ := Nat.mul_le_mul_right _ h1
  unfold word Fmt.width
  have : (2 : Nat) ^ (1 + F.ew + F.mw) = 2 * 2 ^ (F.ew + F.mw) := by rw [add_assoc, pow_add]; ring
  rw [this]
  split <;> omega

theorem ofWord_mk (F : Fmt) (s : Bool) (e m : Nat) (he : e < 2 ^ F.ew) (hm : m < 2 ^ F.mw) :
    ofWord F ((if s then 2 ^ (F.ew + F.mw) else 0) + (e * 2 ^ F.mw + m)) = ⟨s, e, m⟩ := by
  have hp : e * 2 ^ F.mw + m < 2 ^ (F.ew + F.mw) := by
    rw [pow_add]
    calc e * 2 ^ F.mw + m < e * 2 ^ F.mw + 2 ^ F.mw := by omega
      _ = (e + 1) * 2 ^ F.mw := by ring
      _ ≤ _ := Nat.mul_le_mul_right _ he
  have hpos : 0 < 2 ^ F.mw := by positivity
  have d1 : (e * 2 ^ F.mw + m) / 2 ^ F.mw = e := by
    rw [add_comm, Nat.add_mul_div_right _ _ hpos, Nat.div_eq_of_lt hm, zero_add]
  have m1 : (e * 2 ^ F.mw + m) % 2 ^ F.mw = m := by
    rw [add_comm, Nat.add_mul_mod_self_right, Nat.mod_eq_of_lt hm]
  unfold ofWord
  cases s
  · simp only [Bool.false_eq_true, if_false, zero_add]
    rw [Nat.div_eq_of_lt hp, d1, m1, Nat.mod_eq_of_lt he]
    rfl
  · simp only [if_true]
    have a1 : (2 ^ (F.ew + F.mw) + (e * 2 ^ F.mw + m)) / 2 ^ (F.ew + F.mw) = 1 := by
      rw [Nat.add_div_left _ (by positivity), Nat.div_eq_of_lt hp]
    have a2 : (2 ^ (F.ew + F.mw) + (e * 2 ^ F.mw + m)) / 2 ^ F.mw = 2 ^ F.ew + e := by
      rw [pow_add, add_comm, Nat.add_mul_div_right _ _ hpos, d1, add_comm]
    have a3 : (2 ^ (F.ew + F.mw) + (e * 2 ^ F.mw + m)) % 2 ^ F.mw = m := by
      rw [pow_add, add_comm, Nat.add_mul_mod_self_right, m1]
    rw [a1, a2, a3, Nat.add_mod_left, Nat.mod_eq_of_lt he]
    rfl

theorem ofWord_word (F : Fmt) (x : Bits) (hx : x.WF F) : ofWord F (word F x) = x := by
  have := ofWord_mk F x.sign x.exp x.man hx.1 hx.2
  exact this

end Verif.Fp
