import Verif.Pass.MixedProps

/-!
# Property C112: programs whose operations have absolute errors, and sums that cancel

The programs of C102, and an analysis of their errors that is told, for each type, a relative error of operations, another one for sums
that come out smaller than one of their operands, and an absolute error.  With an absolute error the results of operations can be as
small as they like, or zero, and may have lost all their digits.
-/

namespace Verif.Pass.Mix.Gen
open Verif Verif.Fp

variable {K σ κ : Type}

/-- Numbers smaller than `2^high`, and at least `2^low` if there is such a bound.  `zero` tells whether a result that is zero in exact
arithmetic is a zero. -/
structure Band where
  low : Option ℤ
  high : ℤ
  zero : Bool

def Band.Has (S : Band) (x : ℚ) : Prop := |x| < 2 ^ S.high ∧ ∀ l ∈ S.low, (2 : ℚ) ^ l ≤ |x|

def Band.Ok (S : Band) (x : ℚ) : Prop := (S.zero = true ∧ x = 0) ∨ S.Has x

instance (S : Band) (x : ℚ) : Decidable (S.Has x) := by unfold Band.Has; infer_instance

instance (S : Band) (x : ℚ) : Decidable (S.Ok x) := by unfold Band.Ok; infer_instance

/-- The numbers of `S` are numbers of `T`. -/
structure Band.Sub (S T : Band) : Prop where
  low : ∀ l ∈ T.low, ∃ k ∈ S.low, l ≤ k
  high : S.high ≤ T.high
  zero : S.zero = true → T.zero = true

/-- The numbers of both. -/
def Band.meet (S T : Band) : Band where
  low :=
    match S.low, T.low with
    | none, x => x
    | some a, none => some a
    | some a, some b => some (max a b)
  high := min S.high T.high
  zero := S.zero && T.zero

/-- The numbers of a range, and zero. -/
def ofRange (R : Range) : Band := ⟨some R.low, R.high, true⟩

/-- Additions and subtractions. -/
def isSum : Wrapper.Arith → Bool
  | .add | .sub => true
  | _ => false

/-- A bound on the errors of all operations: operands may change, relatively by `υ` and by `ε` if `inn` is one, then the result, by `ε` and
relatively by `υ`, or by `η` if it is that of a sum and smaller than an operand.  Operands are those of `I`, results of sums those of `S`
and others those of `R`. -/
def AbsContract (p : Wrapper.Prec) (inn : Nat) (υ η ε : ℚ) (I S R : Band) : Contract
  | .arith a q, x, y =>
    let F := fmtOf p
    let A := operand F x 0
    let B := operand F x 1
    q = p → A.Fin F → B.Fin F → I.Ok (A.val F) → I.Ok (B.val F) →
      ∃ A' B' : ℚ, |A' - A.val F| ≤ inn * (υ * |A.val F| + ε) ∧ |B' - B.val F| ≤ inn * (υ * |B.val F| + ε) ∧
        ((a = .div → B' ≠ 0) →
          ((if isSum a then S else R).zero = true → realOp a A' B' = 0 → y.Fin F ∧ y.val F = 0) ∧
          ((if isSum a then S else R).Has (realOp a A' B') → y.Fin F ∧ |y.val F - realOp a A' B'| ≤
            (if isSum a ∧ |realOp a A' B'| < max |A'| |B'| then η else υ) * |realOp a A' B'| + ε))
  | .fma q, x, y =>
    let F := fmtOf p
    let A := operand F x 0
    let B := operand F x 1
    let C := operand F x 2
    q = p → A.Fin F → B.Fin F → C.Fin F → I.Ok (A.val F) → I.Ok (B.val F) → I.Ok (C.val F) →
      ∃ A' B' C' : ℚ, |A' - A.val F| ≤ inn * (υ * |A.val F| + ε) ∧ |B' - B.val F| ≤ inn * (υ * |B.val F| + ε) ∧
        |C' - C.val F| ≤ inn * (υ * |C.val F| + ε) ∧
        (R.zero = true → A' * B' + C' = 0 → y.Fin F ∧ y.val F = 0) ∧
        (R.Has (A' * B' + C') → y.Fin F ∧ |y.val F - (A' * B' + C')| ≤ υ * |A' * B' + C'| + ε)
  | _, _, _ => True

/-- A bound on the errors of conversions: relatively `η`, and `ε`, for numbers of `S`. -/
def AbsCast (η ε : ℚ) (S : Band) : Contract
  | .cast, x, y => (operand b64 x 0).Fin b64 →
      (S.zero = true → (operand b64 x 0).val b64 = 0 → y.Fin b32 ∧ y.val b32 = 0) ∧
      (S.Has ((operand b64 x 0).val b64) → y.Fin b32 ∧ |y.val b32 - (operand b64 x 0).val b64| ≤ η * |(operand b64 x 0).val b64| + ε)
  | _, _, _ => True

/-- The bounds, for each type. -/
structure Limits where
  inn : Wrapper.Prec → Nat
  υ : Wrapper.Prec → ℚ
  η : Wrapper.Prec → ℚ
  ε : Wrapper.Prec → ℚ
  I : Wrapper.Prec → Band
  S : Wrapper.Prec → Band
  R : Wrapper.Prec → Band
  /-- the errors of conversions, and the numbers they hold for -/
  cast : ℚ
  castAbs : ℚ
  C : Band

structure Limits.Ok (L : Limits) : Prop where
  pos : ∀ p, 0 ≤ L.υ p
  le : ∀ p, L.υ p ≤ L.η p
  abs : ∀ p, 0 ≤ L.ε p
  sum : ∀ p, (L.S p).Sub (L.I p)
  rest : ∀ p, (L.R p).Sub (L.I p)
  cast : 0 ≤ L.cast
  castAbs : 0 ≤ L.castAbs

/-- The contract of the backends, for both types and for conversions. -/
def Limits.contract (L : Limits) : Contract := fun o x y =>
  (∀ p, AbsContract p (L.inn p) (L.υ p) (L.η p) (L.ε p) (L.I p) (L.S p) (L.R p) o x y) ∧ AbsCast L.cast L.castAbs L.C o x y

/-- The absolute error of an operation of the machine: half the smallest number of the type. -/
def tiny (p : Wrapper.Prec) : ℚ := 2 ^ ((fmtOf p).uexp - 1)

/-- The results the machine rounds. -/
def hostBand (p : Wrapper.Prec) : Band := ⟨none, (fmtOf p).bias, true⟩

/-- A number at most `ez` from `z`, changed by `u` relatively and by `ε` if it is in `S`. -/
def rounded (p : Wrapper.Prec) (u ε : ℚ) (S : Band) (z ez : ℚ) : Option Val :=
  let e := ez + u * (|z| + ez) + ε
  if z = 0 ∧ ez = 0 ∧ S.zero = true then some ⟨p, 0, 0⟩
  else if (∀ l ∈ S.low, (2 : ℚ) ^ l ≤ |z| - e) ∧ |z| + e < 2 ^ S.high then some ⟨p, z, e⟩
  else none

/-- The bound on the error of an operand after the backend has rounded it. -/
def inputErr (L : Limits) (p : Wrapper.Prec) (x : Val) : ℚ := x.err + L.inn p * (L.υ p * (|x.val| + x.err) + L.ε p)

/-- The relative error of an operation, operands being at most `ex` and `ey` from `x` and `y` and its result `ez` from `z`: that of sums
that cancel unless the result is surely not smaller than the operands. -/
def opUnit (L : Limits) (p : Wrapper.Prec) (a : Wrapper.Arith) (x ex y ey z ez : ℚ) : ℚ :=
  if isSum a = true ∧ ¬ (|x| + ex ≤ |z| - ez ∧ |y| + ey ≤ |z| - ez) then L.η p else L.υ p

/-- The analysis of a program compiled with the options `fl`. -/
def absDom (fl : Flags) (L : Limits) : Dom Val where
  const p x := if x.WF (fmtOf p) ∧ x.Fin (fmtOf p) ∧ (L.I p).Ok (x.val (fmtOf p)) then some ⟨p, x.val (fmtOf p), 0⟩ else none
  op p a x y :=
    let ex := inputErr L p x
    let ey := inputErr L p y
    let z := realOp a x.val y.val
    let ez := spreadOp a x.val ex y.val ey
    if x.prec ≠ p ∨ y.prec ≠ p ∨ (a = .div ∧ (y.val = 0 ∨ |y.val| ≤ ey)) then none
    else rounded p (opUnit L p a x.val ex y.val ey z ez) (L.ε p) (if isSum a then L.S p else L.R p) z ez
  fma p x y z :=
    if x.prec ≠ p ∨ y.prec ≠ p ∨ z.prec ≠ p then none
    else if fl.fma then rounded p (L.υ p) (L.ε p) (L.R p) (x.val * y.val + z.val)
      (spreadOp .mul x.val (inputErr L p x) y.val (inputErr L p y) + inputErr L p z)
    else rounded p (unit p) (tiny p) ((L.I p).meet (hostBand p)) (x.val * y.val + z.val) (spreadOp .mul x.val x.err y.val y.err + z.err)
  less p x y :=
    if x.prec ≠ p ∨ y.prec ≠ p then none
    else if x.err + y.err < |x.val - y.val| ∨ (x.err = 0 ∧ y.err = 0) then some (decide (x.val < y.val)) else none
  extend x := if x.prec ≠ .float then none else rounded .double 0 0 (L.I .double) x.val x.err
  trunc x :=
    if x.prec ≠ .double then none
    else if fl.cast then rounded .float L.cast L.castAbs ((L.I .float).meet L.C) x.val x.err
    else rounded .float (unit .float) (tiny .float) ((L.I .float).meet (hostBand .float)) x.val x.err
  neg p x := if x.prec ≠ p then none else some ⟨p, -x.val, x.err⟩

/-! ## The analysis follows the exact execution -/

theorem rounded_val {p : Wrapper.Prec} {u ε : ℚ} {S : Band} {z ez : ℚ} {w : Val} (h : rounded p u ε S z ez = some w) : w.prec = p ∧ w.val = z := by
  simp only [rounded] at h
  split_ifs at h with h1 h2
  · obtain rfl := Option.some.inj h
    exact ⟨rfl, h1.1.symm⟩
  · obtain rfl := Option.some.inj h
    exact ⟨rfl, rfl⟩

theorem abs_follows (fl : Flags) (L : Limits) : Follows Val.val (absDom fl L) exactDom where
  const p x v h := by
    simp only [absDom] at h
    split_ifs at h
    rw [← Option.some.inj h]
    rfl
  op p a x y v h := by
    simp only [absDom] at h
    by_cases h1 : x.prec ≠ p ∨ y.prec ≠ p ∨ (a = .div ∧ (y.val = 0 ∨ |y.val| ≤ inputErr L p y))
    · rw [if_pos h1] at h
      cases h
    rw [if_neg h1] at h
    simp only [exactDom]
    rw [if_neg fun h2 => h1 (Or.inr (Or.inr ⟨h2.1, Or.inl h2.2⟩)), (rounded_val h).2]
  fma p x y z v h := by
    simp only [absDom] at h
    split_ifs at h with h1 <;> simp only [exactDom, (rounded_val h).2]
  less p x y b h := by
    simp only [absDom] at h
    split_ifs at h
    rw [← Option.some.inj h]
    rfl
  extend x v h := by
    simp only [absDom] at h
    split_ifs at h with h1
    simp only [exactDom, (rounded_val h).2]
  trunc x v h := by
    simp only [absDom] at h
    split_ifs at h with h1 <;> simp only [exactDom, (rounded_val h).2]
  neg p x v h := by
    simp only [absDom] at h
    split_ifs at h
    rw [← Option.some.inj h]
    rfl

/-! ## One operation -/

/-- A number of the program within the bound of the analysis. -/
def Within (I : Wrapper.Prec → Band) (v : Val) (y : Bits) : Prop :=
  y.WF (fmtOf v.prec) ∧ y.Fin (fmtOf v.prec) ∧ (I v.prec).Ok (y.val (fmtOf v.prec)) ∧ |y.val (fmtOf v.prec) - v.val| ≤ v.err

theorem Band.Sub.refl (S : Band) : S.Sub S := ⟨fun l h => ⟨l, h, le_rfl⟩, le_rfl, id⟩

theorem meet_left (S T : Band) : (S.meet T).Sub S where
  low l h := by
    unfold Band.meet
    rw [Option.mem_def] at h
    rw [h]
    cases T.low with
    | none => exact ⟨l, rfl, le_rfl⟩
    | some b => exact ⟨_, rfl, le_max_left _ _⟩
  high := min_le_left _ _
  zero h := by simp only [Band.meet, Bool.and_eq_true] at h; exact h.1

theorem meet_right (S T : Band) : (S.meet T).Sub T where
  low l h := by
    unfold Band.meet
    rw [Option.mem_def] at h
    rw [h]
    cases S.low with
    | none => exact ⟨l, rfl, le_rfl⟩
    | some b => exact ⟨_, rfl, le_max_right _ _⟩
  high := min_le_right _ _
  zero h := by simp only [Band.meet, Bool.and_eq_true] at h; exact h.2

theorem Band.Sub.has {S T : Band} (h : S.Sub T) {x : ℚ} (hx : S.Has x) : T.Has x := by
  refine ⟨lt_of_lt_of_le hx.1 (zpow_le_zpow_right₀ (by norm_num) h.high), fun l hl => ?_⟩
  obtain ⟨k, hk, hlk⟩ := h.low l hl
  exact le_trans (zpow_le_zpow_right₀ (by norm_num) hlk) (hx.2 k hk)

theorem rounded_sound {I : Wrapper.Prec → Band} {p : Wrapper.Prec} {u ε : ℚ} (h0 : 0 ≤ u) (h1 : 0 ≤ ε) {S : Band} (hS : S.Sub (I p))
    {z ez z' : ℚ} (hz : |z' - z| ≤ ez) {y : Bits} (hy : y.WF (fmtOf p))
    (c0 : S.zero = true → z' = 0 → y.Fin (fmtOf p) ∧ y.val (fmtOf p) = 0)
    (c : S.Has z' → y.Fin (fmtOf p) ∧ |y.val (fmtOf p) - z'| ≤ u * |z'| + ε) {w : Val} (h : rounded p u ε S z ez = some w) : Within I w y := by
  have hez := le_trans (abs_nonneg _) hz
  simp only [rounded] at h
  split_ifs at h with h2 h3
  · obtain rfl := Option.some.inj h
    rw [h2.1, h2.2.1, sub_zero] at hz
    have hz0 : z' = 0 := abs_eq_zero.1 (le_antisymm hz (abs_nonneg _))
    obtain ⟨fy, ey⟩ := c0 h2.2.2 hz0
    exact ⟨hy, fy, Or.inl ⟨hS.zero h2.2.2, ey⟩, by show |y.val (fmtOf p) - 0| ≤ 0; rw [ey]; simp⟩
  · obtain rfl := Option.some.inj h
    have a1 := abs_sub_abs_le_abs_sub z' z
    have a2 := abs_sub_abs_le_abs_sub z z'
    rw [abs_sub_comm] at a2
    have hη : 0 ≤ u * (|z| + ez) := by positivity
    obtain ⟨fy, ey⟩ := c ⟨by linarith [h3.2], fun l hl => by linarith [h3.1 l hl]⟩
    have e3 : |y.val (fmtOf p) - z| ≤ ez + u * (|z| + ez) + ε := by
      have := abs_sub_le (y.val (fmtOf p)) z' z
      have := mul_le_mul_of_nonneg_left (show |z'| ≤ |z| + ez by linarith) h0
      linarith
    refine ⟨hy, fy, Or.inr (hS.has ⟨?_, fun l hl => ?_⟩), e3⟩
    · have := abs_sub_abs_le_abs_sub (y.val (fmtOf p)) z
      linarith [h3.2]
    · have := abs_sub_abs_le_abs_sub z (y.val (fmtOf p))
      rw [abs_sub_comm] at this
      linarith [h3.1 l hl]

/-- The operands of the backend. -/
theorem input_sound (L : Limits) (hL : L.Ok) (p : Wrapper.Prec) (u : Val) (V V' : ℚ) (h1 : |V - u.val| ≤ u.err)
    (h2 : |V' - V| ≤ L.inn p * (L.υ p * |V| + L.ε p)) : |V' - u.val| ≤ inputErr L p u := by
  have h3 : |V| ≤ |u.val| + u.err := by
    have := abs_sub_abs_le_abs_sub V u.val
    linarith
  have h4 : L.inn p * (L.υ p * |V| + L.ε p) ≤ L.inn p * (L.υ p * (|u.val| + u.err) + L.ε p) :=
    mul_le_mul_of_nonneg_left (by linarith [mul_le_mul_of_nonneg_left h3 (hL.pos p)]) (Nat.cast_nonneg _)
  have h5 := abs_sub_le V' V u.val
  unfold inputErr
  linarith

theorem op_sound (fl : Flags) (L : Limits) (hL : L.Ok) (p : Wrapper.Prec) (a : Wrapper.Arith) (x : List (BitVec 64)) (y : Bits) (u v w : Val)
    (wA : Within L.I u (operand (fmtOf p) x 0)) (wB : Within L.I v (operand (fmtOf p) x 1)) (hy : y.WF (fmtOf p))
    (hc : L.contract (.arith a p) x y) (h : (absDom fl L).op p a u v = some w) : Within L.I w y := by
  simp only [absDom] at h
  by_cases h1 : u.prec ≠ p ∨ v.prec ≠ p ∨ (a = .div ∧ (v.val = 0 ∨ |v.val| ≤ inputErr L p v))
  · rw [if_pos h1] at h
    cases h
  rw [if_neg h1] at h
  simp only [not_or, not_not] at h1
  obtain ⟨h2, h3, h1⟩ := h1
  unfold Within at wA wB
  rw [h2] at wA
  rw [h3] at wB
  obtain ⟨-, fA, iA, dA⟩ := wA
  obtain ⟨-, fB, iB, dB⟩ := wB
  obtain ⟨A', B', cA, cB, c⟩ := hc.1 p rfl fA fB iA iB
  have mA := input_sound L hL p u _ _ dA cA
  have mB := input_sound L hL p v _ _ dB cB
  have hd : a = .div → inputErr L p v < |v.val| := fun ha => by
    by_contra hn
    exact h1 ⟨ha, Or.inr (not_lt.1 hn)⟩
  have hB' : a = .div → B' ≠ 0 := by
    rintro ha rfl
    have := hd ha
    rw [zero_sub, abs_neg] at mB
    linarith
  obtain ⟨c0, c⟩ := c hB'
  have hz := spread_sound a mA mB hd
  have hpos : 0 ≤ opUnit L p a u.val (inputErr L p u) v.val (inputErr L p v) (realOp a u.val v.val)
      (spreadOp a u.val (inputErr L p u) v.val (inputErr L p v)) := by
    unfold opUnit
    split_ifs
    · exact le_trans (hL.pos p) (hL.le p)
    · exact hL.pos p
  refine rounded_sound (z' := realOp a A' B') hpos (hL.abs p) (by split_ifs; exacts [hL.sum p, hL.rest p]) hz hy c0
    (fun hS => ?_) h
  obtain ⟨fy, ey⟩ := c hS
  refine ⟨fy, le_trans ey (add_le_add_left (mul_le_mul_of_nonneg_right ?_ (abs_nonneg _)) _)⟩
  unfold opUnit
  split_ifs with k1 k2
  · exact le_rfl
  · exfalso
    refine k2 ⟨k1.1, fun k3 => ?_⟩
    have a1 := abs_sub_abs_le_abs_sub (realOp a u.val v.val) (realOp a A' B')
    rw [abs_sub_comm] at a1
    have a2 := abs_sub_abs_le_abs_sub A' u.val
    have a3 := abs_sub_abs_le_abs_sub B' v.val
    have := max_le (show |A'| ≤ |realOp a A' B'| by linarith [k3.1]) (show |B'| ≤ |realOp a A' B'| by linarith [k3.2])
    linarith [k1.2]
  · exact hL.le p
  · exact le_rfl

/-- A result of the machine, however small. -/
theorem host_abs (F : Fmt) (hew : 2 ≤ F.ew) (x : ℚ) (y : Bits) (h : Vprec.Host F x y) (hx : |x| < 2 ^ (F.bias : ℤ)) :
    y.Fin F ∧ |y.val F - x| ≤ 2 ^ (-(F.mw : ℤ) - 1) * |x| + 2 ^ (F.uexp - 1) := by
  have p1 : (0 : ℚ) < 2 ^ (F.uexp - 1) := zpow_pos (by norm_num) _
  have p2 : (0 : ℚ) < 2 ^ (-(F.mw : ℤ) - 1) := zpow_pos (by norm_num) _
  by_cases hn : (2 : ℚ) ^ (1 - (F.bias : ℤ)) ≤ |x|
  · obtain ⟨fy, ey⟩ := host_rel F hew x y h hn hx
    exact ⟨fy, by linarith⟩
  rw [not_le] at hn
  have hf : y.exp < F.expInf := by
    by_contra hc
    have h3 := (h.inf hc).2
    unfold Vprec.overflowFrom at h3
    have e : (2 : ℚ) ^ (F.bias : ℤ) = 2 ^ (F.mw + 1) * 2 ^ ((F.bias : ℤ) - F.mw - 1) := by
      rw [← zpow_natCast, ← zpow_add₀ (by norm_num)]; congr 1; push_cast; ring
    have hu : (0 : ℚ) < 2 ^ ((F.bias : ℤ) - F.mw - 1) := zpow_pos (by norm_num) _
    have hm : (1 : ℚ) ≤ 2 ^ (F.mw + 1) := one_le_pow₀ (by norm_num)
    have : (2 : ℚ) ^ (F.mw + 1) ≤ 2 ^ (F.mw + 2) - 1 := by rw [pow_succ 2 (F.mw + 1)]; linarith
    have := mul_le_mul_of_nonneg_right this hu.le
    linarith
  refine ⟨by unfold Bits.Fin; omega, ?_⟩
  have hu : (0 : ℚ) < 2 ^ F.uexp := zpow_pos (by norm_num) _
  have hr := abs_sub_round (x / 2 ^ F.uexp)
  have hq : |x / 2 ^ F.uexp| < 2 ^ F.mw := by
    rw [abs_div, abs_of_pos hu, div_lt_iff₀ hu, ← zpow_natCast, ← zpow_add₀ (by norm_num)]
    rw [show ((F.mw : ℕ) : ℤ) + F.uexp = 1 - (F.bias : ℤ) by unfold Fmt.uexp; ring]
    exact hn
  have hN : |round (x / 2 ^ F.uexp)| < 2 ^ (F.mw + 1) := by
    have h1 := abs_sub_abs_le_abs_sub ((round (x / 2 ^ F.uexp) : ℤ) : ℚ) (x / 2 ^ F.uexp)
    rw [abs_sub_comm] at h1
    have hm : (1 : ℚ) ≤ 2 ^ F.mw := one_le_pow₀ (by norm_num)
    have : |((round (x / 2 ^ F.uexp) : ℤ) : ℚ)| < 2 ^ (F.mw + 1) := by rw [pow_succ]; linarith
    exact_mod_cast this
  have hb : 1 ≤ F.bias := by
    unfold Fmt.bias
    have : 2 ^ 1 ≤ 2 ^ (F.ew - 1) := Nat.pow_le_pow_right (by norm_num) (by omega)
    omega
  obtain ⟨b, wb, eb⟩ := Cancel.exists_bits F hew (round (x / 2 ^ F.uexp)) F.uexp hN le_rfl (by
    rw [abs_mul, abs_of_pos hu]
    have h1 : |((round (x / 2 ^ F.uexp) : ℤ) : ℚ)| < 2 ^ (F.mw + 1) := by exact_mod_cast hN
    have h2 := mul_lt_mul_of_pos_right h1 hu
    refine lt_of_lt_of_le h2 ?_
    rw [← zpow_natCast, ← zpow_add₀ (by norm_num)]
    exact zpow_le_zpow_right₀ (by norm_num) (by unfold Fmt.uexp; push_cast; omega))
  have hd : |b.val F - x| ≤ 2 ^ (F.uexp - 1) := by
    rw [eb, show ((round (x / 2 ^ F.uexp) : ℤ) : ℚ) * 2 ^ F.uexp - x = -((x / 2 ^ F.uexp - round (x / 2 ^ F.uexp)) * 2 ^ F.uexp) by
      field_simp
      ring, abs_neg, abs_mul, abs_of_pos hu, zpow_sub_one₀ (by norm_num)]
    have := mul_le_mul_of_nonneg_right hr hu.le
    linarith
  have := mul_nonneg p2.le (abs_nonneg x)
  linarith [h.near hf b wb]

theorem host_band (p : Wrapper.Prec) (S : Band) (z : ℚ) (y : Bits) (h : Vprec.Host (fmtOf p) z y) :
    ((S.meet (hostBand p)).zero = true → z = 0 → y.Fin (fmtOf p) ∧ y.val (fmtOf p) = 0) ∧
      ((S.meet (hostBand p)).Has z → y.Fin (fmtOf p) ∧ |y.val (fmtOf p) - z| ≤ unit p * |z| + tiny p) := by
  refine ⟨fun _ hz => ?_, fun hz => ?_⟩
  · subst hz
    exact host_zero (fmtOf p) y h
  · exact host_abs (fmtOf p) (by cases p <;> decide) z y h ((meet_right S (hostBand p)).has hz).1

/-- The analysis is right of each operation. -/
theorem abs_sound (fl : Flags) (L : Limits) (hL : L.Ok) : Sound fl L.contract (Within L.I) (absDom fl L) where
  wf v y h := ⟨h.1, h.2.1⟩
  const p x v h := by
    simp only [absDom] at h
    split_ifs at h with h2
    obtain rfl := Option.some.inj h
    exact ⟨rfl, h2.1, h2.2.1, h2.2.2, by simp⟩
  op p a u v w h := by
    have hp : u.prec = p ∧ v.prec = p ∧ w.prec = p := by
      simp only [absDom] at h
      by_cases h1 : u.prec ≠ p ∨ v.prec ≠ p ∨ (a = .div ∧ (v.val = 0 ∨ |v.val| ≤ inputErr L p v))
      · rw [if_pos h1] at h
        cases h
      rw [if_neg h1] at h
      simp only [not_or, not_not] at h1
      exact ⟨h1.1, h1.2.1, (rounded_val h).1⟩
    exact ⟨hp.1, hp.2.1, hp.2.2, fun x y wA wB hy hc => op_sound fl L hL p a x y u v w wA wB hy hc h⟩
  fma p u v t w h := by
    simp only [absDom] at h
    by_cases h1 : u.prec ≠ p ∨ v.prec ≠ p ∨ t.prec ≠ p
    · rw [if_pos h1] at h
      cases h
    rw [if_neg h1] at h
    simp only [not_or, not_not] at h1
    obtain ⟨p1, p2, p3⟩ := h1
    refine ⟨p1, p2, p3, ?_, fun hf x y wA wB wC hy hc => ?_, fun hf A C E wA wC wE => ?_⟩
    · split_ifs at h <;> exact (rounded_val h).1
    all_goals
      simp only [hf, Bool.false_eq_true, if_false, if_true] at h
    · unfold Within at wA wB wC
      rw [p1] at wA
      rw [p2] at wB
      rw [p3] at wC
      obtain ⟨A', B', C', cA, cB, cC, c0, c⟩ := hc.1 p rfl wA.2.1 wB.2.1 wC.2.1 wA.2.2.1 wB.2.2.1 wC.2.2.1
      exact rounded_sound (hL.pos p) (hL.abs p) (hL.rest p) (spread_fma (input_sound L hL p u _ _ wA.2.2.2 cA)
        (input_sound L hL p v _ _ wB.2.2.2 cB) (input_sound L hL p t _ _ wC.2.2.2 cC)) hy c0 c h
    · unfold Within at wA wC wE
      rw [p1] at wA
      rw [p2] at wC
      rw [p3] at wE
      have hwf : (ffma (fmtOf p) A C E).WF (fmtOf p) := ffma_wf _ (by cases p <;> decide) _ _ _ wE.1
      have hh := host_band p (L.I p) _ _ (host_ffma (fmtOf p) (by cases p <;> decide) (by cases p <;> decide) A C E wA.2.1 wC.2.1 wE.2.1)
      exact rounded_sound (zpow_pos (by norm_num) _).le (zpow_pos (by norm_num) _).le (meet_left _ _)
        (spread_fma wA.2.2.2 wC.2.2.2 wE.2.2.2) hwf hh.1 hh.2 h
  less p u v b h := by
    simp only [absDom] at h
    split_ifs at h with h0 h1
    simp only [not_or, not_not] at h0
    obtain ⟨e1, e2⟩ := h0
    refine ⟨e1, e2, fun A C wA wC => ?_⟩
    have eA := wA.2.2.2
    have eB := wC.2.2.2
    rw [e1] at eA
    rw [e2] at eB
    rw [← Option.some.inj h, decide_eq_decide]
    have a1 := abs_le.1 eA
    have a2 := abs_le.1 eB
    rcases h1 with h1 | ⟨h1, h2⟩
    · rcases lt_abs.1 h1 with h1 | h1 <;> constructor <;> intro h2 <;> linarith
    · rw [h1] at a1
      rw [h2] at a2
      constructor <;> intro h3 <;> linarith
  extend u w h := by
    simp only [absDom] at h
    split_ifs at h with h2
    simp only [not_not] at h2
    refine ⟨h2, (rounded_val h).1, fun A wA => ?_⟩
    unfold Within at wA
    rw [h2] at wA
    obtain ⟨x1, x2, x3⟩ := extend_exact A wA.1 wA.2.1
    refine rounded_sound (z' := A.val b32) (p := .double) le_rfl le_rfl (Band.Sub.refl _) wA.2.2.2 x1
      (fun _ hz => ⟨x2, x3.trans hz⟩) (fun _ => ⟨x2, ?_⟩) h
    show |(fconv b32 b64 A).val b64 - A.val b32| ≤ _
    rw [x3]
    simp
  trunc u w h := by
    simp only [absDom] at h
    by_cases h2 : u.prec ≠ .double
    · rw [if_pos h2] at h
      cases h
    rw [if_neg h2] at h
    rw [not_not] at h2
    refine ⟨h2, ?_, fun hca x y wA wq cq => ?_, fun hca A wA => ?_⟩
    · split_ifs at h <;> exact (rounded_val h).1
    all_goals
      simp only [hca, Bool.false_eq_true, if_false, if_true] at h
      unfold Within at wA
      rw [h2] at wA
    · obtain ⟨c0, c1⟩ := cq.2 wA.2.1
      have hs := meet_right (L.I .float) L.C
      exact rounded_sound (p := .float) hL.cast hL.castAbs (meet_left _ _) wA.2.2.2 wq (fun h0 => c0 (hs.zero h0)) (fun hz => c1 (hs.has hz)) h
    · have hh := host_band .float (L.I .float) _ _ (host_trunc A wA.1 wA.2.1)
      exact rounded_sound (p := .float) (zpow_pos (by norm_num) _).le (zpow_pos (by norm_num) _).le (meet_left _ _) wA.2.2.2
        (fconv_wf _ _ (by decide) _) hh.1 hh.2 h
  neg p u w h := by
    simp only [absDom] at h
    split_ifs at h with h2
    simp only [not_not] at h2
    obtain rfl := Option.some.inj h
    refine ⟨h2, rfl, fun A wA => ?_⟩
    unfold Within at wA
    rw [h2] at wA
    refine ⟨wA.1, wA.2.1, ?_, ?_⟩
    · show (L.I p).Ok ((fneg A).val (fmtOf p))
      rw [val_fneg]
      rcases wA.2.2.1 with h | h
      · exact Or.inl ⟨h.1, by rw [h.2, neg_zero]⟩
      · exact Or.inr (by unfold Band.Has; rw [abs_neg]; exact h)
    · show |(fneg A).val (fmtOf p) - -u.val| ≤ u.err
      rw [val_fneg, show -A.val (fmtOf p) - -u.val = -(A.val (fmtOf p) - u.val) by ring, abs_neg]
      exact wA.2.2.2

/-! ## Programs -/

/-- **C112** If the analysis of `n` blocks of a program does not stop, then the program can be compiled with Verificarlo, with any options,
in any order of replacement; run on inputs within their bounds, with any backends that keep the contracts of both types and with
`--inst-fcmp` compare as the machine does, whatever their state, it is after `n` blocks where exact arithmetic is, with the same addresses
and counters, and in every cell the analysis knows is a finite number of its type within the bound of the value of exact arithmetic. -/
theorem C112_partial (fl : Flags) (L : Limits) (hL : L.Ok) (op1 : Wrapper.OpId → List (BitVec 64) → BitVec 64) (hM : Machine op1)
    (rest : Instr → Nat → List Nat → Nat) (bs : List (Wrapper.Backend σ κ)) (ctx : Nat → κ) (hm : Meets { fl with fcmp := false } L.contract bs ctx)
    (hcm : Compare fl (· = olt) op1 bs ctx) (fresh : Nat) (prog : List (Part K)) (hw : WellFormed fresh prog) (order : List Nat) (hp : order.Perm (workList fl (compile (σ := σ) fresh prog)))
    (cell : Nat → Option Val) (ctl : K) (n : Nat) (s : Abs Val K) (cur : Option Nat)
    (he : evalRun (absDom fl L) prog n (start cell ctl, some 0) = some (s, cur))
    (m : Nat → Nat) (hin : Holds (Within L.I) cell m) (t : σ) :
    ∃ F', replaceAll wrapperSig fl (compile fresh prog) order = .ok F' ∧
      let r := run (exec (linked op1 rest bs ctx)) F' n (enter 0 (fun _ => 0) ((m, ctl), t), some 0)
      (∃ x, evalRun exactDom prog n (start (fun i => (cell i).map Val.val) ctl, some 0) = some (x, r.2) ∧ r.1.mem.1.2 = x.ctl ∧
        ∀ i v, s.cell i = some v → x.cell i = some v.val) ∧
      r.2 = cur ∧ r.1.mem.1.2 = s.ctl ∧ Holds (Within L.I) s.cell r.1.mem.1.1 :=
  sound_program fl (abs_sound _ L hL) (abs_follows _ L) op1 hM rest bs ctx hm hcm fresh prog hw order hp cell ctl n s cur he m hin t

/-- A relative error of conversions. -/
theorem cast_abs (η : ℚ) (S : Range) (o : Wrapper.OpId) (x : List (BitVec 64)) (y : Bits) (h : CastContract η S o x y) : AbsCast η 0 (ofRange S) o x y := by
  cases o with
  | cast =>
    intro fA
    refine ⟨fun _ hz => ?_, fun hz => ?_⟩
    · obtain ⟨fy, ey⟩ := h fA (Or.inl hz)
      rw [hz, abs_zero, mul_zero, sub_zero] at ey
      exact ⟨fy, abs_eq_zero.1 (le_antisymm ey (abs_nonneg _))⟩
    · rw [add_zero]
      exact h fA (Or.inr ⟨hz.2 _ rfl, hz.1⟩)
  | _ => trivial

theorem MeetsCast.mono {C D : Contract} {bs : List (Wrapper.Backend σ κ)} {ctx : Nat → κ} (h : MeetsCast C bs ctx) (hCD : ∀ x y, C .cast x y → D .cast x y) :
    MeetsCast D bs ctx := fun x s => by
  obtain ⟨y, wy, ey, cy⟩ := h x s
  exact ⟨y, wy, ey, hCD x y cy⟩

/-- Backends that keep the contract of each type, and that of conversions if they are to make them, keep all. -/
theorem C112_meets (L : Limits) (fl : Flags) (bs : List (Wrapper.Backend σ κ)) (ctx : Nat → κ)
    (h : ∀ p, Meets { fl with cast := false } (AbsContract p (L.inn p) (L.υ p) (L.η p) (L.ε p) (L.I p) (L.S p) (L.R p)) bs ctx)
    (hc : fl.cast = true → MeetsCast (AbsCast L.cast L.castAbs L.C) bs ctx) : Meets fl L.contract bs ctx := by
  suffices hs : Meets { fl with cast := false }
      (fun o x y => ∀ p, AbsContract p (L.inn p) (L.υ p) (L.η p) (L.ε p) (L.I p) (L.S p) (L.R p) o x y) bs ctx by
    intro o ho x s
    rcases o with ⟨a, q⟩ | q | q | _
    · obtain ⟨y, wy, ey, cy⟩ := hs (.arith a q) rfl x s
      exact ⟨y, wy, ey, cy, trivial⟩
    · obtain ⟨y, wy, ey, cy⟩ := hs (.cmp q) ho x s
      exact ⟨y, wy, ey, cy, trivial⟩
    · obtain ⟨y, wy, ey, cy⟩ := hs (.fma q) ho x s
      exact ⟨y, wy, ey, cy, trivial⟩
    · obtain ⟨y, wy, ey, cy⟩ := hc ho x s
      exact ⟨y, wy, ey, fun _ => trivial, cy⟩
  intro o ho x s
  obtain ⟨y, wy, ey, -⟩ := h .float o ho x s
  refine ⟨y, wy, ey, fun p => ?_⟩
  obtain ⟨z, wz, ez, cz⟩ := h p o ho x s
  have he : image (resultFmt o) y = image (resultFmt o) z := Option.some.inj (ey.symm.trans ez)
  have hw : ∀ z : Bits, z.WF (resultFmt o) → (image (resultFmt o) z).toNat = word (resultFmt o) z := by
    intro z hz
    have h1 := word_lt (resultFmt o) z hz
    have h2 : 2 ^ (resultFmt o).width ≤ 2 ^ 64 := Nat.pow_le_pow_right (by norm_num) (width_le o)
    unfold image
    rw [BitVec.toNat_ofNat, Nat.mod_eq_of_lt (show word (resultFmt o) z < 2 ^ 64 by omega)]
  have : y = z := by
    rw [← ofWord_word _ y wy, ← ofWord_word _ z wz, ← hw y wy, ← hw z wz, he]
  rw [this]
  exact cz

end Verif.Pass.Mix.Gen
