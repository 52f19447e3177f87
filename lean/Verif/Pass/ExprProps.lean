import Verif.Pass.McaRelProps

/-!
# Property C97: the error of every computation without cancellation

A straight-line function that adds, multiplies and divides positive numbers, of any length and with any sharing, compiled
with Verificarlo and run with backends whose operations have bounded errors: the relative error of what it returns is bounded
by a power of the error of one operation, the exponent being counted on the program.
-/

namespace Verif.Pass
open Verif Verif.Fp

variable {P σ κ : Type}

/-! ## Programs -/

/-- An operation and the names of its operands. -/
structure Node where
  op : Wrapper.Arith
  a : Nat
  b : Nat

def opcode : Wrapper.Arith → Opcode
  | .add => .fadd
  | .sub => .fsub
  | .mul => .fmul
  | .div => .fdiv

/-- The type of the operations. -/
def scalarOf : Wrapper.Prec → STy
  | .float => .float
  | .double => .double

/-- The wrappers of operations on this type. -/
def pair (p : Wrapper.Prec) : String → Sig :=
  fun _ => ⟨[(.scalar (scalarOf p), false), (.scalar (scalarOf p), false)], .scalar (scalarOf p)⟩

/-- The instructions: operation number `j` defines the name `n + j`. -/
def code (p : Wrapper.Prec) : List Node → Nat → List (Ins P)
  | [], _ => []
  | d :: l, n => .fp n ⟨opcode d.op, .scalar (scalarOf p), .scalar (scalarOf p)⟩ 0 [d.a, d.b] :: code p l (n + 1)

/-- The function of `k` parameters that does the operations and returns the value named `out` through the memory. -/
def straight (p : Wrapper.Prec) (k : Nat) (l : List Node) (out : Nat) : Func (Nat × σ) :=
  { blocks := [{ body := code p l k
                 uses := [out]
                 next := fun vals m => ((vals.headD 0, m.2), none) }]
    fresh := k + l.length }

/-- Operands are defined before they are used, and there is no subtraction. -/
def Valid : List Node → Nat → Prop
  | [], _ => True
  | d :: l, n => d.a < n ∧ d.b < n ∧ d.op ≠ .sub ∧ Valid l (n + 1)

/-- Operands are defined before they are used. -/
def Ordered : List Node → Nat → Prop
  | [], _ => True
  | d :: l, n => d.a < n ∧ d.b < n ∧ Ordered l (n + 1)

theorem Valid.ordered : ∀ {l : List Node} {n : Nat}, Valid l n → Ordered l n
  | [], _, _ => trivial
  | _ :: _, _, h => ⟨h.1, h.2.1, Valid.ordered h.2.2.2⟩

/-- The values of the names in real arithmetic. -/
def reals (x : Nat → ℚ) : List Node → Nat → Nat → ℚ
  | [], _ => x
  | d :: l, n => reals (fun m => if m = n then realOp d.op (x d.a) (x d.b) else x m) l (n + 1)

/-- The errors counted: those of the operands, plus one, and one for each operand that is perturbed (`inn = 1`); those of the
worst operand for a sum. -/
def cost (inn : Nat) (op : Wrapper.Arith) (a b : Nat) : Nat :=
  match op with
  | .add | .sub => max a b + inn + 1
  | .mul | .div => a + b + 2 * inn + 1

/-- The same for all names. -/
def costs (inn : Nat) (c : Nat → Nat) : List Node → Nat → Nat → Nat
  | [], _ => c
  | d :: l, n => costs inn (fun m => if m = n then cost inn d.op (c d.a) (c d.b) else c m) l (n + 1)

/-- `y` and `r` are within `n` factors `q` of each other. -/
def Near (q : ℚ) (n : Nat) (y r : ℚ) : Prop := r ≤ q ^ n * y ∧ y ≤ q ^ n * r

/-! ## Factors -/

theorem near_refl (q r : ℚ) : Near q 0 r r := by unfold Near; simp

theorem near_mono {q : ℚ} (hq : 1 ≤ q) {n m : Nat} (h : n ≤ m) {y r : ℚ} (hy : 0 ≤ y) (hr : 0 ≤ r) (hn : Near q n y r) : Near q m y r := by
  have := pow_le_pow_right₀ hq h
  exact ⟨le_trans hn.1 (mul_le_mul_of_nonneg_right this hy), le_trans hn.2 (mul_le_mul_of_nonneg_right this hr)⟩

theorem near_trans {q : ℚ} (hq : 1 ≤ q) {n m : Nat} {x y z : ℚ} (h1 : Near q n x y) (h2 : Near q m y z) : Near q (n + m) x z := by
  have p : ∀ k : Nat, (0 : ℚ) ≤ q ^ k := fun k => pow_nonneg (by linarith) k
  constructor
  · refine le_trans h2.1 ?_
    rw [Nat.add_comm, pow_add, mul_assoc]
    exact mul_le_mul_of_nonneg_left h1.1 (p m)
  · refine le_trans h1.2 ?_
    rw [pow_add, mul_assoc]
    exact mul_le_mul_of_nonneg_left h2.2 (p n)

theorem near_pos {q : ℚ} (hq : 1 ≤ q) {n : Nat} {y r : ℚ} (hr : 0 < r) (h : Near q n y r) : 0 < y := by
  have p : (0 : ℚ) < q ^ n := pow_pos (by linarith) n
  by_contra hc
  have := mul_nonpos_of_nonneg_of_nonpos p.le (not_lt.1 hc)
  linarith [h.1]

theorem near_add {q : ℚ} {n : Nat} {y r y' r' : ℚ} (h : Near q n y r) (h' : Near q n y' r') : Near q n (y + y') (r + r') :=
  ⟨by rw [mul_add]; exact add_le_add h.1 h'.1, by rw [mul_add]; exact add_le_add h.2 h'.2⟩

theorem near_mul {q : ℚ} (hq : 1 ≤ q) {n m : Nat} {y r y' r' : ℚ} (hr : 0 < r) (hr' : 0 < r') (h : Near q n y r) (h' : Near q m y' r') :
    Near q (n + m) (y * y') (r * r') := by
  have p : ∀ k : Nat, (0 : ℚ) ≤ q ^ k := fun k => pow_nonneg (by linarith) k
  have hy := near_pos hq hr h
  have hy' := near_pos hq hr' h'
  constructor
  · rw [pow_add, mul_mul_mul_comm]
    exact mul_le_mul h.1 h'.1 hr'.le (mul_nonneg (p n) hy.le)
  · rw [pow_add, mul_mul_mul_comm]
    exact mul_le_mul h.2 h'.2 hy'.le (mul_nonneg (p n) hr.le)

theorem near_inv {q : ℚ} (hq : 1 ≤ q) {n : Nat} {y r : ℚ} (hr : 0 < r) (h : Near q n y r) : Near q n y⁻¹ r⁻¹ := by
  have hy := near_pos hq hr h
  constructor
  · rw [← div_eq_mul_inv, le_div_iff₀ hy, inv_mul_le_iff₀ hr, mul_comm]
    exact h.2
  · rw [← div_eq_mul_inv, le_div_iff₀ hr, inv_mul_le_iff₀ hy, mul_comm]
    exact h.1

theorem near_rel_error {η : ℚ} (h0 : 0 ≤ η) (h1 : η < 1) {y r : ℚ} (hr : 0 ≤ r) (h : |y - r| ≤ η * |r|) : Near (1 - η)⁻¹ 1 y r := by
  rw [abs_of_nonneg hr] at h
  have h2 := abs_le.1 h
  have hp : 0 < 1 - η := by linarith
  constructor
  · rw [pow_one, ← div_eq_inv_mul, le_div_iff₀ hp]; linarith
  · rw [pow_one, ← div_eq_inv_mul, le_div_iff₀ hp]
    have : y ≤ (1 + η) * r := by linarith
    have := mul_le_mul_of_nonneg_right this hp.le
    have := mul_nonneg (mul_nonneg h0 h0) hr
    nlinarith

/-- An operation other than subtraction, on numbers that are not exact. -/
theorem near_op {q : ℚ} (hq : 1 ≤ q) (op : Wrapper.Arith) (hop : op ≠ .sub) (inn n m : Nat) {y r y' r' : ℚ} (hr : 0 < r) (hr' : 0 < r')
    (h : Near q (n + inn) y r) (h' : Near q (m + inn) y' r') :
    Near q (cost inn op n m - 1) (realOp op y y') (realOp op r r') ∧ 0 < realOp op r r' := by
  have hy := near_pos hq hr h
  have hy' := near_pos hq hr' h'
  cases op with
  | add =>
    refine ⟨?_, add_pos hr hr'⟩
    have e : cost inn .add n m - 1 = max n m + inn := rfl
    rw [e]
    exact near_add (near_mono hq (by omega) hy.le hr.le h) (near_mono hq (by omega) hy'.le hr'.le h')
  | sub => exact absurd rfl hop
  | mul =>
    refine ⟨?_, mul_pos hr hr'⟩
    have e : cost inn .mul n m - 1 = (n + inn) + (m + inn) := by simp only [cost]; omega
    rw [e]
    exact near_mul hq hr hr' h h'
  | div =>
    refine ⟨?_, div_pos hr hr'⟩
    have e : cost inn .div n m - 1 = (n + inn) + (m + inn) := by simp only [cost]; omega
    rw [e]
    simp only [realOp, div_eq_mul_inv]
    exact near_mul hq hr (inv_pos.2 hr') h (near_inv hq hr' h')

/-! ## The error of one operation -/

/-- A range of positive numbers. -/
structure Range where
  low : ℤ
  high : ℤ

def Range.Has (R : Range) (x : ℚ) : Prop := (2 : ℚ) ^ R.low ≤ x ∧ x < 2 ^ R.high

/-- A bound on the errors of additions, multiplications and divisions of positive numbers of type `p`: operands in the range
`I` are changed by `inn * η` at most, relatively, and a result in the range `R` is within `η` of that of the operation on
the operands changed. -/
def ErrContract (p : Wrapper.Prec) (inn : Nat) (η : ℚ) (I R : Range) : Contract
  | .arith a q, x, y =>
    let F := fmtOf p
    let A := operand F x 0
    let B := operand F x 1
    q = p → a ≠ .sub → A.Fin F → B.Fin F → I.Has (A.val F) → I.Has (B.val F) →
      ∃ A' B' : ℚ, |A' - A.val F| ≤ inn * η * A.val F ∧ |B' - B.val F| ≤ inn * η * B.val F ∧
        (R.Has (realOp a A' B') → y.Fin F ∧ |y.val F - realOp a A' B'| ≤ η * realOp a A' B')
  | _, _, _ => True

/-- The factor of one operation. -/
def factor (η : ℚ) : ℚ := (1 - η)⁻¹

theorem one_le_factor {η : ℚ} (h : 0 ≤ η) (h2 : η < 1) : 1 ≤ factor η := by
  unfold factor
  rw [one_le_inv₀ (by linarith)]
  linarith

theorem Range.has_pos {R : Range} {x : ℚ} (h : R.Has x) : 0 < x := lt_of_lt_of_le (zpow_pos (by norm_num) _) h.1

/-- One operation of a program. -/
theorem node_near (p : Wrapper.Prec) (inn : Nat) (hi : inn ≤ 1) (η : ℚ) (h0 : 0 ≤ η) (h1 : η < 1) (I R : Range) (op : Wrapper.Arith)
    (hop : op ≠ .sub) (x : List (BitVec 64)) (A B y : Bits) (hA : operand (fmtOf p) x 0 = A) (hB : operand (fmtOf p) x 1 = B)
    (fA : A.Fin (fmtOf p)) (fB : B.Fin (fmtOf p)) (iA : I.Has (A.val (fmtOf p))) (iB : I.Has (B.val (fmtOf p)))
    (hc : ErrContract p inn η I R (.arith op p) x y) (n m : Nat) (r r' : ℚ) (hr : 0 < r) (hr' : 0 < r')
    (nA : Near (factor η) n (A.val (fmtOf p)) r) (nB : Near (factor η) m (B.val (fmtOf p)) r') (L M : Nat)
    (hlo : R.low ≤ -((L : ℤ) + M)) (hhi : (L : ℤ) + M < R.high)
    (l1 : (2 : ℚ) ^ (-(L : ℤ)) ≤ realOp op r r') (l2 : realOp op r r' ≤ 2 ^ (L : ℤ))
    (l3 : factor η ^ cost inn op n m ≤ 2 ^ M) :
    y.Fin (fmtOf p) ∧ Near (factor η) (cost inn op n m) (y.val (fmtOf p)) (realOp op r r') ∧ R.Has (y.val (fmtOf p)) := by
  have hq := one_le_factor h0 h1
  subst hA hB
  obtain ⟨A', B', eA, eB, c⟩ := hc rfl hop fA fB iA iB
  have inner : ∀ (a a' : ℚ), 0 < a → |a' - a| ≤ inn * η * a → Near (factor η) inn a' a := by
    intro a a' ha h
    rcases Nat.le_one_iff_eq_zero_or_eq_one.1 hi with rfl | rfl
    · rw [Nat.cast_zero, zero_mul, zero_mul] at h
      obtain rfl := sub_eq_zero.1 (abs_eq_zero.1 (le_antisymm h (abs_nonneg _)))
      exact near_refl _ _
    · rw [Nat.cast_one, one_mul] at h
      exact near_rel_error h0 h1 ha.le (by rw [abs_of_pos ha]; exact h)
  have iA' : Near (factor η) (n + inn) A' r := by
    rw [Nat.add_comm]; exact near_trans hq (inner _ _ (Range.has_pos iA) eA) nA
  have iB' : Near (factor η) (m + inn) B' r' := by
    rw [Nat.add_comm]; exact near_trans hq (inner _ _ (Range.has_pos iB) eB) nB
  obtain ⟨nz, pr⟩ := near_op hq op hop inn n m hr hr' iA' iB'
  have hcost : cost inn op n m - 1 + 1 = cost inn op n m := by
    cases op <;> simp [cost]
  have hpow : factor η ^ (cost inn op n m - 1) ≤ 2 ^ M := le_trans (pow_le_pow_right₀ hq (by omega)) l3
  have range : ∀ z k, factor η ^ k ≤ 2 ^ M → Near (factor η) k z (realOp op r r') → R.Has z := by
    intro z k hk nz
    have pz := near_pos hq pr nz
    constructor
    · have h5 : (2 : ℚ) ^ (-(L : ℤ)) ≤ 2 ^ M * z := le_trans l1 (le_trans nz.1 (mul_le_mul_of_nonneg_right hk pz.le))
      have h6 : (2 : ℚ) ^ (-(L : ℤ) - M) ≤ z := by
        rw [zpow_sub₀ (by norm_num), div_le_iff₀ (zpow_pos (by norm_num) _), zpow_natCast, mul_comm]
        exact h5
      exact le_trans (zpow_le_zpow_right₀ (by norm_num) (by omega)) h6
    · have h5 : z ≤ 2 ^ M * 2 ^ (L : ℤ) := le_trans nz.2 (mul_le_mul hk l2 pr.le (by positivity))
      rw [← zpow_natCast, ← zpow_add₀ (by norm_num)] at h5
      exact lt_of_le_of_lt h5 (zpow_lt_zpow_right₀ (by norm_num) (by omega))
  obtain ⟨fy, ey⟩ := c (range _ _ hpow nz)
  have ny : Near (factor η) (cost inn op n m) (y.val (fmtOf p)) (realOp op r r') := by
    have pz := near_pos hq pr nz
    rw [← hcost, Nat.add_comm]
    exact near_trans hq (near_rel_error h0 h1 pz.le (by rw [abs_of_pos pz]; exact ey)) nz
  exact ⟨fy, ny, range _ _ l3 ny⟩

/-! ## All operations -/

theorem reals_old (x : Nat → ℚ) (l : List Node) (n m : Nat) (h : m < n) : reals x l n m = x m := by
  induction l generalizing x n with
  | nil => rfl
  | cons d l ih => rw [reals, ih _ (n + 1) (by omega), if_neg (by omega)]

theorem costs_old (inn : Nat) (c : Nat → Nat) (l : List Node) (n m : Nat) (h : m < n) : costs inn c l n m = c m := by
  induction l generalizing c n with
  | nil => rfl
  | cons d l ih => rw [costs, ih _ (n + 1) (by omega), if_neg (by omega)]

/-- The name holds a number in the range, near the real one. -/
def Holds (p : Wrapper.Prec) (I : Range) (q : ℚ) (env : Nat → Nat) (x : Nat → ℚ) (c : Nat → Nat) (i : Nat) : Prop :=
  ∃ y : Bits, y.WF (fmtOf p) ∧ y.Fin (fmtOf p) ∧ env i = word (fmtOf p) y ∧ I.Has (y.val (fmtOf p)) ∧ 0 < x i ∧
    Near q (c i) (y.val (fmtOf p)) (x i)

theorem width_small (p : Wrapper.Prec) : (fmtOf p).width ≤ 64 := by cases p <;> decide

theorem bits_scalarOf (p : Wrapper.Prec) : (scalarOf p).bits = (fmtOf p).width := by cases p <;> rfl

theorem word_of_lane (p : Wrapper.Prec) (v : Nat) (hv : v < 2 ^ (fmtOf p).width) (y : Bits) (hy : y.WF (fmtOf p))
    (h : lane (fmtOf p).width v 0 = image (fmtOf p) y) : v = word (fmtOf p) y := by
  have hw := word_lt (fmtOf p) y hy
  have h64 : 2 ^ (fmtOf p).width ≤ 2 ^ 64 := Nat.pow_le_pow_right (by norm_num) (width_small p)
  have e : (lane (fmtOf p).width v 0).toNat = (image (fmtOf p) y).toNat := congrArg BitVec.toNat h
  simp only [lane, image, BitVec.toNat_ofNat, Nat.mul_zero, Nat.pow_zero, Nat.div_one] at e
  rw [Nat.mod_eq_of_lt hv, Nat.mod_eq_of_lt (by omega), Nat.mod_eq_of_lt (by omega)] at e
  exact e

theorem operand_word (p : Wrapper.Prec) (y : Bits) (hy : y.WF (fmtOf p)) (l : List (BitVec 64)) (k : Nat)
    (hk : l.getD k 0 = lane (fmtOf p).width (word (fmtOf p) y) 0) : operand (fmtOf p) l k = y := by
  have hw := word_lt (fmtOf p) y hy
  have h64 : 2 ^ (fmtOf p).width ≤ 2 ^ 64 := Nat.pow_le_pow_right (by norm_num) (width_small p)
  unfold operand
  rw [hk, lane, BitVec.toNat_ofNat, Nat.mul_zero, Nat.pow_zero, Nat.div_one, Nat.mod_eq_of_lt hw, Nat.mod_eq_of_lt (by omega)]
  exact ofWord_word _ y hy

theorem meaning_opcode (p : Wrapper.Prec) (op : Wrapper.Arith) (f : FPOp) (h : kind (opcode op) = some f) :
    meaning f (scalarOf p) = some (.arith op p) := by
  cases op <;> cases p <;> (obtain rfl := Option.some.inj h; rfl)

theorem steps_near (p : Wrapper.Prec) (inn : Nat) (hi : inn ≤ 1) (η : ℚ) (h0 : 0 ≤ η) (h1 : η < 1) (I R : Range)
    (hIR : I.low ≤ R.low ∧ R.high ≤ I.high) (fl : Flags) (S : Sem (Nat × σ)) (L M : Nat) (hlo : R.low ≤ -((L : ℤ) + M))
    (hhi : (L : ℤ) + M < R.high) (l : List Node) :
    ∀ (n : Nat) (x : Nat → ℚ) (c : Nat → Nat) (s s' : State (Nat × σ)), Valid l n →
      MSteps (ErrContract p inn η I R) fl S s (code p l n) s' → (∀ i < n, Holds p I (factor η) s.env x c i) →
      (∀ i, n ≤ i → i < n + l.length → (2 : ℚ) ^ (-(L : ℤ)) ≤ reals x l n i ∧ reals x l n i ≤ 2 ^ (L : ℤ) ∧
        factor η ^ costs inn c l n i ≤ 2 ^ M) →
      s'.mem.1 = s.mem.1 ∧
      ∀ i < n + l.length, Holds p I (factor η) s'.env (reals x l n) (costs inn c l n) i := by
  induction l with
  | nil =>
    intro n x c s s' _ hs hh _
    cases hs
    exact ⟨rfl, fun i hi => hh i hi⟩
  | cons d l ih =>
    intro n x c s s' hv hs hh hr
    obtain ⟨va, vb, vo, vl⟩ := hv
    cases hs with
    | cons a1 g1 =>
      cases a1 with
      | native id i pred args u hn =>
        exact absurd ⟨by cases d.op <;> trivial, by cases p; exacts [Or.inl rfl, Or.inr rfl]⟩ hn
      | op id i pred args v t b1 b2 b3 =>
        obtain ⟨op, ty, w, o, k1, k2, k3, k4, k5⟩ := b3
        obtain ⟨rfl, rfl⟩ := Prod.mk.inj (Option.some.inj k2)
        rw [meaning_opcode p _ _ k1] at k3
        obtain rfl := Option.some.inj k3
        obtain ⟨y, wy, ly, cy⟩ := k5 0 (by decide)
        obtain ⟨A, wA, fA, eA, iA, pA, nA⟩ := hh d.a va
        obtain ⟨B, wB, fB, eB, iB, pB, nB⟩ := hh d.b vb
        have cy : ErrContract p inn η I R (.arith d.op p) (laneArgs (fmtOf p).width none [s.env d.a, s.env d.b] 0) y := by
          rw [← bits_scalarOf]; exact cy
        have oA : operand (fmtOf p) (laneArgs (fmtOf p).width none [s.env d.a, s.env d.b] 0) 0 = A :=
          operand_word p A wA _ 0 (by rw [eA]; rfl)
        have oB : operand (fmtOf p) (laneArgs (fmtOf p).width none [s.env d.a, s.env d.b] 0) 1 = B :=
          operand_word p B wB _ 1 (by rw [eB]; rfl)
        have hn := hr n (le_refl _) (by simp)
        have er : reals x (d :: l) n n = realOp d.op (x d.a) (x d.b) := by
          rw [reals, reals_old _ _ _ _ (by omega), if_pos rfl]
        have ec : costs inn c (d :: l) n n = cost inn d.op (c d.a) (c d.b) := by
          rw [costs, costs_old _ _ _ _ _ (by omega), if_pos rfl]
        rw [er, ec] at hn
        obtain ⟨fy, ny, ry⟩ := node_near p inn hi η h0 h1 I R d.op vo _ A B y oA oB fA fB iA iB cy (c d.a) (c d.b) (x d.a) (x d.b)
          pA pB nA nB L M hlo hhi hn.1 hn.2.1 hn.2.2
        have hvw : v = word (fmtOf p) y := word_of_lane p v (by simpa [resultFmt] using k4) y wy ly
        have iy : I.Has (y.val (fmtOf p)) :=
          ⟨le_trans (zpow_le_zpow_right₀ (by norm_num) hIR.1) ry.1, lt_of_lt_of_le ry.2 (zpow_le_zpow_right₀ (by norm_num) hIR.2)⟩
        obtain ⟨m1, m2⟩ := ih (n + 1) (fun m => if m = n then realOp d.op (x d.a) (x d.b) else x m)
          (fun m => if m = n then cost inn d.op (c d.a) (c d.b) else c m) _ s' vl g1
          (fun i hi => by
            by_cases hin : i = n
            · subst hin
              refine ⟨y, wy, fy, ?_, iy, ?_, ?_⟩
              · show (if i = i then v else _) = _
                rw [if_pos rfl, hvw]
              · show 0 < (if i = i then _ else _)
                rw [if_pos rfl]
                exact lt_of_lt_of_le (zpow_pos (by norm_num) _) hn.1
              · show Near _ (if i = i then _ else _) _ (if i = i then _ else _)
                rw [if_pos rfl, if_pos rfl]
                exact ny
            · obtain ⟨z, z1, z2, z3, z0, z4, z5⟩ := hh i (by omega)
              refine ⟨z, z1, z2, ?_, z0, ?_, ?_⟩
              · show (if i = n then v else s.env i) = _
                rw [if_neg hin]; exact z3
              · show 0 < (if i = n then _ else x i)
                rw [if_neg hin]; exact z4
              · show Near _ (if i = n then _ else c i) _ (if i = n then _ else x i)
                rw [if_neg hin, if_neg hin]; exact z5)
          (fun i h1 h2 => hr i (by omega) (by rw [List.length_cons]; omega))
        refine ⟨m1, fun i hi => ?_⟩
        exact m2 i (by rw [List.length_cons] at hi; omega)

/-! ## The function -/

theorem code_mem (p : Wrapper.Prec) (l : List Node) (n : Nat) (ins : Ins P) (h : ins ∈ code p l n) :
    ∃ d ∈ l, ∃ j, n ≤ j ∧ j < n + l.length ∧ ins = .fp j ⟨opcode d.op, .scalar (scalarOf p), .scalar (scalarOf p)⟩ 0 [d.a, d.b] ∧
      (Ordered l n → d.a < j ∧ d.b < j) := by
  induction l generalizing n with
  | nil => cases h
  | cons d l ih =>
    rcases List.mem_cons.1 h with rfl | h
    · exact ⟨d, List.mem_cons_self, n, le_refl _, by simp, rfl, fun hv => ⟨hv.1, hv.2.1⟩⟩
    · obtain ⟨d', hd, j, h1, h2, h3, h4⟩ := ih (n + 1) h
      exact ⟨d', List.mem_cons_of_mem _ hd, j, by omega, by rw [List.length_cons]; omega, h3, fun hv => h4 hv.2.2⟩

theorem code_names (p : Wrapper.Prec) (l : List Node) (n : Nat) : (code (P := P) p l n).map Ins.name = List.range' n l.length := by
  induction l generalizing n with
  | nil => rfl
  | cons d l ih => rw [code, List.map_cons, ih, List.length_cons, List.range'_succ]; rfl

theorem straight_all (p : Wrapper.Prec) (k : Nat) (l : List Node) (out : Nat) : (straight (σ := σ) p k l out).all = code p l k := by
  simp [straight, Func.all]

theorem instrument_arith (p : Wrapper.Prec) (op : Wrapper.Arith) (fl : Flags) :
    ∃ name, instrument (pair p) fl ⟨opcode op, .scalar (scalarOf p), .scalar (scalarOf p)⟩ =
      .ok (.replaced name [.direct, .direct] .call) := by
  have : ∀ p op a b c, ∃ name, instrument (pair p) ⟨a, b, c⟩ ⟨opcode op, .scalar (scalarOf p), .scalar (scalarOf p)⟩ =
      .ok (.replaced name [.direct, .direct] .call) := by
    intro p op
    cases p <;> cases op
    · exact fun a b c => ⟨"_floatadd", by revert a b c; decide +kernel⟩
    · exact fun a b c => ⟨"_floatsub", by revert a b c; decide +kernel⟩
    · exact fun a b c => ⟨"_floatmul", by revert a b c; decide +kernel⟩
    · exact fun a b c => ⟨"_floatdiv", by revert a b c; decide +kernel⟩
    · exact fun a b c => ⟨"_doubleadd", by revert a b c; decide +kernel⟩
    · exact fun a b c => ⟨"_doublesub", by revert a b c; decide +kernel⟩
    · exact fun a b c => ⟨"_doublemul", by revert a b c; decide +kernel⟩
    · exact fun a b c => ⟨"_doublediv", by revert a b c; decide +kernel⟩
  exact this p op fl.fcmp fl.fma fl.cast

theorem straight_source (p : Wrapper.Prec) (fl : Flags) (k : Nat) (l : List Node) (out : Nat) (hv : Ordered l k) (ho : out < k + l.length) :
    Source (pair p) fl (straight (σ := σ) p k l out) where
  named := by
    constructor
    · intro ins h
      rw [straight_all] at h
      obtain ⟨d, -, j, h1, h2, rfl, -⟩ := code_mem p l k ins h
      exact h2
    · intro ins h a ha
      rw [straight_all] at h
      obtain ⟨d, -, j, h1, h2, rfl, h4⟩ := code_mem p l k ins h
      have h5 := h4 hv
      simp only [Ins.args, List.mem_cons, List.not_mem_nil, or_false] at ha
      show a < k + l.length
      rcases ha with rfl | rfl <;> omega
    · intro b hb a ha
      simp only [straight, List.mem_singleton] at hb
      subst hb
      simp only [List.mem_singleton] at ha
      subst ha
      exact ho
    · intro ins h _
      rw [straight_all] at h
      obtain ⟨d, -, j, h1, h2, rfl, h4⟩ := code_mem p l k ins h
      have h5 := h4 hv
      simp only [Ins.args, Ins.name, List.mem_cons, List.not_mem_nil, or_false]
      omega
  ssa := by
    rw [straight_all, code_names]
    exact List.nodup_range'
  arity := by
    intro id i pred args h
    rw [straight_all] at h
    obtain ⟨d, -, j, h1, h2, h3, -⟩ := code_mem p l k _ h
    cases h3
    refine ⟨by simp, fun r hr _ => ?_⟩
    obtain ⟨name, e⟩ := instrument_arith p d.op fl
    rw [e] at hr
    obtain rfl := Outcome.ok.inj hr
    rfl
  typed := by
    intro id i pred args h _ _
    rw [straight_all] at h
    obtain ⟨d, -, j, h1, h2, h3, -⟩ := code_mem p l k _ h
    cases h3
    cases p <;> cases d.op <;> exact ⟨rfl, by simp [ReturnsNaturally, pair, opcode, scalarOf]⟩

theorem straight_blind (p : Wrapper.Prec) (k : Nat) (l : List Node) (out : Nat) : Blind (straight (σ := σ) p k l out) where
  other := by
    intro id args f h
    rw [straight_all] at h
    obtain ⟨d, -, j, h1, h2, h3, -⟩ := code_mem p l k _ h
    cases h3
  next := by
    intro b h vals p s s'
    simp only [straight, List.mem_singleton] at h
    subst h
    exact ⟨rfl, rfl⟩
  fresh := by
    intro ins h
    rw [straight_all] at h
    obtain ⟨d, -, j, h1, h2, h3, -⟩ := code_mem p l k _ h
    exact .inl ⟨_, _, _, _, h3⟩

/-- The pass succeeds on functions all of whose instructions it can replace or leave. -/
theorem replaceAll_ok {M : Type} (sig : String → Sig) (fl : Flags) (order : List Nat) : ∀ (F : Func M),
    (∀ id i pred args, .fp id i pred args ∈ F.all → ∃ r, instrument sig fl i = .ok r) → ∃ F', replaceAll sig fl F order = .ok F' := by
  induction order with
  | nil => intro F _; exact ⟨F, rfl⟩
  | cons x xs ih =>
    intro F hF
    have hcode : ∀ (base : Nat) (i : Instr) (pred : Nat) (args : List Nat) (r : Result) (id : Nat) (i' : Instr) (pred' : Nat) (args' : List Nat),
        (.fp id i' pred' args' : Ins M) ∉ (expand base i pred args r).1 := by
      intro base i pred args r id i' pred' args' hm
      have ho : ∀ bits base j os as, (.fp id i' pred' args' : Ins M) ∉ operandCode bits base j os as := by
        intro bits base j os as
        induction os generalizing j as with
        | nil => cases as <;> simp [operandCode]
        | cons o os ih =>
          cases as with
          | nil => cases o <;> simp [operandCode]
          | cons a as => cases o <;> simp [operandCode, ih]
      cases r with
      | kept => simp [expand] at hm
      | replaced name ops v => cases v <;> simp [expand, ho] at hm
      | dead name ops => simp [expand, ho] at hm
    have h1 : ∃ F1, replaceOne sig fl F x = .ok F1 ∧ ∀ id i pred args, .fp id i pred args ∈ F1.all → ∃ r, instrument sig fl i = .ok r := by
      unfold replaceOne
      cases hf : findFp x F with
      | none => exact ⟨F, rfl, hF⟩
      | some q =>
        obtain ⟨i, pred, args⟩ := q
        obtain ⟨r, hr⟩ := hF x i pred args (findFp_some hf)
        dsimp only
        rw [hr, Outcome.bind_ok]
        have hc := hcode F.fresh i pred args r
        rcases he : expand (M := M) F.fresh i pred args r with ⟨cd, _ | y⟩
        · rw [he] at hc
          refine ⟨_, rfl, ?_⟩
          intro id i2 pred2 args2 hm
          simp only [Func.all, List.mem_flatMap, List.mem_map] at hm
          obtain ⟨b, ⟨b0, hb0, rfl⟩, hm⟩ := hm
          rcases flatMap_if_mem _ _ _ _ hm with ⟨a, ha, -, hi⟩ | ⟨hi, -⟩
          · rcases List.mem_append.1 hi with hi | hi
            · exact absurd hi (hc _ _ _ _)
            · rw [List.mem_singleton] at hi
              subst hi
              exact hF _ _ _ _ (mem_all hb0 ha)
          · exact hF _ _ _ _ (mem_all hb0 hi)
        · rw [he] at hc
          refine ⟨_, rfl, ?_⟩
          intro id i2 pred2 args2 hm
          simp only [Func.all, List.mem_flatMap, List.mem_map] at hm
          obtain ⟨b, ⟨b0, hb0, rfl⟩, hm⟩ := hm
          obtain ⟨ins, hi, e⟩ := List.mem_map.1 hm
          have : ∃ args3, ins = .fp id i2 pred2 args3 := by
            cases ins <;> simp only [Ins.rename, Ins.fp.injEq, reduceCtorEq] at e
            obtain ⟨rfl, rfl, rfl, -⟩ := e
            exact ⟨_, rfl⟩
          obtain ⟨args3, rfl⟩ := this
          rcases flatMap_if_mem _ _ _ _ hi with ⟨a, ha, -, hi⟩ | ⟨hi, -⟩
          · exact absurd hi (hc _ _ _ _)
          · exact hF _ _ _ _ (mem_all hb0 hi)
    obtain ⟨F1, e1, hF1⟩ := h1
    obtain ⟨F', e⟩ := ih F1 hF1
    exact ⟨F', by rw [replaceAll, e1, Outcome.bind_ok, e]⟩

/-- **C97** Let a function add, multiply and divide positive numbers of one type, in any number and with any sharing.  It can be
compiled with Verificarlo, in any order of replacement; run with backends whose operations have errors of `η` at most, it returns a
finite number within `factor ^ costs` of the value in real arithmetic, if no value and no bound is out of the range of the backends. -/
theorem C97_straight_partial (p : Wrapper.Prec) (inn : Nat) (hi : inn ≤ 1) (η : ℚ) (h0 : 0 ≤ η) (h1 : η < 1) (I R : Range)
    (hIR : I.low ≤ R.low ∧ R.high ≤ I.high) (fl : Flags) (hfc : fl.fcmp = false)
    (bs : List (Wrapper.Backend σ κ)) (ctx : Nat → κ) (hm : Meets fl (ErrContract p inn η I R) bs ctx)
    (op1 : Wrapper.OpId → List (BitVec 64) → BitVec 64) (rest : Instr → Nat → List Nat → Nat)
    (k : Nat) (l : List Node) (out : Nat) (hv : Valid l k) (ho : out < k + l.length) (order : List Nat)
    (hp : order.Perm (workList fl (straight (σ := σ) p k l out)))
    (X : Nat → Bits) (hX : ∀ i < k, (X i).WF (fmtOf p) ∧ (X i).Fin (fmtOf p) ∧ I.Has ((X i).val (fmtOf p)))
    (L M : Nat) (hlo : R.low ≤ -((L : ℤ) + M)) (hhi : (L : ℤ) + M < R.high)
    (hr : ∀ i, k ≤ i → i < k + l.length →
      (2 : ℚ) ^ (-(L : ℤ)) ≤ reals (fun i => (X i).val (fmtOf p)) l k i ∧ reals (fun i => (X i).val (fmtOf p)) l k i ≤ 2 ^ (L : ℤ) ∧
      factor η ^ costs inn (fun _ => 0) l k i ≤ 2 ^ M) (m : Nat × σ) :
    ∃ F', replaceAll (pair p) fl (straight p k l out) order = .ok F' ∧ ∃ y : Bits, y.WF (fmtOf p) ∧ y.Fin (fmtOf p) ∧
      (run (exec (linked op1 rest bs ctx)) F' 1 (enter k (fun i => word (fmtOf p) (X i)) m, some 0)).1.mem.1 = word (fmtOf p) y ∧
      Near (factor η) (costs inn (fun _ => 0) l k out) (y.val (fmtOf p)) (reals (fun i => (X i).val (fmtOf p)) l k out) := by
  have hin : ∀ id i pred args, (.fp id i pred args : Ins (Nat × σ)) ∈ (straight p k l out).all → ∃ r, instrument (pair p) fl i = .ok r := by
    intro id i pred args h
    rw [straight_all] at h
    obtain ⟨d, -, j, -, -, h3, -⟩ := code_mem p l k _ h
    cases h3
    obtain ⟨name, e⟩ := instrument_arith p d.op fl
    exact ⟨_, e⟩
  obtain ⟨F', hF'⟩ := replaceAll_ok (pair p) fl order (straight (σ := σ) p k l out) hin
  refine ⟨F', hF', ?_⟩
  obtain ⟨st, hrun, hmem⟩ := C94_contract_partial (pair p) fl hfc (ErrContract p inn η I R) op1 rest bs ctx hm (straight p k l out) F' order
    (straight_source p fl k l out hv.ordered ho) (straight_blind p k l out) hp hF' k
    (by
      intro ins h
      rw [straight_all] at h
      obtain ⟨d, -, j, h1, -, rfl, -⟩ := code_mem p l k _ h
      exact h1)
    (show k ≤ k + l.length by omega) (fun i => word (fmtOf p) (X i)) m 1 (some 0)
  rw [← hmem]
  generalize (run _ _ _ _).2 = fin at hrun
  cases hrun with
  | block hb g1 g2 =>
    obtain rfl := Option.some.inj hb
    cases g2
    obtain ⟨-, m2⟩ := steps_near p inn hi η h0 h1 I R hIR fl _ L M hlo hhi l k (fun i => (X i).val (fmtOf p)) (fun _ => 0) _ _ hv g1
      (fun i hi => ⟨X i, (hX i hi).1, (hX i hi).2.1, by simp [enter, hi], (hX i hi).2.2, Range.has_pos (hX i hi).2.2, near_refl _ _⟩) hr
    obtain ⟨y, y1, y2, y3, -, -, y5⟩ := m2 out ho
    exact ⟨y, y1, y2, y3, y5⟩
  | stop => rename_i hb; cases hb

end Verif.Pass
