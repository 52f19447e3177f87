import Verif.Pass.MixedProps
import Verif.Pass.NewtonProps

/-!
# Property C102, continued: executions that agree, a dot product in two precisions, and a refinement
-/

namespace Verif.Pass.Mix
open Verif Verif.Fp

variable {K σ σ' κ κ' : Type}

/-- **C102** Two executions of a program, with other options and backends in other states and replaced in other orders: they go through the same
blocks, and their numbers differ by the sum of the bounds at most. -/
theorem C102_agree_partial (fl fl' : Flags)
    (B B' : Bounds) (hB : B.Ok) (hB' : B'.Ok) (op1 : Wrapper.OpId → List (BitVec 64) → BitVec 64) (hM : Machine op1)
    (rest : Instr → Nat → List Nat → Nat) (bs : List (Wrapper.Backend σ κ)) (ctx : Nat → κ) (hm : Meets { fl with fcmp := false } B.contract bs ctx)
    (hcm : Compare fl (· = olt) op1 bs ctx)
    (bs' : List (Wrapper.Backend σ' κ')) (ctx' : Nat → κ') (hm' : Meets { fl' with fcmp := false } B'.contract bs' ctx')
    (hcm' : Compare fl' (· = olt) op1 bs' ctx')
    (fresh : Nat) (prog : List (Part K)) (hw : WellFormed fresh prog) (order order' : List Nat)
    (hp : order.Perm (workList fl (compile (σ := σ) fresh prog))) (hp' : order'.Perm (workList fl' (compile (σ := σ') fresh prog)))
    (cell : Nat → Option Val) (ctl : K) (n : Nat) (s s' : Abs Val K) (cur cur' : Option Nat)
    (he : evalRun (errDom fl B) prog n (start cell ctl, some 0) = some (s, cur))
    (he' : evalRun (errDom fl' B') prog n (start cell ctl, some 0) = some (s', cur'))
    (m m' : Nat → Nat) (hin : Inputs B.I cell m) (hin' : Inputs B'.I cell m') (t : σ) (t' : σ')
    (F : Func (Mem K × σ)) (F' : Func (Mem K × σ')) (hF : replaceAll wrapperSig fl (compile fresh prog) order = .ok F)
    (hF' : replaceAll wrapperSig fl' (compile fresh prog) order' = .ok F') :
    let r := run (exec (linked op1 rest bs ctx)) F n (enter 0 (fun _ => 0) ((m, ctl), t), some 0)
    let r' := run (exec (linked op1 rest bs' ctx')) F' n (enter 0 (fun _ => 0) ((m', ctl), t'), some 0)
    r.2 = r'.2 ∧ r.1.mem.1.2 = r'.1.mem.1.2 ∧ ∀ i v v', s.cell i = some v → s'.cell i = some v' →
      ∃ y y', r.1.mem.1.1 i = word (fmtOf v.prec) y ∧ r'.1.mem.1.1 i = word (fmtOf v'.prec) y' ∧ y.Fin (fmtOf v.prec) ∧ y'.Fin (fmtOf v'.prec) ∧
        |y.val (fmtOf v.prec) - y'.val (fmtOf v'.prec)| ≤ v.err + v'.err := by
  intro r r'
  obtain ⟨G, hG, ⟨x, a1, a2, a3⟩, -, -, a4⟩ := C102_mixed_partial fl B hB op1 hM rest bs ctx hm hcm fresh prog hw order hp cell ctl n s cur he m hin t
  obtain ⟨G', hG', ⟨x', b1, b2, b3⟩, -, -, b4⟩ := C102_mixed_partial fl' B' hB' op1 hM rest bs' ctx' hm' hcm' fresh prog hw order' hp' cell ctl n s' cur' he' m' hin' t'
  obtain rfl := Outcome.ok.inj (hG.symm.trans hF)
  obtain rfl := Outcome.ok.inj (hG'.symm.trans hF')
  obtain ⟨rfl, e2⟩ := Prod.mk.inj (Option.some.inj (a1.symm.trans b1))
  refine ⟨e2, a2.trans b2.symm, fun i v v' hv hv' => ?_⟩
  obtain ⟨y, y1, y2⟩ := a4 i v hv
  obtain ⟨y', y1', y2'⟩ := b4 i v' hv'
  refine ⟨y, y', y2, y2', y1.2.1, y1'.2.1, ?_⟩
  have e : v.val = v'.val := Option.some.inj ((a3 i v hv).symm.trans (b3 i v' hv'))
  have h1 := y1.2.2.2
  have h2 := y1'.2.2.2
  rw [← e, abs_sub_comm] at h2
  have := abs_sub_le (y.val (fmtOf v.prec)) v.val (y'.val (fmtOf v'.prec))
  linarith

theorem operand_image (p : Wrapper.Prec) (A : Bits) (wA : A.WF (fmtOf p)) (l : List (BitVec 64)) (k : Nat) (h : l.getD k 0 = image (fmtOf p) A) :
    operand (fmtOf p) l k = A :=
  operand_word p A wA l k (by rw [h, ← bits_scalarOf, lane_image p A wA])

/-- The machine of IEEE 754. -/
theorem comparing_machine : Machine comparing where
  cmp := comparing_compares
  fma p A C E wA wC wE := by
    show image (mcaTy p).fmt _ = _
    rw [← fmtOf_eq, operand_image p A wA _ 0 rfl, operand_image p C wC _ 1 rfl, operand_image p E wE _ 2 rfl]
  cast A wA := by
    show image b32 (fconv b64 b32 (operand b64 [image b64 A] 0)) = _
    rw [show operand b64 [image b64 A] 0 = A from operand_image .double A wA _ 0 rfl]

/-- The machine as LLVM describes it. -/
theorem machine_machine : Machine machine where
  cmp p := by
    intro A B wA wB fA fB
    have oA : operand (fmtOf p) [BitVec.ofNat 64 4, image (fmtOf p) A, image (fmtOf p) B] 1 = A := operand_image p A wA _ 1 rfl
    have oB : operand (fmtOf p) [BitVec.ofNat 64 4, image (fmtOf p) A, image (fmtOf p) B] 2 = B := operand_image p B wB _ 2 rfl
    have iA : A.exp ≠ (fmtOf p).expInf := fA
    have iB : B.exp ≠ (fmtOf p).expInf := fB
    have nA : ¬ A.isNaN (fmtOf p) := by simp [Bits.isNaN, iA]
    have nB : ¬ B.isNaN (fmtOf p) := by simp [Bits.isNaN, iB]
    have hn : Ieee.llvm (fmtOf p) .olt A B ↔ A.val (fmtOf p) < B.val (fmtOf p) := by
      simp only [Ieee.llvm, Ieee.num, if_neg iA, if_neg iB, nA, nB, not_false_eq_true, true_and]
      rw [WithBot.coe_lt_coe, WithTop.coe_lt_coe]
    simp only [machine]
    by_cases h : A.val (fmtOf p) < B.val (fmtOf p)
    · rw [if_pos ⟨.olt, rfl, by rw [← fmtOf_eq, oA, oB]; exact hn.2 h⟩, if_pos h]
    · rw [if_neg, if_neg h]
      rintro ⟨q, h1, h2⟩
      obtain rfl : q = .olt := (number_inj .olt q h1).symm
      rw [← fmtOf_eq, oA, oB] at h2
      exact h (hn.1 h2)
  fma := comparing_machine.fma
  cast := comparing_machine.cast

/-- With the IEEE backend loaded, the program compares as on the machine, if no backend after it compares. -/
theorem ieee_compares (fl : Flags) (count : Ieee.Op → σ → σ) (bs bs' : List (Wrapper.Backend σ κ)) (hbs : ∀ b ∈ bs', ∀ p, b (.cmp p) = none) (ctx : Nat → κ) :
    Compare fl (· = olt) machine (bs ++ ieeeBackend count :: bs') ctx :=
  fun _ p x s ⟨v, hv, hx⟩ => ieee_compare count bs bs' hbs ctx p x s ⟨v, ⟨.olt, hv, rfl⟩, hx⟩

/-! ## A dot product -/

/-- `for (k = 0; k < n; k++) s += (double)x[k] * (double)y[k]; r = (float)s;`, entered if `0 < n`, with `s` in cell 0, `r` in cell 1 and the
arrays of single precision in the cells that follow; the memory has the counter. -/
def dotLoop (n : Nat) : List (Part Nat) :=
  [{ body := [.load 0 fun _ => 0, .load 1 fun k => 2 * k + 2, .load 2 fun k => 2 * k + 3, .extend 3 1, .extend 4 2, .arith .double 5 .mul 3 4,
              .arith .double 6 .add 0 5, .store 7 6 fun _ => 0]
     test := none
     next := fun k _ => (k + 1, if k + 1 < n then some 0 else some 1) },
   { body := [.load 8 fun _ => 0, .trunc 9 8, .store 10 9 fun _ => 1]
     test := none
     next := fun k _ => (k, none) }]

theorem dotLoop_wf (n : Nat) : WellFormed 11 (dotLoop n) where
  ssa := by simp [dotLoop, Stmt.id]
  id := by simp [dotLoop, Stmt.id, Stmt.args]
  test := by simp [dotLoop]

/-- A positive number and a bound far from the ends of the range. -/
theorem rounded_pos {p : Wrapper.Prec} {u : ℚ} {S : Range} {z ez : ℚ} (hz : 0 < z) (hb : (1 + u) * (z + ez) ≤ 3 / 2 * z)
    (h1 : (2 : ℚ) ^ (S.low + 1) ≤ z) (h2 : z < 2 ^ (S.high - 1)) : rounded p u S z ez = some ⟨p, z, (1 + u) * (z + ez) - z⟩ := by
  simp only [rounded]
  rw [zpow_add_one₀ (by norm_num)] at h1
  rw [zpow_sub_one₀ (by norm_num)] at h2
  rw [if_neg (fun h => hz.ne' h.1), abs_of_pos hz, show ez + u * (z + ez) = (1 + u) * (z + ez) - z by ring, if_pos ⟨by linarith, by linarith⟩]

theorem rounded_exact {p : Wrapper.Prec} {S : Range} {z : ℚ} (hz : 0 < z) (h : S.Has z) : rounded p 0 S z 0 = some ⟨p, z, 0⟩ := by
  simp only [rounded]
  rw [if_neg (fun h => hz.ne' h.1), abs_of_pos hz, show (0 : ℚ) + 0 * (z + 0) = 0 by ring, sub_zero, add_zero]
  exact if_pos h

/-- The error of a product and of the change of its operands. -/
def product (inn : Nat) (η : ℚ) : ℚ := (1 + η) * (1 + inn * η) ^ 2

/-- One turn of the loop in the analysis. -/
theorem dotLoop_turn (fl : Flags) (B : Bounds) (hB : B.Ok) (n k : Nat) (x y : Nat → ℚ) (s : Abs Val Nat) (hk : s.ctl = k)
    (hx : s.cell (2 * k + 2) = some ⟨.float, x k, 0⟩) (hy : s.cell (2 * k + 3) = some ⟨.float, y k, 0⟩)
    (px : 0 < x k) (py : 0 < y k) (ix : (B.I .double).Has (x k)) (iy : (B.I .double).Has (y k))
    (e : ℚ) (h1 : s.cell 0 = some ⟨.double, partialSum (fun i => x i * y i) k, e⟩) (he : 0 ≤ e)
    (he2 : partialSum (fun i => x i * y i) k + e ≤
      product (B.inn .double) (B.η .double) * growth (B.inn .double) (B.η .double) ^ k * partialSum (fun i => x i * y i) k)
    (hS : 0 ≤ partialSum (fun i => x i * y i) k)
    (hq : product (B.inn .double) (B.η .double) * growth (B.inn .double) (B.η .double) ^ (k + 1) ≤ 3 / 2)
    (hlow : (2 : ℚ) ^ ((B.R .double).low + 1) ≤ x k * y k) (hhigh : partialSum (fun i => x i * y i) (k + 1) < 2 ^ ((B.R .double).high - 1)) :
    ∃ (s' : Abs Val Nat) (e' : ℚ), evalRun (errDom fl B) (dotLoop n) 1 (s, some 0) = some (s', if k + 1 < n then some 0 else some 1) ∧
      s'.ctl = k + 1 ∧ (∀ i, i ≠ 0 → s'.cell i = s.cell i) ∧ s'.cell 0 = some ⟨.double, partialSum (fun i => x i * y i) (k + 1), e'⟩ ∧ 0 ≤ e' ∧
      partialSum (fun i => x i * y i) (k + 1) + e' ≤
        product (B.inn .double) (B.η .double) * growth (B.inn .double) (B.η .double) ^ (k + 1) * partialSum (fun i => x i * y i) (k + 1) := by
  have h0 := hB.pos .double
  have hη : 0 ≤ B.inn .double * B.η .double := mul_nonneg (Nat.cast_nonneg _) h0
  have ps := partialSum_succ (fun i => x i * y i) k
  set S := partialSum (fun i => x i * y i) k with hSdef
  set Z := partialSum (fun i => x i * y i) (k + 1) with hZdef
  set c := product (B.inn .double) (B.η .double) with hc
  set g := growth (B.inn .double) (B.η .double) with hg
  have pz : 0 < x k * y k := mul_pos px py
  have hZ : 0 < Z := by linarith
  have g1 : 1 ≤ g := by rw [hg]; unfold growth; nlinarith
  have c1 : 1 ≤ c := by
    rw [hc]
    unfold product
    have : 1 ≤ (1 + B.inn .double * B.η .double) ^ 2 := one_le_pow₀ (by linarith)
    nlinarith
  have gk : 1 ≤ g ^ k := one_le_pow₀ g1
  have gk1 : 1 ≤ g ^ (k + 1) := one_le_pow₀ g1
  have hc2 : c ≤ 3 / 2 := le_trans (le_mul_of_one_le_right (by linarith) gk1) hq
  have hmul : (errDom fl B).op .double .mul ⟨.double, x k, 0⟩ ⟨.double, y k, 0⟩ = some ⟨.double, x k * y k, c * (x k * y k) - x k * y k⟩ := by
    have e1 : spreadOp .mul (x k) (0 + B.inn .double * B.η .double * (|x k| + 0)) (y k) (0 + B.inn .double * B.η .double * (|y k| + 0)) =
        ((1 + B.inn .double * B.η .double) ^ 2 - 1) * (x k * y k) := by
      simp only [spreadOp]
      rw [abs_of_pos px, abs_of_pos py]
      ring
    have e2 : (1 + B.η .double) * (x k * y k + ((1 + B.inn .double * B.η .double) ^ 2 - 1) * (x k * y k)) = c * (x k * y k) := by
      rw [hc]
      unfold product
      ring
    simp only [errDom]
    rw [if_neg (by simp)]
    simp only [inputErr]
    rw [e1, show realOp .mul (x k) (y k) = x k * y k from rfl, rounded_pos pz, e2]
    · rw [e2]
      exact mul_le_mul_of_nonneg_right hc2 pz.le
    · exact hlow
    · linarith
  set ez := c * (x k * y k) - x k * y k with hez
  have pez : 0 ≤ ez := by
    have := le_mul_of_one_le_left pz.le c1
    linarith
  set e' := g * (Z + e + ez) - Z with he'
  have p3 : 0 ≤ e' := by
    have := le_mul_of_one_le_left (show 0 ≤ Z + e + ez by linarith) g1
    linarith
  have hb : Z + e' ≤ c * g ^ (k + 1) * Z := by
    have d1 : Z + e + ez ≤ c * g ^ k * Z := by
      have d2 : c * (x k * y k) ≤ c * g ^ k * (x k * y k) := by
        rw [mul_assoc]
        exact mul_le_mul_of_nonneg_left (le_mul_of_one_le_left pz.le gk) (by linarith)
      rw [ps, mul_add]
      linarith
    have := mul_le_mul_of_nonneg_left d1 (show 0 ≤ g by linarith)
    rw [pow_succ]
    calc Z + e' = g * (Z + e + ez) := by rw [he']; ring
      _ ≤ g * (c * g ^ k * Z) := this
      _ = _ := by ring
  have hb2 : Z + e' ≤ 3 / 2 * Z := le_trans hb (mul_le_mul_of_nonneg_right hq hZ.le)
  have hadd : (errDom fl B).op .double .add ⟨.double, S, e⟩ ⟨.double, x k * y k, ez⟩ = some ⟨.double, Z, e'⟩ := by
    have e1 : (1 + B.η .double) * (Z + spreadOp .add S (e + B.inn .double * B.η .double * (|S| + e)) (x k * y k)
        (ez + B.inn .double * B.η .double * (|x k * y k| + ez))) = g * (Z + e + ez) := by
      simp only [spreadOp]
      rw [abs_of_nonneg hS, abs_of_pos pz, hg, growth, ps]
      ring
    simp only [errDom]
    rw [if_neg (by simp)]
    simp only [inputErr]
    rw [show realOp .add S (x k * y k) = Z from ps.symm, rounded_pos hZ, e1]
    · rw [e1]
      linarith
    · linarith
    · exact hhigh
  have hext : ∀ v : ℚ, 0 < v → (B.I .double).Has v → (errDom fl B).extend ⟨.float, v, 0⟩ = some ⟨.double, v, 0⟩ := by
    intro v hv hi
    simp only [errDom]
    rw [if_neg (by simp)]
    exact rounded_exact hv hi
  set s7 := ((((((s.set 0 ⟨.double, S, e⟩).set 1 ⟨.float, x k, 0⟩).set 2 ⟨.float, y k, 0⟩).set 3 ⟨.double, x k, 0⟩).set 4 ⟨.double, y k, 0⟩).set 5
    ⟨.double, x k * y k, ez⟩).set 6 ⟨.double, Z, e'⟩ with hs7
  have hs : evalBody (errDom fl B) [.load 0 fun _ => 0, .load 1 fun k => 2 * k + 2, .load 2 fun k => 2 * k + 3, .extend 3 1, .extend 4 2, .arith .double 5 .mul 3 4,
              .arith .double 6 .add 0 5, .store 7 6 fun _ => 0] s = some
      { reg := fun i => if i = 7 then none else s7.reg i
        flag := fun i => if i = 7 then none else s7.flag i
        cell := fun i => if i = 0 then some ⟨.double, Z, e'⟩ else s.cell i
        ctl := s.ctl } := by
    have c1 : (s.set 0 ⟨.double, S, e⟩).cell (2 * (s.set 0 ⟨.double, S, e⟩).ctl + 2) = some ⟨.float, x k, 0⟩ := by rw [← hx, ← hk]; rfl
    have c2 : ((s.set 0 ⟨.double, S, e⟩).set 1 ⟨.float, x k, 0⟩).cell (2 * ((s.set 0 ⟨.double, S, e⟩).set 1 ⟨.float, x k, 0⟩).ctl + 3) =
      some ⟨.float, y k, 0⟩ := by rw [← hy, ← hk]; rfl
    simp only [evalBody, Stmt.eval, h1, Option.map_some, Option.bind_some, c1, c2]
    simp only [Abs.set, Option.bind_some, if_true, if_false, Nat.reduceEqDiff, OfNat.ofNat_ne_zero, OfNat.ofNat_ne_one, OfNat.zero_ne_ofNat, OfNat.one_ne_ofNat,
      hext _ px ix, hext _ py iy, Option.map_some, hmul, hadd]
    rfl
  refine ⟨{ reg := fun i => if i = 7 then none else s7.reg i
            flag := fun i => if i = 7 then none else s7.flag i
            cell := fun i => if i = 0 then some ⟨.double, Z, e'⟩ else s.cell i
            ctl := k + 1 }, e', ?_, ?_⟩
  · rw [evalRun]
    show ((Part.eval (errDom fl B) { body := _, test := none, next := fun k _ => (k + 1, if k + 1 < n then some 0 else some 1) } s).bind _) = _
    unfold Part.eval
    rw [hs, hk]
    rfl
  · exact ⟨rfl, fun i hi => if_neg hi, rfl, p3, hb⟩

theorem evalRun_none {α : Type} (D : Dom α) (prog : List (Part K)) (n : Nat) (s : Abs α K) : evalRun D prog n (s, none) = some (s, none) := by
  cases n <;> rfl

theorem evalRun_add {α : Type} (D : Dom α) (prog : List (Part K)) (a b : Nat) (c : Abs α K × Option Nat) :
    evalRun D prog (a + b) c = (evalRun D prog a c).bind (evalRun D prog b) := by
  induction a generalizing c with
  | zero => rw [Nat.zero_add]; rfl
  | succ a ih =>
    obtain ⟨s, cur⟩ := c
    rw [show a + 1 + b = a + b + 1 by omega, evalRun, evalRun]
    cases cur.bind fun b => prog[b]? with
    | none => exact (evalRun_none D prog b s).symm
    | some q =>
      dsimp only
      cases q.eval D s with
      | none => rfl
      | some c => exact ih c

/-- The analysis of `k` turns of the loop. -/
theorem dotLoop_analysis (fl : Flags) (B : Bounds) (hB : B.Ok) (n : Nat) (x y : Nat → ℚ) (cell : Nat → Option Val) (hz : cell 0 = some ⟨.double, 0, 0⟩)
    (hx : ∀ i < n, cell (2 * i + 2) = some ⟨.float, x i, 0⟩ ∧ 0 < x i ∧ (B.I .double).Has (x i))
    (hy : ∀ i < n, cell (2 * i + 3) = some ⟨.float, y i, 0⟩ ∧ 0 < y i ∧ (B.I .double).Has (y i))
    (hlow : ∀ i < n, (2 : ℚ) ^ ((B.R .double).low + 1) ≤ x i * y i) (hhigh : partialSum (fun i => x i * y i) n < 2 ^ ((B.R .double).high - 1))
    (hq : product (B.inn .double) (B.η .double) * growth (B.inn .double) (B.η .double) ^ n ≤ 3 / 2) (k : Nat) (hk : k ≤ n) :
    ∃ (s : Abs Val Nat) (e : ℚ), evalRun (errDom fl B) (dotLoop n) k (start cell 0, some 0) = some (s, if k = 0 ∨ k < n then some 0 else some 1) ∧
      s.ctl = k ∧ (∀ i, i ≠ 0 → s.cell i = cell i) ∧ s.cell 0 = some ⟨.double, partialSum (fun i => x i * y i) k, e⟩ ∧ 0 ≤ e ∧
      0 ≤ partialSum (fun i => x i * y i) k ∧ partialSum (fun i => x i * y i) k + e ≤
        product (B.inn .double) (B.η .double) * growth (B.inn .double) (B.η .double) ^ k * partialSum (fun i => x i * y i) k := by
  have pos : ∀ i < n, 0 < x i * y i := fun i hi => mul_pos (hx i hi).2.1 (hy i hi).2.1
  have mono := partialSum_mono (fun i => x i * y i) n pos
  have h0 := hB.pos .double
  have hη := mul_nonneg (Nat.cast_nonneg (α := ℚ) (B.inn .double)) h0
  have q1 : 1 ≤ growth (B.inn .double) (B.η .double) := by
    unfold growth
    nlinarith
  have c1 : 0 ≤ product (B.inn .double) (B.η .double) := by
    unfold product
    positivity
  induction k with
  | zero => exact ⟨start cell 0, 0, rfl, rfl, fun _ _ => rfl, hz, le_rfl, by simp [partialSum], by simp [partialSum]⟩
  | succ k ih =>
    obtain ⟨s, e, e1, e2, e3, e4, e5, e6, e7⟩ := ih (by omega)
    obtain ⟨x1, x2, x3⟩ := hx k (by omega)
    obtain ⟨y1, y2, y3⟩ := hy k (by omega)
    obtain ⟨s', e', f1, f2, f3, f4, f5, f6⟩ := dotLoop_turn fl B hB n k x y s e2 (by rw [e3 _ (by omega), x1]) (by rw [e3 _ (by omega), y1]) x2 y2 x3 y3
      e e4 e5 e7 e6 (le_trans (mul_le_mul_of_nonneg_left (pow_le_pow_right₀ q1 hk) c1) hq) (hlow k (by omega))
      (lt_of_le_of_lt ((mono n le_rfl).2 _ hk) hhigh)
    refine ⟨s', e', ?_, f2, fun i hi => by rw [f3 i hi, e3 i hi], f4, f5, (mono (k + 1) hk).1, f6⟩
    rw [evalRun_add, e1, Option.bind_some, if_pos (by omega), f1]
    congr 2
    simp

/-- **C102** The dot product of two arrays of single precision of any length, computed in double precision and rounded: the result is the one
the error of the additions and products of doubles, and one rounding, by the machine or with `--inst-cast` by the backends, allow; the errors of single precision the backends would make do
not occur. -/
theorem C102_dot_partial (fl : Flags)
    (B : Bounds) (hB : B.Ok) (hI : (B.I .double).low ≤ (B.I .float).low ∧ (B.I .float).high ≤ (B.I .double).high)
    (op1 : Wrapper.OpId → List (BitVec 64) → BitVec 64) (hM : Machine op1)
    (rest : Instr → Nat → List Nat → Nat) (bs : List (Wrapper.Backend σ κ)) (ctx : Nat → κ) (hm : Meets { fl with fcmp := false } B.contract bs ctx)
    (hcm : Compare fl (· = olt) op1 bs ctx)
    (n : Nat) (hn : 0 < n) (order : List Nat) (hp : order.Perm (workList fl (compile (σ := σ) 11 (dotLoop n))))
    (X Y : Nat → Bits) (hX : ∀ i < n, (X i).WF b32 ∧ (X i).Fin b32 ∧ (B.I .float).Has ((X i).val b32))
    (hY : ∀ i < n, (Y i).WF b32 ∧ (Y i).Fin b32 ∧ (B.I .float).Has ((Y i).val b32))
    (hlow : ∀ i < n, (2 : ℚ) ^ ((B.R .double).low + 1) ≤ (X i).val b32 * (Y i).val b32)
    (hhigh : partialSum (fun i => (X i).val b32 * (Y i).val b32) n < 2 ^ ((B.R .double).high - 1))
    (hout : (2 : ℚ) ^ ((castRange fl B).low + 1) ≤ partialSum (fun i => (X i).val b32 * (Y i).val b32) n ∧
      partialSum (fun i => (X i).val b32 * (Y i).val b32) n < 2 ^ ((castRange fl B).high - 1))
    (hq : (1 + castUnit fl B) * (product (B.inn .double) (B.η .double) * growth (B.inn .double) (B.η .double) ^ n) ≤ 3 / 2)
    (m : Nat → Nat) (hm0 : m 0 = 0) (hmX : ∀ i < n, m (2 * i + 2) = word b32 (X i)) (hmY : ∀ i < n, m (2 * i + 3) = word b32 (Y i)) (t : σ)
    (F : Func (Mem Nat × σ)) (hF : replaceAll wrapperSig fl (compile 11 (dotLoop n)) order = .ok F) :
    let r := run (exec (linked op1 rest bs ctx)) F (n + 1) (enter 0 (fun _ => 0) ((m, 0), t), some 0)
    r.2 = none ∧ r.1.mem.1.2 = n ∧ ∃ y : Bits, r.1.mem.1.1 1 = word b32 y ∧ y.Fin b32 ∧
      |y.val b32 - partialSum (fun i => (X i).val b32 * (Y i).val b32) n| ≤
        ((1 + castUnit fl B) * (product (B.inn .double) (B.η .double) * growth (B.inn .double) (B.η .double) ^ n) - 1) *
          partialSum (fun i => (X i).val b32 * (Y i).val b32) n := by
  intro r
  have h0 := hB.pos .double
  have hu : 0 ≤ castUnit fl B := by
    unfold castUnit
    split_ifs
    · exact hB.cast
    · exact (zpow_pos (by norm_num) _).le
  have hη := mul_nonneg (Nat.cast_nonneg (α := ℚ) (B.inn .double)) h0
  have has : ∀ z, (B.I .float).Has z → (B.I .double).Has z := fun z h =>
    ⟨le_trans (zpow_le_zpow_right₀ (by norm_num) hI.1) h.1, lt_of_lt_of_le h.2 (zpow_le_zpow_right₀ (by norm_num) hI.2)⟩
  set x : Nat → ℚ := fun i => (X i).val b32 with hxdef
  set w : Nat → ℚ := fun i => (Y i).val b32 with hwdef
  set Z := partialSum (fun i => x i * w i) n with hZ
  set c := product (B.inn .double) (B.η .double) * growth (B.inn .double) (B.η .double) ^ n with hc
  have c0 : 0 ≤ c := by
    rw [hc]
    unfold product growth
    positivity
  set cell : Nat → Option Val := fun i => if i = 0 then some ⟨.double, 0, 0⟩ else if i = 1 ∨ 2 * n + 1 < i then none
    else if i % 2 = 0 then some ⟨.float, x (i / 2 - 1), 0⟩ else some ⟨.float, w (i / 2 - 1), 0⟩ with hcell
  obtain ⟨s, e, e1, e2, -, e4, e5, e6, e7⟩ := dotLoop_analysis fl B hB n x w cell (by simp [hcell])
    (fun i hi => ⟨by
      simp only [hcell]
      rw [if_neg (by omega), if_neg (by omega), if_pos (by omega), show (2 * i + 2) / 2 - 1 = i by omega], Range.has_pos (hX i hi).2.2, has _ (hX i hi).2.2⟩)
    (fun i hi => ⟨by
      simp only [hcell]
      rw [if_neg (by omega), if_neg (by omega), if_neg (by omega), show (2 * i + 3) / 2 - 1 = i by omega], Range.has_pos (hY i hi).2.2, has _ (hY i hi).2.2⟩)
    hlow hhigh (by
      have : c ≤ (1 + castUnit fl B) * c := le_mul_of_one_le_left c0 (by linarith)
      exact le_trans this hq) n le_rfl
  rw [if_neg (by omega)] at e1
  have pZ : 0 < Z := lt_of_lt_of_le (zpow_pos (by norm_num) _) hout.1
  have e4 : s.cell 0 = some ⟨.double, Z, e⟩ := e4
  have e7 : Z + e ≤ c * Z := e7
  have hb : (1 + castUnit fl B) * (Z + e) ≤ (1 + castUnit fl B) * c * Z := by
    rw [mul_assoc]
    exact mul_le_mul_of_nonneg_left e7 (by linarith)
  have htr : (errDom fl B).trunc ⟨.double, Z, e⟩ = some ⟨.float, Z, (1 + castUnit fl B) * (Z + e) - Z⟩ := by
    simp only [errDom]
    rw [if_neg (by simp)]
    exact rounded_pos pZ (le_trans hb (mul_le_mul_of_nonneg_right hq pZ.le)) hout.1 hout.2
  set s2 : Abs Val Nat := { reg := fun i => if i = 10 then none else (((s.set 8 ⟨.double, Z, e⟩).set 9 ⟨.float, Z, (1 + castUnit fl B) * (Z + e) - Z⟩)).reg i
                            flag := fun i => if i = 10 then none else (((s.set 8 ⟨.double, Z, e⟩).set 9 ⟨.float, Z, (1 + castUnit fl B) * (Z + e) - Z⟩)).flag i
                            cell := fun i => if i = 1 then some ⟨.float, Z, (1 + castUnit fl B) * (Z + e) - Z⟩ else s.cell i
                            ctl := s.ctl } with hs2
  have hlast : evalRun (errDom fl B) (dotLoop n) 1 (s, some 1) = some (s2, none) := by
    have hbody : evalBody (errDom fl B) [.load 8 fun _ => 0, .trunc 9 8, .store 10 9 fun _ => 1] s = some s2 := by
      simp only [evalBody, Stmt.eval, e4, Option.map_some, Option.bind_some]
      simp only [Abs.set, if_true, Option.bind_some, htr, Option.map_some]
      rfl
    rw [evalRun]
    show ((Part.eval (errDom fl B) { body := _, test := none, next := fun k _ => (k, none) } s).bind _) = _
    unfold Part.eval
    rw [hbody]
    rfl
  obtain ⟨G, hG, -, a1, a2, a3⟩ := C102_mixed_partial fl B hB op1 hM rest bs ctx hm hcm 11 (dotLoop n) (dotLoop_wf n) order hp
    cell 0 (n + 1) s2 none (by rw [evalRun_add, e1, Option.bind_some, hlast]) m (by
      intro i v hv
      simp only [hcell] at hv
      split_ifs at hv with h1 h2 h3
      · obtain rfl := Option.some.inj hv
        refine ⟨⟨false, 0, 0⟩, ⟨⟨by positivity, by positivity⟩, by decide, Or.inl ?_, ?_⟩, ?_⟩
        · simp [Bits.val, Bits.sig]
        · simp [Bits.val, Bits.sig]
        · rw [h1, hm0]; simp [word, Bits.pat]
      · obtain rfl := Option.some.inj hv
        obtain ⟨x1, x2, x3⟩ := hX (i / 2 - 1) (by omega)
        refine ⟨X (i / 2 - 1), ⟨x1, x2, Or.inr ?_, ?_⟩, ?_⟩
        · show (B.I .float).Has |(X (i / 2 - 1)).val b32|
          rw [abs_of_pos (Range.has_pos x3)]
          exact x3
        · show |(X (i / 2 - 1)).val b32 - (X (i / 2 - 1)).val b32| ≤ 0
          simp
        · show m i = word b32 (X (i / 2 - 1))
          rw [← hmX (i / 2 - 1) (by omega)]
          congr 1
          omega
      · obtain rfl := Option.some.inj hv
        obtain ⟨x1, x2, x3⟩ := hY (i / 2 - 1) (by omega)
        refine ⟨Y (i / 2 - 1), ⟨x1, x2, Or.inr ?_, ?_⟩, ?_⟩
        · show (B.I .float).Has |(Y (i / 2 - 1)).val b32|
          rw [abs_of_pos (Range.has_pos x3)]
          exact x3
        · show |(Y (i / 2 - 1)).val b32 - (Y (i / 2 - 1)).val b32| ≤ 0
          simp
        · show m i = word b32 (Y (i / 2 - 1))
          rw [← hmY (i / 2 - 1) (by omega)]
          congr 1
          omega) t
  obtain rfl := Outcome.ok.inj (hG.symm.trans hF)
  obtain ⟨y, y1, y2⟩ := a3 1 _ (show s2.cell 1 = some ⟨.float, Z, (1 + castUnit fl B) * (Z + e) - Z⟩ from rfl)
  refine ⟨a1, a2.trans e2, y, y2, y1.2.1, le_trans y1.2.2.2 ?_⟩
  dsimp only
  linarith

/-- The bounds of the IEEE backend. -/
def machineBounds : Bounds := ⟨fun _ => 0, fun p => chain (fmtOf p) 0, fun p => finite (fmtOf p), fun p => normal (fmtOf p),
  roundUnit b32, normal b32⟩

theorem machineBounds_ok : machineBounds.Ok where
  pos p := by cases p <;> norm_num [machineBounds, chain, fmtOf, b32, b64]
  range p := by cases p <;> decide
  cast := (roundUnit_pos _).le

/-- The conversions of the IEEE backend are those of the machine. -/
theorem machineBounds_cast (fl : Flags) : castUnit fl machineBounds = 1 / 2 ^ 24 ∧ castRange fl machineBounds = meet (finite b32) (normal b32) := by
  have h : unit .float = 1 / 2 ^ 24 ∧ machineBounds.cast = 1 / 2 ^ 24 := by
    unfold unit machineBounds roundUnit
    norm_num [fmtOf, b32]
  unfold castUnit castRange
  rw [h.1, h.2]
  exact ⟨ite_self _, by rw [show machineBounds.C = normal b32 from rfl, ite_self]; rfl⟩

theorem ieee_meets (fl : Flags) (count : Ieee.Op → σ → σ) (bs : List (Wrapper.Backend σ κ)) (ctx : Nat → κ) :
    Meets { fl with fcmp := false } machineBounds.contract (bs ++ [ieeeBackend count]) ctx :=
  C102_meets machineBounds { fl with fcmp := false } _ ctx (fun p => C98_ieee_partial p count { fl with fcmp := false, cast := false } rfl bs ctx) fun _ => C98_cast_ieee count bs ctx

/-- The operations to replace, from the last to the first; with `--inst-cast` the conversion is one. -/
def dotWork (fl : Flags) : List Nat := if fl.cast then [9, 6, 5] else [6, 5]

theorem dotLoop_work (fl : Flags) (n : Nat) : (dotWork fl).Perm (workList fl (compile (σ := σ) 11 (dotLoop n))) := by
  obtain ⟨f1, f2, f3⟩ := fl
  cases f3
  · have : workList ⟨f1, f2, false⟩ (compile (σ := σ) 11 (dotLoop n)) = [5, 6] := by cases f1 <;> cases f2 <;> rfl
    rw [this]
    exact (show List.Perm [6, 5] [5, 6] by decide)
  · have : workList ⟨f1, f2, true⟩ (compile (σ := σ) 11 (dotLoop n)) = [5, 6, 9] := by cases f1 <;> cases f2 <;> rfl
    rw [this]
    exact (show List.Perm [9, 6, 5] [5, 6, 9] by decide)

/-- A hundred times 1.5 * 0.5, with the IEEE backend, within `2^-16`: the rounding of the result. -/
example (fl : Flags) (count : Ieee.Op → σ → σ) (bs : List (Wrapper.Backend σ κ)) (ctx : Nat → κ)
    (rest : Instr → Nat → List Nat → Nat) (t : σ) (F : Func (Mem Nat × σ))
    (hF : replaceAll wrapperSig fl (compile 11 (dotLoop 100)) (dotWork fl) = .ok F) :
    let r := run (exec (linked machine rest (bs ++ [ieeeBackend count]) ctx)) F 101
      (enter 0 (fun _ => 0) ((fun i => if i = 0 then 0 else if i % 2 = 0 then word b32 ⟨false, 127, 2 ^ 22⟩ else word b32 ⟨false, 126, 0⟩, 0), t), some 0)
    r.2 = none ∧ ∃ y : Bits, r.1.mem.1.1 1 = word b32 y ∧ y.Fin b32 ∧ |y.val b32 - 75| ≤ 1 / 2 ^ 16 := by
  intro r
  have v1 : Bits.val b32 ⟨false, 127, 2 ^ 22⟩ = 3 / 2 := by norm_num [Bits.val, Bits.sig, Bits.lsb, sgn, b32, Fmt.bias]
  have v2 : Bits.val b32 ⟨false, 126, 0⟩ = 1 / 2 := by norm_num [Bits.val, Bits.sig, Bits.lsb, sgn, b32, Fmt.bias]
  have hs : partialSum (fun _ => Bits.val b32 ⟨false, 127, 2 ^ 22⟩ * Bits.val b32 ⟨false, 126, 0⟩) 100 = 75 := by
    rw [v1, v2]
    decide +kernel
  have hg : (1 + 1 / 2 ^ 24) * (product 0 (chain b64 0) * growth 0 (chain b64 0) ^ 100) ≤ 1 + 1 / 2 ^ 23 := by decide +kernel
  obtain ⟨a1, -, y, a2, a3, a4⟩ := C102_dot_partial fl machineBounds machineBounds_ok (by decide) machine machine_machine rest _ ctx (ieee_meets fl count bs ctx)
    (ieee_compares fl count bs [] (by simp) ctx)
    100 (by norm_num) (dotWork fl) (dotLoop_work fl _) (fun _ => ⟨false, 127, 2 ^ 22⟩) (fun _ => ⟨false, 126, 0⟩)
    (fun i _ => ⟨by decide, by decide, by rw [v1]; decide +kernel⟩) (fun i _ => ⟨by decide, by decide, by rw [v2]; decide +kernel⟩)
    (fun i _ => by rw [v1, v2]; decide +kernel) (by rw [hs]; decide +kernel) (by rw [hs, (machineBounds_cast fl).2]; decide +kernel)
    (by rw [(machineBounds_cast fl).1]; exact le_trans hg (by norm_num))
    (fun i => if i = 0 then 0 else if i % 2 = 0 then word b32 ⟨false, 127, 2 ^ 22⟩ else word b32 ⟨false, 126, 0⟩) rfl
    (fun i _ => by rw [if_neg (by omega), if_pos (by omega)]) (fun i _ => by rw [if_neg (by omega), if_neg (by omega)]) t F hF
  rw [hs, (machineBounds_cast fl).1] at a4
  refine ⟨a1, y, a2, a3, le_trans a4 ?_⟩
  have hg' : (1 + 1 / 2 ^ 24) * (product (machineBounds.inn .double) (machineBounds.η .double) *
    growth (machineBounds.inn .double) (machineBounds.η .double) ^ 100) ≤ 1 + 1 / 2 ^ 23 := hg
  linarith

/-! ## A refinement -/

/-- The root of 2 by Newton's iteration, the first step in single and two more in double precision:
`float f = 1.5f; f = (f + 2.f / f) * 0.5f; double x = f; for (k = 0; k < 2; k++) { x = fma(2. / x, 0.5, x * 0.5); r = -x < 0.5 ? x : 0.5; }`,
`x` being a phi node. -/
def refinement : List (Part Nat) :=
  [{ body := [.const .float 0 fun _ => ⟨false, 127, 2 ^ 22⟩, .const .float 1 fun _ => ⟨false, 128, 0⟩, .arith .float 2 .div 1 0, .arith .float 3 .add 0 2,
              .const .float 4 fun _ => ⟨false, 126, 0⟩, .arith .float 5 .mul 3 4, .extend 6 5]
     test := none
     next := fun k _ => (k, some 1) },
   { body := [.phi 7 (fun k => k == 0) 6 12, .const .double 8 fun _ => ⟨false, 1024, 0⟩, .arith .double 9 .div 8 7, .const .double 10 fun _ => ⟨false, 1022, 0⟩,
              .arith .double 11 .mul 7 10, .fma .double 12 9 10 11, .neg .double 13 12, .less .double 14 13 10, .select 15 14 12 10, .store 16 15 fun _ => 0]
     test := some 14
     next := fun k b => (k + 1, if b && k == 0 then some 1 else none) }]

theorem refinement_wf : WellFormed 17 refinement where
  ssa := by simp [refinement, Stmt.id]
  id := by simp [refinement, Stmt.id, Stmt.args]
  test := by simp [refinement]

/-- Errors of `2^-20` in single and of `2^-40` in double precision, in operands and results. -/
def rough : Bounds := ⟨fun _ => 1, fun | .float => 1 / 2 ^ 20 | .double => 1 / 2 ^ 40, fun p => ordinary (fmtOf p), fun p => ordinary (fmtOf p), 1 / 2 ^ 20,
  mcaCastRange⟩

theorem rough_ok : rough.Ok where
  pos p := by cases p <;> norm_num [rough]
  range p := by cases p <;> decide
  cast := by norm_num [rough]

/-- The default options, or `--inst-fma`. -/
def opts (c f : Bool) : Flags := ⟨c, f, false⟩

/-- The operations to replace, from the last to the first. -/
def refinementWork (c f : Bool) : List Nat := (if c then [14] else []) ++ (if f then [12, 11, 9, 5, 3, 2] else [11, 9, 5, 3, 2])

theorem refinement_work (c f : Bool) : (refinementWork c f).Perm (workList (opts c f) (compile (σ := σ) 17 refinement)) := by
  cases c <;> cases f
  · exact (show List.Perm _ [2, 3, 5, 9, 11] by decide)
  · exact (show List.Perm _ [2, 3, 5, 9, 11, 12] by decide)
  · exact (show List.Perm _ [2, 3, 5, 9, 11, 14] by decide)
  · exact (show List.Perm _ [2, 3, 5, 9, 11, 12, 14] by decide)

/-- The analysis. -/
theorem refinement_analysis : ∀ c f, ((evalRun (errDom (opts c f) rough) refinement 3 (start (fun _ => none) 0, some 0)).any fun r =>
    r.2 == none && r.1.ctl == 2 && (r.1.cell 0).any fun v => v.prec == .double && v.val == 665857 / 470832 && decide (v.err ≤ 1 / 2 ^ 15)) = true := by
  decide +kernel

/-- The refinement, with any backends that keep to these errors: it returns after two turns, near 665857/470832. -/
theorem refinement_any (c f : Bool) (bs : List (Wrapper.Backend σ κ)) (ctx : Nat → κ) (rest : Instr → Nat → List Nat → Nat)
    (hm : Meets (opts false f) rough.contract bs ctx) (hcm : Compare (opts c f) (· = olt) machine bs ctx) (m : Nat → Nat) (t : σ) :
    ∃ F', replaceAll wrapperSig (opts c f) (compile 17 refinement) (refinementWork c f) = .ok F' ∧
      let r := run (exec (linked machine rest bs ctx)) F' 3 (enter 0 (fun _ => 0) ((m, 0), t), some 0)
      r.2 = none ∧ r.1.mem.1.2 = 2 ∧ ∃ y : Bits, r.1.mem.1.1 0 = word b64 y ∧ y.Fin b64 ∧ |y.val b64 - 665857 / 470832| ≤ 1 / 2 ^ 15 := by
  obtain ⟨⟨s, cur⟩, h1, h2⟩ := (Option.any_eq_true _ _).1 (refinement_analysis c f)
  simp only [Bool.and_eq_true, beq_iff_eq] at h2
  obtain ⟨⟨rfl, h3⟩, h4⟩ := h2
  obtain ⟨⟨p, v, e⟩, h5, h6⟩ := (Option.any_eq_true _ _).1 h4
  simp only [Bool.and_eq_true, beq_iff_eq, decide_eq_true_eq] at h6
  obtain ⟨⟨rfl, rfl⟩, h6⟩ := h6
  obtain ⟨F', hF, -, a1, a2, a3⟩ := C102_mixed_partial (opts c f) rough rough_ok machine machine_machine rest bs ctx hm hcm 17 refinement refinement_wf
    (refinementWork c f) (refinement_work c f) (fun _ => none) 0 3 s none h1 m (fun _ _ h => by cases h) t
  obtain ⟨y, y1, y2⟩ := a3 0 _ h5
  exact ⟨F', hF, a1, a2.trans h3, y, y2, y1.2.1, le_trans y1.2.2.2 h6⟩

/-- Two executions of the refinement, compiled with `--inst-fma`, `--inst-fcmp`, both or neither, differ by `2^-14` at most. -/
example (c c' f f' : Bool) (bs : List (Wrapper.Backend σ κ)) (ctx : Nat → κ) (bs' : List (Wrapper.Backend σ' κ')) (ctx' : Nat → κ') (rest : Instr → Nat → List Nat → Nat)
    (hm : Meets (opts false f) rough.contract bs ctx) (hm' : Meets (opts false f') rough.contract bs' ctx')
    (hcm : Compare (opts c f) (· = olt) machine bs ctx) (hcm' : Compare (opts c' f') (· = olt) machine bs' ctx') (m m' : Nat → Nat) (t : σ) (t' : σ')
    (F : Func (Mem Nat × σ)) (F' : Func (Mem Nat × σ')) (hF : replaceAll wrapperSig (opts c f) (compile 17 refinement) (refinementWork c f) = .ok F)
    (hF' : replaceAll wrapperSig (opts c' f') (compile 17 refinement) (refinementWork c' f').reverse = .ok F') :
    let r := run (exec (linked machine rest bs ctx)) F 3 (enter 0 (fun _ => 0) ((m, 0), t), some 0)
    let r' := run (exec (linked machine rest bs' ctx')) F' 3 (enter 0 (fun _ => 0) ((m', 0), t'), some 0)
    r.2 = r'.2 ∧ ∃ y y', r.1.mem.1.1 0 = word b64 y ∧ r'.1.mem.1.1 0 = word b64 y' ∧ |y.val b64 - y'.val b64| ≤ 1 / 2 ^ 14 := by
  intro r r'
  obtain ⟨⟨s, cur⟩, h1, h2⟩ := (Option.any_eq_true _ _).1 (refinement_analysis c f)
  simp only [Bool.and_eq_true, beq_iff_eq] at h2
  obtain ⟨⟨rfl, -⟩, h4⟩ := h2
  obtain ⟨⟨p, v, e⟩, h5, h6⟩ := (Option.any_eq_true _ _).1 h4
  simp only [Bool.and_eq_true, beq_iff_eq, decide_eq_true_eq] at h6
  obtain ⟨⟨rfl, rfl⟩, h6⟩ := h6
  obtain ⟨⟨s', cur'⟩, k1, k2⟩ := (Option.any_eq_true _ _).1 (refinement_analysis c' f')
  simp only [Bool.and_eq_true, beq_iff_eq] at k2
  obtain ⟨⟨rfl, -⟩, k4⟩ := k2
  obtain ⟨⟨p', v', e'⟩, k5, k6⟩ := (Option.any_eq_true _ _).1 k4
  simp only [Bool.and_eq_true, beq_iff_eq, decide_eq_true_eq] at k6
  obtain ⟨⟨rfl, rfl⟩, k6⟩ := k6
  obtain ⟨a1, -, a2⟩ := C102_agree_partial (opts c f) (opts c' f') rough rough rough_ok rough_ok machine machine_machine rest bs ctx hm hcm
    bs' ctx' hm' hcm' 17 refinement refinement_wf _ _ (refinement_work c f) ((List.reverse_perm _).trans (refinement_work c' f'))
    (fun _ => none) 0 3 s s' none none h1 k1 m m' (fun _ _ h => by cases h) (fun _ _ h => by cases h) t t' F F' hF hF'
  obtain ⟨y, y', b1, b2, -, -, b3⟩ := a2 0 _ _ h5 k5
  refine ⟨a1, y, y', b1, b2, le_trans b3 ?_⟩
  dsimp only
  linarith

/-- Integer MCA at precisions 22 and 42 in any mode. -/
example (fl : Flags) (hfc : fl.fcmp = false) (g : Mca.Gen σ) (mode : Mca.Mode) (bs : List (Wrapper.Backend σ κ)) (ctx : Nat → κ) :
    Meets fl rough.contract (bs ++ [mcaIntBackend .wrap g { Mca.init with mode := mode, prec32 := 22, prec64 := 42 }]) ctx := by
  refine C102_meets rough fl _ ctx (fun p => ?_) fun _ x s => ?_
  swap
  · obtain ⟨y, wy, ey, cy⟩ := C98_cast_int_partial g { Mca.init with mode := mode, prec32 := 22, prec64 := 42 } rfl rfl (fun | .f32 => 22 | .f64 => 42)
      (fun T => by cases T <;> rfl) (fun T => by cases T <;> decide) bs ctx x s
    refine ⟨y, wy, ey, fun fA hA => ⟨(cy fA hA).1, le_trans (cy fA hA).2 (mul_le_mul_of_nonneg_right ?_ (abs_nonneg _))⟩⟩
    cases mode <;> decide +kernel
  refine (C96_int_relative_partial g { Mca.init with mode := mode, prec32 := 22, prec64 := 42 } rfl rfl (fun | .f32 => 22 | .f64 => 42)
      (fun T => by cases T <;> rfl) (fun T => by cases T <;> decide) { fl with cast := false } hfc bs ctx).mono fun o x y h => ?_
  refine signed_mono p (by show _ ≤ 1; unfold inbound; split_ifs <;> omega) ?_ ?_ ⟨le_rfl, le_rfl⟩ ⟨le_rfl, le_rfl⟩ o x y
    (rel_signed mode _ p (zpow_pos (by norm_num) _).le (ordinary (fmtOf p)) o x y h)
  · cases p <;> norm_num [opError, mcaTy, Mca.Ty.wide, Mca.Ty.fmt, b32, b64, b128]
  · cases p <;> norm_num [opError, mcaTy, Mca.Ty.wide, Mca.Ty.fmt, b32, b64, b128, rough]

/-- The IEEE backend. -/
example (fl : Flags) (hfc : fl.fcmp = false) (count : Ieee.Op → σ → σ) (bs : List (Wrapper.Backend σ κ)) (ctx : Nat → κ) : Meets fl rough.contract (bs ++ [ieeeBackend count]) ctx := by
  refine C102_meets rough fl _ ctx (fun p => (C98_ieee_partial p count { fl with cast := false } hfc bs ctx).mono
    (signed_mono p (Nat.zero_le _) ?_ ?_ ?_ ?_)) fun _ x s => ?_
  rotate_right
  · obtain ⟨y, wy, ey, cy⟩ := C98_cast_ieee count bs ctx x s
    refine ⟨y, wy, ey, fun fA hA => ?_⟩
    have cy := cy fA (ok_mono (by decide) hA)
    exact ⟨cy.1, le_trans cy.2 (mul_le_mul_of_nonneg_right (by norm_num [roundUnit, b32, rough]) (abs_nonneg _))⟩
  · cases p <;> norm_num [chain, fmtOf, b32, b64]
  · cases p <;> norm_num [chain, fmtOf, b32, b64, rough]
  all_goals cases p <;> decide

end Verif.Pass.Mix
