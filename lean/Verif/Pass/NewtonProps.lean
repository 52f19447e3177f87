import Verif.Pass.LoopProps

/-!
# Property C100, continued: executions that agree, sums of arrays, and an iteration that stops
-/

namespace Verif.Pass
open Verif Verif.Fp

variable {K σ σ' κ κ' : Type}

/-- **C100** Two executions of a program, with other backends in other states and replaced in other orders: they go through the same
blocks, and their numbers differ by the sum of the bounds at most. -/
theorem C100_agree_partial (p : Wrapper.Prec) (inn inn' : Nat) (η η' : ℚ) (h0 : 0 ≤ η) (h0' : 0 ≤ η') (I R I' R' : Range)
    (hIR : I.low ≤ R.low ∧ R.high ≤ I.high) (hIR' : I'.low ≤ R'.low ∧ R'.high ≤ I'.high)
    (fl fl' : Flags) (hfc : fl.fcmp = false) (hfc' : fl'.fcmp = false) (op1 : Wrapper.OpId → List (BitVec 64) → BitVec 64) (hcmp : Compares p op1)
    (rest : Instr → Nat → List Nat → Nat) (bs : List (Wrapper.Backend σ κ)) (ctx : Nat → κ) (hm : Meets fl (SignedContract p inn η I R) bs ctx)
    (bs' : List (Wrapper.Backend σ' κ')) (ctx' : Nat → κ') (hm' : Meets fl' (SignedContract p inn' η' I' R') bs' ctx')
    (fresh : Nat) (prog : List (Part K)) (hw : WellFormed fresh prog) (order order' : List Nat)
    (hp : order.Perm (workList fl (compile (σ := σ) p fresh prog))) (hp' : order'.Perm (workList fl' (compile (σ := σ') p fresh prog)))
    (cell : Nat → Option (ℚ × ℚ)) (ctl : K) (n : Nat) (s s' : Abs (ℚ × ℚ) K) (cur cur' : Option Nat)
    (he : evalRun (errDom p inn η I R) prog n (start cell ctl, some 0) = some (s, cur))
    (he' : evalRun (errDom p inn' η' I' R') prog n (start cell ctl, some 0) = some (s', cur'))
    (m m' : Nat → Nat) (hin : Inputs p I cell m) (hin' : Inputs p I' cell m') (t : σ) (t' : σ')
    (F : Func (Mem K × σ)) (F' : Func (Mem K × σ')) (hF : replaceAll (pair p) fl (compile p fresh prog) order = .ok F)
    (hF' : replaceAll (pair p) fl' (compile p fresh prog) order' = .ok F') :
    let r := run (exec (linked op1 rest bs ctx)) F n (enter 0 (fun _ => 0) ((m, ctl), t), some 0)
    let r' := run (exec (linked op1 rest bs' ctx')) F' n (enter 0 (fun _ => 0) ((m', ctl), t'), some 0)
    r.2 = r'.2 ∧ r.1.mem.1.2 = r'.1.mem.1.2 ∧ ∀ i v v', s.cell i = some v → s'.cell i = some v' →
      ∃ y y' : Bits, r.1.mem.1.1 i = word (fmtOf p) y ∧ r'.1.mem.1.1 i = word (fmtOf p) y' ∧ y.Fin (fmtOf p) ∧ y'.Fin (fmtOf p) ∧
        |y.val (fmtOf p) - y'.val (fmtOf p)| ≤ v.2 + v'.2 := by
  intro r r'
  obtain ⟨G, hG, ⟨x, a1, a2, a3⟩, -, -, a4⟩ := C100_loops_partial p inn η h0 I R hIR fl hfc op1 hcmp rest bs ctx hm fresh prog hw order hp
    cell ctl n s cur he m hin t
  obtain ⟨G', hG', ⟨x', b1, b2, b3⟩, -, -, b4⟩ := C100_loops_partial p inn' η' h0' I' R' hIR' fl' hfc' op1 hcmp rest bs' ctx' hm' fresh prog hw
    order' hp' cell ctl n s' cur' he' m' hin' t'
  obtain rfl := Outcome.ok.inj (hG.symm.trans hF)
  obtain rfl := Outcome.ok.inj (hG'.symm.trans hF')
  obtain ⟨rfl, e2⟩ := Prod.mk.inj (Option.some.inj (a1.symm.trans b1))
  refine ⟨e2, a2.trans b2.symm, fun i v v' hv hv' => ?_⟩
  obtain ⟨y, y1, y2⟩ := a4 i v hv
  obtain ⟨y', y1', y2'⟩ := b4 i v' hv'
  refine ⟨y, y', y2, y2', y1.2.1, y1'.2.1, ?_⟩
  have e : v.1 = v'.1 := Option.some.inj ((a3 i v hv).symm.trans (b3 i v' hv'))
  have h1 := y1.2.2.2
  have h2 := y1'.2.2.2
  rw [← e, abs_sub_comm] at h2
  have := abs_sub_le (y.val (fmtOf p)) v.1 (y'.val (fmtOf p))
  linarith

/-! ## The sum of an array -/

/-- `for (k = 0; k < n; k++) c[0] += c[k + 1];`, entered if `0 < n`; the memory has the counter. -/
def sumLoop (n : Nat) : List (Part Nat) :=
  [{ body := [.load 0 fun _ => 0, .load 1 fun k => k + 1, .arith 2 .add 0 1, .store 3 2 fun _ => 0]
     test := none
     next := fun k _ => (k + 1, if k + 1 < n then some 0 else none) }]

theorem sumLoop_wf (n : Nat) : WellFormed 4 (sumLoop n) where
  ssa := by simp [sumLoop, Stmt.id]
  id := by simp [sumLoop, Stmt.id, Stmt.args]
  test := by simp [sumLoop]

/-- The error of one addition and of the change of its operands. -/
def growth (inn : Nat) (η : ℚ) : ℚ := (1 + η) * (1 + inn * η)

def partialSum (x : Nat → ℚ) (k : Nat) : ℚ := ((List.range k).map x).sum

theorem partialSum_succ (x : Nat → ℚ) (k : Nat) : partialSum x (k + 1) = partialSum x k + x k := by
  simp [partialSum, List.range_succ]

theorem partialSum_mono (x : Nat → ℚ) (n : Nat) (pos : ∀ i < n, 0 < x i) (j : Nat) :
    j ≤ n → 0 ≤ partialSum x j ∧ ∀ i ≤ j, partialSum x i ≤ partialSum x j := by
  induction j with
  | zero => intro _; exact ⟨by simp [partialSum], fun i hi => by rw [Nat.le_zero.1 hi]⟩
  | succ j ih =>
    intro hj
    obtain ⟨i1, i2⟩ := ih (by omega)
    have := pos j (by omega)
    rw [partialSum_succ]
    refine ⟨by linarith, fun i hi => ?_⟩
    rcases Nat.lt_or_ge i (j + 1) with h | h
    · linarith [i2 i (by omega)]
    · rw [show i = j + 1 by omega, partialSum_succ]

/-- One turn of the loop in the analysis. -/
theorem sumLoop_turn (p : Wrapper.Prec) (inn : Nat) (η : ℚ) (h0 : 0 ≤ η) (I R : Range) (n k : Nat) (x : Nat → ℚ) (s : Abs (ℚ × ℚ) Nat)
    (hk : s.ctl = k) (hx : s.cell (k + 1) = some (x k, 0)) (e : ℚ) (h1 : s.cell 0 = some (partialSum x k, e)) (he : 0 ≤ e)
    (he2 : partialSum x k + e ≤ growth inn η ^ k * partialSum x k) (hS : 0 ≤ partialSum x k) (hp : 0 < x k)
    (hq : growth inn η ^ (k + 1) ≤ 3 / 2) (hlow : (2 : ℚ) ^ (R.low + 1) ≤ x k) (hhigh : partialSum x (k + 1) < 2 ^ (R.high - 1)) :
    ∃ (s' : Abs (ℚ × ℚ) Nat) (e' : ℚ), evalRun (errDom p inn η I R) (sumLoop n) 1 (s, some 0) = some (s', if k + 1 < n then some 0 else none) ∧
      s'.ctl = k + 1 ∧ (∀ i, i ≠ 0 → s'.cell i = s.cell i) ∧ s'.cell 0 = some (partialSum x (k + 1), e') ∧ 0 ≤ e' ∧
      partialSum x (k + 1) + e' ≤ growth inn η ^ (k + 1) * partialSum x (k + 1) := by
  have hη : 0 ≤ inn * η := mul_nonneg (Nat.cast_nonneg _) h0
  have ps := partialSum_succ x k
  set S := partialSum x k with hSdef
  set Z := partialSum x (k + 1) with hZdef
  have hZ : 0 < Z := by linarith
  set e1 := e + inn * η * (|S| + e) with he1
  set e2 := (0 : ℚ) + inn * η * (|x k| + 0) with he2d
  set ez := e1 + e2 with hez
  set e' := ez + η * (|S + x k| + ez) with he'
  have q1 : 1 ≤ growth inn η := by unfold growth; nlinarith
  have qk : 1 ≤ growth inn η ^ k := one_le_pow₀ q1
  have p1 : 0 ≤ e1 := by positivity
  have p2 : 0 ≤ e2 := by positivity
  have pz : 0 ≤ ez := by positivity
  have p3 : 0 ≤ e' := by positivity
  have hb : Z + e' ≤ growth inn η ^ (k + 1) * Z := by
    have c1 : S + e1 ≤ (1 + inn * η) * (growth inn η ^ k * S) := by
      rw [he1, abs_of_nonneg hS]
      have := mul_le_mul_of_nonneg_left he2 (show (0 : ℚ) ≤ 1 + inn * η by linarith)
      linarith
    have c2 : x k + e2 ≤ (1 + inn * η) * (growth inn η ^ k * x k) := by
      rw [he2d, abs_of_pos hp]
      have := mul_le_mul_of_nonneg_left (show x k ≤ growth inn η ^ k * x k from le_mul_of_one_le_left hp.le qk) (show (0 : ℚ) ≤ 1 + inn * η by linarith)
      linarith
    have c3 : Z + ez ≤ (1 + inn * η) * (growth inn η ^ k * Z) := by
      rw [ps, hez]
      linarith
    have c4 : Z + e' = (1 + η) * (Z + ez) := by
      rw [he', ← ps, abs_of_pos hZ]
      ring
    rw [c4, pow_succ, growth, ← growth]
    have := mul_le_mul_of_nonneg_left c3 (show (0 : ℚ) ≤ 1 + η by linarith)
    calc (1 + η) * (Z + ez) ≤ (1 + η) * ((1 + inn * η) * (growth inn η ^ k * Z)) := this
      _ = _ := by rw [growth]; ring
  have hb2 : Z + e' ≤ 3 / 2 * Z := le_trans hb (mul_le_mul_of_nonneg_right hq hZ.le)
  have hop : (errDom p inn η I R).op .add (S, e) (x k, 0) = some (Z, e') := by
    unfold errDom
    dsimp only
    rw [if_neg (by simp), if_neg, if_pos]
    · rw [ps]; rfl
    · show 2 ^ R.low ≤ |S + x k| - e' ∧ |S + x k| + e' < 2 ^ R.high
      rw [← ps, abs_of_pos hZ]
      rw [zpow_add_one₀ (by norm_num)] at hlow
      rw [zpow_sub_one₀ (by norm_num)] at hhigh
      constructor <;> linarith
    · rintro ⟨h, -⟩
      have : S + x k = 0 := h
      linarith
  have hs : evalBody (errDom p inn η I R) [.load 0 fun _ => 0, .load 1 fun k => k + 1, .arith 2 .add 0 1, .store 3 2 fun _ => 0] s = some
      { reg := fun i => if i = 3 then none else (((s.set 0 (S, e)).set 1 (x k, 0)).set 2 (Z, e')).reg i
        flag := fun i => if i = 3 then none else (((s.set 0 (S, e)).set 1 (x k, 0)).set 2 (Z, e')).flag i
        cell := fun i => if i = 0 then some (Z, e') else s.cell i
        ctl := s.ctl } := by
    have r0 : ((s.set 0 (S, e)).set 1 (x k, 0)).reg 0 = some (S, e) := by simp [Abs.set]
    have r1 : ((s.set 0 (S, e)).set 1 (x k, 0)).reg 1 = some (x k, 0) := by simp [Abs.set]
    have r2 : (((s.set 0 (S, e)).set 1 (x k, 0)).set 2 (Z, e')).reg 2 = some (Z, e') := by simp [Abs.set]
    simp only [evalBody, Stmt.eval, h1, Option.map_some, Option.bind_some, show (s.set 0 (S, e)).cell ((s.set 0 (S, e)).ctl + 1) = some (x k, 0) by
      rw [← hx, ← hk]; rfl, r0, r1, hop, r2]
    rfl
  refine ⟨{ reg := fun i => if i = 3 then none else (((s.set 0 (S, e)).set 1 (x k, 0)).set 2 (Z, e')).reg i
            flag := fun i => if i = 3 then none else (((s.set 0 (S, e)).set 1 (x k, 0)).set 2 (Z, e')).flag i
            cell := fun i => if i = 0 then some (Z, e') else s.cell i
            ctl := k + 1 }, e', ?_, ?_⟩
  · rw [evalRun]
    show ((Part.eval (errDom p inn η I R) { body := _, test := none, next := fun k _ => (k + 1, if k + 1 < n then some 0 else none) } s).bind _) = _
    unfold Part.eval
    rw [hs, hk]
    rfl
  · exact ⟨rfl, fun i hi => if_neg hi, rfl, p3, hb⟩

theorem evalRun_none {α : Type} (D : Dom α) (prog : List (Part K)) (n : Nat) (s : Abs α K) : evalRun D prog n (s, none) = some (s, none) := by
  cases n <;> rfl

theorem evalRun_add {α : Type} (D : Dom α) (prog : List (Part K)) (a b : Nat) (c : Abs α K × Option Nat) :
    evalRun D prog (a + b) c = (evalRun D prog a c).bind (evalRun D prog b) := by
  induction a generalizing c with
  | zero => rw [Nat.zero_add]; rfl
  | succ a ih =>
    obtain ⟨s, cur⟩ := c
    rw [show a + 1 + b = a + b + 1 by omega, evalRun, evalRun]
    cases cur.bind fun b => prog[b]? with
    | none => exact (evalRun_none D prog b s).symm
    | some q =>
      dsimp only
      cases q.eval D s with
      | none => rfl
      | some c => exact ih c

/-- The analysis of `k` turns of the loop. -/
theorem sumLoop_analysis (p : Wrapper.Prec) (inn : Nat) (η : ℚ) (h0 : 0 ≤ η) (I R : Range) (n : Nat) (x : Nat → ℚ) (cell : Nat → Option (ℚ × ℚ))
    (hz : cell 0 = some (0, 0)) (hx : ∀ i < n, cell (i + 1) = some (x i, 0)) (hlow : ∀ i < n, (2 : ℚ) ^ (R.low + 1) ≤ x i)
    (hhigh : partialSum x n < 2 ^ (R.high - 1)) (hq : growth inn η ^ n ≤ 3 / 2) (k : Nat) (hk : k ≤ n) :
    ∃ (s : Abs (ℚ × ℚ) Nat) (e : ℚ), evalRun (errDom p inn η I R) (sumLoop n) k (start cell 0, some 0) = some (s, if k = 0 ∨ k < n then some 0 else none) ∧
      s.ctl = k ∧ (∀ i, i ≠ 0 → s.cell i = cell i) ∧ s.cell 0 = some (partialSum x k, e) ∧ 0 ≤ e ∧ 0 ≤ partialSum x k ∧
      partialSum x k + e ≤ growth inn η ^ k * partialSum x k := by
  have pos : ∀ i < n, 0 < x i := fun i hi => lt_of_lt_of_le (zpow_pos (by norm_num) _) (hlow i hi)
  have mono := partialSum_mono x n pos
  have q1 : 1 ≤ growth inn η := by
    have := mul_nonneg (Nat.cast_nonneg (α := ℚ) inn) h0
    unfold growth
    nlinarith
  induction k with
  | zero => exact ⟨start cell 0, 0, rfl, rfl, fun _ _ => rfl, hz, le_rfl, by simp [partialSum], by simp [partialSum]⟩
  | succ k ih =>
    obtain ⟨s, e, e1, e2, e3, e4, e5, e6, e7⟩ := ih (by omega)
    obtain ⟨s', e', f1, f2, f3, f4, f5, f6⟩ := sumLoop_turn p inn η h0 I R n k x s e2 (by rw [e3 _ (by omega), hx k (by omega)]) e e4 e5 e7 e6
      (pos k (by omega)) (le_trans (pow_le_pow_right₀ q1 hk) hq) (hlow k (by omega)) (lt_of_le_of_lt ((mono n le_rfl).2 _ hk) hhigh)
    refine ⟨s', e', ?_, f2, fun i hi => by rw [f3 i hi, e3 i hi], f4, f5, (mono (k + 1) hk).1, f6⟩
    rw [evalRun_add, e1, Option.bind_some, if_pos (by omega), f1]
    congr 2
    simp

/-- **C100** The sum of an array of any length: what is left in the memory is within `growth ^ n - 1` of the sum, relatively. -/
theorem C100_sum_partial (p : Wrapper.Prec) (inn : Nat) (η : ℚ) (h0 : 0 ≤ η) (I R : Range) (hIR : I.low ≤ R.low ∧ R.high ≤ I.high)
    (fl : Flags) (hfc : fl.fcmp = false) (op1 : Wrapper.OpId → List (BitVec 64) → BitVec 64) (hcmp : Compares p op1)
    (rest : Instr → Nat → List Nat → Nat) (bs : List (Wrapper.Backend σ κ)) (ctx : Nat → κ) (hm : Meets fl (SignedContract p inn η I R) bs ctx)
    (n : Nat) (hn : 0 < n) (order : List Nat) (hp : order.Perm (workList fl (compile (σ := σ) p 4 (sumLoop n))))
    (X : Nat → Bits) (hX : ∀ i < n, (X i).WF (fmtOf p) ∧ (X i).Fin (fmtOf p) ∧ (2 : ℚ) ^ (R.low + 1) ≤ (X i).val (fmtOf p))
    (hhigh : partialSum (fun i => (X i).val (fmtOf p)) n < 2 ^ (R.high - 1)) (hq : growth inn η ^ n ≤ 3 / 2)
    (m : Nat → Nat) (hm0 : m 0 = 0) (hmX : ∀ i < n, m (i + 1) = word (fmtOf p) (X i)) (t : σ) (F : Func (Mem Nat × σ))
    (hF : replaceAll (pair p) fl (compile p 4 (sumLoop n)) order = .ok F) :
    let r := run (exec (linked op1 rest bs ctx)) F n (enter 0 (fun _ => 0) ((m, 0), t), some 0)
    r.2 = none ∧ r.1.mem.1.2 = n ∧ ∃ y : Bits, r.1.mem.1.1 0 = word (fmtOf p) y ∧ y.Fin (fmtOf p) ∧
      |y.val (fmtOf p) - partialSum (fun i => (X i).val (fmtOf p)) n| ≤ (growth inn η ^ n - 1) * partialSum (fun i => (X i).val (fmtOf p)) n := by
  intro r
  set x : Nat → ℚ := fun i => (X i).val (fmtOf p) with hxdef
  set cell : Nat → Option (ℚ × ℚ) := fun i => if i = 0 then some (0, 0) else if i ≤ n then some (x (i - 1), 0) else none with hcell
  obtain ⟨s, e, e1, e2, -, e4, e5, e6, e7⟩ := sumLoop_analysis p inn η h0 I R n x cell (by simp [hcell])
    (fun i hi => by simp [hcell]; omega) (fun i hi => (hX i hi).2.2) hhigh hq n le_rfl
  have hup : ∀ i < n, x i < 2 ^ R.high := by
    intro i hi
    have pos : ∀ i < n, 0 < x i := fun i hi => lt_of_lt_of_le (zpow_pos (by norm_num) _) (hX i hi).2.2
    have h1 := (partialSum_mono x n pos n le_rfl).2 (i + 1) hi
    have h2 := (partialSum_mono x n pos i (by omega)).1
    rw [partialSum_succ] at h1
    have h3 : (2 : ℚ) ^ (R.high - 1) ≤ 2 ^ R.high := zpow_le_zpow_right₀ (by norm_num) (by omega)
    linarith
  obtain ⟨G, hG, -, a1, a2, a3⟩ := C100_loops_partial p inn η h0 I R hIR fl hfc op1 hcmp rest bs ctx hm 4 (sumLoop n) (sumLoop_wf n) order hp
    cell 0 n s _ e1 m (by
      intro i v hv
      simp only [hcell] at hv
      split_ifs at hv with h1 h2
      · obtain rfl := Option.some.inj hv
        refine ⟨⟨false, 0, 0⟩, ⟨⟨by positivity, by positivity⟩, ?_, Or.inl ?_, ?_⟩, ?_⟩
        · cases p <;> decide
        · simp [Bits.val, Bits.sig]
        · simp [Bits.val, Bits.sig]
        · rw [h1, hm0]; simp [word, Bits.pat]
      · obtain rfl := Option.some.inj hv
        obtain ⟨x1, x2, x3⟩ := hX (i - 1) (by omega)
        refine ⟨X (i - 1), ⟨x1, x2, Or.inr ⟨?_, ?_⟩, ?_⟩, ?_⟩
        · rw [abs_of_pos (lt_of_lt_of_le (zpow_pos (by norm_num) _) x3)]
          exact le_trans (zpow_le_zpow_right₀ (by norm_num) (by omega)) x3
        · rw [abs_of_pos (lt_of_lt_of_le (zpow_pos (by norm_num) _) x3)]
          exact lt_of_lt_of_le (hup _ (by omega)) (zpow_le_zpow_right₀ (by norm_num) hIR.2)
        · simp [hxdef]
        · rw [← hmX (i - 1) (by omega)]
          congr 1
          omega) t
  obtain rfl := Outcome.ok.inj (hG.symm.trans hF)
  obtain ⟨y, y1, y2⟩ := a3 0 _ e4
  refine ⟨a1.trans (if_neg (by omega)), a2.trans e2, y, y2, y1.2.1, le_trans y1.2.2.2 ?_⟩
  dsimp only
  linarith

/-! ## An iteration that stops -/

/-- The machine that compares numbers. -/
def comparing : Wrapper.OpId → List (BitVec 64) → BitVec 64
  | .cmp p, x => if x.head? = some (BitVec.ofNat 64 4) ∧ (operand (fmtOf p) x 1).val (fmtOf p) < (operand (fmtOf p) x 2).val (fmtOf p) then 1 else 0
  | o, x => ieee o x

theorem comparing_compares (p : Wrapper.Prec) : Compares p comparing := by
  intro A B wA wB _ _
  have oA : operand (fmtOf p) [BitVec.ofNat 64 4, image (fmtOf p) A, image (fmtOf p) B] 1 = A :=
    operand_word p A wA _ 1 (by rw [← bits_scalarOf, lane_image p A wA]; rfl)
  have oB : operand (fmtOf p) [BitVec.ofNat 64 4, image (fmtOf p) A, image (fmtOf p) B] 2 = B :=
    operand_word p B wB _ 2 (by rw [← bits_scalarOf, lane_image p B wB]; rfl)
  show (if _ then (1 : BitVec 64) else 0) = _
  rw [oA, oB]
  simp

/-- A hundred times 1.5, with the IEEE backend, within `2^-38`. -/
example (count : Ieee.Op → σ → σ) (bs : List (Wrapper.Backend σ κ)) (ctx : Nat → κ) (rest : Instr → Nat → List Nat → Nat) (t : σ) (F : Func (Mem Nat × σ))
    (hF : replaceAll (pair .double) ⟨false, false, false⟩ (compile .double 4 (sumLoop 100)) [2] = .ok F) :
    let r := run (exec (linked comparing rest (bs ++ [ieeeBackend count]) ctx)) F 100
      (enter 0 (fun _ => 0) ((fun i => if i = 0 then 0 else word b64 ⟨false, 1023, 2 ^ 51⟩, 0), t), some 0)
    r.2 = none ∧ ∃ y : Bits, r.1.mem.1.1 0 = word b64 y ∧ y.Fin b64 ∧ |y.val b64 - 150| ≤ 1 / 2 ^ 38 := by
  intro r
  have v : Bits.val b64 ⟨false, 1023, 2 ^ 51⟩ = 3 / 2 := by norm_num [Bits.val, Bits.sig, Bits.lsb, sgn, b64, Fmt.bias]
  have hs : partialSum (fun _ => Bits.val (fmtOf .double) ⟨false, 1023, 2 ^ 51⟩) 100 = 150 := by
    show partialSum (fun _ => Bits.val b64 ⟨false, 1023, 2 ^ 51⟩) 100 = 150
    rw [v]
    decide +kernel
  have hg : growth 0 (chain (fmtOf .double) 0) ^ 100 ≤ 1 + 1 / 2 ^ 46 := by decide +kernel
  obtain ⟨a1, -, y, a2, a3, a4⟩ := C100_sum_partial .double 0 (chain (fmtOf .double) 0) (by norm_num [chain, fmtOf, b64]) (finite b64) (normal b64)
    (by decide) ⟨false, false, false⟩ rfl comparing (comparing_compares .double) rest _ ctx (C98_ieee_partial .double count ⟨false, false, false⟩ rfl bs ctx)
    100 (by norm_num) [2] (show List.Perm _ [2] from List.Perm.refl _) (fun _ => ⟨false, 1023, 2 ^ 51⟩)
    (fun i _ => ⟨by decide, by decide, by show _ ≤ Bits.val b64 _; rw [v]; decide +kernel⟩) (by rw [hs]; decide +kernel) (by linarith)
    (fun i => if i = 0 then 0 else word b64 ⟨false, 1023, 2 ^ 51⟩) rfl (fun i _ => rfl) t F hF
  rw [hs] at a4
  refine ⟨a1, y, a2, a3, le_trans a4 ?_⟩
  linarith

/-- Newton's iteration for the root of 2: `do { x = (x + 2 / x) * 0.5; } while (!(x * x - 2 < 2^-6));`, from 1. -/
def newton : List (Part Nat) :=
  [{ body := [.const 0 ⟨false, 1023, 0⟩, .store 1 0 fun _ => 0]
     test := none
     next := fun k _ => (k, some 1) },
   { body := [.load 2 fun _ => 0, .const 3 ⟨false, 1024, 0⟩, .arith 4 .div 3 2, .arith 5 .add 2 4, .const 6 ⟨false, 1022, 0⟩, .arith 7 .mul 5 6,
              .store 8 7 fun _ => 0, .arith 9 .mul 7 7, .arith 10 .sub 9 3, .const 11 ⟨false, 1017, 0⟩, .less 12 10 11]
     test := some 12
     next := fun k b => (k + 1, if b then none else some 1) }]

theorem newton_wf : WellFormed 13 newton where
  ssa := by simp [newton, Stmt.id]
  id := by simp [newton, Stmt.id, Stmt.args]
  test := by simp [newton]

/-- The analysis, with an error of `2^-22` in operands and results. -/
theorem newton_analysis : ((evalRun (errDom .double 1 (1 / 2 ^ 22) (ordinary b64) (ordinary b64)) newton 3 (start (fun _ => none) 0, some 0)).any fun r =>
    r.2 == none && r.1.ctl == 2 && (r.1.cell 0).any fun v => v.1 == 17 / 12 && decide (v.2 ≤ 1 / 2 ^ 17)) = true := by
  decide +kernel

/-- A contract allows larger errors and smaller ranges. -/
theorem signed_mono (p : Wrapper.Prec) {inn inn' : Nat} (hi : inn ≤ inn') {η η' : ℚ} (h0 : 0 ≤ η) (h : η ≤ η') {I I' R R' : Range}
    (hI : I.low ≤ I'.low ∧ I'.high ≤ I.high) (hR : R.low ≤ R'.low ∧ R'.high ≤ R.high) (o : Wrapper.OpId) (x : List (BitVec 64)) (y : Bits)
    (hc : SignedContract p inn η I R o x y) : SignedContract p inn' η' I' R' o x y := by
  have ok : ∀ {S S' : Range}, S.low ≤ S'.low ∧ S'.high ≤ S.high → ∀ {z : ℚ}, S'.Ok z → S.Ok z := by
    rintro S S' hS z (hz | hz)
    · exact Or.inl hz
    · exact Or.inr ⟨le_trans (zpow_le_zpow_right₀ (by norm_num) hS.1) hz.1, lt_of_lt_of_le hz.2 (zpow_le_zpow_right₀ (by norm_num) hS.2)⟩
  rcases o with ⟨a, q⟩ | q | q | _
  · rintro rfl fA fB iA iB
    obtain ⟨A', B', eA, eB, c⟩ := hc rfl fA fB (ok hI iA) (ok hI iB)
    have hin : (inn : ℚ) * η ≤ inn' * η' := mul_le_mul (by exact_mod_cast hi) h h0 (Nat.cast_nonneg _)
    refine ⟨A', B', le_trans eA (mul_le_mul_of_nonneg_right hin (abs_nonneg _)), le_trans eB (mul_le_mul_of_nonneg_right hin (abs_nonneg _)),
      fun h1 h2 => ?_⟩
    obtain ⟨fy, ey⟩ := c h1 (ok hR h2)
    exact ⟨fy, le_trans ey (mul_le_mul_of_nonneg_right h (abs_nonneg _))⟩
  · trivial
  · rintro rfl fA fB fC iA iB iC
    obtain ⟨A', B', C', eA, eB, eC, c⟩ := hc rfl fA fB fC (ok hI iA) (ok hI iB) (ok hI iC)
    have hin : (inn : ℚ) * η ≤ inn' * η' := mul_le_mul (by exact_mod_cast hi) h h0 (Nat.cast_nonneg _)
    refine ⟨A', B', C', le_trans eA (mul_le_mul_of_nonneg_right hin (abs_nonneg _)), le_trans eB (mul_le_mul_of_nonneg_right hin (abs_nonneg _)),
      le_trans eC (mul_le_mul_of_nonneg_right hin (abs_nonneg _)), fun h2 => ?_⟩
    obtain ⟨fy, ey⟩ := c (ok hR h2)
    exact ⟨fy, le_trans ey (mul_le_mul_of_nonneg_right h (abs_nonneg _))⟩
  · trivial

/-- The iteration, with any backends whose operations have an error of `2^-22` at most: it stops after two turns, near 17/12. -/
theorem newton_any (bs : List (Wrapper.Backend σ κ)) (ctx : Nat → κ) (rest : Instr → Nat → List Nat → Nat)
    (hm : Meets ⟨false, false, false⟩ (SignedContract .double 1 (1 / 2 ^ 22) (ordinary b64) (ordinary b64)) bs ctx) (m : Nat → Nat) (t : σ) :
    ∃ F', replaceAll (pair .double) ⟨false, false, false⟩ (compile .double 13 newton) [10, 9, 7, 5, 4] = .ok F' ∧
      let r := run (exec (linked comparing rest bs ctx)) F' 3 (enter 0 (fun _ => 0) ((m, 0), t), some 0)
      r.2 = none ∧ r.1.mem.1.2 = 2 ∧ ∃ y : Bits, r.1.mem.1.1 0 = word b64 y ∧ y.Fin b64 ∧ |y.val b64 - 17 / 12| ≤ 1 / 2 ^ 17 := by
  obtain ⟨⟨s, cur⟩, h1, h2⟩ := (Option.any_eq_true _ _).1 newton_analysis
  simp only [Bool.and_eq_true, beq_iff_eq] at h2
  obtain ⟨⟨rfl, h3⟩, h4⟩ := h2
  obtain ⟨⟨v, e⟩, h5, h6⟩ := (Option.any_eq_true _ _).1 h4
  simp only [Bool.and_eq_true, beq_iff_eq, decide_eq_true_eq] at h6
  obtain ⟨rfl, h6⟩ := h6
  obtain ⟨F', hF, -, a1, a2, a3⟩ := C100_loops_partial .double 1 (1 / 2 ^ 22) (by norm_num) (ordinary b64) (ordinary b64) ⟨le_rfl, le_rfl⟩
    ⟨false, false, false⟩ rfl comparing (comparing_compares .double) rest bs ctx hm 13 newton newton_wf [10, 9, 7, 5, 4]
    (show List.Perm _ [4, 5, 7, 9, 10] by decide) (fun _ => none) 0 3 s none h1
    m (fun _ _ h => by cases h) t
  obtain ⟨y, y1, y2⟩ := a3 0 _ h5
  exact ⟨F', hF, a1, a2.trans h3, y, y2, y1.2.1, le_trans y1.2.2.2 h6⟩

/-- Integer MCA at precision 24 in any mode. -/
example (g : Mca.Gen σ) (mode : Mca.Mode) (bs : List (Wrapper.Backend σ κ)) (ctx : Nat → κ) :
    Meets ⟨false, false, false⟩ (SignedContract .double 1 (1 / 2 ^ 22) (ordinary b64) (ordinary b64))
      (bs ++ [mcaIntBackend .wrap g { Mca.init with mode := mode, prec64 := 24 }]) ctx := by
  refine (C96_int_relative_partial g { Mca.init with mode := mode, prec64 := 24 } rfl rfl (fun _ => 24)
      (fun T => by cases T <;> rfl) (fun T => by cases T <;> decide) ⟨false, false, false⟩ rfl bs ctx).mono fun o x y h => ?_
  refine signed_mono .double (by unfold inbound; split_ifs <;> omega) ?_ ?_ ⟨le_rfl, le_rfl⟩ ⟨le_rfl, le_rfl⟩ o x y
    (rel_signed mode _ .double (zpow_pos (by norm_num) _).le (ordinary b64) o x y h)
  · norm_num [opError, mcaTy, Mca.Ty.wide, Mca.Ty.fmt, b64, b128]
  · norm_num [opError, mcaTy, Mca.Ty.wide, Mca.Ty.fmt, b64, b128]

/-- VPREC at precision 30 in any mode. -/
example (mode : Vprec.Config.Mode) (bs : List (Wrapper.Backend σ κ)) (ctx : Nat → κ) :
    Meets ⟨false, false, false⟩ (SignedContract .double 1 (1 / 2 ^ 22) (ordinary b64) (ordinary b64))
      (bs ++ [vprecBackend .wrap { Vprec.Config.init with mode := mode, prec64 := 30 }]) ctx := by
  refine (C98_vprec_partial .double .wrap { Vprec.Config.init with mode := mode, prec64 := 30 } ⟨by cases mode <;> decide, by cases mode <;> decide, by cases mode <;> decide, by cases mode <;> decide⟩
    rfl (Or.inl rfl)
    ⟨false, false, false⟩ rfl rfl bs ctx).mono
    (signed_mono .double (by split_ifs <;> omega) ?_ ?_ ?_ ?_)
  · norm_num [chain, fmtOf, b64, vprecSize]
  · norm_num [chain, fmtOf, b64, vprecSize]
  · cases mode <;> decide
  · cases mode <;> decide

end Verif.Pass
