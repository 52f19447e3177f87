import Verif.Pass.MeanSquare
import Verif.Pass.ExprProps

/-!
# Property C114 for compiled functions

A function that computes an expression of its parameters, compiled with Verificarlo and run with the integer backend in rr mode:
the mean of what it returns is the exact value.
-/

namespace Verif.Pass.Mean
open Verif Verif.Fp Verif.Mca Verif.Pass

variable {σ κ : Type}

/-- An expression of the parameters of a function. -/
inductive Term where
  | par (i : Nat)
  | op (o : Wrapper.Arith) (a b : Term)

namespace Term

/-- The expression for given parameters. -/
def expr (X : Nat → Bits) : Term → Expr
  | par i => .num (X i)
  | op o a b => .op o (a.expr X) (b.expr X)

/-- The operations, the first of which defines the name `n`, and the name of the result. -/
def nodes : Term → Nat → List Node × Nat
  | par i, _ => ([], i)
  | op o a b, n =>
    let la := a.nodes n
    let lb := b.nodes (n + la.1.length)
    (la.1 ++ lb.1 ++ [⟨o, la.2, lb.2⟩], n + la.1.length + lb.1.length)

/-- The parameters are among the first `k` names. -/
def Params (k : Nat) : Term → Prop
  | par i => i < k
  | op _ a b => a.Params k ∧ b.Params k

end Term

/-- The function: it returns its result through the memory. -/
def function (p : Wrapper.Prec) (k : Nat) (t : Term) : Func (Nat × σ) := straight p k (t.nodes k).1 (t.nodes k).2

theorem code_append {P : Type} (p : Wrapper.Prec) (l l' : List Node) (n : Nat) :
    code (P := P) p (l ++ l') n = code p l n ++ code p l' (n + l.length) := by
  induction l generalizing n with
  | nil => rfl
  | cons d l ih =>
    rw [List.cons_append, code, code, List.cons_append, ih, List.length_cons]
    congr 3
    omega

theorem ordered_append (l l' : List Node) (n : Nat) (h : Ordered l n) (h' : Ordered l' (n + l.length)) : Ordered (l ++ l') n := by
  induction l generalizing n with
  | nil => exact h'
  | cons d l ih =>
    rw [List.length_cons] at h'
    exact ⟨h.1, h.2.1, ih (n + 1) h.2.2 (by rw [show n + 1 + l.length = n + (l.length + 1) by omega]; exact h')⟩

theorem nodes_ordered (k : Nat) (t : Term) (h : t.Params k) : ∀ n, k ≤ n → Ordered (t.nodes n).1 n ∧ (t.nodes n).2 < n + (t.nodes n).1.length := by
  induction t with
  | par i =>
    intro n hn
    exact ⟨trivial, show i < n + 0 by have : i < k := h; omega⟩
  | op o a b iha ihb =>
    intro n hn
    obtain ⟨a1, a2⟩ := iha h.1 n hn
    obtain ⟨b1, b2⟩ := ihb h.2 (n + (a.nodes n).1.length) (by omega)
    simp only [Term.nodes, List.length_append, List.length_singleton]
    refine ⟨ordered_append _ _ _ (ordered_append _ _ _ a1 b1) ⟨?_, ?_, trivial⟩, by omega⟩
    · show (a.nodes n).2 < _
      rw [List.length_append]
      omega
    · show (b.nodes (n + (a.nodes n).1.length)).2 < _
      rw [List.length_append]
      omega

/-! ## One instruction -/

theorem wrapper_arith (p : Wrapper.Prec) (o : Wrapper.Arith) :
    ∃ w ∈ wrappers, kind (opcode o) = some w.op ∧ some (w.ty, w.width) = (Ty.scalar (scalarOf p)).shape := by
  cases p <;> cases o <;> decide +kernel

theorem source_node (sem : ShiftSem) (g : Gen σ) (c : Mca.Ctx) (op1 : Wrapper.OpId → List (BitVec 64) → BitVec 64)
    (rest : Instr → Nat → List Nat → Nat) (ctx : Nat → κ) (fl : Flags) (p : Wrapper.Prec) (o : Wrapper.Arith) (x y r : Bits)
    (hx : x.WF (fmtOf p)) (hy : y.WF (fmtOf p)) (hr : r.WF (fmtOf p)) (m : Nat) (s s' : σ)
    (h : opInt sem g (mcaTy p) c o s x y = .ok (r, s')) :
    source fl (linked op1 rest [mcaIntBackend sem g c] ctx) ⟨opcode o, .scalar (scalarOf p), .scalar (scalarOf p)⟩ 0
      [word (fmtOf p) x, word (fmtOf p) y] (m, s) = (word (fmtOf p) r, (m, s')) := by
  obtain ⟨w, hw, hk, hs⟩ := wrapper_arith p o
  have hask : Asked fl ⟨opcode o, .scalar (scalarOf p), .scalar (scalarOf p)⟩ := by cases o <;> trivial
  have hsup : Supported (.scalar (scalarOf p)) := by cases p <;> simp [Supported, scalarOf]
  have hty : w.ty = scalarOf p ∧ max 1 w.width = 1 := by
    have := Option.some.inj hs
    have h1 := congrArg Prod.fst this
    have h2 := congrArg Prod.snd this
    exact ⟨h1, by rw [show w.width = _ from h2]; rfl⟩
  unfold source
  rw [if_pos ⟨hask, hsup⟩, wrapperFor_eq _ w hw hk hs]
  dsimp only
  rw [if_neg (by cases o <;> simp [opcode])]
  obtain ⟨o', eo, e1, e2, e3⟩ := C89_lanes [mcaIntBackend sem g c] ctx w hw none [word (fmtOf p) x, word (fmtOf p) y] m s
  rw [hty.1, meaning_opcode p o w.op hk] at eo
  obtain rfl := Option.some.inj eo
  have hout : outBits (.arith o p) = (fmtOf p).width := by cases p <;> rfl
  rw [hty.2, hout, Nat.mul_one] at e2
  have e4 := e3 0 (by rw [hty.2]; omega)
  rw [hty.1, bits_scalarOf] at e1 e4
  rw [hty.2] at e1
  have hsc : scalarWrapper [mcaIntBackend sem g c] ctx (.arith o p)
      (laneArgs (fmtOf p).width none [word (fmtOf p) x, word (fmtOf p) y] 0) s = (image (fmtOf p) r, s') := by
    have ox := operand_word p x hx (laneArgs (fmtOf p).width none [word (fmtOf p) x, word (fmtOf p) y] 0) 0 rfl
    have oy := operand_word p y hy (laneArgs (fmtOf p).width none [word (fmtOf p) x, word (fmtOf p) y] 0) 1 rfl
    rw [fmtOf_eq] at ox oy ⊢
    have : Wrapper.scalar [mcaIntBackend sem g c] ctx (.arith o p)
        (laneArgs (mcaTy p).fmt.width none [word (mcaTy p).fmt x, word (mcaTy p).fmt y] 0) s =
        store (mcaTy p).fmt (some (Wrapper.nan p)) s (opInt sem g (mcaTy p) c o s
          (operand (mcaTy p).fmt (laneArgs (mcaTy p).fmt.width none [word (mcaTy p).fmt x, word (mcaTy p).fmt y] 0) 0)
          (operand (mcaTy p).fmt (laneArgs (mcaTy p).fmt.width none [word (mcaTy p).fmt x, word (mcaTy p).fmt y] 0) 1)) := rfl
    unfold scalarWrapper
    rw [this, ox, oy, h]
    rfl
  have e5 : wrapperFn [mcaIntBackend sem g c] ctx w.name none [word (fmtOf p) x, word (fmtOf p) y] (m, s) = (word (fmtOf p) r, (m, s')) := by
    refine Prod.ext ?_ ?_
    · apply word_of_lane p _ e2 r hr
      rw [hout] at e4
      rw [e4]
      show BitVec.ofNat 64 ((scalarWrapper [mcaIntBackend sem g c] ctx (.arith o p)
        (laneArgs (fmtOf p).width none [word (fmtOf p) x, word (fmtOf p) y] 0) s).1.toNat % 2 ^ (fmtOf p).width) = _
      rw [hsc, Nat.mod_eq_of_lt (image_lt _ (width_small p) r hr), BitVec.ofNat_toNat, BitVec.setWidth_eq]
    · rw [e1]
      show (m, (scalarWrapper [mcaIntBackend sem g c] ctx (.arith o p)
        (laneArgs (fmtOf p).width none [word (fmtOf p) x, word (fmtOf p) y] 0) s).2) = _
      rw [hsc]
  exact e5

/-! ## The function -/

theorem source_term (sem : ShiftSem) (g : Gen σ) (c : Mca.Ctx) (op1 : Wrapper.OpId → List (BitVec 64) → BitVec 64)
    (rest : Instr → Nat → List Nat → Nat) (ctx : Nat → κ) (fl : Flags) (p : Wrapper.Prec) (k : Nat) (X : Nat → Bits)
    (hc : Random (mcaTy p) c) (t : Term) (ht : t.Params k) (hf : (t.expr X).Fits sem (mcaTy p) c) :
    ∀ (n : Nat) (_ : k ≤ n) (st : State (Nat × σ)) (_ : ∀ i < k, st.env i = word (fmtOf p) (X i)) (r : Bits) (s' : σ)
      (_ : (t.expr X).eval sem g (mcaTy p) c st.mem.2 = .ok (r, s')),
    ∃ st', (code p (t.nodes n).1 n).foldl (sourceExec fl (linked op1 rest [mcaIntBackend sem g c] ctx)) st = st' ∧
      st'.env (t.nodes n).2 = word (fmtOf p) r ∧ st'.mem = (st.mem.1, s') ∧ ∀ i < n, st'.env i = st.env i := by
  induction t with
  | par i =>
    intro n hn st hst r s' he
    obtain ⟨rfl, rfl⟩ := Prod.mk.inj (Outcome.ok.inj he)
    exact ⟨st, rfl, hst i ht, rfl, fun _ _ => rfl⟩
  | op o a b iha ihb =>
    intro n hn st hst r s' he
    obtain ⟨pa, ha⟩ := expr_draws sem (mcaTy p) c hc _ hf.1
    obtain ⟨pb, hb⟩ := expr_draws sem (mcaTy p) c hc _ hf.2.1
    obtain ⟨po, ho⟩ := expr_draws sem (mcaTy p) c hc _ hf
    have wr : r.WF (mcaTy p).fmt := by
      have h1 := ho.run g st.mem.2
      rw [he] at h1
      have h2 := (ho.gives _ (Draws.gives_run g po st.mem.2)).1
      rw [← Outcome.ok.inj h1] at h2
      exact h2
    have he' : ((a.expr X).eval sem g (mcaTy p) c st.mem.2 >>= fun x => (b.expr X).eval sem g (mcaTy p) c x.2 >>= fun y =>
      opInt sem g (mcaTy p) c o y.2 x.1 y.1) = .ok (r, s') := he
    obtain ⟨x, sa, ea, wa⟩ : ∃ x sa, (a.expr X).eval sem g (mcaTy p) c st.mem.2 = .ok (x, sa) ∧ x.WF (mcaTy p).fmt :=
      ⟨_, _, ha.run g _, (ha.gives _ (Draws.gives_run g pa _)).1⟩
    obtain ⟨y, sb, eb, wb⟩ : ∃ y sb, (b.expr X).eval sem g (mcaTy p) c sa = .ok (y, sb) ∧ y.WF (mcaTy p).fmt :=
      ⟨_, _, hb.run g _, (hb.gives _ (Draws.gives_run g pb _)).1⟩
    rw [ea, Outcome.bind_ok, eb, Outcome.bind_ok] at he'
    obtain ⟨-, an⟩ := nodes_ordered k a ht.1 n hn
    obtain ⟨sta, e1, v1, m1, k1⟩ := iha ht.1 hf.1 n hn st hst x sa ea
    obtain ⟨stb, e2, v2, m2, k2⟩ := ihb ht.2 hf.2.1 (n + (a.nodes n).1.length) (by omega) sta
      (fun i hi => by rw [k1 i (by omega)]; exact hst i hi) y sb (by rw [m1]; exact eb)
    have hnode := source_node sem g c op1 rest ctx fl p o x y r (fmtOf_eq p ▸ wa) (fmtOf_eq p ▸ wb) (fmtOf_eq p ▸ wr) st.mem.1 sb s' he'
    have va : stb.env (a.nodes n).2 = word (fmtOf p) x := by rw [k2 _ an, v1]
    have hm : stb.mem = (st.mem.1, sb) := by rw [m2, m1]
    refine ⟨_, rfl, ?_⟩
    simp only [Term.nodes, code_append, List.foldl_append, e1, e2, List.length_append]
    simp only [code, List.foldl_cons, List.foldl_nil, sourceExec, List.map_cons, List.map_nil, va, v2, hm, hnode]
    refine ⟨?_, trivial, fun i hi => ?_⟩
    · simp [State.set, Nat.add_assoc]
    · simp only [State.set]
      rw [if_neg (by omega), k2 i (by omega), k1 i hi]

theorem term_size (X : Nat → Bits) (t : Term) (n : Nat) : (t.nodes n).1.length = (t.expr X).size := by
  induction t generalizing n with
  | par i => rfl
  | op o a b iha ihb =>
    simp only [Term.nodes, List.length_append, List.length_singleton, iha, ihb]
    rfl

/-- The function can be compiled in any order of replacement; the compiled function returns the value of the expression. -/
theorem function_run (sem : ShiftSem) (g : Gen σ) (c : Mca.Ctx) (op1 : Wrapper.OpId → List (BitVec 64) → BitVec 64)
    (rest : Instr → Nat → List Nat → Nat) (ctx : Nat → κ) (fl : Flags) (p : Wrapper.Prec) (k : Nat) (X : Nat → Bits)
    (hc : Random (mcaTy p) c) (t : Term) (ht : t.Params k) (hf : (t.expr X).Fits sem (mcaTy p) c) (F' : Func (Nat × σ)) (order : List Nat)
    (hp : order.Perm (workList fl (function (σ := σ) p k t))) (h : replaceAll (pair p) fl (function p k t) order = .ok F')
    (m : Nat × σ) (r : Bits) (s' : σ) (he : (t.expr X).eval sem g (mcaTy p) c m.2 = .ok (r, s')) :
    (run (exec (linked op1 rest [mcaIntBackend sem g c] ctx)) F' 1 (enter k (fun i => word (fmtOf p) (X i)) m, some 0)).1.mem =
      (word (fmtOf p) r, s') := by
  obtain ⟨o1, o2⟩ := nodes_ordered k t ht k le_rfl
  have hs := straight_source (σ := σ) p fl k (t.nodes k).1 (t.nodes k).2 o1 o2
  rw [(C89_observed_partial (pair p) fl (linked op1 rest [mcaIntBackend sem g c] ctx) (function p k t) F' order hs hp h k
    (by
      intro ins h
      rw [function, straight_all] at h
      obtain ⟨d, -, j, h1, -, rfl, -⟩ := code_mem p _ k _ h
      exact h1)
    (show k ≤ k + _ by omega) (fun i => word (fmtOf p) (X i)) m 1 (some 0)).1]
  obtain ⟨st', e1, e2, e3, -⟩ := source_term sem g c op1 rest ctx fl p k X hc t ht hf k le_rfl
    (enter k (fun i => word (fmtOf p) (X i)) m) (fun i hi => if_pos hi) r s' he
  show ((((code p (t.nodes k).1 k).foldl (sourceExec fl (linked op1 rest [mcaIntBackend sem g c] ctx))
    (enter k (fun i => word (fmtOf p) (X i)) m)).env (t.nodes k).2),
    ((code p (t.nodes k).1 k).foldl (sourceExec fl (linked op1 rest [mcaIntBackend sem g c] ctx))
    (enter k (fun i => word (fmtOf p) (X i)) m)).mem.2) = _
  rw [e1, e2, e3]

/-- The function can be compiled, and what it returns is the value of the expression, for all words. -/
theorem program_val (sem : ShiftSem) (c : Mca.Ctx) (op1 : Wrapper.OpId → List (BitVec 64) → BitVec 64)
    (rest : Instr → Nat → List Nat → Nat) (ctx : Nat → κ) (fl : Flags) (p : Wrapper.Prec) (k : Nat) (X : Nat → Bits)
    (hc : Random (mcaTy p) c) (t : Term) (ht : t.Params k) (hf : (t.expr X).Fits sem (mcaTy p) c) (order : List Nat)
    (hp : order.Perm (workList fl (function (σ := List (BitVec 64)) p k t))) (m : Nat) :
    ∃ F', replaceAll (pair p) fl (function p k t) order = .ok F' ∧
      ∀ l, (ofWord (fmtOf p) (run (exec (linked op1 rest [mcaIntBackend sem listGen c] ctx)) F' 1
        (enter k (fun i => word (fmtOf p) (X i)) (m, l), some 0)).1.mem.1).val (fmtOf p) =
        resVal (mcaTy p).fmt ((t.expr X).eval sem listGen (mcaTy p) c l) := by
  have hin : ∀ id i pred args, (.fp id i pred args : Ins (Nat × List (BitVec 64))) ∈ (function p k t).all →
      ∃ r, instrument (pair p) fl i = .ok r := by
    intro id i pred args h
    rw [function, straight_all] at h
    obtain ⟨d, -, j, -, -, h3, -⟩ := code_mem p _ k _ h
    cases h3
    obtain ⟨name, e⟩ := instrument_arith p d.op fl
    exact ⟨_, e⟩
  obtain ⟨F', hF'⟩ := replaceAll_ok (pair p) fl order (function (σ := List (BitVec 64)) p k t) hin
  refine ⟨F', hF', fun l => ?_⟩
  obtain ⟨r, s', e, wr, -⟩ := (C114_partial sem (mcaTy p) c hc (t.expr X) hf _ le_rfl).2 listGen l
  rw [function_run sem listGen c op1 rest ctx fl p k X hc t ht hf F' order hp hF' (m, l) r s' e, e]
  rw [fmtOf_eq, ofWord_word _ r wr]
  rfl

/-- **C114** for programs.  A function that computes an expression of its parameters by additions, subtractions and multiplications
can be compiled with Verificarlo in any order of replacement.  Run with the integer backend in rr mode at the precision of the
type, it returns in the mean over all words the exact value of the expression, up to one last bit of the wide type for each
operation. -/
theorem C114_program_partial (sem : ShiftSem) (c : Mca.Ctx) (op1 : Wrapper.OpId → List (BitVec 64) → BitVec 64)
    (rest : Instr → Nat → List Nat → Nat) (ctx : Nat → κ) (fl : Flags) (p : Wrapper.Prec) (k : Nat) (X : Nat → Bits)
    (hc : Random (mcaTy p) c) (t : Term) (ht : t.Params k) (hf : (t.expr X).Fits sem (mcaTy p) c) (order : List Nat)
    (hp : order.Perm (workList fl (function (σ := List (BitVec 64)) p k t))) (m : Nat) (N : Nat) (hN : (t.expr X).size ≤ N) :
    ∃ F', replaceAll (pair p) fl (function p k t) order = .ok F' ∧
      |average N (fun l => (ofWord (fmtOf p) (run (exec (linked op1 rest [mcaIntBackend sem listGen c] ctx)) F' 1
          (enter k (fun i => word (fmtOf p) (X i)) (m, l), some 0)).1.mem.1).val (fmtOf p)) - (t.expr X).exact (mcaTy p)| ≤
        (t.expr X).size * 2 ^ (1 - ((mcaTy p).wide.mw : ℤ)) *
          ((1 + 2 ^ (1 - ((mcaTy p).fmt.mw : ℤ))) ^ (t.expr X).size * (t.expr X).gross (mcaTy p)) := by
  obtain ⟨F', hF', hv⟩ := program_val sem c op1 rest ctx fl p k X hc t ht hf order hp m
  refine ⟨F', hF', ?_⟩
  simp only [hv]
  exact (C114_partial sem (mcaTy p) c hc (t.expr X) hf N hN).1

/-- **C115** for programs.  The mean square of the error of the compiled function is at most the number of its operations times the
square of the error of one operation, and large errors are as rare as that asks. -/
theorem C115_program_partial (sem : ShiftSem) (c : Mca.Ctx) (op1 : Wrapper.OpId → List (BitVec 64) → BitVec 64)
    (rest : Instr → Nat → List Nat → Nat) (ctx : Nat → κ) (fl : Flags) (p : Wrapper.Prec) (k : Nat) (X : Nat → Bits)
    (hc : Random (mcaTy p) c) (t : Term) (ht : t.Params k) (hf : (t.expr X).Fits sem (mcaTy p) c) (order : List Nat)
    (hp : order.Perm (workList fl (function (σ := List (BitVec 64)) p k t))) (m : Nat)
    (hs : ((t.expr X).size : ℚ) ^ 2 * ((2 : ℚ) ^ (2 - 2 * ((mcaTy p).fmt.mw : ℤ)) + 5 * 2 ^ (1 - ((mcaTy p).wide.mw : ℤ))) ≤ 1)
    (N : Nat) (hN : (t.expr X).size ≤ N) :
    ∃ F', replaceAll (pair p) fl (function p k t) order = .ok F' ∧
      average N (fun l => ((ofWord (fmtOf p) (run (exec (linked op1 rest [mcaIntBackend sem listGen c] ctx)) F' 1
          (enter k (fun i => word (fmtOf p) (X i)) (m, l), some 0)).1.mem.1).val (fmtOf p) - (t.expr X).exact (mcaTy p)) ^ 2) ≤
        rms2 (mcaTy p) (t.expr X) ∧
      ∀ d > 0, average N (fun l => if d ≤ |(ofWord (fmtOf p) (run (exec (linked op1 rest [mcaIntBackend sem listGen c] ctx)) F' 1
          (enter k (fun i => word (fmtOf p) (X i)) (m, l), some 0)).1.mem.1).val (fmtOf p) - (t.expr X).exact (mcaTy p)| then 1 else 0) ≤
        rms2 (mcaTy p) (t.expr X) / d ^ 2 := by
  obtain ⟨F', hF', hv⟩ := program_val sem c op1 rest ctx fl p k X hc t ht hf order hp m
  refine ⟨F', hF', ?_⟩
  simp only [hv]
  exact C115_partial sem (mcaTy p) c hc (t.expr X) hf hs N hN

/-- `a * a - a * b`. -/
def productsTerm : Term := .op .sub (.op .mul (.par 0) (.par 0)) (.op .mul (.par 0) (.par 1))

/-- The function `a * a - a * b`, compiled in the reverse order, for 0.1 and 0.3 in single precision. -/
example (sem : ShiftSem) (op1 : Wrapper.OpId → List (BitVec 64) → BitVec 64) (rest : Instr → Nat → List Nat → Nat) :
    ∃ F', replaceAll (pair .float) ⟨false, false, false⟩ (function .float 2 productsTerm) [4, 3, 2] = .ok F' ∧
      |average 3 (fun l => (ofWord b32 (run (exec (linked op1 rest [mcaIntBackend sem listGen rrCtx] (fun _ => ()))) F' 1
        (enter 2 (fun i => if i = 0 then 0x3dcccccd else 0x3e99999a) (0, l), some 0)).1.mem.1).val b32) -
          -(13421773 * 26843547 / 2 ^ 54)| ≤ 2 ^ (-53 : ℤ) := by
  obtain ⟨F', h1, h2⟩ := C114_program_partial sem rrCtx op1 rest (fun _ => ()) ⟨false, false, false⟩ .float 2
    (fun i => if i = 0 then tenth else three) (rrCtx_random _) productsTerm
    (by simp [productsTerm, Term.Params]) (products_fits sem) [4, 3, 2] (by decide +kernel) 0 3 (by decide)
  refine ⟨F', h1, ?_⟩
  have e : (fun i => word (fmtOf .float) (if i = 0 then tenth else three)) = fun i => if i = 0 then 0x3dcccccd else 0x3e99999a := by
    funext i
    by_cases hi : i = 0
    · rw [if_pos hi, if_pos hi]; decide +kernel
    · rw [if_neg hi, if_neg hi]; decide +kernel
  rw [e] at h2
  rw [show productsTerm.expr (fun i => if i = 0 then tenth else three) = products from rfl, show mcaTy .float = .f32 from rfl,
    products_exact, products_gross] at h2
  refine le_trans h2 ?_
  rw [show products.size = 3 from rfl]
  norm_num [Mca.Ty.wide, Mca.Ty.fmt, b32, b64]

/-- The same function: in at most one run of a hundred the error is `2^-22` or more. -/
example (sem : ShiftSem) (op1 : Wrapper.OpId → List (BitVec 64) → BitVec 64) (rest : Instr → Nat → List Nat → Nat) :
    ∃ F', replaceAll (pair .float) ⟨false, false, false⟩ (function .float 2 productsTerm) [4, 3, 2] = .ok F' ∧
      average 3 (fun l => if 2 ^ (-22 : ℤ) ≤ |(ofWord b32 (run (exec (linked op1 rest [mcaIntBackend sem listGen rrCtx] (fun _ => ()))) F' 1
        (enter 2 (fun i => word b32 (if i = 0 then tenth else three)) (0, l), some 0)).1.mem.1).val b32 -
          -(13421773 * 26843547 / 2 ^ 54)| then 1 else 0) ≤ 1 / 100 := by
  obtain ⟨F', h1, -, h2⟩ := C115_program_partial sem rrCtx op1 rest (fun _ => ()) ⟨false, false, false⟩ .float 2
    (fun i => if i = 0 then tenth else three) (rrCtx_random _) productsTerm
    (by simp [productsTerm, Term.Params]) (products_fits sem) [4, 3, 2] (by decide +kernel) 0
    (by rw [show (productsTerm.expr fun i => if i = 0 then tenth else three).size = 3 from rfl]; norm_num [mcaTy, Mca.Ty.wide, Mca.Ty.fmt, b32, b64])
    3 (by decide)
  refine ⟨F', h1, ?_⟩
  have h3 := h2 (2 ^ (-22 : ℤ)) (by norm_num)
  rw [show productsTerm.expr (fun i => if i = 0 then tenth else three) = products from rfl, show mcaTy .float = .f32 from rfl,
    products_exact, rms2, products_gross, show products.size = 3 from rfl] at h3
  refine le_trans h3 ?_
  norm_num [Mca.Ty.wide, Mca.Ty.fmt, b32, b64]

end Verif.Pass.Mean
