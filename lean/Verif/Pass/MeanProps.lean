import Verif.Pass.MeanOp

/-!
# Property C114: the mean of an expression under random rounding

Random rounding (the mode rr of the integer backend at the precision of the type) is meant to make the mean of a computation
its exact value.  For expressions of any size made of additions, subtractions and multiplications, evaluated with independent
words, the mean over all words is the exact value of the expression up to the last bits of the wide type, whatever the
rounding errors of single runs are.
-/

namespace Verif.Pass.Mean
open Verif Verif.Fp Verif.Mca Verif.Pass

/-- Expressions.  Every operation is done once: nothing is shared. -/
inductive Expr where
  | num (x : Bits)
  | op (o : Wrapper.Arith) (a b : Expr)

namespace Expr

/-- The evaluation by a compiled program, operands first, one call of the backend for each operation
(interflop_mca_int.c:523-546). -/
def eval (sem : ShiftSem) {σ : Type} (g : Gen σ) (T : Mca.Ty) (c : Mca.Ctx) : Expr → σ → Outcome (Bits × σ)
  | num x, s => .ok (x, s)
  | op o a b, s => a.eval sem g T c s >>= fun x => b.eval sem g T c x.2 >>= fun y => opInt sem g T c o y.2 x.1 y.1

/-- The exact value. -/
def exact (T : Mca.Ty) : Expr → ℚ
  | num x => x.val T.fmt
  | op o a b => realOp o (a.exact T) (b.exact T)

/-- The number of operations. -/
def size : Expr → Nat
  | num _ => 0
  | op _ a b => a.size + b.size + 1

/-- The expression with absolute values everywhere. -/
def gross (T : Mca.Ty) : Expr → ℚ
  | num x => |x.val T.fmt|
  | op .mul a b => a.gross T * b.gross T
  | op _ a b => a.gross T + b.gross T

/-- Numbers are finite, there is no division, no operation overflows and no product is below the normal range, for all words. -/
def Fits (sem : ShiftSem) (T : Mca.Ty) (c : Mca.Ctx) : Expr → Prop
  | num x => x.WF T.fmt ∧ x.Fin T.fmt
  | op o a b => a.Fits sem T c ∧ b.Fits sem T c ∧ o ≠ .div ∧
    grow T ^ (a.size + b.size) * (op o a b).gross T < 2 ^ ((T.fmt.bias : ℤ) - 2) ∧
    (o = .mul → ∀ l x y m r, a.eval sem listGen T c l = .ok (x, m) → b.eval sem listGen T c m = .ok (y, r) →
      x.val T.fmt * y.val T.fmt = 0 ∨ (2 : ℚ) ^ (2 - (T.fmt.bias : ℤ)) ≤ |x.val T.fmt * y.val T.fmt|)

end Expr

/-- What is known of an expression as a computation that draws. -/
structure ExprDraws (sem : ShiftSem) (T : Mca.Ty) (c : Mca.Ctx) (e : Expr) (p : Draws Bits) : Prop where
  within : p.Within e.size
  run : ∀ {σ : Type} (g : Gen σ) (s : σ), e.eval sem g T c s = .ok (p.run g s)
  gives : ∀ r, p.Gives r → r.WF T.fmt ∧ r.Fin T.fmt ∧ |r.val T.fmt - e.exact T| ≤ (grow T ^ e.size - 1) * e.gross T
  mean : |(p.E fun r => r.val T.fmt) - e.exact T| ≤ e.size * meanErr T * (grow T ^ e.size * e.gross T)

theorem grow_one (T : Mca.Ty) : 1 ≤ grow T := by
  unfold grow
  have : (0 : ℚ) < 2 ^ (1 - (T.fmt.mw : ℤ)) := zpow_pos (by norm_num) _
  linarith

theorem meanErr_pos (T : Mca.Ty) : 0 < meanErr T := zpow_pos (by norm_num) _

theorem gross_nonneg (T : Mca.Ty) (e : Expr) : 0 ≤ e.gross T := by
  induction e with
  | num x => exact abs_nonneg _
  | op o a b iha ihb =>
    cases o with
    | mul => exact mul_nonneg iha ihb
    | add => exact add_nonneg iha ihb
    | sub => exact add_nonneg iha ihb
    | div => exact add_nonneg iha ihb

theorem exact_le_gross (T : Mca.Ty) (sem : ShiftSem) (c : Mca.Ctx) (e : Expr) (h : e.Fits sem T c) : |e.exact T| ≤ e.gross T := by
  induction e with
  | num x => exact le_rfl
  | op o a b iha ihb =>
    obtain ⟨h1, h2, h3, -⟩ := h
    have := iha h1
    have := ihb h2
    cases o with
    | mul =>
      show |a.exact T * b.exact T| ≤ a.gross T * b.gross T
      rw [abs_mul]
      exact mul_le_mul (iha h1) (ihb h2) (abs_nonneg _) (gross_nonneg T a)
    | add => exact (abs_add_le (a.exact T) (b.exact T)).trans (add_le_add (iha h1) (ihb h2))
    | sub => exact (abs_sub (a.exact T) (b.exact T)).trans (add_le_add (iha h1) (ihb h2))
    | div => exact absurd rfl h3

/-- The magnitude of an operation on operands known by their magnitudes. -/
theorem op_gross (T : Mca.Ty) (q : ℚ) (hq : 1 ≤ q) (o : Wrapper.Arith) (ho : o ≠ .div) (a b : Expr) (n m : Nat) (x y : ℚ)
    (hx : |x| ≤ q ^ n * a.gross T) (hy : |y| ≤ q ^ m * b.gross T) :
    |realOp o x y| ≤ q ^ (n + m) * (Expr.op o a b).gross T := by
  have ga := gross_nonneg T a
  have gb := gross_nonneg T b
  have e1 : q ^ n ≤ q ^ (n + m) := pow_le_pow_right₀ hq (by omega)
  have e2 : q ^ m ≤ q ^ (n + m) := pow_le_pow_right₀ hq (by omega)
  have s1 := mul_le_mul_of_nonneg_right e1 ga
  have s2 := mul_le_mul_of_nonneg_right e2 gb
  have sum : q ^ n * a.gross T + q ^ m * b.gross T ≤ q ^ (n + m) * (a.gross T + b.gross T) := by rw [mul_add]; linarith
  cases o with
  | mul =>
    show |x * y| ≤ q ^ (n + m) * (a.gross T * b.gross T)
    rw [abs_mul, pow_add]
    calc |x| * |y| ≤ (q ^ n * a.gross T) * (q ^ m * b.gross T) := mul_le_mul hx hy (abs_nonneg _) (by positivity)
      _ = _ := by ring
  | add =>
    show |x + y| ≤ q ^ (n + m) * (a.gross T + b.gross T)
    have := abs_add_le x y
    linarith
  | sub =>
    show |x - y| ≤ q ^ (n + m) * (a.gross T + b.gross T)
    have := abs_sub x y
    linarith
  | div => exact absurd rfl ho

/-- The error of an operation on operands with errors. -/
theorem op_error (T : Mca.Ty) (q : ℚ) (hq : 1 ≤ q) (o : Wrapper.Arith) (ho : o ≠ .div) (a b : Expr) (n m : Nat) (x y u v : ℚ)
    (hu : |u| ≤ a.gross T) (hy : |y| ≤ q ^ m * b.gross T) (h1 : |x - u| ≤ (q ^ n - 1) * a.gross T) (h2 : |y - v| ≤ (q ^ m - 1) * b.gross T) :
    |realOp o x y - realOp o u v| ≤ (q ^ (n + m) - 1) * (Expr.op o a b).gross T := by
  have ga := gross_nonneg T a
  have gb := gross_nonneg T b
  have e1 : q ^ n ≤ q ^ (n + m) := pow_le_pow_right₀ hq (by omega)
  have e2 : q ^ m ≤ q ^ (n + m) := pow_le_pow_right₀ hq (by omega)
  have p1 : 1 ≤ q ^ n := one_le_pow₀ hq
  have s1 : (q ^ n - 1) * a.gross T ≤ (q ^ (n + m) - 1) * a.gross T := mul_le_mul_of_nonneg_right (by linarith) ga
  have s2 : (q ^ m - 1) * b.gross T ≤ (q ^ (n + m) - 1) * b.gross T := mul_le_mul_of_nonneg_right (by linarith) gb
  cases o with
  | add =>
    show |x + y - (u + v)| ≤ (q ^ (n + m) - 1) * (a.gross T + b.gross T)
    have := abs_add_le (x - u) (y - v)
    rw [show x + y - (u + v) = (x - u) + (y - v) by ring]
    linarith
  | sub =>
    show |x - y - (u - v)| ≤ (q ^ (n + m) - 1) * (a.gross T + b.gross T)
    have := abs_sub (x - u) (y - v)
    rw [show x - y - (u - v) = (x - u) - (y - v) by ring]
    linarith
  | mul =>
    show |x * y - u * v| ≤ (q ^ (n + m) - 1) * (a.gross T * b.gross T)
    have key := abs_add_le ((x - u) * y) (u * (y - v))
    rw [show (x - u) * y + u * (y - v) = x * y - u * v by ring, abs_mul, abs_mul] at key
    have t1 : |x - u| * |y| ≤ ((q ^ n - 1) * a.gross T) * (q ^ m * b.gross T) :=
      mul_le_mul h1 hy (abs_nonneg _) (mul_nonneg (by linarith) ga)
    have t2 : |u| * |y - v| ≤ a.gross T * ((q ^ m - 1) * b.gross T) := mul_le_mul hu h2 (abs_nonneg _) ga
    have t3 : ((q ^ n - 1) * a.gross T) * (q ^ m * b.gross T) + a.gross T * ((q ^ m - 1) * b.gross T) =
        (q ^ (n + m) - 1) * (a.gross T * b.gross T) := by rw [pow_add]; ring
    linarith
  | div => exact absurd rfl ho

/-- The error of the mean of an operation on independent operands, from those of the operands. -/
theorem op_mean (T : Mca.Ty) (q η : ℚ) (hq : 1 ≤ q) (hη : 0 ≤ η) (o : Wrapper.Arith) (ho : o ≠ .div) (a b : Expr) (n m : Nat)
    (μ ν u v : ℚ) (hu : |u| ≤ a.gross T) (hν : |ν| ≤ q ^ m * b.gross T)
    (h1 : |μ - u| ≤ n * η * (q ^ n * a.gross T)) (h2 : |ν - v| ≤ m * η * (q ^ m * b.gross T)) :
    |realOp o μ ν - realOp o u v| ≤ ((n + m : ℕ) : ℚ) * η * (q ^ (n + m) * (Expr.op o a b).gross T) := by
  have ga := gross_nonneg T a
  have gb := gross_nonneg T b
  have e1 : q ^ n ≤ q ^ (n + m) := pow_le_pow_right₀ hq (by omega)
  have e2 : q ^ m ≤ q ^ (n + m) := pow_le_pow_right₀ hq (by omega)
  have p1 : 1 ≤ q ^ n := one_le_pow₀ hq
  have s1 : n * η * (q ^ n * a.gross T) ≤ n * η * (q ^ (n + m) * a.gross T) := by gcongr
  have s2 : m * η * (q ^ m * b.gross T) ≤ m * η * (q ^ (n + m) * b.gross T) := by gcongr
  have pos : 0 ≤ q ^ (n + m) := by positivity
  have sum : n * η * (q ^ (n + m) * a.gross T) + m * η * (q ^ (n + m) * b.gross T) ≤
      ((n + m : ℕ) : ℚ) * η * (q ^ (n + m) * (a.gross T + b.gross T)) := by
    have t1 : 0 ≤ n * η * (q ^ (n + m) * b.gross T) := by positivity
    have t2 : 0 ≤ m * η * (q ^ (n + m) * a.gross T) := by positivity
    push_cast
    linarith
  cases o with
  | add =>
    show |μ + ν - (u + v)| ≤ ((n + m : ℕ) : ℚ) * η * (q ^ (n + m) * (a.gross T + b.gross T))
    have := abs_add_le (μ - u) (ν - v)
    rw [show μ + ν - (u + v) = (μ - u) + (ν - v) by ring]
    linarith
  | sub =>
    show |μ - ν - (u - v)| ≤ ((n + m : ℕ) : ℚ) * η * (q ^ (n + m) * (a.gross T + b.gross T))
    have := abs_sub (μ - u) (ν - v)
    rw [show μ - ν - (u - v) = (μ - u) - (ν - v) by ring]
    linarith
  | mul =>
    show |μ * ν - u * v| ≤ ((n + m : ℕ) : ℚ) * η * (q ^ (n + m) * (a.gross T * b.gross T))
    have key := abs_add_le ((μ - u) * ν) (u * (ν - v))
    rw [show (μ - u) * ν + u * (ν - v) = μ * ν - u * v by ring, abs_mul, abs_mul] at key
    have t1 : |μ - u| * |ν| ≤ (n * η * (q ^ n * a.gross T)) * (q ^ m * b.gross T) :=
      mul_le_mul h1 hν (abs_nonneg _) (by positivity)
    have t2 : |u| * |ν - v| ≤ a.gross T * (m * η * (q ^ m * b.gross T)) := mul_le_mul hu h2 (abs_nonneg _) ga
    have t3 : a.gross T * (m * η * (q ^ m * b.gross T)) ≤ a.gross T * (m * η * (q ^ (n + m) * b.gross T)) := by gcongr
    have t4 : (n * η * (q ^ n * a.gross T)) * (q ^ m * b.gross T) = n * η * (q ^ (n + m) * (a.gross T * b.gross T)) := by
      rw [pow_add]; ring
    have t5 : ((n + m : ℕ) : ℚ) * η * (q ^ (n + m) * (a.gross T * b.gross T)) =
        n * η * (q ^ (n + m) * (a.gross T * b.gross T)) + a.gross T * (m * η * (q ^ (n + m) * b.gross T)) := by push_cast; ring
    rw [t5]
    linarith
  | div => exact absurd rfl ho

/-- The mean of an operation of independent results. -/
theorem E_op (o : Wrapper.Arith) (ho : o ≠ .div) (p p' : Draws Bits) (f : Bits → ℚ) :
    (p.E fun x => p'.E fun y => realOp o (f x) (f y)) = realOp o (p.E f) (p'.E f) := by
  cases o with
  | add =>
    simp only [realOp]
    rw [show (fun x => p'.E fun y => f x + f y) = fun x => f x + p'.E f from funext fun x => by
      rw [Draws.E_add, Draws.E_const], Draws.E_add, Draws.E_const]
  | sub =>
    simp only [realOp]
    have e : ∀ x, (p'.E fun y => f x - f y) = f x + -1 * p'.E f := fun x => by
      rw [← Draws.E_const_mul, show (fun y => f x - f y) = fun y => f x + -1 * f y from funext fun y => by ring, Draws.E_add,
        Draws.E_const]
    rw [show (fun x => p'.E fun y => f x - f y) = fun x => f x + -1 * p'.E f from funext e, Draws.E_add, Draws.E_const]
    ring
  | mul =>
    simp only [realOp]
    rw [show (fun x => p'.E fun y => f x * f y) = fun x => f x * p'.E f from funext fun x => Draws.E_const_mul p' f (f x),
      Draws.E_mul_const]
  | div => exact absurd rfl ho

/-- An operation on the results of two computations. -/
theorem op_compose (sem : ShiftSem) (T : Mca.Ty) (c : Mca.Ctx) (hc : Random T c) (o : Wrapper.Arith) (a b : Expr)
    (h : (Expr.op o a b).Fits sem T c) (pa pb : Draws Bits) (A : ExprDraws sem T c a pa) (B : ExprDraws sem T c b pb) :
    ∃ k : Bits → Bits → Draws Bits,
      (∀ x y, pa.Gives x → pb.Gives y → OpDraws sem T c o x y (realOp o (x.val T.fmt) (y.val T.fmt)) (k x y)) ∧
      (∀ x y, pa.Gives x → pb.Gives y → |realOp o (x.val T.fmt) (y.val T.fmt)| ≤ grow T ^ (a.size + b.size) * (Expr.op o a b).gross T) ∧
      ExprDraws sem T c (.op o a b) (pa.bind fun x => pb.bind fun y => k x y) := by
  obtain ⟨ha, hb, ho, hup, hlow⟩ := h
  have hq := grow_one T
  have hη := (meanErr_pos T).le
  have hg := gross_nonneg T (.op o a b)
  have bnd : ∀ (e : Expr) (he : e.Fits sem T c) (x : Bits), |x.val T.fmt - e.exact T| ≤ (grow T ^ e.size - 1) * e.gross T →
      |x.val T.fmt| ≤ grow T ^ e.size * e.gross T := fun e he x hx => by
    have := abs_sub_abs_le_abs_sub (x.val T.fmt) (e.exact T)
    have := exact_le_gross T sem c e he
    linarith
  have hmag : ∀ x y, pa.Gives x → pb.Gives y → |realOp o (x.val T.fmt) (y.val T.fmt)| ≤
      grow T ^ (a.size + b.size) * (Expr.op o a b).gross T := fun x y hx hy =>
    op_gross T (grow T) hq o ho a b _ _ _ _ (bnd a ha x (A.gives x hx).2.2) (bnd b hb y (B.gives y hy).2.2)
  have hstep : ∀ x y, ∃ p, pa.Gives x → pb.Gives y → OpDraws sem T c o x y (realOp o (x.val T.fmt) (y.val T.fmt)) p := by
    intro x y
    by_cases hxy : pa.Gives x ∧ pb.Gives y
    · obtain ⟨hx, hy⟩ := hxy
      obtain ⟨x1, x2, -⟩ := A.gives x hx
      obtain ⟨y1, y2, -⟩ := B.gives y hy
      have hr : InRange T o (realOp o (x.val T.fmt) (y.val T.fmt)) := by
        refine ⟨lt_of_le_of_lt (hmag x y hx hy) hup, ?_⟩
        rintro rfl
        obtain ⟨l, hl⟩ := Draws.gives_list (p := pa.bind fun x => pb.bind fun y => .ret (x, y)) (a := (x, y))
          (Draws.gives_intro hx (Draws.gives_intro hy (.ret _)))
        change (Draws.run listGen _ l).1 = (x, y) at hl
        rw [Draws.run_bind, Draws.run_bind] at hl
        obtain ⟨l1, l2⟩ := Prod.mk.inj hl
        exact hlow rfl l x y (pa.run listGen l).2 (pb.run listGen (pa.run listGen l).2).2 (by rw [A.run, ← l1]) (by rw [B.run, ← l2])
      obtain ⟨p, hp⟩ := op_draws sem T c hc o ho x y x1 x2 y1 y2 hr
      exact ⟨p, fun _ _ => hp⟩
    · exact ⟨.ret x, fun h1 h2 => absurd ⟨h1, h2⟩ hxy⟩
  choose k hk using hstep
  refine ⟨k, hk, hmag, ?_, ?_, ?_, ?_⟩
  · show Draws.Within (a.size + b.size + 1) _
    rw [Nat.add_assoc]
    exact Draws.within_bind A.within fun x hx => Draws.within_bind B.within fun y hy => (hk x y hx hy).within
  · intro σ g s
    show (a.eval sem g T c s >>= fun x => b.eval sem g T c x.2 >>= fun y => opInt sem g T c o y.2 x.1 y.1) = _
    rw [A.run g s, Outcome.bind_ok, B.run g _, Outcome.bind_ok, Draws.run_bind, Draws.run_bind]
    exact (hk _ _ (Draws.gives_run g pa s) (Draws.gives_run g pb _)).run g _
  · intro r hr
    obtain ⟨x, hx, hr⟩ := Draws.gives_bind hr
    obtain ⟨y, hy, hr⟩ := Draws.gives_bind hr
    obtain ⟨r1, r2, r3⟩ := (hk x y hx hy).gives r hr
    refine ⟨r1, r2, ?_⟩
    have e1 := op_error T (grow T) hq o ho a b a.size b.size _ _ _ _ (exact_le_gross T sem c a ha) (bnd b hb y (B.gives y hy).2.2)
      (A.gives x hx).2.2 (B.gives y hy).2.2
    have e2 := mul_le_mul_of_nonneg_left (hmag x y hx hy) (show 0 ≤ grow T - 1 by linarith)
    have e3 := abs_sub_le (r.val T.fmt) (realOp o (x.val T.fmt) (y.val T.fmt)) (realOp o (a.exact T) (b.exact T))
    show |_ - realOp o (a.exact T) (b.exact T)| ≤ (grow T ^ (a.size + b.size + 1) - 1) * _
    rw [pow_succ']
    linarith
  · rw [Draws.E_bind]
    have e1 : (pa.E fun x => (pb.bind fun y => k x y).E fun r => r.val T.fmt) =
        pa.E fun x => pb.E fun y => (k x y).E fun r => r.val T.fmt := by
      congr 1
      funext x
      exact Draws.E_bind _ _ _
    rw [e1]
    have d1 : |(pa.E fun x => pb.E fun y => (k x y).E fun r => r.val T.fmt) -
        pa.E fun x => pb.E fun y => realOp o (x.val T.fmt) (y.val T.fmt)| ≤
        meanErr T * (grow T ^ (a.size + b.size) * (Expr.op o a b).gross T) :=
      Draws.E_close fun x hx => Draws.E_close fun y hy =>
        ((hk x y hx hy).mean).trans (mul_le_mul_of_nonneg_left (hmag x y hx hy) hη)
    rw [E_op o ho] at d1
    have hν : |pb.E fun y => y.val T.fmt| ≤ grow T ^ b.size * b.gross T := by
      have := Draws.E_close (p := pb) (f := fun y => y.val T.fmt) (f' := fun _ => 0) (d := grow T ^ b.size * b.gross T)
        fun y hy => by rw [sub_zero]; exact bnd b hb y (B.gives y hy).2.2
      rw [Draws.E_const, sub_zero] at this
      exact this
    have d2 := op_mean T (grow T) (meanErr T) hq hη o ho a b a.size b.size _ _ _ _ (exact_le_gross T sem c a ha) hν A.mean B.mean
    have d3 := abs_sub_le (pa.E fun x => pb.E fun y => (k x y).E fun r => r.val T.fmt)
      (realOp o (pa.E fun x => x.val T.fmt) (pb.E fun y => y.val T.fmt)) (realOp o (a.exact T) (b.exact T))
    show |_ - realOp o (a.exact T) (b.exact T)| ≤ ((a.size + b.size + 1 : ℕ) : ℚ) * meanErr T *
      (grow T ^ (a.size + b.size + 1) * (Expr.op o a b).gross T)
    have e2 : grow T ^ (a.size + b.size) ≤ grow T ^ (a.size + b.size + 1) := pow_le_pow_right₀ hq (by omega)
    have d4 : ((a.size + b.size + 1 : ℕ) : ℚ) * meanErr T * (grow T ^ (a.size + b.size) * (Expr.op o a b).gross T) ≤
        ((a.size + b.size + 1 : ℕ) : ℚ) * meanErr T * (grow T ^ (a.size + b.size + 1) * (Expr.op o a b).gross T) := by gcongr
    refine le_trans ?_ d4
    push_cast at d2 ⊢
    linarith

theorem expr_draws (sem : ShiftSem) (T : Mca.Ty) (c : Mca.Ctx) (hc : Random T c) (e : Expr) (h : e.Fits sem T c) :
    ∃ p, ExprDraws sem T c e p := by
  induction e with
  | num x =>
    refine ⟨.ret x, trivial, fun g s => rfl, ?_, ?_⟩
    · intro r hr
      cases hr
      exact ⟨h.1, h.2, by simp [Expr.size, Expr.exact]⟩
    · show |x.val T.fmt - x.val T.fmt| ≤ _
      simp [Expr.size]
  | op o a b iha ihb =>
    obtain ⟨pa, A⟩ := iha h.1
    obtain ⟨pb, B⟩ := ihb h.2.1
    obtain ⟨k, -, -, hk⟩ := op_compose sem T c hc o a b h pa pb A B
    exact ⟨_, hk⟩

/-- **C114** The mean, over all words, of an expression evaluated with random rounding is its exact value, up to a number of
last bits of the wide type equal to the number of operations.  Every single run returns a finite number, whose error is only
known to be within as many last bits of the type itself. -/
theorem C114_partial (sem : ShiftSem) (T : Mca.Ty) (c : Mca.Ctx) (hc : Random T c) (e : Expr) (h : e.Fits sem T c) (N : Nat)
    (hN : e.size ≤ N) :
    |average N (fun l => resVal T.fmt (e.eval sem listGen T c l)) - e.exact T| ≤
      e.size * 2 ^ (1 - (T.wide.mw : ℤ)) * ((1 + 2 ^ (1 - (T.fmt.mw : ℤ))) ^ e.size * e.gross T) ∧
    ∀ {σ : Type} (g : Gen σ) (s : σ), ∃ r s', e.eval sem g T c s = .ok (r, s') ∧ r.WF T.fmt ∧ r.Fin T.fmt ∧
      |r.val T.fmt - e.exact T| ≤ ((1 + 2 ^ (1 - (T.fmt.mw : ℤ))) ^ e.size - 1) * e.gross T := by
  obtain ⟨p, hp⟩ := expr_draws sem T c hc e h
  constructor
  · have := average_run p N (Draws.within_mono hp.within hN) fun r => r.val T.fmt
    rw [show (fun l => resVal T.fmt (e.eval sem listGen T c l)) = fun l => (p.run listGen l).1.val T.fmt from
      funext fun l => by rw [hp.run listGen l]; rfl, this]
    exact hp.mean
  · intro σ g s
    exact ⟨_, _, hp.run g s, hp.gives _ (Draws.gives_run g p s)⟩

/-! ### An example: `0.1f * 0.1f - 0.1f * 0.3f` -/

/-- 0.1 in single precision. -/
def tenth : Bits := ⟨false, 123, 0x4ccccd⟩

/-- 0.3 in single precision. -/
def three : Bits := ⟨false, 125, 0x19999a⟩

/-- The settings of `--mode=rr`. -/
def rrCtx : Mca.Ctx := { Mca.init with mode := .rr }

theorem rrCtx_random (T : Mca.Ty) : Random T rrCtx := ⟨rfl, rfl, rfl, le_refl _, by cases T <;> rfl⟩

theorem tenth_val : tenth.val b32 = 13421773 / 2 ^ 27 := by norm_num [tenth, Bits.val, Bits.sig, Bits.lsb, sgn, b32, Fmt.bias]

theorem three_val : three.val b32 = 10066330 / 2 ^ 25 := by norm_num [three, Bits.val, Bits.sig, Bits.lsb, sgn, b32, Fmt.bias]

/-- The expression of the example. -/
def products : Expr := .op .sub (.op .mul (.num tenth) (.num tenth)) (.op .mul (.num tenth) (.num three))

theorem products_gross : products.gross .f32 = 13421773 / 2 ^ 27 * (13421773 / 2 ^ 27) + 13421773 / 2 ^ 27 * (10066330 / 2 ^ 25) := by
  show |tenth.val b32| * |tenth.val b32| + |tenth.val b32| * |three.val b32| = _
  rw [tenth_val, three_val]
  norm_num

theorem products_exact : products.exact .f32 = -(13421773 * 26843547 / 2 ^ 54) := by
  show tenth.val b32 * tenth.val b32 - tenth.val b32 * three.val b32 = _
  rw [tenth_val, three_val]
  norm_num

theorem products_fits (sem : ShiftSem) : products.Fits sem .f32 rrCtx := by
  have g : grow .f32 = 1 + 2 ^ (-22 : ℤ) := by norm_num [grow, Mca.Ty.fmt, b32]
  have t1 : tenth.WF b32 ∧ tenth.Fin b32 := by decide
  have t3 : three.WF b32 ∧ three.Fin b32 := by decide
  have b : ((Mca.Ty.f32.fmt.bias : ℤ)) = 127 := by decide
  have leaf : ∀ x y : Bits, x.WF b32 ∧ x.Fin b32 → y.WF b32 ∧ y.Fin b32 → |x.val b32| * |y.val b32| < 1 → 1 / 128 < |x.val b32| * |y.val b32| →
      (Expr.op .mul (.num x) (.num y)).Fits sem .f32 rrCtx := by
    intro x y hx hy hlt hgt
    refine ⟨hx, hy, by decide, ?_, ?_⟩
    · show grow .f32 ^ (0 + 0) * (|x.val b32| * |y.val b32|) < _
      rw [b]
      norm_num
      linarith
    · intro _ l u v m r e1 e2
      obtain ⟨rfl, rfl⟩ := Prod.mk.inj (Outcome.ok.inj e1)
      obtain ⟨rfl, rfl⟩ := Prod.mk.inj (Outcome.ok.inj e2)
      right
      rw [abs_mul, b]
      refine le_of_lt (lt_of_le_of_lt ?_ hgt)
      norm_num
  refine ⟨leaf _ _ t1 t1 ?_ ?_, leaf _ _ t1 t3 ?_ ?_, by decide, ?_, by simp⟩
  · rw [tenth_val]; norm_num
  · rw [tenth_val]; norm_num
  · rw [tenth_val, three_val]; norm_num
  · rw [tenth_val, three_val]; norm_num
  · have := products_gross
    rw [show Expr.op .sub (.op .mul (.num tenth) (.num tenth)) (.op .mul (.num tenth) (.num three)) = products from rfl, this, g, b]
    norm_num [Expr.size]

/-- Three operations in single precision, each with an error of up to `2^-30`: the mean over all choices of three words is within
`2^-53` of the exact value. -/
example (sem : ShiftSem) :
    |average 3 (fun l => resVal b32 (products.eval sem listGen .f32 rrCtx l)) - -(13421773 * 26843547 / 2 ^ 54)| ≤ 2 ^ (-53 : ℤ) := by
  have h := (C114_partial sem .f32 rrCtx (rrCtx_random _) products (products_fits sem) 3 (by decide)).1
  rw [products_exact, products_gross] at h
  refine le_trans h ?_
  rw [show products.size = 3 from rfl]
  norm_num [Mca.Ty.wide, Mca.Ty.fmt, b32, b64]

end Verif.Pass.Mean
