import Verif.Pass.MeanShare

/-!
# Property C115: the error under random rounding grows with the square root of the number of operations

The rounding errors of the operations of an expression are as good as uncorrelated, so the mean square of the error of the
result is at most the number of operations times the square of the error of one, and large errors are rare.
-/

namespace Verif.Pass.Mean
open Verif Verif.Fp Verif.Mca Verif.Pass

/-- The square of the error of one operation, relative to its result. -/
def square1 (T : Mca.Ty) : ℚ := (grow T - 1) ^ 2 + 4 * meanErr T

theorem E_four {α : Type} (p : Draws α) (c0 c1 c2 c3 : ℚ) (f g h : α → ℚ) :
    (p.E fun x => c0 + c1 * f x + c2 * g x + c3 * h x) = c0 + c1 * p.E f + c2 * p.E g + c3 * p.E h := by
  rw [Draws.E_add, Draws.E_add, Draws.E_add, Draws.E_const, Draws.E_const_mul, Draws.E_const_mul, Draws.E_const_mul]

/-- The mean square of a number from `a`. -/
def S {α : Type} (p : Draws α) (f : α → ℚ) (a : ℚ) : ℚ := p.E fun x => (f x - a) ^ 2

theorem S_nonneg {α : Type} (p : Draws α) (f : α → ℚ) (a : ℚ) : 0 ≤ S p f a := by
  rw [← Draws.E_const p 0]
  exact Draws.E_le fun x _ => sq_nonneg _

theorem square_add {α : Type} (p p' : Draws α) (f : α → ℚ) (a b : ℚ) :
    (p.E fun x => p'.E fun y => (f x + f y - (a + b)) ^ 2) = S p f a + S p' f b + 2 * (p.E f - a) * (p'.E f - b) := by
  have e : ∀ x, (p'.E fun y => (f x + f y - (a + b)) ^ 2) =
      (S p' f b - 2 * a * (p'.E f - b)) + 2 * (p'.E f - b) * f x + 1 * (f x - a) ^ 2 + 0 * 0 := fun x => by
    rw [show (fun y => (f x + f y - (a + b)) ^ 2) =
      fun y => ((f x - a) ^ 2 - 2 * b * (f x - a)) + 2 * (f x - a) * f y + 1 * (f y - b) ^ 2 + 0 * 0 from funext fun y => by ring, E_four]
    unfold S
    ring
  rw [show (fun x => p'.E fun y => (f x + f y - (a + b)) ^ 2) = _ from funext e, E_four]
  unfold S
  ring

theorem square_sub {α : Type} (p p' : Draws α) (f : α → ℚ) (a b : ℚ) :
    (p.E fun x => p'.E fun y => (f x - f y - (a - b)) ^ 2) = S p f a + S p' f b - 2 * (p.E f - a) * (p'.E f - b) := by
  have e : ∀ x, (p'.E fun y => (f x - f y - (a - b)) ^ 2) =
      (S p' f b + 2 * a * (p'.E f - b)) + -2 * (p'.E f - b) * f x + 1 * (f x - a) ^ 2 + 0 * 0 := fun x => by
    rw [show (fun y => (f x - f y - (a - b)) ^ 2) =
      fun y => ((f x - a) ^ 2 + 2 * b * (f x - a)) + -2 * (f x - a) * f y + 1 * (f y - b) ^ 2 + 0 * 0 from funext fun y => by ring, E_four]
    unfold S
    ring
  rw [show (fun x => p'.E fun y => (f x - f y - (a - b)) ^ 2) = _ from funext e, E_four]
  unfold S
  ring

theorem square_mul {α : Type} (p p' : Draws α) (f : α → ℚ) (a b : ℚ) :
    (p.E fun x => p'.E fun y => (f x * f y - a * b) ^ 2) =
      b ^ 2 * S p f a + 2 * (b * (p'.E f - b)) * (S p f a + a * (p.E f - a)) + S p' f b * p.E fun x => f x ^ 2 := by
  have e : ∀ x, (p'.E fun y => (f x * f y - a * b) ^ 2) =
      (-2 * b * (p'.E f - b) * a ^ 2) + 2 * b * (p'.E f - b) * a * f x + (b ^ 2 + 2 * b * (p'.E f - b)) * (f x - a) ^ 2 +
        S p' f b * f x ^ 2 := fun x => by
    rw [show (fun y => (f x * f y - a * b) ^ 2) =
      fun y => (b ^ 2 * (f x - a) ^ 2 - 2 * b ^ 2 * (f x * (f x - a))) + 2 * b * (f x * (f x - a)) * f y + f x ^ 2 * (f y - b) ^ 2 + 0 * 0
      from funext fun y => by ring, E_four]
    unfold S
    ring
  rw [show (fun x => p'.E fun y => (f x * f y - a * b) ^ 2) = _ from funext e, E_four]
  unfold S
  ring

/-- The mean square of a sum of two numbers with known mean squares and means. -/
theorem bound_sum (K η A B α β P Q M : ℚ) (n m N : ℕ) (hN : n + m ≤ N) (hη : 0 ≤ η) (hK : (N : ℚ) ^ 2 * (K + η) ≤ 1) (hK0 : 0 ≤ K)
    (hP : 0 ≤ P) (hQ : 0 ≤ Q) (hA : A ≤ n * K * P ^ 2) (hB : B ≤ m * K * Q ^ 2) (hα : |α| ≤ n * η * P) (hβ : |β| ≤ m * η * Q)
    (hM : P + Q ≤ M) : A + B + 2 * |α| * |β| ≤ ((n + m : ℕ) : ℚ) * K * M ^ 2 + η * M ^ 2 := by
  have hn : (0 : ℚ) ≤ n := by positivity
  have hm : (0 : ℚ) ≤ m := by positivity
  have nm : (n : ℚ) * m ≤ N ^ 2 := by
    have h1 : (n : ℚ) ≤ N := by exact_mod_cast (by omega : n ≤ N)
    have h2 : (m : ℚ) ≤ N := by exact_mod_cast (by omega : m ≤ N)
    nlinarith
  have nmη : (n : ℚ) * m * η ≤ 1 := by
    have : (N : ℚ) ^ 2 * η ≤ 1 := le_trans (mul_le_mul_of_nonneg_left (by linarith) (by positivity)) hK
    exact le_trans (mul_le_mul_of_nonneg_right nm hη) this
  have hM2 : P ^ 2 + 2 * (P * Q) + Q ^ 2 ≤ M ^ 2 := by nlinarith
  have hPQ : 0 ≤ P * Q := mul_nonneg hP hQ
  have hP2 : P ^ 2 ≤ M ^ 2 := by nlinarith
  have hQ2 : Q ^ 2 ≤ M ^ 2 := by nlinarith
  have t1 : (n : ℚ) * K * P ^ 2 ≤ n * K * M ^ 2 := by gcongr
  have t2 : (m : ℚ) * K * Q ^ 2 ≤ m * K * M ^ 2 := by gcongr
  have t3 : |α| * |β| ≤ (n * η * P) * (m * η * Q) := mul_le_mul hα hβ (abs_nonneg _) (by positivity)
  have t4 : (n * η * P) * (m * η * Q) ≤ η * (P * Q) := by
    have : (n * η * P) * (m * η * Q) = (n * m * η) * (η * (P * Q)) := by ring
    rw [this]
    exact mul_le_of_le_one_left (by positivity) nmη
  have t5 : η * (2 * (P * Q)) ≤ η * M ^ 2 := by
    refine mul_le_mul_of_nonneg_left ?_ hη
    nlinarith [sq_nonneg P, sq_nonneg Q]
  push_cast
  nlinarith

/-- The mean square of a product of two numbers with known mean squares and means. -/
theorem bound_product (K η A B α β a b P Q R : ℚ) (n m N : ℕ) (hN : n + m ≤ N) (hη : 0 ≤ η) (hK : (N : ℚ) ^ 2 * (K + η) ≤ 1) (hK0 : 0 ≤ K)
    (hP : 0 ≤ P) (hQ : 0 ≤ Q) (hA0 : 0 ≤ A) (hB0 : 0 ≤ B) (hA : A ≤ n * K * P ^ 2) (hB : B ≤ m * K * Q ^ 2) (hα : |α| ≤ n * η * P)
    (hβ : |β| ≤ m * η * Q) (ha : |a| ≤ P) (hb : |b| ≤ Q) (hR : R ≤ P ^ 2) :
    b ^ 2 * A + 2 * (b * β) * (A + a * α) + B * R ≤ ((n + m : ℕ) : ℚ) * K * (P * Q) ^ 2 + η * (P * Q) ^ 2 := by
  have hn : (0 : ℚ) ≤ n := by positivity
  have hm : (0 : ℚ) ≤ m := by positivity
  have nm : 2 * ((n : ℚ) * m) ≤ N ^ 2 := by
    have h1 : (n : ℚ) + m ≤ N := by exact_mod_cast hN
    nlinarith [sq_nonneg ((n : ℚ) - m)]
  have nmη : 2 * ((n : ℚ) * m) * (K + η) ≤ 1 := le_trans (mul_le_mul_of_nonneg_right nm (by linarith)) hK
  have b2 : b ^ 2 ≤ Q ^ 2 := by rw [← sq_abs]; exact pow_le_pow_left₀ (abs_nonneg _) hb 2
  have t1 : b ^ 2 * A ≤ Q ^ 2 * (n * K * P ^ 2) := mul_le_mul b2 hA hA0 (by positivity)
  have t2 : B * R ≤ (m * K * Q ^ 2) * P ^ 2 := le_trans (mul_le_mul_of_nonneg_left hR hB0) (mul_le_mul_of_nonneg_right hB (by positivity))
  have hbβ : |b * β| ≤ Q * (m * η * Q) := by rw [abs_mul]; exact mul_le_mul hb hβ (abs_nonneg _) hQ
  have haα : |a * α| ≤ P * (n * η * P) := by rw [abs_mul]; exact mul_le_mul ha hα (abs_nonneg _) hP
  have hs : |A + a * α| ≤ n * K * P ^ 2 + P * (n * η * P) := by
    refine le_trans (abs_add_le _ _) ?_
    rw [abs_of_nonneg hA0]
    linarith
  have t3 : (b * β) * (A + a * α) ≤ (Q * (m * η * Q)) * (n * K * P ^ 2 + P * (n * η * P)) := by
    refine le_trans (le_abs_self _) ?_
    rw [abs_mul]
    exact mul_le_mul hbβ hs (abs_nonneg _) (by positivity)
  have t4 : 2 * ((Q * (m * η * Q)) * (n * K * P ^ 2 + P * (n * η * P))) ≤ η * (P * Q) ^ 2 := by
    have : 2 * ((Q * (m * η * Q)) * (n * K * P ^ 2 + P * (n * η * P))) = (2 * (n * m) * (K + η)) * (η * (P * Q) ^ 2) := by ring
    rw [this]
    exact mul_le_of_le_one_left (by positivity) nmη
  push_cast
  nlinarith

/-- One more operation on a number at a distance `d` of the exact one. -/
theorem bound_step (T : Mca.Ty) (sem : ShiftSem) (c : Mca.Ctx) (o : Wrapper.Arith) (x y : Bits) (z w M : ℚ) (k : Draws Bits)
    (hk : OpDraws sem T c o x y z k) (hz : |z| ≤ M) (hw : |z - w| ≤ M) :
    (k.E fun r => (r.val T.fmt - w) ^ 2) ≤ ((grow T - 1) ^ 2 + 2 * meanErr T) * M ^ 2 + (z - w) ^ 2 := by
  have hq := grow_one T
  have hη := (meanErr_pos T).le
  have hM : 0 ≤ M := le_trans (abs_nonneg _) hz
  have e1 : (k.E fun r => (r.val T.fmt - w) ^ 2) ≤
      k.E fun r => ((grow T - 1) ^ 2 * M ^ 2 + (z - w) ^ 2 - 2 * (z - w) * z) + 2 * (z - w) * r.val T.fmt + 0 * 0 + 0 * 0 := by
    refine Draws.E_le fun r hr => ?_
    have h1 : |r.val T.fmt - z| ≤ (grow T - 1) * M := (hk.gives r hr).2.2.trans (mul_le_mul_of_nonneg_left hz (by linarith))
    have h2 : (r.val T.fmt - z) ^ 2 ≤ ((grow T - 1) * M) ^ 2 := by
      rw [← sq_abs]; exact pow_le_pow_left₀ (abs_nonneg _) h1 2
    nlinarith
  rw [E_four] at e1
  have h3 : (z - w) * ((k.E fun r => r.val T.fmt) - z) ≤ M * (meanErr T * M) := by
    refine le_trans (le_abs_self _) ?_
    rw [abs_mul]
    exact mul_le_mul hw (hk.mean.trans (mul_le_mul_of_nonneg_left hz hη)) (abs_nonneg _) hM
  nlinarith

/-- The mean square of the error of an expression. -/
theorem expr_square (sem : ShiftSem) (T : Mca.Ty) (c : Mca.Ctx) (hc : Random T c) (N : Nat) (hK : (N : ℚ) ^ 2 * (square1 T + meanErr T) ≤ 1)
    (e : Expr) (h : e.Fits sem T c) (hN : e.size ≤ N) :
    ∃ p, ExprDraws sem T c e p ∧
      S p (fun r => r.val T.fmt) (e.exact T) ≤ e.size * square1 T * (grow T ^ e.size * e.gross T) ^ 2 := by
  induction e with
  | num x =>
    obtain ⟨p, hp⟩ := expr_draws sem T c hc _ h
    refine ⟨.ret x, ⟨trivial, fun g s => rfl, ?_, ?_⟩, ?_⟩
    · intro r hr
      cases hr
      exact ⟨h.1, h.2, by simp [Expr.size, Expr.exact]⟩
    · show |x.val T.fmt - x.val T.fmt| ≤ _
      simp [Expr.size]
    · show (x.val T.fmt - x.val T.fmt) ^ 2 ≤ _
      simp [Expr.size]
  | op o a b iha ihb =>
    have hsz : a.size + b.size + 1 ≤ N := hN
    obtain ⟨pa, A, SA⟩ := iha h.1 (by omega)
    obtain ⟨pb, B, SB⟩ := ihb h.2.1 (by omega)
    obtain ⟨k, hk, hmag, hp⟩ := op_compose sem T c hc o a b h pa pb A B
    refine ⟨_, hp, ?_⟩
    have hq := grow_one T
    have hη := (meanErr_pos T).le
    have ho := h.2.2.1
    have ga := gross_nonneg T a
    have gb := gross_nonneg T b
    have hg := gross_nonneg T (.op o a b)
    have hK0 : 0 ≤ square1 T := by unfold square1; positivity
    have bnd : ∀ (e : Expr) (he : e.Fits sem T c) (x : Bits), |x.val T.fmt - e.exact T| ≤ (grow T ^ e.size - 1) * e.gross T →
        |x.val T.fmt| ≤ grow T ^ e.size * e.gross T := fun e he x hx => by
      have := abs_sub_abs_le_abs_sub (x.val T.fmt) (e.exact T)
      have := exact_le_gross T sem c e he
      linarith
    obtain ⟨M, hM⟩ : ∃ M, M = grow T ^ (a.size + b.size) * (Expr.op o a b).gross T := ⟨_, rfl⟩
    have hM0 : 0 ≤ M := by rw [hM]; positivity
    have e1 : S (pa.bind fun x => pb.bind fun y => k x y) (fun r => r.val T.fmt) ((Expr.op o a b).exact T) ≤
        ((grow T - 1) ^ 2 + 2 * meanErr T) * M ^ 2 +
          pa.E fun x => pb.E fun y => (realOp o (x.val T.fmt) (y.val T.fmt) - realOp o (a.exact T) (b.exact T)) ^ 2 := by
      unfold S
      rw [Draws.E_bind]
      have e2 : (pa.E fun x => (pb.bind fun y => k x y).E fun r => (r.val T.fmt - (Expr.op o a b).exact T) ^ 2) ≤
          pa.E fun x => ((grow T - 1) ^ 2 + 2 * meanErr T) * M ^ 2 +
            pb.E fun y => (realOp o (x.val T.fmt) (y.val T.fmt) - realOp o (a.exact T) (b.exact T)) ^ 2 := by
        refine Draws.E_le fun x hx => ?_
        rw [Draws.E_bind]
        have e3 : (pb.E fun y => (k x y).E fun r => (r.val T.fmt - (Expr.op o a b).exact T) ^ 2) ≤
            pb.E fun y => ((grow T - 1) ^ 2 + 2 * meanErr T) * M ^ 2 +
              (realOp o (x.val T.fmt) (y.val T.fmt) - realOp o (a.exact T) (b.exact T)) ^ 2 := by
          refine Draws.E_le fun y hy => ?_
          have herr := op_error T (grow T) hq o ho a b a.size b.size _ _ _ _ (exact_le_gross T sem c a h.1)
            (bnd b h.2.1 y (B.gives y hy).2.2) (A.gives x hx).2.2 (B.gives y hy).2.2
          refine bound_step T sem c o x y _ _ M _ (hk x y hx hy) (hM ▸ hmag x y hx hy) (herr.trans ?_)
          rw [hM]
          exact mul_le_mul_of_nonneg_right (by linarith) hg
        rw [Draws.E_add, Draws.E_const] at e3
        exact e3
      rw [Draws.E_add, Draws.E_const] at e2
      exact e2
    obtain ⟨P, hP⟩ : ∃ P, P = grow T ^ a.size * a.gross T := ⟨_, rfl⟩
    obtain ⟨Q, hQ⟩ : ∃ Q, Q = grow T ^ b.size * b.gross T := ⟨_, rfl⟩
    have hP0 : 0 ≤ P := by rw [hP]; positivity
    have hQ0 : 0 ≤ Q := by rw [hQ]; positivity
    have mA := A.mean
    have mB := B.mean
    rw [← hP] at SA mA
    rw [← hQ] at SB mB
    have e4 : (pa.E fun x => pb.E fun y => (realOp o (x.val T.fmt) (y.val T.fmt) - realOp o (a.exact T) (b.exact T)) ^ 2) ≤
        ((a.size + b.size : ℕ) : ℚ) * square1 T * M ^ 2 + meanErr T * M ^ 2 := by
      have sum : o = .add ∨ o = .sub → P + Q ≤ M := by
        intro h
        have g : (Expr.op o a b).gross T = a.gross T + b.gross T := by rcases h with rfl | rfl <;> rfl
        rw [hP, hQ, hM, g, mul_add]
        have p1 : grow T ^ a.size ≤ grow T ^ (a.size + b.size) := pow_le_pow_right₀ hq (by omega)
        have p2 : grow T ^ b.size ≤ grow T ^ (a.size + b.size) := pow_le_pow_right₀ hq (by omega)
        exact add_le_add (mul_le_mul_of_nonneg_right p1 ga) (mul_le_mul_of_nonneg_right p2 gb)
      have nn : ∀ u v : ℚ, u * v ≤ |u| * |v| ∧ -(u * v) ≤ |u| * |v| := fun u v => by
        rw [← abs_mul]; exact ⟨le_abs_self _, neg_le_abs _⟩
      cases o with
      | add =>
        simp only [realOp]
        rw [square_add pa pb (fun r => r.val T.fmt)]
        have := bound_sum (square1 T) (meanErr T) _ _ _ _ P Q M a.size b.size N (by omega) hη hK hK0 hP0 hQ0 SA SB mA mB (sum (.inl rfl))
        have n1 := (nn ((pa.E fun r => r.val T.fmt) - a.exact T) ((pb.E fun r => r.val T.fmt) - b.exact T)).1
        linarith
      | sub =>
        simp only [realOp]
        rw [square_sub pa pb (fun r => r.val T.fmt)]
        have := bound_sum (square1 T) (meanErr T) _ _ _ _ P Q M a.size b.size N (by omega) hη hK hK0 hP0 hQ0 SA SB mA mB (sum (.inr rfl))
        have n1 := (nn ((pa.E fun r => r.val T.fmt) - a.exact T) ((pb.E fun r => r.val T.fmt) - b.exact T)).2
        linarith
      | mul =>
        simp only [realOp]
        rw [square_mul pa pb (fun r => r.val T.fmt)]
        have hPQ : P * Q = M := by
          rw [hP, hQ, hM, pow_add]
          show _ = _ * (a.gross T * b.gross T)
          ring
        rw [← hPQ]
        have one_le : ∀ n : ℕ, 1 ≤ grow T ^ n := fun n => one_le_pow₀ hq
        refine bound_product (square1 T) (meanErr T) _ _ _ _ _ _ P Q _ a.size b.size N (by omega) hη hK hK0 hP0 hQ0
          (S_nonneg _ _ _) (S_nonneg _ _ _) SA SB mA mB ?_ ?_ ?_
        · rw [hP]
          exact (exact_le_gross T sem c a h.1).trans (le_mul_of_one_le_left ga (one_le _))
        · rw [hQ]
          exact (exact_le_gross T sem c b h.2.1).trans (le_mul_of_one_le_left gb (one_le _))
        · rw [← Draws.E_const pa (P ^ 2)]
          refine Draws.E_le fun x hx => ?_
          rw [← sq_abs, hP]
          exact pow_le_pow_left₀ (abs_nonneg _) (bnd a h.1 x (A.gives x hx).2.2) 2
      | div => exact absurd rfl ho
    have e5 : ((grow T - 1) ^ 2 + 2 * meanErr T) * M ^ 2 + (((a.size + b.size : ℕ) : ℚ) * square1 T * M ^ 2 + meanErr T * M ^ 2) ≤
        ((a.size + b.size + 1 : ℕ) : ℚ) * square1 T * M ^ 2 := by
      have : 0 ≤ meanErr T * M ^ 2 := by positivity
      have e6 : ((a.size + b.size + 1 : ℕ) : ℚ) * square1 T * M ^ 2 =
        ((a.size + b.size : ℕ) : ℚ) * square1 T * M ^ 2 + ((grow T - 1) ^ 2 + 4 * meanErr T) * M ^ 2 := by
        rw [square1]; push_cast; ring
      rw [e6]
      linarith
    have e7 : M ≤ grow T ^ (a.size + b.size + 1) * (Expr.op o a b).gross T := by
      rw [hM]
      exact mul_le_mul_of_nonneg_right (pow_le_pow_right₀ hq (by omega)) hg
    have e8 : M ^ 2 ≤ (grow T ^ (a.size + b.size + 1) * (Expr.op o a b).gross T) ^ 2 := pow_le_pow_left₀ hM0 e7 2
    have e9 : ((a.size + b.size + 1 : ℕ) : ℚ) * square1 T * M ^ 2 ≤
        ((a.size + b.size + 1 : ℕ) : ℚ) * square1 T * (grow T ^ (a.size + b.size + 1) * (Expr.op o a b).gross T) ^ 2 :=
      mul_le_mul_of_nonneg_left e8 (by positivity)
    show _ ≤ ((a.size + b.size + 1 : ℕ) : ℚ) * square1 T * (grow T ^ (a.size + b.size + 1) * (Expr.op o a b).gross T) ^ 2
    linarith

/-- The mean square of the error that `C115_partial` allows. -/
def rms2 (T : Mca.Ty) (e : Expr) : ℚ :=
  e.size * ((2 : ℚ) ^ (2 - 2 * (T.fmt.mw : ℤ)) + 4 * 2 ^ (1 - (T.wide.mw : ℤ))) * ((1 + 2 ^ (1 - (T.fmt.mw : ℤ))) ^ e.size * e.gross T) ^ 2

theorem square1_eq (T : Mca.Ty) : square1 T = (2 : ℚ) ^ (2 - 2 * (T.fmt.mw : ℤ)) + 4 * 2 ^ (1 - (T.wide.mw : ℤ)) := by
  unfold square1 grow meanErr
  rw [add_sub_cancel_left, ← zpow_natCast, ← zpow_mul, show (1 - (T.fmt.mw : ℤ)) * ((2 : ℕ) : ℤ) = 2 - 2 * (T.fmt.mw : ℤ) by push_cast; ring]

/-- **C115** Under random rounding the mean square of the error of an expression is at most the number of its operations times
the square of the error of one operation, and the part of the choices of words for which the error is `t` or more is at most that
mean square over `t^2`. -/
theorem C115_partial (sem : ShiftSem) (T : Mca.Ty) (c : Mca.Ctx) (hc : Random T c) (e : Expr) (h : e.Fits sem T c)
    (hs : (e.size : ℚ) ^ 2 * ((2 : ℚ) ^ (2 - 2 * (T.fmt.mw : ℤ)) + 5 * 2 ^ (1 - (T.wide.mw : ℤ))) ≤ 1) (N : Nat) (hN : e.size ≤ N) :
    average N (fun l => (resVal T.fmt (e.eval sem listGen T c l) - e.exact T) ^ 2) ≤ rms2 T e ∧
    ∀ t > 0, average N (fun l => if t ≤ |resVal T.fmt (e.eval sem listGen T c l) - e.exact T| then 1 else 0) ≤ rms2 T e / t ^ 2 := by
  obtain ⟨p, hp, hS⟩ := expr_square sem T c hc e.size
    (le_trans (le_of_eq (by rw [square1_eq, meanErr]; ring)) hs) e h le_rfl
  have hS' : S p (fun r => r.val T.fmt) (e.exact T) ≤ rms2 T e := by
    rw [square1_eq] at hS
    exact hS
  have hw := Draws.within_mono hp.within hN
  have hev : ∀ l, resVal T.fmt (e.eval sem listGen T c l) = (p.run listGen l).1.val T.fmt := fun l => by rw [hp.run listGen l]; rfl
  constructor
  · simp only [hev]
    rw [average_run p N hw fun r => (r.val T.fmt - e.exact T) ^ 2]
    exact hS'
  · intro t ht
    simp only [hev]
    rw [average_run p N hw fun r => if t ≤ |r.val T.fmt - e.exact T| then 1 else 0]
    refine le_trans ?_ (div_le_div_of_nonneg_right hS' (by positivity))
    unfold S
    rw [div_eq_mul_inv, ← Draws.E_mul_const]
    refine Draws.E_le fun r _ => ?_
    split_ifs with hr
    · rw [← div_eq_mul_inv, le_div_iff₀ (by positivity), one_mul, ← sq_abs (r.val T.fmt - e.exact T)]
      exact pow_le_pow_left₀ ht.le hr 2
    · positivity

/-! ### An example: a sum of more than a million numbers -/

/-- `0.1f + 0.1f + ...`, with `n` additions. -/
def sumOf : Nat → Expr
  | 0 => .num tenth
  | n + 1 => .op .add (sumOf n) (.num tenth)

theorem sumOf_size (n : Nat) : (sumOf n).size = n := by
  induction n with
  | zero => rfl
  | succ n ih => show (sumOf n).size + 0 + 1 = _; rw [ih]

theorem sumOf_exact (n : Nat) : (sumOf n).exact .f32 = (n + 1) * (13421773 / 2 ^ 27) := by
  induction n with
  | zero => show tenth.val b32 = _; rw [tenth_val]; norm_num
  | succ n ih =>
    show (sumOf n).exact .f32 + tenth.val b32 = _
    rw [ih, tenth_val]; push_cast; ring

theorem sumOf_gross (n : Nat) : (sumOf n).gross .f32 = (n + 1) * (13421773 / 2 ^ 27) := by
  induction n with
  | zero => show |tenth.val b32| = _; rw [tenth_val]; norm_num
  | succ n ih =>
    show (sumOf n).gross .f32 + |tenth.val b32| = _
    rw [ih, tenth_val, abs_of_nonneg (by positivity)]; push_cast; ring

theorem grow_small (n : Nat) (hn : n ≤ 2 ^ 20) : grow .f32 ^ n ≤ 4 / 3 := by
  have g : grow .f32 = 1 + 2 ^ (-22 : ℤ) := by norm_num [grow, Mca.Ty.fmt, b32]
  have h1 : 1 + (n : ℚ) * -(2 ^ (-22 : ℤ)) ≤ (1 + -(2 ^ (-22 : ℤ))) ^ n := one_add_mul_le_pow (by norm_num) n
  have h2 : (grow .f32) ^ n * (1 + -(2 ^ (-22 : ℤ))) ^ n ≤ 1 := by
    rw [← mul_pow, g]
    exact pow_le_one₀ (by norm_num) (by norm_num)
  have hn' : (n : ℚ) ≤ 2 ^ 20 := by exact_mod_cast hn
  have h3 : (3 / 4 : ℚ) ≤ (1 + -(2 ^ (-22 : ℤ))) ^ n := by
    refine le_trans ?_ h1
    rw [show (2 : ℚ) ^ (-22 : ℤ) = 1 / 4194304 by norm_num]
    linarith
  have h4 : 0 ≤ grow .f32 ^ n := pow_nonneg (by rw [g]; norm_num) n
  have h5 := (mul_le_mul_of_nonneg_left h3 h4).trans h2
  generalize grow .f32 ^ n = x at h5
  linarith

theorem sumOf_fits (sem : ShiftSem) (n : Nat) (hn : n ≤ 2 ^ 20) : (sumOf n).Fits sem .f32 rrCtx := by
  induction n with
  | zero => exact (by decide : tenth.WF b32 ∧ tenth.Fin b32)
  | succ n ih =>
    refine ⟨ih (by omega), (by decide : tenth.WF b32 ∧ tenth.Fin b32), by decide, ?_, by simp⟩
    have b : ((Mca.Ty.f32.fmt.bias : ℤ)) = 127 := by decide
    rw [sumOf_size, show Expr.op .add (sumOf n) (.num tenth) = sumOf (n + 1) from rfl, sumOf_gross, b,
      show (Expr.num tenth).size = 0 from rfl]
    have h1 := grow_small (n + 0) (by omega)
    have h2 : ((n + 1 : ℕ) : ℚ) ≤ 2 ^ 20 := by exact_mod_cast hn
    have h3 : grow .f32 ^ (n + 0) * (((n + 1 : ℕ) + 1) * (13421773 / 2 ^ 27)) ≤ 4 / 3 * ((2 ^ 20 + 1) * (13421773 / 2 ^ 27)) := by gcongr
    refine lt_of_le_of_lt h3 ?_
    norm_num

/-- A sum of 1048577 numbers in single precision: the bound for all runs is over 26000, but in at most one run of a hundred the
error is 400 or more. -/
example (sem : ShiftSem) (N : Nat) (hN : 2 ^ 20 ≤ N) :
    average N (fun l => if 400 ≤ |resVal b32 ((sumOf (2 ^ 20)).eval sem listGen .f32 rrCtx l) - (2 ^ 20 + 1) * (13421773 / 2 ^ 27)|
      then 1 else 0) ≤ 1 / 100 := by
  obtain ⟨n, hn⟩ : ∃ n : ℕ, n = 2 ^ 20 := ⟨_, rfl⟩
  have hnq : (n : ℚ) = 2 ^ 20 := by rw [hn]; norm_num
  have e := (C115_partial sem .f32 rrCtx (rrCtx_random _) (sumOf n) (sumOf_fits sem n hn.le) (by
    rw [sumOf_size, hnq]; norm_num [Mca.Ty.wide, Mca.Ty.fmt, b32, b64]) N (by rw [sumOf_size]; omega)).2 400 (by norm_num)
  rw [sumOf_exact, hnq, show Mca.Ty.f32.fmt = b32 from rfl] at e
  rw [← hn]
  refine le_trans e ?_
  rw [div_le_iff₀ (by norm_num), rms2, sumOf_size, sumOf_gross, hnq]
  have h1 : (1 + 2 ^ (1 - (Mca.Ty.f32.fmt.mw : ℤ))) ^ n ≤ (4 / 3 : ℚ) := grow_small n hn.le
  have h0 : (0 : ℚ) ≤ (1 + 2 ^ (1 - (Mca.Ty.f32.fmt.mw : ℤ))) ^ n := by positivity
  have h2 : ((1 + 2 ^ (1 - (Mca.Ty.f32.fmt.mw : ℤ))) ^ n * ((2 ^ 20 + 1) * (13421773 / 2 ^ 27)) : ℚ) ^ 2 ≤
      (4 / 3 * ((2 ^ 20 + 1) * (13421773 / 2 ^ 27))) ^ 2 := by gcongr
  refine le_trans (mul_le_mul_of_nonneg_left h2 (by positivity)) ?_
  norm_num [Mca.Ty.wide, Mca.Ty.fmt, b32, b64]

end Verif.Pass.Mean
