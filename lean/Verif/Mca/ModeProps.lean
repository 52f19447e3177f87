import Verif.Mca.QuadProps

/-!
# Property C22: which values the MCA backends may perturb

The theorems hold for an arbitrary perturbation, hence for both backends.
-/

namespace Verif.Mca
open Verif Verif.Fp

variable {σ : Type} (noise : Fmt → Ctx → Int → σ → Bits → Outcome (Bits × σ)) (g : Gen σ)

/-- Zeros, infinities and NaNs. -/
def Special (F : Fmt) (x : Bits) : Prop := x.isZero ∨ x.isInf F ∨ x.isNaN F

theorem classify_special (F : Fmt) (hew : 2 ≤ F.ew) (x : Bits) :
    Special F x ↔ classify F x ≠ .normal ∧ classify F x ≠ .subnormal := by
  have hinf := expInf_ge F hew
  unfold Special Bits.isZero Bits.isInf Bits.isNaN classify
  split_ifs <;> simp_all

theorem not_special (F : Fmt) (x : Bits) (h : ¬ Special F x) :
    x.Fin F ∧ ¬ x.isZero := by
  unfold Special Bits.isInf Bits.isNaN at h
  unfold Bits.Fin
  refine ⟨fun he => h ?_, fun hz => h (Or.inl hz)⟩
  by_cases hm : x.man = 0
  · exact Or.inr (Or.inl ⟨he, hm⟩)
  · exact Or.inr (Or.inr ⟨he, hm⟩)

/-- **C22**: zeros, infinities and NaNs are never perturbed and consume no random
number, in every mode. -/
theorem C22_special (F : Fmt) (hew : 2 ≤ F.ew) (c : Ctx) (vp : Int) (s : σ) (x : Bits) (h : Special F x) :
    inexact noise g F c vp s x = .ok (x, s) := by
  obtain ⟨h1, h2⟩ := (classify_special F hew x).1 h
  unfold inexact
  rw [if_pos]
  simp [mustNotBeNoised, h1, h2]

/-- **C22**: nothing is perturbed in ieee mode. -/
theorem C22_ieee (F : Fmt) (c : Ctx) (hm : c.mode = .ieee) (vp : Int) (s : σ) (x : Bits) :
    inexact noise g F c vp s x = .ok (x, s) := by
  unfold inexact
  rw [if_pos]
  simp [mustNotBeNoised, hm]

/-- **C22**: in rr mode a normal value that needs at most `t` bits is not perturbed. -/
theorem C22_rr_exact (T : Ty) (c : Ctx) (hm : c.mode = .rr) (t : Nat) (ht : 1 ≤ t) (s : σ) (x : Bits)
    (hx : x.WF T.wide) (hn : x.exp ≠ 0) (hb : BitsAtMost T.wide t x) :
    inexact noise g T.wide c t s x = .ok (x, s) := by
  unfold inexact
  rw [if_pos]
  have : isReprT T.wide x t = true := by
    unfold isReprT
    cases T
    · rw [if_neg (by decide)]
      exact (C23_normal_exact b64 x hx hn t ht).2 hb
    · rw [if_pos (show Ty.f64.wide = b128 from rfl)]
      exact (C23_quad_exact x hx hn t ht).2 hb
  simp [mustNotBeNoised, hm, this]

/-- Conversely, with the default sparsity every other normal value is perturbed in rr
mode, and every value that is not special in modes mca and pb. -/
theorem C22_perturbed (T : Ty) (c : Ctx) (hs : 1 ≤ c.sparsity) (t : Nat) (ht : 1 ≤ t) (s : σ) (x : Bits)
    (hx : x.WF T.wide) (hsp : ¬ Special T.wide x)
    (hm : c.mode = .mca ∨ c.mode = .pb ∨ c.mode = .rr ∧ x.exp ≠ 0 ∧ ¬ BitsAtMost T.wide t x) :
    inexact noise g T.wide c t s x = noise T.wide c t s x := by
  have hcl : ¬ (classify T.wide x ≠ .normal ∧ classify T.wide x ≠ .subnormal) :=
    fun h => hsp ((classify_special T.wide (by cases T <;> decide) x).2 h)
  unfold inexact
  rw [if_neg]
  · unfold skipEval; rw [if_pos hs]; rfl
  · have hr : c.mode = .rr → isReprT T.wide x t = false := by
      intro hrr
      rcases hm with h | h | ⟨-, hn, hb⟩
      · rw [h] at hrr; simp at hrr
      · rw [h] at hrr; simp at hrr
      · unfold isReprT
        rw [← Bool.not_eq_true]
        cases T
        · rw [if_neg (by decide)]
          exact fun h => hb ((C23_normal_exact b64 x hx hn t ht).1 h)
        · rw [if_pos (show Ty.f64.wide = b128 from rfl)]
          exact fun h => hb ((C23_quad_exact x hx hn t ht).1 h)
    have hi : c.mode ≠ .ieee := by
      rcases hm with h | h | ⟨h, -⟩ <;> rw [h] <;> simp
    unfold mustNotBeNoised
    simp only [Int.toNat_natCast, Bool.or_eq_true, Bool.and_eq_true, decide_eq_true_eq]
    rintro ((h | h) | h)
    · exact hi h
    · exact hcl h
    · rw [hr h.1] at h; simp at h

/-- **C22**: below sparsity 1, exactly the values whose draw exceeds the sparsity are
skipped, and they are returned unchanged. -/
theorem C22_sparsity (F : Fmt) (c : Ctx) (hs : c.sparsity < 1) (vp : Int) (s : σ) (x : Bits)
    (hn : mustNotBeNoised F c.mode vp x = false) :
    inexact noise g F c vp s x =
      if c.sparsity < rand01 (g.next s).1 then .ok (x, (g.next s).2)
      else noise F c vp (g.next s).2 x := by
  unfold inexact skipEval
  rw [if_neg (by rw [hn]; simp), if_neg (by linarith)]
  simp

/-- A value and what one visit to the perturbation made of it. -/
def Touched (F : Fmt) (c : Ctx) (vp : Int) (x y : Bits) : Prop :=
  y = x ∨ (¬ Special F x ∧ c.mode ≠ .ieee ∧ ∃ s s', noise F c vp s x = .ok (y, s'))

theorem inexact_touched (F : Fmt) (hew : 2 ≤ F.ew) (c : Ctx) (vp : Int) (s s' : σ) (x y : Bits)
    (h : inexact noise g F c vp s x = .ok (y, s')) : Touched noise F c vp x y := by
  by_cases hsp : Special F x
  · rw [C22_special noise g F hew c vp s x hsp] at h
    simp at h; exact Or.inl h.1.symm
  by_cases hm : c.mode = .ieee
  · rw [C22_ieee noise g F c hm vp s x] at h
    simp at h; exact Or.inl h.1.symm
  unfold inexact at h
  split_ifs at h with h1
  · simp at h; exact Or.inl h.1.symm
  · simp only at h
    split_ifs at h with h2
    · simp at h; exact Or.inl h.1.symm
    · exact Or.inr ⟨hsp, hm, _, _, h⟩

theorem noiseList_touched (F : Fmt) (hew : 2 ≤ F.ew) (c : Ctx) (vp : Int) (xs : List Bits) :
    ∀ (s s' : σ) (ys : List Bits), noiseList (inexact noise g F c vp) s xs = .ok (ys, s') →
      List.Forall₂ (Touched noise F c vp) xs ys := by
  induction xs with
  | nil => intro s s' ys h; simp [noiseList] at h; rw [h.1]; exact .nil
  | cons x xs ih =>
    intro s s' ys h
    simp only [noiseList] at h
    cases h1 : inexact noise g F c vp s x with
    | ub => rw [h1] at h; simp at h
    | exit => rw [h1] at h; simp at h
    | ok r =>
      obtain ⟨y, s1⟩ := r
      rw [h1] at h
      simp only [Outcome.bind_ok] at h
      cases h2 : noiseList (inexact noise g F c vp) s1 xs with
      | ub => rw [h2] at h; simp at h
      | exit => rw [h2] at h; simp at h
      | ok r =>
        obtain ⟨zs, s2⟩ := r
        rw [h2] at h
        simp only [Outcome.bind_ok, Outcome.ok.injEq, Prod.mk.injEq] at h
        rw [← h.1]
        exact .cons (inexact_touched noise g F hew c vp s s1 x y h1) (ih s1 s2 zs h2)

/-- **C22**, whole operations of one, two or three operands (no flushing of
subnormals): the result is the narrowed, possibly perturbed value of the operation on
the widened, possibly perturbed operands; in mode pb the value is not perturbed, in
mode rr the operands are not, in ieee mode neither. -/
theorem C22_modes (T : Ty) (f : List Bits → Bits) (c : Ctx) (s s' : σ) (args : List Bits) (r : Bits)
    (hd : c.daz = false) (hf : c.ftz = false)
    (h : opN T (inexact noise g T.wide c (c.prec T)) f c s args = .ok (r, s')) :
    ∃ args' res, List.Forall₂ (Touched noise T.wide c (c.prec T)) (args.map (fconv T.fmt T.wide)) args' ∧
      Touched noise T.wide c (c.prec T) (f args') res ∧ r = fconv T.wide T.fmt res ∧
      (c.mode ≠ .pb ∧ c.mode ≠ .mca → args' = args.map (fconv T.fmt T.wide)) ∧
      (c.mode ≠ .rr ∧ c.mode ≠ .mca → res = f args') ∧
      (c.mode = .ieee → s' = s) := by
  have hew : 2 ≤ T.wide.ew := by cases T <;> decide
  unfold opN at h
  simp only [hd, hf, Bool.false_eq_true, if_false] at h
  generalize hws : args.map (fconv T.fmt T.wide) = ws at h ⊢
  have hrefl : ∀ l : List Bits, List.Forall₂ (Touched noise T.wide c (c.prec T)) l l := by
    intro l
    induction l with
    | nil => exact .nil
    | cons a l ih => exact .cons (Or.inl rfl) ih
  obtain ⟨args', s1, h1, hA, hA'⟩ : ∃ args' s1,
      (if c.mode = .pb ∨ c.mode = .mca then noiseList (inexact noise g T.wide c (c.prec T)) s ws
        else .ok (ws, s)) = .ok (args', s1) ∧
      List.Forall₂ (Touched noise T.wide c (c.prec T)) ws args' ∧
      (c.mode ≠ .pb ∧ c.mode ≠ .mca → args' = ws ∧ s1 = s) := by
    split_ifs with hm
    · rw [if_pos hm] at h
      cases hn : noiseList (inexact noise g T.wide c (c.prec T)) s ws with
      | ub => rw [hn] at h; simp at h
      | exit => rw [hn] at h; simp at h
      | ok p =>
        refine ⟨p.1, p.2, rfl, noiseList_touched noise g T.wide hew c _ ws s p.2 p.1 hn, fun hne => ?_⟩
        rcases hm with hm | hm
        · exact absurd hm hne.1
        · exact absurd hm hne.2
    · exact ⟨ws, s, rfl, hrefl ws, fun _ => ⟨rfl, rfl⟩⟩
  rw [h1] at h
  simp only [Outcome.bind_ok] at h
  split_ifs at h with hm
  · cases hn : inexact noise g T.wide c (c.prec T) s1 (f args') with
    | ub => rw [hn] at h; simp at h
    | exit => rw [hn] at h; simp at h
    | ok p =>
      rw [hn] at h
      simp only [Outcome.bind_ok, Outcome.ok.injEq, Prod.mk.injEq] at h
      refine ⟨args', p.1, hA, inexact_touched noise g T.wide hew c _ s1 p.2 (f args') p.1 hn, h.1.symm,
        fun hne => (hA' hne).1, fun hne => ?_, fun hi => ?_⟩
      · rcases hm with hm | hm
        · exact absurd hm hne.1
        · exact absurd hm hne.2
      · rcases hm with hm | hm <;> rw [hi] at hm <;> simp at hm
  · simp only [Outcome.bind_ok, Outcome.ok.injEq, Prod.mk.injEq] at h
    refine ⟨args', f args', hA, Or.inl rfl, h.1.symm, fun hne => (hA' hne).1, fun _ => rfl, fun hi => ?_⟩
    rw [← h.2]
    exact (hA' (by rw [hi]; simp)).2

/-- In ieee mode an operation is exactly `narrow (f (widen args))`. -/
theorem C22_ieee_op (T : Ty) (f : List Bits → Bits) (c : Ctx) (s : σ) (args : List Bits)
    (hm : c.mode = .ieee) (hd : c.daz = false) (hf : c.ftz = false) :
    opN T (inexact noise g T.wide c (c.prec T)) f c s args =
      .ok (fconv T.wide T.fmt (f (args.map (fconv T.fmt T.wide))), s) := by
  unfold opN
  simp [hm, hd, hf]

/-- The sparsity is drawn for each value, not for each operation: with sparsity 1/2
and draws 3/4, 1/4, … the first operand of an addition is left alone and the second one
is perturbed, although the help text speaks of skipped operations. -/
theorem C22_sparsity_per_value :
    ∃ (g : Gen Nat) (c : Ctx), c.mode = .pb ∧ c.sparsity = 1 / 2 ∧
      noiseList (intInexact .strict g .f32 c) 0 [⟨false, 1023, 0⟩, ⟨false, 1023, 0⟩] =
        .ok ([⟨false, 1023, 0⟩, ⟨false, 1022, 2 ^ 52 - 2 ^ 28⟩], 3) := by
  refine ⟨⟨fun n => (if n = 0 then 0xC000000000000000#64 else if n = 1 then 0x4000000000000000#64
      else 0x8000000000000000#64, n + 1)⟩,
    { init with mode := .pb, sparsity := 1 / 2 }, rfl, rfl, ?_⟩
  have r0 : rand01 0xC000000000000000#64 = 3 / 4 := by rw [rand01_eq]; norm_num [drawn]
  have r1 : rand01 0x4000000000000000#64 = 1 / 4 := by rw [rand01_eq]; norm_num [drawn]
  have hn : mustNotBeNoised b64 .pb 24 ⟨false, 1023, 0⟩ = false := by decide +kernel
  have hq : intNoise .strict b64 24 0x8000000000000000#64 ⟨false, 1023, 0⟩ =
      .ok ⟨false, 1022, 2 ^ 52 - 2 ^ 28⟩ := by decide +kernel
  simp only [noiseList, intInexact]
  rw [C22_sparsity _ _ _ _ (by norm_num) _ _ _ hn]
  simp only [r0, if_true]
  rw [if_pos (by norm_num)]
  simp only [Outcome.bind_ok]
  rw [C22_sparsity _ _ _ _ (by norm_num) _ _ _ hn]
  simp only [intPerturb, init, Ctx.prec, Ty.wide]
  norm_num [r1, hq]

/-- Non-trivial instances: an addition in mode mca with a fixed draw perturbs operands
and result; the same in rr mode leaves `1 + 1` alone. -/
example : opN .f32 (intInexact .strict (σ := Unit) ⟨fun _ => (0x8000000000000000#64, ())⟩ .f32 init)
      (fun l => fadd b64 (l.getD 0 (zeroBits false)) (l.getD 1 (zeroBits false))) init ()
      [⟨false, 127, 0⟩, ⟨false, 127, 0⟩] = .ok (⟨false, 127, 2 ^ 23 - 1⟩, ()) ∧
    opN .f32 (intInexact .strict (σ := Unit) ⟨fun _ => (0x8000000000000000#64, ())⟩ .f32
        { init with mode := .rr })
      (fun l => fadd b64 (l.getD 0 (zeroBits false)) (l.getD 1 (zeroBits false))) { init with mode := .rr } ()
      [⟨false, 127, 0⟩, ⟨false, 127, 0⟩] = .ok (⟨false, 128, 0⟩, ()) := by
  decide +kernel

end Verif.Mca
