import Verif.Pass.ContractProps

/-!
# Property C96: Monte Carlo arithmetic on programs

doc/02-Backends.md:219-239 says where errors are introduced (`mca` on operands and results, `pb` on operands, `rr` on results,
the results that are exact at the virtual precision being preserved) and leaves their size to the definition of the virtual
precision; interflop_mca.c:267-289 gives it: a number in (-1/2, 1/2) times `2^(e_x - (t - 1))`.  Here the two MCA backends
keep this promise, up to a factor of 2 for the integer one, for every operation of an instrumented program, at every
precision, in every mode and with every option.
-/

namespace Verif.Pass
open Verif Verif.Fp

variable {P σ κ : Type}

/-! ## What is promised -/

/-- `x'` is what the integer backend may make of the wide number `x` at precision `t`. -/
structure IntNear (rr : Bool) (F : Fmt) (t : Nat) (x x' : Bits) : Prop where
  wf : x'.WF F
  special : Mca.Special F x → x' = x
  exact : rr = true → x.exp ≠ 0 → BitsAtMost F t x → x' = x
  near : x.Fin F → ∀ ex : ℤ, (2 : ℚ) ^ ex ≤ |x.val F| → |x.val F| < 2 ^ (ex + 1) → 1 - (F.bias : ℤ) ≤ ex → ex + 1 ≤ F.bias →
    x'.Fin F ∧ ¬ x'.isZero ∧ x'.sign = x.sign ∧ |x'.val F - x.val F| ≤ 2 ^ (ex - t + 1)

/-- `x'` is what the quad backend may make of the wide number `x` at precision `t`. -/
structure QuadNear (rr : Bool) (F : Fmt) (t : Nat) (x x' : Bits) : Prop where
  wf : x'.WF F
  special : Mca.Special F x → x' = x
  exact : rr = true → x.exp ≠ 0 → BitsAtMost F t x → x' = x
  near : x.Fin F → ∀ ex : ℤ, (2 : ℚ) ^ ex ≤ |x.val F| → |x.val F| < 2 ^ (ex + 1) → 52 + (t : ℤ) - F.bias ≤ ex → ex + 2 ≤ F.bias →
    x'.Fin F ∧ |x'.val F - x.val F| ≤ 2 ^ (ex - t) + 2 ^ (ex - F.mw)

/-- The type in which an operation is made. -/
def workTy : Wrapper.OpId → Mca.Ty
  | .arith _ p | .cmp p | .fma p => mcaTy p
  | .cast => .f64

/-- The operation in the wide type; a cast is a rounding to `float`. -/
def wideOp : Wrapper.OpId → Fmt → List Bits → Bits
  | .cast, G, [a] => fconv b32 G (fconv G b32 a)
  | o, G, l => widely o G l

/-- What MCA promises of the result `y` of an operation, with `N` between a number and the perturbed one. -/
def McaContract (cfg : Mca.Ctx) (N : Mca.Ty → Bits → Bits → Prop) : Contract
  | .cmp _, _, _ => True
  | o, x, y =>
    let T := workTy o
    let ops := (operandsOf o x).map fun a => fconv T.fmt T.wide (if cfg.daz then Mca.flush a else a)
    ∃ args z, (if cfg.mode = .pb ∨ cfg.mode = .mca then List.Forall₂ (N T) ops args else args = ops) ∧
      (if cfg.mode = .rr ∨ cfg.mode = .mca then N T (wideOp o T.wide args) z else z = wideOp o T.wide args) ∧
      y = fconv T.fmt (resultFmt o) (if cfg.ftz then Mca.flush (fconv T.wide T.fmt z) else fconv T.wide T.fmt z)

/-! ## Perturbations -/

theorem wide_mw (T : Mca.Ty) : 1 ≤ T.wide.mw := by cases T <;> decide
theorem wide_ew (T : Mca.Ty) : 2 ≤ T.wide.ew := by cases T <;> decide
theorem fmt_mw (T : Mca.Ty) : 1 ≤ T.fmt.mw := by cases T <;> decide

/-- A number of exponent `ex` above the smallest normal one is normal. -/
theorem normal_of_val (F : Fmt) (x : Bits) (hx : x.WF F) (ex : ℤ) (h1 : (2 : ℚ) ^ ex ≤ |x.val F|)
    (hlo : 1 - (F.bias : ℤ) ≤ ex) : 1 ≤ x.exp := by
  by_contra hn
  have h0 : x.exp = 0 := by omega
  rw [abs_val] at h1
  have hs : x.sig F = x.man := by unfold Bits.sig; rw [if_pos h0]
  have hl : x.lsb F = 1 - (F.bias : ℤ) - F.mw := by unfold Bits.lsb; rw [h0]; simp
  rw [hs, hl] at h1
  have hm : (x.man : ℚ) < 2 ^ F.mw := by exact_mod_cast hx.2
  have e : (2 : ℚ) ^ (1 - (F.bias : ℤ)) = 2 ^ F.mw * 2 ^ (1 - (F.bias : ℤ) - F.mw) := by
    rw [← zpow_natCast, ← zpow_add₀ (by norm_num)]; congr 1; ring
  have h2 : (2 : ℚ) ^ (1 - (F.bias : ℤ)) ≤ 2 ^ ex := zpow_le_zpow_right₀ (by norm_num) hlo
  have h3 := mul_lt_mul_of_pos_right hm (show (0 : ℚ) < 2 ^ (1 - (F.bias : ℤ) - F.mw) from zpow_pos (by norm_num) _)
  linarith

theorem val_ne_zero (F : Fmt) (x : Bits) (ex : ℤ) (h : (2 : ℚ) ^ ex ≤ |x.val F|) : ¬ x.isZero := by
  intro hz
  have : x.val F = 0 := by
    unfold Bits.val Bits.sig
    rw [if_pos hz.1, hz.2]; simp
  rw [this, abs_zero] at h
  have := zpow_pos (show (0 : ℚ) < 2 by norm_num) ex
  linarith

theorem int_refl (rr : Bool) (F : Fmt) (t : Nat) (x : Bits) (hx : x.WF F) : IntNear rr F t x x where
  wf := hx
  special _ := rfl
  exact _ _ _ := rfl
  near hf ex h1 _ _ _ := ⟨hf, val_ne_zero F x ex h1, rfl, by
    rw [sub_self, abs_zero]; exact (zpow_pos (by norm_num) _).le⟩

theorem quad_refl (rr : Bool) (F : Fmt) (t : Nat) (x : Bits) (hx : x.WF F) : QuadNear rr F t x x where
  wf := hx
  special _ := rfl
  exact _ _ _ := rfl
  near hf _ _ _ _ _ := ⟨hf, by
    rw [sub_self, abs_zero]; exact add_nonneg (zpow_pos (by norm_num) _).le (zpow_pos (by norm_num) _).le⟩

theorem ofWord_wf' (F : Fmt) (n : Nat) : (ofWord F n).WF F :=
  ⟨Nat.mod_lt _ (Nat.two_pow_pos _), Nat.mod_lt _ (Nat.two_pow_pos _)⟩

/-- What is left of a perturbation once the exceptions are dealt with. -/
theorem inexact_cases (noise : Fmt → Mca.Ctx → Int → σ → Bits → Outcome (Bits × σ)) (g : Mca.Gen σ) (T : Mca.Ty)
    (c : Mca.Ctx) (t : Nat) (hp : c.prec T = t) (ht : 1 ≤ t) (s : σ) (x : Bits) (hx : x.WF T.wide) :
    (∃ s', Mca.inexact noise g T.wide c (c.prec T) s x = .ok (x, s')) ∨
      ¬ Mca.Special T.wide x ∧ (c.mode = .rr → x.exp ≠ 0 → ¬ BitsAtMost T.wide t x) ∧
        ∃ s', Mca.inexact noise g T.wide c (c.prec T) s x = noise T.wide c t s' x := by
  by_cases hn : Mca.mustNotBeNoised T.wide c.mode (c.prec T) x
  · refine .inl ⟨s, ?_⟩
    unfold Mca.inexact
    rw [if_pos hn]
  · by_cases hk : (Mca.skipEval g c.sparsity s).1
    · refine .inl ⟨(Mca.skipEval g c.sparsity s).2, ?_⟩
      unfold Mca.inexact
      rw [if_neg hn]
      dsimp only
      rw [if_pos hk]
    · refine .inr ⟨?_, ?_, (Mca.skipEval g c.sparsity s).2, ?_⟩
      · intro h
        obtain ⟨h1, h2⟩ := (Mca.classify_special T.wide (wide_ew T) x).1 h
        exact hn (by simp [Mca.mustNotBeNoised, h1, h2])
      · intro hm h0 hb
        have := Mca.C22_rr_exact (fun _ _ _ (s : Unit) x => (Outcome.ok (fneg x, s) : Outcome (Bits × Unit))) ⟨fun s => (0, s)⟩ T
          { c with sparsity := 1 } hm t ht () x hx h0 hb
        rw [← hp] at this
        unfold Mca.inexact at this
        rw [if_neg (by simpa using hn)] at this
        simp only [Mca.skipEval, le_refl, if_true, Bool.false_eq_true, if_false] at this
        have := congrArg (fun p => p.1.sign) (Outcome.ok.inj this)
        simp [fneg] at this
      · unfold Mca.inexact
        rw [if_neg hn]
        dsimp only
        rw [if_neg hk, hp]

theorem int_near (g : Mca.Gen σ) (T : Mca.Ty) (c : Mca.Ctx) (t : Nat) (hp : c.prec T = t) (ht : 1 ≤ t)
    (htm : t ≤ T.wide.mw) (s : σ) (x : Bits) (hx : x.WF T.wide) :
    ∃ y s', Mca.intInexact .wrap g T c s x = .ok (y, s') ∧ IntNear (c.mode = .rr) T.wide t x y := by
  rcases inexact_cases (Mca.intPerturb .wrap g) g T c t hp ht s x hx with ⟨s', h⟩ | ⟨hsp, hex, s', h⟩
  · exact ⟨x, s', h, int_refl _ _ _ _ hx⟩
  · have h' : Mca.intInexact .wrap g T c s x = _ := h
    rw [h']
    unfold Mca.intPerturb
    by_cases h1 : 1 ≤ x.exp
    · have hfin : x.exp < T.wide.expInf := fin_lt hx (Mca.not_special _ _ hsp).1
      obtain ⟨y, hy, y1, y2, y3, y4, y5, y6, y7, -⟩ :=
        Mca.C19_bound .wrap T.wide (Mca.wide_ty T) t ht htm (g.next s').1 x hx h1 hfin
      rw [hy]
      refine ⟨y, _, rfl, y1, fun h => absurd h hsp, fun h h0 hb => absurd hb (hex (by simpa using h) h0), ?_⟩
      intro hf ex e1 e2 e3 e4
      have := Mca.exp_of_val T.wide x hx h1 ex e1 e2
      obtain ⟨-, -, -, hinf, -⟩ := Mca.wide_bias T.wide (Mca.wide_ty T)
      refine ⟨y6 (by omega), y3, y2, ?_⟩
      rw [← this]
      exact y7
    · have hw : ∃ y, Mca.intNoise .wrap T.wide t (g.next s').1 x = .ok y ∧ y.WF T.wide := by
        unfold Mca.intNoise Mca.sar Mca.sadd
        simp only [or_true, if_true]
        split
        · exact ⟨_, rfl, ofWord_wf' _ _⟩
        · exact ⟨_, rfl, ofWord_wf' _ _⟩
      obtain ⟨y, hy, y1⟩ := hw
      rw [hy]
      refine ⟨y, _, rfl, y1, fun h => absurd h hsp, fun _ h0 => absurd (by omega) h0, ?_⟩
      intro hf ex e1 e2 e3 e4
      exact absurd (normal_of_val _ _ hx ex e1 e3) h1

theorem quadNoise_wide (F : Fmt) (hF : Mca.Wide F) (e : Int) (w : BitVec 64) : (Mca.quadNoise F e w).WF F := by
  obtain ⟨c1, -⟩ := Mca.centred_spec F hF w
  rw [Mca.quadNoise_eq]
  refine ⟨?_, c1.2⟩
  show (((Mca.centred F w).exp + e) % 2 ^ F.ew).toNat < 2 ^ F.ew
  have h1 := Int.emod_lt_of_pos ((Mca.centred F w).exp + e) (show (0 : Int) < 2 ^ F.ew by positivity)
  have h2 := Int.emod_nonneg ((Mca.centred F w).exp + e) (show (2 : Int) ^ F.ew ≠ 0 by positivity)
  have h3 : ((2 ^ F.ew : Nat) : Int) = 2 ^ F.ew := by push_cast; rfl
  omega

theorem quad_near (g : Mca.Gen σ) (hg : ∀ s, Mca.drawn (g.next s).1 ≠ 2 ^ 51) (T : Mca.Ty) (c : Mca.Ctx)
    (hr : c.relErr = true) (hb : c.absErr = false) (t : Nat) (hp : c.prec T = t) (ht : 1 ≤ t) (s : σ) (x : Bits)
    (hx : x.WF T.wide) :
    ∃ y s', Mca.quadInexact g T c s x = .ok (y, s') ∧ QuadNear (c.mode = .rr) T.wide t x y := by
  rcases inexact_cases (Mca.quadPerturb g) g T c t hp ht s x hx with ⟨s', h⟩ | ⟨hsp, hex, s', h⟩
  · exact ⟨x, s', h, quad_refl _ _ _ _ hx⟩
  · have h' : Mca.quadInexact g T c s x = _ := h
    rw [h']
    unfold Mca.quadPerturb
    simp only [hr, hb, if_true, Bool.false_eq_true, if_false]
    refine ⟨_, _, rfl, ?_, fun h => absurd h hsp, fun h h0 hb => absurd hb (hex (by simpa using h) h0), ?_⟩
    · exact operatorC_wf _ (wide_mw T) _ _ hx (quadNoise_wide _ (Mca.wide_ty T) _ _) .add
    · intro hf ex e1 e2 e3 e4
      have h1 : 1 ≤ x.exp := normal_of_val _ _ hx ex e1 (by omega)
      have he := Mca.exp_of_val T.wide x hx h1 ex e1 e2
      exact (Mca.C21_bound_partial T.wide (Mca.wide_ty T) t ht (g.next s').1 (hg s') x hx h1 ex he.symm (by omega) e4).2

/-! ## Operations -/

theorem noiseList_near (inex : σ → Bits → Outcome (Bits × σ)) (F : Fmt) (N : Bits → Bits → Prop)
    (h : ∀ s x, x.WF F → ∃ y s', inex s x = .ok (y, s') ∧ N x y) (l : List Bits) (hl : ∀ x ∈ l, x.WF F) (s : σ) :
    ∃ l' s', Mca.noiseList inex s l = .ok (l', s') ∧ List.Forall₂ N l l' := by
  induction l generalizing s with
  | nil => exact ⟨[], s, rfl, .nil⟩
  | cons x l ih =>
    obtain ⟨y, s1, h1, h2⟩ := h s x (hl x (by simp))
    obtain ⟨l', s2, h3, h4⟩ := ih (fun a ha => hl a (by simp [ha])) s1
    refine ⟨y :: l', s2, ?_, .cons h2 h4⟩
    unfold Mca.noiseList
    rw [h1]
    simp only [Outcome.bind_ok]
    rw [h3]
    rfl

theorem opN_near (T : Mca.Ty) (inex : σ → Bits → Outcome (Bits × σ)) (N : Bits → Bits → Prop)
    (h : ∀ s x, x.WF T.wide → ∃ y s', inex s x = .ok (y, s') ∧ N x y ∧ y.WF T.wide) (f : List Bits → Bits)
    (hf : ∀ l : List Bits, (∀ x ∈ l, x.WF T.wide) → (f l).WF T.wide)
    (cfg : Mca.Ctx) (s : σ) (l : List Bits) :
    let ops := l.map fun a => fconv T.fmt T.wide (if cfg.daz then Mca.flush a else a)
    ∃ args z s', (if cfg.mode = .pb ∨ cfg.mode = .mca then List.Forall₂ N ops args else args = ops) ∧
      (if cfg.mode = .rr ∨ cfg.mode = .mca then N (f args) z else z = f args) ∧ args.length = l.length ∧
      Mca.opN T inex f cfg s l =
        .ok (if cfg.ftz then Mca.flush (fconv T.wide T.fmt z) else fconv T.wide T.fmt z, s') := by
  intro ops
  have hops : ((if cfg.daz then l.map (Fp.daz T.fmt) else l).map (fconv T.fmt T.wide)) = ops := by
    have e : (Fp.daz T.fmt) = Mca.flush := funext fun x => Mca.daz_eq_flush T.fmt (by cases T <;> decide) x
    rw [e]
    show _ = l.map _
    cases cfg.daz <;> simp [List.map_map, Function.comp_def]
  have hlen : ops.length = l.length := by simp [ops]
  have hwf : ∀ x ∈ ops, x.WF T.wide := by
    intro x hx
    obtain ⟨a, -, rfl⟩ := List.mem_map.1 hx
    exact fconv_wf _ _ (wide_mw T) _
  have h1 : ∃ args s1, (if cfg.mode = .pb ∨ cfg.mode = .mca then Mca.noiseList inex s ops else .ok (ops, s)) = .ok (args, s1) ∧
      (if cfg.mode = .pb ∨ cfg.mode = .mca then List.Forall₂ N ops args else args = ops) ∧ args.length = l.length ∧
      ∀ x ∈ args, x.WF T.wide := by
    split
    · obtain ⟨l', s1, e1, e2⟩ := noiseList_near inex T.wide (fun x y => N x y ∧ y.WF T.wide) h ops hwf s
      refine ⟨l', s1, e1, e2.imp fun _ _ h => h.1, by rw [← e2.length_eq, hlen], ?_⟩
      intro x hx
      obtain ⟨i, hi, rfl⟩ := List.getElem_of_mem hx
      exact ((List.forall₂_iff_get.1 e2).2 i (by rw [e2.length_eq]; exact hi) hi).2
    · exact ⟨ops, s, rfl, rfl, hlen, hwf⟩
  obtain ⟨args, s1, a1, a2, a3, a4⟩ := h1
  have h2 : ∃ z s2, (if cfg.mode = .rr ∨ cfg.mode = .mca then inex s1 (f args) else .ok (f args, s1)) = .ok (z, s2) ∧
      (if cfg.mode = .rr ∨ cfg.mode = .mca then N (f args) z else z = f args) := by
    split
    · obtain ⟨z, s2, e1, e2, -⟩ := h s1 (f args) (hf args a4)
      exact ⟨z, s2, e1, e2⟩
    · exact ⟨_, _, rfl, rfl⟩
  obtain ⟨z, s2, z1, z2⟩ := h2
  refine ⟨args, z, s2, a2, z2, a3, ?_⟩
  unfold Mca.opN
  simp only [hops]
  rw [a1]
  simp only [Outcome.bind_ok]
  rw [z1]
  simp only [Outcome.bind_ok]
  cases cfg.ftz
  · simp
  · simp only [if_true, Mca.flush_back]

theorem mcaFun_wide (a : Wrapper.Arith) (p : Wrapper.Prec) (G : Fmt) (l : List Bits) (hl : l.length = 2) :
    mcaFun a G l = wideOp (.arith a p) G l := by
  match l, hl with
  | [c, d], _ => cases a <;> rfl

theorem mcaFun_wf (a : Wrapper.Arith) (G : Fmt) (hG : 1 ≤ G.mw) (l : List Bits) (hl : ∀ x ∈ l, x.WF G) : (mcaFun a G l).WF G := by
  have hz : (zeroBits false).WF G := ⟨by simp [zeroBits], by simp [zeroBits]⟩
  have h : ∀ k, (l.getD k (zeroBits false)).WF G := by
    intro k
    by_cases hk : k < l.length
    · rw [List.getD_eq_getElem _ _ hk]; exact hl _ (List.getElem_mem hk)
    · rw [List.getD_eq_default _ _ (by omega)]; exact hz
  cases a
  · exact operatorC_wf G hG _ _ (h 0) (h 1) .add
  · exact operatorC_wf G hG _ _ (h 0) (h 1) .sub
  · exact operatorC_wf G hG _ _ (h 0) (h 1) .mul
  · exact operatorC_wf G hG _ _ (h 0) (h 1) .div

theorem wideFma_wf (G : Fmt) (hG : 1 ≤ G.mw) (l : List Bits) (hl : ∀ x ∈ l, x.WF G) : (Mca.wideFma G l).WF G := by
  refine ffma_wf G hG _ _ _ ?_
  by_cases hk : 2 < l.length
  · rw [List.getD_eq_getElem _ _ hk]; exact hl _ (List.getElem_mem hk)
  · rw [List.getD_eq_default _ _ (by omega)]; exact ⟨by simp [zeroBits], by simp [zeroBits]⟩

/-- A perturbation with a promise makes a backend that keeps it. -/
theorem mca_meets (noise : Fmt → Mca.Ctx → Int → σ → Bits → Outcome (Bits × σ)) (g : Mca.Gen σ) (cfg : Mca.Ctx)
    (N : Mca.Ty → Bits → Bits → Prop)
    (h : ∀ T s x, x.WF T.wide → ∃ y s', Mca.inexact noise g T.wide cfg (cfg.prec T) s x = .ok (y, s') ∧ N T x y ∧ y.WF T.wide)
    (fl : Flags) (hfc : fl.fcmp = false) (bs : List (Wrapper.Backend σ κ)) (ctx : Nat → κ) :
    Meets fl (McaContract cfg N) (bs ++ [mcaBackend noise g cfg]) ctx := by
  have hid : ∀ (T : Mca.Ty) (z : Bits),
      fconv T.fmt T.fmt (if cfg.ftz then Mca.flush (fconv T.wide T.fmt z) else fconv T.wide T.fmt z) =
        if cfg.ftz then Mca.flush (fconv T.wide T.fmt z) else fconv T.wide T.fmt z := by
    intro T z
    have hew : 2 ≤ T.fmt.ew := by cases T <;> decide
    split
    · unfold Mca.flush
      split
      · exact fconv_zero T.fmt T.fmt hew hew false
      · exact fconv_idem _ _ (fmt_mw T) hew _
    · exact fconv_idem _ _ (fmt_mw T) hew _
  refine meets_last fl _ _ (fun o ho => ?_) bs ctx
  rcases o with ⟨a, p⟩ | p | p | _
  · refine ⟨_, rfl, fun x _ s => ?_⟩
    obtain ⟨args, z, s', h1, h2, h3, h4⟩ := opN_near (mcaTy p) _ (N (mcaTy p)) (h (mcaTy p)) (mcaFun a (mcaTy p).wide)
      (mcaFun_wf a _ (wide_mw _)) cfg s [operand (mcaTy p).fmt x 0, operand (mcaTy p).fmt x 1]
    rw [mcaFun_wide a p _ args h3] at h2
    refine ⟨_, s', ?_, ⟨args, z, ?_, h2, rfl⟩, fun c => ?_⟩
    · exact fconv_wf _ _ (by cases p <;> simp [resultFmt, fmtOf, b32, b64]) _
    · cases p <;> exact h1
    · show store (mcaTy p).fmt c s (Mca.opN (mcaTy p) _ _ cfg s _) = _
      rw [h4]
      have : resultFmt (.arith a p) = (mcaTy p).fmt := by cases p <;> rfl
      rw [this]
      exact congrArg (fun r => (some (image (mcaTy p).fmt r), s')) (hid (mcaTy p) z).symm
  · simp [Wrapper.emitted, hfc] at ho
  · refine ⟨_, rfl, fun x _ s => ?_⟩
    obtain ⟨args, z, s', h1, h2, h3, h4⟩ := opN_near (mcaTy p) _ (N (mcaTy p)) (h (mcaTy p)) (Mca.wideFma (mcaTy p).wide)
      (wideFma_wf _ (wide_mw _)) cfg s [operand (mcaTy p).fmt x 0, operand (mcaTy p).fmt x 1, operand (mcaTy p).fmt x 2]
    have hw : Mca.wideFma (mcaTy p).wide args = wideOp (.fma p) (mcaTy p).wide args := by
      match args, h3 with
      | [c, d, e], _ => rfl
    rw [hw] at h2
    refine ⟨_, s', ?_, ⟨args, z, ?_, h2, rfl⟩, fun c => ?_⟩
    · exact fconv_wf _ _ (by cases p <;> simp [resultFmt, fmtOf, b32, b64]) _
    · cases p <;> exact h1
    · show store (mcaTy p).fmt c s (Mca.opN (mcaTy p) _ _ cfg s _) = _
      rw [h4]
      have : resultFmt (.fma p) = (mcaTy p).fmt := by cases p <;> rfl
      rw [this]
      exact congrArg (fun r => (some (image (mcaTy p).fmt r), s')) (hid (mcaTy p) z).symm
  · refine ⟨_, rfl, fun x _ s => ?_⟩
    obtain ⟨args, z, s', h1, h2, h3, h4⟩ := opN_near .f64 _ (N .f64) (h .f64)
      (fun l => fconv b32 b128 (fconv b128 b32 (l.headD (zeroBits false)))) (fun l _ => fconv_wf _ _ (by decide) _) cfg s
      [operand b64 x 0]
    have hw : fconv b32 b128 (fconv b128 b32 (args.headD (zeroBits false))) = wideOp .cast b128 args := by
      match args, h3 with
      | [c], _ => rfl
    simp only [hw] at h2
    refine ⟨_, s', ?_, ⟨args, z, h1, h2, rfl⟩, fun c => ?_⟩
    · exact fconv_wf _ _ (by decide) _
    · show store b32 c s (Mca.castOp _ cfg s _) = _
      unfold Mca.castOp
      rw [show Mca.opN .f64 (Mca.inexact noise g b128 cfg (cfg.prec .f64)) _ cfg s [operand b64 x 0] = _ from h4]
      rfl

/-- **C96** Integer MCA: at every precision from 1 to the width of the mantissa of the wide type, in every mode, with
every sparsity, `daz` and `ftz`, whatever the generator and the backends before it. -/
theorem C96_int_partial (g : Mca.Gen σ) (cfg : Mca.Ctx) (t : Mca.Ty → Nat) (hp : ∀ T, cfg.prec T = t T)
    (ht : ∀ T, 1 ≤ t T ∧ t T ≤ T.wide.mw) (fl : Flags) (hfc : fl.fcmp = false) (bs : List (Wrapper.Backend σ κ)) (ctx : Nat → κ) :
    Meets fl (McaContract cfg fun T => IntNear (cfg.mode = .rr) T.wide (t T)) (bs ++ [mcaIntBackend .wrap g cfg]) ctx := by
  refine mca_meets _ g cfg _ (fun T s x hx => ?_) fl hfc bs ctx
  obtain ⟨y, s', h1, h2⟩ := int_near g T cfg (t T) (hp T) (ht T).1 (ht T).2 s x hx
  exact ⟨y, s', h1, h2, h2.wf⟩

/-- **C96** The quad backend, with relative errors and a generator that does not draw one half (C21). -/
theorem C96_quad_partial (g : Mca.Gen σ) (hg : ∀ s, Mca.drawn (g.next s).1 ≠ 2 ^ 51) (cfg : Mca.Ctx) (hr : cfg.relErr = true)
    (hb : cfg.absErr = false) (t : Mca.Ty → Nat) (hp : ∀ T, cfg.prec T = t T) (ht : ∀ T, 1 ≤ t T) (fl : Flags)
    (hfc : fl.fcmp = false) (bs : List (Wrapper.Backend σ κ)) (ctx : Nat → κ) :
    Meets fl (McaContract cfg fun T => QuadNear (cfg.mode = .rr) T.wide (t T)) (bs ++ [mcaBackend (Mca.quadPerturb g) g cfg]) ctx := by
  refine mca_meets _ g cfg _ (fun T s x hx => ?_) fl hfc bs ctx
  obtain ⟨y, s', h1, h2⟩ := quad_near g hg T cfg hr hb (t T) (hp T) (ht T) s x hx
  exact ⟨y, s', h1, h2, h2.wf⟩

end Verif.Pass
