import Verif.Bitmask.OpProps
import Verif.Cancel.Props
import Verif.Pass.Backends
import Verif.Pass.IeeeProgProps
import Verif.Vprec.OpsProps

/-!
# Property C91: configurations of the backends that leave programs unchanged
-/

namespace Verif.Pass
open Verif Verif.Fp

variable {P σ κ M : Type}

/-! ## Results of the machine are well-formed -/

theorem nan_wf (F : Fmt) (h : 1 ≤ F.mw) : (nanBits F).WF F := by
  have h1 : 0 < 2 ^ F.ew := by positivity
  refine ⟨?_, ?_⟩
  · show F.expInf < 2 ^ F.ew
    unfold Fmt.expInf; omega
  · exact Nat.pow_lt_pow_right (by norm_num) (by omega)

theorem inf_wf (F : Fmt) (s : Bool) : (infBits F s).WF F := by
  have h1 : 0 < 2 ^ F.ew := by positivity
  have h2 : 0 < 2 ^ F.mw := by positivity
  refine ⟨?_, h2⟩
  show F.expInf < 2 ^ F.ew
  unfold Fmt.expInf; omega

theorem operatorC_wf (F : Fmt) (hF : 1 ≤ F.mw) (a b : Bits) (ha : a.WF F) (hb : b.WF F) (o : Wrapper.Arith) :
    (operatorC F a b o).WF F := by
  have hadd : ∀ a b : Bits, a.WF F → b.WF F → (fadd F a b).WF F := by
    intro a b ha hb
    unfold fadd
    split
    · exact nan_wf F hF
    · split
      · split
        · exact nan_wf F hF
        · exact ha
      · split
        · exact hb
        · simp only
          split
          · exact Vprec.zero_wf _ _
          · exact (encode_wf _ _ _ _).1
  cases o with
  | add => exact hadd a b ha hb
  | sub => exact hadd a (fneg b) ha hb
  | mul =>
    show (fmul F a b).WF F
    unfold fmul
    split
    · exact nan_wf F hF
    · split
      · split
        · exact nan_wf F hF
        · exact inf_wf F _
      · exact (encode_wf _ _ _ _).1
  | div =>
    show (fdiv F a b).WF F
    unfold fdiv
    split
    · exact nan_wf F hF
    · split
      · split
        · exact nan_wf F hF
        · exact inf_wf F _
      · split
        · exact Vprec.zero_wf _ _
        · split
          · split
            · exact nan_wf F hF
            · exact inf_wf F _
          · unfold encodeQ
            simp only
            have hew : 0 < 2 ^ F.ew := by positivity
            have hmw : 0 < 2 ^ F.mw := by positivity
            have hE : F.expInf < 2 ^ F.ew := by unfold Fmt.expInf; omega
            split
            · rename_i h
              refine ⟨?_, Nat.mod_lt _ hmw⟩
              show _ / _ < _
              rw [Nat.div_lt_iff_lt_mul hmw]
              exact lt_trans h (Nat.mul_lt_mul_of_pos_right hE hmw)
            · exact ⟨hE, hmw⟩

theorem ffma_wf (F : Fmt) (hF : 1 ≤ F.mw) (a b c : Bits) (hc : c.WF F) : (ffma F a b c).WF F := by
  unfold ffma
  split
  · exact nan_wf F hF
  · split
    · split
      · exact nan_wf F hF
      · exact inf_wf F _
    · split
      · exact hc
      · simp only
        split
        · exact Vprec.zero_wf _ _
        · exact (encode_wf _ _ _ _).1

/-! ## Backends that give the results of the machine -/

/-- A backend whose functions store IEEE-754 results, loaded last. -/
theorem transparent_last (fl : Flags) (hfc : fl.fcmp = false) (b : Wrapper.Backend σ κ)
    (h : ∀ o, Wrapper.emitted ⟨fl.fcmp, fl.fma, fl.cast⟩ o = true → (∀ p, o ≠ .cmp p) →
      ∃ f, b o = some f ∧ ∀ x k s, ∃ s', ∀ c, f x c k s = (some (ieee o x), s'))
    (bs : List (Wrapper.Backend σ κ)) (ctx : Nat → κ) :
    Transparent fl (fun _ => True) ieee (bs ++ [b]) ctx := by
  intro o ho x s _
  have hne : ∀ p, o ≠ .cmp p := by
    rintro p rfl
    simp [Wrapper.emitted, hfc] at ho
  obtain ⟨f, hf, hk⟩ := h o ho hne
  rw [Wrapper.C30_last bs [] b ctx o x s f hf (fun c c' s => by
    obtain ⟨s', hs⟩ := hk x (ctx bs.length) s
    rw [hs, hs]) (by simp)]
  obtain ⟨s', hs⟩ := hk x (ctx bs.length) (Wrapper.scalar bs ctx o x s).2
  rw [hs]

theorem ieee_arith (a : Wrapper.Arith) (p : Wrapper.Prec) (x : List (BitVec 64)) :
    ieee (.arith a p) x = image (fmtOf p) (operatorC (fmtOf p) (operand (fmtOf p) x 0) (operand (fmtOf p) x 1) a) := by
  cases a <;> cases p <;> rfl

theorem ieee_fma (p : Wrapper.Prec) (x : List (BitVec 64)) :
    ieee (.fma p) x = image (fmtOf p)
      (ffma (fmtOf p) (operand (fmtOf p) x 0) (operand (fmtOf p) x 1) (operand (fmtOf p) x 2)) := by
  cases p <;> rfl

/-- The result of the machine for a call of VPREC. -/
theorem vprec_exact (x : List (BitVec 64)) (o : Wrapper.OpId) (k : Vprec.Ops.Call) (hk : vprecCall x o = some k) :
    image (resultFmt o) (Vprec.Ops.exact (vprecHW b32) (vprecHW b64) k) = ieee o x := by
  rcases o with ⟨a, p⟩ | p | p | _
  · cases p <;> obtain rfl := Option.some.inj hk <;> cases a <;> rfl
  · cases hk
  · cases p <;> obtain rfl := Option.some.inj hk <;> rfl
  · obtain rfl := Option.some.inj hk; rfl

theorem vprec_of (sem : ShiftSem) (cfg : Vprec.Config.Cfg) (fl : Flags) (hfc : fl.fcmp = false)
    (h : ∀ o, Wrapper.emitted ⟨fl.fcmp, fl.fma, fl.cast⟩ o = true → ∀ x k, vprecCall x o = some k →
      Vprec.Ops.exec sem (vprecHW b32) (vprecHW b64) cfg k = .ok (Vprec.Ops.exact (vprecHW b32) (vprecHW b64) k))
    (bs : List (Wrapper.Backend σ κ)) (ctx : Nat → κ) :
    Transparent fl (fun _ => True) ieee (bs ++ [vprecBackend sem cfg]) ctx := by
  refine transparent_last fl hfc _ (fun o ho hne => ?_) bs ctx
  have hc : ∀ x, ∃ k, vprecCall x o = some k := by
    intro x
    rcases o with ⟨a, p⟩ | p | p | _
    · cases p <;> exact ⟨_, rfl⟩
    · exact absurd rfl (hne p)
    · cases p <;> exact ⟨_, rfl⟩
    · exact ⟨_, rfl⟩
  refine ⟨fun x c _ s => match vprecCall x o with
    | some k => store (resultFmt o) c s (Vprec.Ops.exec sem (vprecHW b32) (vprecHW b64) cfg k >>= fun r => .ok (r, s))
    | none => (c, s), ?_, ?_⟩
  · rcases o with ⟨a, p⟩ | p | p | _
    · rfl
    · exact absurd rfl (hne p)
    · rfl
    · rfl
  · intro x _ s
    obtain ⟨k, hk⟩ := hc x
    refine ⟨s, fun c => ?_⟩
    simp only [hk, h o ho x k hk, Outcome.bind_ok, store, vprec_exact x o k hk]

/-- VPREC in ieee mode, with every option. -/
theorem vprec_ieee_transparent (sem : ShiftSem) (cfg : Vprec.Config.Cfg) (hm : cfg.mode = .ieee) (fl : Flags)
    (hfc : fl.fcmp = false) (bs : List (Wrapper.Backend σ κ)) (ctx : Nat → κ) :
    Transparent fl (fun _ => True) ieee (bs ++ [vprecBackend sem cfg]) ctx :=
  vprec_of sem cfg fl hfc (fun _ _ _ k _ => Vprec.Ops.C09_ieee_exact sem _ _ cfg k hm) bs ctx

/-- VPREC with the formats of the types, in every mode, without `--inst-cast`. -/
theorem vprec_default_transparent (cfg : Vprec.Config.Cfg) (hdef : cfg.fmt = Vprec.Config.init.fmt)
    (hrel : cfg.absErr = false) (hd : cfg.daz = false) (hf : cfg.ftz = false) (fl : Flags) (hfc : fl.fcmp = false)
    (hca : fl.cast = false) (bs : List (Wrapper.Backend σ κ)) (ctx : Nat → κ) :
    Transparent fl (fun _ => True) ieee (bs ++ [vprecBackend .wrap cfg]) ctx := by
  refine vprec_of .wrap cfg fl hfc (fun o ho x k hk => ?_) bs ctx
  have wf := fun F k => operand_wf F x k
  have hop : ∀ F : Fmt, 1 ≤ F.mw → ∀ (op : Vprec.Ops.Op2) (l : List Bits), (∀ x ∈ l, x.WF F) →
      (Vprec.Ops.apply2 ((vprecHW F).op2 op) l).WF F := by
    intro F hF op l hl
    match l, hl with
    | [], _ => exact Vprec.zero_wf _ _
    | [a], _ => exact Vprec.zero_wf _ _
    | [a, b], hl =>
      have := operatorC_wf F hF a b (hl a (by simp)) (hl b (by simp))
      cases op
      exacts [this .add, this .sub, this .mul, this .div]
    | a :: b :: c :: l, _ => exact Vprec.zero_wf _ _
  have hfm : ∀ F : Fmt, 1 ≤ F.mw → ∀ (l : List Bits), (∀ x ∈ l, x.WF F) →
      (Vprec.Ops.apply3 (vprecHW F).fma l).WF F := by
    intro F hF l hl
    match l, hl with
    | [], _ => exact Vprec.zero_wf _ _
    | [a], _ => exact Vprec.zero_wf _ _
    | [a, b], hl => exact Vprec.zero_wf _ _
    | [a, b, c], hl => exact ffma_wf F hF a b c (hl c (by simp))
    | a :: b :: c :: d :: l, _ => exact Vprec.zero_wf _ _
  have two : ∀ (F : Fmt), ∀ y ∈ [operand F x 0, operand F x 1], y.WF F := by
    intro F y hy
    simp only [List.mem_cons, List.not_mem_nil, or_false] at hy
    rcases hy with rfl | rfl <;> exact wf _ _
  have three : ∀ (F : Fmt), ∀ y ∈ [operand F x 0, operand F x 1, operand F x 2], y.WF F := by
    intro F y hy
    simp only [List.mem_cons, List.not_mem_nil, or_false] at hy
    rcases hy with rfl | rfl | rfl <;> exact wf _ _
  have key := fun k v hv => Vprec.Ops.C09_default_transparent (vprecHW b32) (vprecHW b64) cfg hdef hrel hd hf k v hv
  rcases o with ⟨a, p⟩ | p | p | _
  · cases p <;> obtain rfl := Option.some.inj hk
    · refine key (.bin32 (vprecOp a) (operand b32 x 0) (operand b32 x 1)) _ rfl ?_ ?_
      exacts [two b32, hop b32 (by decide) _]
    · refine key (.bin64 (vprecOp a) (operand b64 x 0) (operand b64 x 1)) _ rfl ?_ ?_
      exacts [two b64, hop b64 (by decide) _]
  · cases hk
  · cases p <;> obtain rfl := Option.some.inj hk
    · refine key (.fma32 (operand b32 x 0) (operand b32 x 1) (operand b32 x 2)) _ rfl ?_ ?_
      exacts [three b32, hfm b32 (by decide)]
    · refine key (.fma64 (operand b64 x 0) (operand b64 x 1) (operand b64 x 2)) _ rfl ?_ ?_
      exacts [three b64, hfm b64 (by decide)]
  · simp [Wrapper.emitted, hca] at ho

/-! ### Bitmask -/

theorem bitmask_of (g : Bitmask.Gen σ) (cfg : Bitmask.Ctx) (hd : cfg.daz = false) (hf : cfg.ftz = false)
    (hin : ∀ (T : Bitmask.Ty) (s : σ) (x : Bits), x.WF T.fmt → ∃ s', Bitmask.inexactG g T cfg s x = .ok (x, s'))
    (T : Bitmask.Ty) (f : List Bits → Bits) (s : σ) (args : List Bits) (ha : ∀ x ∈ args, x.WF T.fmt)
    (hfw : (f args).WF T.fmt) : ∃ s', Bitmask.opN g T f cfg s args = .ok (f args, s') := by
  have hl : ∀ (l : List Bits) (s : σ), (∀ x ∈ l, x.WF T.fmt) → ∃ s', Bitmask.noiseList g T cfg s l = .ok (l, s') := by
    intro l
    induction l with
    | nil => intro s _; exact ⟨s, rfl⟩
    | cons y ys ih =>
      intro s h
      obtain ⟨s1, e1⟩ := hin T s y (h y (by simp))
      obtain ⟨s2, e2⟩ := ih s1 (fun z hz => h z (by simp [hz]))
      exact ⟨s2, by simp only [Bitmask.noiseList, e1, Outcome.bind_ok, e2]⟩
  unfold Bitmask.opN
  simp only [hd, hf, Bool.false_eq_true, if_false]
  obtain ⟨s1, e1⟩ : ∃ s1, (if cfg.mode = .ib ∨ cfg.mode = .full then Bitmask.noiseList g T cfg s args else .ok (args, s)) =
      Outcome.ok (args, s1) := by
    split
    · exact hl args s ha
    · exact ⟨s, rfl⟩
  rw [e1]
  simp only [Outcome.bind_ok]
  obtain ⟨s2, e2⟩ : ∃ s2, (if cfg.mode = .ob ∨ cfg.mode = .full then Bitmask.inexactG g T cfg s1 (f args) else
      .ok (f args, s1)) = Outcome.ok (f args, s2) := by
    split
    · exact hin T s1 _ hfw
    · exact ⟨s1, rfl⟩
  rw [e2]
  exact ⟨s2, rfl⟩

theorem bitmaskTy_fmt (p : Wrapper.Prec) : (bitmaskTy p).fmt = fmtOf p := by cases p <;> rfl

theorem bitmask_transparent (g : Bitmask.Gen σ) (cfg : Bitmask.Ctx) (hd : cfg.daz = false) (hf : cfg.ftz = false)
    (hin : ∀ (T : Bitmask.Ty) (s : σ) (x : Bits), x.WF T.fmt → ∃ s', Bitmask.inexactG g T cfg s x = .ok (x, s'))
    (fl : Flags) (hfc : fl.fcmp = false) (bs : List (Wrapper.Backend σ κ)) (ctx : Nat → κ) :
    Transparent fl (fun _ => True) ieee (bs ++ [bitmaskBackend g cfg]) ctx := by
  refine transparent_last fl hfc _ (fun o _ hne => ?_) bs ctx
  have key := bitmask_of g cfg hd hf hin
  have hmw : ∀ p, 1 ≤ (fmtOf p).mw := by intro p; cases p <;> decide
  rcases o with ⟨a, p⟩ | p | p | _
  · refine ⟨_, rfl, fun x _ s => ?_⟩
    obtain ⟨s', e⟩ := key (bitmaskTy p) (binaryC (fmtOf p) a) s [operand (fmtOf p) x 0, operand (fmtOf p) x 1]
      (by
        intro y hy
        simp only [List.mem_cons, List.not_mem_nil, or_false] at hy
        rw [bitmaskTy_fmt]
        rcases hy with rfl | rfl <;> exact operand_wf _ _ _)
      (by
        rw [bitmaskTy_fmt]
        exact operatorC_wf _ (hmw p) _ _ (operand_wf _ _ _) (operand_wf _ _ _) _)
    refine ⟨s', fun c => ?_⟩
    simp only [e, store, ieee_arith]
    rfl
  · exact absurd rfl (hne p)
  · refine ⟨_, rfl, fun x _ s => ?_⟩
    obtain ⟨s', e⟩ := key (bitmaskTy p) (ternaryC (fmtOf p)) s
      [operand (fmtOf p) x 0, operand (fmtOf p) x 1, operand (fmtOf p) x 2]
      (by
        intro y hy
        simp only [List.mem_cons, List.not_mem_nil, or_false] at hy
        rw [bitmaskTy_fmt]
        rcases hy with rfl | rfl | rfl <;> exact operand_wf _ _ _)
      (by
        rw [bitmaskTy_fmt]
        exact ffma_wf _ (hmw p) _ _ _ (operand_wf _ _ _))
    refine ⟨s', fun c => ?_⟩
    simp only [e, store, ieee_fma]
    rfl
  · refine ⟨_, rfl, fun x _ s => ?_⟩
    obtain ⟨s', e⟩ := key .f64 (fun l => fconv b32 b64 (fconv b64 b32 (l.headD (zeroBits false)))) s [operand b64 x 0]
      (by
        intro y hy
        simp only [List.mem_cons, List.not_mem_nil, or_false] at hy
        subst hy
        exact operand_wf _ _ _)
      (fconv_wf b32 b64 (by decide) _)
    refine ⟨s', fun c => ?_⟩
    simp only [Bitmask.castOp, e, Outcome.bind_ok, store, List.headD_cons]
    rw [fconv_round_trip wider32 (by decide) b64]
    rfl

/-- Bitmask in ieee mode, with every option. -/
theorem bitmask_ieee_inert (g : Bitmask.Gen σ) (cfg : Bitmask.Ctx) (hm : cfg.mode = .ieee) (T : Bitmask.Ty) (s : σ)
    (x : Bits) : ∃ s', Bitmask.inexactG g T cfg s x = .ok (x, s') := by
  refine ⟨s, ?_⟩
  unfold Bitmask.inexactG
  rw [if_pos (by simp [Bitmask.mustNotBeNoised, hm])]

/-- Bitmask without an explicit precision: the masks keep everything (C25). -/
theorem bitmask_default_inert (g : Bitmask.Gen σ) (os : List Bitmask.Opt) (cfg : Bitmask.Ctx)
    (hn : ∀ T, ∀ o ∈ os, o.sets T = false) (h : Bitmask.cli os Bitmask.init = .ok cfg) (T : Bitmask.Ty) (s : σ) (x : Bits)
    (hx : x.WF T.fmt) : ∃ s', Bitmask.inexactG g T cfg s x = .ok (x, s') := by
  have key := (Bitmask.C25_default_inert T os cfg (hn T) h).2
  unfold Bitmask.inexactG
  split
  · exact ⟨s, rfl⟩
  · simp only [key x _ hx, Outcome.bind_ok]
    exact ⟨_, rfl⟩

/-! ### Cancellation -/

/-- The exponents of the operands of a sum exceed that of the result by 2046 at most. -/
theorem lost_le (F : Fmt) (hF : F = b32 ∨ F = b64) (a b : Bits) (ha : a.WF F) (hb : b.WF F) :
    max ((a.exp : Int) - F.bias) ((b.exp : Int) - F.bias) - (((fadd F a b).exp : Int) - F.bias) ≤ 2046 := by
  have hmax : F.expInf ≤ 2047 := by rcases hF with rfl | rfl <;> decide
  have hE : 2 ^ F.ew = F.expInf + 1 := by
    have : 0 < 2 ^ F.ew := by positivity
    unfold Fmt.expInf; omega
  obtain ⟨ha1, -⟩ := ha
  obtain ⟨hb1, -⟩ := hb
  rw [hE] at ha1 hb1
  by_cases h : a.exp = F.expInf ∨ b.exp = F.expInf
  · have hz : (fadd F a b).exp = F.expInf := by
      unfold fadd
      split
      · rfl
      · rename_i hn
        split
        · rename_i hi
          split
          · rfl
          · exact hi.1
        · split
          · rename_i hi
            exact hi.1
          · rename_i hi1 hi2
            unfold Bits.isNaN at hn
            unfold Bits.isInf at hi1 hi2
            exfalso
            rcases h with h | h
            · by_cases hm : a.man = 0
              · exact hi1 ⟨h, hm⟩
              · exact hn (Or.inl ⟨h, hm⟩)
            · by_cases hm : b.man = 0
              · exact hi2 ⟨h, hm⟩
              · exact hn (Or.inr ⟨h, hm⟩)
    rw [hz]
    omega
  · omega

/-- Cancellation with a tolerance no cancellation reaches. -/
theorem cancel_transparent (g : Mca.Gen σ) (cfg : Cancel.Ctx) (ht : 2047 ≤ cfg.tolerance) (fl : Flags)
    (hfc : fl.fcmp = false) (bs : List (Wrapper.Backend σ κ)) (ctx : Nat → κ) :
    Transparent fl (fun _ => True) ieee (bs ++ [cancelBackend g cfg]) ctx := by
  refine transparent_last fl hfc _ (fun o _ hne => ?_) bs ctx
  have hF : ∀ p, fmtOf p = b32 ∨ fmtOf p = b64 := by intro p; cases p <;> simp [fmtOf]
  rcases o with ⟨a, p⟩ | p | p | _
  · refine ⟨_, rfl, fun x _ s => ⟨s, fun c => ?_⟩⟩
    have hu := Cancel.C26_untouched g (fmtOf p) (cancelHW (fmtOf p)) cfg s
      (cancelOp (operand (fmtOf p) x 0) (operand (fmtOf p) x 1) a)
      (by
        intro y z w h
        cases a <;> simp only [cancelOp, Cancel.sum?, Option.some.injEq, Prod.mk.injEq, reduceCtorEq] at h
        · obtain ⟨rfl, rfl, rfl⟩ := h
          have := lost_le (fmtOf p) (hF p) _ _ (operand_wf _ x 0) (operand_wf _ x 1)
          omega
        · obtain ⟨rfl, rfl, rfl⟩ := h
          have := lost_le (fmtOf p) (hF p) _ (fneg (operand (fmtOf p) x 1)) (operand_wf _ x 0) (operand_wf _ x 1)
          have e : (fneg (operand (fmtOf p) x 1)).exp = (operand (fmtOf p) x 1).exp := rfl
          rw [e] at this
          omega)
    simp only [hu, store, ieee_arith]
    cases a <;> rfl
  · exact absurd rfl (hne p)
  · refine ⟨_, rfl, fun x _ s => ⟨s, fun c => ?_⟩⟩
    simp only [Cancel.exec, store, ieee_fma]
    rfl
  · refine ⟨_, rfl, fun x _ s => ⟨s, fun c => ?_⟩⟩
    rfl

/-! ## Programs -/

/-- Configurations said to compute as the program does: ieee modes, no precision asked of VPREC or
bitmask, a tolerance above every cancellation. -/
inductive Neutral (fl : Flags) : Wrapper.Backend σ κ → Prop
  | vprecIeee (sem : ShiftSem) (cfg : Vprec.Config.Cfg) (hm : cfg.mode = .ieee) : Neutral fl (vprecBackend sem cfg)
  | vprecDefault (cfg : Vprec.Config.Cfg) (hfmt : cfg.fmt = Vprec.Config.init.fmt) (hrel : cfg.absErr = false)
      (hd : cfg.daz = false) (hf : cfg.ftz = false) (hca : fl.cast = false) : Neutral fl (vprecBackend .wrap cfg)
  | bitmaskIeee (g : Bitmask.Gen σ) (cfg : Bitmask.Ctx) (hm : cfg.mode = .ieee) (hd : cfg.daz = false)
      (hf : cfg.ftz = false) : Neutral fl (bitmaskBackend g cfg)
  | bitmaskDefault (g : Bitmask.Gen σ) (os : List Bitmask.Opt) (cfg : Bitmask.Ctx)
      (hn : ∀ T, ∀ o ∈ os, o.sets T = false) (h : Bitmask.cli os Bitmask.init = .ok cfg) (hd : cfg.daz = false)
      (hf : cfg.ftz = false) : Neutral fl (bitmaskBackend g cfg)
  | cancellation (g : Mca.Gen σ) (cfg : Cancel.Ctx) (ht : 2047 ≤ cfg.tolerance) : Neutral fl (cancelBackend g cfg)
  | mca (noise : Fmt → Mca.Ctx → Int → σ → Bits → Outcome (Bits × σ)) (g : Mca.Gen σ) (cfg : Mca.Ctx)
      (hm : cfg.mode = .ieee) (hd : cfg.daz = false) (hf : cfg.ftz = false) (hfm : fl.fma = false) :
      Neutral fl (mcaBackend noise g cfg)

theorem neutral_transparent (fl : Flags) (hfc : fl.fcmp = false) (b : Wrapper.Backend σ κ) (hb : Neutral fl b)
    (bs : List (Wrapper.Backend σ κ)) (ctx : Nat → κ) : Transparent fl (fun _ => True) ieee (bs ++ [b]) ctx := by
  cases hb with
  | vprecIeee sem cfg hm => exact vprec_ieee_transparent sem cfg hm fl hfc bs ctx
  | vprecDefault cfg h1 h2 h3 h4 h5 => exact vprec_default_transparent cfg h1 h2 h3 h4 fl hfc h5 bs ctx
  | bitmaskIeee g cfg hm hd hf =>
    exact bitmask_transparent g cfg hd hf (fun T s x _ => bitmask_ieee_inert g cfg hm T s x) fl hfc bs ctx
  | bitmaskDefault g os cfg hn h hd hf =>
    exact bitmask_transparent g cfg hd hf (bitmask_default_inert g os cfg hn h) fl hfc bs ctx
  | cancellation g cfg ht => exact cancel_transparent g cfg ht fl hfc bs ctx
  | mca noise g cfg hm hd hf hfm => exact mca_transparent noise g cfg hm hd hf bs ctx fl hfc hfm

/-- **C91** A function compiled with Verificarlo without `--inst-fcmp`, and run with a neutral backend loaded
last, whatever the other backends do, computes what the function compiled without Verificarlo
computes on a machine with IEEE-754 arithmetic, and takes the same branches.  Partial as
`C89_refines_partial`; the default configuration of VPREC is neutral only without `--inst-cast`
(`C91_cast_wrong`), MCA in ieee mode only without `--inst-fma` (C57). -/
theorem C91_neutral_partial (sig : String → Sig) (fl : Flags) (hfc : fl.fcmp = false) (rest : Instr → Nat → List Nat → Nat)
    (b : Wrapper.Backend σ κ) (hn : Neutral fl b) (bs : List (Wrapper.Backend σ κ)) (ctx : Nat → κ)
    (F F' : Func (P × σ)) (order : List Nat) (hF : Source sig fl F) (hb : Blind F)
    (hcm : CmpTyped (fun _ => True) F) (hp : order.Perm (workList fl F)) (h : replaceAll sig fl F order = .ok F')
    (k : Nat) (hk : ∀ ins ∈ F.all, k ≤ ins.name) (hkF : k ≤ F.fresh) (param : Nat → Nat) (p : P) (s s' : σ) (n : Nat)
    (cur : Option Nat) :
    let S : Sem (P × σ) := linked ieee rest (bs ++ [b]) ctx
    (run (exec S) F' n (enter k param (p, s), cur)).1.mem.1 = (run (exec S) F n (enter k param (p, s'), cur)).1.mem.1 ∧
      (run (exec S) F' n (enter k param (p, s), cur)).2 = (run (exec S) F n (enter k param (p, s'), cur)).2 :=
  C89_transparent_partial sig fl (fun _ => True) ieee rest (bs ++ [b]) ctx (neutral_transparent fl hfc b hn bs ctx)
    F F' order hF hb hcm hp h k hk hkF param p s s' n cur

/-- `C91_neutral_partial` applies to `(a + b)²` (`squareOfSum`) with the backends as they are configured by
default and any backend before them: VPREC, bitmask, and cancellation with `--tolerance=2047`. -/
example (rest : Instr → Nat → List Nat → Nat) (g : Bitmask.Gen Nat) (g' : Mca.Gen Nat) (other : Wrapper.Backend Nat Unit)
    (F' : Func (Nat × Nat)) (h : replaceAll doubles ⟨false, false, false⟩ squareOfSum [3, 2] = .ok F')
    (b : Wrapper.Backend Nat Unit)
    (hb : b ∈ [vprecBackend .wrap Vprec.Config.init, bitmaskBackend g Bitmask.init, cancelBackend g' ⟨2047, false⟩])
    (param : Nat → Nat) (p s s' : Nat) :
    (run (exec (linked ieee rest ([other] ++ [b]) (fun _ => ()))) F' 1 (enter 2 param (p, s), some 0)).1.mem.1 =
      (run (exec (linked ieee rest ([other] ++ [b]) (fun _ => ()))) squareOfSum 1 (enter 2 param (p, s'), some 0)).1.mem.1 := by
  refine (C91_neutral_partial doubles ⟨false, false, false⟩ rfl rest b ?_ [other] (fun _ => ()) squareOfSum F' [3, 2]
    squareOfSum_source squareOfSum_blind ?_ ?_ h 2 ?_ ?_ param p s s' 1 (some 0)).1
  · simp only [List.mem_cons, List.not_mem_nil, or_false] at hb
    rcases hb with rfl | rfl | rfl
    · exact .vprecDefault _ rfl rfl rfl rfl rfl
    · exact .bitmaskDefault g [] _ (by simp) rfl rfl rfl
    · exact .cancellation g' _ (by decide)
  · intro id i pred args hi hf
    simp only [squareOfSum, Func.all, List.flatMap_cons, List.flatMap_nil, List.append_nil, List.mem_cons,
      Ins.fp.injEq, List.not_mem_nil, or_false] at hi
    rcases hi with ⟨-, rfl, -⟩ | ⟨-, rfl, -⟩ <;> cases hf
  · exact List.Perm.swap 2 3 []
  · decide
  · decide

/-! ## Where it fails -/

/-- `(float)x`, returned through the memory. -/
def narrowed : Func (Nat × σ) :=
  { blocks := [{ body := [.fp 1 ⟨.fptrunc, .scalar .double, .scalar .float⟩ 0 [0]]
                 uses := [1]
                 next := fun vals m => ((vals.headD 0, m.2), none) }]
    fresh := 2 }

/-- The wrapper of conversions. -/
def conversions : String → Sig := fun _ => ⟨[(.scalar .double, false)], .scalar .float⟩

/-- **C91** is false of VPREC as it is configured by default, with `--inst-cast`: converted to `float`, `2^-150`
gives the smallest subnormal number and not 0 (a tie, which goes to the even 0), and
`-1.5·2^-151` gives `+0` and not `-0`. -/
theorem C91_cast_wrong (rest : Instr → Nat → List Nat → Nat) (ctx : Nat → κ) (f1 f2 : Bool) :
    ∃ F' : Func (Nat × σ), replaceAll conversions ⟨f1, f2, true⟩ narrowed (workList ⟨f1, f2, true⟩ (narrowed (σ := σ))) = .ok F' ∧
      let S : Sem (Nat × σ) := linked ieee rest [vprecBackend .wrap Vprec.Config.init] ctx
      ∀ (m : Nat × σ),
        (run (exec S) narrowed 1 (enter 1 (fun _ => 0x3690000000000000) m, some 0)).1.mem.1 = 0 ∧
        (run (exec S) F' 1 (enter 1 (fun _ => 0x3690000000000000) m, some 0)).1.mem.1 = 1 ∧
        (run (exec S) narrowed 1 (enter 1 (fun _ => 0xb688000000000000) m, some 0)).1.mem.1 = 0x80000000 ∧
        (run (exec S) F' 1 (enter 1 (fun _ => 0xb688000000000000) m, some 0)).1.mem.1 = 0 := by
  have hi : ∀ a b, instrument conversions ⟨a, b, true⟩ ⟨.fptrunc, .scalar .double, .scalar .float⟩ =
      .ok (.replaced "_doubletofloatcast" [.direct] .call) := by decide +kernel
  have hl : workList ⟨f1, f2, true⟩ (narrowed (σ := σ)) = [1] := rfl
  rw [hl]
  simp only [replaceAll, replaceOne, findFp, narrowed, List.flatMap_cons, List.flatMap_nil, List.append_nil,
    List.findSome?_cons, if_true, hi, Outcome.bind_ok, expand]
  refine ⟨_, rfl, ?_⟩
  intro m
  refine ⟨?_, ?_, ?_, ?_⟩
  · show pack 32 [ieee .cast (laneArgs 64 none [0x3690000000000000] 0)] = 0
    decide +kernel
  · show pack 32 [(scalarWrapper [vprecBackend .wrap Vprec.Config.init] ctx .cast (laneArgs 64 none [0x3690000000000000] 0) m.2).1] = 1
    have : Vprec.Ops.castOp .wrap Vprec.Config.init (operand b64 (laneArgs 64 none [0x3690000000000000] 0) 0) = .ok ⟨false, 0, 1⟩ := by
      decide +kernel
    simp only [scalarWrapper, Wrapper.scalar, Wrapper.callFrom, vprecBackend, vprecCall, Vprec.Ops.exec, this,
      Outcome.bind_ok, store, Option.getD_some]
    decide +kernel
  · show pack 32 [ieee .cast (laneArgs 64 none [0xb688000000000000] 0)] = 0x80000000
    decide +kernel
  · show pack 32 [(scalarWrapper [vprecBackend .wrap Vprec.Config.init] ctx .cast (laneArgs 64 none [0xb688000000000000] 0) m.2).1] = 0
    have : Vprec.Ops.castOp .wrap Vprec.Config.init (operand b64 (laneArgs 64 none [0xb688000000000000] 0) 0) = .ok ⟨false, 0, 0⟩ := by
      decide +kernel
    simp only [scalarWrapper, Wrapper.scalar, Wrapper.callFrom, vprecBackend, vprecCall, Vprec.Ops.exec, this,
      Outcome.bind_ok, store, Option.getD_some]
    decide +kernel

/-- The bound on the tolerance cannot be lowered: with 2046, the largest number minus itself is not 0. -/
theorem C91_tolerance_tight :
    (Wrapper.scalar [cancelBackend ⟨fun _ => (0#64, ())⟩ ⟨2046, false⟩] (fun _ => ()) (.arith .sub .double)
      [0x7fefffffffffffff, 0x7fefffffffffffff] ()).1 ≠ some (ieee (.arith .sub .double) [0x7fefffffffffffff, 0x7fefffffffffffff]) := by
  decide +kernel

end Verif.Pass
