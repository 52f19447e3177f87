import Verif.Cli.AbsProgProps
import Verif.Pass.VecExample

/-!
# Properties C104 and C113: programs with vectors behind the backends of `VFC_BACKENDS`
-/

namespace Verif.Cli
open Verif Verif.Fp Verif.Pass Verif.Pass.Mix Verif.Pass.Mix.Gen
variable {σ κ K P : Type}

/-- **C104** The errors of programs with vectors (C113), when the backends are those `VFC_BACKENDS` names with their options: the bound is that
of the last of them. -/
theorem C104_vector_partial (tg : Vec.Target) (fl : Flags) (lib : Word → Option Kind) (sd : Word → Option Bits) (posix : Bool) (check : List Ctx → Outcome Unit) (e : Wrapper.Env)
    (cs : List Ctx) (c : Ctx) (v : Option (List Char)) (h : Wrapper.vfcInit (loadBackend lib sd posix) check e () = .ok (cs ++ [c], v, ()))
    (L : Limits) (hL : Limited { fl with fcmp := false } c L) (m : Runtime σ)
    (hg : ((∃ q, c = .mca .quad q) ∨ ∃ q, c = .cancel q) → ∀ s, Mca.drawn ((m.gen cs.length).next s).1 ≠ 2 ^ 51)
    (hck : fl.fcmp = true → ∀ l, check l = .ok () → Wrapper.checkAll ⟨fl.fcmp, fl.fma, fl.cast⟩ (backendsOf (κ := κ) m .wrap l) = .ok ())
    (op1 : Wrapper.OpId → List (BitVec 64) → BitVec 64) (hM : Mix.Machine op1) (hop : fl.fcmp = true → ∀ p x, op1 (.cmp p) x = machine (.cmp p) x)
    (rest : Instr → Nat → List Nat → Nat) (ctx : Nat → κ)
    (fresh : Nat) (prog : List (Vec.VPart K)) (hw : Vec.WellFormed fresh prog) (order : List Nat)
    (hp : order.Perm (workList fl (Vec.compile (σ := σ) fresh prog)))
    (cell : Nat → Option Mix.Val) (ctl : K) (n : Nat) (s : Vec.VAbs Mix.Val K) (cur : Option Nat)
    (he : Vec.analyse (absDom fl L) prog n (Vec.start cell ctl, some 0) = some (s, cur))
    (mem : Nat → Nat) (hin : Mix.Holds (Within L.I) cell mem) (t : σ) :
    ∃ F', replaceAll (Vec.x86Sig tg) fl (Vec.compile fresh prog) order = .ok F' ∧
      let r := run (exec (linked op1 rest (backendsOf m .wrap (cs ++ [c])) ctx)) F' n (enter 0 (fun _ => 0) ((mem, ctl), t), some 0)
      (∃ x, Vec.exactRun prog n (Vec.start (fun i => (cell i).map Mix.Val.val) ctl, some 0) = some (x, r.2) ∧ r.1.mem.1.2 = x.base.ctl ∧
        ∀ i v, s.base.cell i = some v → x.base.cell i = some v.val) ∧
      r.2 = cur ∧ r.1.mem.1.2 = s.base.ctl ∧ Mix.Holds (Within L.I) s.base.cell r.1.mem.1.1 := by
  obtain ⟨k, ws, hc⟩ := (started_configured lib sd posix check e _ v h).2.1 c (by simp)
  have hcm : Compare fl (· = olt) op1 (backendsOf m .wrap (cs ++ [c])) ctx := fun hf p x s hx => by
    rw [hop hf]
    exact C104_compare fl m .wrap (cs ++ [c]) (fun hf => hck hf _ (started_configured lib sd posix check e _ v h).2.2) ctx hf p x s hx
  rw [backendsOf_snoc] at hcm ⊢
  refine Vec.C113_partial tg fl L hL.ok op1 hM rest _ ctx
    (C104_limits_meets_partial { fl with fcmp := false } rfl sd posix k ws c hc L hL m cs.length (fun hk => hg (hk.imp (fun hk => ?_) id)) _ ctx) hcm
    fresh prog hw order hp cell ctl n s cur he mem hin t
  subst hk
  unfold configured at hc
  simp only at hc
  revert hc
  cases argpParse posix (mcaGroups .quad sd) ws Mca.Config.init with
  | ok q => intro hc; exact ⟨q, (Outcome.ok.inj hc).symm⟩
  | exit => intro hc; cases hc
  | ub => intro hc; cases hc

/-- The dot product of C113 with MCA at precision 30 for doubles and subnormals flushed, after the IEEE backend: within `2^-22`. -/
example (tg : Vec.Target) (m : Runtime σ) (hg : ∀ s, Mca.drawn ((m.gen 1).next s).1 ≠ 2 ^ 51) (rest : Instr → Nat → List Nat → Nat) (ctx : Nat → κ)
    (mem : Nat → Nat) (t : σ) (hin : Mix.Holds (Within fun p => below ((fmtOf p).bias + 1)) Vec.vdotCells mem) :
    ∃ cs v, Wrapper.vfcInit (loadBackend libs (fun _ => none) false) (fun _ => .ok ())
        ⟨some "libieee.so;libmca.so --precision-binary64=30 --daz -f".toList, none⟩ () = .ok (cs, v, ()) ∧
      ∃ F', replaceAll (Vec.x86Sig tg) (opts false false) (Vec.compile 13 Vec.vdot) [11, 3, 8, 4] = .ok F' ∧
        let r := run (exec (linked machine rest (backendsOf m .wrap cs) ctx)) F' 3 (enter 0 (fun _ => 0) ((mem, 0), t), some 0)
        r.2 = none ∧ ∃ y : Bits, r.1.mem.1.1 20 = Fp.word b64 y ∧ y.Fin b64 ∧ |y.val b64 - 8| ≤ 1 / 2 ^ 22 := by
  have h : Wrapper.vfcInit (loadBackend libs (fun _ => none) false) (fun _ => .ok ())
      ⟨some "libieee.so;libmca.so --precision-binary64=30 --daz -f".toList, none⟩ () =
      .ok ([.ieee ⟨{}, false⟩] ++ [.mca .quad { Mca.Config.init with prec64 := 30, daz := true, ftz := true }], some "libieee.so".toList, ()) := by
    decide +kernel
  have hL := Limited.quad (fl := opts false false) { Mca.Config.init with prec64 := 30, daz := true, ftz := true } (fun h => by cases h) (by decide) (by decide)
    (fun h => by cases h)
  have ha : ((Vec.analyse (absDom (opts false false) (mcaLimits ({ Mca.Config.init with prec64 := 30, daz := true, ftz := true } : Mca.Config.Cfg).ctx
      (mcaNoise ({ Mca.Config.init with prec64 := 30, daz := true, ftz := true } : Mca.Config.Cfg).ctx 24 30)
      (noiseAbs ({ Mca.Config.init with prec64 := 30, daz := true, ftz := true } : Mca.Config.Cfg).ctx) true)) Vec.vdot 3 (Vec.start Vec.vdotCells 0, some 0)).any fun r =>
      r.2 == none && (r.1.base.cell 20).any fun v => v.prec == .double && v.val == 8 && decide (v.err ≤ 1 / 2 ^ 22)) = true := by decide +kernel
  obtain ⟨⟨s, cur⟩, h1, h2⟩ := (Option.any_eq_true _ _).1 ha
  simp only [Bool.and_eq_true, beq_iff_eq] at h2
  obtain ⟨rfl, h4⟩ := h2
  obtain ⟨⟨p, w, e'⟩, h5, h6⟩ := (Option.any_eq_true _ _).1 h4
  simp only [Bool.and_eq_true, beq_iff_eq, decide_eq_true_eq] at h6
  obtain ⟨⟨rfl, rfl⟩, h6⟩ := h6
  obtain ⟨F', hF, -, a1, -, a3⟩ := C104_vector_partial tg (opts false false) _ _ _ _ _ _ _ _ h _ hL m (fun _ => hg) (fun h => by cases h) machine machine_machine
    (fun h => by cases h) rest ctx 13 Vec.vdot Vec.vdot_wf [11, 3, 8, 4] (Vec.vdot_work _) Vec.vdotCells 0 3 s none h1 mem hin t
  obtain ⟨y, y1, y2⟩ := a3 20 _ h5
  exact ⟨_, _, h, F', hF, a1, y, y2, y1.2.1, le_trans y1.2.2.2 h6⟩

end Verif.Cli
