import Verif.Pass.VecProps
import Verif.Pass.AbsExample

/-!
# Property C113: a program

A dot product as the vectorizer of LLVM makes it, with four sums at a time that are added at the end.
-/

namespace Verif.Pass.Mix.Vec
open Verif Verif.Fp Verif.Pass Verif.Pass.Mix

variable {σ κ : Type}

/-- `for (k = 0; k < 2; k++) acc[0:4] += x[4k:4k+4] * y[4k:4k+4]; r = (acc[0] + acc[2]) + (acc[1] + acc[3])`, with `acc` in the cells from 0,
`x` in those from 4, `y` in those from 12, and `r` in cell 20. -/
def vdot : List (VPart Nat) :=
  [{ body := [.load .double 4 0 fun _ => 0, .load .double 4 1 fun k => 4 + 4 * k, .load .double 4 2 fun k => 12 + 4 * k, .arith .double 4 3 .mul 1 2,
              .arith .double 4 4 .add 0 3, .store .double 4 5 4 fun _ => 0]
     test := none
     next := fun k _ => (k + 1, if k + 1 < 2 then some 0 else some 1) },
   { body := [.load .double 4 6 fun _ => 0, .shuffle .double 4 7 6 6 [2, 3, 6, 7], .arith .double 4 8 .add 6 7, .extract .double 9 8 0,
              .extract .double 10 8 1, .scal (.arith .double 11 .add 9 10), .scal (.store 12 11 fun _ => 20)]
     test := none
     next := fun k _ => (k, none) }]

theorem vdot_wf : WellFormed 13 vdot where
  ssa := by simp [vdot, VStmt.id, Mix.Stmt.id]
  id := by simp [vdot, VStmt.id, VStmt.args, Mix.Stmt.id, Mix.Stmt.args]
  size := by simp [vdot, VStmt.Sized, Instrumented]
  test := by simp [vdot]

theorem vdot_work (fl : Flags) : ([11, 3, 8, 4] : List Nat).Perm (workList fl (compile (σ := σ) 13 vdot)) :=
  show List.Perm _ [3, 4, 8, 11] by decide

/-- `acc` is 0, `x[k]` is `k + 1`, and `y[k]` is `1 / (k + 1)` as rounded by the compiler. -/
def vdotCells (i : Nat) : Option Val :=
  if i < 4 then some ⟨.double, 0, 0⟩ else if i < 12 then some ⟨.double, i - 3, 0⟩
  else if i < 20 then some ⟨.double, 1 / (i - 11), 1 / 2 ^ 53 / (i - 11)⟩ else none

/-- The program, with backends that keep to errors for which the analysis finds `e`. -/
theorem vdot_any (tg : Target) (L : Gen.Limits) (hL : L.Ok) (e : ℚ)
    (ha : ((analyse (Gen.absDom (opts false false) L) vdot 3 (start vdotCells 0, some 0)).any fun r =>
      r.2 == none && (r.1.base.cell 20).any fun v => v.prec == .double && v.val == 8 && decide (v.err ≤ e)) = true)
    (bs : List (Wrapper.Backend σ κ)) (ctx : Nat → κ) (rest : Instr → Nat → List Nat → Nat) (hm : Meets (opts false false) L.contract bs ctx)
    (m : Nat → Nat) (hin : Holds (Gen.Within L.I) vdotCells m) (t : σ) :
    ∃ F', replaceAll (x86Sig tg) (opts false false) (compile 13 vdot) [11, 3, 8, 4] = .ok F' ∧
      let r := run (exec (linked machine rest bs ctx)) F' 3 (enter 0 (fun _ => 0) ((m, 0), t), some 0)
      r.2 = none ∧ ∃ y : Bits, r.1.mem.1.1 20 = word b64 y ∧ y.Fin b64 ∧ |y.val b64 - 8| ≤ e := by
  obtain ⟨⟨s, cur⟩, h1, h2⟩ := (Option.any_eq_true _ _).1 ha
  simp only [Bool.and_eq_true, beq_iff_eq] at h2
  obtain ⟨rfl, h4⟩ := h2
  obtain ⟨⟨p, v, e'⟩, h5, h6⟩ := (Option.any_eq_true _ _).1 h4
  simp only [Bool.and_eq_true, beq_iff_eq, decide_eq_true_eq] at h6
  obtain ⟨⟨rfl, rfl⟩, h6⟩ := h6
  obtain ⟨F', hF, -, a1, -, a3⟩ := C113_partial tg (opts false false) L hL machine machine_machine rest bs ctx hm (compare_off rfl _ _ _ _) 13 vdot
    vdot_wf [11, 3, 8, 4] (vdot_work _) vdotCells 0 3 s none h1 m hin t
  obtain ⟨y, y1, y2⟩ := a3 20 _ h5
  exact ⟨F', hF, a1, y, y2, y1.2.1, le_trans y1.2.2.2 h6⟩

/-- The IEEE backend. -/
example (tg : Target) (count : Ieee.Op → σ → σ) (bs : List (Wrapper.Backend σ κ)) (ctx : Nat → κ) (rest : Instr → Nat → List Nat → Nat) (m : Nat → Nat)
    (hin : Holds (Gen.Within Gen.machineLimits.I) vdotCells m) (t : σ) :
    ∃ F', replaceAll (x86Sig tg) (opts false false) (compile 13 vdot) [11, 3, 8, 4] = .ok F' ∧
      let r := run (exec (linked machine rest (bs ++ [ieeeBackend count]) ctx)) F' 3 (enter 0 (fun _ => 0) ((m, 0), t), some 0)
      r.2 = none ∧ ∃ y : Bits, r.1.mem.1.1 20 = word b64 y ∧ y.Fin b64 ∧ |y.val b64 - 8| ≤ 1 / 2 ^ 47 :=
  vdot_any tg Gen.machineLimits Gen.machineLimits_ok _ (by decide +kernel) _ ctx rest
    (Gen.C112_meets _ _ _ _ (fun p => Gen.C112_ieee_partial p count _ rfl _ bs ctx) (fun h => by cases h)) m hin t

/-- VPREC at precision 40 with absolute errors up to `2^-12`. -/
example (tg : Target) (rel : Bool) (bs : List (Wrapper.Backend σ κ)) (ctx : Nat → κ) (rest : Instr → Nat → List Nat → Nat) (m : Nat → Nat)
    (hin : Holds (Gen.Within (Gen.absLimits rel).I) vdotCells m) (t : σ) :
    ∃ F', replaceAll (x86Sig tg) (opts false false) (compile 13 vdot) [11, 3, 8, 4] = .ok F' ∧
      let r := run (exec (linked machine rest (bs ++ [vprecBackend .wrap (Gen.absCfg rel)]) ctx)) F' 3 (enter 0 (fun _ => 0) ((m, 0), t), some 0)
      r.2 = none ∧ ∃ y : Bits, r.1.mem.1.1 20 = word b64 y ∧ y.Fin b64 ∧ |y.val b64 - 8| ≤ 1 / 2 ^ 5 :=
  vdot_any tg (Gen.absLimits rel) (Gen.absLimits_ok rel) _ (by cases rel <;> decide +kernel) _ ctx rest
    (Gen.C112_meets _ _ _ _ (fun p => Gen.C112_vprec_partial p (Gen.absCfg rel) (by cases rel <;> exact ⟨by decide, by decide, by decide, by decide⟩) rfl
      (by cases rel <;> decide) (by cases rel <;> decide) _ rfl rfl bs ctx) (fun h => by cases h)) m hin t

/-- The loop before it is vectorized, with `r` in cell 20. -/
def sdot : List (Part Nat) :=
  [{ body := [.load 0 fun _ => 20, .load 1 fun k => 4 + k, .load 2 fun k => 12 + k, .arith .double 3 .mul 1 2, .arith .double 4 .add 0 3,
              .store 5 4 fun _ => 20]
     test := none
     next := fun k _ => (k + 1, if k + 1 < 8 then some 0 else none) }]

theorem sdot_wf : Mix.WellFormed 6 sdot where
  ssa := by simp [sdot, Mix.Stmt.id]
  id := by simp [sdot, Mix.Stmt.id, Mix.Stmt.args]
  test := by simp [sdot]

def sdotCells (i : Nat) : Option Val := if i = 20 then some ⟨.double, 0, 0⟩ else vdotCells i

/-- The vectorized loop with the IEEE backend, and the loop with VPREC with absolute errors. -/
example (tg : Target) (count : Ieee.Op → σ → σ) (bs bs' : List (Wrapper.Backend σ κ)) (ctx : Nat → κ) (rest : Instr → Nat → List Nat → Nat)
    (m m' : Nat → Nat) (hin : Holds (Gen.Within Gen.machineLimits.I) vdotCells m) (hin' : Holds (Gen.Within (Gen.absLimits false).I) sdotCells m') (t t' : σ) :
    ∃ F F', replaceAll (x86Sig tg) (opts false false) (compile 13 vdot) [11, 3, 8, 4] = .ok F ∧
      replaceAll wrapperSig (opts false false) (Mix.compile 6 sdot) [4, 3] = .ok F' ∧
      let r := run (exec (linked machine rest (bs ++ [ieeeBackend count]) ctx)) F 3 (enter 0 (fun _ => 0) ((m, 0), t), some 0)
      let r' := run (exec (linked machine rest (bs' ++ [vprecBackend .wrap (Gen.absCfg false)]) ctx)) F' 8 (enter 0 (fun _ => 0) ((m', 0), t'), some 0)
      ∃ y y', r.1.mem.1.1 20 = word b64 y ∧ r'.1.mem.1.1 20 = word b64 y' ∧ y.Fin b64 ∧ y'.Fin b64 ∧ |y.val b64 - y'.val b64| ≤ 1 / 2 ^ 5 := by
  have ha : ((analyse (Gen.absDom (opts false false) Gen.machineLimits) vdot 3 (start vdotCells 0, some 0)).any fun r =>
      (r.1.base.cell 20).any fun v => v.prec == .double && v.val == 8 && decide (v.err ≤ 1 / 2 ^ 47)) = true := by decide +kernel
  have hb : ((Mix.evalRun (Gen.absDom (opts false false) (Gen.absLimits false)) sdot 8 (Pass.start sdotCells 0, some 0)).any fun r =>
      (r.1.cell 20).any fun v => v.prec == .double && v.val == 8 && decide (v.err ≤ 3 / 2 ^ 7)) = true := by decide +kernel
  have hx : ((exactRun vdot 3 (start (fun i => (vdotCells i).map Val.val) 0, some 0)).any fun r => r.1.base.cell 20 == some 8) = true := by decide +kernel
  have hx' : ((Mix.evalRun exactDom sdot 8 (Pass.start (fun i => (sdotCells i).map Val.val) 0, some 0)).any fun r => r.1.cell 20 == some 8) = true := by
    decide +kernel
  obtain ⟨⟨s, cur⟩, h1, h2⟩ := (Option.any_eq_true _ _).1 ha
  obtain ⟨⟨p, v, e⟩, h5, h6⟩ := (Option.any_eq_true _ _).1 h2
  obtain ⟨⟨s', cur'⟩, k1, k2⟩ := (Option.any_eq_true _ _).1 hb
  obtain ⟨⟨p', v', e'⟩, k5, k6⟩ := (Option.any_eq_true _ _).1 k2
  simp only [Bool.and_eq_true, beq_iff_eq, decide_eq_true_eq] at h6 k6
  obtain ⟨⟨rfl, rfl⟩, h6⟩ := h6
  obtain ⟨⟨rfl, rfl⟩, k6⟩ := k6
  obtain ⟨F, F', hF, hF', y, y', b1, b2, b3, b4, b5⟩ := C113_vectorized_partial tg (opts false false) (opts false false) Gen.machineLimits (Gen.absLimits false)
    Gen.machineLimits_ok (Gen.absLimits_ok false) machine machine_machine rest (bs ++ [ieeeBackend count]) ctx
    (Gen.C112_meets _ _ _ _ (fun p => Gen.C112_ieee_partial p count _ rfl _ bs ctx) (fun h => by cases h)) (compare_off rfl _ _ _ _)
    (bs' ++ [vprecBackend .wrap (Gen.absCfg false)]) ctx
    (Gen.C112_meets _ _ _ _ (fun p => Gen.C112_vprec_partial p (Gen.absCfg false) ⟨by decide, by decide, by decide, by decide⟩ rfl
      (by decide) (by decide) _ rfl rfl bs' ctx) (fun h => by cases h)) (compare_off rfl _ _ _ _)
    13 6 vdot sdot vdot_wf sdot_wf [11, 3, 8, 4] [4, 3] (vdot_work _) (show List.Perm _ [3, 4] by decide) vdotCells sdotCells 0 0 3 8 s s' cur cur' h1 k1
    m m' hin hin' t t' 20 20 _ _ h5 k5 (fun x c x' c' hx1 hx2 => by
      rw [hx1] at hx
      rw [hx2] at hx'
      exact (beq_iff_eq.1 hx).trans (beq_iff_eq.1 hx').symm)
  refine ⟨F, F', hF, hF', y, y', b1, b2, b3, b4, le_trans b5 ?_⟩
  dsimp only
  linarith

/-- Any backends with relative errors up to `2^-40` for doubles. -/
example (tg : Target) (fl : Flags) (hf : fl.fcmp = false) (bs : List (Wrapper.Backend σ κ)) (ctx : Nat → κ) (hm : Meets fl rough.contract bs ctx)
    (rest : Instr → Nat → List Nat → Nat) (m : Nat → Nat) (hin : Inputs rough.I vdotCells m) (t : σ) :
    ∃ F', replaceAll (x86Sig tg) fl (compile 13 vdot) [11, 3, 8, 4] = .ok F' ∧
      let r := run (exec (linked machine rest bs ctx)) F' 3 (enter 0 (fun _ => 0) ((m, 0), t), some 0)
      r.2 = none ∧ ∃ y : Bits, r.1.mem.1.1 20 = word b64 y ∧ y.Fin b64 ∧ |y.val b64 - 8| ≤ 1 / 2 ^ 33 := by
  have ha : ((analyse (errDom fl rough) vdot 3 (start vdotCells 0, some 0)).any fun r =>
      r.2 == none && (r.1.base.cell 20).any fun v => v.prec == .double && v.val == 8 && decide (v.err ≤ 1 / 2 ^ 33)) = true := by
    obtain ⟨a, b, c⟩ := fl
    cases a <;> cases b <;> cases c <;> decide +kernel
  obtain ⟨⟨s, cur⟩, h1, h2⟩ := (Option.any_eq_true _ _).1 ha
  simp only [Bool.and_eq_true, beq_iff_eq] at h2
  obtain ⟨rfl, h4⟩ := h2
  obtain ⟨⟨p, v, e'⟩, h5, h6⟩ := (Option.any_eq_true _ _).1 h4
  simp only [Bool.and_eq_true, beq_iff_eq, decide_eq_true_eq] at h6
  obtain ⟨⟨rfl, rfl⟩, h6⟩ := h6
  obtain ⟨F', hF, -, a1, -, a3⟩ := C113_relative_partial tg fl rough rough_ok machine machine_machine rest bs ctx
    (by rw [show ({ fl with fcmp := false } : Flags) = fl by rw [← hf]]; exact hm) (compare_off hf _ _ _ _) 13 vdot
    vdot_wf [11, 3, 8, 4] (vdot_work _) vdotCells 0 3 s none h1 m hin t
  obtain ⟨y, y1, y2⟩ := a3 20 _ h5
  exact ⟨F', hF, a1, y, y2, y1.2.1, le_trans y1.2.2.2 h6⟩

end Verif.Pass.Mix.Vec
