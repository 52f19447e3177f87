import Verif.Pass.AbsBackends
import Verif.Pass.DotProps

/-!
# Property C112: a program

A difference that cancels and a product that underflows, with the IEEE backend, the cancellation backend and VPREC in the absolute and
combined error modes.
-/

namespace Verif.Pass.Mix.Gen
open Verif Verif.Fp

variable {σ κ : Type}

/-- `float b = 3, c = 2.1875f, t = 0x1p-100f; r = (b * b - 4 * c) + t * t`. -/
def discriminant : List (Part Nat) :=
  [{ body := [.const .float 0 fun _ => ⟨false, 128, 2 ^ 22⟩, .const .float 1 fun _ => ⟨false, 128, 3 * 2 ^ 18⟩, .const .float 2 fun _ => ⟨false, 129, 0⟩,
              .arith .float 3 .mul 0 0, .arith .float 4 .mul 2 1, .arith .float 5 .sub 3 4, .const .float 6 fun _ => ⟨false, 27, 0⟩,
              .arith .float 7 .mul 6 6, .arith .float 8 .add 5 7, .store 9 8 fun _ => 0]
     test := none
     next := fun k _ => (k, none) }]

theorem discriminant_wf : WellFormed 10 discriminant where
  ssa := by simp [discriminant, Stmt.id]
  id := by simp [discriminant, Stmt.id, Stmt.args]
  test := by simp [discriminant]

theorem discriminant_work : ([8, 7, 5, 4, 3] : List Nat).Perm (workList (opts false false) (compile (σ := σ) 10 discriminant)) :=
  show List.Perm _ [3, 4, 5, 7, 8] by decide

/-- The program, with backends that keep to errors for which the analysis finds `e`. -/
theorem discriminant_any (L : Limits) (hL : L.Ok) (e : ℚ)
    (ha : ((evalRun (absDom (opts false false) L) discriminant 1 (start (fun _ => none) 0, some 0)).any fun r =>
      r.2 == none && (r.1.cell 0).any fun v => v.prec == .float && v.val == 1 / 4 + 1 / 2 ^ 200 && decide (v.err ≤ e)) = true)
    (bs : List (Wrapper.Backend σ κ)) (ctx : Nat → κ) (rest : Instr → Nat → List Nat → Nat) (hm : Meets (opts false false) L.contract bs ctx)
    (m : Nat → Nat) (t : σ) :
    ∃ F', replaceAll wrapperSig (opts false false) (compile 10 discriminant) [8, 7, 5, 4, 3] = .ok F' ∧
      let r := run (exec (linked machine rest bs ctx)) F' 1 (enter 0 (fun _ => 0) ((m, 0), t), some 0)
      r.2 = none ∧ ∃ y : Bits, r.1.mem.1.1 0 = word b32 y ∧ y.Fin b32 ∧ |y.val b32 - (1 / 4 + 1 / 2 ^ 200)| ≤ e := by
  obtain ⟨⟨s, cur⟩, h1, h2⟩ := (Option.any_eq_true _ _).1 ha
  simp only [Bool.and_eq_true, beq_iff_eq] at h2
  obtain ⟨rfl, h4⟩ := h2
  obtain ⟨⟨p, v, e'⟩, h5, h6⟩ := (Option.any_eq_true _ _).1 h4
  simp only [Bool.and_eq_true, beq_iff_eq, decide_eq_true_eq] at h6
  obtain ⟨⟨rfl, rfl⟩, h6⟩ := h6
  obtain ⟨F', hF, -, a1, -, a3⟩ := C112_partial (opts false false) L hL machine machine_machine rest bs ctx hm (compare_off rfl _ _ _ _) 10 discriminant
    discriminant_wf [8, 7, 5, 4, 3] discriminant_work (fun _ => none) 0 1 s none h1 m (fun _ _ h => by cases h) t
  obtain ⟨y, y1, y2⟩ := a3 0 _ h5
  exact ⟨F', hF, a1, y, y2, y1.2.1, le_trans y1.2.2.2 h6⟩

/-- The machine. -/
def machineLimits : Limits := ⟨fun _ => 0, unit, unit, tiny, hostBand, hostBand, hostBand, 0, 0, ofRange mcaCastRange⟩

theorem machineLimits_ok : machineLimits.Ok where
  pos p := (zpow_pos (by norm_num) _).le
  le p := le_rfl
  abs p := (zpow_pos (by norm_num) _).le
  sum p := Band.Sub.refl _
  rest p := Band.Sub.refl _
  cast := le_rfl
  castAbs := le_rfl

/-- The IEEE backend. -/
example (count : Ieee.Op → σ → σ) (bs : List (Wrapper.Backend σ κ)) (ctx : Nat → κ) (rest : Instr → Nat → List Nat → Nat) (m : Nat → Nat) (t : σ) :
    ∃ F', replaceAll wrapperSig (opts false false) (compile 10 discriminant) [8, 7, 5, 4, 3] = .ok F' ∧
      let r := run (exec (linked machine rest (bs ++ [ieeeBackend count]) ctx)) F' 1 (enter 0 (fun _ => 0) ((m, 0), t), some 0)
      r.2 = none ∧ ∃ y : Bits, r.1.mem.1.1 0 = word b32 y ∧ y.Fin b32 ∧ |y.val b32 - (1 / 4 + 1 / 2 ^ 200)| ≤ 1 / 2 ^ 19 :=
  discriminant_any machineLimits machineLimits_ok _ (by decide +kernel) _ ctx rest
    (C112_meets _ _ _ _ (fun p => C112_ieee_partial p count _ rfl _ bs ctx) (fun h => by cases h)) m t

/-- Cancellation with tolerance 10. -/
def cancelLimits : Limits :=
  ⟨fun _ => 0, unit, fun p => cancelUnit (fmtOf p) 10, fun p => cancelTiny p 10, fun | .float => below 128 | .double => below 500,
    fun | .float => ⟨none, 127, false⟩ | .double => ⟨some (-200), 500, false⟩, fun | .float => below 127 | .double => below 500, 0, 0, ofRange mcaCastRange⟩

theorem cancelLimits_ok : cancelLimits.Ok where
  pos p := (zpow_pos (by norm_num) _).le
  le p := by cases p <;> decide +kernel
  abs p := by cases p <;> decide +kernel
  sum p := by cases p <;> exact ⟨fun l h => (by cases h), by decide, fun h => by cases h⟩
  rest p := by cases p <;> exact ⟨fun l h => (by cases h), by decide, fun h => h⟩
  cast := le_rfl
  castAbs := le_rfl

example (g : Mca.Gen σ) (hg : ∀ s, Mca.drawn (g.next s).1 ≠ 2 ^ 51) (warn : Bool) (bs : List (Wrapper.Backend σ κ)) (ctx : Nat → κ)
    (rest : Instr → Nat → List Nat → Nat) (m : Nat → Nat) (t : σ) :
    ∃ F', replaceAll wrapperSig (opts false false) (compile 10 discriminant) [8, 7, 5, 4, 3] = .ok F' ∧
      let r := run (exec (linked machine rest (bs ++ [cancelBackend g ⟨10, warn⟩]) ctx)) F' 1 (enter 0 (fun _ => 0) ((m, 0), t), some 0)
      r.2 = none ∧ ∃ y : Bits, r.1.mem.1.1 0 = word b32 y ∧ y.Fin b32 ∧ |y.val b32 - (1 / 4 + 1 / 2 ^ 200)| ≤ 1 / 2 ^ 9 :=
  discriminant_any cancelLimits cancelLimits_ok _ (by decide +kernel) _ ctx rest
    (C112_meets _ _ _ _ (fun p => by
      cases p
      · exact C112_cancellation_partial g hg ⟨10, warn⟩ (show (1 : ℤ) ≤ 10 by decide) _ rfl .float none 128 127 (by decide) (fun h => by cases h) bs ctx
      · exact C112_cancellation_partial g hg ⟨10, warn⟩ (show (1 : ℤ) ≤ 10 by decide) _ rfl .double (some (-200)) 500 500 (by decide)
          (fun _ => ⟨-200, rfl, by decide, by decide, by decide⟩) bs ctx) (fun h => by cases h)) m t

/-- VPREC in full mode with the threshold `2^-12`, and precision 16 in the combined mode. -/
def absCfg (rel : Bool) : Vprec.Config.Cfg := ⟨16, 8, 40, 11, -12, .full, rel, true, false, true⟩

def absLimits (rel : Bool) : Limits :=
  ⟨fun _ => vprecInn (absCfg rel), vprecRel (absCfg rel), vprecRel (absCfg rel), vprecAbs (absCfg rel),
    fun p => below (Vprec.Spec.emax (vprecSize (absCfg rel) p).1), fun p => below (Vprec.Spec.emax (vprecSize (absCfg rel) p).1 - 1),
    fun p => below (Vprec.Spec.emax (vprecSize (absCfg rel) p).1 - 1), 0, 0, ofRange mcaCastRange⟩

theorem absLimits_ok (rel : Bool) : (absLimits rel).Ok where
  pos p := by cases rel <;> cases p <;> decide +kernel
  le p := le_rfl
  abs p := by cases rel <;> cases p <;> decide +kernel
  sum p := by cases p <;> exact ⟨fun l h => (by cases h), sub_le_self _ (by decide), fun h => h⟩
  rest p := by cases p <;> exact ⟨fun l h => (by cases h), sub_le_self _ (by decide), fun h => h⟩
  cast := le_rfl
  castAbs := le_rfl

example (rel : Bool) (bs : List (Wrapper.Backend σ κ)) (ctx : Nat → κ) (rest : Instr → Nat → List Nat → Nat) (m : Nat → Nat) (t : σ) :
    ∃ F', replaceAll wrapperSig (opts false false) (compile 10 discriminant) [8, 7, 5, 4, 3] = .ok F' ∧
      let r := run (exec (linked machine rest (bs ++ [vprecBackend .wrap (absCfg rel)]) ctx)) F' 1 (enter 0 (fun _ => 0) ((m, 0), t), some 0)
      r.2 = none ∧ ∃ y : Bits, r.1.mem.1.1 0 = word b32 y ∧ y.Fin b32 ∧ |y.val b32 - (1 / 4 + 1 / 2 ^ 200)| ≤ 1 / 2 ^ 7 :=
  discriminant_any (absLimits rel) (absLimits_ok rel) _ (by cases rel <;> decide +kernel) _ ctx rest
    (C112_meets _ _ _ _ (fun p => C112_vprec_partial p (absCfg rel) (by cases rel <;> exact ⟨by decide, by decide, by decide, by decide⟩) rfl (by cases rel <;> decide)
      (by cases rel <;> decide) _ rfl rfl bs ctx) (fun h => by cases h)) m t

end Verif.Pass.Mix.Gen
