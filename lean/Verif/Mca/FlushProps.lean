import Verif.Mca.IeeeProps

/-!
# Property C56: `--daz` and `--ftz` in the MCA backends

Documentation: doc/02-Backends.md:254-256, "flush subnormal inputs to 0", "flush
subnormal output to 0".
-/

namespace Verif.Mca
open Verif Verif.Fp

/-- A subnormal number: exponent field zero, nonzero mantissa field. -/
def Subnormal (x : Bits) : Prop := x.exp = 0 ∧ x.man ≠ 0

instance (x : Bits) : Decidable (Subnormal x) := inferInstanceAs (Decidable (_ ∧ _))

/-- Subnormals replaced by positive zero. -/
def flush (x : Bits) : Bits := if Subnormal x then zeroBits false else x

theorem daz_eq_flush (F : Fmt) (hew : 2 ≤ F.ew) (x : Bits) : Fp.daz F x = flush x := by
  have := expInf_ge F hew
  unfold Fp.daz flush classify Subnormal
  by_cases h0 : x.exp = 0
  · have : ¬ (0 = F.expInf) := by omega
    by_cases hm : x.man = 0 <;> simp [h0, hm, this]
  · simp [h0]
    split_ifs <;> simp_all

theorem flush_wf {F : Fmt} {x : Bits} (h : x.WF F) : (flush x).WF F := by
  unfold flush
  split
  · exact ⟨by simp [zeroBits], by simp [zeroBits]⟩
  · exact h

theorem not_subnormal_flush (x : Bits) : ¬ Subnormal (flush x) := by
  unfold flush
  split
  · simp [Subnormal, zeroBits]
  · assumption

variable {σ : Type}

/-- **C56**, `--daz`: an operation of any number of operands behaves as the same
operation without the option on the flushed operands. -/
theorem C56_daz (T : Ty) (inex : σ → Bits → Outcome (Bits × σ)) (f : List Bits → Bits) (c : Ctx)
    (s : σ) (args : List Bits) :
    opN T inex f { c with daz := true } s args = opN T inex f { c with daz := false } s (args.map flush) := by
  have : args.map (Fp.daz T.fmt) = args.map flush :=
    List.map_congr_left fun x _ => daz_eq_flush T.fmt (by cases T <;> decide) x
  unfold opN
  simp only [if_true, Bool.false_eq_true, if_false, this]

/-- Narrowing, flushing, widening and narrowing again is narrowing and flushing. -/
theorem flush_back (T : Ty) (res : Bits) :
    fconv T.wide T.fmt (fconv T.fmt T.wide (Fp.daz T.fmt (fconv T.wide T.fmt res))) =
      flush (fconv T.wide T.fmt res) := by
  obtain ⟨D, h⟩ := wider_ty T
  have hmw : 1 ≤ T.fmt.mw := by cases T <;> decide
  have hy := fconv_wf T.wide T.fmt hmw res
  rw [daz_eq_flush T.fmt h.ewF, fconv_trans h T.fmt h.ewF _ (flush_wf hy)]
  unfold flush
  split
  · exact fconv_zero T.fmt T.fmt h.ewF h.ewF false
  · exact fconv_idem T.wide T.fmt hmw h.ewF res

/-- **C56**, `--ftz`: the result is the flushed result of the same operation without
the option; in particular it is never subnormal. -/
theorem C56_ftz (T : Ty) (inex : σ → Bits → Outcome (Bits × σ)) (f : List Bits → Bits) (c : Ctx)
    (s : σ) (args : List Bits) :
    opN T inex f { c with ftz := true } s args =
      opN T inex f { c with ftz := false } s args >>= fun (r, s) => .ok (flush r, s) := by
  unfold opN
  simp only [if_true, Bool.false_eq_true, if_false]
  generalize (if c.mode = .pb ∨ c.mode = .mca then noiseList inex s _ else Outcome.ok _) = o
  rcases o with ⟨l, s1⟩ | _ | _ <;> try rfl
  simp only [Outcome.bind_ok]
  generalize (if c.mode = .rr ∨ c.mode = .mca then inex s1 (f l) else Outcome.ok _) = o
  rcases o with ⟨r, s2⟩ | _ | _ <;> try rfl
  simp only [Outcome.bind_ok]
  rw [flush_back]

theorem C56_ftz_never (T : Ty) (inex : σ → Bits → Outcome (Bits × σ)) (f : List Bits → Bits) (c : Ctx)
    (hc : c.ftz = true) (s s' : σ) (args : List Bits) (r : Bits) (h : opN T inex f c s args = .ok (r, s')) :
    ¬ Subnormal r := by
  have hc' : c = { c with ftz := true } := by cases c; simp at hc; subst hc; rfl
  rw [hc', C56_ftz] at h
  generalize opN T inex f { c with ftz := false } s args = o at h
  rcases o with ⟨y, s1⟩ | _ | _
  · simp only [Outcome.bind_ok, Outcome.ok.injEq, Prod.mk.injEq] at h
    rw [← h.1]
    exact not_subnormal_flush y
  · simp at h
  · simp at h

/-- The perturbations do not look at the two options. -/
theorem C56_noise (sem : ShiftSem) (g : Gen σ) (T : Ty) (c : Ctx) (d z : Bool) :
    intInexact sem g T { c with daz := d, ftz := z } = intInexact sem g T c ∧
    quadInexact g T { c with daz := d, ftz := z } = quadInexact g T c := ⟨rfl, rfl⟩

/-- **C56 fails for casts**: with `--ftz`, the cast of the double `2^-130` returns a
subnormal `float`, in every mode that leaves the value alone (here ieee): the test is
made on the result as a `double`, where it is normal. -/
theorem C56_cast_wrong :
    ∃ a : Bits, a.WF b64 ∧ ∀ (σ : Type) (noise : Fmt → Ctx → Int → σ → Bits → Outcome (Bits × σ))
      (g : Gen σ) (c : Ctx) (s : σ), c.mode = .ieee → c.daz = false → c.ftz = true →
      ∃ r, castOp (inexact noise g b128 c (c.prec .f64)) c s a = .ok (r, s) ∧ Subnormal r := by
  refine ⟨⟨false, 893, 0⟩, by decide, ?_⟩
  intro σ noise g c s hm hd hf
  refine ⟨⟨false, 0, 2 ^ 19⟩, ?_, by decide⟩
  unfold castOp opN
  simp only [hm, hd, hf, Bool.false_eq_true, if_false, List.map_cons, List.map_nil, Ty.wide, Ty.fmt,
    reduceCtorEq, or_self, if_true, Outcome.bind_ok, List.headD_cons]
  have e : fconv b64 b32 (fconv b128 b64 (fconv b64 b128 (Fp.daz b64 (fconv b128 b64
      (fconv b32 b128 (fconv b128 b32 (fconv b64 b128 ⟨false, 893, 0⟩))))))) = ⟨false, 0, 2 ^ 19⟩ := by
    decide +kernel
  exact congrArg (fun r => Outcome.ok (r, s)) e

/-- The sign of a flushed number is lost: the sum of `-2^-130` and `-0` is `-2^-130`;
with `--daz` it is `+0`, and with `--ftz` as well, where the flushed sum of negative
numbers would be `-0`. -/
theorem C56_sign_lost :
    opN .f32 (intInexact .strict (σ := Unit) ⟨fun _ => (0, ())⟩ .f32 { init with mode := .ieee, daz := true })
      (wideAdd b64) { init with mode := .ieee, daz := true } () [⟨true, 0, 2 ^ 19⟩, ⟨true, 0, 0⟩] =
      .ok (⟨false, 0, 0⟩, ()) ∧
    opN .f32 (intInexact .strict (σ := Unit) ⟨fun _ => (0, ())⟩ .f32 { init with mode := .ieee, ftz := true })
      (wideAdd b64) { init with mode := .ieee, ftz := true } () [⟨true, 0, 2 ^ 19⟩, ⟨true, 0, 0⟩] =
      .ok (⟨false, 0, 0⟩, ()) := by
  decide +kernel

/-- The example of doc/02-Backends.md:258-263: `0x0.fffffep-126 + 0x1p-149` is
`0x1p-126` in ieee mode, and 0 with `--daz`. -/
example :
    opN .f32 (intInexact .strict (σ := Unit) ⟨fun _ => (0, ())⟩ .f32 { init with mode := .ieee })
      (wideAdd b64) { init with mode := .ieee } () [⟨false, 0, 2 ^ 23 - 1⟩, ⟨false, 0, 1⟩] =
      .ok (⟨false, 1, 0⟩, ()) ∧
    opN .f32 (intInexact .strict (σ := Unit) ⟨fun _ => (0, ())⟩ .f32 { init with mode := .ieee, daz := true })
      (wideAdd b64) { init with mode := .ieee, daz := true } () [⟨false, 0, 2 ^ 23 - 1⟩, ⟨false, 0, 1⟩] =
      .ok (⟨false, 0, 0⟩, ()) := by
  decide +kernel

end Verif.Mca
