import Verif.Mca.Config
import Verif.Mca.IntProps
import Verif.Ieee.CmpProps
import Verif.Float.Conv
import Verif.Rng.Props
import Verif.Vfi.FileProps

/-!
# C64: options of the MCA backends
-/

namespace Verif.Mca.Config
open Verif Verif.Fp
open Verif.Vprec.Config (strtol toInt)

theorem bind_ok_inv {α β : Type} {o : Outcome α} {f : α → Outcome β} {b : β}
    (h : o >>= f = .ok b) : ∃ a, o = .ok a ∧ f a = .ok b := by
  cases o with
  | ok a => exact ⟨a, rfl, h⟩
  | exit => simp at h
  | ub => simp at h

/-! ## Invariant -/

/-- What the operations rely on. -/
structure Valid (c : Cfg) : Prop where
  prec32 : 1 ≤ c.prec32
  prec64 : 1 ≤ c.prec64
  err : c.relErr = true ∨ c.absErr = true
  exp : -(2 ^ 31) ≤ c.absErrExp ∧ c.absErrExp < 2 ^ 31
  wf : c.sparsity.WF b32
  sparsity : c.sparsity.isNaN b32 ∨ 0 < Ieee.num b32 c.sparsity

/-- A `configure` request holds a `float`. -/
def Req.Wf : Req → Prop
  | .configure k => k.sparsity.WF b32
  | _ => True

theorem num_zero : Ieee.num b32 (zeroBits false) = 0 := by
  have h : (zeroBits false).val b32 = 0 := by
    simp [Bits.val, Bits.sig, zeroBits]
  unfold Ieee.num
  rw [if_neg (by decide), h]
  rfl

theorem zero_wf : (zeroBits false).WF b32 := by constructor <;> decide

theorem not_le_zero (x : Bits) (hx : x.WF b32) (h : Ieee.islessequal b32 x (zeroBits false) = false) :
    x.isNaN b32 ∨ 0 < Ieee.num b32 x := by
  have := Ieee.C27_agrees_partial b32 (by decide) .ole rfl x (zeroBits false) hx zero_wf
  by_cases hn : x.isNaN b32
  · exact Or.inl hn
  · right
    by_contra hc
    have hz : ¬ (zeroBits false).isNaN b32 := by decide
    have : Ieee.cmp b32 .ole x (zeroBits false) = true :=
      this.2 ⟨⟨hn, hz⟩, by rw [num_zero]; exact not_lt.1 hc⟩
    have : Ieee.islessequal b32 x (zeroBits false) = true := this
    rw [h] at this
    exact absurd this (by decide)

theorem toInt_range (v : Int) : -(2 ^ 31) ≤ toInt v ∧ toInt v < 2 ^ 31 := by
  unfold toInt; omega

theorem setSparsity_valid {x : Bits} {c d : Cfg} (hc : Valid c) (hx : x.WF b32) (h : setSparsity x c = .ok d) : Valid d := by
  unfold setSparsity at h
  split_ifs at h with h1
  injection h with h; subst h
  exact ⟨hc.1, hc.2, hc.3, hc.4, hx, not_le_zero x hx (by simpa using h1)⟩

theorem setPrec32_valid {v : Int} {c d : Cfg} (hc : Valid c) (h : setPrec32 v c = .ok d) : Valid d := by
  unfold setPrec32 at h
  split_ifs at h with h1
  injection h with h; subst h
  exact ⟨by simp only; omega, hc.2, hc.3, hc.4, hc.5, hc.6⟩

theorem setPrec64_valid {v : Int} {c d : Cfg} (hc : Valid c) (h : setPrec64 v c = .ok d) : Valid d := by
  unfold setPrec64 at h
  split_ifs at h with h1
  injection h with h; subst h
  exact ⟨hc.1, by simp only; omega, hc.3, hc.4, hc.5, hc.6⟩

theorem setMode_valid {m : Nat} {c d : Cfg} (hc : Valid c) (h : setMode m c = .ok d) : Valid d := by
  unfold setMode at h
  split at h <;> first | (injection h with h; subst h; exact ⟨hc.1, hc.2, hc.3, hc.4, hc.5, hc.6⟩) | exact absurd h (by simp)

theorem setErrMode_valid {m : Nat} {c d : Cfg} (hc : Valid c) (h : setErrMode m c = .ok d) : Valid d := by
  unfold setErrMode at h
  split at h <;> first | (injection h with h; subst h; exact ⟨hc.1, hc.2, by simp, hc.4, hc.5, hc.6⟩) | exact absurd h (by simp)

theorem setAbsErrExp_valid {v : Int} {c d : Cfg} (hc : Valid c) (h : setAbsErrExp v c = .ok d) : Valid d := by
  unfold setAbsErrExp at h
  injection h with h; subst h
  exact ⟨hc.1, hc.2, hc.3, toInt_range v, hc.5, hc.6⟩

theorem configure_valid {be : Backend} {k : Conf} {c d : Cfg} (hc : Valid c) (hk : k.sparsity.WF b32)
    (h : configure be k c = .ok d) : Valid d := by
  unfold configure at h
  obtain ⟨c1, h1, h⟩ := bind_ok_inv h
  obtain ⟨c2, h2, h⟩ := bind_ok_inv h
  obtain ⟨c3, h3, h⟩ := bind_ok_inv h
  obtain ⟨c4, h4, h⟩ := bind_ok_inv h
  obtain ⟨c5, h5, h⟩ := bind_ok_inv h
  obtain ⟨c6, h6, h⟩ := bind_ok_inv h
  have i0 : Valid (setSeed k.seed c) := ⟨hc.1, hc.2, hc.3, hc.4, hc.5, hc.6⟩
  have i5 := setErrMode_valid (setMode_valid (setPrec64_valid (setPrec32_valid (setSparsity_valid i0 hk h1) h2) h3) h4) h5
  have i6 : Valid c6 := by
    cases be
    all_goals
      simp only at h6
      split_ifs at h6
      · exact setAbsErrExp_valid i5 h6
      · injection h6 with h6; subst h6; exact i5
  injection h with h; subst h
  exact ⟨i6.1, i6.2, i6.3, i6.4, i6.5, i6.6⟩

theorem step_valid (be : Backend) (sd : List Char → Option Bits) (c d : Cfg) (q : Req) (hq : q.Wf) (hc : Valid c)
    (h : step be sd c q = .ok d) : Valid d := by
  cases q with
  | cliPrec32 a =>
    simp only [step, Config.cliPrec32] at h
    split at h
    · exact absurd h (by simp)
    · cases be <;> simp only at h <;> split_ifs at h <;> exact setPrec32_valid hc h
  | cliPrec64 a =>
    simp only [step, Config.cliPrec64] at h
    split at h
    · exact absurd h (by simp)
    · cases be <;> simp only at h <;> split_ifs at h <;> exact setPrec64_valid hc h
  | cliMode a => exact setMode_valid hc h
  | cliErrMode a =>
    cases be
    · exact setErrMode_valid hc h
    · exact absurd h (by simp [step])
  | cliErrExp a =>
    cases be
    · simp only [step] at h
      split at h
      · exact absurd h (by simp)
      · exact setAbsErrExp_valid hc h
    · exact absurd h (by simp [step])
  | cliSeed a =>
    simp only [step] at h
    split at h
    · exact absurd h (by simp)
    · injection h with h; subst h; exact ⟨hc.1, hc.2, hc.3, hc.4, hc.5, hc.6⟩
  | cliDaz => injection h with h; subst h; exact ⟨hc.1, hc.2, hc.3, hc.4, hc.5, hc.6⟩
  | cliFtz => injection h with h; subst h; exact ⟨hc.1, hc.2, hc.3, hc.4, hc.5, hc.6⟩
  | cliSparsity a =>
    simp only [step, Config.cliSparsity] at h
    split at h
    · exact absurd h (by simp)
    · split_ifs at h
      exact setSparsity_valid hc (fconv_wf _ _ (by decide) _) h
  | configure k => exact configure_valid hc hq h
  | callPrec32 v =>
    cases be
    · exact setPrec32_valid hc h
    · injection h with h; subst h; exact hc
  | callPrec64 v =>
    cases be
    · exact setPrec64_valid hc h
    · injection h with h; subst h; exact hc

theorem init_valid : Valid init := by
  refine ⟨by decide, by decide, by decide, by decide, by constructor <;> decide, Or.inr ?_⟩
  have h : init.sparsity.val b32 = 1 := by
    norm_num [init, one32, Bits.val, Bits.sig, Bits.lsb, sgn, b32, Fmt.bias]
  unfold Ieee.num
  rw [if_neg (by decide), h]
  exact_mod_cast one_pos

/-- **C64, invariant.**  Whatever the history of options, `configure` and `interflop_call` requests,
a process that is still running has positive precisions, an error mode with at least one of the
two noises, an exponent that fits, and a sparsity that is positive, or a NaN (`C64_nan_wrong`). -/
theorem C64_valid_partial (be : Backend) (sd : List Char → Option Bits) (qs : List Req) (hq : ∀ q ∈ qs, q.Wf) (c : Cfg)
    (h : run be sd qs init = .ok c) : Valid c := by
  have gen : ∀ (qs : List Req) (c0 : Cfg), (∀ q ∈ qs, q.Wf) → Valid c0 → run be sd qs c0 = .ok c → Valid c := by
    intro qs
    induction qs with
    | nil => intro c0 _ h0 h; injection h with h; subst h; exact h0
    | cons q qs ih =>
      intro c0 hq h0 h
      obtain ⟨c1, h1, h2⟩ := bind_ok_inv h
      exact ih c1 (fun q hm => hq q (by simp [hm])) (step_valid be sd c0 c1 q (hq q (by simp)) h0 h1) h2
  exact gen qs init hq init_valid h

/-- **C64, mcaint (and C20).**  On the command line of mcaint only the default precisions pass, so no
command line leads to an undefined shift: every perturbation of a normal number is defined. -/
theorem C64_mcaint_precision (sd : List Char → Option Bits) (qs : List Req) (hq : ∀ q ∈ qs, q.isCli = true) (c : Cfg)
    (h : run .int sd qs init = .ok c) : c.prec32 = 24 ∧ c.prec64 = 53 ∧
    ∀ (T : Ty) (w : BitVec 64) (x : Bits), x.WF T.wide → 1 ≤ x.exp → x.exp < T.wide.expInf →
      ∃ y, intNoise .strict T.wide (c.ctx.prec T) w x = .ok y := by
  have gen : ∀ (qs : List Req) (c0 : Cfg), (∀ q ∈ qs, q.isCli = true) → (c0.prec32 = 24 ∧ c0.prec64 = 53) →
      run .int sd qs c0 = .ok c → c.prec32 = 24 ∧ c.prec64 = 53 := by
    intro qs
    induction qs with
    | nil => intro c0 _ h0 h; injection h with h; subst h; exact h0
    | cons q qs ih =>
      intro c0 hq h0 h
      obtain ⟨c1, h1, h2⟩ := bind_ok_inv h
      refine ih c1 (fun q hm => hq q (by simp [hm])) ?_ h2
      have hcli := hq q (by simp)
      cases q with
      | cliPrec32 a =>
        simp only [step, Config.cliPrec32] at h1
        split at h1
        · exact absurd h1 (by simp)
        · split_ifs at h1 with e
          unfold setPrec32 at h1
          split_ifs at h1
          injection h1 with h1; subst h1
          exact ⟨not_not.1 e, h0.2⟩
      | cliPrec64 a =>
        simp only [step, Config.cliPrec64] at h1
        split at h1
        · exact absurd h1 (by simp)
        · split_ifs at h1 with e
          unfold setPrec64 at h1
          split_ifs at h1
          injection h1 with h1; subst h1
          exact ⟨h0.1, not_not.1 e⟩
      | cliMode a =>
        simp only [step, setMode] at h1
        split at h1 <;> first | (injection h1 with h1; subst h1; exact h0) | exact absurd h1 (by simp)
      | cliErrMode a => exact absurd h1 (by simp [step])
      | cliErrExp a => exact absurd h1 (by simp [step])
      | cliSeed a =>
        simp only [step] at h1
        split at h1
        · exact absurd h1 (by simp)
        · injection h1 with h1; subst h1; exact h0
      | cliDaz => injection h1 with h1; subst h1; exact h0
      | cliFtz => injection h1 with h1; subst h1; exact h0
      | cliSparsity a =>
        simp only [step, Config.cliSparsity] at h1
        split at h1
        · exact absurd h1 (by simp)
        · unfold setSparsity at h1
          split_ifs at h1
          injection h1 with h1; subst h1; exact h0
      | configure k => exact absurd hcli (by simp [Req.isCli])
      | callPrec32 v => exact absurd hcli (by simp [Req.isCli])
      | callPrec64 v => exact absurd hcli (by simp [Req.isCli])
  obtain ⟨e1, e2⟩ := gen qs init hq ⟨rfl, rfl⟩ h
  refine ⟨e1, e2, fun T w x hx hn hf => ?_⟩
  cases T
  · obtain ⟨y, hy, -⟩ := C19_bound .strict (Ty.wide .f32) (Or.inl rfl) 24 (by decide) (by decide) w x hx hn hf
    exact ⟨y, by change intNoise _ _ c.prec32 _ _ = _; rw [e1]; exact hy⟩
  · obtain ⟨y, hy, -⟩ := C19_bound .strict (Ty.wide .f64) (Or.inr rfl) 53 (by decide) (by decide) w x hx hn hf
    exact ⟨y, by change intNoise _ _ c.prec64 _ _ = _; rw [e2]; exact hy⟩

/-- **C64, negation: mcaint through `configure`.**  `configure` takes any positive precision: above 52 for
`float`, every perturbation is an undefined shift. -/
theorem C64_mcaint_configure_wrong (p : Nat) (h1 : 52 < p) (h2 : p < 2 ^ 31) (sd : List Char → Option Bits) :
    ∃ c, run .int sd [.configure ⟨0, one32, p, 53, 1, 0, 0, false, false⟩] init = .ok c ∧
      ∀ w x, intNoise .strict (Ty.wide .f32) (c.ctx.prec .f32) w x = .ub := by
  have e : toInt (p : Int) = p := by unfold toInt; omega
  have e2 : toInt (53 : Nat) = 53 := by decide
  refine ⟨{ init with prec32 := p, chooseSeed := true }, ?_, ?_⟩
  · have hs : Ieee.islessequal b32 one32 (zeroBits false) = false := by decide +kernel
    have e3 : ¬ ((p : Int) < 1) := by omega
    simp only [run, step, Config.configure, setSparsity, setPrec32, setPrec64, hs, e, e2, if_neg e3, Outcome.bind_ok,
      Bool.false_eq_true, if_false]
    rfl
  · obtain ⟨c', k1, k2, k3⟩ := C20_accepted_ub .f32 init.ctx p (by change (52 : Int) < p; omega)
    rw [k2] at k3
    exact k3

/-- `--precision-binary32=24` passes, `=23` does not. -/
example (sd : List Char → Option Bits) :
    run .int sd [.cliPrec32 "24".toList] init = .ok init ∧ run .int sd [.cliPrec32 "23".toList] init = .exit := by
  simp only [run, step]
  decide +kernel

/-! ## Documented options -/

def modeText : Mode → List Char
  | .ieee => "ieee".toList
  | .mca => "mca".toList
  | .pb => "pb".toList
  | .rr => "rr".toList

inductive Err | rel | abs | all
deriving DecidableEq, Repr

def errText : Err → List Char
  | .rel => "rel".toList
  | .abs => "abs".toList
  | .all => "all".toList

/-- An option as documented by the help text, with its value. -/
inductive Doc
  | prec32 (n : Int)
  | prec64 (n : Int)
  /-- the name in any case -/
  | mode (m : Mode) (text : List Char)
  | errMode (m : Err) (text : List Char)
  | errExp (e : Int)
  | seed (v : Int)
  | daz
  | ftz
  | sparsity (x : Bits) (text : List Char)

/-- Which options a backend documents, and with which values: "PRECISION > 0" (mcaint: the default),
"among {ieee, mca, pb, rr}", "among {rel, abs, all}", "0 < sparsity <= 1". -/
def Doc.Ok (be : Backend) (sd : List Char → Option Bits) : Doc → Prop
  | .prec32 n => match be with
    | .quad => 0 < n ∧ n < 2 ^ 31
    | .int => n = 24
  | .prec64 n => match be with
    | .quad => 0 < n ∧ n < 2 ^ 31
    | .int => n = 53
  | .mode m t => t.map Char.toLower = modeText m
  | .errMode m t => be = .quad ∧ t.map Char.toLower = errText m
  | .errExp e => be = .quad ∧ -(2 ^ 31) ≤ e ∧ e < 2 ^ 31
  | .seed v => -(2 ^ 63) ≤ v ∧ v < 2 ^ 63
  | .daz => True
  | .ftz => True
  | .sparsity x t => x.WF b32 ∧ x.Fin b32 ∧ 0 < x.val b32 ∧ x.val b32 ≤ 1 ∧ ∃ d, sd t = some d ∧ fconv b64 b32 d = x

/-- The option on the command line. -/
def Doc.req : Doc → Req
  | .prec32 n => .cliPrec32 (Vfi.dec n)
  | .prec64 n => .cliPrec64 (Vfi.dec n)
  | .mode _ t => .cliMode t
  | .errMode _ t => .cliErrMode t
  | .errExp e => .cliErrExp (Vfi.dec e)
  | .seed v => .cliSeed (Vfi.dec v)
  | .daz => .cliDaz
  | .ftz => .cliFtz
  | .sparsity _ t => .cliSparsity t

def Doc.mode? : Doc → Option Mode | .mode m _ => some m | _ => none
def Doc.prec32? : Doc → Option Int | .prec32 n => some n | _ => none
def Doc.prec64? : Doc → Option Int | .prec64 n => some n | _ => none
def Doc.err? : Doc → Option Err | .errMode m _ => some m | _ => none
def Doc.errExp? : Doc → Option Int | .errExp e => some e | _ => none
def Doc.seed? : Doc → Option Int | .seed v => some v | _ => none
def Doc.daz? : Doc → Option Unit | .daz => some () | _ => none
def Doc.ftz? : Doc → Option Unit | .ftz => some () | _ => none
def Doc.sparsity? : Doc → Option Bits | .sparsity x _ => some x | _ => none

/-- The last occurrence of an option. -/
def last {α : Type} (f : Doc → Option α) (ds : List Doc) : Option α := ds.reverse.findSome? f

theorem last_snoc {α : Type} (f : Doc → Option α) (ds : List Doc) (d : Doc) :
    last f (ds ++ [d]) = (f d).or (last f ds) := by
  unfold last
  rw [List.reverse_append, List.reverse_singleton, List.singleton_append, List.findSome?_cons]
  cases f d <;> rfl

theorem run_snoc (be : Backend) (sd : List Char → Option Bits) (qs : List Req) (q : Req) (c : Cfg) :
    run be sd (qs ++ [q]) c = run be sd qs c >>= fun c => step be sd c q := by
  induction qs generalizing c with
  | nil =>
    simp only [List.nil_append, run, Outcome.bind_ok]
    cases step be sd c q <;> rfl
  | cons r qs ih =>
    simp only [List.cons_append, run]
    cases step be sd c r with
    | ok d => simp only [Outcome.bind_ok]; exact ih d
    | exit => rfl
    | ub => rfl

/-- What the options say. -/
def meant (ds : List Doc) : Cfg where
  mode := (last Doc.mode? ds).getD .mca
  prec32 := (last Doc.prec32? ds).getD 24
  prec64 := (last Doc.prec64? ds).getD 53
  relErr := decide ((last Doc.err? ds).getD .rel ≠ .abs)
  absErr := decide ((last Doc.err? ds).getD .rel ≠ .rel)
  absErrExp := (last Doc.errExp? ds).getD 112
  daz := (last Doc.daz? ds).isSome
  ftz := (last Doc.ftz? ds).isSome
  sparsity := (last Doc.sparsity? ds).getD one32
  chooseSeed := (last Doc.seed? ds).isSome
  seed := BitVec.ofInt 64 ((last Doc.seed? ds).getD 0)

theorem strtol_dec' (n : Int) (h : -(2 ^ 63) ≤ n ∧ n < 2 ^ 63) : strtol (Vfi.dec n) = some n := by
  have := Vfi.strtol_dec64 n h [] (by simp)
  rwa [List.append_nil] at this

theorem toInt_self (n : Int) (h : -(2 ^ 31) ≤ n ∧ n < 2 ^ 31) : toInt n = n := by
  unfold toInt; omega

theorem pos_not_le (x : Bits) (hx : x.WF b32) (hf : x.Fin b32) (h : 0 < x.val b32) :
    Ieee.islessequal b32 x (zeroBits false) = false := by
  have := Ieee.C27_agrees_partial b32 (by decide) .ole rfl x (zeroBits false) hx zero_wf
  unfold Ieee.cmp at this
  rw [Bool.eq_false_iff]
  intro hc
  have := (this.1 hc).2
  rw [num_zero] at this
  unfold Ieee.num at this
  rw [if_neg (hf)] at this
  have : x.val b32 ≤ 0 := by exact_mod_cast this
  linarith

theorem one_wf : one32.WF b32 := by constructor <;> decide
theorem one_val : one32.val b32 = 1 := by norm_num [one32, Bits.val, Bits.sig, Bits.lsb, sgn, b32, Fmt.bias]
theorem num_one : Ieee.num b32 one32 = 1 := by
  unfold Ieee.num
  rw [if_neg (by decide), one_val]
  rfl

theorem le_not_gt (x : Bits) (hx : x.WF b32) (hf : x.Fin b32) (h : x.val b32 ≤ 1) :
    Ieee.isgreater b32 x one32 = false := by
  have := Ieee.C27_agrees_partial b32 (by decide) .ogt rfl x one32 hx one_wf
  unfold Ieee.cmp at this
  rw [Bool.eq_false_iff]
  intro hc
  have := (this.1 hc).2
  rw [num_one] at this
  unfold Ieee.num at this
  rw [if_neg (hf)] at this
  have : 1 < x.val b32 := by exact_mod_cast this
  linarith

/-- **C64, meaning.**  Any sequence of documented options, in any order, is accepted, and the
configuration is what the options say: each field has the value of the last option that sets it, or
its default. -/
theorem C64_meaning (be : Backend) (sd : List Char → Option Bits) (ds : List Doc) (h : ∀ d ∈ ds, d.Ok be sd) :
    run be sd (ds.map Doc.req) init = .ok (meant ds) := by
  induction ds using List.reverseRecOn with
  | nil => rfl
  | append_singleton ds d ih =>
    rw [List.map_append, List.map_singleton, run_snoc, ih (fun d hd => h d (by simp [hd])), Outcome.bind_ok]
    have hd := h d (by simp)
    cases d with
    | prec32 n =>
      cases be with
      | quad =>
        obtain ⟨h1, h2⟩ := hd
        simp only [Doc.req, step, Config.cliPrec32]
        rw [strtol_dec' n (by omega)]
        simp only [toInt_self n (by omega)]
        rw [if_neg (by omega)]
        unfold setPrec32
        rw [if_neg (by omega)]
        simp [meant, last_snoc, Doc.mode?, Doc.prec32?, Doc.prec64?, Doc.err?, Doc.errExp?, Doc.seed?, Doc.daz?, Doc.ftz?, Doc.sparsity?]
      | int =>
        have hd : n = 24 := hd
        subst hd
        simp only [Doc.req, step, Config.cliPrec32]
        rw [strtol_dec' 24 (by omega)]
        simp [toInt, setPrec32, meant, last_snoc, Doc.mode?, Doc.prec32?, Doc.prec64?, Doc.err?, Doc.errExp?, Doc.seed?, Doc.daz?, Doc.ftz?, Doc.sparsity?]
    | prec64 n =>
      cases be with
      | quad =>
        obtain ⟨h1, h2⟩ := hd
        simp only [Doc.req, step, Config.cliPrec64]
        rw [strtol_dec' n (by omega)]
        simp only [toInt_self n (by omega)]
        rw [if_neg (by omega)]
        unfold setPrec64
        rw [if_neg (by omega)]
        simp [meant, last_snoc, Doc.mode?, Doc.prec32?, Doc.prec64?, Doc.err?, Doc.errExp?, Doc.seed?, Doc.daz?, Doc.ftz?, Doc.sparsity?]
      | int =>
        have hd : n = 53 := hd
        subst hd
        simp only [Doc.req, step, Config.cliPrec64]
        rw [strtol_dec' 53 (by omega)]
        simp [toInt, setPrec64, meant, last_snoc, Doc.mode?, Doc.prec32?, Doc.prec64?, Doc.err?, Doc.errExp?, Doc.seed?, Doc.daz?, Doc.ftz?, Doc.sparsity?]
    | mode m t =>
      have hd : t.map Char.toLower = modeText m := hd
      cases m <;>
        simp [Doc.req, step, modeName, hd, modeText, setMode, meant, last_snoc, Doc.mode?, Doc.prec32?, Doc.prec64?, Doc.err?, Doc.errExp?, Doc.seed?, Doc.daz?, Doc.ftz?, Doc.sparsity?]
    | errMode m t =>
      obtain ⟨rfl, hd⟩ := hd
      cases m <;>
        simp [Doc.req, step, errModeName, hd, errText, setErrMode, meant, last_snoc, Doc.mode?, Doc.prec32?, Doc.prec64?, Doc.err?, Doc.errExp?, Doc.seed?, Doc.daz?, Doc.ftz?, Doc.sparsity?]
    | errExp e =>
      obtain ⟨rfl, h1, h2⟩ := hd
      simp only [Doc.req, step]
      rw [strtol_dec' e (by omega)]
      simp [setAbsErrExp, toInt_self e ⟨h1, h2⟩, meant, last_snoc, Doc.mode?, Doc.prec32?, Doc.prec64?, Doc.err?, Doc.errExp?, Doc.seed?, Doc.daz?, Doc.ftz?, Doc.sparsity?]
    | seed v =>
      simp only [Doc.req, step]
      rw [strtol_dec' v hd]
      simp [setSeed, meant, last_snoc, Doc.mode?, Doc.prec32?, Doc.prec64?, Doc.err?, Doc.errExp?, Doc.seed?, Doc.daz?, Doc.ftz?, Doc.sparsity?]
    | daz =>
      simp [Doc.req, step, meant, last_snoc, Doc.mode?, Doc.prec32?, Doc.prec64?, Doc.err?, Doc.errExp?, Doc.seed?, Doc.daz?, Doc.ftz?, Doc.sparsity?]
    | ftz =>
      simp [Doc.req, step, meant, last_snoc, Doc.mode?, Doc.prec32?, Doc.prec64?, Doc.err?, Doc.errExp?, Doc.seed?, Doc.daz?, Doc.ftz?, Doc.sparsity?]
    | sparsity x t =>
      obtain ⟨h1, h2, h3, h4, d, hs, rfl⟩ := hd
      simp only [Doc.req, step, Config.cliSparsity, hs]
      rw [if_neg (by rw [pos_not_le _ h1 h2 h3]; decide), if_neg (by rw [le_not_gt _ h1 h2 h4]; simp)]
      unfold setSparsity
      rw [if_neg (by rw [pos_not_le _ h1 h2 h3]; decide)]
      simp [meant, last_snoc, Doc.mode?, Doc.prec32?, Doc.prec64?, Doc.err?, Doc.errExp?, Doc.seed?, Doc.daz?, Doc.ftz?, Doc.sparsity?]

/-- The last of two options wins. -/
example (sd : List Char → Option Bits) :
    run .quad sd [.cliPrec32 "12".toList, .cliMode "RR".toList, .cliErrMode "all".toList, .cliSeed "-1".toList, .cliPrec32 "7".toList] init =
      .ok { init with prec32 := 7, mode := .rr, absErr := true, chooseSeed := true, seed := 0xFFFFFFFFFFFFFFFF } := by
  simp only [run, step]
  decide +kernel

/-! ## Refused options -/

/-- **C64, refusals.**  Numbers out of range, numbers that do not fit in a `long`, and unknown names
stop the process, in every state; mcaint refuses every precision but the default. -/
theorem C64_refused (be : Backend) (sd : List Char → Option Bits) (c : Cfg) :
    (∀ n : Int, -(2 ^ 31) ≤ n → n ≤ 0 → step be sd c (.cliPrec32 (Vfi.dec n)) = .exit ∧
      step be sd c (.cliPrec64 (Vfi.dec n)) = .exit) ∧
    (∀ n : Int, -(2 ^ 31) ≤ n → n < 2 ^ 31 → n ≠ 24 → step .int sd c (.cliPrec32 (Vfi.dec n)) = .exit) ∧
    (∀ n : Int, -(2 ^ 31) ≤ n → n < 2 ^ 31 → n ≠ 53 → step .int sd c (.cliPrec64 (Vfi.dec n)) = .exit) ∧
    (∀ t, (∀ m, t.map Char.toLower ≠ modeText m) → step be sd c (.cliMode t) = .exit) ∧
    (∀ t, (∀ m, t.map Char.toLower ≠ errText m) → step be sd c (.cliErrMode t) = .exit) ∧
    (∀ t, sd t = none → step be sd c (.cliSparsity t) = .exit) ∧
    (∀ t d, sd t = some d → (fconv b64 b32 d).Fin b32 → (fconv b64 b32 d).val b32 ≤ 0 → step be sd c (.cliSparsity t) = .exit) := by
  refine ⟨?_, ?_, ?_, ?_, ?_, ?_, ?_⟩
  · intro n h1 h2
    simp only [step, Config.cliPrec32, Config.cliPrec64]
    rw [strtol_dec' n (by omega)]
    simp only [toInt_self n (by omega)]
    cases be
    · simp only [if_pos h2, and_self]
    · simp only []
      rw [if_pos (by omega), if_pos (by omega)]
      exact ⟨rfl, rfl⟩
  · intro n h1 h2 h3
    simp only [step, Config.cliPrec32]
    rw [strtol_dec' n (by omega)]
    simp only [toInt_self n (by omega)]
    rw [if_pos h3]
  · intro n h1 h2 h3
    simp only [step, Config.cliPrec64]
    rw [strtol_dec' n (by omega)]
    simp only [toInt_self n (by omega)]
    rw [if_pos h3]
  · intro t ht
    have h1 := ht .ieee; have h2 := ht .mca; have h3 := ht .pb; have h4 := ht .rr
    simp only [modeText] at h1 h2 h3 h4
    simp only [step, modeName, if_neg h1, if_neg h2, if_neg h3, if_neg h4]
    rfl
  · intro t ht
    have h1 := ht .rel; have h2 := ht .abs; have h3 := ht .all
    simp only [errText] at h1 h2 h3
    cases be
    · simp only [step, errModeName, if_neg h1, if_neg h2, if_neg h3]; rfl
    · rfl
  · intro t ht
    simp only [step, Config.cliSparsity, ht]
  · intro t d ht hf hv
    simp only [step, Config.cliSparsity, ht]
    rw [if_pos]
    have hx := fconv_wf b64 b32 (by decide) d
    have := Ieee.C27_agrees_partial b32 (by decide) .ole rfl (fconv b64 b32 d) (zeroBits false) hx zero_wf
    unfold Ieee.cmp at this
    refine this.2 ⟨⟨fun hn => ?_, by decide⟩, ?_⟩
    · exact absurd hn.1 (hf)
    · rw [num_zero]
      unfold Ieee.num
      rw [if_neg (hf)]
      exact_mod_cast hv

/-- **C64, negation: what is not a number.**  `strtol` without a look at its end pointer: a text
without digits is 0, which `--seed` and `--max-abs-error-exponent` accept ("must be an integer"), and
what follows the digits is ignored. -/
theorem C64_text_wrong (sd : List Char → Option Bits) (c : Cfg) :
    step .quad sd c (.cliSeed "time".toList) = .ok (setSeed 0 c) ∧
    step .quad sd c (.cliErrExp "two".toList) = .ok { c with absErrExp := 0 } ∧
    step .quad sd c (.cliErrExp "2^10".toList) = .ok { c with absErrExp := 2 } ∧
    step .quad sd c (.cliPrec32 "1e3".toList) = .ok { c with prec32 := 1 } := by
  have h1 : strtol "time".toList = some 0 := by decide +kernel
  have h2 : strtol "two".toList = some 0 := by decide +kernel
  have h3 : strtol "2^10".toList = some 2 := by decide +kernel
  have h4 : strtol "1e3".toList = some 1 := by decide +kernel
  have e0 : toInt 0 = 0 := by decide
  have e1 : toInt 1 = 1 := by decide
  have e2 : toInt 2 = 2 := by decide
  simp only [step, Config.cliPrec32, h1, h2, h3, h4, setAbsErrExp, setPrec32, e0, e1, e2]
  refine ⟨rfl, trivial, trivial, rfl⟩

/-- **C64, negation: truncation.**  Precisions are converted to `int` before they are checked. -/
theorem C64_truncated_wrong (sd : List Char → Option Bits) (c : Cfg) :
    step .quad sd c (.cliPrec64 "4294967306".toList) = .ok { c with prec64 := 10 } := by
  have h : strtol "4294967306".toList = some 4294967306 := by decide +kernel
  have h2 : toInt 4294967306 = 10 := by decide
  simp only [step, Config.cliPrec64, h, h2, setPrec64]
  rfl

/-- **C64, negation: sparsity above one.**  mcaquad accepts every sparsity above 1, against its help
text; it acts as 1 (`C64_skip`). -/
theorem C64_sparsity_wrong (sd : List Char → Option Bits) (t : List Char) (d : Bits) (c : Cfg) (ht : sd t = some d)
    (hf : (fconv b64 b32 d).Fin b32) (hv : 1 < (fconv b64 b32 d).val b32) :
    step .quad sd c (.cliSparsity t) = .ok { c with sparsity := fconv b64 b32 d } := by
  have hx := fconv_wf b64 b32 (by decide) d
  simp only [step, Config.cliSparsity, ht]
  rw [if_neg (by rw [pos_not_le _ hx hf (by linarith)]; decide), if_neg (by simp)]
  unfold setSparsity
  rw [if_neg (by rw [pos_not_le _ hx hf (by linarith)]; decide)]

/-- **C64, negation: NaN.**  Both backends accept a sparsity that is not a number. -/
theorem C64_nan_wrong (be : Backend) (sd : List Char → Option Bits) (t : List Char) (d : Bits) (c : Cfg) (ht : sd t = some d)
    (hn : (fconv b64 b32 d).isNaN b32) :
    step be sd c (.cliSparsity t) = .ok { c with sparsity := fconv b64 b32 d } := by
  simp only [step, Config.cliSparsity, ht]
  have h1 : ∀ y, Ieee.islessequal b32 (fconv b64 b32 d) y = false := by
    intro y; simp [Ieee.islessequal, Ieee.fcompare, hn]
  have h2 : ∀ y, Ieee.isgreater b32 (fconv b64 b32 d) y = false := by
    intro y; simp [Ieee.isgreater, Ieee.fcompare, hn]
  rw [if_neg (by rw [h1]; decide), if_neg (by rw [h2]; simp)]
  unfold setSparsity
  rw [if_neg (by rw [h1]; decide)]

/-! ## Sparsity -/

variable {σ : Type} (g : Gen σ)

/-- **C64, sparsity.**  On every sparsity the backends can be given except NaN, the `float`
comparisons decide as the numbers do: at 1 and above nothing is skipped and nothing is drawn, below 1 a
value is skipped when the draw exceeds the sparsity.  This is the decision that C22 is about. -/
theorem C64_skip (c : Cfg) (hc : Valid c) (hn : ¬ c.sparsity.isNaN b32) (s : σ) :
    skipEval g c.sparsity s = Mca.skipEval g c.ctx.sparsity s := by
  obtain ⟨hw, hsp⟩ := And.intro hc.wf (hc.sparsity.resolve_left hn)
  have hge := Ieee.C27_agrees_partial b32 (by decide) .oge rfl c.sparsity one32 hw one_wf
  unfold Ieee.cmp at hge
  have h1 : ¬ one32.isNaN b32 := by decide
  unfold skipEval Mca.skipEval
  by_cases hinf : c.sparsity.exp = b32.expInf
  · have hs : c.sparsity.sign = false := by
      by_contra hs
      unfold Ieee.num at hsp
      rw [if_pos hinf, if_pos (by simpa using hs)] at hsp
      exact absurd hsp (not_lt.2 bot_le)
    rw [if_pos (hge.2 ⟨⟨hn, h1⟩, by unfold Ieee.num; rw [if_pos hinf, hs]; exact WithBot.coe_le_coe.2 le_top⟩)]
    rw [if_pos (by simp [Cfg.ctx, hinf])]
  · have hf : c.sparsity.Fin b32 := hinf
    have hctx : c.ctx.sparsity = c.sparsity.val b32 := by simp [Cfg.ctx, hinf]
    have hnum : Ieee.num b32 c.sparsity = ((c.sparsity.val b32 : WithTop ℚ) : WithBot (WithTop ℚ)) := by
      unfold Ieee.num; rw [if_neg hinf]
    rw [hctx]
    by_cases hv : 1 ≤ c.sparsity.val b32
    · rw [if_pos (hge.2 ⟨⟨hn, h1⟩, by rw [num_one, hnum]; exact_mod_cast hv⟩), if_pos hv]
    · rw [if_neg (fun h => hv (by have := (hge.1 h).2; rw [num_one, hnum] at this; exact_mod_cast this)), if_neg hv]
      obtain ⟨w1, w2, -⟩ := Rng.toDouble_spec (g.next s).1
      congr 1
      have hcw : (fconv b32 b64 c.sparsity).WF b64 := fconv_wf b32 b64 (by decide) _
      have hgt := Ieee.C27_agrees_partial b64 (by decide) .ogt rfl (Rng.toDouble (g.next s).1) (fconv b32 b64 c.sparsity) w1 hcw
      unfold Ieee.cmp at hgt
      have hval : (fconv b32 b64 c.sparsity).Fin b64 ∧ (fconv b32 b64 c.sparsity).val b64 = c.sparsity.val b32 := by
        obtain ⟨e1, -, e3, e4⟩ := widen_spec wider32 c.sparsity hw (fin_lt hw hf)
        refine ⟨Nat.ne_of_lt e3, ?_⟩
        have hu : b32.uexp = ((925 : ℕ) : ℤ) + b64.uexp := by decide
        rw [val_eq_mag, val_eq_mag, e1, e4, hu]
        generalize b64.uexp = u
        generalize 925 = D
        rw [zpow_add₀ (by norm_num : (2 : ℚ) ≠ 0), zpow_natCast]
        push_cast
        ring
      have hnn : ∀ x : Bits, x.Fin b64 → ¬ x.isNaN b64 := fun x hx h => absurd h.1 (hx)
      have hnd : ∀ x : Bits, x.Fin b64 → Ieee.num b64 x = ((x.val b64 : WithTop ℚ) : WithBot (WithTop ℚ)) := by
        intro x hx; unfold Ieee.num; rw [if_neg (hx)]
      rw [Bool.eq_iff_iff, hgt, decide_eq_true_eq]
      unfold rand01
      constructor
      · rintro ⟨-, h⟩
        rw [hnd _ w2, hnd _ hval.1, hval.2] at h
        exact_mod_cast h
      · intro h
        refine ⟨⟨hnn _ w2, hnn _ hval.1⟩, ?_⟩
        rw [hnd _ w2, hnd _ hval.1, hval.2]
        exact_mod_cast h

/-- **C64, NaN.**  With a sparsity that is not a number, every operation is perturbed, and a number is
drawn for nothing. -/
theorem C64_nan_never_skips (x : Bits) (hn : x.isNaN b32) (s : σ) : skipEval g x s = (false, (g.next s).2) := by
  unfold skipEval
  rw [if_neg (by simp [Ieee.isgreaterequal, Ieee.fcompare, hn])]
  have : (fconv b32 b64 x).isNaN b64 := by
    rw [fconv_nan _ _ _ hn]; exact isNaN_nanBits _
  simp [Ieee.isgreater, Ieee.fcompare, this]

/-- Sparsity 0.5 skips the draw 1 - 2^-52 and not the draw 0. -/
example : skipEval ⟨fun _ => (0xFFFFFFFFFFFFFFFF, ())⟩ ⟨false, 126, 0⟩ () = (true, ()) ∧
    skipEval ⟨fun _ => (0, ())⟩ ⟨false, 126, 0⟩ () = (false, ()) := by decide +kernel

/-! ## `configure` -/

/-- **C64, `configure`.**  A configuration structure with documented values sets every field, and
always fixes the seed. -/
theorem C64_configure (be : Backend) (k : Conf) (c : Cfg) (hp32 : 1 ≤ k.prec32 ∧ k.prec32 < 2 ^ 31)
    (hp64 : 1 ≤ k.prec64 ∧ k.prec64 < 2 ^ 31) (m : Mode) (e : Err)
    (hm : k.mode = match m with | .ieee => 0 | .mca => 1 | .pb => 2 | .rr => 3)
    (he : k.errMode = match e with | .rel => 0 | .abs => 1 | .all => 2)
    (hs : Ieee.islessequal b32 k.sparsity (zeroBits false) = false)
    (hx : -(2 ^ 31) ≤ k.absErrExp ∧ k.absErrExp < 2 ^ 31) :
    configure be k c = .ok
      { mode := m, prec32 := k.prec32, prec64 := k.prec64, relErr := decide (e ≠ .abs), absErr := decide (e ≠ .rel),
        absErrExp := if be = .int ∧ e = .rel then c.absErrExp else k.absErrExp, daz := k.daz, ftz := k.ftz,
        sparsity := k.sparsity, chooseSeed := true, seed := k.seed } := by
  have e1 : toInt k.prec32 = k.prec32 := toInt_self _ (by omega)
  have e2 : toInt k.prec64 = k.prec64 := toInt_self _ (by omega)
  have e3 : ¬ ((k.prec32 : Int) < 1) := by omega
  have e4 : ¬ ((k.prec64 : Int) < 1) := by omega
  have e5 : k.absErrExp ≠ 4294967295 := by omega
  unfold configure setSparsity setPrec32 setPrec64
  simp only [hs, e1, e2, if_neg e3, if_neg e4, Outcome.bind_ok, Bool.false_eq_true, if_false]
  cases m <;> cases e <;> cases be <;> simp only at hm he <;>
    simp [hm, he, setMode, setErrMode, setAbsErrExp, toInt_self _ hx, setSeed, e5]

example : configure .int ⟨7, one32, 10, 20, 3, 0, 5, true, false⟩ init =
    .ok { init with prec32 := 10, prec64 := 20, mode := .rr, daz := true, chooseSeed := true, seed := 7 } := by
  decide +kernel

/-- **C64, negation: the sentinel.**  The absent exponent of mcaquad is 4294967295, not -1: a structure
filled with -1 sets the exponent to -1. -/
theorem C64_sentinel_wrong (k : Conf) (c : Cfg) (hk : k.absErrExp = -1) (d : Cfg)
    (h : configure .quad k c = .ok d) : d.absErrExp = -1 := by
  unfold configure at h
  obtain ⟨c1, h1, h⟩ := bind_ok_inv h
  obtain ⟨c2, h2, h⟩ := bind_ok_inv h
  obtain ⟨c3, h3, h⟩ := bind_ok_inv h
  obtain ⟨c4, h4, h⟩ := bind_ok_inv h
  obtain ⟨c5, h5, h⟩ := bind_ok_inv h
  obtain ⟨c6, h6, h⟩ := bind_ok_inv h
  have e : toInt (-1) = -1 := by decide
  have e2 : ¬ ((-1 : Int) = 4294967295) := by decide
  simp only [hk, setAbsErrExp, e, ne_eq, e2, not_false_eq_true, if_true] at h6
  have h6 := Outcome.ok.inj h6
  have h := Outcome.ok.inj h
  rw [← h, ← h6]

end Verif.Mca.Config
