import Verif.Bitmask.Config
import Verif.Bitmask.OpProps
import Verif.Vfi.FileProps

/-!
# C65: options of the bitmask backend
-/

namespace Verif.Bitmask.Config
open Verif Verif.Fp
open Verif.Vprec.Config (strtol toInt)

theorem bind_ok_inv {α β : Type} {o : Outcome α} {f : α → Outcome β} {b : β}
    (h : o >>= f = .ok b) : ∃ a, o = .ok a ∧ f a = .ok b := by
  cases o with
  | ok a => exact ⟨a, rfl, h⟩
  | exit => simp at h
  | ub => simp at h

def modeText : Mode → List Char
  | .ieee => "ieee".toList
  | .full => "full".toList
  | .ib => "ib".toList
  | .ob => "ob".toList

def operatorText : Operator → List Char
  | .zero => "zero".toList
  | .one => "one".toList
  | .rand => "rand".toList

/-- An option with its value. -/
inductive Doc
  | prec32 (n : Int)
  | prec64 (n : Int)
  | mode (m : Mode) (text : List Char)
  | operator (o : Operator) (text : List Char)
  | seed (v : Int)
  | daz
  | ftz

/-- "PRECISION > 0"; the modes and operators of the error messages (the help text lists the
modes of another backend, `C65_bitmask_help_wrong`). -/
def Doc.Ok : Doc → Prop
  | .prec32 n => 0 < n ∧ n < 2 ^ 31
  | .prec64 n => 0 < n ∧ n < 2 ^ 31
  | .mode m t => t.map Char.toLower = modeText m
  | .operator o t => t.map Char.toLower = operatorText o
  | .seed v => -(2 ^ 63) ≤ v ∧ v < 2 ^ 63
  | .daz => True
  | .ftz => True

def Doc.req : Doc → Req
  | .prec32 n => .cliPrec32 (Vfi.dec n)
  | .prec64 n => .cliPrec64 (Vfi.dec n)
  | .mode _ t => .cliMode t
  | .operator _ t => .cliOperator t
  | .seed v => .cliSeed (Vfi.dec v)
  | .daz => .cliDaz
  | .ftz => .cliFtz

def Doc.mode? : Doc → Option Mode | .mode m _ => some m | _ => none
def Doc.operator? : Doc → Option Operator | .operator o _ => some o | _ => none
def Doc.prec32? : Doc → Option Int | .prec32 n => some n | _ => none
def Doc.prec64? : Doc → Option Int | .prec64 n => some n | _ => none
def Doc.seed? : Doc → Option Int | .seed v => some v | _ => none
def Doc.daz? : Doc → Option Unit | .daz => some () | _ => none
def Doc.ftz? : Doc → Option Unit | .ftz => some () | _ => none

/-- The last occurrence of an option. -/
def last {α : Type} (f : Doc → Option α) (ds : List Doc) : Option α := ds.reverse.findSome? f

theorem last_snoc {α : Type} (f : Doc → Option α) (ds : List Doc) (d : Doc) :
    last f (ds ++ [d]) = (f d).or (last f ds) := by
  unfold last
  rw [List.reverse_append, List.reverse_singleton, List.singleton_append, List.findSome?_cons]
  cases f d <;> rfl

theorem run_snoc (qs : List Req) (q : Req) (c : Cfg) :
    run (qs ++ [q]) c = run qs c >>= fun c => step c q := by
  induction qs generalizing c with
  | nil =>
    simp only [List.nil_append, run, Outcome.bind_ok]
    cases step c q <;> rfl
  | cons r qs ih =>
    simp only [List.cons_append, run]
    cases step c r with
    | ok d => simp only [Outcome.bind_ok]; exact ih d
    | exit => rfl
    | ub => rfl

/-- The mask of `p` significant bits of a format, leading bit included: ones above, `mw + 1 - p`
zeros below; all ones if `p` is larger. -/
def maskFor (F : Fmt) (p : Int) : Nat := 2 ^ F.width - 2 ^ (F.mw + 1 - p.toNat)

def operatorCode : Operator → Nat
  | .zero => 0
  | .one => 1
  | .rand => 2

/-- Numbers of the modes in the enum. -/
def modeCode : Mode → Nat
  | .ieee => 0
  | .full => 1
  | .ib => 2
  | .ob => 3

theorem modeOf_code (m : Mode) : modeOf (modeCode m) = some m := by cases m <;> rfl

/-- What the options say; a precision that is not set leaves the mask of all ones. -/
def meant (ds : List Doc) : Cfg where
  base :=
    { mode := (last Doc.mode? ds).getD .ob
      op := (last Doc.operator? ds).getD .zero
      prec32 := (last Doc.prec32? ds).getD 23
      prec64 := (last Doc.prec64? ds).getD 52
      daz := (last Doc.daz? ds).isSome
      ftz := (last Doc.ftz? ds).isSome
      mask32 := ((last Doc.prec32? ds).map (maskFor b32)).getD (2 ^ 32 - 1)
      mask64 := ((last Doc.prec64? ds).map (maskFor b64)).getD (2 ^ 64 - 1) }
  operator := operatorCode ((last Doc.operator? ds).getD .zero)
  chooseSeed := (last Doc.seed? ds).isSome
  seed := BitVec.ofInt 64 ((last Doc.seed? ds).getD 0)

theorem strtol_dec' (n : Int) (h : -(2 ^ 63) ≤ n ∧ n < 2 ^ 63) : strtol (Vfi.dec n) = some n := by
  have := Vfi.strtol_dec64 n h [] (by simp)
  rwa [List.append_nil] at this

theorem toInt_self (n : Int) (h : -(2 ^ 31) ≤ n ∧ n < 2 ^ 31) : toInt n = n := by
  unfold toInt; omega

theorem maskOf_maskFor (F : Fmt) (p : Int) (hp : 1 ≤ p) : maskOf F p = .ok (maskFor F p) := maskOf_eq F p hp

/-- **C65, bitmask.**  Any sequence of options is accepted, and each field of the configuration,
the masks included, has the value given by the last option that sets it, or its default. -/
theorem C65_bitmask_meaning (ds : List Doc) (h : ∀ d ∈ ds, d.Ok) :
    run (ds.map Doc.req) init = .ok (meant ds) := by
  induction ds using List.reverseRecOn with
  | nil => rfl
  | append_singleton ds d ih =>
    rw [List.map_append, List.map_singleton, run_snoc, ih (fun d hd => h d (by simp [hd])), Outcome.bind_ok]
    have hd := h d (by simp)
    cases d with
    | prec32 n =>
      obtain ⟨h1, h2⟩ := hd
      have e : (strtol (Vfi.dec n)).map toInt = some n := by
        rw [strtol_dec' n (by omega), Option.map_some, toInt_self n (by omega)]
      simp only [Doc.req, step, e, opt, parseOpt, setPrec32]
      rw [if_neg (by omega), if_neg (by omega), maskOf_maskFor b32 n (by omega)]
      simp [meant, last_snoc, Doc.mode?, Doc.operator?, Doc.prec32?, Doc.prec64?, Doc.seed?, Doc.daz?, Doc.ftz?]
    | prec64 n =>
      obtain ⟨h1, h2⟩ := hd
      have e : (strtol (Vfi.dec n)).map toInt = some n := by
        rw [strtol_dec' n (by omega), Option.map_some, toInt_self n (by omega)]
      simp only [Doc.req, step, e, opt, parseOpt, setPrec64]
      rw [if_neg (by omega), if_neg (by omega), maskOf_maskFor b64 n (by omega)]
      simp [meant, last_snoc, Doc.mode?, Doc.operator?, Doc.prec32?, Doc.prec64?, Doc.seed?, Doc.daz?, Doc.ftz?]
    | mode m t =>
      have hd : t.map Char.toLower = modeText m := hd
      cases m <;>
        simp [Doc.req, step, modeName, hd, modeText, opt, parseOpt, meant, last_snoc, Doc.mode?, Doc.operator?, Doc.prec32?, Doc.prec64?, Doc.seed?, Doc.daz?, Doc.ftz?]
    | operator o t =>
      have hd : t.map Char.toLower = operatorText o := hd
      cases o <;>
        simp [Doc.req, step, operatorName, hd, operatorText, setOperator, operatorOf, operatorCode, meant, last_snoc, Doc.mode?, Doc.operator?, Doc.prec32?, Doc.prec64?, Doc.seed?, Doc.daz?, Doc.ftz?]
    | seed v =>
      simp only [Doc.req, step]
      rw [strtol_dec' v hd]
      simp [meant, last_snoc, Doc.mode?, Doc.operator?, Doc.prec32?, Doc.prec64?, Doc.seed?, Doc.daz?, Doc.ftz?]
    | daz =>
      simp [Doc.req, step, opt, parseOpt, meant, last_snoc, Doc.mode?, Doc.operator?, Doc.prec32?, Doc.prec64?, Doc.seed?, Doc.daz?, Doc.ftz?]
    | ftz =>
      simp [Doc.req, step, opt, parseOpt, meant, last_snoc, Doc.mode?, Doc.operator?, Doc.prec32?, Doc.prec64?, Doc.seed?, Doc.daz?, Doc.ftz?]

example : run [.cliPrec32 "10".toList, .cliMode "IB".toList, .cliOperator "Rand".toList, .cliPrec32 "8".toList] init =
    .ok { base := { Bitmask.init with mode := .ib, op := .rand, prec32 := 8, mask32 := 0xFFFF0000 }
          operator := 2, chooseSeed := false, seed := 0 } := by decide +kernel

/-- **C65, refusals.**  Non-positive precisions and unknown names stop the process. -/
theorem C65_bitmask_refused (c : Cfg) :
    (∀ n : Int, -(2 ^ 31) ≤ n → n ≤ 0 → step c (.cliPrec32 (Vfi.dec n)) = .exit ∧ step c (.cliPrec64 (Vfi.dec n)) = .exit) ∧
    (∀ t, (∀ m, t.map Char.toLower ≠ modeText m) → step c (.cliMode t) = .exit) ∧
    (∀ t, (∀ o, t.map Char.toLower ≠ operatorText o) → step c (.cliOperator t) = .exit) := by
  refine ⟨?_, ?_, ?_⟩
  · intro n h1 h2
    have e : (strtol (Vfi.dec n)).map toInt = some n := by
      rw [strtol_dec' n (by omega), Option.map_some, toInt_self n (by omega)]
    simp only [step, e, opt, parseOpt, if_pos h2]
    exact ⟨rfl, rfl⟩
  · intro t ht
    have h1 := ht .ieee; have h2 := ht .full; have h3 := ht .ib; have h4 := ht .ob
    simp only [modeText] at h1 h2 h3 h4
    simp only [step, modeName, if_neg h1, if_neg h2, if_neg h3, if_neg h4]
    rfl
  · intro t ht
    have h1 := ht .zero; have h2 := ht .one; have h3 := ht .rand
    simp only [operatorText] at h1 h2 h3
    simp only [step, operatorName, if_neg h1, if_neg h2, if_neg h3]

/-- **C65, negation: the help text.**  `--mode` is documented as "among {ieee, mca, pb, rr}": three of
these four stop the process. -/
theorem C65_bitmask_help_wrong (c : Cfg) :
    step c (.cliMode "mca".toList) = .exit ∧ step c (.cliMode "pb".toList) = .exit ∧
    step c (.cliMode "rr".toList) = .exit := by
  refine ⟨rfl, rfl, rfl⟩

/-- **C65, the operator.**  No sequence of options leads to an undefined operator: the operations with
the raw operator are the ones of C24. -/
theorem C65_operator {σ : Type} (g : Gen σ) (ds : List Doc) (h : ∀ d ∈ ds, d.Ok) (T : Ty) (s : σ) (x : Bits) :
    ∃ c, run (ds.map Doc.req) init = .ok c ∧ header false c = .ok () ∧
      inexactG g T c s x = Bitmask.inexactG g T c.base s x := by
  refine ⟨_, C65_bitmask_meaning ds h, ?_, ?_⟩
  · unfold header meant
    cases (last Doc.operator? ds).getD .zero <;> rfl
  · have e : operatorOf (meant ds).operator = some (meant ds).base.op := by
      simp only [meant]
      cases (last Doc.operator? ds).getD .zero <;> rfl
    unfold inexactG
    rw [e]
    by_cases hm : mustNotBeNoised T.fmt (meant ds).base.mode ((meant ds).base.prec T) x
    · rw [if_pos hm]
      unfold Bitmask.inexactG
      rw [if_pos hm]
    · rw [if_neg hm]

/-- **C65, negation: the operator of `configure`.**  The check lets the end marker of the enum pass:
the header then reads past its table, and every value that should be modified is undefined
behaviour. -/
theorem C65_operator_wrong (k : Conf) (c : Cfg) (h32 : 1 ≤ k.prec32) (h64 : 1 ≤ k.prec64) (m : Mode)
    (hm : k.mode = modeCode m) (ho : k.operator = 3) :
    ∃ c', configure k c = .ok c' ∧ header false c' = .ub ∧
      ∀ {σ : Type} (g : Gen σ) (T : Ty) (s : σ) (x : Bits),
        mustNotBeNoised T.fmt m (c'.base.prec T) x = false → inexactG g T c' s x = .ub := by
  unfold configure setPrec32 setPrec64 setMode setOperator
  simp only [maskOf_maskFor b32 _ h32, maskOf_maskFor b64 _ h64, hm, modeOf_code, ho,
    if_neg (not_lt.2 h32), if_neg (not_lt.2 h64)]
  refine ⟨_, rfl, rfl, ?_⟩
  intro σ g T s x hx
  unfold inexactG
  rw [if_neg (by simpa using hx)]
  rfl

/-- **C65, `configure`.**  A structure with documented values sets every field, both masks, and fixes
the seed. -/
theorem C65_bitmask_configure (k : Conf) (c : Cfg) (h32 : 1 ≤ k.prec32) (h64 : 1 ≤ k.prec64) (m : Mode) (o : Operator)
    (hm : k.mode = modeCode m) (ho : k.operator = operatorCode o) :
    configure k c = .ok
      { base := { mode := m, op := o, prec32 := k.prec32, prec64 := k.prec64, daz := k.daz, ftz := k.ftz,
                  mask32 := maskFor b32 k.prec32, mask64 := maskFor b64 k.prec64 }
        operator := operatorCode o, chooseSeed := true, seed := k.seed } := by
  unfold configure setPrec32 setPrec64 setMode setOperator
  simp only [maskOf_maskFor b32 _ h32, maskOf_maskFor b64 _ h64, hm, modeOf_code, ho,
    if_neg (not_lt.2 h32), if_neg (not_lt.2 h64)]
  cases o <;> rfl

end Verif.Bitmask.Config
