import Verif.Cli.ProgProps

/-!
# C103 and C104 for VPREC: documented options and the error they ask for
-/

namespace Verif.Cli
open Verif Verif.Fp Verif.Pass

/-! ## Documented options -/

/-- The options of VPREC with their values. -/
inductive VDoc
  | prec32 (n : Int) | prec64 (n : Int) | range32 (n : Int) | range64 (n : Int)
  | mode (m : Vprec.Config.Mode) | preset (name : String)
  | daz | ftz
deriving DecidableEq

/-- The presets of the documentation: precision and range. -/
def presets : List (String × Int × Int) :=
  [("binary16", 10, 5), ("binary32", 23, 8), ("bfloat16", 7, 8), ("tensorfloat", 10, 8), ("fp24", 16, 7), ("PXR24", 15, 8)]

def modeWord : Vprec.Config.Mode → Word
  | .ieee => "ieee".toList
  | .full => "full".toList
  | .ib => "ib".toList
  | .ob => "ob".toList

/-- Values within their limits. -/
def VDoc.Ok : VDoc → Prop
  | .prec32 n => 1 ≤ n ∧ n ≤ 23
  | .prec64 n => 1 ≤ n ∧ n ≤ 52
  | .range32 n => 2 ≤ n ∧ n ≤ 8
  | .range64 n => 2 ≤ n ∧ n ≤ 11
  | .preset s => (presets.lookup s).isSome
  | _ => True

/-- What an option means. -/
def VDoc.set (c : Vprec.Config.Cfg) : VDoc → Vprec.Config.Cfg
  | .prec32 n => { c with prec32 := n }
  | .prec64 n => { c with prec64 := n }
  | .range32 n => { c with range32 := n }
  | .range64 n => { c with range64 := n }
  | .mode m => { c with mode := m }
  | .preset s =>
    match presets.lookup s with
    | some (p, r) => { c with prec32 := p, prec64 := p, range32 := r, range64 := r }
    | none => c
  | .daz => { c with daz := true }
  | .ftz => { c with ftz := true }

/-- The word for an option. -/
def VDoc.word : VDoc → Word
  | .prec32 n => "--precision-binary32=".toList ++ Vfi.dec n
  | .prec64 n => "--precision-binary64=".toList ++ Vfi.dec n
  | .range32 n => "--range-binary32=".toList ++ Vfi.dec n
  | .range64 n => "--range-binary64=".toList ++ Vfi.dec n
  | .mode m => "--mode=".toList ++ modeWord m
  | .preset s => "--preset=".toList ++ s.toList
  | .daz => "--daz".toList
  | .ftz => "--ftz".toList

/-- The request it makes. -/
def VDoc.req : VDoc → Vprec.Config.Req
  | .prec32 n => .cliPrec32 (String.ofList (Vfi.dec n))
  | .prec64 n => .cliPrec64 (String.ofList (Vfi.dec n))
  | .range32 n => .cliRange32 (String.ofList (Vfi.dec n))
  | .range64 n => .cliRange64 (String.ofList (Vfi.dec n))
  | .mode m => .cliMode (String.ofList (modeWord m))
  | .preset s => .cliPreset (String.ofList s.toList)
  | .daz => .cliDaz
  | .ftz => .cliFtz

theorem VDoc.preset_mem (s : String) (hd : VDoc.Ok (.preset s)) : s ∈ ["binary16", "binary32", "bfloat16", "tensorfloat", "fp24", "PXR24"] := by
  by_contra hc
  simp only [List.mem_cons, List.not_mem_nil, or_false, not_or] at hc
  obtain ⟨h1, h2, h3, h4, h5, h6⟩ := hc
  have : presets.lookup s = none := by
    simp only [presets, List.lookup]
    rw [beq_eq_false_iff_ne.2 h1, beq_eq_false_iff_ne.2 h2, beq_eq_false_iff_ne.2 h3, beq_eq_false_iff_ne.2 h4, beq_eq_false_iff_ne.2 h5,
      beq_eq_false_iff_ne.2 h6]
  rw [show VDoc.Ok (.preset s) = ((presets.lookup s).isSome = true) from rfl, this] at hd
  cases hd

theorem VDoc.step (d : VDoc) (hd : d.Ok) (c : Vprec.Config.Cfg) : Vprec.Config.step c d.req = .ok (d.set c) := by
  have int : ∀ (lo hi n : Int) (set : Int → Vprec.Config.Cfg → Outcome Vprec.Config.Cfg), lo ≤ n ∧ n ≤ hi → 0 < lo → hi < 100 →
      Vprec.Config.cliInt lo hi set (String.ofList (Vfi.dec n)) c = set n c := by
    intro lo hi n set h h0 h1
    unfold Vprec.Config.cliInt
    rw [String.toList_ofList, Mca.Config.strtol_dec' n (by omega)]
    simp only [Mca.Config.toInt_self n (by omega)]
    rw [if_neg (by omega), if_neg (by omega)]
  cases d with
  | prec32 n =>
    obtain ⟨h1, h2⟩ : 1 ≤ n ∧ n ≤ 23 := hd
    simp only [req, Vprec.Config.step]
    rw [int 1 23 n _ ⟨h1, h2⟩ (by norm_num) (by norm_num), Vprec.Config.setPrec32, if_neg (by omega), if_neg (by omega)]
    rfl
  | prec64 n =>
    obtain ⟨h1, h2⟩ : 1 ≤ n ∧ n ≤ 52 := hd
    simp only [req, Vprec.Config.step]
    rw [int 1 52 n _ ⟨h1, h2⟩ (by norm_num) (by norm_num), Vprec.Config.setPrec64, if_neg (by omega), if_neg (by omega)]
    rfl
  | range32 n =>
    obtain ⟨h1, h2⟩ : 2 ≤ n ∧ n ≤ 8 := hd
    simp only [req, Vprec.Config.step]
    rw [int 2 8 n _ ⟨h1, h2⟩ (by norm_num) (by norm_num), Vprec.Config.setRange32, if_neg (by omega), if_neg (by omega)]
    rfl
  | range64 n =>
    obtain ⟨h1, h2⟩ : 2 ≤ n ∧ n ≤ 11 := hd
    simp only [req, Vprec.Config.step]
    rw [int 2 11 n _ ⟨h1, h2⟩ (by norm_num) (by norm_num), Vprec.Config.setRange64, if_neg (by omega), if_neg (by omega)]
    rfl
  | mode m =>
    have h := (Vprec.Config.C10_cli_modes c).1
    cases m
    · exact h.1
    · exact h.2.1
    · exact h.2.2.1
    · exact h.2.2.2
  | preset s =>
    have h := VDoc.preset_mem s hd
    simp only [req, String.ofList_toList]
    rw [Vprec.Config.C10_presets]
    simp only [List.mem_cons, List.not_mem_nil, or_false] at h
    rcases h with rfl | rfl | rfl | rfl | rfl | rfl <;> rfl
  | daz => rfl
  | ftz => rfl

/-- **C103, VPREC, meaning.**  The documented options configure VPREC to what they say, one after the other, in any number and order. -/
theorem C103_vprec_meaning (posix : Bool) (ds : List VDoc) (hd : ∀ d ∈ ds, d.Ok) :
    argpParse posix vprecGroups (ds.map VDoc.word) vprecInit = .ok ⟨ds.foldl VDoc.set Vprec.Config.init, vprecInit.vfi⟩ := by
  have val : ∀ (o : Opt) (v : Word), (⟨0, o⟩ : Entry) ∈ table [vprecOpts, vfiOpts] → o.has = .required →
      Spelt (table [vprecOpts, vfiOpts]) ['-' :: '-' :: (o.name ++ '=' :: v)] [.opt ⟨0, o⟩ (some v)] :=
    fun o v hm hh => .value v (names_self hm) (by show o.has ≠ _; rw [hh]; simp)
  have h := Asked.of_spelt posix (table [vprecOpts, vfiOpts]) vprecAsks (ds.map fun d => ([d.word], VReq.base d.req)) (by
    intro d hm
    obtain ⟨d, hm', rfl⟩ := List.mem_map.1 hm
    cases d with
    | prec32 n => exact ⟨_, _, val optPrec32 (Vfi.dec n) (by decide) rfl, rfl⟩
    | prec64 n => exact ⟨_, _, val optPrec64 (Vfi.dec n) (by decide) rfl, rfl⟩
    | range32 n => exact ⟨_, _, val ⟨"range-binary32".toList, 2, .required⟩ (Vfi.dec n) (by decide) rfl, rfl⟩
    | range64 n => exact ⟨_, _, val ⟨"range-binary64".toList, 3, .required⟩ (Vfi.dec n) (by decide) rfl, rfl⟩
    | mode m => exact ⟨_, _, val ⟨"mode".toList, 'm'.toNat, .required⟩ (modeWord m) (by decide) rfl, rfl⟩
    | preset s => exact ⟨_, _, val ⟨"preset".toList, 8, .required⟩ s.toList (by decide) rfl, rfl⟩
    | daz => exact ⟨⟨0, ⟨"daz".toList, 'd'.toNat, .none⟩⟩, none, .flag (n := "daz".toList) (names_self (by decide)) (by simp), rfl⟩
    | ftz => exact ⟨⟨0, ⟨"ftz".toList, 'f'.toNat, .none⟩⟩, none, .flag (n := "ftz".toList) (names_self (by decide)) (by simp), rfl⟩)
  rw [List.map_map, List.flatMap_map] at h
  have e1 : ∀ ds : List VDoc, ds.flatMap (fun d => [d.word]) = ds.map VDoc.word := by
    intro ds
    induction ds with
    | nil => rfl
    | cons d ds ih => rw [List.flatMap_cons, ih]; rfl
  simp only at h
  rw [e1 ds] at h
  rw [(C103_vprec posix _ _).1 _ h]
  have e2 : ∀ ds : List VDoc, bases (ds.map ((·.2) ∘ fun d => ([d.word], VReq.base d.req))) = ds.map VDoc.req ∧
      vfis (ds.map ((·.2) ∘ fun d => ([d.word], VReq.base d.req))) = [] := by
    intro ds
    induction ds with
    | nil => exact ⟨rfl, rfl⟩
    | cons d ds ih => exact ⟨congrArg (d.req :: ·) ih.1, ih.2⟩
  rw [(e2 ds).1, (e2 ds).2]
  have e3 : ∀ (ds : List VDoc) (c : Vprec.Config.Cfg), (∀ d ∈ ds, d.Ok) → Vprec.Config.run c (ds.map VDoc.req) = .ok (ds.foldl VDoc.set c) := by
    intro ds
    induction ds with
    | nil => intro c _; rfl
    | cons d ds ih =>
      intro c hd
      simp only [List.map_cons, Vprec.Config.run, List.foldl_cons]
      rw [d.step (hd d (by simp)), Outcome.bind_ok]
      exact ih _ fun d hm => hd d (by simp [hm])
  rw [show vprecInit.base = Vprec.Config.init from rfl, e3 ds _ hd]
  rfl

/-- `--preset=bfloat16` after a precision replaces it, before a range does not. -/
example : argpParse false vprecGroups (["--precision-binary32=12", "--preset=bfloat16", "--range-binary32=5", "--mode=full"].map String.toList) vprecInit =
    .ok ⟨{ Vprec.Config.init with prec32 := 7, prec64 := 7, range32 := 5, range64 := 8, mode := .full }, vprecInit.vfi⟩ :=
  C103_vprec_meaning false [.prec32 12, .preset "bfloat16", .range32 5, .mode .full] (by
    intro d hm
    simp only [List.mem_cons, List.not_mem_nil, or_false] at hm
    rcases hm with rfl | rfl | rfl | rfl
    · exact ⟨by norm_num, by norm_num⟩
    · show (presets.lookup "bfloat16").isSome = true
      decide
    · exact ⟨by norm_num, by norm_num⟩
    · trivial)

/-! ## In the environment -/

theorem dec_plain (n : Int) (c : Char) (hc : c ∈ Vfi.dec n) : c ≠ ' ' ∧ c ≠ ';' ∧ c ≠ Wrapper.nul := by
  have dig : ∀ (n : Nat) (c : Char), c ∈ Nat.toDigits 10 n → c ≠ ' ' ∧ c ≠ ';' ∧ c ≠ Wrapper.nul := by
    intro n c hc
    obtain ⟨d, ds, e, h1, h2⟩ := Vfi.toDigits_spec n
    rw [e] at hc
    have h : c.isDigit = true := by
      rcases List.mem_cons.1 hc with rfl | hc
      · exact h1
      · exact h2 c hc
    refine ⟨?_, ?_, ?_⟩ <;> rintro rfl <;> revert h <;> decide
  unfold Vfi.dec at hc
  split at hc
  · rcases List.mem_cons.1 hc with rfl | hc
    · decide
    · exact dig _ c hc
  · exact dig _ c hc

theorem VDoc.plain (d : VDoc) (hd : d.Ok) : d.word ≠ [] ∧ ∀ c ∈ d.word, c ≠ ' ' ∧ c ≠ ';' ∧ c ≠ Wrapper.nul := by
  have app : ∀ (a b : Word), a ≠ [] → (∀ c ∈ a, c ≠ ' ' ∧ c ≠ ';' ∧ c ≠ Wrapper.nul) → (∀ c ∈ b, c ≠ ' ' ∧ c ≠ ';' ∧ c ≠ Wrapper.nul) →
      a ++ b ≠ [] ∧ ∀ c ∈ a ++ b, c ≠ ' ' ∧ c ≠ ';' ∧ c ≠ Wrapper.nul :=
    fun a b h0 h1 h2 => ⟨by simp [h0], fun c hc => (List.mem_append.1 hc).elim (h1 c) (h2 c)⟩
  cases d with
  | prec32 n => exact app _ _ (by decide) (by decide) (dec_plain n)
  | prec64 n => exact app _ _ (by decide) (by decide) (dec_plain n)
  | range32 n => exact app _ _ (by decide) (by decide) (dec_plain n)
  | range64 n => exact app _ _ (by decide) (by decide) (dec_plain n)
  | mode m => exact app _ _ (by decide) (by decide) (by cases m <;> decide)
  | preset s =>
    refine app _ _ (by decide) (by decide) ?_
    have hm := VDoc.preset_mem s hd
    simp only [List.mem_cons, List.not_mem_nil, or_false] at hm
    rcases hm with rfl | rfl | rfl | rfl | rfl | rfl <;> decide
  | daz => exact ⟨by decide, by decide⟩
  | ftz => exact ⟨by decide, by decide⟩

/-- **C104, VPREC, the environment.**  `VFC_BACKENDS` with the name of VPREC and documented options, in any number up to 254 and any order, starts VPREC,
and only it, with what the options say. -/
theorem C104_vprec_environment (lib : Word → Option Kind) (sd : Word → Option Bits) (posix : Bool) (check : List Ctx → Outcome Unit)
    (name : Word) (hn : lib name = some .vprec) (hc : name ≠ [] ∧ ∀ c ∈ name, c ≠ ' ' ∧ c ≠ ';' ∧ c ≠ Wrapper.nul)
    (ds : List VDoc) (hd : ∀ d ∈ ds, d.Ok) (hl : ds.length < 255)
    (hch : check [.vprec ⟨ds.foldl VDoc.set Vprec.Config.init, vprecInit.vfi⟩] = .ok ()) (f : Option (Option (List Char))) :
    ∃ v, Wrapper.vfcInit (loadBackend lib sd posix) check ⟨some (List.intercalate [' '] (name :: ds.map VDoc.word)), f⟩ () =
      .ok ([] ++ [.vprec ⟨ds.foldl VDoc.set Vprec.Config.init, vprecInit.vfi⟩], v, ()) := by
  have h := C103_environment lib sd posix check [(name, .vprec, ds.map VDoc.word, .vprec ⟨ds.foldl VDoc.set Vprec.Config.init, vprecInit.vfi⟩)]
    (by simp) (by simp) (by
      intro b hb
      rw [List.mem_singleton.1 hb]
      refine ⟨hn, by simpa using hl, ?_⟩
      show (argpParse posix vprecGroups _ vprecInit >>= fun c => Outcome.ok (Ctx.vprec c)) = _
      rw [C103_vprec_meaning posix ds hd]
      rfl) (by
      intro b hb w hw
      rw [List.mem_singleton.1 hb] at hw
      rcases List.mem_cons.1 hw with rfl | hw
      · exact hc
      · obtain ⟨d, hm, rfl⟩ := List.mem_map.1 hw
        exact d.plain (hd d hm)) f
  simp only [List.map_cons, List.map_nil] at h
  rw [hch, Outcome.bind_ok, show Wrapper.command [name :: ds.map VDoc.word] = List.intercalate [' '] (name :: ds.map VDoc.word) by
    simp [Wrapper.command, List.intercalate]] at h
  exact ⟨_, h⟩

/-- **C104, VPREC, the dot product.**  `VFC_BACKENDS="name --precision-binary64=t"`: the dot product of two arrays of `n` floats of any values in the range,
computed in double precision, is within `(1 + 2^-24) ((1 + 2^-53) (1 + 2^-(t+1)))^(n+1) - 1` of the exact one, relatively. -/
theorem C104_vprec_dot_partial (fl : Flags) (hfc : fl.fcmp = false) 
    (lib : Word → Option Kind) (sd : Word → Option Bits) (posix : Bool) (check : List Ctx → Outcome Unit)
    (name : Word) (hname : lib name = some .vprec) (hc : name ≠ [] ∧ ∀ c ∈ name, c ≠ ' ' ∧ c ≠ ';' ∧ c ≠ Wrapper.nul)
    (hch : ∀ cs, check cs = .ok ()) (f : Option (Option (List Char))) (q : Nat) (q1 : 1 ≤ q) (q2 : q ≤ 52)
    (m : Runtime σ) (op1 : Wrapper.OpId → List (BitVec 64) → BitVec 64) (hM : Mix.Machine op1) (rest : Instr → Nat → List Nat → Nat) (ctx : Nat → κ)
    (n : Nat) (hn : 0 < n) (order : List Nat) (hp : order.Perm (workList fl (Mix.compile (σ := σ) 11 (Mix.dotLoop n))))
    (X Y : Nat → Bits) (hX : ∀ i < n, (X i).WF b32 ∧ (X i).Fin b32 ∧ (formatRange 8).Has ((X i).val b32))
    (hY : ∀ i < n, (Y i).WF b32 ∧ (Y i).Fin b32 ∧ (formatRange 8).Has ((Y i).val b32))
    (hout : (2 : ℚ) ^ (-124 : ℤ) ≤ partialSum (fun i => (X i).val b32 * (Y i).val b32) n ∧
      partialSum (fun i => (X i).val b32 * (Y i).val b32) n < 2 ^ (126 : ℤ))
    (hq : (1 + 1 / 2 ^ 24) * ((1 + 1 / 2 ^ 53) * (1 + 1 / 2 ^ (q + 1))) ^ (n + 1) ≤ (3 / 2 : ℚ))
    (mem : Nat → Nat) (hm0 : mem 0 = 0) (hmX : ∀ i < n, mem (2 * i + 2) = Fp.word b32 (X i)) (hmY : ∀ i < n, mem (2 * i + 3) = Fp.word b32 (Y i)) (t : σ)
    (F : Func (Mem Nat × σ)) (hF : replaceAll Mix.wrapperSig fl (Mix.compile 11 (Mix.dotLoop n)) order = .ok F) :
    ∃ cs v, Wrapper.vfcInit (loadBackend lib sd posix) check
        ⟨some (name ++ " --precision-binary64=".toList ++ Vfi.dec q), f⟩ () = .ok (cs, v, ()) ∧
      let r := run (exec (linked op1 rest (backendsOf m .wrap cs) ctx)) F (n + 1) (enter 0 (fun _ => 0) ((mem, 0), t), some 0)
      r.2 = none ∧ r.1.mem.1.2 = n ∧ ∃ y : Bits, r.1.mem.1.1 1 = Fp.word b32 y ∧ y.Fin b32 ∧
        |y.val b32 - partialSum (fun i => (X i).val b32 * (Y i).val b32) n| ≤
          ((1 + 1 / 2 ^ 24) * ((1 + 1 / 2 ^ 53) * (1 + 1 / 2 ^ (q + 1))) ^ (n + 1) - 1) * partialSum (fun i => (X i).val b32 * (Y i).val b32) n := by
  obtain ⟨v, hv⟩ := C104_vprec_environment lib sd posix check name hname hc [.prec64 q]
    (by intro d hd; rw [List.mem_singleton.1 hd]; exact ⟨by exact_mod_cast q1, by exact_mod_cast q2⟩) (by simp) (hch _) f
  have hs : List.intercalate [' '] (name :: [VDoc.prec64 q].map VDoc.word) = name ++ " --precision-binary64=".toList ++ Vfi.dec q := by
    have two : ∀ a b : Word, List.intercalate [' '] [a, b] = a ++ ' ' :: b := fun a b => by simp [List.intercalate]
    show List.intercalate [' '] [name, "--precision-binary64=".toList ++ Vfi.dec q] = _
    rw [two, List.append_assoc, show " --precision-binary64=".toList = ' ' :: "--precision-binary64=".toList by decide]
    rfl
  rw [hs] at hv
  refine ⟨_, v, hv, ?_⟩
  obtain ⟨k, ws, hcf⟩ := (started_configured lib sd posix check _ _ v hv).2.1 _ (List.mem_append_right _ (List.mem_singleton.2 rfl))
  have hB := Bounded.vprec ⟨[VDoc.prec64 q].foldl VDoc.set Vprec.Config.init, vprecInit.vfi⟩ rfl
  have hk : k = .mcaquad → False := by
    rintro rfl
    unfold configured at hcf
    simp only at hcf
    revert hcf
    cases argpParse posix (mcaGroups .quad sd) ws Mca.Config.init <;> intro h <;> cases h
  have hmeet := C104_meets_partial fl hfc sd posix k ws _ hcf _ hB m 0 (fun h => (hk h).elim) ([] : List (Wrapper.Backend σ κ)) ctx
  generalize hBB : vprecBounds _ _ _ = B at hB hmeet
  have hfl : { fl with fcmp := false } = fl := by
    obtain ⟨f1, f2, f3⟩ := fl
    obtain rfl : f1 = false := hfc
    rfl
  have b1 : B.I .float = formatRange 8 := by rw [← hBB]; rfl
  have b2 : B.I .double = formatRange 11 := by rw [← hBB]; rfl
  have b3 : B.R .double = (formatRange 11).inner := by rw [← hBB]; rfl
  have b4 : B.inn .double = 0 := by rw [← hBB]; rfl
  have b6 : B.cast = 1 / 2 ^ 24 := by
    rw [← hBB]
    show (2 : ℚ) ^ (-(((23 : ℤ).toNat : ℕ) : ℤ) - 1) = _
    norm_num
  have b7 : B.C = formatRange 8 := by rw [← hBB]; rfl
  have hcu : Mix.castUnit fl B = 1 / 2 ^ 24 := by
    have : Mix.unit .float = 1 / 2 ^ 24 := by
      unfold Mix.unit
      norm_num [fmtOf, b32]
    unfold Mix.castUnit
    rw [b6, this, ite_self]
  have hcr : (Mix.castRange fl B).low = -126 ∧ (Mix.castRange fl B).high = 127 := by
    unfold Mix.castRange
    rw [b1, b7]
    split_ifs <;> decide
  have b5 : 1 + B.η .double = (1 + 1 / 2 ^ 53) * (1 + 1 / 2 ^ (q + 1)) := by
    have : B.η .double = chain b64 (2 ^ (-(q : ℤ) - 1)) := by rw [← hBB]; rfl
    rw [this, chain, show (-(q : ℤ) - 1) = -((q + 1 : ℕ) : ℤ) by push_cast; ring, zpow_neg, zpow_natCast]
    norm_num [b64]
  have hp1 : ∀ n, Mix.product 0 (B.η .double) * growth 0 (B.η .double) ^ n = ((1 + 1 / 2 ^ 53) * (1 + 1 / 2 ^ (q + 1))) ^ (n + 1) := by
    intro n
    rw [← b5]
    simp only [Mix.product, growth, Nat.cast_zero, zero_mul, add_zero, one_pow, mul_one]
    ring
  have hl : ∀ i < n, (2 : ℚ) ^ ((B.R .double).low + 1) ≤ (X i).val b32 * (Y i).val b32 := by
    intro i hi
    have h1 := (hX i hi).2.2.1
    have h2 := (hY i hi).2.2.1
    have p : (0 : ℚ) < 2 ^ (formatRange 8).low := zpow_pos (by norm_num) _
    refine le_trans ?_ (mul_le_mul h1 h2 p.le (p.le.trans h1))
    rw [← zpow_add₀ (by norm_num), b3]
    exact zpow_le_zpow_right₀ (by norm_num) (by decide)
  have key := Mix.C102_dot_partial fl B hB.ok (by rw [b1, b2]; decide) op1 hM rest _ ctx (by rw [hfl]; exact hmeet) (compare_off hfc _ _ _ _) n hn order hp X Y (by rw [b1]; exact hX) (by rw [b1]; exact hY)
    hl (lt_of_lt_of_le hout.2 (by rw [b3]; exact zpow_le_zpow_right₀ (by norm_num) (by decide)))
    (by rw [hcr.1, hcr.2]; exact ⟨le_trans (zpow_le_zpow_right₀ (by norm_num) (by decide)) hout.1, lt_of_lt_of_le hout.2 (zpow_le_zpow_right₀ (by norm_num) (by decide))⟩)
    (by rw [b4, hp1, hcu]; exact hq) mem hm0 hmX hmY t F hF
  rw [b4, hp1, hcu] at key
  exact key

/-- A hundred times 1.5 * 0.5 with a precision of 20 bits: 75, within `2^-8`. -/
example (fl : Flags) (hfc : fl.fcmp = false) (m : Runtime σ) (rest : Instr → Nat → List Nat → Nat) (ctx : Nat → κ) (t : σ) (F : Func (Mem Nat × σ))
    (hF : replaceAll Mix.wrapperSig fl (Mix.compile 11 (Mix.dotLoop 100)) (Mix.dotWork fl) = .ok F) :
    ∃ cs v, Wrapper.vfcInit (loadBackend (fun w => if w = "libvprec.so".toList then some .vprec else none) (fun _ => none) false) (fun _ => .ok ())
        ⟨some "libvprec.so --precision-binary64=20".toList, none⟩ () = .ok (cs, v, ()) ∧
      let r := run (exec (linked comparing rest (backendsOf m .wrap cs) ctx)) F 101
        (enter 0 (fun _ => 0) ((fun i => if i = 0 then 0 else if i % 2 = 0 then Fp.word b32 ⟨false, 127, 2 ^ 22⟩ else Fp.word b32 ⟨false, 126, 0⟩, 0), t), some 0)
      r.2 = none ∧ ∃ y : Bits, r.1.mem.1.1 1 = Fp.word b32 y ∧ y.Fin b32 ∧ |y.val b32 - 75| ≤ 1 / 2 ^ 8 := by
  have v1 : Bits.val b32 ⟨false, 127, 2 ^ 22⟩ = 3 / 2 := by norm_num [Bits.val, Bits.sig, Bits.lsb, sgn, b32, Fmt.bias]
  have v2 : Bits.val b32 ⟨false, 126, 0⟩ = 1 / 2 := by norm_num [Bits.val, Bits.sig, Bits.lsb, sgn, b32, Fmt.bias]
  have hs : partialSum (fun _ => Bits.val b32 ⟨false, 127, 2 ^ 22⟩ * Bits.val b32 ⟨false, 126, 0⟩) 100 = 75 := by
    rw [v1, v2]
    decide +kernel
  have hg : (1 + 1 / 2 ^ 24) * ((1 + 1 / 2 ^ 53) * (1 + 1 / 2 ^ (20 + 1))) ^ (100 + 1) ≤ (1 + 1 / (75 * 2 ^ 8) : ℚ) := by decide +kernel
  obtain ⟨cs, v, h, a1, -, y, a2, a3, a4⟩ := C104_vprec_dot_partial fl hfc (fun w => if w = "libvprec.so".toList then some .vprec else none) (fun _ => none) false
    (fun _ => .ok ()) "libvprec.so".toList (if_pos rfl) (by decide) (fun _ => rfl) none 20 (by norm_num) (by norm_num) m comparing Mix.comparing_machine
    rest ctx 100 (by norm_num) (Mix.dotWork fl) (Mix.dotLoop_work fl _) (fun _ => ⟨false, 127, 2 ^ 22⟩) (fun _ => ⟨false, 126, 0⟩)
    (fun i _ => ⟨by decide, by decide, by rw [v1]; decide +kernel⟩) (fun i _ => ⟨by decide, by decide, by rw [v2]; decide +kernel⟩)
    (by rw [hs]; decide +kernel) (le_trans hg (by norm_num))
    (fun i => if i = 0 then 0 else if i % 2 = 0 then Fp.word b32 ⟨false, 127, 2 ^ 22⟩ else Fp.word b32 ⟨false, 126, 0⟩) rfl
    (fun i _ => by rw [if_neg (by omega), if_pos (by omega)]) (fun i _ => by rw [if_neg (by omega), if_neg (by omega)]) t F hF
  rw [show "libvprec.so".toList ++ " --precision-binary64=".toList ++ Vfi.dec ((20 : Nat) : Int) = "libvprec.so --precision-binary64=20".toList by
    decide +kernel] at h
  refine ⟨cs, v, h, a1, y, a2, a3, ?_⟩
  rw [hs] at a4
  linarith

/-! ## Any backends -/

/-- The bounds of full MCA at precisions 22 and 42. -/
def mca2242 : Mix.Bounds := mcaBounds .mca (quadDelta 22 42)

theorem mca2242_analysis : ∀ c f, ((Mix.evalRun (Mix.errDom (Mix.opts c f) mca2242) Mix.refinement 3 (start (fun _ => none) 0, some 0)).any fun r =>
    r.2 == none && r.1.ctl == 2 && (r.1.cell 0).any fun v => v.prec == .double && v.val == 665857 / 470832 && decide (v.err ≤ 1 / 2 ^ 15)) = true := by
  decide +kernel

/-- Newton's iteration behind the IEEE backend and MCA, as `VFC_BACKENDS` asks for them, with `--inst-fma`, `--inst-fcmp`, both or neither: two turns, and the root of 2 within `2^-15`. -/
example (c f : Bool) (m : Runtime σ) (hg : ∀ s, Mca.drawn ((m.gen 1).next s).1 ≠ 2 ^ 51) (rest : Instr → Nat → List Nat → Nat) (ctx : Nat → κ)
    (mem : Nat → Nat) (t : σ) :
    ∃ cs v, Wrapper.vfcInit (loadBackend
        (fun w => if w = "libmca.so".toList then some .mcaquad else if w = "libieee.so".toList then some .ieee else none) (fun _ => none) false)
        (fun cs => Wrapper.checkAll ⟨c, f, false⟩ (backendsOf (κ := κ) m .wrap cs)) ⟨some "libieee.so --count-op;libmca.so --precision-binary32=22 --precision-binary64 42".toList, none⟩ () = .ok (cs, v, ()) ∧
      ∃ F', replaceAll Mix.wrapperSig (Mix.opts c f) (Mix.compile 17 Mix.refinement) (Mix.refinementWork c f) = .ok F' ∧
        let r := run (exec (linked machine rest (backendsOf m .wrap cs) ctx)) F' 3 (enter 0 (fun _ => 0) ((mem, 0), t), some 0)
        r.2 = none ∧ r.1.mem.1.2 = 2 ∧ ∃ y : Bits, r.1.mem.1.1 0 = Fp.word b64 y ∧ y.Fin b64 ∧ |y.val b64 - 665857 / 470832| ≤ 1 / 2 ^ 15 := by
  have h : Wrapper.vfcInit (loadBackend
      (fun w => if w = "libmca.so".toList then some .mcaquad else if w = "libieee.so".toList then some .ieee else none) (fun _ => none) false)
      (fun cs => Wrapper.checkAll ⟨c, f, false⟩ (backendsOf (κ := κ) m .wrap cs)) ⟨some "libieee.so --count-op;libmca.so --precision-binary32=22 --precision-binary64 42".toList, none⟩ () =
      .ok ([.ieee ⟨{}, true⟩] ++ [.mca .quad { Mca.Config.init with prec32 := 22, prec64 := 42 }], some "libieee.so".toList, ()) := by
    refine started_checked _ _ _ _ (by decide +kernel) ?_
    cases c <;> cases f <;> rfl
  obtain ⟨⟨s, cur⟩, h1, h2⟩ := (Option.any_eq_true _ _).1 (mca2242_analysis c f)
  simp only [Bool.and_eq_true, beq_iff_eq] at h2
  obtain ⟨⟨rfl, h3⟩, h4⟩ := h2
  obtain ⟨⟨p, w, e⟩, h5, h6⟩ := (Option.any_eq_true _ _).1 h4
  simp only [Bool.and_eq_true, beq_iff_eq, decide_eq_true_eq] at h6
  obtain ⟨⟨rfl, rfl⟩, h6⟩ := h6
  obtain ⟨F', hF, -, a1, a2, a3⟩ := C104_program_partial (Mix.opts c f) _ _ _ _ _ _ _ _ h mca2242
    (Bounded.quad { Mca.Config.init with prec32 := 22, prec64 := 42 } rfl rfl rfl ⟨by decide, by decide⟩ ⟨by decide, by decide⟩)
    m (fun _ => hg) (fun _ l h => h) machine Mix.machine_machine (fun _ _ _ => rfl) rest ctx 17 Mix.refinement Mix.refinement_wf (Mix.refinementWork c f)
    (Mix.refinement_work c f) (fun _ => none) 0 3 s none h1 mem (fun _ _ h => by cases h) t
  obtain ⟨y, y1, y2⟩ := a3 0 _ h5
  exact ⟨_, _, h, F', hF, a1, a2.trans h3, y, y2, y1.2.1, le_trans y1.2.2.2 h6⟩

end Verif.Cli
