import Verif.Cli.BackendProps

/-!
# C103: documented options, stray words, and `VFC_BACKENDS`

What follows from `C103_mca` and the others: invariants of every command line, the meaning of documented options however they are spelt, what becomes
of the words that are no options, and the contexts that the text of `VFC_BACKENDS` leads to.
-/

namespace Verif.Cli
open Verif Verif.Fp

/-! ## Every command line -/

theorem asksAll_mem {R : Type} {asks : Ev → Option (List R)} : ∀ {evs : List Ev} {qs : List R}, asksAll asks evs = some qs →
    ∀ q ∈ qs, ∃ ev rs, asks ev = some rs ∧ q ∈ rs
  | [], qs, h => by cases h; simp
  | e :: es, qs, h => by
    simp only [asksAll] at h
    cases h1 : asks e with
    | none => rw [h1] at h; cases h
    | some a =>
      rw [h1, Option.bind_some] at h
      cases h2 : asksAll asks es with
      | none => rw [h2] at h; cases h
      | some b =>
        rw [h2] at h
        cases h
        intro q hq
        rcases List.mem_append.1 hq with hq | hq
        · exact ⟨e, a, h1, hq⟩
        · exact asksAll_mem h2 q hq

/-- **C103, invariants.**  Whatever the words, a backend that starts has a configuration within its limits. -/
theorem C103_valid (sd : Word → Option Bits) (posix : Bool) (ws : List Word) :
    (∀ be c, argpParse posix (mcaGroups be sd) ws Mca.Config.init = .ok c → Mca.Config.Valid c) ∧
    (∀ c, argpParse posix (mcaGroups .int sd) ws Mca.Config.init = .ok c → c.prec32 = 24 ∧ c.prec64 = 53) ∧
    (∀ c, argpParse posix cancelGroups ws Cancel.Config.init = .ok c → 0 ≤ c.base.tolerance) ∧
    (∀ c, argpParse posix vprecGroups ws vprecInit = .ok c → Vprec.Config.InLimits c.base ∧ c.vfi.inst < 4) := by
  have mca : ∀ be c, argpParse posix (mcaGroups be sd) ws Mca.Config.init = .ok c → ∃ qs : List Mca.Config.Req, (∀ q ∈ qs, q.isCli = true) ∧
      Mca.Config.run be sd qs Mca.Config.init = .ok c := by
    intro be c h
    obtain ⟨h1, h2⟩ := C103_mca be sd posix ws Mca.Config.init
    by_cases hq : ∃ qs, Asked posix (table [mcaOpts be]) (mcaAsks be) ws qs
    · obtain ⟨qs, hq⟩ := hq
      refine ⟨qs, ?_, (h1 qs hq).symm.trans h⟩
      obtain ⟨os, ss, -, hs⟩ := hq
      intro q hq
      obtain ⟨ev, rs, he, hr⟩ := asksAll_mem hs q hq
      exact mca_cli he q hr
    · rw [h2 hq] at h; cases h
  refine ⟨fun be c h => ?_, fun c h => ?_, fun c h => ?_, fun c h => ?_⟩
  · obtain ⟨qs, hq, hr⟩ := mca be c h
    refine Mca.Config.C64_valid_partial be sd qs (fun q hm => ?_) c hr
    have := hq q hm
    cases q <;> trivial
  · obtain ⟨qs, hq, hr⟩ := mca .int c h
    have := Mca.Config.C64_mcaint_precision sd qs hq c hr
    exact ⟨this.1, this.2.1⟩
  · obtain ⟨h1, h2⟩ := C103_cancel posix ws Cancel.Config.init
    by_cases hq : ∃ qs, Asked posix (table [cancelOpts]) cancelAsks ws qs
    · obtain ⟨qs, hq⟩ := hq
      refine Cancel.Config.C65_cancel_valid qs ?_ c ((h1 qs hq).symm.trans h)
      obtain ⟨os, ss, -, hs⟩ := hq
      intro q hq
      obtain ⟨ev, rs, he, hr⟩ := asksAll_mem hs q hq
      exact cancel_cli he q hr
    · rw [h2 hq] at h; cases h
  · obtain ⟨h1, h2⟩ := C103_vprec posix ws vprecInit
    by_cases hq : ∃ qs, Asked posix (table [vprecOpts, vfiOpts]) vprecAsks ws qs
    · obtain ⟨qs, hq⟩ := hq
      rw [h1 qs hq] at h
      cases hb : Vprec.Config.run vprecInit.base (bases qs) with
      | ok b =>
        rw [hb, Outcome.bind_ok] at h
        by_cases hbad : ∃ w, .instrument w ∈ vfis qs ∧ instName w = none
        · rw [(C103_vfi (vfis qs)).2 hbad] at h; cases h
        · have hok : ∀ w, .instrument w ∈ vfis qs → (instName w).isSome := by
            intro w hw
            cases hn : instName w with
            | none => exact absurd ⟨w, hw, hn⟩ hbad
            | some i => rfl
          rw [(C103_vfi (vfis qs)).1 hok, Outcome.bind_ok] at h
          cases h
          refine ⟨Vprec.Config.C10_limits_invariant (bases qs) b hb, ?_⟩
          show (lastOf VfiReq.inst? (vfis qs)).getD 3 < 4
          cases hl : lastOf VfiReq.inst? (vfis qs) with
          | none => decide
          | some i =>
            obtain ⟨q, -, hq⟩ := List.exists_of_findSome?_eq_some hl
            cases q with
            | instrument w =>
              simp only [VfiReq.inst?, instName] at hq
              split_ifs at hq <;> cases hq <;> decide
            | input w => cases hq
            | output w => cases hq
            | log w => cases hq
      | exit => rw [hb] at h; cases h
      | ub => rw [hb] at h; cases h
    · rw [h2 hq] at h; cases h

/-- **C103, defined.**  No command line of a backend leads to undefined behaviour. -/
theorem C103_defined (sd : Word → Option Bits) (posix : Bool) (k : Kind) (ws : List Word) : configured sd posix k ws ≠ .ub := by
  have mca : ∀ be, argpParse posix (mcaGroups be sd) ws Mca.Config.init ≠ .ub := by
    intro be h
    obtain ⟨h1, h2⟩ := argp_asked (mcaGroups be sd) (Mca.Config.step be sd) (mcaAsks be) posix (mca_good be) (mca_faithful be sd) rfl
      (fun ev rs h r hr c => mca_ne_ub be sd r (mca_cli h r hr) c) ws Mca.Config.init
    by_cases hq : ∃ qs, Asked posix (table [mcaOpts be]) (mcaAsks be) ws qs
    · obtain ⟨qs, hq⟩ := hq
      rw [h1 qs hq] at h
      obtain ⟨os, ss, -, hs⟩ := hq
      refine runAll_ne_ub _ qs (fun q hq c => ?_) _ h
      obtain ⟨ev, rs, he, hr⟩ := asksAll_mem hs q hq
      exact mca_ne_ub be sd q (mca_cli he q hr) c
    · rw [h2 hq] at h; cases h
  cases k with
  | mcaquad => exact bind_ne_ub (mca .quad) (by simp)
  | mcaint => exact bind_ne_ub (mca .int) (by simp)
  | bitmask =>
    refine bind_ne_ub (fun h => ?_) (by simp)
    obtain ⟨h1, h2⟩ := argp_asked bitmaskGroups Bitmask.Config.step bitmaskAsks posix bitmask_good bitmask_faithful rfl
      (fun ev rs h r hr c => bitmask_ne_ub r (bitmask_cli h r hr) c) ws Bitmask.Config.init
    by_cases hq : ∃ qs, Asked posix (table [bitmaskOpts]) bitmaskAsks ws qs
    · obtain ⟨qs, hq⟩ := hq
      rw [h1 qs hq] at h
      obtain ⟨os, ss, -, hs⟩ := hq
      refine runAll_ne_ub _ qs (fun q hq c => ?_) _ h
      obtain ⟨ev, rs, he, hr⟩ := asksAll_mem hs q hq
      exact bitmask_ne_ub q (bitmask_cli he q hr) c
    · rw [h2 hq] at h; cases h
  | cancel =>
    refine bind_ne_ub (fun h => ?_) (by simp)
    obtain ⟨h1, h2⟩ := argp_asked cancelGroups Cancel.Config.step cancelAsks posix cancel_good cancel_faithful rfl
      (fun ev rs h r hr c => cancel_ne_ub r (cancel_cli h r hr) c) ws Cancel.Config.init
    by_cases hq : ∃ qs, Asked posix (table [cancelOpts]) cancelAsks ws qs
    · obtain ⟨qs, hq⟩ := hq
      rw [h1 qs hq] at h
      obtain ⟨os, ss, -, hs⟩ := hq
      refine runAll_ne_ub _ qs (fun q hq c => ?_) _ h
      obtain ⟨ev, rs, he, hr⟩ := asksAll_mem hs q hq
      exact cancel_ne_ub q (cancel_cli he q hr) c
    · rw [h2 hq] at h; cases h
  | ieee =>
    refine bind_ne_ub (fun h => ?_) (by simp)
    obtain ⟨h1, h2⟩ := C103_ieee posix ws ieeeInit
    by_cases hq : ∃ qs, Asked posix (table [ieeeOpts]) ieeeAsks ws qs
    · obtain ⟨qs, hq⟩ := hq
      rw [h1 qs hq] at h; cases h
    · rw [h2 hq] at h; cases h
  | vprec =>
    refine bind_ne_ub (fun h => ?_) (by simp)
    obtain ⟨h1, h2⟩ := argp_asked vprecGroups vstep vprecAsks posix vprec_good vprec_faithful rfl
      (fun ev rs h r hr c => by
        cases r with
        | base r => exact bind_ne_ub (vprec_ne_ub r _) (by simp)
        | vfi r => exact bind_ne_ub (vfi_ne_ub r _) (by simp)) ws vprecInit
    by_cases hq : ∃ qs, Asked posix (table [vprecOpts, vfiOpts]) vprecAsks ws qs
    · obtain ⟨qs, hq⟩ := hq
      rw [h1 qs hq] at h
      refine runAll_ne_ub _ qs (fun q _ c => ?_) _ h
      cases q with
      | base r => exact bind_ne_ub (vprec_ne_ub r _) (by simp)
      | vfi r => exact bind_ne_ub (vfi_ne_ub r _) (by simp)
    · rw [h2 hq] at h; cases h

/-! ## Documented options -/

/-- Words that spell one option each. -/
theorem asked_of_spelt {R : Type} (posix : Bool) (t : List Entry) (asks : Ev → Option (List R)) :
    ∀ (ds : List (List Word × R)), (∀ d ∈ ds, ∃ e a, Spelt t d.1 [.opt e a] ∧ asks (.opt e a) = some [d.2]) →
      ∃ os, Reads posix t (ds.flatMap (·.1)) os [] ∧ asksAll asks os = some (ds.map (·.2))
  | [], _ => ⟨[], .nil, rfl⟩
  | d :: ds, h => by
    obtain ⟨e, a, h1, h2⟩ := h d (by simp)
    obtain ⟨os, h3, h4⟩ := asked_of_spelt posix t asks ds fun d hd => h d (by simp [hd])
    refine ⟨[.opt e a] ++ os, ?_, ?_⟩
    · rw [List.flatMap_cons]; exact .option h1 h3
    · simp [asksAll, h2, h4]

theorem Asked.of_spelt {R : Type} (posix : Bool) (t : List Entry) (asks : Ev → Option (List R)) (ds : List (List Word × R))
    (h : ∀ d ∈ ds, ∃ e a, Spelt t d.1 [.opt e a] ∧ asks (.opt e a) = some [d.2]) :
    Asked posix t asks (ds.flatMap (·.1)) (ds.map (·.2)) := by
  obtain ⟨os, h1, h2⟩ := asked_of_spelt posix t asks ds h
  exact ⟨os, [], h1, by simpa using h2⟩

/-- **C103, MCA, meaning.**  Documented options, each spelt in any of the ways there are (`--name=value`, `--name value`, an unambiguous beginning of
the name, a letter), configure the backend to what they say (`Mca.Config.meant`). -/
theorem C103_mca_meaning (be : Mca.Config.Backend) (sd : Word → Option Bits) (posix : Bool) (ds : List (List Word × Mca.Config.Doc))
    (hd : ∀ d ∈ ds, d.2.Ok be sd)
    (hs : ∀ d ∈ ds, ∃ e a, Spelt (table [mcaOpts be]) d.1 [.opt e a] ∧ mcaAsks be (.opt e a) = some [d.2.req]) :
    argpParse posix (mcaGroups be sd) (ds.flatMap (·.1)) Mca.Config.init = .ok (Mca.Config.meant (ds.map (·.2))) := by
  have h := Asked.of_spelt posix (table [mcaOpts be]) (mcaAsks be) (ds.map fun d => (d.1, d.2.req)) (by
    intro d hd
    obtain ⟨d, hm, rfl⟩ := List.mem_map.1 hd
    exact hs d hm)
  rw [List.map_map, List.flatMap_map] at h
  rw [(C103_mca be sd posix _ _).1 _ h]
  have := Mca.Config.C64_meaning be sd (ds.map (·.2)) (by
    intro d hm
    obtain ⟨d', hm', rfl⟩ := List.mem_map.1 hm
    exact hd d' hm')
  rw [List.map_map] at this
  exact this

/-- **C103, bitmask, meaning.** -/
theorem C103_bitmask_meaning (posix : Bool) (ds : List (List Word × Bitmask.Config.Doc)) (hd : ∀ d ∈ ds, d.2.Ok)
    (hs : ∀ d ∈ ds, ∃ e a, Spelt (table [bitmaskOpts]) d.1 [.opt e a] ∧ bitmaskAsks (.opt e a) = some [d.2.req]) :
    argpParse posix bitmaskGroups (ds.flatMap (·.1)) Bitmask.Config.init = .ok (Bitmask.Config.meant (ds.map (·.2))) := by
  have h := Asked.of_spelt posix (table [bitmaskOpts]) bitmaskAsks (ds.map fun d => (d.1, d.2.req)) (by
    intro d hd
    obtain ⟨d, hm, rfl⟩ := List.mem_map.1 hd
    exact hs d hm)
  rw [List.map_map, List.flatMap_map] at h
  rw [(C103_bitmask posix _ _).1 _ h]
  have := Bitmask.Config.C65_bitmask_meaning (ds.map (·.2)) (by
    intro d hm
    obtain ⟨d', hm', rfl⟩ := List.mem_map.1 hm
    exact hd d' hm')
  rw [List.map_map] at this
  exact this

/-- **C103, cancellation, meaning.** -/
theorem C103_cancel_meaning (posix : Bool) (ds : List (List Word × Cancel.Config.Doc)) (hd : ∀ d ∈ ds, d.2.Ok)
    (hs : ∀ d ∈ ds, ∃ e a, Spelt (table [cancelOpts]) d.1 [.opt e a] ∧ cancelAsks (.opt e a) = some [d.2.req]) :
    argpParse posix cancelGroups (ds.flatMap (·.1)) Cancel.Config.init = .ok (Cancel.Config.meant (ds.map (·.2))) := by
  have h := Asked.of_spelt posix (table [cancelOpts]) cancelAsks (ds.map fun d => (d.1, d.2.req)) (by
    intro d hd
    obtain ⟨d, hm, rfl⟩ := List.mem_map.1 hd
    exact hs d hm)
  rw [List.map_map, List.flatMap_map] at h
  rw [(C103_cancel posix _ _).1 _ h]
  have := Cancel.Config.C65_cancel_meaning (ds.map (·.2)) (by
    intro d hm
    obtain ⟨d', hm', rfl⟩ := List.mem_map.1 hm
    exact hd d' hm')
  rw [List.map_map] at this
  exact this

theorem names_self {t : List Entry} {e : Entry} (h : e ∈ t) : Names t e.opt.name e := ⟨h, Or.inl rfl⟩

/-- `--precision-binary32=n`, `--mode m`, `-f` and the rest exist: any documented option of MCA can be spelt. -/
def docWords : Mca.Config.Doc → List Word
  | .prec32 n => ["--precision-binary32=".toList ++ Vfi.dec n]
  | .prec64 n => ["--precision-binary64=".toList ++ Vfi.dec n]
  | .mode _ t => ["--mode".toList, t]
  | .errMode _ t => ["--error-mode".toList, t]
  | .errExp e => ["--max-abs-error-exponent=".toList ++ Vfi.dec e]
  | .seed v => ["--seed=".toList ++ Vfi.dec v]
  | .daz => ["-d".toList]
  | .ftz => ["--ftz".toList]
  | .sparsity _ t => ["--sparsity=".toList ++ t]

/-- **C103, MCA.**  The documented options can be given, and mean what they say, in any number and order. -/
theorem C103_mca_words (be : Mca.Config.Backend) (sd : Word → Option Bits) (posix : Bool) (ds : List Mca.Config.Doc) (hd : ∀ d ∈ ds, d.Ok be sd) :
    argpParse posix (mcaGroups be sd) (ds.flatMap docWords) Mca.Config.init = .ok (Mca.Config.meant ds) := by
  have h := C103_mca_meaning be sd posix (ds.map fun d => (docWords d, d)) (by
    intro d hm
    obtain ⟨d', hm', rfl⟩ := List.mem_map.1 hm
    exact hd d' hm') (by
    intro d hm
    obtain ⟨d, hm', rfl⟩ := List.mem_map.1 hm
    have hok := hd d hm'
    have val : ∀ (o : Opt) (v : Word), (⟨0, o⟩ : Entry) ∈ table [mcaOpts be] → o.has = .required →
        Spelt (table [mcaOpts be]) ['-' :: '-' :: (o.name ++ '=' :: v)] [.opt ⟨0, o⟩ (some v)] :=
      fun o v hm hh => .value v (names_self hm) (by show o.has ≠ _; rw [hh]; simp)
    cases d with
    | prec32 n => exact ⟨_, _, val optPrec32 (Vfi.dec n) (by cases be <;> decide) rfl, by cases be <;> rfl⟩
    | prec64 n => exact ⟨_, _, val optPrec64 (Vfi.dec n) (by cases be <;> decide) rfl, by cases be <;> rfl⟩
    | mode m t =>
      exact ⟨⟨0, ⟨"mode".toList, 'm'.toNat, .required⟩⟩, some t, .apart (n := "mode".toList) t (names_self (by cases be <;> decide)) rfl, by cases be <;> rfl⟩
    | errMode m t =>
      obtain ⟨rfl, -⟩ := hok
      exact ⟨⟨0, ⟨"error-mode".toList, 'e'.toNat, .required⟩⟩, some t, .apart (n := "error-mode".toList) t (names_self (by decide)) rfl, rfl⟩
    | errExp e =>
      obtain ⟨rfl, -⟩ := hok
      exact ⟨_, _, val ⟨"max-abs-error-exponent".toList, 2, .required⟩ (Vfi.dec e) (by decide) rfl, rfl⟩
    | seed v => exact ⟨_, _, val ⟨"seed".toList, 's'.toNat, .required⟩ (Vfi.dec v) (by cases be <;> decide) rfl, by cases be <;> rfl⟩
    | daz =>
      exact ⟨⟨0, ⟨"daz".toList, 'd'.toNat, .none⟩⟩, none, .letters (cs := ['d']) (by simp)
        (.flag ⟨by cases be <;> decide, rfl, by decide, by decide⟩ rfl .nil), by cases be <;> rfl⟩
    | ftz =>
      exact ⟨⟨0, ⟨"ftz".toList, 'f'.toNat, .none⟩⟩, none, .flag (n := "ftz".toList) (names_self (by cases be <;> decide)) (by simp), by cases be <;> rfl⟩
    | sparsity x t => exact ⟨_, _, val ⟨"sparsity".toList, 'n'.toNat, .required⟩ t (by cases be <;> decide) rfl, by cases be <;> rfl⟩)
  rw [List.map_map, List.flatMap_map] at h
  have e : ds.map ((fun x : List Word × Mca.Config.Doc => x.2) ∘ fun d => (docWords d, d)) = ds := List.map_id ds
  rw [e] at h
  exact h

/-- An abbreviation, a letter with its value, and a cluster. -/
example :
    argpParse false (mcaGroups .quad fun _ => none) ["--precision-binary64=30".toList, "--err".toList, "ABS".toList, "-dfmrr".toList, "--max=-20".toList] Mca.Config.init =
      .ok { Mca.Config.init with prec64 := 30, relErr := false, absErr := true, daz := true, ftz := true, mode := .rr, absErrExp := -20 } := by
  decide +kernel

/-! ## Words that are no options -/

/-- **C103, negation: stray words are taken for a precision.**  `KEY_PREC_B32` is 0, which is `ARGP_KEY_ARG`: one more word that is no option, wherever
it stands, sets the precision of `float` to its value, after all the options. -/
theorem C103_stray_wrong (sd : Word → Option Bits) (posix : Bool) (ws ws' : List Word) (os : List Ev) (ss : List Word) (n : Int)
    (h : Reads posix (table [mcaOpts .quad]) ws os ss) (h' : Reads posix (table [mcaOpts .quad]) ws' os (ss ++ [Vfi.dec n])) (c d : Mca.Config.Cfg)
    (h1 : 0 < n) (h2 : n < 2 ^ 31) (hr : argpParse posix (mcaGroups .quad sd) ws c = .ok d) :
    argpParse posix (mcaGroups .quad sd) ws' c = .ok { d with prec32 := n } := by
  have snoc : ∀ evs, asksAll (mcaAsks .quad) (evs ++ [.word (Vfi.dec n)]) = (asksAll (mcaAsks .quad) evs).map (· ++ [.cliPrec32 (Vfi.dec n)]) := by
    intro evs
    induction evs with
    | nil => rfl
    | cons e es ih =>
      simp only [List.cons_append, asksAll, ih]
      cases mcaAsks .quad e with
      | none => rfl
      | some a => cases asksAll (mcaAsks .quad) es <;> simp
  by_cases hq : ∃ qs, Asked posix (table [mcaOpts .quad]) (mcaAsks .quad) ws qs
  · obtain ⟨qs, os', ss', hR, hA⟩ := hq
    obtain ⟨rfl, rfl⟩ := C103_unique posix (mca_good .quad) ws os' os ss' ss hR h
    rw [(C103_mca .quad sd posix ws c).1 qs ⟨_, _, hR, hA⟩] at hr
    rw [(C103_mca .quad sd posix ws' c).1 (qs ++ [.cliPrec32 (Vfi.dec n)]) ⟨_, _, h', by
      rw [List.map_append, List.map_singleton, ← List.append_assoc, snoc, hA]; rfl⟩]
    rw [Mca.Config.run_snoc, hr, Outcome.bind_ok]
    simp only [Mca.Config.step, Mca.Config.cliPrec32]
    rw [Mca.Config.strtol_dec' n (by omega)]
    simp only [Mca.Config.toInt_self n (by omega)]
    rw [if_neg (by omega)]
    unfold Mca.Config.setPrec32
    rw [if_neg (by omega)]
  · rw [(C103_mca .quad sd posix ws c).2 hq] at hr; cases hr

/-- A user who writes `--ftz 1` for `--ftz`, or a space after a name they did not mean: the float precision is 1, or 10 instead of 24. -/
example :
    argpParse false (mcaGroups .quad fun _ => none) ["--ftz".toList, "1".toList] Mca.Config.init = .ok { Mca.Config.init with ftz := true, prec32 := 1 } ∧
    argpParse false (mcaGroups .quad fun _ => none) ["10".toList, "--mode=rr".toList, "--precision-binary32=24".toList] Mca.Config.init =
      .ok { Mca.Config.init with mode := .rr, prec32 := 10 } ∧
    argpParse false (mcaGroups .int fun _ => none) ["--daz".toList, "1".toList] Mca.Config.init = .exit ∧
    argpParse false bitmaskGroups ["--daz".toList, "1".toList] Bitmask.Config.init = argpParse false bitmaskGroups ["-d".toList, "--precision-binary32=1".toList] Bitmask.Config.init ∧
    argpParse false vprecGroups ["5".toList] vprecInit = argpParse false vprecGroups ["--precision-binary32=5".toList] vprecInit := by
  refine ⟨?_, ?_, ?_, ?_, ?_⟩ <;> decide +kernel

/-- **C103, stray words.**  Cancellation and IEEE refuse them, wherever they stand. -/
theorem C103_stray_refused (posix : Bool) (ws : List Word) :
    (∀ os ss, ss ≠ [] → Reads posix (table [cancelOpts]) ws os ss → ∀ c, argpParse posix cancelGroups ws c = .exit) ∧
    (∀ os ss, ss ≠ [] → Reads posix (table [ieeeOpts]) ws os ss → ∀ c, argpParse posix (ieeeGroups true) ws c = .exit) := by
  have key : ∀ {R : Type} (asks : Ev → Option (List R)), (∀ w, asks (.word w) = none) → ∀ (os : List Ev) (ss : List Word), ss ≠ [] →
      asksAll asks (os ++ ss.map .word) = none := by
    intro R asks hn os ss hs
    induction os with
    | nil =>
      obtain ⟨s, ss, rfl⟩ := List.exists_cons_of_ne_nil hs
      simp [asksAll, hn]
    | cons o os ih =>
      simp only [List.cons_append, asksAll, ih]
      cases asks o <;> rfl
  constructor
  · intro os ss hs hr c
    refine (C103_cancel posix ws c).2 ?_
    rintro ⟨qs, os', ss', hr', hA⟩
    obtain ⟨rfl, rfl⟩ := C103_unique posix cancel_good ws os os' ss ss' hr hr'
    rw [key cancelAsks (fun _ => rfl) os ss hs] at hA; cases hA
  · intro os ss hs hr c
    refine (C103_ieee posix ws c).2 ?_
    rintro ⟨qs, os', ss', hr', hA⟩
    obtain ⟨rfl, rfl⟩ := C103_unique posix ieee_good ws os os' ss ss' hr hr'
    rw [key ieeeAsks (fun _ => rfl) os ss hs] at hA; cases hA

/-- Refused: an unknown name, an ambiguous beginning, an unknown letter, a value missing, a value for a flag. -/
example : ∀ w ∈ ["--rounding=up", "--m=rr", "--precision=3", "-x", "--seed", "--ftz=1", "-s", "-dx"],
    argpParse false (mcaGroups .quad fun _ => none) [w.toList] Mca.Config.init = .exit := by
  decide +kernel

/-! ## `VFC_BACKENDS` -/

theorem loadAll_ok {lib : Word → Option Kind} {sd : Word → Option Bits} {posix : Bool} :
    ∀ (bs : List (Word × Kind × List Word × Ctx)) (acc : List Ctx), bs.length + acc.length ≤ 16 →
      (∀ b ∈ bs, lib b.1 = some b.2.1 ∧ b.2.2.1.length < 255 ∧ configured sd posix b.2.1 b.2.2.1 = .ok b.2.2.2) →
      Wrapper.loadAll (loadBackend lib sd posix) (bs.map fun b => b.1 :: b.2.2.1) acc () = .ok (acc ++ bs.map (·.2.2.2), ())
  | [], acc, _, _ => by simp [Wrapper.loadAll]
  | b :: bs, acc, hl, h => by
    obtain ⟨h1, h2, h3⟩ := h b (by simp)
    simp only [List.length_cons] at hl
    simp only [List.map_cons, Wrapper.loadAll, List.length_cons]
    rw [if_neg (by omega), if_neg (by omega), if_neg (by omega)]
    simp only [loadBackend, h1, h3, Outcome.bind_ok]
    rw [loadAll_ok bs (acc ++ [b.2.2.2]) (by simp; omega) fun b hb => h b (by simp [hb])]
    simp

/-- **C103, the environment.**  Up to sixteen backends written in `VFC_BACKENDS` one after the other, each with its words, are started in that order, each
with the configuration its own words give it. -/
theorem C103_environment (lib : Word → Option Kind) (sd : Word → Option Bits) (posix : Bool) (check : List Ctx → Outcome Unit)
    (bs : List (Word × Kind × List Word × Ctx)) (hne : bs ≠ []) (hl : bs.length ≤ 16)
    (h : ∀ b ∈ bs, lib b.1 = some b.2.1 ∧ b.2.2.1.length < 255 ∧ configured sd posix b.2.1 b.2.2.1 = .ok b.2.2.2)
    (hw : ∀ b ∈ bs, ∀ w ∈ b.1 :: b.2.2.1, w ≠ [] ∧ ∀ c ∈ w, c ≠ ' ' ∧ c ≠ ';' ∧ c ≠ Wrapper.nul) (f : Option (Option (List Char))) :
    Wrapper.vfcInit (loadBackend lib sd posix) check ⟨some (Wrapper.command (bs.map fun b => b.1 :: b.2.2.1)), f⟩ () =
      (check (bs.map (·.2.2.2)) >>= fun _ =>
        .ok (bs.map (·.2.2.2), some (Wrapper.childView (Wrapper.command (bs.map fun b => b.1 :: b.2.2.1))), ())) := by
  have hnul : Wrapper.nul ∉ Wrapper.command (bs.map fun b => b.1 :: b.2.2.1) := by
    have inter : ∀ (d : Char) (ls : List (List Char)) (c : Char), c ∈ List.intercalate [d] ls → c = d ∨ ∃ l ∈ ls, c ∈ l := by
      intro d ls c hc
      induction ls with
      | nil => simp [List.intercalate] at hc
      | cons l ls ih =>
        rcases ls with _ | ⟨l', ls⟩
        · simp [List.intercalate] at hc; exact Or.inr ⟨l, by simp, hc⟩
        · have : List.intercalate [d] (l :: l' :: ls) = l ++ d :: List.intercalate [d] (l' :: ls) := by
            simp [List.intercalate, List.intersperse]
          rw [this, List.mem_append, List.mem_cons] at hc
          rcases hc with hc | hc | hc
          · exact Or.inr ⟨l, by simp, hc⟩
          · exact Or.inl hc
          · rcases ih hc with h | ⟨l'', h1, h2⟩
            · exact Or.inl h
            · exact Or.inr ⟨l'', List.mem_cons_of_mem _ h1, h2⟩
    intro hc
    rcases inter ';' _ _ hc with hc | ⟨l, hm, hc⟩
    · exact absurd hc (by decide)
    · obtain ⟨a, ha, rfl⟩ := List.mem_map.1 hm
      obtain ⟨b, hb, rfl⟩ := List.mem_map.1 ha
      rcases inter ' ' _ _ hc with hc | ⟨w, hm, hc⟩
      · exact absurd hc (by decide)
      · exact ((hw b hb w hm).2 _ hc).2.2 rfl
  rw [Wrapper.C48_start_up _ _ _ _ _ rfl hnul, Wrapper.C48_round_trip _ (by
    intro a ha
    obtain ⟨b, hb, rfl⟩ := List.mem_map.1 ha
    exact ⟨by simp, fun w hm => ⟨(hw b hb w hm).1, fun c hc => ⟨((hw b hb w hm).2 c hc).1, ((hw b hb w hm).2 c hc).2.1⟩⟩⟩),
    loadAll_ok bs [] (by simpa using hl) h, Outcome.bind_ok]
  simp only [List.nil_append]
  rw [if_neg (by simpa using hne)]
  rfl

/-- Two backends. -/
example :
    Wrapper.vfcInit (loadBackend (fun w => if w = "libmca.so".toList then some .mcaquad else if w = "libieee.so".toList then some .ieee else none)
      (fun _ => none) false) (fun _ => .ok ()) ⟨some "libmca.so --mode rr -d;libieee.so --count-op".toList, none⟩ () =
      .ok ([.mca .quad { Mca.Config.init with mode := .rr, daz := true }, .ieee ⟨{}, true⟩], some "libmca.so".toList, ()) := by
  decide +kernel

/-! ## Abbreviations -/

/-- **C103, abbreviations.**  `--m=v` is `--mode=v` for integer MCA, whose only option with this beginning it is, and `--prog=v` changes nothing, for it is the
option `--program-name` that the C library adds; after any option MCA ends at once with `--help` (next example). -/
theorem C103_abbreviated (sd : Word → Option Bits) (posix : Bool) (v : Word) (be : Mca.Config.Backend) (c : Mca.Config.Cfg) :
    argpParse posix (mcaGroups .int sd) ["--m=".toList ++ v] c = argpParse posix (mcaGroups .int sd) ["--mode=".toList ++ v] c ∧
      argpParse posix (mcaGroups .int sd) ["--mode=".toList ++ v] c = Mca.Config.step .int sd c (.cliMode v) ∧
      argpParse posix (mcaGroups be sd) ["--prog=".toList ++ v] c = .ok c := by
  have run1 : ∀ be r, Mca.Config.run be sd [r] c = Mca.Config.step be sd c r := by
    intro be r
    show (Mca.Config.step be sd c r >>= fun c' => Outcome.ok c') = _
    cases Mca.Config.step be sd c r <;> rfl
  have ask : ∀ be u e a qs, Spelt (table [mcaOpts be]) [u] [.opt e a] → mcaAsks be (.opt e a) = some qs →
      argpParse posix (mcaGroups be sd) [u] c = Mca.Config.run be sd qs c := by
    intro be u e a qs h1 h2
    refine (C103_mca be sd posix _ c).1 qs ⟨[.opt e a], [], Reads.option (us := [u]) (es := [.opt e a]) h1 .nil, ?_⟩
    simp [asksAll, h2]
  have m1 := ask .int _ ⟨0, ⟨"mode".toList, 'm'.toNat, .required⟩⟩ _ [.cliMode v] (.value (n := "m".toList) v ⟨by decide, Or.inr (by decide)⟩ (by simp)) rfl
  have m2 := ask .int _ ⟨0, ⟨"mode".toList, 'm'.toNat, .required⟩⟩ _ [.cliMode v] (.value (n := "mode".toList) v ⟨by decide, Or.inl rfl⟩ (by simp)) rfl
  refine ⟨m1.trans m2.symm, m2.trans (run1 _ _), ?_⟩
  have h : Names (table [mcaOpts be]) "prog".toList ⟨1, ⟨"program-name".toList, -2, .required⟩⟩ := by
    cases be <;> exact ⟨by decide, Or.inr (by decide)⟩
  exact ask be _ _ _ [] (.value (n := "prog".toList) v h (by simp)) rfl

/-- `--m` is ambiguous for MCA, which has `--max-abs-error-exponent`, and `--p` for both. -/
example : argpParse false (mcaGroups .int fun _ => none) ["--m=rr".toList] Mca.Config.init = .ok { Mca.Config.init with mode := .rr } ∧
    argpParse false (mcaGroups .quad fun _ => none) ["--m=rr".toList] Mca.Config.init = .exit ∧
    argpParse false (mcaGroups .int fun _ => none) ["--p=rr".toList] Mca.Config.init = .exit ∧
    argpParse false (mcaGroups .quad fun _ => none) (["--mode=rr", "--help"].map String.toList) Mca.Config.init = .exit ∧
    argpParse false (mcaGroups .quad fun _ => none) (["--mode=rr", "--prog", "--help"].map String.toList) Mca.Config.init =
      .ok { Mca.Config.init with mode := .rr } := by
  decide +kernel

end Verif.Cli
